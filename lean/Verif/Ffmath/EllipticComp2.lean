import Verif.Ffmath.EllipticSecond

/-!
# Accuracy of `comp_ellint_2` (C167)
-/

namespace Verif.Ffmath

open Verif F32 MeasureTheory

theorem rd_le_rf {y : ℝ} (hy : 0 < y) : rdR 0 y 1 ≤ 3 * rfR 0 y 1 := by
  have h : RDDom 0 y 1 := ⟨le_rfl, hy.le, by linarith, by norm_num⟩
  have : ∫ t in Set.Ioi (0 : ℝ), rdI 0 y 1 t ≤ ∫ t in Set.Ioi (0 : ℝ), rfI 0 y 1 t := by
    refine setIntegral_mono_on (rdI_integrable h) (rfI_integrable h.rf) measurableSet_Ioi (fun t ht => ?_)
    simp only [Set.mem_Ioi] at ht
    unfold rdI
    exact div_le_self (rfI_nonneg _ _ _ _) (by linarith)
  unfold rdR rfR
  linarith

theorem rf_le {y : ℝ} (hy : 1e-7 ≤ y) (hy1 : y ≤ 1) : rfR 0 y 1 ≤ 1e4 := by
  have y0 : 0 < y := by norm_num at hy; linarith
  have h1 : RFDom 0 y y := ⟨le_rfl, y0.le, y0.le, by linarith, by linarith, by linarith⟩
  have h2 : RFDom 0 1 1 := ⟨le_rfl, by norm_num, by norm_num, by norm_num, by norm_num, by norm_num⟩
  have a := rf_anti h1 (x' := 0) (y' := y) (z' := 1) le_rfl le_rfl hy1
  have b := rf_scale h2 y0
  rw [mul_zero, mul_one] at b
  rw [b] at a
  have c := rf_legendre (k := 0) (by simp)
  simp only [ne_eq, OfNat.ofNat_ne_zero, not_false_eq_true, zero_pow, sub_zero, zero_mul, Real.sqrt_one, div_one, intervalIntegral.integral_const, smul_eq_mul, mul_one] at c
  refine a.trans ?_
  have q : 3e-4 ≤ Real.sqrt y := Real.le_sqrt_of_sq_le (by norm_num at hy ⊢; linarith)
  rw [c, div_le_iff₀ (by norm_num at q; linarith)]
  have := Real.pi_le_four
  norm_num at q ⊢; linarith

/-- The Legendre form of the complete integral of the second kind. -/
theorem e_legendre {k : ℝ} (hk : |k| < 1) :
    ∫ θ in (0 : ℝ)..(Real.pi / 2), √(1 - k ^ 2 * Real.sin θ ^ 2) = rfR 0 (1 - k ^ 2) 1 - k ^ 2 / 3 * rdR 0 (1 - k ^ 2) 1 := by
  have hk2 : k ^ 2 < 1 := by rw [← sq_abs]; nlinarith [abs_nonneg k]
  have pos : ∀ θ, 0 < 1 - k ^ 2 * Real.sin θ ^ 2 := fun θ => by nlinarith [Real.sin_sq_le_one θ, sq_nonneg k, sq_nonneg (Real.sin θ)]
  have sp : ∀ θ, 0 < √(1 - k ^ 2 * Real.sin θ ^ 2) := fun θ => Real.sqrt_pos.2 (pos θ)
  rw [rf_legendre hk, rd_legendre hk, ← intervalIntegral.integral_const_mul, ← intervalIntegral.integral_sub]
  · refine intervalIntegral.integral_congr (fun θ _ => ?_)
    have := sp θ
    have e := Real.mul_self_sqrt (pos θ).le
    field_simp
    linear_combination e
  · exact (Continuous.div continuous_const (by fun_prop) (fun θ => (sp θ).ne')).intervalIntegrable _ _
  · exact (continuous_const.mul (Continuous.div (by fun_prop) (by fun_prop) (fun θ => (sp θ).ne'))).intervalIntegrable _ _

theorem e_cont {k l : ℝ} (hk : |k| < 1) (hl : |l| < 1) {d : ℝ} (hd : |k ^ 2 - l ^ 2| ≤ d) :
    |(∫ θ in (0 : ℝ)..(Real.pi / 2), √(1 - k ^ 2 * Real.sin θ ^ 2)) - ∫ θ in (0 : ℝ)..(Real.pi / 2), √(1 - l ^ 2 * Real.sin θ ^ 2)| ≤ d * rfR 0 (1 - l ^ 2) 1 := by
  have hk2 : k ^ 2 < 1 := by rw [← sq_abs]; nlinarith [abs_nonneg k]
  have hl2 : l ^ 2 < 1 := by rw [← sq_abs]; nlinarith [abs_nonneg l]
  have pos : ∀ k : ℝ, k ^ 2 < 1 → ∀ θ, 0 < 1 - k ^ 2 * Real.sin θ ^ 2 := fun k hk θ => by
    nlinarith [Real.sin_sq_le_one θ, sq_nonneg k, sq_nonneg (Real.sin θ)]
  have sp : ∀ θ, 0 < √(1 - l ^ 2 * Real.sin θ ^ 2) := fun θ => Real.sqrt_pos.2 (pos l hl2 θ)
  have ci : ∀ k : ℝ, Continuous fun θ : ℝ => √(1 - k ^ 2 * Real.sin θ ^ 2) := fun k => by fun_prop
  rw [rf_legendre hl, ← intervalIntegral.integral_sub ((ci k).intervalIntegrable _ _) ((ci l).intervalIntegrable _ _), ← intervalIntegral.integral_const_mul]
  refine (intervalIntegral.abs_integral_le_integral_abs (by positivity)).trans ?_
  refine intervalIntegral.integral_mono_on (by positivity) (((ci k).sub (ci l)).abs.intervalIntegrable _ _)
    ((continuous_const.mul (Continuous.div continuous_const (ci l) (fun θ => (sp θ).ne'))).intervalIntegrable _ _) (fun θ _ => ?_)
  have a0 := Real.sqrt_nonneg (1 - k ^ 2 * Real.sin θ ^ 2)
  have b0 := sp θ
  have ea := Real.mul_self_sqrt (pos k hk2 θ).le
  have eb := Real.mul_self_sqrt (pos l hl2 θ).le
  have hs1 := Real.sin_sq_le_one θ
  have hs0 := sq_nonneg (Real.sin θ)
  generalize √(1 - k ^ 2 * Real.sin θ ^ 2) = a at *
  generalize √(1 - l ^ 2 * Real.sin θ ^ 2) = b at *
  rw [mul_one_div, le_div_iff₀ b0]
  have e : (a - b) * (a + b) = (l ^ 2 - k ^ 2) * Real.sin θ ^ 2 := by linear_combination ea - eb
  have h1 : |a - b| * (a + b) ≤ d := by
    rw [← abs_of_nonneg (by linarith : 0 ≤ a + b), ← abs_mul, e, abs_mul, abs_of_nonneg hs0, abs_sub_comm]
    calc |k ^ 2 - l ^ 2| * Real.sin θ ^ 2 ≤ |k ^ 2 - l ^ 2| * 1 := mul_le_mul_of_nonneg_left hs1 (abs_nonneg _)
      _ ≤ d := by rw [mul_one]; exact hd
  have h2 : |a - b| * b ≤ |a - b| * (a + b) := mul_le_mul_of_nonneg_left (by linarith) (abs_nonneg _)
  linarith

theorem rdlim_val : F32.Finite (lit 4.103335708781587555782386855921935e-26) ∧ val (lit 4.103335708781587555782386855921935e-26) ≤ 1e-25 := by decide +kernel

theorem rd_combine {F R F' T V q r t3 : ℝ} {σ : ℝ} (hF : 0.5 ≤ F') (σ0 : 0 ≤ σ) (V0 : 0 ≤ V) (hT : T = 3 * σ + V) (hq : |q - V| ≤ 6.9e-6 * F')
    (ht : |t3 - 3 * σ| ≤ 3 * σ / 16777216 + 1e-45) (hr : |r - (t3 + q)| ≤ |t3 + q| / 16777216 + 1e-45)
    (hFF : F' ≤ F * (1 + 4.9e-6)) (T1 : R * (1 - 6.8e-5) ≤ T) (T2 : T ≤ R * (1 + 1.4e-5)) (hR : 0 < R) : |r - R| ≤ 6.9e-5 * R + 7.1e-6 * F := by
  obtain ⟨a1, a2⟩ := _root_.abs_le.1 hq
  obtain ⟨b1, b2⟩ := _root_.abs_le.1 ht
  have hs : |t3 + q| ≤ 1.001 * T + 7e-6 * F' := by rw [_root_.abs_le]; constructor <;> norm_num at * <;> linarith
  obtain ⟨c1, c2⟩ := _root_.abs_le.1 hr
  generalize |t3 + q| = w at *
  rw [_root_.abs_le]; constructor <;> norm_num at * <;> linarith

/-- **`ellint_rd( 0, y, 1 )` is Carlson's integral to 7e-5 and a small multiple of the integral of the first kind.** -/
theorem ellintRd_accuracy {y : BitVec 32} (fy : F32.Finite y) (y1 : 1e-7 ≤ val y) (y2 : val y ≤ 1) :
    F32.Finite (ellintRd (lit 0) y (lit 1)) ∧
    |(val (ellintRd (lit 0) y (lit 1)) : ℝ) - rdR 0 (val y) 1| ≤ 6.9e-5 * rdR 0 (val y) 1 + 7.1e-6 * rfR 0 (val y) 1 := by
  obtain ⟨f1, v1⟩ := one_val
  obtain ⟨f0, v0⟩ := zero_val
  have e1 : ((val (lit 1) : ℚ) : ℝ) = 1 := by rw [v1]; norm_num
  have e0 : ((val (lit 0) : ℚ) : ℝ) = 0 := by rw [v0]; norm_num
  have hx : SRange (lit 0) := ⟨f0, .inl v0, by rw [v0]; norm_num⟩
  have hy : SRange y := ⟨fy, .inr (by linarith), by linarith⟩
  have hz : SRange (lit 1) := ⟨f1, .inr (by rw [v1]; norm_num), by rw [v1]; norm_num⟩
  have hguard : ¬ (F32.lt (lit 0) (lit 0) = true ∨ F32.lt y (lit 0) = true ∨ F32.lt (F32.add (lit 0) y) (lit 4.103335708781587555782386855921935e-26) = true ∨
      F32.lt (lit 1) (lit 4.103335708781587555782386855921935e-26) = true) := by
    rintro (h | h | h | h)
    · revert h; decide +kernel
    · rw [lt_fin fy f0, v0] at h
      have := of_decide_eq_true h
      linarith
    · obtain ⟨f, ε, he, hv⟩ := add_eps f0 fy (by rw [v0, zero_add, abs_of_pos (by linarith)]; linarith) (by rw [v0, zero_add, abs_of_pos (by linarith)]; linarith)
      rw [lt_fin f rdlim_val.1, hv, v0, zero_add] at h
      have h2 := of_decide_eq_true h
      obtain ⟨a, -⟩ := _root_.abs_le.1 he
      have : val y * (1 / 2) ≤ val y * (1 + ε) := mul_le_mul_of_nonneg_left (by linarith) (by linarith)
      have := rdlim_val.2
      norm_num at *; linarith
    · revert h; decide +kernel
  have y0r : (0 : ℝ) < (val y : ℝ) := by exact_mod_cast (by linarith : 0 < val y)
  have hd : RDDom (val (lit 0)) (val y) (val (lit 1)) := by rw [e0, e1]; exact ⟨le_rfl, y0r.le, by linarith, by norm_num⟩
  obtain ⟨hl, m, hm⟩ := rf_first hx hy (by rw [v0]; norm_num) (by linarith) (by rw [v0]; linarith)
  have hs0 : RDState 0 (lit 0) (lit 1) (lit 0) (lit 1) := ⟨f0, v0.ge, by rw [v0]; norm_num, f1, by rw [v1]; norm_num, by rw [v1, v0]; norm_num⟩
  have hnt : ¬ rdTest (lit 0) y (lit 1) = true := by
    intro ht
    have := ((rd_test f0 fy f1 v0.ge (by linarith) (by rw [v1]; norm_num) (by rw [v0]; norm_num) (by linarith) (by rw [v1]; norm_num) (by rw [v0, v1]; linarith)).1 ht).dx
    rw [v0, v1, zero_sub, zero_add, abs_neg, abs_of_pos (by linarith)] at this
    linarith
  have hrf := rf_step hx hy hz hd.rf (by linarith)
  obtain ⟨-, -, -, -, w2⟩ := hrf
  obtain ⟨hs1, t1, t2⟩ := rd_state_step (by norm_num) hs0 hx hy hz (by rw [v1]; norm_num) hd (by linarith)
  obtain ⟨i, x', y', z', σ, p, e, hi, hc, hst, q, r1, r2⟩ := rd_loop 11 98 1 m _ _ _ _ _ (by norm_num) (by norm_num) hm hs1
  have hRp := rd_pos hd
  have hFp := rf_pos hd.rf
  rw [e0, e1] at t1 t2 w2 hRp hFp
  rw [mul_zero, zero_add, one_mul] at t1 t2
  have eq : ellintRd (lit 0) y (lit 1) = F32.add (F32.mul (lit 3) σ)
      (F32.div (F32.mul (F32.mul p (rSqrt (rdMu x' y' z'))) (rdSeries (rdDev (rdMu x' y' z') x') (rdDev (rdMu x' y' z') y') (rdDev (rdMu x' y' z') z'))) (rdMu x' y' z')) := by
    unfold ellintRd
    simp only
    rw [if_neg hguard, rdLoop_succ _ _ _ _ _ _ hnt, e]
    rfl
  rw [eq]
  obtain ⟨ft, b1, b2, b3, b4⟩ := rd_tail (by omega) hc hst
  generalize F32.div (F32.mul (F32.mul p (rSqrt (rdMu x' y' z'))) (rdSeries (rdDev (rdMu x' y' z') x') (rdDev (rdMu x' y' z') y') (rdDev (rdMu x' y' z') z'))) (rdMu x' y' z') = tl at *
  have p0 : (0 : ℝ) ≤ (val p : ℝ) := by
    have : 0 ≤ val p := by rw [hst.hp]; positivity
    exact_mod_cast this
  have V0 : 0 ≤ (val p : ℝ) * rdR (val x') (val y') (val z') := by
    refine mul_nonneg p0 (rd_pos ?_).le
    have := hc.m0
    obtain ⟨a1, -⟩ := _root_.abs_le.1 hc.dx
    obtain ⟨a2, -⟩ := _root_.abs_le.1 hc.dy
    obtain ⟨a3, -⟩ := _root_.abs_le.1 hc.dz
    have g1 : (0 : ℝ) < (val x' : ℝ) := by exact_mod_cast (by linarith : 0 < val x')
    have g2 : (0 : ℝ) < (val y' : ℝ) := by exact_mod_cast (by linarith : 0 < val y')
    have g3 : (0 : ℝ) < (val z' : ℝ) := by exact_mod_cast (by linarith : 0 < val z')
    exact ⟨g1.le, g2.le, by linarith, g3⟩
  have σ0 : (0 : ℝ) ≤ (val σ : ℝ) := by exact_mod_cast hst.s0
  have σ1 : (val σ : ℝ) ≤ 1e9 := by
    have h1 := hst.s1
    have h2 : (i : ℚ) ≤ 14 := by exact_mod_cast (by omega : i ≤ 14)
    have : val σ ≤ 1e9 := by linarith
    have : (val σ : ℝ) ≤ ((1e9 : ℚ) : ℝ) := by exact_mod_cast this
    push_cast at this; exact this
  obtain ⟨f3, e3⟩ := three_const
  rw [mul_fin f3 hst.fs]
  obtain ⟨g1, h1⟩ := rndR (s := neg (lit 3) ^^ neg σ) (q := val (lit 3) * val σ) (t := 3 * (val σ : ℝ)) (by rw [e3]; push_cast; ring)
    (by rw [abs_of_nonneg (by linarith)]; norm_num at σ1 ⊢; linarith)
  rw [abs_of_nonneg (by linarith : 0 ≤ 3 * (val σ : ℝ))] at h1
  generalize F32.rnd (neg (lit 3) ^^ neg σ) (val (lit 3) * val σ) = t3 at *
  rw [add_fin g1 ft]
  obtain ⟨g2, h2⟩ := rndR (s := neg t3 && neg tl) (q := val t3 + val tl) (t := (val t3 : ℝ) + (val tl : ℝ)) (by push_cast; ring)
    (by
      obtain ⟨a1, a2⟩ := _root_.abs_le.1 h1
      obtain ⟨c1, c2⟩ := _root_.abs_le.1 b1
      rw [_root_.abs_le]; constructor <;> norm_num at * <;> linarith)
  generalize F32.rnd (neg t3 && neg tl) (val t3 + val tl) = r at *
  refine ⟨g2, rd_combine (F' := rfR (val x') (val y') (val z')) (σ := (val σ : ℝ)) b4 σ0 V0 rfl b1 h1 h2 ?_ ?_ ?_ hRp⟩
  · refine q.trans ?_
    refine (mul_le_mul_of_nonneg_right w2 (by norm_num)).trans ?_
    rw [mul_assoc]
    exact mul_le_mul_of_nonneg_left (by norm_num) hFp.le
  · refine le_trans ?_ r1
    refine le_trans ?_ (mul_le_mul_of_nonneg_right t1 (by norm_num))
    rw [mul_assoc]
    exact mul_le_mul_of_nonneg_left (by norm_num) hRp.le
  · refine r2.trans ((mul_le_mul_of_nonneg_right t2 (by norm_num)).trans ?_)
    rw [mul_assoc]
    exact mul_le_mul_of_nonneg_left (by norm_num) hRp.le

theorem third_real : F32.Finite (F32.div (lit 1) (lit 3)) ∧ |(val (F32.div (lit 1) (lit 3)) : ℝ) - 1 / 3| ≤ 1e-8 := by
  obtain ⟨f, e⟩ := third_const
  refine ⟨f, ?_⟩
  have : ((|val (F32.div (lit 1) (lit 3)) - 1 / 3| : ℚ) : ℝ) ≤ ((1e-8 : ℚ) : ℝ) := by exact_mod_cast e
  push_cast at this; exact this

theorem comp2_real {F R r D κ c m m2 o : ℝ} (hF : 0.5 ≤ F) (hR0 : 0 ≤ R) (hR : R ≤ 3 * F) (r1 : F * (1 - 3.02e-5) ≤ r) (r2 : r ≤ F * (1 + 7e-6))
    (hD : |D - R| ≤ 6.9e-5 * R + 7.1e-6 * F) (κ0 : 0 ≤ κ) (κ1 : κ ≤ 1) (hc : |c - 1 / 3| ≤ 1e-8) (hm : |m - c * κ| ≤ |c * κ| / 16777216 + 1e-45)
    (hm2 : |m2 - m * D| ≤ |m * D| / 16777216 + 1e-45) (ho : |o - (r - m2)| ≤ |r - m2| / 16777216 + 1e-45) :
    |o - (F - κ / 3 * R)| ≤ 1.04e-4 * F := by
  obtain ⟨c1, c2⟩ := _root_.abs_le.1 hc
  have u0 : 0 ≤ c * κ := mul_nonneg (by norm_num at c1; linarith) κ0
  have u1 : |c * κ - κ / 3| ≤ 1e-8 := by
    rw [show c * κ - κ / 3 = (c - 1 / 3) * κ by ring, abs_mul, abs_of_nonneg κ0]
    calc |c - 1 / 3| * κ ≤ 1e-8 * 1 := mul_le_mul hc κ1 κ0 (by norm_num)
      _ = 1e-8 := by norm_num
  rw [abs_of_nonneg u0] at hm
  obtain ⟨u2, u3⟩ := _root_.abs_le.1 u1
  obtain ⟨m1, m1'⟩ := _root_.abs_le.1 hm
  have w1 : |m - κ / 3| ≤ 3.1e-8 := by rw [_root_.abs_le]; constructor <;> norm_num at * <;> linarith
  obtain ⟨d1, d2⟩ := _root_.abs_le.1 hD
  have hD2 : |D - R| ≤ 2.142e-4 * F := by norm_num at *; linarith
  have hDa : |D| ≤ 3.001 * F := by
    rw [_root_.abs_le]; constructor <;> norm_num at * <;> linarith
  have w2 : |m * D - κ / 3 * R| ≤ 7.15e-5 * F := by
    rw [show m * D - κ / 3 * R = (m - κ / 3) * D + κ / 3 * (D - R) by ring]
    refine (abs_add_le _ _).trans ?_
    rw [abs_mul, abs_mul, abs_of_nonneg (by linarith : 0 ≤ κ / 3)]
    have a := mul_le_mul w1 hDa (abs_nonneg _) (by norm_num)
    have b : κ / 3 * |D - R| ≤ 1 / 3 * (2.142e-4 * F) := mul_le_mul (by linarith) hD2 (abs_nonneg _) (by norm_num)
    norm_num at *; linarith
  have w3 : 0 ≤ κ / 3 * R := mul_nonneg (by linarith) hR0
  have w4 : κ / 3 * R ≤ F := by
    calc κ / 3 * R ≤ 1 / 3 * (3 * F) := mul_le_mul (by linarith) hR hR0 (by norm_num)
      _ = F := by ring
  generalize κ / 3 * R = W at *
  generalize m * D = U at *
  obtain ⟨x1, x2⟩ := _root_.abs_le.1 w2
  have w5 : |U| ≤ 1.001 * F := by rw [_root_.abs_le]; constructor <;> norm_num at * <;> linarith
  generalize |U| = u at *
  obtain ⟨y1, y2⟩ := _root_.abs_le.1 hm2
  have w6 : |r - m2| ≤ 1.01 * F := by rw [_root_.abs_le]; constructor <;> norm_num at * <;> linarith
  generalize |r - m2| = v at *
  obtain ⟨z1, z2⟩ := _root_.abs_le.1 ho
  rw [_root_.abs_le]; constructor <;> norm_num at * <;> linarith

theorem comp2_float {r D κ c : BitVec 32} {F R : ℝ} (ff : F32.Finite r) (fd : F32.Finite D) (fκ : F32.Finite κ) (fc : F32.Finite c)
    (hF0 : 0.5 ≤ F) (hF1 : F ≤ 1e4) (hR0 : 0 ≤ R) (hR : R ≤ 3 * F) (g1 : F * (1 - 3.02e-5) ≤ (val r : ℝ)) (g2 : (val r : ℝ) ≤ F * (1 + 7e-6))
    (hd : |(val D : ℝ) - R| ≤ 6.9e-5 * R + 7.1e-6 * F) (κ0 : 0 ≤ (val κ : ℝ)) (κ1 : (val κ : ℝ) ≤ 1) (ec : |(val c : ℝ) - 1 / 3| ≤ 1e-8) :
    F32.Finite (F32.sub r (F32.mul (F32.mul c κ) D)) ∧ |(val (F32.sub r (F32.mul (F32.mul c κ) D)) : ℝ) - (F - val κ / 3 * R)| ≤ 1.04e-4 * F := by
  obtain ⟨c1, c2⟩ := _root_.abs_le.1 ec
  have hcκ : |(val c : ℝ) * (val κ : ℝ)| ≤ 1 := by
    rw [abs_mul]
    calc |(val c : ℝ)| * |(val κ : ℝ)| ≤ 1 * 1 := mul_le_mul (by rw [_root_.abs_le]; constructor <;> norm_num at * <;> linarith)
          (by rw [abs_of_nonneg κ0]; exact κ1) (abs_nonneg _) (by norm_num)
      _ = 1 := one_mul _
  rw [mul_fin fc fκ]
  obtain ⟨fm, em⟩ := rndR (s := neg c ^^ neg κ) (q := val c * val κ) (t := (val c : ℝ) * (val κ : ℝ)) (by push_cast; ring) (hcκ.trans (by norm_num))
  generalize F32.rnd (neg c ^^ neg κ) (val c * val κ) = m at *
  have hm1 : |(val m : ℝ)| ≤ 2 := by
    have := abs_sub_abs_le_abs_sub (val m : ℝ) ((val c : ℝ) * (val κ : ℝ))
    norm_num at *; linarith
  have hDa : |(val D : ℝ)| ≤ 1e5 := by
    have := abs_sub_abs_le_abs_sub (val D : ℝ) R
    rw [abs_of_nonneg hR0] at this
    norm_num at *; linarith
  have hmD : |(val m : ℝ) * (val D : ℝ)| ≤ 2e5 := by
    rw [abs_mul]
    calc |(val m : ℝ)| * |(val D : ℝ)| ≤ 2 * 1e5 := mul_le_mul hm1 hDa (abs_nonneg _) (by norm_num)
      _ = 2e5 := by norm_num
  rw [mul_fin fm fd]
  obtain ⟨fm2, em2⟩ := rndR (s := neg m ^^ neg D) (q := val m * val D) (t := (val m : ℝ) * (val D : ℝ)) (by push_cast; ring) (hmD.trans (by norm_num))
  generalize F32.rnd (neg m ^^ neg D) (val m * val D) = m2 at *
  rw [sub_fin ff fm2]
  obtain ⟨fo, eo⟩ := rndR (s := neg r && !neg m2) (q := val r - val m2) (t := (val r : ℝ) - (val m2 : ℝ)) (by push_cast; ring)
    (by
      have := abs_sub_abs_le_abs_sub (val m2 : ℝ) ((val m : ℝ) * (val D : ℝ))
      have h3 := abs_sub (val r : ℝ) (val m2 : ℝ)
      have h4 : |(val r : ℝ)| ≤ 2e4 := by rw [_root_.abs_le]; constructor <;> norm_num at * <;> linarith
      norm_num at *; linarith)
  generalize F32.rnd (neg r && !neg m2) (val r - val m2) = o at *
  exact ⟨fo, comp2_real hF0 hR0 hR g1 g2 hd κ0 κ1 ec em em2 eo⟩

/-- **C167, accuracy of the complete elliptic integral of the second kind.** For every float `k` strictly between -1 and 1 the library's value
is a finite number within `1.6e-4` times the integral of the first kind of the integral of the second kind. -/
theorem C167_comp_ellint_2 {k : BitVec 32} (fk : F32.Finite k) (hk : |val k| < 1) :
    let K := ∫ θ in (0 : ℝ)..(Real.pi / 2), 1 / √(1 - (val k : ℝ) ^ 2 * Real.sin θ ^ 2)
    let E := ∫ θ in (0 : ℝ)..(Real.pi / 2), √(1 - (val k : ℝ) ^ 2 * Real.sin θ ^ 2)
    F32.Finite (comp_ellint_2 k) ∧ |(val (comp_ellint_2 k) : ℝ) - E| ≤ 1.6e-4 * K := by
  simp only
  obtain ⟨fy, y1, y2, ey⟩ := comp_arg fk hk
  have hkr : |((val k : ℚ) : ℝ)| < 1 := by exact_mod_cast hk
  have hkm : |val k| ≤ 1 - 1 / 16777216 := by
    have h1 := below_one (w := absolute k) (by rw [absolute_val]; exact hk)
    rwa [absolute_val] at h1
  have kq : 1.19e-7 ≤ 1 - val k ^ 2 := by
    rw [← sq_abs]
    have : |val k| ^ 2 ≤ (1 - 1 / 16777216) ^ 2 := pow_le_pow_left₀ (abs_nonneg _) hkm 2
    linarith
  have kr : (1.19e-7 : ℝ) ≤ 1 - (val k : ℝ) ^ 2 := by
    have : ((1.19e-7 : ℚ) : ℝ) ≤ ((1 - val k ^ 2 : ℚ) : ℝ) := by exact_mod_cast kq
    push_cast at this; exact this
  have eyr : |(val (F32.sub (lit 1) (F32.mul k k)) : ℝ) - (1 - (val k : ℝ) ^ 2)| ≤ 6.1e-8 := by
    have : ((|val (F32.sub (lit 1) (F32.mul k k)) - (1 - val k ^ 2)| : ℚ) : ℝ) ≤ ((6.1e-8 : ℚ) : ℝ) := by exact_mod_cast ey
    push_cast at this; exact this
  obtain ⟨f1, v1⟩ := one_val
  -- the square
  have k0 : 0 ≤ val k * val k := mul_self_nonneg _
  have k1 : val k * val k ≤ 1 := by rw [← pow_two]; norm_num at kq; linarith
  have hmul := mul_fin fk fk
  obtain ⟨fq, eq⟩ := rnd_err' (s := neg k ^^ neg k) (q := val k * val k) (by rw [abs_of_nonneg k0]; linarith)
  rw [← hmul, abs_of_nonneg k0] at eq
  rw [← hmul] at fq
  have q0 : 0 ≤ val (F32.mul k k) := by
    rw [hmul, ← zero_val.2]
    exact le_rnd zero_val.1 (by rw [zero_val.2]; exact k0)
  have q1 : val (F32.mul k k) ≤ 1 := by
    rw [hmul]; exact (rnd_le f1 (by rw [v1]; exact k1)).trans v1.le
  have eqr : |(val (F32.mul k k) : ℝ) - (val k : ℝ) ^ 2| ≤ 6.1e-8 := by
    have h1 : |val (F32.mul k k) - val k ^ 2| ≤ 6.1e-8 := by rw [pow_two]; norm_num at *; linarith
    have : ((|val (F32.mul k k) - val k ^ 2| : ℚ) : ℝ) ≤ ((6.1e-8 : ℚ) : ℝ) := by exact_mod_cast h1
    push_cast at this; exact this
  have heq : comp_ellint_2 k = F32.sub (ellintRf (lit 0) (F32.sub (lit 1) (F32.mul k k)) (lit 1))
      (F32.mul (F32.mul (F32.div (lit 1) (lit 3)) (F32.mul k k)) (ellintRd (lit 0) (F32.sub (lit 1) (F32.mul k k)) (lit 1))) := by
    unfold comp_ellint_2
    rw [if_neg, if_neg]
    · intro h
      unfold isEqual isEqualTol at h
      have lt : F32.Finite (absolute (lit 1.175494351e-38)) ∧ val (absolute (lit 1.175494351e-38)) ≤ 1e-10 := by decide +kernel
      obtain ⟨fs, es⟩ := rnd_err' (s := neg (lit 1) && !neg (absolute k)) (q := val (lit 1) - val (absolute k))
        (by rw [v1, absolute_val, abs_of_pos (by linarith)]; linarith [abs_nonneg (val k)])
      rw [← sub_fin f1 (absolute_finite.2 fk), v1, absolute_val, abs_of_pos (by linarith : 0 < 1 - |val k|)] at es
      rw [← sub_fin f1 (absolute_finite.2 fk)] at fs
      rw [le_fin (absolute_finite.2 fs) lt.1, absolute_val] at h
      have h3 := of_decide_eq_true h
      have h4 := le_abs_self (val (F32.sub (lit 1) (absolute k)))
      obtain ⟨a1, -⟩ := _root_.abs_le.1 es
      have h5 := lt.2
      norm_num at *; linarith
    · rintro (h | h)
      · exact fk.notNaN h
      · rw [lt_fin f1 (absolute_finite.2 fk), absolute_val, v1] at h
        have := of_decide_eq_true h
        linarith
  rw [heq]
  obtain ⟨z1, z2⟩ := zero_val
  obtain ⟨ff, g1, g2⟩ := ellintRf_accuracy (x := lit 0) (y := F32.sub (lit 1) (F32.mul k k)) ⟨z1, .inl z2, by rw [z2]; norm_num⟩ ⟨fy, .inr (by linarith), by linarith⟩
    (by rw [z2]; norm_num) (by linarith) (by rw [z2]; linarith)
  have z3 : ((val (lit 0) : ℚ) : ℝ) = 0 := by rw [z2]; norm_num
  rw [z3] at g1 g2
  obtain ⟨fd, hd⟩ := ellintRd_accuracy fy y1 y2
  have y1r : (1e-7 : ℝ) ≤ (val (F32.sub (lit 1) (F32.mul k k)) : ℝ) := by
    have : ((1e-7 : ℚ) : ℝ) ≤ (val (F32.sub (lit 1) (F32.mul k k)) : ℝ) := by exact_mod_cast y1
    push_cast at this; exact this
  have y2r : (val (F32.sub (lit 1) (F32.mul k k)) : ℝ) ≤ 1 := by exact_mod_cast y2
  obtain ⟨-, s2⟩ := rf_second (by linarith) eyr (by linarith)
  have hp : 0 < rfR 0 (1 - (val k : ℝ) ^ 2) 1 := rf_pos ⟨le_rfl, by linarith, by norm_num, by linarith, by norm_num, by linarith⟩
  rw [← rf_legendre hkr]
  generalize ellintRf (lit 0) (F32.sub (lit 1) (F32.mul k k)) (lit 1) = r at *
  generalize ellintRd (lit 0) (F32.sub (lit 1) (F32.mul k k)) (lit 1) = D at *
  generalize F32.sub (lit 1) (F32.mul k k) = y at *
  generalize F32.mul k k = κ at *
  -- the modulus of the rounded argument
  obtain ⟨l, hl0, hl⟩ : ∃ l : ℝ, 0 ≤ l ∧ l ^ 2 = 1 - (val y : ℝ) := ⟨√(1 - (val y : ℝ)), Real.sqrt_nonneg _, Real.sq_sqrt (by linarith)⟩
  have hl1 : |l| < 1 := by
    rw [abs_of_nonneg hl0]
    by_contra hc
    push Not at hc
    norm_num at y1r
    nlinarith
  have hly : 1 - l ^ 2 = (val y : ℝ) := by rw [hl]; ring
  have hE := e_cont hkr hl1 (d := 6.1e-8) (by rw [hl, show (val k : ℝ) ^ 2 - (1 - (val y : ℝ)) = (val y : ℝ) - (1 - (val k : ℝ) ^ 2) by ring]; exact eyr)
  have hE2 := e_legendre hl1
  rw [hE2, hly, hl] at hE
  have hF0 : 0.5 ≤ rfR 0 (val y) 1 := by
    have h1 : RFDom 0 (val y) 1 := ⟨le_rfl, by linarith, by norm_num, by linarith, by norm_num, by linarith⟩
    have h2 := rf_anti h1 (x' := 1) (y' := 1) (z' := 1) (by norm_num) y2r le_rfl
    rw [rf_diag (by norm_num), Real.sqrt_one] at h2
    norm_num at h2 ⊢; linarith
  have hF1 := rf_le y1r y2r
  have hR := rd_le_rf (y := (val y : ℝ)) (by linarith)
  have hR0 := rd_pos (⟨le_rfl, by linarith, by linarith, by norm_num⟩ : RDDom 0 (val y) 1)
  have κ0 : (0 : ℝ) ≤ (val κ : ℝ) := by exact_mod_cast q0
  have κ1 : (val κ : ℝ) ≤ 1 := by exact_mod_cast q1
  obtain ⟨fc, ec⟩ := third_real
  generalize F32.div (lit 1) (lit 3) = c at *
  generalize rfR 0 (val y) 1 = F at *
  generalize rdR 0 (val y) 1 = R at *
  generalize rfR 0 (1 - (val k : ℝ) ^ 2) 1 = G at *
  generalize (∫ θ in (0 : ℝ)..(Real.pi / 2), √(1 - (val k : ℝ) ^ 2 * Real.sin θ ^ 2)) = E at *
  obtain ⟨fo, hmain⟩ := comp2_float ff fd fq fc hF0 hF1 hR0.le hR g1 g2 hd κ0 κ1 ec
  refine ⟨fo, ?_⟩
  generalize F32.sub r (F32.mul (F32.mul c κ) D) = o at *
  have hκ : |(val κ : ℝ) / 3 * R - (1 - (val y : ℝ)) / 3 * R| ≤ 1.3e-7 * F := by
    rw [← sub_mul, abs_mul, abs_of_pos hR0]
    have h1 : |(val κ : ℝ) / 3 - (1 - (val y : ℝ)) / 3| ≤ 1.25e-7 / 3 := by
      obtain ⟨a1, a2⟩ := _root_.abs_le.1 eqr
      obtain ⟨b1, b2⟩ := _root_.abs_le.1 eyr
      rw [_root_.abs_le]; constructor <;> norm_num at * <;> linarith
    have := mul_le_mul h1 hR hR0.le (by norm_num)
    norm_num at *; linarith
  have hw : 6.1e-8 / (1 - (val k : ℝ) ^ 2) ≤ 0.513 := by
    rw [div_le_iff₀ (by linarith)]; norm_num at kr ⊢; linarith
  have hFG : F ≤ G * 1.47 := by
    refine s2.trans (mul_le_mul_of_nonneg_left ?_ hp.le)
    generalize 6.1e-8 / (1 - (val k : ℝ) ^ 2) = u at *
    norm_num at hw ⊢; linarith
  obtain ⟨a1, a2⟩ := _root_.abs_le.1 hmain
  obtain ⟨b1, b2⟩ := _root_.abs_le.1 hκ
  obtain ⟨d1, d2⟩ := _root_.abs_le.1 hE
  generalize (val κ : ℝ) / 3 * R = W1 at *
  generalize (1 - (val y : ℝ)) / 3 * R = W2 at *
  rw [_root_.abs_le]; constructor <;> norm_num at a1 a2 b1 b2 d1 d2 hFG ⊢ <;> linarith

/-- The hypotheses are met: the modulus 0.5. -/
example : F32.Finite (comp_ellint_2 (lit 0.5)) := (C167_comp_ellint_2 (k := lit 0.5) (by decide +kernel) (by decide +kernel)).1

end Verif.Ffmath
