import Verif.Ffmath.EllipticRdLoop

/-!
# The complete elliptic integral of the second kind (C167)
-/

namespace Verif.Ffmath

open Verif F32

theorem rndR {s : Bool} {q : ℚ} {t : ℝ} (hq : (q : ℝ) = t) (h : |t| ≤ 1e30) :
    F32.Finite (F32.rnd s q) ∧ |(val (F32.rnd s q) : ℝ) - t| ≤ |t| / 16777216 + 1e-45 := by
  subst hq
  have h' : |q| ≤ 1e30 := by
    have : ((|q| : ℚ) : ℝ) ≤ ((1e30 : ℚ) : ℝ) := by push_cast; exact h
    exact_mod_cast this
  obtain ⟨f, e⟩ := rnd_err' (s := s) (q := q) (h'.trans (by norm_num))
  refine ⟨f, ?_⟩
  have : ((|val (F32.rnd s q) - q| : ℚ) : ℝ) ≤ ((|q| / 16777216 + 1e-45 : ℚ) : ℝ) := by exact_mod_cast e
  push_cast at this; exact this

theorem near_one_mul {K : Type} [Field K] [LinearOrder K] [IsStrictOrderedRing K] {a b α β γ : K} (ha : |a - 1| ≤ α) (hb : |b - 1| ≤ β)
    (h : α + β + α * β ≤ γ) : |a * b - 1| ≤ γ := by
  have e : a * b - 1 = (a - 1) + (b - 1) + (a - 1) * (b - 1) := by ring
  rw [e]
  refine (abs_add_le _ _).trans (le_trans (add_le_add (abs_add_le _ _) ?_) (le_trans (add_le_add (add_le_add ha hb) le_rfl) h))
  rw [abs_mul]
  exact mul_le_mul ha hb (abs_nonneg _) ((abs_nonneg _).trans ha)

theorem div_abs {a b : BitVec 32} {A B C : ℚ} (fa : F32.Finite a) (fb : F32.Finite b) (ha : |val a| ≤ A) (B0 : 0 < B) (hb : B ≤ |val b|)
    (hC : A / B * (1 + 1e-7) + 1e-45 ≤ C) (hC2 : A / B ≤ 1e30) : F32.Finite (F32.div a b) ∧ |val (F32.div a b)| ≤ C := by
  have hb0 : val b ≠ 0 := by intro h; rw [h, abs_zero] at hb; linarith
  rw [div_fin fa fb hb0]
  have hp : |val a / val b| ≤ A / B := by
    rw [_root_.abs_div]; exact div_le_div₀ ((abs_nonneg _).trans ha) ha B0 hb
  obtain ⟨f, e⟩ := rnd_err' (s := neg a ^^ neg b) (q := val a / val b) (hp.trans (hC2.trans (by norm_num)))
  refine ⟨f, ?_⟩
  have := abs_sub_abs_le_abs_sub (val (F32.rnd (neg a ^^ neg b) (val a / val b))) (val a / val b)
  generalize A / B = P at *
  have := abs_nonneg (val a / val b)
  linarith

theorem add_abs0 {a b : BitVec 32} {A B C : ℚ} (fa : F32.Finite a) (fb : F32.Finite b) (ha : |val a| ≤ A) (hb : |val b| ≤ B)
    (hC : (A + B) * (1 + 1e-7) + 1e-45 ≤ C) (hC2 : A + B ≤ 1e30) : F32.Finite (F32.add a b) ∧ |val (F32.add a b)| ≤ C := by
  have h0 : 0 ≤ A + B := add_nonneg ((abs_nonneg _).trans ha) ((abs_nonneg _).trans hb)
  have := add_absd (m := 0) (A := A + B) (C := C) fa fb (by rw [sub_zero]; exact (abs_add_le _ _).trans (by linarith)) (by rw [abs_zero]; linarith) (by rw [abs_zero]; linarith)
  rwa [sub_zero] at this

theorem sub_abs0 {a b : BitVec 32} {A B C : ℚ} (fa : F32.Finite a) (fb : F32.Finite b) (ha : |val a| ≤ A) (hb : |val b| ≤ B)
    (hC : (A + B) * (1 + 1e-7) + 1e-45 ≤ C) (hC2 : A + B ≤ 1e30) : F32.Finite (F32.sub a b) ∧ |val (F32.sub a b)| ≤ C := by
  have h0 : 0 ≤ A + B := add_nonneg ((abs_nonneg _).trans ha) ((abs_nonneg _).trans hb)
  have := sub_absd (m := 0) (A := A + B) (C := C) fa fb (by rw [sub_zero]; exact (abs_sub _ _).trans (by linarith)) (by rw [abs_zero]; linarith) (by rw [abs_zero]; linarith)
  rwa [sub_zero] at this

/-- The series at the end of `ellint_rd` differs from one by at most 5e-6. -/
theorem rd_series_val {a b c : BitVec 32} (fa : F32.Finite a) (fb : F32.Finite b) (fc : F32.Finite c) (ha : |val a| ≤ 0.00176) (hb : |val b| ≤ 0.00176)
    (hc : |val c| ≤ 0.00176) : F32.Finite (rdSeries a b c) ∧ |val (rdSeries a b c) - 1| ≤ 5e-6 := by
  have k1 : F32.Finite (negate (F32.div (lit 3) (lit 14))) ∧ |val (negate (F32.div (lit 3) (lit 14)))| ≤ 0.2143 := by decide +kernel
  have k2 : F32.Finite (F32.div (lit 1) (lit 6)) ∧ |val (F32.div (lit 1) (lit 6))| ≤ 0.167 := by decide +kernel
  have k3 : F32.Finite (F32.div (lit 9) (lit 22)) ∧ |val (F32.div (lit 9) (lit 22))| ≤ 0.41 := by decide +kernel
  have k4 : F32.Finite (F32.div (lit 3) (lit 26)) ∧ |val (F32.div (lit 3) (lit 26))| ≤ 0.116 := by decide +kernel
  have k5 : F32.Finite (F32.mul (lit 1.5) (F32.div (lit 3) (lit 26))) ∧ |val (F32.mul (lit 1.5) (F32.div (lit 3) (lit 26)))| ≤ 0.18 := by decide +kernel
  have k6 : F32.Finite (lit 6) ∧ |val (lit 6)| ≤ 6 := by decide +kernel
  have k7 : F32.Finite (lit 3) ∧ 3 ≤ |val (lit 3)| := by decide +kernel
  unfold rdSeries
  simp only
  have k8 := k7
  generalize F32.mul (lit 1.5) (F32.div (lit 3) (lit 26)) = c5 at *
  generalize negate (F32.div (lit 3) (lit 14)) = c1 at *
  generalize F32.div (lit 1) (lit 6) = c2 at *
  generalize F32.div (lit 9) (lit 22) = c3 at *
  generalize F32.div (lit 3) (lit 26) = c4 at *
  generalize lit 6 = six at *
  generalize lit 3 = three at *
  have m1 := mul_abs (C := 3.1e-6) fa fb ha hb (by norm_num) (by norm_num)
  generalize F32.mul a b = ea at *
  have m2 := mul_abs (C := 3.1e-6) fc fc hc hc (by norm_num) (by norm_num)
  generalize F32.mul c c = eb at *
  have m3 := sub_abs0 (C := 6.3e-6) m1.1 m2.1 m1.2 m2.2 (by norm_num) (by norm_num)
  generalize F32.sub ea eb = ec at *
  have m4 := mul_abs (C := 1.87e-5) k6.1 m2.1 k6.2 m2.2 (by norm_num) (by norm_num)
  generalize F32.mul six eb = e6 at *
  have m5 := sub_abs0 (C := 2.2e-5) m1.1 m4.1 m1.2 m4.2 (by norm_num) (by norm_num)
  generalize F32.sub ea e6 = ed at *
  have m6 := add_abs0 (C := 2.9e-5) m5.1 m3.1 m5.2 m3.2 (by norm_num) (by norm_num)
  generalize F32.add ed ec = ef0 at *
  have m7 := add_abs0 (C := 3.6e-5) m6.1 m3.1 m6.2 m3.2 (by norm_num) (by norm_num)
  generalize F32.add ef0 ec = ef at *
  -- s1
  have n1 := mul_abs (C := 9.1e-6) k3.1 m5.1 k3.2 m5.2 (by norm_num) (by norm_num)
  generalize F32.mul c3 ed = q1 at *
  have n2 := div_abs (C := 3.1e-6) n1.1 k7.1 n1.2 (by norm_num) k7.2 (by norm_num) (by norm_num)
  generalize F32.div q1 three = q2 at *
  have n3 := add_abs0 (C := 0.21431) k1.1 n2.1 k1.2 n2.2 (by norm_num) (by norm_num)
  generalize F32.add c1 q2 = q3 at *
  have n4 := mul_abs (C := 3.2e-4) k5.1 fc k5.2 hc (by norm_num) (by norm_num)
  generalize F32.mul c5 c = q4 at *
  have n5 := mul_abs (C := 1.2e-8) n4.1 m7.1 n4.2 m7.2 (by norm_num) (by norm_num)
  generalize F32.mul q4 ef = q5 at *
  have n6 := sub_abs0 (C := 0.2144) n3.1 n5.1 n3.2 n5.2 (by norm_num) (by norm_num)
  generalize F32.sub q3 q5 = q6 at *
  have n7 := mul_abs (C := 4.75e-6) m5.1 n6.1 m5.2 n6.2 (by norm_num) (by norm_num)
  generalize F32.mul ed q6 = s1 at *
  -- s2
  have p1 := mul_abs (C := 6.1e-6) k2.1 m7.1 k2.2 m7.2 (by norm_num) (by norm_num)
  generalize F32.mul c2 ef = r1 at *
  have p2 := mul_abs (C := 2.7e-6) k3.1 m3.1 k3.2 m3.2 (by norm_num) (by norm_num)
  generalize F32.mul c3 ec = r2 at *
  have p2' : F32.Finite (negate r2) ∧ |val (negate r2)| ≤ 2.7e-6 := ⟨finite_negate.2 p2.1, by rw [val_negate, abs_neg]; exact p2.2⟩
  generalize negate r2 = r2' at *
  have p3 := mul_abs (C := 2.1e-4) fc k4.1 hc k4.2 (by norm_num) (by norm_num)
  generalize F32.mul c c4 = r3 at *
  have p4 := sub_abs0 (C := 2.2e-4) p2'.1 p3.1 p2'.2 p3.2 (by norm_num) (by norm_num)
  generalize F32.sub r2' r3 = r4 at *
  have p5 := sub_abs0 (C := 2.3e-4) p4.1 m1.1 p4.2 m1.2 (by norm_num) (by norm_num)
  generalize F32.sub r4 ea = r5 at *
  have p6 := mul_abs (C := 4.1e-7) fc p5.1 hc p5.2 (by norm_num) (by norm_num)
  generalize F32.mul c r5 = r6 at *
  have p7 := add_abs0 (C := 6.6e-6) p1.1 p6.1 p1.2 p6.2 (by norm_num) (by norm_num)
  generalize F32.add r1 r6 = r7 at *
  have p8 := mul_abs (C := 1.2e-8) fc p7.1 hc p7.2 (by norm_num) (by norm_num)
  generalize F32.mul c r7 = s2 at *
  have z1 := add_absd (m := 1) (A := 4.75e-6) (C := 4.82e-6) c_one.1 n7.1 (by rw [c_one.2]; simpa using n7.2) (by norm_num [abs_of_neg, abs_of_pos]) (by norm_num [abs_of_neg, abs_of_pos])
  generalize F32.add (lit 1) s1 = t1 at *
  exact add_absd (m := 1) (A := 4.84e-6) z1.1 p8.1 (by
    obtain ⟨a1, a2⟩ := _root_.abs_le.1 z1.2
    obtain ⟨b1, b2⟩ := _root_.abs_le.1 p8.2
    rw [_root_.abs_le]; constructor <;> linarith) (by norm_num [abs_of_neg, abs_of_pos]) (by norm_num [abs_of_neg, abs_of_pos])

theorem rd_tail_float {p r s mu : BitVec 32} (fp : F32.Finite p) (fr : F32.Finite r) (fs : F32.Finite s) (fm : F32.Finite mu)
    (p0 : 1e-9 ≤ val p) (p1 : val p ≤ 1) (rl : 0.5 ≤ val r) (rh : val r ≤ 2000) (s1 : 0.9 ≤ val s) (s2 : val s ≤ 1.1) (mu0 : 1e-6 ≤ val mu) (mu1 : val mu ≤ 2) :
    F32.Finite (F32.div (F32.mul (F32.mul p r) s) mu) ∧ ∃ E : ℚ, |E - 1| ≤ 2e-7 ∧
      val (F32.div (F32.mul (F32.mul p r) s) mu) = val p * val r * val s / val mu * E := by
  have a1 : 1e-9 * 0.5 ≤ val p * val r := mul_le_mul p0 rl (by norm_num) (by linarith)
  have a2 : val p * val r ≤ 1 * 2000 := mul_le_mul p1 rh (by linarith) (by norm_num)
  obtain ⟨f1, ε1, he1, hv1⟩ := mul_eps fp fr (by rw [abs_of_pos (by norm_num at a1; linarith)]; norm_num at a1 ⊢; linarith)
    (by rw [abs_of_pos (by norm_num at a1; linarith)]; norm_num at a2 ⊢; linarith)
  generalize F32.mul p r = q1 at *
  obtain ⟨g1, g1'⟩ := _root_.abs_le.1 he1
  have b1 : 1e-9 * 0.5 * 0.9 ≤ val q1 := by rw [hv1]; exact mul_le_mul a1 (by linarith) (by norm_num) (by norm_num at a1; linarith)
  have b2 : val q1 ≤ 1 * 2000 * 1.1 := by rw [hv1]; exact mul_le_mul a2 (by linarith) (by linarith) (by norm_num)
  have c1 : 1e-9 * 0.5 * 0.9 * 0.9 ≤ val q1 * val s := mul_le_mul b1 s1 (by norm_num) (by norm_num at b1; linarith)
  have c2 : val q1 * val s ≤ 1 * 2000 * 1.1 * 1.1 := mul_le_mul b2 s2 (by linarith) (by norm_num)
  obtain ⟨f2, ε2, he2, hv2⟩ := mul_eps f1 fs (by rw [abs_of_pos (by norm_num at c1; linarith)]; norm_num at c1 ⊢; linarith)
    (by rw [abs_of_pos (by norm_num at c1; linarith)]; norm_num at c2 ⊢; linarith)
  generalize F32.mul q1 s = q2 at *
  obtain ⟨g2, g2'⟩ := _root_.abs_le.1 he2
  have d1 : 1e-9 * 0.5 * 0.9 * 0.9 * 0.9 ≤ val q2 := by rw [hv2]; exact mul_le_mul c1 (by linarith) (by norm_num) (by norm_num at c1; linarith)
  have d2 : val q2 ≤ 1 * 2000 * 1.1 * 1.1 * 1.1 := by rw [hv2]; exact mul_le_mul c2 (by linarith) (by linarith) (by norm_num)
  have mp : 0 < val mu := by linarith
  have d3 : 1e-10 ≤ val q2 / val mu := by rw [le_div_iff₀ mp]; norm_num at d1 ⊢; linarith
  have d4 : val q2 / val mu ≤ 1e10 := by rw [div_le_iff₀ mp]; norm_num at d2 mu0 ⊢; linarith
  obtain ⟨f3, ε3, he3, hv3⟩ := div_eps f2 fm mp.ne' (by rw [abs_of_pos (by linarith)]; linarith) (by rw [abs_of_pos (by linarith)]; linarith)
  obtain ⟨g3, g3'⟩ := _root_.abs_le.1 he3
  refine ⟨f3, (1 + ε1) * (1 + ε2) * (1 + ε3), ?_, by rw [hv3, hv2, hv1]; ring⟩
  have u1 : (1 + ε1) * (1 + ε2) ≤ (1 + 1 / 16777216) * (1 + 1 / 16777216) := mul_le_mul (by linarith) (by linarith) (by linarith) (by norm_num)
  have u2 : (1 - 1 / 16777216) * (1 - 1 / 16777216) ≤ (1 + ε1) * (1 + ε2) := mul_le_mul (by linarith) (by linarith) (by norm_num) (by linarith)
  have u3 : (1 + ε1) * (1 + ε2) * (1 + ε3) ≤ (1 + 1 / 16777216) * (1 + 1 / 16777216) * (1 + 1 / 16777216) :=
    mul_le_mul u1 (by linarith) (by linarith) (by norm_num)
  have u4 : (1 - 1 / 16777216) * (1 - 1 / 16777216) * (1 - 1 / 16777216) ≤ (1 + ε1) * (1 + ε2) * (1 + ε3) :=
    mul_le_mul u2 (by linarith) (by norm_num) (by norm_num at u2; linarith)
  generalize (1 + ε1) * (1 + ε2) * (1 + ε3) = E at *
  rw [_root_.abs_le]; constructor <;> linarith

theorem rd_tail_lin {W κ V T F : ℝ} (hW0 : 0 < W) (hk3 : |κ - 1| ≤ 0.001917) (h1 : W ≤ V) (h2 : V ≤ W * (1 + 8e-6)) (h3 : W ≤ 0.003503 * T)
    (h4 : T ≤ F * 1.0011) (h5 : F ≤ 1.001 * T) (h6 : T ≤ 334) (h7 : 0.7 ≤ T) : |W * κ - V| ≤ 6.9e-6 * F ∧ V ≤ 1 * F ∧ F ≤ 1000 ∧ 0.5 ≤ F := by
  obtain ⟨w1, w2⟩ := _root_.abs_le.1 hk3
  have u1 : W * κ ≤ W * (1 + 0.001917) := mul_le_mul_of_nonneg_left (by linarith) hW0.le
  have u2 : W * (1 - 0.001917) ≤ W * κ := mul_le_mul_of_nonneg_left (by linarith) hW0.le
  generalize W * κ = U at *
  refine ⟨?_, by linarith, by linarith, by linarith⟩
  rw [_root_.abs_le]; constructor <;> linarith

theorem rd_tail_real {x y z p q3 r mu : BitVec 32} {M k : ℚ} (f3 : F32.Finite q3) (m0 : 1e-5 ≤ M) (m1 : M ≤ 1.9) (dx : |val x - M| ≤ 0.00175 * M)
    (dy : |val y - M| ≤ 0.00175 * M) (dz : |val z - M| ≤ 0.00175 * M) (hsum : val x + val y + 3 * val z = 5 * M)
    (e1 : -(2.5e-7 * M) ≤ val mu - M) (e2 : val mu - M ≤ 2.5e-7 * M) (r0 : 0 < val r) (rl : (1 - 0.0019) ^ 2 ≤ val mu * val r ^ 2)
    (rh : val mu * val r ^ 2 ≤ (1 + 0.0019) ^ 2) (hv' : val q3 * M = val p * val r * k) (k1 : -6e-6 ≤ k - 1) (k2 : k - 1 ≤ 6e-6)
    (p0 : 1e-9 ≤ val p) (pM : val p ≤ 0.003503 * M) :
    F32.Finite q3 ∧ |(val q3 : ℝ) - val p * rdR (val x) (val y) (val z)| ≤ 6.9e-6 * rfR (val x) (val y) (val z) ∧
      val p * rdR (val x) (val y) (val z) ≤ 1 * rfR (val x) (val y) (val z) ∧ rfR (val x) (val y) (val z) ≤ 1000 ∧ 0.5 ≤ rfR (val x) (val y) (val z) := by
  have hM0 : (0 : ℝ) < (M : ℝ) := by exact_mod_cast (by linarith : 0 < M)
  have hM5 : (1e-5 : ℝ) ≤ (M : ℝ) := by
    have : ((1e-5 : ℚ) : ℝ) ≤ (M : ℝ) := by exact_mod_cast m0
    push_cast at this; linarith
  have hM2 : (M : ℝ) ≤ 1.9 := by
    have : (M : ℝ) ≤ ((1.9 : ℚ) : ℝ) := by exact_mod_cast m1
    push_cast at this; linarith
  have cast3 : ∀ w : ℚ, |w - M| ≤ 0.00175 * M → |(w : ℝ) - (M : ℝ)| ≤ 0.00175 * (M : ℝ) := by
    intro w hw
    have : ((|w - M| : ℚ) : ℝ) ≤ ((0.00175 * M : ℚ) : ℝ) := by exact_mod_cast hw
    push_cast at this; exact this
  have hnear := rd_near (x := (val x : ℝ)) (y := (val y : ℝ)) (z := (val z : ℝ)) (m := (M : ℝ)) (e := 0.00175) hM0 (by norm_num) (by exact_mod_cast hsum)
    (cast3 _ dx) (cast3 _ dy) (cast3 _ dz)
  have S0 : 0 < Real.sqrt (M : ℝ) := Real.sqrt_pos.2 hM0
  have SS := Real.sq_sqrt hM0.le
  -- the integral of the first kind
  obtain ⟨xr1, xr2⟩ := _root_.abs_le.1 (cast3 _ dx)
  obtain ⟨yr1, yr2⟩ := _root_.abs_le.1 (cast3 _ dy)
  obtain ⟨zr1, zr2⟩ := _root_.abs_le.1 (cast3 _ dz)
  have hF1 : 0.999 / Real.sqrt (M : ℝ) ≤ rfR (val x) (val y) (val z) := by
    have h1 := rf_anti (x := (val x : ℝ)) (y := (val y : ℝ)) (z := (val z : ℝ)) (x' := 1.00175 * M) (y' := 1.00175 * M) (z' := 1.00175 * M)
      ⟨by linarith, by linarith, by linarith, by linarith, by linarith, by linarith⟩ (by linarith) (by linarith) (by linarith)
    rw [rf_diag (by positivity)] at h1
    refine le_trans ?_ h1
    have hq : Real.sqrt (1.00175 * M) ≤ 1.001 * Real.sqrt M := by
      refine Real.sqrt_le_iff.2 ⟨by positivity, ?_⟩
      rw [mul_pow, SS]; exact mul_le_mul_of_nonneg_right (by norm_num) hM0.le
    have hq0 : 0 < Real.sqrt (1.00175 * M) := Real.sqrt_pos.2 (by positivity)
    rw [div_le_div_iff₀ S0 hq0]
    linarith
  have hF2 : rfR (val x) (val y) (val z) ≤ 1.001 / Real.sqrt (M : ℝ) := by
    have h1 := rf_anti (x' := (val x : ℝ)) (y' := (val y : ℝ)) (z' := (val z : ℝ)) (x := 0.99825 * M) (y := 0.99825 * M) (z := 0.99825 * M)
      ⟨by linarith, by linarith, by linarith, by linarith, by linarith, by linarith⟩ (by linarith) (by linarith) (by linarith)
    rw [rf_diag (by positivity)] at h1
    refine h1.trans ?_
    have hq : 0.9991 * Real.sqrt M ≤ Real.sqrt (0.99825 * M) := by
      refine Real.le_sqrt_of_sq_le ?_
      rw [mul_pow, SS]; exact mul_le_mul_of_nonneg_right (by norm_num) hM0.le
    have hq0 : 0 < Real.sqrt (0.99825 * M) := Real.sqrt_pos.2 (by positivity)
    rw [div_le_div_iff₀ hq0 S0]
    linarith
  have Slo : 3e-3 ≤ Real.sqrt (M : ℝ) := Real.le_sqrt_of_sq_le (by norm_num at hM5 ⊢; linarith)
  have Shi : Real.sqrt (M : ℝ) ≤ 1.4 := Real.sqrt_le_iff.2 ⟨by norm_num, by norm_num at hM2 ⊢; linarith⟩
  generalize rfR (val x) (val y) (val z) = F at *
  generalize rdR (val x) (val y) (val z) = D at *
  -- the reciprocal root
  have rS : |(val r : ℝ) * Real.sqrt M - 1| ≤ 0.00191 := by
    have r0' : (0 : ℝ) < (val r : ℝ) := by exact_mod_cast r0
    have u1 : val r ^ 2 * M ≤ (1 + 0.00191) ^ 2 := by
      have : M ≤ val mu * (1 + 2.6e-7) := by linarith
      have : val r ^ 2 * M ≤ val r ^ 2 * (val mu * (1 + 2.6e-7)) := mul_le_mul_of_nonneg_left this (by positivity)
      linarith
    have u2 : (1 - 0.00191) ^ 2 ≤ val r ^ 2 * M := by
      have : val mu * (1 - 2.6e-7) ≤ M := by linarith
      have : val r ^ 2 * (val mu * (1 - 2.6e-7)) ≤ val r ^ 2 * M := mul_le_mul_of_nonneg_left this (by positivity)
      linarith
    have u1' : ((val r : ℝ) * Real.sqrt M) ^ 2 ≤ (1 + 0.00191) ^ 2 := by
      rw [mul_pow, SS]
      have : ((val r ^ 2 * M : ℚ) : ℝ) ≤ (((1 + 0.00191) ^ 2 : ℚ) : ℝ) := by exact_mod_cast u1
      push_cast at this; exact this
    have u2' : (1 - 0.00191) ^ 2 ≤ ((val r : ℝ) * Real.sqrt M) ^ 2 := by
      rw [mul_pow, SS]
      have : (((1 - 0.00191) ^ 2 : ℚ) : ℝ) ≤ ((val r ^ 2 * M : ℚ) : ℝ) := by exact_mod_cast u2
      push_cast at this; exact this
    have v1 := abs_le_of_sq_le_sq u1' (by norm_num)
    have v2 := abs_le_of_sq_le_sq u2' (by positivity)
    rw [_root_.abs_le] at v1 v2 ⊢
    constructor <;> linarith
  have k1' : (1 - 6e-6 : ℝ) ≤ (k : ℝ) := by
    have : ((1 - 6e-6 : ℚ) : ℝ) ≤ (k : ℝ) := by exact_mod_cast (by linarith : 1 - 6e-6 ≤ k)
    push_cast at this; exact this
  have k2' : (k : ℝ) ≤ 1 + 6e-6 := by
    have : (k : ℝ) ≤ ((1 + 6e-6 : ℚ) : ℝ) := by exact_mod_cast (by linarith : k ≤ 1 + 6e-6)
    push_cast at this; exact this
  have hvr : (val q3 : ℝ) * (M : ℝ) = (val p : ℝ) * (val r : ℝ) * (k : ℝ) := by exact_mod_cast hv'
  have pr0 : (0 : ℝ) < (val p : ℝ) := by exact_mod_cast (by linarith : 0 < val p)
  have pMr : (val p : ℝ) ≤ 0.003503 * (M : ℝ) := by
    have : (val p : ℝ) ≤ ((0.003503 * M : ℚ) : ℝ) := by exact_mod_cast pM
    push_cast at this; exact this
  generalize Real.sqrt (M : ℝ) = S at *
  have MS : 0 < (M : ℝ) * S := by positivity
  have hq3 : (val q3 : ℝ) = (val p : ℝ) / ((M : ℝ) * S) * ((val r : ℝ) * S * (k : ℝ)) := by
    rw [div_mul_eq_mul_div, eq_div_iff MS.ne']
    linear_combination S * hvr
  have hW : (val p : ℝ) / ((M : ℝ) * S) ≤ 0.003503 / S := by
    rw [div_le_div_iff₀ MS S0, ← mul_assoc]
    exact mul_le_mul_of_nonneg_right pMr S0.le
  have hW0 : 0 < (val p : ℝ) / ((M : ℝ) * S) := by positivity
  have hD1 : (val p : ℝ) / ((M : ℝ) * S) ≤ (val p : ℝ) * D := by
    calc (val p : ℝ) / ((M : ℝ) * S) = (val p : ℝ) * (1 / ((M : ℝ) * S)) := by ring
      _ ≤ _ := mul_le_mul_of_nonneg_left hnear.1 pr0.le
  have hD2 : (val p : ℝ) * D ≤ (val p : ℝ) / ((M : ℝ) * S) * (1 + 8e-6) := by
    calc (val p : ℝ) * D ≤ (val p : ℝ) * ((1 + 2.6 * 0.00175 ^ 2) / ((M : ℝ) * S)) := mul_le_mul_of_nonneg_left hnear.2 pr0.le
      _ = (val p : ℝ) / ((M : ℝ) * S) * (1 + 2.6 * 0.00175 ^ 2) := by ring
      _ ≤ _ := mul_le_mul_of_nonneg_left (by norm_num) hW0.le
  have hF1' : 1 / S ≤ F * 1.0011 := by
    have e : 0.999 / S = 0.999 * (1 / S) := by ring
    rw [e] at hF1
    have : 0 < 1 / S := by positivity
    generalize 1 / S = T at *
    linarith
  have hF2' : F ≤ 1.001 * (1 / S) := by
    have e : 1.001 / S = 1.001 * (1 / S) := by ring
    rw [e] at hF2; exact hF2
  have hT1 : 1 / S ≤ 334 := by rw [div_le_iff₀ S0]; linarith
  have hT2 : 0.7 ≤ 1 / S := by rw [le_div_iff₀ S0]; linarith
  have hW' : (val p : ℝ) / ((M : ℝ) * S) ≤ 0.003503 * (1 / S) := by
    have e : 0.003503 / S = 0.003503 * (1 / S) := by ring
    rw [e] at hW; exact hW
  obtain ⟨t1, t2⟩ := _root_.abs_le.1 rS
  have hk3 : |(val r : ℝ) * S * (k : ℝ) - 1| ≤ 0.001917 := by
    exact near_one_mul (α := 0.00191) (β := 6e-6) rS (_root_.abs_le.2 ⟨by linarith, by linarith⟩) (by norm_num)
  rw [hq3]
  exact ⟨f3, rd_tail_lin hW0 hk3 hD1 hD2 hW' hF1' hF2' hT1 hT2⟩

/-- The last term of `ellint_rd`. -/
theorem rd_tail {i : ℕ} (hi : i ≤ 14) {x y z σ p : BitVec 32} (h : RDClose x y z) (hs : RDState i x z σ p) :
    let mu := rdMu x y z
    let q := F32.div (F32.mul (F32.mul p (rSqrt mu)) (rdSeries (rdDev mu x) (rdDev mu y) (rdDev mu z))) mu
    F32.Finite q ∧ |(val q : ℝ) - val p * rdR (val x) (val y) (val z)| ≤ 6.9e-6 * rfR (val x) (val y) (val z) ∧
      val p * rdR (val x) (val y) (val z) ≤ 1 * rfR (val x) (val y) (val z) ∧ rfR (val x) (val y) (val z) ≤ 1000 ∧ 0.5 ≤ rfR (val x) (val y) (val z) := by
  obtain ⟨fx, fy, fz, m0, m1, dx, dy, dz⟩ := h
  simp only
  obtain ⟨x1, x2⟩ := _root_.abs_le.1 dx
  obtain ⟨y1, y2⟩ := _root_.abs_le.1 dy
  obtain ⟨z1, z2⟩ := _root_.abs_le.1 dz
  obtain ⟨fm, em⟩ := rdMu_val fx fy fz (by linarith) (by linarith) (by linarith) (by linarith) (by linarith) (by linarith) m0
  generalize rdMu x y z = mu at *
  obtain ⟨e1, e2⟩ := _root_.abs_le.1 em
  have hsum : val x + val y + 3 * val z = 5 * ((val x + val y + 3 * val z) / 5) := by ring
  generalize (val x + val y + 3 * val z) / 5 = M at *
  have mu0 : 0 < val mu := by linarith
  have dv : ∀ w : BitVec 32, F32.Finite w → |val w - M| ≤ 0.00175 * M → F32.Finite (rdDev mu w) ∧ |val (rdDev mu w)| ≤ 0.00176 := by
    intro w fw hw
    obtain ⟨w1, w2⟩ := _root_.abs_le.1 hw
    obtain ⟨f, e⟩ := rdDev_val fm fw (by linarith) (by linarith) (by linarith) (by linarith)
    refine ⟨f, ?_⟩
    have h3 : |1 - val w / val mu| ≤ 0.001752 := by
      rw [show 1 - val w / val mu = (val mu - val w) / val mu by field_simp, abs_div, abs_of_pos mu0, div_le_iff₀ mu0]
      rw [_root_.abs_le]; constructor <;> linarith
    have := abs_sub_abs_le_abs_sub (val (rdDev mu w)) (1 - val w / val mu)
    linarith
  obtain ⟨gx, bx⟩ := dv x fx dx
  obtain ⟨gy, by'⟩ := dv y fy dy
  obtain ⟨gz, bz⟩ := dv z fz dz
  obtain ⟨fs, es⟩ := rd_series_val gx gy gz bx by' bz
  generalize rdSeries (rdDev mu x) (rdDev mu y) (rdDev mu z) = s at *
  obtain ⟨s1, s2⟩ := _root_.abs_le.1 es
  obtain ⟨fr, r0, rl, rh⟩ := rSqrt_sq fm (le_trans (by norm_num) (by linarith : (1e-6 : ℚ) ≤ val mu))
  generalize rSqrt mu = r at *
  have iq : (i : ℚ) ≤ 14 := by exact_mod_cast hi
  have pM : val p ≤ 0.003503 * M := by
    have := hs.pz
    have hz0 : 0 ≤ val z := by linarith
    have : (i : ℚ) * 1.3e-7 * val z ≤ 14 * 1.3e-7 * val z := by gcongr
    linarith
  have p1 : val p ≤ 1 := by rw [hs.hp]; exact pow_le_one₀ (by norm_num) (by norm_num)
  have p0 : 1e-9 ≤ val p := by
    rw [hs.hp]
    calc (1e-9 : ℚ) ≤ (1 / 4) ^ 14 := by norm_num
      _ ≤ _ := pow_le_pow_of_le_one (by norm_num) (by norm_num) hi
  have fp := hs.fp
  clear hs
  have rl' : 0.5 ≤ val r := by
    by_contra hc
    push Not at hc
    have : val r ^ 2 ≤ 0.5 ^ 2 := pow_le_pow_left₀ r0.le hc.le 2
    have : val mu * val r ^ 2 ≤ 1.91 * 0.5 ^ 2 := mul_le_mul (by linarith) this (by positivity) (by norm_num)
    norm_num at this rl; linarith
  have rh' : val r ≤ 2000 := by
    by_contra hc
    push Not at hc
    have : 2000 ^ 2 ≤ val r ^ 2 := pow_le_pow_left₀ (by norm_num) hc.le 2
    have : 9e-6 * 2000 ^ 2 ≤ val mu * val r ^ 2 := mul_le_mul (by linarith) this (by positivity) (by linarith)
    norm_num at this rh; linarith
  obtain ⟨f3, E, hE, hv⟩ := rd_tail_float fp fr fs fm p0 p1 rl' rh' (by linarith) (by linarith) (by linarith) (by linarith)
  generalize F32.div (F32.mul (F32.mul p r) s) mu = q3 at *
  obtain ⟨E1, E2⟩ := _root_.abs_le.1 hE
  -- the factor of the value `p/(M*S)` other than the reciprocal root
  have hk : |M / val mu * val s * E - 1| ≤ 6e-6 := by
    have k1 : |M / val mu - 1| ≤ 2.6e-7 := by
      rw [_root_.abs_le]
      constructor
      · rw [neg_le_sub_iff_le_add, ← sub_le_iff_le_add, le_div_iff₀ mu0]; linarith
      · rw [sub_le_iff_le_add, div_le_iff₀ mu0]; linarith
    exact near_one_mul (near_one_mul (γ := 5.3e-6) k1 es (by norm_num)) hE (by norm_num)
  have hv' : val q3 * M = val p * val r * (M / val mu * val s * E) := by rw [hv]; field_simp
  generalize M / val mu * val s * E = k at *
  obtain ⟨k1, k2⟩ := _root_.abs_le.1 hk
  exact rd_tail_real f3 m0 m1 dx dy dz hsum e1 e2 r0 rl rh hv' k1 k2 p0 pM

end Verif.Ffmath
