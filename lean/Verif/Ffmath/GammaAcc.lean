import Verif.Ffmath.GammaCore

/-!
# Accuracy of `tgamma` for positive arguments (C151)

IEEE binary32 arithmetic against the gamma function of the real numbers.
-/

namespace Verif.Ffmath

open Verif Verif.F32

/-! ## Below 12 -/

/-- The rational function on `[1, 2]`, as computed. -/
theorem core_rel {z : BitVec 32} (fz : F32.Finite z) (h0 : 0 ≤ val z) (h1 : val z ≤ 1) :
    Near (gammaCore z) (Real.Gamma (val z + 1)) (8e-7 * Real.Gamma (val z + 1)) ∧
    0.87 ≤ Real.Gamma (val z + 1) ∧ Real.Gamma (val z + 1) ≤ 1.13 := by
  have r0 : (0 : ℝ) ≤ (val z : ℝ) := by exact_mod_cast h0
  have r1 : (val z : ℝ) ≤ 1 := by exact_mod_cast h1
  have n := core_near fz h0 h1
  have c := core_gamma r0 r1
  obtain ⟨u1, u2⟩ := gU_ratio r0 r1
  have g : 0 < Real.Gamma ((val z : ℝ) + 1) := Real.Gamma_pos_of_pos (by linarith)
  generalize Real.Gamma ((val z : ℝ) + 1) = G at *
  generalize peval gU (val z) / peval gQ (val z) = R at *
  obtain ⟨f, e⟩ := n
  rw [abs_le] at c e
  norm_num at c e u1 u2
  have g1 : 0.87 ≤ G := by norm_num; linarith
  refine ⟨⟨f, ?_⟩, g1, by norm_num; linarith⟩
  rw [abs_le]
  norm_num at g1 ⊢
  constructor <;> linarith

theorem rel_mul {g y : BitVec 32} {G e e' : ℝ} (n : Near g G (e * G)) (fy : F32.Finite y) (hG : 0.5 ≤ G) (hy : 1 ≤ (val y : ℝ)) (he : 0 ≤ e)
    (hb : G * val y ≤ 1e37) (h : e + 1.0001 / 16777216 ≤ e') (hs : e ≤ 1e-5) : Near (mul g y) (val y * G) (e' * (val y * G)) := by
  have hp : 0.5 ≤ G * val y := by nlinarith
  have := Near.mul (e' := e' * (val y * G)) G (val y) (e * (G * val y)) ((1 + e) * (G * val y)) n (Near.self fy)
    (by rw [abs_of_nonneg (by norm_num at hG; linarith)]) (by rw [abs_of_nonneg (by linarith)]) (by linarith)
    (by rw [abs_of_nonneg (by norm_num at hp; linarith)]; linarith) (by norm_num at hb ⊢; nlinarith)
    (by
      have e1 : (1 + e) * (G * val y) / 16777216 ≤ 1.00001 * (G * val y) / 16777216 := by
        have : (1 + e) ≤ 1.00001 := by norm_num at hs ⊢; linarith
        gcongr
      have e2 : (e + 1.0001 / 16777216) * (G * val y) ≤ e' * (G * val y) := by
        apply mul_le_mul_of_nonneg_right h; norm_num at hp; linarith
      norm_num at e1 e2 hp ⊢
      linarith)
  rwa [mul_comm G] at this

/-- The loop of the functional equation. -/
theorem loop_rel {x y : BitVec 32} (hx : F32.Finite x) (h2 : val x < 12) (N : ℕ) (hN : N ≤ 10) (hy : F32.Finite y) (e : val y = val x - N) (h1 : 1 ≤ val y)
    (hy2 : val y < 2) {r : BitVec 32} (hr : Near r (Real.Gamma (val y)) (8e-7 * Real.Gamma (val y))) (hg : 0.87 ≤ Real.Gamma (val y))
    (hg2 : Real.Gamma (val y) ≤ 1.13) :
    ∀ j : ℕ, j ≤ N → Near (gammaLoop j (r, y)).1 (Real.Gamma (val y + j)) ((8e-7 + 6e-8 * j) * Real.Gamma (val y + j)) ∧
      0.87 ≤ Real.Gamma (val y + j) ∧ Real.Gamma (val y + j) ≤ 1.13 * 12 ^ j := by
  have hyr : (1 : ℝ) ≤ (val y : ℝ) := by exact_mod_cast h1
  have hyr2 : (val y : ℝ) < 2 := by exact_mod_cast hy2
  intro j
  induction j with
  | zero => intro _; simp only [Nat.cast_zero, add_zero, mul_zero, pow_zero, mul_one]; exact ⟨hr, hg, hg2⟩
  | succ j ih =>
    intro hj
    obtain ⟨n, g1, g2⟩ := ih (by omega)
    obtain ⟨f, v⟩ := gammaLoop_snd hx (by linarith) N hy e (by linarith) r j (by omega)
    have hjr : (j : ℝ) ≤ 9 := by exact_mod_cast (by omega : j ≤ 9)
    have hj0 : (0 : ℝ) ≤ j := Nat.cast_nonneg _
    have vr : (val (gammaLoop j (r, y)).2 : ℝ) = val y + j := by rw [v]; push_cast; rfl
    have hs : Real.Gamma (val y + (j + 1 : ℕ)) = (val y + j) * Real.Gamma (val y + j) := by
      have := Real.Gamma_add_one (s := (val y : ℝ) + j) (by positivity)
      rw [← this]; congr 1; push_cast; ring
    have b12 : (12 : ℝ) ^ j ≤ 12 ^ 9 := pow_le_pow_right₀ (by norm_num) (by omega)
    rw [hs, gammaLoop_succ]
    have p12 : (0 : ℝ) < 12 ^ j := by positivity
    have hb : Real.Gamma (val y + j) * (val y + j) ≤ 1.13 * 12 ^ j * 12 := by
      apply mul_le_mul g2 (by linarith) (by linarith) (by positivity)
    refine ⟨?_, ?_, ?_⟩
    · have := rel_mul (e' := 8e-7 + 6e-8 * (j + 1 : ℕ)) n f (by norm_num at g1 ⊢; linarith) (by rw [vr]; linarith) (by positivity)
        (by rw [vr]; norm_num at hb b12 ⊢; linarith) (by push_cast; norm_num; linarith) (by norm_num; linarith)
      rw [vr] at this
      exact this
    · norm_num at g1 ⊢
      nlinarith
    · rw [pow_succ]; linarith

theorem tiny_near {x : ℝ} (h0 : 0 < x) (h1 : x ≤ 1 / 8388608) : |Real.Gamma x - 1 / x| ≤ 7.1e-7 * Real.Gamma x := by
  have hg : Real.Gamma x = Real.Gamma (x + 1) / x := by rw [Real.Gamma_add_one h0.ne']; field_simp
  have c := core_gamma h0.le (h1.trans (by norm_num))
  have q := gQ_pos h0.le (h1.trans (by norm_num))
  have gp : 0 < Real.Gamma (x + 1) := Real.Gamma_pos_of_pos (by linarith)
  have hR : |peval gU x / peval gQ x - 1| ≤ 3e-7 := by
    have q0 : 0 < peval gQ x := by linarith
    have e : peval gU x / peval gQ x - 1 = (peval gU x - peval gQ x) / peval gQ x := by field_simp
    rw [e, abs_div, abs_of_pos q0, div_le_iff₀ q0]
    have : |peval gU x - peval gQ x| ≤ 120000 := by
      have hp : peval gU x - peval gQ x = x * ((peval gU x - peval gQ x) / x) := by field_simp
      simp only [gU, gQ, peval_cons, peval_nil]
      push_cast
      have : |x| ≤ 1 / 8388608 := by rw [abs_of_pos h0]; exact h1
      rw [abs_le]
      constructor <;> nlinarith [pow_pos h0 2, pow_pos h0 3, pow_pos h0 4, pow_pos h0 5, pow_pos h0 6, pow_pos h0 7, pow_pos h0 8]
    norm_num at q ⊢
    linarith
  have hG : |Real.Gamma (x + 1) - 1| ≤ 7.1e-7 * Real.Gamma (x + 1) := by
    generalize Real.Gamma (x + 1) = G at *
    generalize peval gU x / peval gQ x = R at *
    rw [abs_le] at c hR ⊢
    norm_num at c hR ⊢
    constructor <;> linarith
  have e : Real.Gamma x - 1 / x = (Real.Gamma (x + 1) - 1) / x := by rw [hg]; field_simp
  rw [e, abs_div, abs_of_pos h0, div_le_iff₀ h0, hg, mul_assoc, div_mul_cancel₀ _ h0.ne']
  exact hG

theorem c_fltMin : F32.Finite fltMin ∧ val fltMin = 2 ^ (-126 : ℤ) := by decide +kernel

/-- **C151** (part) From the smallest normal number up to 12, `tgamma` is finite and within `1.5e-6` of the gamma function, relatively. -/
theorem C151_below (x : BitVec 32) (hx : F32.Finite x) (h0 : 2 ^ (-126 : ℤ) ≤ val x) (h2 : val x < 12) :
    ∃ g, tgamma x = .ok g ∧ F32.Finite g ∧ |(val g : ℝ) - Real.Gamma (val x)| ≤ 1.5e-6 * Real.Gamma (val x) := by
  have xp : 0 < val x := lt_of_lt_of_le (by positivity) h0
  have xr : (0 : ℝ) < (val x : ℝ) := by exact_mod_cast xp
  have h0r : (2 : ℝ) ^ (-126 : ℤ) ≤ (val x : ℝ) := by
    have : ((2 ^ (-126 : ℤ) : ℚ) : ℝ) ≤ ((val x : ℚ) : ℝ) := by exact_mod_cast h0
    norm_num at this ⊢; linarith
  have gp : 0 < Real.Gamma (val x : ℝ) := Real.Gamma_pos_of_pos xr
  rw [tgamma_pos hx xp]
  have c1 : Near (lit 1) 1 0 := by simpa [c_one.2] using Near.self c_one.1
  by_cases ht : val x < 2 ^ (-23 : ℤ)
  · have htr : (val x : ℝ) ≤ 1 / 8388608 := by
      have : ((val x : ℚ) : ℝ) < ((2 ^ (-23 : ℤ) : ℚ) : ℝ) := by exact_mod_cast ht
      norm_num at this ⊢; linarith
    refine ⟨div (lit 1) x, ?_, ?_⟩
    · unfold gammaPos
      rw [if_pos (by rw [lt_fin hx c_eps.1, c_eps.2, decide_eq_true_eq]; exact ht),
        if_pos (by rw [le_fin c_fltMin.1 hx, c_fltMin.2, decide_eq_true_eq]; exact h0)]
      rfl
    · have hb : 1 / (val x : ℝ) ≤ 1e38 := by
        rw [div_le_iff₀ xr]
        have : (1 : ℝ) ≤ 1e38 * 2 ^ (-126 : ℤ) := by norm_num
        linarith [mul_le_mul_of_nonneg_left h0r (by norm_num : (0 : ℝ) ≤ 1e38)]
      have hl : 8388608 ≤ 1 / (val x : ℝ) := by rw [le_div_iff₀ xr]; linarith
      have n := Near.div (e' := 7e-8 * (1 / val x)) (1 / val x) (val x) 0 (1 / val x) c1 (Near.self hx) xr.ne' xr (by rw [abs_of_pos xr, add_zero])
        (by rw [abs_of_pos (by positivity)]) (by simp) (by simp) hb (by norm_num at hl ⊢; linarith)
      refine ⟨n.fin, ?_⟩
      have t := tiny_near xr htr
      have e := n.err
      rw [abs_le] at t e ⊢
      norm_num at t e ⊢
      constructor <;> linarith
  · rw [not_lt] at ht
    rw [gammaPos_mid hx ht h2]
    have htr : (1 / 8388608 : ℝ) ≤ (val x : ℝ) := by
      have : ((2 ^ (-23 : ℤ) : ℚ) : ℝ) ≤ ((val x : ℚ) : ℝ) := by exact_mod_cast ht
      norm_num at this ⊢; linarith
    rcases lt_or_ge (val x) 1 with h1 | h1
    · rw [gammaMid_lt_one hx xp h1]
      refine ⟨_, rfl, ?_⟩
      obtain ⟨n, g1, g2⟩ := core_rel hx xp.le h1.le
      have hg : Real.Gamma (val x : ℝ) = Real.Gamma (val x + 1) / val x := by rw [Real.Gamma_add_one xr.ne']; field_simp
      have h1r : (val x : ℝ) < 1 := by exact_mod_cast h1
      rw [hg]
      generalize Real.Gamma ((val x : ℝ) + 1) = G at *
      have hl : 0.87 ≤ G / val x := by rw [le_div_iff₀ xr]; norm_num at g1 ⊢; linarith
      have hb : G / val x ≤ 1e8 := by rw [div_le_iff₀ xr]; norm_num at g2 ⊢; linarith
      have n := Near.div (e' := 1.5e-6 * (G / val x)) (G / val x) (val x) (8e-7 * (G / val x)) (1.1 * (G / val x)) n (Near.self hx) xr.ne' xr
        (by rw [abs_of_pos xr, add_zero]) (by rw [abs_of_pos (by norm_num at hl; linarith)]) (by rw [mul_zero, add_zero, mul_div_assoc])
        (by norm_num at hl ⊢; linarith) (by norm_num at hb ⊢; linarith) (by norm_num at hl ⊢; linarith)
      exact ⟨n.fin, n.err⟩
    · obtain ⟨y, fy, vy, ey⟩ := gammaMid_ge_one hx h1 h2
      have hb : 1 ≤ ⌊val x⌋ := Int.le_floor.2 (by exact_mod_cast h1)
      have hb2 : ⌊val x⌋ < 12 := Int.floor_lt.2 (by exact_mod_cast h2)
      have f1 := Int.floor_le (val x)
      have f2 := Int.lt_floor_add_one (val x)
      obtain ⟨N, hN⟩ : ∃ N : ℕ, ⌊val x⌋ - 1 = N := ⟨(⌊val x⌋ - 1).toNat, by omega⟩
      have hNq : ((⌊val x⌋ : ℤ) : ℚ) - 1 = N := by exact_mod_cast hN
      rw [hNq] at vy
      have y1 : 1 ≤ val y := by rw [vy]; linarith
      have y2 : val y < 2 := by rw [vy]; linarith
      obtain ⟨fs, vs⟩ : F32.Finite (sub y (lit 1)) ∧ val (sub y (lit 1)) = val y - 1 := by
        obtain ⟨c, fc, vc⟩ := sub_int_exists fy (m := 1) (by norm_num) (by exact_mod_cast y1) (by linarith)
        have := sub_exact fy c_one.1 fc (by rw [vc, c_one.2]; push_cast; rfl)
        exact ⟨this.1, by rw [this.2, vc]; push_cast; rfl⟩
      obtain ⟨n, g1, g2⟩ := core_rel fs (by rw [vs]; linarith) (by rw [vs]; linarith)
      have er : (val (sub y (lit 1)) : ℝ) + 1 = val y := by rw [vs]; push_cast; ring
      rw [er] at n g1 g2
      rw [hN, Int.toNat_natCast] at ey
      refine ⟨_, ey, ?_⟩
      obtain ⟨n, g1, g2⟩ := loop_rel hx h2 N (by omega) fy vy y1 y2 n g1 g2 N le_rfl
      have ex : (val y : ℝ) + N = val x := by rw [vy]; push_cast; ring
      rw [ex] at n g1
      refine ⟨n.fin, n.err.trans ?_⟩
      have hNr : (N : ℝ) ≤ 10 := by exact_mod_cast (by omega : N ≤ 10)
      apply mul_le_mul_of_nonneg_right _ gp.le
      norm_num; linarith

example : F32.Finite (lit 4.5) ∧ 2 ^ (-126 : ℤ) ≤ val (lit 4.5) ∧ val (lit 4.5) < 12 := by decide +kernel

/-! ## From 12 on -/

theorem stirling_head : ∀ c ∈ stirlingC.dropLast, F32.Finite (lit c) ∧ |val (lit c)| ≤ 0.0028 := by decide +kernel
theorem stirling_split : stirlingC = stirlingC.dropLast ++ [8.333333333333333331554247e-02] := by decide +kernel
theorem stirling_last : F32.Finite (lit 8.333333333333333331554247e-02) ∧ |val (lit 8.333333333333333331554247e-02) - 1 / 12| ≤ 1e-8 := by
  decide +kernel
theorem stirling_first : F32.Finite (lit 5.7083835261e-03) ∧ |val (lit 5.7083835261e-03)| ≤ 0.006 := by decide +kernel

theorem stirlingHead_near {yy : BitVec 32} (fy : F32.Finite yy) (hy : 140 ≤ (val yy : ℝ)) : ∀ (cs : List ℚ),
    (∀ c ∈ cs, F32.Finite (lit c) ∧ |val (lit c)| ≤ 0.0028) → ∀ s : BitVec 32, Near s 0 0.006 → Near (hornerDiv yy cs s) 0 0.006 := by
  intro cs
  induction cs with
  | nil => intro _ s h; exact h
  | cons c cs ih =>
    intro hc s h
    obtain ⟨fc, vc⟩ := hc c (by simp)
    have vr : |(val (lit c) : ℝ)| ≤ 0.0028 := by
      have : ((|val (lit c)| : ℚ) : ℝ) ≤ ((0.0028 : ℚ) : ℝ) := by exact_mod_cast vc
      push_cast at this; norm_num at this ⊢; exact this
    have n1 := Near.div (e' := 1e-4) 0 140 5e-5 1e-4 h (Near.self fy) (by linarith) (by norm_num) (by rw [abs_of_pos (by linarith)]; linarith)
      (by simp) (by norm_num) (by norm_num) (by norm_num) (by norm_num)
    have n2 := Near.add (e' := 2e-4) 0.01 n1 (Near.self fc) (by rw [zero_div, zero_add]; norm_num at vr ⊢; linarith) (by norm_num) (by norm_num)
    refine ih (fun c h => hc c (by simp [h])) _ ⟨n2.fin, ?_⟩
    have e := n2.err
    rw [zero_div, zero_add] at e
    rw [abs_le] at e vr ⊢
    norm_num at e vr ⊢
    constructor <;> linarith

/-- The correction term, as computed. -/
theorem stirling_corr {y : BitVec 32} (fy : F32.Finite y) (h1 : 12 ≤ (val y : ℝ)) (h2 : (val y : ℝ) ≤ 172) :
    Near (div (hornerDiv (mul y y) stirlingC (lit 5.7083835261e-03)) y) (1 / (12 * val y)) 3.8e-6 := by
  have nyy := Near.mul (e' := 1) (val y) (val y) 0 30000 (Near.self fy) (Near.self fy) (by rw [abs_of_pos (by linarith)]) (by rw [abs_of_pos (by linarith)])
    (by simp) (by rw [abs_of_pos (by nlinarith)]; nlinarith) (by norm_num) (by norm_num)
  have hyy : 140 ≤ (val (mul y y) : ℝ) := by have := (abs_le.1 nyy.err).1; nlinarith
  have s0 : Near (lit 5.7083835261e-03) 0 0.006 := by
    refine ⟨stirling_first.1, ?_⟩
    have : ((|val (lit 5.7083835261e-03)| : ℚ) : ℝ) ≤ ((0.006 : ℚ) : ℝ) := by exact_mod_cast stirling_first.2
    push_cast at this; rw [sub_zero]; norm_num at this ⊢; exact this
  have n0 := stirlingHead_near nyy.fin hyy _ stirling_head _ s0
  have hs : hornerDiv (mul y y) stirlingC (lit 5.7083835261e-03) =
      add (div (hornerDiv (mul y y) stirlingC.dropLast (lit 5.7083835261e-03)) (mul y y)) (lit 8.333333333333333331554247e-02) := by
    conv_lhs => rw [stirling_split]
    unfold hornerDiv
    rw [List.foldl_append]
    rfl
  rw [hs]
  have nl : Near (lit 8.333333333333333331554247e-02) (1 / 12) 1e-8 := by
    refine ⟨stirling_last.1, ?_⟩
    have : ((|val (lit 8.333333333333333331554247e-02) - 1 / 12| : ℚ) : ℝ) ≤ ((1e-8 : ℚ) : ℝ) := by exact_mod_cast stirling_last.2
    push_cast at this; norm_num at this ⊢; exact this
  have n1 := Near.div (e' := 4.3e-5) 0 140 4.29e-5 1e-4 n0 (Near.self nyy.fin) (by linarith) (by norm_num) (by rw [abs_of_pos (by linarith)]; linarith)
      (by simp) (by norm_num) (by norm_num) (by norm_num) (by norm_num)
  rw [zero_div] at n1
  have n2 := Near.add (e' := 4.4e-5) 0.1 n1 nl (by norm_num) (by norm_num) (by norm_num)
  rw [zero_add] at n2
  have hq : (1 : ℝ) / 12 / val y ≤ 0.01 := by rw [div_le_iff₀ (by linarith)]; norm_num; linarith
  have n3 := Near.div (e' := 3.8e-6) 0.01 12 3.7e-6 0.011 n2 (Near.self fy) (by linarith) (by norm_num) (by rw [abs_of_pos (by linarith)]; linarith)
    (by rw [abs_of_pos (by apply div_pos <;> linarith)]; exact hq) (by norm_num) (by norm_num) (by norm_num) (by norm_num)
  rwa [div_div] at n3

theorem log_range {y : ℝ} (h1 : 12 ≤ y) (h2 : y ≤ 172) : 2.42 ≤ Real.log y ∧ Real.log y ≤ 5.6 := by
  have l2 := Real.log_two_gt_d9
  have u2 := Real.log_two_lt_d9
  have a : Real.log 128 = 7 * Real.log 2 := by rw [← Real.log_rpow (by norm_num)]; norm_num
  have a2 : Real.log 144 = 2 * Real.log 12 := by rw [← Real.log_rpow (by norm_num)]; norm_num
  have b : Real.log 256 = 8 * Real.log 2 := by rw [← Real.log_rpow (by norm_num)]; norm_num
  have c0 : Real.log 128 ≤ Real.log 144 := Real.log_le_log (by norm_num) (by norm_num)
  have c1 : Real.log 12 ≤ Real.log y := Real.log_le_log (by norm_num) (by linarith)
  have c2 : Real.log y ≤ Real.log 256 := Real.log_le_log (by linarith) (by linarith)
  norm_num at l2 u2 ⊢
  constructor <;> linarith

theorem ln2pi : F32.Finite FFP_LN_SQRT_2PI ∧ |(val FFP_LN_SQRT_2PI : ℝ) - Real.log (2 * Real.pi) / 2| ≤ 8e-7 := by
  have k : F32.Finite (lit 6.2831853) ∧ 6.2831852 ≤ val (lit 6.2831853) ∧ val (lit 6.2831853) ≤ 6.2831856 ∧
    |val (log (lit 6.2831853)) - 1.8378771| ≤ 1.5e-7 ∧ F32.Finite FFP_LN_SQRT_2PI ∧ |val FFP_LN_SQRT_2PI - 0.91893853| ≤ 5e-8 := by
    decide +kernel
  obtain ⟨k1, k2, k3, k4, k5, k6⟩ := k
  obtain ⟨-, e⟩ := C82_log_partial _ k1 (le_trans (by norm_num) k2)
  have r2 : ((6.2831852 : ℚ) : ℝ) ≤ ((val (lit 6.2831853) : ℚ) : ℝ) := by exact_mod_cast k2
  have r3 : ((val (lit 6.2831853) : ℚ) : ℝ) ≤ ((6.2831856 : ℚ) : ℝ) := by exact_mod_cast k3
  have r4 : ((|val (log (lit 6.2831853)) - 1.8378771| : ℚ) : ℝ) ≤ ((1.5e-7 : ℚ) : ℝ) := by exact_mod_cast k4
  have r6 : ((|val FFP_LN_SQRT_2PI - 0.91893853| : ℚ) : ℝ) ≤ ((5e-8 : ℚ) : ℝ) := by exact_mod_cast k6
  push_cast at r4 r6
  generalize (val (lit 6.2831853) : ℝ) = a at *
  have p1 := Real.pi_gt_d6
  have p2 := Real.pi_lt_d6
  norm_num at r2 r3 p1 p2
  have d1 : Real.log (2 * Real.pi) - Real.log a ≤ 4e-7 := by
    rw [← Real.log_div (by positivity) (by linarith)]
    refine (Real.log_le_sub_one_of_pos (div_pos (by positivity) (by linarith))).trans ?_
    rw [sub_le_iff_le_add, div_le_iff₀ (by linarith)]; norm_num; linarith
  have d2 : Real.log a - Real.log (2 * Real.pi) ≤ 4e-7 := by
    rw [← Real.log_div (by linarith) (by positivity)]
    refine (Real.log_le_sub_one_of_pos (div_pos (by linarith) (by positivity))).trans ?_
    rw [sub_le_iff_le_add, div_le_iff₀ (by positivity)]; norm_num; linarith
  have l0 : 0 ≤ Real.log a := Real.log_nonneg (by linarith)
  rw [abs_of_nonneg l0] at e
  refine ⟨k5, ?_⟩
  rw [abs_le] at *
  norm_num at e r4 r6 d1 d2 ⊢
  constructor <;> linarith

/-- Stirling's formula with one correction term. -/
theorem log_Gamma_near {y : ℝ} (h1 : 12 ≤ y) : |Real.log (Real.Gamma y) - (stir y + 1 / (12 * y))| ≤ 1.7e-6 := by
  obtain ⟨b1, b2⟩ := stir_bounds (x := y) (by linarith)
  have c : 1 / (360 * y ^ 3) ≤ 1.7e-6 := by
    rw [div_le_iff₀ (by positivity)]
    have : (12 : ℝ) ^ 3 ≤ y ^ 3 := by gcongr
    norm_num at this ⊢; linarith
  have d : 1 / (1260 * y ^ 5) ≤ 1 / (360 * y ^ 3) := by
    apply one_div_le_one_div_of_le (by positivity)
    have : y ^ 3 * 144 ≤ y ^ 3 * y ^ 2 := by gcongr; nlinarith
    have : y ^ 3 * y ^ 2 = y ^ 5 := by ring
    have : 0 < y ^ 3 := by positivity
    linarith
  have e : 0 < 1 / (360 * y ^ 3) := by positivity
  have e5 : 0 < 1 / (1260 * y ^ 5) := by positivity
  unfold corr5 corr3 at b2
  unfold corr3 at b1
  rw [abs_le]
  constructor <;> linarith

/-- The exponent of the branch of the large arguments. -/
theorem stirling_near {y : BitVec 32} (fy : F32.Finite y) (h1 : 12 ≤ (val y : ℝ)) (h2 : (val y : ℝ) ≤ 172) :
    Near (add (add (sub (div (hornerDiv (mul y y) stirlingC (lit 5.7083835261e-03)) y) y) FFP_LN_SQRT_2PI) (mul (sub y (lit 0.5)) (log y)))
      (Real.log (Real.Gamma (val y))) (9e-7 * (val y * Real.log (val y))) ∧
    0 ≤ Real.log (Real.Gamma (val y)) ∧ Real.log (Real.Gamma (val y)) ≤ val y * Real.log (val y) - val y := by
  have c := stirling_corr fy h1 h2
  have hy : 2 ^ (-126 : ℤ) ≤ val y := by
    have : (12 : ℚ) ≤ val y := by exact_mod_cast h1
    exact le_trans (by norm_num) this
  obtain ⟨fl, el⟩ := C82_log_partial y fy hy
  obtain ⟨l1, l2⟩ := log_range h1 h2
  have g := log_Gamma_near h1
  obtain ⟨fc, ec⟩ := ln2pi
  have nc : Near FFP_LN_SQRT_2PI (Real.log (2 * Real.pi) / 2) 8e-7 := ⟨fc, ec⟩
  have hc : 0.9 ≤ Real.log (2 * Real.pi) / 2 ∧ Real.log (2 * Real.pi) / 2 ≤ 0.93 := by
    have k : F32.Finite FFP_LN_SQRT_2PI ∧ |val FFP_LN_SQRT_2PI - 0.919| ≤ 0.001 := by decide +kernel
    have : ((|val FFP_LN_SQRT_2PI - 0.919| : ℚ) : ℝ) ≤ ((0.001 : ℚ) : ℝ) := by exact_mod_cast k.2
    push_cast at this
    rw [abs_le] at this ec
    norm_num at this ec ⊢
    constructor <;> linarith
  have hh : Near (lit 0.5) (1 / 2) 0 := by
    have k : F32.Finite (lit 0.5) ∧ val (lit 0.5) = 1 / 2 := by decide +kernel
    refine ⟨k.1, ?_⟩
    rw [k.2]; norm_num
  rw [abs_of_nonneg (a := Real.log (val y)) (by norm_num at l1; linarith)] at el
  have nl : Near (log y) (Real.log (val y)) (4.2e-7 * Real.log (val y)) := ⟨fl, el⟩
  unfold stir at g
  have hd : 0 ≤ 1 / (12 * (val y : ℝ)) ∧ 1 / (12 * (val y : ℝ)) ≤ 0.007 := by
    refine ⟨by apply div_nonneg <;> linarith, ?_⟩
    rw [div_le_iff₀ (by linarith)]; norm_num; linarith
  generalize 1 / (12 * (val y : ℝ)) = d at *
  generalize Real.log (2 * Real.pi) / 2 = K at *
  generalize log y = lf at *
  generalize Real.log (Real.Gamma (val y)) = LG at *
  generalize div (hornerDiv (mul y y) stirlingC (lit 5.7083835261e-03)) y = df at *
  have ny := Near.self fy
  generalize hY : (val y : ℝ) = Y at *
  generalize Real.log Y = l at *
  obtain ⟨hd1, hd2⟩ := hd
  obtain ⟨hc1, hc2⟩ := hc
  rw [abs_le] at g
  norm_num at l1 l2 hd2 hc1 hc2 g
  have p1 : 2.42 * Y ≤ Y * l := by norm_num; nlinarith
  have p2 : Y * l ≤ 5.6 * Y := by norm_num; nlinarith
  norm_num at p1 p2
  have n1 := Near.sub (e' := 3.8e-6 + Y / 16777216 + 1e-8) (Y + 4e-6) c ny (by
    rw [abs_of_nonpos (by linarith)]; norm_num; linarith) (by norm_num; linarith) (by norm_num; linarith)
  have n2 := Near.add (e' := 4.7e-6 + 2 * Y / 16777216) Y n1 nc (by
    rw [abs_of_nonpos (by linarith)]; norm_num; linarith) (by norm_num; linarith) (by norm_num; linarith)
  have n3 := Near.sub (e' := Y / 16777216 + 1e-20) Y ny hh (by rw [abs_of_nonneg (by linarith)]; norm_num) (by norm_num; linarith) (by norm_num)
  have n4 := Near.mul (e' := 5.5e-7 * (Y * l)) Y l (4.85e-7 * (Y * l)) (1.001 * (Y * l)) n3 nl (by rw [abs_of_nonneg (by linarith)]; linarith)
    (by rw [abs_of_nonneg (by linarith)]) (by norm_num; nlinarith) (by
      rw [abs_of_nonneg (mul_nonneg (by linarith) (by linarith))]; norm_num; nlinarith) (by norm_num; linarith) (by norm_num; linarith)
  have q1 : LG ≤ Y * l - Y := by linarith
  have q0 : 0 ≤ LG := by nlinarith
  have ev : d - Y + K + (Y - 1 / 2) * l = LG + (d - Y + K + (Y - 1 / 2) * l - LG) := by ring
  have n5 := Near.add (e' := 8.35e-7 * (Y * l)) (Y * l) n2 n4 (by
    rw [abs_of_nonneg (by linarith)]; norm_num; linarith) (by norm_num; linarith) (by norm_num; linarith)
  refine ⟨⟨n5.fin, ?_⟩, q0, by linarith⟩
  have e := n5.err
  rw [abs_le] at e ⊢
  norm_num at e ⊢
  constructor <;> linarith

/-- **C151** (part) From 12 to 34, `tgamma` is finite and its relative error is at most `1e-6 x log x`, that is below `1.2e-4`. -/
theorem C151_large (x : BitVec 32) (hx : F32.Finite x) (h1 : 12 ≤ val x) (h2 : val x ≤ 34) :
    ∃ g, tgamma x = .ok g ∧ F32.Finite g ∧
      |(val g : ℝ) - Real.Gamma (val x)| ≤ 1e-6 * (val x * Real.log (val x)) * Real.Gamma (val x) := by
  have r1 : (12 : ℝ) ≤ (val x : ℝ) := by exact_mod_cast h1
  have r2 : (val x : ℝ) ≤ 34 := by exact_mod_cast h2
  obtain ⟨n, g0, g1⟩ := stirling_near hx r1 (by linarith)
  have gp : 0 < Real.Gamma (val x : ℝ) := Real.Gamma_pos_of_pos (by linarith)
  rw [tgamma_pos hx (by linarith)]
  have c171 : F32.Finite (lit 171.624) ∧ 100 ≤ val (lit 171.624) := by decide +kernel
  unfold gammaPos
  rw [if_neg (by rw [lt_fin hx c_eps.1, c_eps.2, decide_eq_true_eq, not_lt]; exact le_trans (by norm_num) h1),
    if_neg (by rw [lt_fin hx c_twelve.1, c_twelve.2, decide_eq_true_eq, not_lt]; exact h1)]
  unfold gammaLarge
  rw [if_pos (by rw [le_fin hx c171.1, decide_eq_true_eq]; linarith [c171.2])]
  simp only []
  generalize add (add (sub (div (hornerDiv (mul x x) stirlingC (lit 5.7083835261e-03)) x) x) FFP_LN_SQRT_2PI) (mul (sub x (lit 0.5)) (log x)) = s at *
  have l34 : Real.log (val x) ≤ 3.54 := by
    have u2 := Real.log_two_lt_d9
    have a : Real.log (2 ^ 51) = 51 * Real.log 2 := by rw [Real.log_pow]; norm_num
    have b : Real.log (34 ^ 10) = 10 * Real.log 34 := by rw [Real.log_pow]; norm_num
    have c : Real.log (34 ^ 10) ≤ Real.log (2 ^ 51) := Real.log_le_log (by norm_num) (by norm_num)
    have d : Real.log (val x) ≤ Real.log 34 := Real.log_le_log (by linarith) r2
    rw [a, b] at c
    norm_num at u2 ⊢; linarith
  obtain ⟨l1, -⟩ := log_range r1 (by linarith)
  have hexp : Real.exp (Real.log (Real.Gamma (val x))) = Real.Gamma (val x) := Real.exp_log gp
  generalize Real.log (Real.Gamma (val x)) = LG at *
  rw [← hexp]
  clear hexp gp
  generalize (val x : ℝ) = Y at *
  generalize Real.log Y = l at *
  norm_num at l34 l1
  have p1 : 2.42 * Y ≤ Y * l := by norm_num; nlinarith
  have p2 : Y * l - Y ≤ 34 * 2.54 := by norm_num; nlinarith
  have p3 : Y * l ≤ 34 * 3.54 := by norm_num; nlinarith
  norm_num at p1 p2 p3
  obtain ⟨fs, es⟩ := n
  have es' := abs_le.1 es
  norm_num at es'
  have s0 : -1 ≤ (val s : ℝ) := by linarith
  have s1 : (val s : ℝ) ≤ 87 := by linarith
  obtain ⟨g, eg, fg, hg⟩ := C80_accuracy_partial s fs (by
    have : (-1 : ℚ) ≤ val s := by exact_mod_cast s0
    norm_num; linarith) (by
    have : val s ≤ 87 := by exact_mod_cast s1
    norm_num; linarith)
  refine ⟨g, eg, fg, ?_⟩
  have hE : Real.exp (val s) = Real.exp LG * Real.exp (val s - LG) := by rw [← Real.exp_add]; congr 1; ring
  rw [hE] at hg
  have hsa : |(val s : ℝ)| ≤ LG + 1.2e-4 := by
    rw [abs_le]; norm_num; constructor <;> linarith
  have dE : |Real.exp (val s - LG) - 1| ≤ 9.005e-7 * (Y * l) := by
    have hd : |(val s : ℝ) - LG| ≤ 1.1e-4 := es.trans (by norm_num; linarith)
    generalize (val s : ℝ) - LG = t at *
    have h2 := Real.norm_exp_sub_one_sub_id_le (x := t) (by rw [Real.norm_eq_abs]; exact hd.trans (by norm_num))
    rw [Real.norm_eq_abs, Real.norm_eq_abs] at h2
    have h3 := abs_add_le (Real.exp t - 1 - t) t
    rw [sub_add_cancel] at h3
    have h4 : |t| ^ 2 ≤ 1.1e-4 * (9e-7 * (Y * l)) := by rw [sq]; exact mul_le_mul hd es (abs_nonneg _) (by norm_num)
    norm_num at h2 h3 h4 es ⊢
    linarith
  generalize Real.exp (val s - LG) = t at *
  have ep : 0 < Real.exp LG := Real.exp_pos _
  generalize Real.exp LG = G at *
  have hk : 3.6e-7 + 7.4e-8 * |(val s : ℝ)| ≤ 7.45e-8 * (Y * l) := by
    norm_num at hsa ⊢
    linarith
  have k0 : (0 : ℝ) ≤ 3.6e-7 + 7.4e-8 * |(val s : ℝ)| := by positivity
  generalize 3.6e-7 + 7.4e-8 * |(val s : ℝ)| = k at *
  have t2 : 0 ≤ t ∧ t ≤ 1.001 := by
    rw [abs_le] at dE; norm_num at dE ⊢; constructor <;> linarith
  have a1 : k * (G * t) ≤ 7.46e-8 * (Y * l) * G := by
    have : k * t ≤ 7.45e-8 * (Y * l) * 1.001 := mul_le_mul hk t2.2 t2.1 (by norm_num; linarith)
    calc k * (G * t) = (k * t) * G := by ring
      _ ≤ 7.46e-8 * (Y * l) * G := by
        apply mul_le_mul_of_nonneg_right _ ep.le
        norm_num at this ⊢; linarith
  have a2 : |G * t - G| ≤ 9.005e-7 * (Y * l) * G := by
    have : G * t - G = (t - 1) * G := by ring
    rw [this, abs_mul, abs_of_pos ep]
    exact mul_le_mul_of_nonneg_right dE ep.le
  have a3 := abs_add_le ((val g : ℝ) - G * t) (G * t - G)
  rw [sub_add_sub_cancel] at a3
  have a4 : 0 ≤ Y * l * G := by apply mul_nonneg _ ep.le; linarith
  norm_num at a1 a2 ⊢
  linarith

example : F32.Finite (lit 20.25) ∧ 12 ≤ val (lit 20.25) ∧ val (lit 20.25) ≤ 34 := by decide +kernel

/-- **C151, negation.** Below the smallest normal number `tgamma` is infinite although the gamma function is representable: at `2^-127` it
is about `2^127`. -/
theorem C151_false : tgamma 0x00400000#32 = .ok inf ∧ val 0x00400000#32 = 2 ^ (-127 : ℤ) ∧
    Real.Gamma (val 0x00400000#32) < (val fltMax : ℝ) := by
  have v : val 0x00400000#32 = 2 ^ (-127 : ℤ) := by decide +kernel
  have m : (2 : ℚ) ^ 127 * 1.5 ≤ val fltMax := by decide +kernel
  refine ⟨by decide +kernel, v, ?_⟩
  have mr : (((2 : ℚ) ^ 127 * 1.5 : ℚ) : ℝ) ≤ ((val fltMax : ℚ) : ℝ) := by exact_mod_cast m
  have t := tiny_near (x := (2 : ℝ) ^ (-127 : ℤ)) (by positivity) (by norm_num)
  rw [v]
  push_cast at mr ⊢
  rw [abs_le] at t
  have e : 1 / (2 : ℝ) ^ (-127 : ℤ) = 2 ^ 127 := by norm_num
  rw [e] at t
  generalize Real.Gamma ((2 : ℝ) ^ (-127 : ℤ)) = G at *
  norm_num at t mr ⊢
  linarith

end Verif.Ffmath
