import Verif.Ffmath.Hyper

/-!
# `erf` and `erfc` (C95)

IEEE binary32 arithmetic on top of `exp` (C80).
-/

namespace Verif.Ffmath

open Verif F32

/-- A number below `24.2` has a moderate exponential. -/
theorem exp_mid {y : BitVec 32} (hn : ¬ IsNaN y) (h : F32.le y (lit 24.2) = true) :
    ∃ E, exp y = .ok E ∧ Finite E ∧ 0 ≤ val E ∧ val E ≤ 1e30 := by
  have c : Finite (lit (-87.1)) ∧ val (lit (-87.1)) ≥ -87.2 ∧ Finite (lit 24.2) ∧ val (lit 24.2) ≤ 24.3 ∧
    ¬ F32.le inf (lit 24.2) = true ∧ F32.le (negate inf) (lit (-87.1)) = true := by decide +kernel
  by_cases hs : F32.le y (lit (-87.1)) = true
  · obtain ⟨E, h1, h2, h3, h4⟩ := exp_small hs
    exact ⟨E, h1, h2, h3, h4.trans (by norm_num)⟩
  rcases trichotomy hn with hf | rfl | rfl
  · rw [le_fin hf c.2.2.1, decide_eq_true_eq] at h
    rw [le_fin hf c.1, decide_eq_true_eq, not_le] at hs
    have b1 : -87.3 ≤ val y := by linarith [c.2.1]
    have b2 : val y ≤ 24.3 := by linarith [c.2.2.2.1]
    obtain ⟨E, e1, e2, e3⟩ := C80_accuracy_partial y hf b1 (b2.trans (by norm_num))
    have hp := Real.exp_pos (val y : ℝ)
    have b2R : (val y : ℝ) ≤ 24.3 := by
      have : (val y : ℝ) ≤ ((24.3 : ℚ) : ℝ) := by exact_mod_cast b2
      push_cast at this; exact this
    have hab : |(val y : ℝ)| ≤ 87.3 := by
      have : |val y| ≤ 87.3 := _root_.abs_le.2 ⟨b1, b2.trans (by norm_num)⟩
      have : ((|val y| : ℚ) : ℝ) ≤ ((87.3 : ℚ) : ℝ) := by exact_mod_cast this
      push_cast at this; exact this
    have hub : Real.exp (val y : ℝ) ≤ 1e29 := by
      have h1 : Real.exp (val y : ℝ) ≤ Real.exp 1 ^ 25 := by
        rw [← Real.exp_nat_mul]; apply Real.exp_le_exp.2; push_cast; linarith
      have h2 : Real.exp 1 ^ 25 ≤ (3 : ℝ) ^ 25 := pow_le_pow_left₀ (Real.exp_pos _).le (by linarith [Real.exp_one_lt_d9]) _
      refine h1.trans (h2.trans ?_); norm_num
    have e4 : |(val E : ℝ) - Real.exp (val y)| ≤ 1e-5 * Real.exp (val y) := by
      refine e3.trans ?_
      gcongr
      generalize |(val y : ℝ)| = A at *
      norm_num at *; linarith
    obtain ⟨g1, g2⟩ := _root_.abs_le.1 e4
    refine ⟨E, e1, e2, ?_, ?_⟩
    · have : (0 : ℝ) ≤ (val E : ℝ) := by
        generalize Real.exp (val y : ℝ) = T at *
        norm_num at g1; linarith
      exact_mod_cast this
    · have : (val E : ℝ) ≤ ((1e30 : ℚ) : ℝ) := by
        generalize Real.exp (val y : ℝ) = T at *
        norm_num at g2 hub ⊢; linarith
      exact_mod_cast this
  · exact absurd h c.2.2.2.2.1
  · exact absurd c.2.2.2.2.2 hs

/-- The quotient of `erf` for a non-negative exponential. -/
theorem erf_quot {E : BitVec 32} (hE : Finite E) (h0 : 0 ≤ val E) (h1 : val E ≤ 1e30) :
    Finite (sub (div E (mul (add (absolute E) (lit 1)) (lit 2))) (lit 1)) ∧
    -1 ≤ val (sub (div E (mul (add (absolute E) (lit 1)) (lit 2))) (lit 1)) ∧
    val (sub (div E (mul (add (absolute E) (lit 1)) (lit 2))) (lit 1)) ≤ -1 / 2 := by
  have c : Finite (lit 2) ∧ val (lit 2) = 2 ∧ Finite (lit 0.5) ∧ val (lit 0.5) = 1 / 2 ∧ Finite (lit 1e31) ∧ 2e30 ≤ val (lit 1e31) ∧
    val (lit 1e31) ≤ 1.1e31 ∧ Finite (negate (lit 1)) ∧ val (negate (lit 1)) = -1 ∧ Finite (negate (lit 0.5)) ∧ val (negate (lit 0.5)) = -1 / 2 := by
    decide +kernel
  obtain ⟨c1, c2, c3, c4, c5, c6, c7, c8, c9, c10, c11⟩ := c
  have fA : Finite (absolute E) := absolute_finite.2 hE
  have vA : val (absolute E) = val E := by rw [absolute_val, abs_of_nonneg h0]
  have hu : Finite (add (absolute E) (lit 1)) ∧ val E ≤ val (add (absolute E) (lit 1)) ∧ val (add (absolute E) (lit 1)) ≤ val (lit 1e31) :=
    add_btw fA fin_one hE c5 (by rw [vA, val_one]; linarith) (by rw [vA, val_one]; norm_num at *; linarith)
  have hu1 : 1 ≤ val (add (absolute E) (lit 1)) := by
    have := (add_btw fA fin_one fin_one c5 (by rw [vA, val_one]; linarith) (by rw [vA, val_one]; norm_num at *; linarith)).2.1
    rwa [val_one] at this
  generalize add (absolute E) (lit 1) = u at *
  obtain ⟨d, fd, vd⟩ := double_exists hu.1 (by rw [abs_of_nonneg (by linarith)]; refine (hu.2.2.trans c7).trans ?_; norm_num)
  obtain ⟨fw, vw⟩ := mul_exact hu.1 c1 fd (by rw [c2, vd]; ring)
  rw [vd] at vw
  generalize mul u (lit 2) = w at *
  have hw0 : 0 < val w := by linarith
  obtain ⟨fq, q1, q2⟩ := div_btw hE fw hw0.ne' fin_zero c3 (by rw [val_zero]; positivity)
    (by rw [c4, div_le_iff₀ hw0]; linarith)
  rw [val_zero] at q1
  rw [c4] at q2
  obtain ⟨fr, r1, r2⟩ := sub_btw fq fin_one c8 c10 (by rw [c9, val_one]; linarith) (by rw [c11, val_one]; linarith)
  rw [c9] at r1
  rw [c11] at r2
  exact ⟨fr, r1, r2⟩

/-- **C95** (negation, for every argument below `6.912`) `erf` lies between `-1` and `-1/2`, so it is negative for every positive
argument below `6.912`, not zero at zero and not odd. -/
theorem C95_erf_negative (x : BitVec 32) (hn : ¬ IsNaN x) (h : F32.lt x (lit 6.912) = true) :
    ∃ r, erf x = .ok r ∧ Finite r ∧ -1 ≤ val r ∧ val r ≤ -1 / 2 := by
  have c : Finite (lit 6.912) ∧ val (lit 6.912) ≤ 6.9121 ∧ Finite (lit 3.472034176) ∧ 3.472 ≤ val (lit 3.472034176) ∧
    val (lit 3.472034176) ≤ 3.4721 ∧ Finite (lit 24.2) ∧ 24.1 ≤ val (lit 24.2) ∧ ¬ F32.lt inf (lit 6.912) = true ∧
    mul (lit 3.472034176) (negate inf) = negate inf ∧ F32.le (negate inf) (lit 24.2) = true ∧ ¬ IsNaN (negate inf) ∧ ¬ IsNaN (lit 24.2) := by decide +kernel
  obtain ⟨c1, c2, c3, c4, c5, c6, c7, c8, c9, c10, c11, c12⟩ := c
  have hle : ¬ F32.le (lit 6.912) x = true := by
    intro hc
    have h1 := lt_key h
    have h2 := le_key hc
    omega
  have hy : ¬ IsNaN (mul (lit 3.472034176) x) ∧ F32.le (mul (lit 3.472034176) x) (lit 24.2) = true := by
    rcases trichotomy hn with hf | rfl | rfl
    · rw [lt_fin hf c1, decide_eq_true_eq] at h
      rw [mul_fin c3 hf]
      refine ⟨rnd_notNaN _ _, ?_⟩
      unfold F32.le
      simp only [rnd_notNaN, c12, not_false_eq_true, true_and, decide_eq_true_eq]
      rw [← val_le_iff]
      refine rnd_le c6 ?_
      rcases le_total (val x) 0 with hx | hx
      · have : val (lit 3.472034176) * val x ≤ 0 := mul_nonpos_of_nonneg_of_nonpos (by linarith) hx
        linarith
      · have : val (lit 3.472034176) * val x ≤ 3.4721 * 6.9121 := mul_le_mul c5 (by linarith) hx (by norm_num)
        norm_num at *; linarith
    · exact absurd h c8
    · rw [c9]; exact ⟨c11, c10⟩
  obtain ⟨E, e1, e2, e3, e4⟩ := exp_mid hy.1 hy.2
  refine ⟨_, ?_, erf_quot e2 e3 e4⟩
  unfold erf
  rw [if_neg hle, e1]
  rfl

/-- **C95** (part) From `6.912` on, infinity included, `erf` is one and `erfc` zero. -/
theorem C95_saturated (x : BitVec 32) (h : F32.le (lit 6.912) x = true) : erf x = .ok (lit 1) ∧ erfc x = .ok (lit 0) := by
  have e : erf x = .ok (lit 1) := by unfold erf; rw [if_pos h]; rfl
  have c : sub (lit 1) (lit 1) = lit 0 := by decide +kernel
  refine ⟨e, ?_⟩
  unfold erfc
  rw [e]
  show Out.ok (sub (lit 1) (lit 1)) = _
  rw [c]

/-- **C95** (part) Both functions are defined for every number, `erf` is at most one in magnitude, `erfc` is in `[0, 2]`, and they
add up to one up to the rounding of one subtraction. -/
theorem C95_range (x : BitVec 32) (hn : ¬ IsNaN x) : ∃ r s, erf x = .ok r ∧ erfc x = .ok s ∧ Finite r ∧ Finite s ∧
    |val r| ≤ 1 ∧ 0 ≤ val s ∧ val s ≤ 2 ∧ |val r + val s - 1| ≤ 1 / 8388608 := by
  have c : Finite (lit 2) ∧ val (lit 2) = 2 := by decide +kernel
  have main : ∃ r, erf x = .ok r ∧ Finite r ∧ |val r| ≤ 1 := by
    by_cases h : F32.le (lit 6.912) x = true
    · exact ⟨_, (C95_saturated x h).1, fin_one, by rw [val_one]; norm_num⟩
    · have hc : ¬ IsNaN (lit 6.912) := by decide +kernel
      have hl : F32.lt x (lit 6.912) = true := by
        unfold F32.le at h
        unfold F32.lt
        simp only [hn, hc, not_false_eq_true, true_and, decide_eq_true_eq] at h ⊢
        omega
      obtain ⟨r, h1, h2, h3, h4⟩ := C95_erf_negative x hn hl
      exact ⟨r, h1, h2, _root_.abs_le.2 ⟨h3, by linarith⟩⟩
  obtain ⟨r, h1, h2, h3⟩ := main
  obtain ⟨h4, h5⟩ := _root_.abs_le.1 h3
  obtain ⟨fs, s1, s2⟩ := sub_btw fin_one h2 fin_zero c.1 (by rw [val_zero, val_one]; linarith) (by rw [val_one, c.2]; linarith)
  rw [val_zero] at s1
  rw [c.2] at s2
  refine ⟨r, sub (lit 1) r, h1, ?_, h2, fs, h3, s1, s2, ?_⟩
  · unfold erfc; rw [h1]; rfl
  · have e := sub_fin fin_one h2
    rw [val_one] at e
    have k := rnd_err (e ▸ fs)
    rw [← e] at k
    have : |1 - val r| ≤ 2 := _root_.abs_le.2 ⟨by linarith, by linarith⟩
    rw [show val r + val (sub (lit 1) r) - 1 = val (sub (lit 1) r) - (1 - val r) by ring]
    refine k.trans (max_le ?_ (by norm_num))
    have := mul_le_mul_of_nonneg_right this (by positivity : (0 : ℚ) ≤ 2 ^ (-24 : ℤ))
    refine this.trans (by norm_num)

/-- **C95** (negation) Values at `0`, `1` and `-1`: the error function is `0`, `0.8427` and `-0.8427` there; the
complementary function is `1` at `0`. A NaN reaches the conversion to an integer in `exp2`, which is undefined. -/
theorem C95_false : erf (lit 0) = .ok (lit (-0.75)) ∧ erfc (lit 0) = .ok (lit 1.75) ∧ erf nan = .ub ∧
    (match erf (lit 1) with | .ok r => decide (val r < -0.5) | _ => false) = true ∧
    (match erf (lit (-1)) with | .ok r => decide (val r < -0.98) | _ => false) = true := by decide +kernel

/-- Cases of the theorems above. -/
example : ¬ IsNaN (lit 2) ∧ F32.lt (lit 2) (lit 6.912) = true ∧ F32.le (lit 6.912) inf = true := by decide +kernel

end Verif.Ffmath
