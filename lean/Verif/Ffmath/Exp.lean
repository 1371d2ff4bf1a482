import Verif.Ffmath.Exp2
import Mathlib.Analysis.SpecialFunctions.Exponential

/-!
# `exp`, `expm1` (C80)

IEEE binary32 arithmetic; the argument is multiplied by `log2 e` and handed to `exp2`.
-/

namespace Verif.Ffmath

open Verif F32

/-- `exp2(y)` against the exponential of a number close to `y log 2`. -/
theorem exp2_as_exp {y : BitVec 32} {z d : ℝ} (hy : Finite y) (h1 : -126 < val y) (h2 : val y < 127.5)
    (hd : |Real.log 2 * (val y : ℝ) - z| ≤ d) (hd2 : d ≤ 1e-4) :
    ∃ r, exp2 y = .ok r ∧ Finite r ∧ |(val r : ℝ) - Real.exp z| ≤ (3.51e-7 + 1.001 * d) * Real.exp z := by
  obtain ⟨r, hr, hf, he⟩ := C79_accuracy_partial y hy h1 h2
  refine ⟨r, hr, hf, ?_⟩
  have e1 : (2 : ℝ) ^ (val y : ℝ) = Real.exp z * Real.exp (Real.log 2 * (val y : ℝ) - z) := by
    rw [Real.rpow_def_of_pos (by norm_num), ← Real.exp_add]; congr 1; ring
  rw [e1] at he
  generalize Real.log 2 * (val y : ℝ) - z = u at *
  have hu1 : |u| ≤ 1 := hd.trans (hd2.trans (by norm_num))
  have hb := Real.abs_exp_sub_one_sub_id_le hu1
  have hd0 : 0 ≤ d := (abs_nonneg _).trans hd
  have hw : |Real.exp u - 1| ≤ 1.0001 * d := by
    have h3 := abs_sub_le (Real.exp u) (1 + u) 1
    rw [show Real.exp u - (1 + u) = Real.exp u - 1 - u by ring, show (1 + u - 1 : ℝ) = u by ring] at h3
    have h4 : u ^ 2 ≤ 1e-4 * d := by
      rw [← sq_abs, sq]
      exact mul_le_mul (hd.trans hd2) hd (abs_nonneg _) (by norm_num)
    norm_num at h4 ⊢; linarith
  have hz := Real.exp_pos z
  have h5 := abs_sub_le (val r : ℝ) (Real.exp z * Real.exp u) (Real.exp z)
  have h6 : |Real.exp z * Real.exp u - Real.exp z| ≤ Real.exp z * (1.0001 * d) := by
    rw [show Real.exp z * Real.exp u - Real.exp z = Real.exp z * (Real.exp u - 1) by ring, abs_mul, abs_of_pos hz]
    exact mul_le_mul_of_nonneg_left hw hz.le
  have h7 : Real.exp z * Real.exp u ≤ Real.exp z * (1 + 1.0001 * d) :=
    mul_le_mul_of_nonneg_left (by linarith [(_root_.abs_le.1 hw).2]) hz.le
  generalize Real.exp z = Z at *
  have hZd : 0 ≤ Z * d := mul_nonneg hz.le hd0
  have hZd2 : Z * d ≤ Z * 1e-4 := mul_le_mul_of_nonneg_left hd2 hz.le
  generalize hW : Z * d = W at *
  have e3 : (3.51e-7 + 1.001 * d) * Z = 3.51e-7 * Z + 1.001 * W := by rw [← hW]; ring
  have e4 : Z * (1.0001 * d) = 1.0001 * W := by rw [← hW]; ring
  have e5 : Z * (1 + 1.0001 * d) = Z + 1.0001 * W := by rw [← hW]; ring
  rw [e3]; rw [e4] at h6; rw [e5] at h7
  generalize Z * Real.exp u = V at *
  norm_num at he hZd2 h6 h7 ⊢
  linarith

theorem log2e_val : Finite FFP_LOG2E ∧ val FFP_LOG2E = 12102203 / 8388608 := by decide +kernel

/-- The scaled argument of `exp`. -/
theorem exp_arg {x : BitVec 32} (hx : Finite x) (h : |val x| ≤ 100) :
    Finite (mul FFP_LOG2E x) ∧ |val (mul FFP_LOG2E x) - 12102203 / 8388608 * val x| ≤ 8.6e-8 * |val x| + 1e-45 := by
  rw [mul_fin log2e_val.1 hx, log2e_val.2]
  have hq : |12102203 / 8388608 * val x| ≤ 12102203 / 8388608 * |val x| := by rw [abs_mul]; norm_num
  have f : Finite (rnd (neg FFP_LOG2E != neg x) (12102203 / 8388608 * val x)) :=
    rnd_finite (hq.trans ((mul_le_mul_of_nonneg_left h (by norm_num)).trans (by norm_num)))
  refine ⟨f, (rnd_err f).trans (max_le ?_ ?_)⟩
  · have : |12102203 / 8388608 * val x| * 2 ^ (-24 : ℤ) ≤ 12102203 / 8388608 * |val x| * 2 ^ (-24 : ℤ) :=
      mul_le_mul_of_nonneg_right hq (by norm_num)
    refine this.trans ?_
    have := abs_nonneg (val x)
    norm_num; linarith
  · have : 0 ≤ |val x| := abs_nonneg _
    norm_num; linarith

/-- **C80** (part) `exp` is within a relative error of `3.6e-7 + 7.4e-8 |x|` of the exponential for
`-87.3 ≤ x ≤ 88.3`. -/
theorem C80_accuracy_partial (x : BitVec 32) (hx : Finite x) (h1 : -87.3 ≤ val x) (h2 : val x ≤ 88.3) :
    ∃ r, exp x = .ok r ∧ Finite r ∧
      |(val r : ℝ) - Real.exp (val x)| ≤ (3.6e-7 + 7.4e-8 * |(val x : ℝ)|) * Real.exp (val x) := by
  have hab : |val x| ≤ 88.3 := _root_.abs_le.2 ⟨by linarith, h2⟩
  obtain ⟨fy, ey⟩ := exp_arg hx (hab.trans (by norm_num))
  unfold exp
  generalize mul FFP_LOG2E x = y at *
  obtain ⟨a, b⟩ := _root_.abs_le.1 ey
  have c : 8.6e-8 * |val x| + 1e-45 ≤ 1e-5 := by norm_num at hab ⊢; linarith
  have hd : |Real.log 2 * (val y : ℝ) - (val x : ℝ)| ≤ 7.36e-8 * |(val x : ℝ)| + 1e-45 := by
    have hL := Real.log_two_near_10
    have ey' : |(val y : ℝ) - 12102203 / 8388608 * (val x : ℝ)| ≤ 8.6e-8 * |(val x : ℝ)| + 1e-45 := by
      have : ((|val y - 12102203 / 8388608 * val x| : ℚ) : ℝ) ≤ ((8.6e-8 * |val x| + 1e-45 : ℚ) : ℝ) := by
        exact_mod_cast ey
      push_cast at this; norm_num at this ⊢; exact this
    rw [show Real.log 2 * (val y : ℝ) - (val x : ℝ) = Real.log 2 * ((val y : ℝ) - 12102203 / 8388608 * (val x : ℝ)) +
      (Real.log 2 * (12102203 / 8388608) - 1) * (val x : ℝ) by ring]
    have l1 : |Real.log 2| ≤ 0.69315 := by
      rw [abs_of_pos (Real.log_pos (by norm_num))]
      exact Real.log_two_lt_d9.le.trans (by norm_num)
    have l2 : |Real.log 2 * (12102203 / 8388608) - 1| ≤ 1.37e-8 := by
      rw [_root_.abs_le] at hL ⊢
      norm_num at hL ⊢; constructor <;> linarith
    refine (abs_add_le _ _).trans ?_
    rw [abs_mul, abs_mul]
    have h9 := mul_le_mul l1 ey' (abs_nonneg _) (by norm_num)
    have h8 := mul_le_mul_of_nonneg_right l2 (abs_nonneg (val x : ℝ))
    have h0 := abs_nonneg (val x : ℝ)
    generalize |(val x : ℝ)| = X at *
    norm_num at h9 h8 ⊢; linarith
  have hab' : |(val x : ℝ)| ≤ 88.3 := by
    have : ((|val x| : ℚ) : ℝ) ≤ ((88.3 : ℚ) : ℝ) := by exact_mod_cast hab
    push_cast at this; norm_num at this ⊢; exact this
  obtain ⟨r, hr, hf, he⟩ := exp2_as_exp fy (by linarith) (by linarith) hd (by norm_num at hab' ⊢; linarith)
  refine ⟨r, hr, hf, he.trans (mul_le_mul_of_nonneg_right ?_ (Real.exp_pos _).le)⟩
  have := abs_nonneg (val x : ℝ)
  norm_num; linarith


theorem trichotomy {x : BitVec 32} (h : ¬ IsNaN x) : Finite x ∨ x = inf ∨ x = negate inf := by
  rw [nan_iff] at h
  by_cases hf : Finite x
  · exact .inl hf
  rw [finite_iff] at hf
  have c : mag inf = 2139095040 ∧ mag (negate inf) = 2139095040 ∧ neg inf = false ∧ neg (negate inf) = true := by
    decide +kernel
  by_cases hn : neg x = true
  · exact .inr (.inr (eq_of_neg_mag (by rw [hn, c.2.2.2]) (by rw [c.2.1]; omega)))
  · exact .inr (.inl (eq_of_neg_mag (by rw [c.2.2.1]; simpa using hn) (by rw [c.1]; omega)))

theorem exp_arg_notNaN {x : BitVec 32} (h : ¬ IsNaN x) : ¬ IsNaN (mul FFP_LOG2E x) := by
  rcases trichotomy h with h | h | h
  · rw [mul_fin log2e_val.1 h]; exact rnd_notNaN _ _
  · rw [h]; decide +kernel
  · rw [h]; decide +kernel

/-- **C80** (part) `exp` is free of undefined behaviour for every argument that is not a NaN. -/
theorem C80_defined (x : BitVec 32) (h : ¬ IsNaN x) : ∃ r, exp x = .ok r := by
  unfold exp
  exact C79_defined _ (exp_arg_notNaN h)

/-- **C80** (part) `exp` is zero up to `-87.4` and infinite from `88.8` on, infinities included. -/
theorem C80_limits (x : BitVec 32) : (F32.le x (lit (-87.4)) = true → exp x = .ok (lit 0)) ∧
    (F32.le (lit 88.8) x = true → exp x = .ok inf) := by
  have c : Finite (lit (-87.4)) ∧ val (lit (-87.4)) ≤ -87.39 ∧ Finite (lit 88.8) ∧ 88.79 ≤ val (lit 88.8) := by decide +kernel
  constructor
  · intro h
    have hn : ¬ IsNaN x := by unfold F32.le at h; simp only [decide_eq_true_eq] at h; exact h.1
    have hy := exp_arg_notNaN hn
    unfold exp
    apply (C79_limits _).1
    rcases trichotomy hn with hx | rfl | rfl
    · rw [le_fin hx c.1, decide_eq_true_eq] at h
      unfold F32.le
      rw [decide_eq_true_eq, ← val_le_iff]
      refine ⟨hy, lit_m126.1.notNaN, ?_⟩
      rw [mul_fin log2e_val.1 hx]
      refine rnd_le lit_m126.1 ?_
      rw [log2e_val.2, lit_m126.2]
      linarith [c.2.1]
    · revert h; decide +kernel
    · decide +kernel
  · intro h
    have hn : ¬ IsNaN x := by unfold F32.le at h; simp only [decide_eq_true_eq] at h; exact h.2.1
    have hy := exp_arg_notNaN hn
    unfold exp
    apply (C79_limits _).2
    rcases trichotomy hn with hx | rfl | rfl
    · rw [le_fin c.2.2.1 hx, decide_eq_true_eq] at h
      unfold F32.lt
      rw [decide_eq_true_eq, ← val_lt_iff]
      refine ⟨lit_128.1.notNaN, hy, ?_⟩
      rw [mul_fin log2e_val.1 hx]
      have c2 : Finite (lit 128.09) ∧ val (lit 128) < val (lit 128.09) ∧ val (lit 128.09) ≤ 128.091 := by decide +kernel
      refine lt_of_lt_of_le c2.2.1 (le_rnd c2.1 ?_)
      rw [log2e_val.2]
      linarith [c.2.2.2, c2.2.2]
    · decide +kernel
    · revert h; decide +kernel

/-- **C80** (part) `exp(0) = 1` exactly, for either zero. -/
theorem C80_zero (x : BitVec 32) (h : val x = 0) : exp x = .ok (lit 1) := by
  rcases zero_bits h with h | h <;> rw [h] <;> decide +kernel

/-- **C80** (part) `expm1` is the rounded difference of `exp` and one, so its error is relative to `e^x`. -/
theorem C80_expm1_partial (x : BitVec 32) (hx : Finite x) (h1 : -87.3 ≤ val x) (h2 : val x ≤ 88.3) :
    ∃ r, expm1 x = .ok r ∧ Finite r ∧
      |(val r : ℝ) - (Real.exp (val x) - 1)| ≤ (4.3e-7 + 7.5e-8 * |(val x : ℝ)|) * (Real.exp (val x) + 1) := by
  obtain ⟨e, he, hf, hr⟩ := C80_accuracy_partial x hx h1 h2
  refine ⟨sub e (lit 1), ?_, ?_⟩
  · unfold expm1; unfold exp at he; rw [he]; rfl
  have hab : |val x| ≤ 88.3 := _root_.abs_le.2 ⟨by linarith, h2⟩
  have hab' : |(val x : ℝ)| ≤ 88.3 := by
    have : ((|val x| : ℚ) : ℝ) ≤ ((88.3 : ℚ) : ℝ) := by exact_mod_cast hab
    push_cast at this; norm_num at this ⊢; exact this
  have hz := Real.exp_pos (val x : ℝ)
  have h0 := abs_nonneg (val x : ℝ)
  generalize Real.exp (val x : ℝ) = Z at *
  generalize |(val x : ℝ)| = X at *
  have hXZ : X * Z ≤ 88.3 * Z := mul_le_mul_of_nonneg_right hab' hz.le
  have hXZ0 : 0 ≤ X * Z := mul_nonneg h0 hz.le
  have hr' : |(val e : ℝ) - Z| ≤ 3.6e-7 * Z + 7.4e-8 * (X * Z) := by
    refine hr.trans (le_of_eq ?_); ring
  obtain ⟨r1, r2⟩ := _root_.abs_le.1 hr'
  have e0 : 0 ≤ (val e : ℝ) := by norm_num at r1 hXZ; linarith
  have e0' : 0 ≤ val e := by exact_mod_cast e0
  have c : Finite (negate (lit 1)) ∧ val (negate (lit 1)) = -1 := by decide +kernel
  rw [sub_fin hf fin_one, val_one]
  generalize (neg e && !neg (lit 1)) = s
  have f : Finite (rnd s (val e - 1)) := (rnd_between c.1 hf (by rw [c.2]; linarith) (by linarith)).1
  refine ⟨f, ?_⟩
  have hq : |val e - 1| ≤ val e + 1 := by rw [_root_.abs_le]; constructor <;> linarith
  have k : |val (rnd s (val e - 1)) - (val e - 1)| ≤ (val e + 1) / 16777216 + 1e-45 := by
    refine (rnd_err f).trans (max_le ?_ ?_)
    · have := mul_le_mul_of_nonneg_right hq (show (0 : ℚ) ≤ 2 ^ (-24 : ℤ) by norm_num)
      refine this.trans ?_
      norm_num; linarith
    · norm_num; linarith
  have k' : |((val (rnd s (val e - 1)) : ℚ) : ℝ) - ((val e : ℝ) - 1)| ≤ ((val e : ℝ) + 1) / 16777216 + 1e-45 := by
    have : ((|val (rnd s (val e - 1)) - (val e - 1)| : ℚ) : ℝ) ≤ (((val e + 1) / 16777216 + 1e-45 : ℚ) : ℝ) := by
      exact_mod_cast k
    push_cast at this; norm_num at this ⊢; exact this
  have t := abs_sub_le ((val (rnd s (val e - 1)) : ℚ) : ℝ) ((val e : ℝ) - 1) (Z - 1)
  rw [show (val e : ℝ) - 1 - (Z - 1) = (val e : ℝ) - Z by ring] at t
  have e3 : (4.3e-7 + 7.5e-8 * X) * (Z + 1) = 4.3e-7 * Z + 7.5e-8 * (X * Z) + 4.3e-7 + 7.5e-8 * X := by ring
  rw [e3]
  generalize X * Z = W at *
  norm_num at t k' hr' r2 hXZ ⊢
  linarith

/-- **C80** (negation) `exp(88.5)` is infinite although `e^88.5` is below the largest float, and `expm1` loses a
small argument altogether. -/
theorem C80_false : exp (lit 88.5) = .ok inf ∧ val (lit 88.5) = 88.5 ∧ Real.exp 88.5 < (val fltMax : ℝ) ∧
    expm1 (lit 0.00000001) = .ok (lit 0) ∧ 0 < val (lit 0.00000001) := by
  refine ⟨by decide +kernel, by decide +kernel, ?_, by decide +kernel, by decide +kernel⟩
  have h : Real.exp 88.5 ≤ 3e38 := by
    have h1 : Real.exp 88.5 ^ 2 = Real.exp 1 ^ 177 := by
      rw [← Real.exp_nat_mul, ← Real.exp_nat_mul]; norm_num
    have h2 : Real.exp 1 ^ 177 ≤ 2.7182818286 ^ 177 := pow_le_pow_left₀ (Real.exp_pos _).le Real.exp_one_lt_d9.le _
    have h3 : Real.exp 88.5 ^ 2 ≤ 3e38 ^ 2 := by rw [h1]; exact h2.trans (by norm_num)
    exact (pow_le_pow_iff_left₀ (Real.exp_pos _).le (by norm_num) (by norm_num)).1 h3
  have h4 : ((3.4e38 : ℚ) : ℝ) ≤ (val fltMax : ℝ) := by exact_mod_cast fltMax_val.2
  norm_num at h h4 ⊢; linarith

example : Finite (lit 1) ∧ -87.3 ≤ val (lit 1) ∧ val (lit 1) ≤ 88.3 ∧ exp (lit 1) = .ok 0x402df854#32 := by decide +kernel

end Verif.Ffmath
