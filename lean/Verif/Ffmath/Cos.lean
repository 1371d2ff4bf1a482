import Verif.Ffmath.IsEqual

/-!
# `cos` and `tan` (C87)

IEEE binary32 arithmetic.
-/

namespace Verif.Ffmath

open Verif F32

theorem fPI2 : Finite FFP_PI_2 ∧ val FFP_PI_2 = 13176795 / 8388608 := by decide +kernel

theorem near_PI2 : Near FFP_PI_2 (Real.pi / 2) 4.4e-8 := by
  refine ⟨fPI2.1, ?_⟩
  have p1 := Real.pi_gt_d20
  have p2 := Real.pi_lt_d20
  rw [fPI2.2, _root_.abs_le]
  push_cast
  norm_num at p1 p2 ⊢
  constructor <;> linarith

theorem cos_eq {x : BitVec 32} (hx : Finite x) :
    cos x = if |val x| = val FFP_PI_2 then lit 1.0e-12 else sin (add x FFP_PI_2) := by
  have h := C88_exact FFP_PI_2 (absolute x) fPI2.1 (absolute_finite.2 hx) (by decide +kernel)
  rw [← C88_symm _ _ (absolute_finite.2 hx) fPI2.1, absolute_val] at h
  unfold cos
  by_cases c : |val x| = val FFP_PI_2
  · rw [if_pos c]; dsimp only; rw [if_pos (h.2 c.symm)]
  · rw [if_neg c]; dsimp only; rw [if_neg (fun hh => c (h.1 hh).symm)]

theorem lit_tiny : Finite (lit 1.0e-12) ∧ 0 < val (lit 1.0e-12) ∧ val (lit 1.0e-12) ≤ 1.1e-12 := by decide +kernel

/-- The shifted argument. -/
theorem cos_arg {x : BitVec 32} (hx : Finite x) (h : |val x| ≤ 2.5e7) :
    Finite (add x FFP_PI_2) ∧ |val (add x FFP_PI_2)| ≤ 2.6e7 ∧
    |((val (add x FFP_PI_2) : ℚ) : ℝ) - ((val x : ℝ) + Real.pi / 2)| ≤ 1.5e-7 + 6e-8 * |(val x : ℝ)| := by
  have hX : |(val x : ℝ)| ≤ 2.5e7 := by
    have : ((|val x| : ℚ) : ℝ) ≤ ((2.5e7 : ℚ) : ℝ) := by exact_mod_cast h
    push_cast at this; norm_num at this ⊢; exact this
  have p2 := Real.pi_lt_d20
  have p0 := Real.pi_pos
  have hs := abs_add_le (val x : ℝ) (Real.pi / 2)
  rw [abs_of_pos (by positivity : 0 < Real.pi / 2)] at hs
  have n := Near.add (e' := 1.5e-7 + 6e-8 * |(val x : ℝ)|) (|(val x : ℝ)| + 1.5708) (Near.self hx) near_PI2
    (by
      generalize |(val x : ℝ) + Real.pi / 2| = A at *
      generalize |(val x : ℝ)| = B at *
      norm_num at p2 ⊢; linarith)
    (by generalize |(val x : ℝ)| = B at *; norm_num at hX ⊢; linarith)
    (by
      have := abs_nonneg (val x : ℝ)
      generalize |(val x : ℝ)| = B at *
      norm_num; linarith)
  refine ⟨n.fin, ?_, n.err⟩
  have := n.abs_le
  have h2 : |((val (add x FFP_PI_2) : ℚ) : ℝ)| ≤ 2.6e7 := by
    generalize |(val x : ℝ) + Real.pi / 2| = A at *
    generalize |(val x : ℝ)| = B at *
    norm_num at hX p2 this ⊢
    linarith
  have : ((|val (add x FFP_PI_2)| : ℚ) : ℝ) ≤ ((2.6e7 : ℚ) : ℝ) := by
    push_cast; norm_num at h2 ⊢; exact h2
  exact_mod_cast this

theorem cos_small {X : ℝ} (h : |X| = 13176795 / 8388608) : |Real.cos X| ≤ 4.4e-8 := by
  rw [← Real.cos_abs, h]
  have e : Real.cos (13176795 / 8388608) = Real.sin (Real.pi / 2 - 13176795 / 8388608) := by
    rw [Real.sin_pi_div_two_sub]
  rw [e]
  refine Real.abs_sin_le_abs.trans ?_
  have p1 := Real.pi_gt_d20
  have p2 := Real.pi_lt_d20
  rw [_root_.abs_le]
  norm_num at p1 p2 ⊢
  constructor <;> linarith

/-- **C87 (partial).** `cos` is finite and within `9.52e-4 + 1.62e-7 |x|` of the cosine for every finite
argument up to 25 million in magnitude. -/
theorem C87_accuracy_partial (x : BitVec 32) (hx : Finite x) (h : |val x| ≤ 2.5e7) :
    Finite (cos x) ∧ |(val (cos x) : ℝ) - Real.cos (val x)| ≤ 9.52e-4 + 1.62e-7 * |(val x : ℝ)| := by
  rw [cos_eq hx]
  split
  · rename_i hc
    refine ⟨lit_tiny.1, ?_⟩
    have hX : |(val x : ℝ)| = 13176795 / 8388608 := by
      rw [fPI2.2] at hc
      have : ((|val x| : ℚ) : ℝ) = ((13176795 / 8388608 : ℚ) : ℝ) := by exact_mod_cast hc
      push_cast at this; exact this
    have h1 := cos_small hX
    have h2 : |(val (lit 1.0e-12) : ℝ)| ≤ 1.1e-12 := by
      have h3 : ((val (lit 1.0e-12) : ℚ) : ℝ) ≤ ((1.1e-12 : ℚ) : ℝ) := by exact_mod_cast lit_tiny.2.2
      have h4 : (0 : ℝ) < ((val (lit 1.0e-12) : ℚ) : ℝ) := by exact_mod_cast lit_tiny.2.1
      rw [abs_of_pos h4]
      push_cast at h3; norm_num at h3 ⊢; exact h3
    have h5 := abs_sub (val (lit 1.0e-12) : ℝ) (Real.cos (val x))
    have h6 := abs_nonneg (val x : ℝ)
    refine h5.trans ?_
    generalize |(val (lit 1.0e-12) : ℝ)| = A at *
    generalize |Real.cos (val x)| = B at *
    generalize |(val x : ℝ)| = C at *
    norm_num at h1 h2 ⊢
    linarith
  · obtain ⟨b1, b2, b3⟩ := cos_arg hx h
    obtain ⟨s1, s2⟩ := C86_accuracy_partial _ b1 b2
    refine ⟨s1, ?_⟩
    have h1 := abs_sin_sub ((val (add x FFP_PI_2) : ℚ) : ℝ) ((val x : ℝ) + Real.pi / 2)
    rw [Real.sin_add_pi_div_two] at h1
    have h2 := abs_add_le (((val (sin (add x FFP_PI_2)) : ℚ) : ℝ) - Real.sin (val (add x FFP_PI_2) : ℝ))
      (Real.sin (val (add x FFP_PI_2) : ℝ) - Real.cos (val x : ℝ))
    rw [sub_add_sub_cancel] at h2
    have h3 := abs_add_le (((val (add x FFP_PI_2) : ℚ) : ℝ) - ((val x : ℝ) + Real.pi / 2)) ((val x : ℝ) + Real.pi / 2)
    rw [sub_add_cancel] at h3
    have h4 := abs_add_le (val x : ℝ) (Real.pi / 2)
    rw [abs_of_pos (by positivity : 0 < Real.pi / 2)] at h4
    have p2 := Real.pi_lt_d20
    refine h2.trans ?_
    have h6 := abs_nonneg (val x : ℝ)
    generalize |((val (sin (add x FFP_PI_2)) : ℚ) : ℝ) - Real.sin (val (add x FFP_PI_2) : ℝ)| = r1 at *
    generalize |Real.sin (val (add x FFP_PI_2) : ℝ) - Real.cos (val x : ℝ)| = r2 at *
    generalize |((val (add x FFP_PI_2) : ℚ) : ℝ) - ((val x : ℝ) + Real.pi / 2)| = r3 at *
    generalize |((val (add x FFP_PI_2) : ℚ) : ℝ)| = r4 at *
    generalize |(val x : ℝ) + Real.pi / 2| = r5 at *
    generalize |(val x : ℝ)| = r6 at *
    norm_num at *
    linarith

/-- **C87 (partial).** In the same range the result never exceeds one in magnitude. -/
theorem C87_bound_partial (x : BitVec 32) (hx : Finite x) (h : |val x| ≤ 2.5e7) : |val (cos x)| ≤ 1 := by
  rw [cos_eq hx]
  split
  · rw [abs_of_pos lit_tiny.2.1]
    exact lit_tiny.2.2.trans (by norm_num)
  · obtain ⟨b1, b2, b3⟩ := cos_arg hx h
    exact C86_bound_partial _ b1 b2

/-- **C87.** A NaN or an infinite argument gives a NaN. -/
theorem C87_special (x : BitVec 32) (h : IsNaN x ∨ IsInf x) : IsNaN (cos x) ∧ IsNaN (tan x) := by
  have hc : IsNaN (cos x) := by
    unfold cos
    have hf : ¬ Finite (absolute x) := by
      rw [absolute_finite]
      rcases h with h | h
      · exact fun hf => hf.notNaN h
      · exact fun hf => hf.notInf h
    dsimp only
    rw [if_neg (by rw [C88_special _ _ (.inl hf)]; simp)]
    apply C86_special
    rcases h with h | h
    · exact .inl (add_nan_left h)
    · rcases inf_bits h with h | h <;> subst h <;> right <;> decide +kernel
  exact ⟨hc, div_nan_left (C86_special x h)⟩

/-- **C87 (partial).** The circle: the squares of `sin` and `cos` add up to one within 0.004 for
arguments up to a thousand. -/
theorem C87_circle_partial (x : BitVec 32) (hx : Finite x) (h : |val x| ≤ 1000) :
    |val (sin x) ^ 2 + val (cos x) ^ 2 - 1| ≤ 0.00435 := by
  have hX : |(val x : ℝ)| ≤ 1000 := by
    have : ((|val x| : ℚ) : ℝ) ≤ ((1000 : ℚ) : ℝ) := by exact_mod_cast h
    push_cast at this; exact this
  have h1 := (C86_accuracy_partial x hx (h.trans (by norm_num))).2
  have h2 := (C87_accuracy_partial x hx (h.trans (by norm_num))).2
  have b1 := C86_bound_partial x hx (h.trans (by norm_num))
  have b2 := C87_bound_partial x hx (h.trans (by norm_num))
  have b1' : |(val (sin x) : ℝ)| ≤ 1 := by
    have : ((|val (sin x)| : ℚ) : ℝ) ≤ ((1 : ℚ) : ℝ) := by exact_mod_cast b1
    push_cast at this; exact this
  have b2' : |(val (cos x) : ℝ)| ≤ 1 := by
    have : ((|val (cos x)| : ℚ) : ℝ) ≤ ((1 : ℚ) : ℝ) := by exact_mod_cast b2
    push_cast at this; exact this
  have key : |(val (sin x) : ℝ) ^ 2 + (val (cos x) : ℝ) ^ 2 - 1| ≤ 0.00435 := by
    have e : (val (sin x) : ℝ) ^ 2 + (val (cos x) : ℝ) ^ 2 - 1 =
        ((val (sin x) : ℝ) - Real.sin (val x)) * ((val (sin x) : ℝ) + Real.sin (val x)) +
        ((val (cos x) : ℝ) - Real.cos (val x)) * ((val (cos x) : ℝ) + Real.cos (val x)) := by
      have := Real.sin_sq_add_cos_sq (val x : ℝ)
      linear_combination this
    rw [e]
    refine (abs_add_le _ _).trans ?_
    rw [abs_mul, abs_mul]
    have t1 : |(val (sin x) : ℝ) + Real.sin (val x)| ≤ 2 := by
      have := abs_add_le (val (sin x) : ℝ) (Real.sin (val x))
      have := Real.abs_sin_le_one (val x : ℝ)
      linarith
    have t2 : |(val (cos x) : ℝ) + Real.cos (val x)| ≤ 2 := by
      have := abs_add_le (val (cos x) : ℝ) (Real.cos (val x))
      have := Real.abs_cos_le_one (val x : ℝ)
      linarith
    have m1 := mul_le_mul h1 t1 (abs_nonneg _) (by positivity)
    have m2 := mul_le_mul h2 t2 (abs_nonneg _) (by positivity)
    refine (add_le_add m1 m2).trans ?_
    generalize |(val x : ℝ)| = A at *
    norm_num
    linarith
  have : ((|val (sin x) ^ 2 + val (cos x) ^ 2 - 1| : ℚ) : ℝ) ≤ ((0.00435 : ℚ) : ℝ) := by
    push_cast; norm_num at key ⊢; exact key
  exact_mod_cast this

/-- **C87 (partial).** `tan` for arguments up to a hundred that keep the cosine above 0.02. The
missing part, near the poles, is false: `C87_tan_false`. -/
theorem C87_tan_partial (x : BitVec 32) (hx : Finite x) (h : |val x| ≤ 100) (hc : 0.02 ≤ |Real.cos (val x)|) :
    Finite (tan x) ∧
    |(val (tan x) : ℝ) - Real.tan (val x)| ≤ 1.05e-3 * (1 + |Real.tan (val x)|) / |Real.cos (val x)| := by
  have hX : |(val x : ℝ)| ≤ 100 := by
    have : ((|val x| : ℚ) : ℝ) ≤ ((100 : ℚ) : ℝ) := by exact_mod_cast h
    push_cast at this; exact this
  obtain ⟨f1, h1⟩ := C86_accuracy_partial x hx (h.trans (by norm_num))
  obtain ⟨f2, h2⟩ := C87_accuracy_partial x hx (h.trans (by norm_num))
  have n1 : Near (sin x) (Real.sin (val x)) 9.7e-4 := ⟨f1, by
    generalize |(val x : ℝ)| = A at *; generalize |(val (sin x) : ℝ) - Real.sin (val x)| = B at *; norm_num at h1 ⊢; linarith⟩
  have n2 : Near (cos x) (Real.cos (val x)) 9.7e-4 := ⟨f2, by
    generalize |(val x : ℝ)| = A at *; generalize |(val (cos x) : ℝ) - Real.cos (val x)| = B at *; norm_num at h2 ⊢; linarith⟩
  have hc0 : Real.cos (val x) ≠ 0 := by
    intro h0; rw [h0, abs_zero] at hc; norm_num at hc
  have ht : Real.sin (val x) / Real.cos (val x) = Real.tan (val x) := (Real.tan_eq_sin_div_cos _).symm
  have hT : |Real.tan (val x)| * |Real.cos (val x)| ≤ 1 := by
    rw [← abs_mul, Real.tan_mul_cos hc0]; exact Real.abs_sin_le_one _
  have hc1 := Real.abs_cos_le_one (val x : ℝ)
  have hTn := abs_nonneg (Real.tan (val x : ℝ))
  rw [show tan x = div (sin x) (cos x) from rfl]
  rw [← ht]
  rw [← ht] at hT hTn
  generalize hTT : |Real.sin (val x) / Real.cos (val x)| = T at *
  generalize hCC : |Real.cos (val x)| = C at *
  have C0 : 0 < C := lt_of_lt_of_le (by norm_num) hc
  have hT50 : T ≤ 50 := by
    have : 0.02 * T ≤ 1 := by
      refine le_trans ?_ hT
      rw [_root_.mul_comm T]; exact mul_le_mul_of_nonneg_right hc hTn
    norm_num at this ⊢; linarith
  have key : 1.04e-3 * (1 + T) / C ≤ 53.04 / 0.02 := by
    apply div_le_div₀ (by norm_num) _ (by norm_num) hc
    norm_num; linarith
  have n3 := Near.div (e' := 1.05e-3 * (1 + T) / C) T (C * 0.95) (1.04e-3 * (1 + T) / C) (T + 1.04e-3 * (1 + T) / C) n1 n2 hc0
    (by positivity) (by rw [hCC]; norm_num at hc ⊢; linarith) hTT.le
    (by
      rw [div_le_div_iff₀ (by positivity) C0]
      have : 0 ≤ (1 + T) * C := by positivity
      have e : (9.7e-4 + T * 9.7e-4) * C = 9.7e-4 * ((1 + T) * C) := by ring
      have e2 : 1.04e-3 * (1 + T) * (C * 0.95) = 9.88e-4 * ((1 + T) * C) := by ring
      rw [e, e2]
      exact mul_le_mul_of_nonneg_right (by norm_num) this)
    le_rfl (by norm_num at key ⊢; linarith)
    (by
      have e : 1.05e-3 * (1 + T) / C = 1.04e-3 * (1 + T) / C + 1e-5 * ((1 + T) / C) := by ring
      have e2 : 1.04e-3 * (1 + T) / C = 1.04e-3 * ((1 + T) / C) := by ring
      rw [e, e2]
      have g : 1 + T ≤ (1 + T) / C := by
        rw [le_div_iff₀ C0]
        calc (1 + T) * C ≤ (1 + T) * 1 := mul_le_mul_of_nonneg_left hc1 (by positivity)
          _ = 1 + T := by ring
      generalize (1 + T) / C = G at *
      norm_num
      linarith)
  exact ⟨n3.fin, n3.err⟩

/-- **C87, negation.** `cos` is not exactly even. -/
theorem C87_even_false : val (cos (negate (lit 0.125))) ≠ val (cos (lit 0.125)) := by decide +kernel

/-- **C87, negation.** `tan` overflows at a finite argument next to a pole and is not exactly odd: the special case of
`cos` covers only the float nearest to half of pi. -/
theorem C87_tan_false : IsInf (tan (lit 4.712389)) ∧ Finite (tan (negate (lit 4.712389))) := by decide +kernel

/-- Cases of the theorems above. -/
example : Finite (lit 0.5) ∧ |val (lit 0.5)| ≤ 2.5e7 ∧ |val (lit 0.5)| ≤ 1000 ∧ |val (lit 0.5)| ≤ 100 ∧
    Finite (lit 1000000) ∧ |val (lit 1000000)| ≤ 2.5e7 := by
  decide +kernel

example : (0.02 : ℝ) ≤ |Real.cos (val (lit 0.5))| := by
  have h : val (lit 0.5) = 1 / 2 := by decide +kernel
  rw [h]; push_cast
  have := Real.one_sub_sq_div_two_le_cos (x := 1 / 2)
  refine le_trans ?_ (le_abs_self _)
  norm_num at this ⊢
  linarith

end Verif.Ffmath
