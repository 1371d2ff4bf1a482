import Verif.Fp16.ExpReal
import Mathlib.Analysis.Complex.ExponentialBounds

/-!
# Properties C122 and C123 (`fp16::exp`)
-/

namespace Verif.Fp16

/-- The values of `exp` (not a definition of the repository). -/
def expF (x : Int) : Int :=
  if x ≤ -681391 then 0 else if x < 0 then recip (expV (-x)) else if x = 0 then 65536
  else if x = 65536 then 178145 else if x < 681391 then expV x else 2147483647

theorem exp_eq (x : Int) : exp x = .ok (expF x) := by
  unfold expF
  split_ifs with h1 h2 h3 h4 h5
  · unfold exp expMax one
    rw [if_neg (by omega), if_neg (by omega), if_neg (by omega), if_pos (by omega)]; rfl
  · have := exp_neg_eq (x := -x) (by omega) (by omega)
    rwa [neg_neg] at this
  · subst h3; rfl
  · subst h4; rfl
  · exact exp_pos_eq (by omega) h5 h4
  · unfold exp expMax one
    rw [if_neg (by omega), if_neg (by omega), if_pos (by omega)]; rfl

theorem recip_le {r : Int} (h : 65536 ≤ r) : recip r ≤ 65536 :=
  le_trans (recip_anti (by norm_num) h) (by decide)

theorem recip_nonneg {r : Int} (h : 0 < r) : 0 ≤ recip r := by
  unfold recip; exact Int.ediv_nonneg (by omega) (by omega)

theorem expF_mono : Monotone expF := by
  have e1 : expV 65535 = 178143 := by decide +kernel
  have e2 : expV 65537 = 178148 := by decide +kernel
  apply monotone_int_of_le_succ
  intro x
  unfold expF
  by_cases h1 : x + 1 ≤ -681391
  · rw [if_pos (by omega), if_pos h1]
  rw [if_neg h1]
  by_cases h2 : x + 1 < 0
  · rw [if_pos h2]
    have g1 := expV_ge (x := -(x + 1)) (by omega)
    split_ifs with h3 h4
    · exact recip_nonneg (by omega)
    · have g2 : expV (-(x + 1)) ≤ expV (-x) := expV_mono (by omega) (by omega)
      exact recip_anti (by omega) g2
    all_goals omega
  rw [if_neg h2]
  by_cases h3 : x + 1 = 0
  · rw [if_pos h3, if_neg (by omega), if_pos (by omega)]
    have g1 := expV_ge (x := -x) (by omega)
    exact recip_le (by omega)
  rw [if_neg h3, if_neg (by omega), if_neg (by omega)]
  by_cases h4 : x = 0
  · subst h4
    rw [if_pos rfl, if_neg (by norm_num), if_pos (by norm_num)]
    have := expV_ge (x := 0 + 1) (by norm_num)
    omega
  rw [if_neg h4]
  by_cases h5 : x + 1 = 65536
  · rw [if_pos h5, if_neg (by omega), if_pos (by omega), show x = 65535 by omega, e1]; norm_num
  rw [if_neg h5]
  by_cases h6 : x = 65536
  · subst h6
    rw [if_pos rfl, if_pos (by norm_num), show (65536 : Int) + 1 = 65537 by norm_num, e2]; norm_num
  rw [if_neg h6]
  split_ifs with h7 h8
  · exact expV_mono (by omega) (by omega)
  · have := expV_lt (x := x) (by omega) h7; omega
  · omega
  · exact le_rfl

/-- **C122.** `exp` is defined for every raw value and monotone. -/
theorem C122_monotone (x y : Int) (h : x ≤ y) :
    ∃ a b : Int, exp x = .ok a ∧ exp y = .ok b ∧ a ≤ b ∧ 0 ≤ a ∧ b ≤ 2147483647 := by
  refine ⟨_, _, exp_eq x, exp_eq y, expF_mono h, ?_, ?_⟩
  · have h1 : expF (min x (-681391)) ≤ expF x := expF_mono (min_le_left _ _)
    have h2 : expF (min x (-681391)) = 0 := by unfold expF; rw [if_pos (min_le_right _ _)]
    omega
  · have h1 : expF y ≤ expF (max y 681391) := expF_mono (le_max_left _ _)
    have h2 : expF (max y 681391) = 2147483647 := by
      have := le_max_right y 681391
      unfold expF
      rw [if_neg (by omega), if_neg (by omega), if_neg (by omega), if_neg (by omega),
        if_neg (by omega)]
    omega

example : exp (-70000) = .ok 22522 ∧ exp 65535 = .ok 178143 ∧ exp 65536 = .ok 178145
    ∧ exp 65537 = .ok 178148 := by decide +kernel

/-- **C123.** For `0 <= x < 681391` (the logarithm of `2^15`) the relative error of `exp` is
below `5.2e-5`. -/
theorem C123_positive (x : Int) (h0 : 0 ≤ x) (h1 : x < 681391) :
    ∃ r : Int, exp x = .ok r ∧
      |(r : ℝ) / 65536 - Real.exp (x / 65536)| ≤ 5.2e-5 * Real.exp (x / 65536) := by
  refine ⟨_, exp_eq x, ?_⟩
  rcases eq_or_lt_of_le h0 with h | h
  · subst h
    norm_num [expF]
  by_cases h4 : x = 65536
  · subst h4
    have e1 := Real.exp_one_gt_d9
    have e2 := Real.exp_one_lt_d9
    have : expF 65536 = 178145 := by decide
    rw [this]
    push_cast
    rw [div_self (by norm_num), abs_le]
    norm_num at e1 e2 ⊢
    constructor <;> linarith
  · have e : expF x = expV x := by
      unfold expF
      rw [if_neg (by omega), if_neg (by omega), if_neg (by omega), if_neg h4, if_pos h1]
    rw [e]
    have := expV_err h0 h1
    rw [abs_le] at this ⊢
    norm_num at this ⊢
    constructor <;> linarith [this.1, this.2]

/-- **C123.** For negative arguments the absolute error is below `6e-5`. -/
theorem C123_negative (x : Int) (h : x < 0) :
    ∃ r : Int, exp x = .ok r ∧ |(r : ℝ) / 65536 - Real.exp (x / 65536)| ≤ 6e-5 := by
  refine ⟨_, exp_eq x, ?_⟩
  unfold expF
  split_ifs with h1
  · -- below the logarithm of `2^-15`
    have hx : (x : ℝ) / 65536 ≤ -(681391 / 65536) := by
      have : (x : ℝ) ≤ -681391 := by exact_mod_cast h1
      rw [div_le_iff₀ (by norm_num)]; linarith
    have h2 : Real.exp (x / 65536) ≤ Real.exp (-10) := Real.exp_le_exp.2 (by norm_num at hx ⊢; linarith)
    have h3 : Real.exp (-10) ≤ 6e-5 := by
      have e1 := Real.exp_one_gt_d9
      have e2 : Real.exp 10 = Real.exp 1 ^ 10 := by rw [← Real.exp_nat_mul]; norm_num
      have e3 : (2.7 : ℝ) ^ 10 ≤ Real.exp 10 := by
        rw [e2]; exact pow_le_pow_left₀ (by norm_num) (by norm_num at e1 ⊢; linarith) 10
      rw [Real.exp_neg]
      rw [inv_le_comm₀ (Real.exp_pos _) (by norm_num)]
      norm_num at e3 ⊢; linarith
    have h4 := Real.exp_pos ((x : ℝ) / 65536)
    rw [abs_le]
    norm_num at h3 ⊢
    constructor <;> linarith
  · have g := expV_err (x := -x) (by omega) (by omega)
    have hge := expV_ge (x := -x) (by omega)
    have hr0 : (0 : ℝ) < expV (-x) := by exact_mod_cast (by omega : 0 < expV (-x))
    have hq : |(recip (expV (-x)) : ℝ) - 65536 * 65536 / expV (-x)| ≤ 1 / 2 := by
      generalize expV (-x) = r at *
      have h1 : recip r * (2 * r) ≤ 65536 * 131072 + r := Int.ediv_mul_le _ (by omega)
      have h2 : 65536 * 131072 + r < (recip r + 1) * (2 * r) := Int.lt_ediv_add_one_mul_self _ (by omega)
      have h1' : (recip r : ℝ) * (2 * r) ≤ 65536 * 131072 + r := by exact_mod_cast h1
      have h2' : 65536 * 131072 + (r : ℝ) ≤ (recip r + 1) * (2 * r) := by exact_mod_cast h2.le
      have e : (recip r : ℝ) - 65536 * 65536 / r = (recip r * r - 65536 * 65536) / r := by field_simp
      rw [e, abs_le, le_div_iff₀ hr0, div_le_iff₀ hr0]
      constructor <;> linarith
    push_cast at g
    rw [neg_div] at g
    have hE := Real.exp_neg ((x : ℝ) / 65536)
    have hE1 : 1 ≤ Real.exp (-((x : ℝ) / 65536)) := by
      apply Real.one_le_exp
      have : (x : ℝ) ≤ 0 := by exact_mod_cast h.le
      have : (x : ℝ) / 65536 ≤ 0 := div_nonpos_of_nonpos_of_nonneg this (by norm_num)
      linarith
    have hE2 : Real.exp ((x : ℝ) / 65536) = (Real.exp (-((x : ℝ) / 65536)))⁻¹ := by
      rw [← Real.exp_neg, neg_neg]
    rw [hE2]
    generalize Real.exp (-((x : ℝ) / 65536)) = E at *
    generalize (expV (-x) : ℝ) = r at *
    generalize (recip (expV (-x)) : ℝ) = v at *
    have hk : |65536 * 65536 / r - 65536 * E⁻¹| ≤ 3.42 := by
      have hE0 : 0 < E := by linarith
      have e : 65536 * 65536 / r - 65536 * E⁻¹ = -(65536 / E) * ((r - 65536 * E) / r) := by
        field_simp; ring
      have hrE : 65530 * E ≤ r := by
        have := (abs_le.1 g).1; norm_num at this; linarith
      have h1 : |(r - 65536 * E) / r| ≤ 5.201e-5 := by
        rw [abs_div, abs_of_pos hr0, div_le_iff₀ hr0]
        refine g.trans ?_
        norm_num; linarith
      have h2 : |-(65536 / E)| ≤ 65536 := by
        rw [abs_neg, abs_of_pos (by positivity), div_le_iff₀ hE0]; linarith
      rw [e, abs_mul]
      refine (mul_le_mul h2 h1 (abs_nonneg _) (by norm_num)).trans ?_
      norm_num
    rw [abs_le] at hk hq ⊢
    norm_num at hk ⊢
    constructor <;> linarith [hk.1, hk.2, hq.1, hq.2]

/-- **C123.** From the logarithm of `2^15` on, `exp` returns the largest value. -/
theorem C123_saturates (x : Int) (h : 681391 ≤ x) : exp x = .ok 2147483647 := by
  rw [exp_eq]
  unfold expF
  rw [if_neg (by omega), if_neg (by omega), if_neg (by omega), if_neg (by omega), if_neg (by omega)]

example : exp 300000 = .ok 6375574 ∧ exp (-300000) = .ok 674 ∧ exp 681390 = .ok 2147460374 := by
  decide +kernel

end Verif.Fp16
