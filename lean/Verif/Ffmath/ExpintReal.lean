import Mathlib.NumberTheory.Harmonic.EulerMascheroni
import Mathlib.Analysis.SpecialFunctions.Log.Deriv
import Mathlib.Analysis.Complex.ExponentialBounds
import Mathlib.Analysis.SpecificLimits.Normed

/-!
# The exponential integral and Euler's constant over the reals

Proof tools for C107; nothing here is a definition of the repository.
-/

namespace Verif.Ffmath

open Real Filter Topology

/-! ### Euler's constant to seven digits -/

theorem log_step_le (n : ℝ) (hn : 0 < n) : log (1 + n⁻¹) ≤ (1 / n + 1 / (n + 1)) / 2 := by
  have h := hasSum_log_one_add_inv hn
  set t : ℝ := 1 / (2 * n + 1) with ht
  have ht0 : 0 < t := by positivity
  have ht1 : t < 1 := by rw [ht, div_lt_one (by positivity)]; linarith
  have hg : HasSum (fun k : ℕ => 2 * t * (t ^ 2) ^ k) (2 * t * (1 - t ^ 2)⁻¹) :=
    (hasSum_geometric_of_lt_one (by positivity) (by nlinarith)).mul_left _
  have := hasSum_le (fun k => ?_) h hg
  · refine this.trans (le_of_eq ?_)
    have e : 1 - t ^ 2 = 4 * n * (n + 1) / (2 * n + 1) ^ 2 := by rw [ht]; field_simp; ring
    rw [e, ht]
    field_simp
    ring
  · have e : (1 : ℝ) / (2 * k + 1) ≤ 1 := by
      rw [div_le_one (by positivity)]; linarith [(Nat.cast_nonneg k : (0 : ℝ) ≤ k)]
    calc (2 : ℝ) * (1 / (2 * k + 1)) * t ^ (2 * k + 1) ≤ 2 * 1 * t ^ (2 * k + 1) := by gcongr
      _ = 2 * t * (t ^ 2) ^ k := by rw [← pow_mul, pow_succ]; ring

theorem le_log_step (n : ℝ) (hn : 0 < n) :
    (1 / n + 1 / (n + 1)) / 2 - (1 / n ^ 2 - 1 / (n + 1) ^ 2) / 12 ≤ log (1 + n⁻¹) := by
  have h := hasSum_log_one_add_inv hn
  have h2 := sum_le_hasSum (Finset.range 2) (fun k _ => by positivity) h
  simp only [Finset.sum_range_succ, Finset.sum_range_zero] at h2
  refine le_trans ?_ h2
  have hd : 0 < 2 * n + 1 := by positivity
  rw [← sub_nonneg]
  have e : 0 + 2 * (1 / (2 * ((0 : ℕ) : ℝ) + 1)) * (1 / (2 * n + 1)) ^ (2 * 0 + 1) + 2 * (1 / (2 * ((1 : ℕ) : ℝ) + 1)) * (1 / (2 * n + 1)) ^ (2 * 1 + 1) -
      ((1 / n + 1 / (n + 1)) / 2 - (1 / n ^ 2 - 1 / (n + 1) ^ 2) / 12) =
      (2 / (2 * n + 1) + 2 / (3 * (2 * n + 1) ^ 3) - ((1 / n + 1 / (n + 1)) / 2 - (1 / n ^ 2 - 1 / (n + 1) ^ 2) / 12)) := by
    push_cast
    field_simp
    ring
  rw [e]
  have e2 : (2 / (2 * n + 1) + 2 / (3 * (2 * n + 1) ^ 3) - ((1 / n + 1 / (n + 1)) / 2 - (1 / n ^ 2 - 1 / (n + 1) ^ 2) / 12)) =
      (2 * n ^ 2 + 2 * n + 1) / (12 * n ^ 2 * (n + 1) ^ 2 * (2 * n + 1) ^ 3) := by
    field_simp
    ring
  rw [e2]
  positivity

/-- `H_n - log n - 1/(2n)` increases to Euler's constant, and with `1/(12 n^2)` added it decreases. -/
theorem gamma_bounds (n : ℕ) (hn : 1 ≤ n) :
    (harmonic n : ℝ) - log n - 1 / (2 * n) ≤ eulerMascheroniConstant ∧
    eulerMascheroniConstant ≤ (harmonic n : ℝ) - log n - 1 / (2 * n) + 1 / (12 * (n : ℝ) ^ 2) := by
  have hstep : ∀ k : ℕ, 1 ≤ k → log ((k + 1 : ℕ) : ℝ) = log k + log (1 + (k : ℝ)⁻¹) := by
    intro k hk
    have hk0 : (0 : ℝ) < k := by exact_mod_cast hk
    rw [← log_mul hk0.ne' (by positivity)]
    congr 1
    push_cast
    field_simp
  have hh : ∀ k : ℕ, ((harmonic (k + 1) : ℚ) : ℝ) = (harmonic k : ℝ) + 1 / ((k : ℝ) + 1) := by
    intro k
    rw [harmonic_succ]; push_cast; rw [one_div]
  have hlim : Tendsto (fun k : ℕ => 1 / (2 * (k : ℝ))) atTop (𝓝 0) := by
    have := (tendsto_one_div_atTop_nhds_zero_nat (𝕜 := ℝ)).const_mul (1 / 2)
    refine (this.congr fun k => ?_).trans (by simp)
    rw [one_div_mul_one_div]
  have hlim2 : Tendsto (fun k : ℕ => 1 / (12 * (k : ℝ) ^ 2)) atTop (𝓝 0) := by
    have := ((tendsto_one_div_atTop_nhds_zero_nat (𝕜 := ℝ)).pow 2).const_mul (1 / 12)
    refine (this.congr fun k => ?_).trans (by simp)
    rw [one_div_pow, one_div_mul_one_div]
  have hlow := tendsto_harmonic_sub_log.sub hlim
  have hup := hlow.add hlim2
  rw [sub_zero] at hlow hup
  rw [add_zero] at hup
  constructor
  · refine ge_of_tendsto hlow (eventually_atTop.2 ⟨n, fun k hk => ?_⟩)
    induction k, hk using Nat.le_induction with
    | base => exact le_rfl
    | succ k hk ih =>
      refine ih.trans ?_
      have hk0 : (0 : ℝ) < k := by exact_mod_cast hn.trans hk
      have := log_step_le k hk0
      simp only [hstep k (hn.trans hk), hh]
      have e : 1 / (2 * ((k + 1 : ℕ) : ℝ)) = 1 / ((k : ℝ) + 1) / 2 := by push_cast; field_simp
      have e2 : 1 / (2 * (k : ℝ)) = 1 / (k : ℝ) / 2 := by field_simp
      rw [e, e2]
      linarith
  · refine le_of_tendsto hup (eventually_atTop.2 ⟨n, fun k hk => ?_⟩)
    induction k, hk using Nat.le_induction with
    | base => exact le_rfl
    | succ k hk ih =>
      refine le_trans ?_ ih
      have hk0 : (0 : ℝ) < k := by exact_mod_cast hn.trans hk
      have := le_log_step k hk0
      simp only [hstep k (hn.trans hk), hh]
      have e : 1 / (2 * ((k + 1 : ℕ) : ℝ)) = 1 / ((k : ℝ) + 1) / 2 := by push_cast; field_simp
      have e2 : 1 / (2 * (k : ℝ)) = 1 / (k : ℝ) / 2 := by field_simp
      have e3 : 1 / (12 * ((k + 1 : ℕ) : ℝ) ^ 2) = 1 / ((k : ℝ) + 1) ^ 2 / 12 := by push_cast; field_simp
      have e4 : 1 / (12 * (k : ℝ) ^ 2) = 1 / (k : ℝ) ^ 2 / 12 := by field_simp
      rw [e, e2, e3, e4]
      linarith

/-- The number used below (not a definition of the repository): the harmonic number, in a form the kernel evaluates quickly. -/
def harm (n : ℕ) : ℚ := Nat.rec 0 (fun k s => s + 1 / ((k : ℚ) + 1)) n

theorem harm_eq (n : ℕ) : harm n = harmonic n := by
  induction n with
  | zero => rfl
  | succ n ih => rw [harmonic_succ, ← ih, ← one_div]; push_cast; rfl

theorem gamma_near : |eulerMascheroniConstant - 0.57721566| ≤ 1e-7 := by
  obtain ⟨h1, h2⟩ := gamma_bounds 1024 (by norm_num)
  have hq : (7.50917567 : ℚ) ≤ harm 1024 ∧ harm 1024 ≤ 7.50917568 := by decide +kernel
  rw [harm_eq] at hq
  have q1 : (7.50917567 : ℝ) ≤ harmonic 1024 := by have := (Rat.cast_le (K := ℝ)).2 hq.1; push_cast at this; exact this
  have q2 : (harmonic 1024 : ℝ) ≤ 7.50917568 := by have := (Rat.cast_le (K := ℝ)).2 hq.2; push_cast at this; exact this
  have hl : log ((1024 : ℕ) : ℝ) = 10 * log 2 := by
    rw [show ((1024 : ℕ) : ℝ) = 2 ^ 10 by norm_num, log_pow]; norm_num
  rw [hl] at h1 h2
  clear hq hl
  generalize (harmonic 1024 : ℝ) = H at *
  have l1 := log_two_gt_d9
  have l2 := log_two_lt_d9
  norm_num at h1 h2 l1 l2 q1 q2
  rw [abs_le]
  constructor <;> norm_num <;> linarith

/-! ### The series -/

/-- The entire part of the exponential integral, `Ei x - gamma - log |x|` (not a definition of the repository). -/
noncomputable def einR (x : ℝ) : ℝ := ∑' k : ℕ, x ^ (k + 1) / (((k : ℝ) + 1) * ((k + 1).factorial : ℝ))

/-- The exponential integral `Ei` by its series (not a definition of the repository). -/
noncomputable def eiR (x : ℝ) : ℝ := eulerMascheroniConstant + log |x| + einR x

theorem ein_summable (x : ℝ) : Summable fun k : ℕ => x ^ (k + 1) / (((k : ℝ) + 1) * ((k + 1).factorial : ℝ)) := by
  have h := (summable_nat_add_iff 1).2 (Real.summable_pow_div_factorial |x|)
  refine Summable.of_norm_bounded h fun k => ?_
  rw [norm_div, norm_pow, Real.norm_eq_abs, Real.norm_eq_abs, abs_of_nonneg (a := ((k : ℝ) + 1) * _) (by positivity)]
  refine div_le_div_of_nonneg_left (by positivity) (by positivity) ?_
  have : (1 : ℝ) ≤ (k : ℝ) + 1 := by linarith [(Nat.cast_nonneg k : (0 : ℝ) ≤ k)]
  nlinarith [(by positivity : (0 : ℝ) < ((k + 1).factorial : ℝ))]

/-- The partial sum (not a definition of the repository). -/
noncomputable def einS (x : ℝ) (n : ℕ) : ℝ := ∑ k ∈ Finset.range n, x ^ (k + 1) / (((k : ℝ) + 1) * ((k + 1).factorial : ℝ))

theorem einS_le {x : ℝ} (hx : 0 ≤ x) (n : ℕ) : einS x n ≤ einR x :=
  (ein_summable x).sum_le_tsum _ fun k _ => by positivity

/-- The remainder after `n >= x` summands is at most `x^n / n!`. -/
theorem einR_le {x : ℝ} (hx : 0 ≤ x) (n : ℕ) (hn : x ≤ n) : einR x ≤ einS x n + x ^ n / (n.factorial : ℝ) := by
  unfold einR
  rw [← (ein_summable x).sum_add_tsum_nat_add n]
  refine add_le_add le_rfl ?_
  set r : ℝ := x / ((n : ℝ) + 1)
  have hn1 : (0 : ℝ) < (n : ℝ) + 1 := by positivity
  have hr0 : 0 ≤ r := by positivity
  have hr1 : r < 1 := by rw [div_lt_one hn1]; linarith
  have ht : ∀ k : ℕ, x ^ (n + k) / ((n + k).factorial : ℝ) ≤ x ^ n / (n.factorial : ℝ) * r ^ k := by
    intro k
    induction k with
    | zero => simp
    | succ k ih =>
      have e : x ^ (n + (k + 1)) / ((n + (k + 1)).factorial : ℝ) = x ^ (n + k) / ((n + k).factorial : ℝ) * (x / ((n : ℝ) + k + 1)) := by
        rw [← Nat.add_assoc, Nat.factorial_succ, pow_succ]
        push_cast
        field_simp
      rw [e, pow_succ, ← mul_assoc]
      refine mul_le_mul ih ?_ (by positivity) (by positivity)
      exact div_le_div_of_nonneg_left hx hn1 (by linarith [(Nat.cast_nonneg k : (0 : ℝ) ≤ k)])
  have hg : HasSum (fun k : ℕ => x ^ n / (n.factorial : ℝ) * r / ((n : ℝ) + 1) * r ^ k) (x ^ n / (n.factorial : ℝ) * r / ((n : ℝ) + 1) * (1 - r)⁻¹) :=
    (hasSum_geometric_of_lt_one hr0 hr1).mul_left _
  have hs : Summable fun k : ℕ => x ^ (k + n + 1) / (((k + n : ℕ) : ℝ) + 1) / ((k + n + 1).factorial : ℝ) := by
    have := (summable_nat_add_iff n).2 (ein_summable x)
    refine this.congr fun k => ?_
    rw [div_div]
  have hle : ∀ k : ℕ, x ^ (k + n + 1) / ((((k + n : ℕ) : ℝ) + 1) * ((k + n + 1).factorial : ℝ)) ≤ x ^ n / (n.factorial : ℝ) * r / ((n : ℝ) + 1) * r ^ k := by
    intro k
    have h1 := ht (k + 1)
    rw [show n + (k + 1) = k + n + 1 by ring] at h1
    have e : x ^ (k + n + 1) / ((((k + n : ℕ) : ℝ) + 1) * ((k + n + 1).factorial : ℝ)) = x ^ (k + n + 1) / ((k + n + 1).factorial : ℝ) / (((k + n : ℕ) : ℝ) + 1) := by
      rw [div_div, mul_comm]
    rw [e]
    calc _ ≤ (x ^ n / (n.factorial : ℝ) * r ^ (k + 1)) / ((n : ℝ) + 1) := by
            refine div_le_div₀ (by positivity) h1 hn1 ?_
            push_cast; linarith [(Nat.cast_nonneg k : (0 : ℝ) ≤ k)]
      _ = _ := by rw [pow_succ]; ring
  refine (((summable_nat_add_iff n).2 (ein_summable x)).tsum_le_tsum hle hg.summable).trans ?_
  rw [hg.tsum_eq]
  have e : x ^ n / (n.factorial : ℝ) * r / ((n : ℝ) + 1) * (1 - r)⁻¹ = x ^ n / (n.factorial : ℝ) * (x / (((n : ℝ) + 1) * ((n : ℝ) + 1 - x))) := by
    have : (n : ℝ) + 1 - x ≠ 0 := by linarith
    have h1r : 1 - r = ((n : ℝ) + 1 - x) / ((n : ℝ) + 1) := by simp only [r]; field_simp
    rw [h1r]
    simp only [r]
    field_simp
  rw [e]
  refine mul_le_of_le_one_right (by positivity) ?_
  rw [div_le_one (by nlinarith)]
  nlinarith

theorem ein_le_exp {x : ℝ} (hx : 0 ≤ x) : einR x ≤ exp x := by
  have hexp : HasSum (fun n : ℕ => x ^ n / (n.factorial : ℝ)) (exp x) := by
    rw [Real.exp_eq_exp_ℝ]
    exact NormedSpace.expSeries_div_hasSum_exp x
  have h1 := (hasSum_nat_add_iff' 1).2 hexp
  refine (hasSum_le (fun k => ?_) (ein_summable x).hasSum h1).trans (by simp)
  refine div_le_div_of_nonneg_left (by positivity) (by positivity) ?_
  have : (1 : ℝ) ≤ (k : ℝ) + 1 := by linarith [(Nat.cast_nonneg k : (0 : ℝ) ≤ k)]
  nlinarith [(by positivity : (0 : ℝ) < ((k + 1).factorial : ℝ))]

/-- `Ei x` is at least `e^x/x (1 + 1/x)` for `x >= 36`. -/
theorem ei_ge {x : ℝ} (hx : 36 ≤ x) : exp x / x * (1 + 1 / x) ≤ eiR x := by
  have hx0 : 0 < x := by linarith
  have hexp : HasSum (fun n : ℕ => x ^ n / (n.factorial : ℝ)) (exp x) := by
    rw [Real.exp_eq_exp_ℝ]
    exact NormedSpace.expSeries_div_hasSum_exp x
  have h2 : HasSum (fun n : ℕ => x ^ (n + 2) / ((n + 2).factorial : ℝ)) (exp x - 1 - x) := by
    have := (hasSum_nat_add_iff' 2).2 hexp
    simpa [Finset.sum_range_succ, sub_sub] using this
  have h3 : HasSum (fun n : ℕ => x ^ (n + 3) / ((n + 3).factorial : ℝ)) (exp x - 1 - x - x ^ 2 / 2) := by
    have := (hasSum_nat_add_iff' 3).2 hexp
    simpa [Finset.sum_range_succ, sub_sub, add_assoc] using this
  have h4 := (h2.div_const x).add (h3.div_const (x ^ 2))
  have hle : (exp x - 1 - x) / x + (exp x - 1 - x - x ^ 2 / 2) / x ^ 2 ≤ einR x := by
    refine hasSum_le (fun k => ?_) h4 (ein_summable x).hasSum
    have hk : (0 : ℝ) ≤ k := Nat.cast_nonneg k
    have f2 : ((k + 2).factorial : ℝ) = ((k : ℝ) + 2) * ((k + 1).factorial : ℝ) := by
      rw [Nat.factorial_succ]; push_cast; ring
    have f3 : ((k + 3).factorial : ℝ) = ((k : ℝ) + 3) * (((k : ℝ) + 2) * ((k + 1).factorial : ℝ)) := by
      rw [Nat.factorial_succ (k + 2), Nat.cast_mul, f2]; push_cast; ring
    have hf : (0 : ℝ) < ((k + 1).factorial : ℝ) := by positivity
    rw [f2, f3]
    have e : x ^ (k + 2) / (((k : ℝ) + 2) * ((k + 1).factorial : ℝ)) / x + x ^ (k + 3) / (((k : ℝ) + 3) * (((k : ℝ) + 2) * ((k + 1).factorial : ℝ))) / x ^ 2 =
        x ^ (k + 1) / ((k + 1).factorial : ℝ) * (1 / ((k : ℝ) + 2) + 1 / (((k : ℝ) + 3) * ((k : ℝ) + 2))) := by
      rw [pow_succ x (k + 1), show x ^ (k + 3) = x ^ (k + 1) * x ^ 2 by rw [← pow_add]]
      field_simp
    have e2 : x ^ (k + 1) / (((k : ℝ) + 1) * ((k + 1).factorial : ℝ)) = x ^ (k + 1) / ((k + 1).factorial : ℝ) * (1 / ((k : ℝ) + 1)) := by
      field_simp
    rw [e, e2]
    refine mul_le_mul_of_nonneg_left ?_ (by positivity)
    rw [← sub_nonneg]
    have : 1 / ((k : ℝ) + 1) - (1 / ((k : ℝ) + 2) + 1 / (((k : ℝ) + 3) * ((k : ℝ) + 2))) = 2 / (((k : ℝ) + 1) * ((k : ℝ) + 2) * ((k : ℝ) + 3)) := by
      field_simp; ring
    rw [this]; positivity
  have hlog : 2 ≤ log x := by
    rw [le_log_iff_exp_le hx0]
    have := exp_one_lt_d9
    have e : exp 2 = exp 1 * exp 1 := by rw [← exp_add]; norm_num
    nlinarith [exp_pos 1]
  have hg := one_half_lt_eulerMascheroniConstant
  unfold eiR
  rw [abs_of_pos hx0]
  have e : (exp x - 1 - x) / x + (exp x - 1 - x - x ^ 2 / 2) / x ^ 2 = exp x / x * (1 + 1 / x) - (3 / 2 + 2 / x + 1 / x ^ 2) := by
    field_simp; ring
  rw [e] at hle
  have i1 : 1 / x ≤ 1 / 36 := one_div_le_one_div_of_le (by norm_num) hx
  have i2 : 1 / x ^ 2 ≤ 1 / 36 := one_div_le_one_div_of_le (by norm_num) (by nlinarith)
  have i3 : 2 / x = 2 * (1 / x) := by ring
  rw [i3] at hle
  linarith

end Verif.Ffmath
