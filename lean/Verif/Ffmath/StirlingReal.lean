import Mathlib.Analysis.SpecialFunctions.Gamma.BohrMollerup
import Mathlib.Analysis.SpecialFunctions.Stirling
import Mathlib.Analysis.SpecialFunctions.Log.Deriv
import Mathlib.Analysis.SpecialFunctions.Complex.LogBounds

/-!
# The gamma function of real numbers: Stirling's series with explicit bounds

Facts about real numbers only; nothing here is a definition of the repository.
-/

namespace Verif.Ffmath

open Filter Topology

/-- Stirling's approximation of `log Γ`. Not a definition of the repository. -/
noncomputable def stir (x : ℝ) : ℝ := (x - 1 / 2) * Real.log x - x + Real.log (2 * Real.pi) / 2

/-- `(x + 1/2) log (1 + 1/x) - 1` between partial sums of its series. -/
theorem stir_gap {x : ℝ} (hx : 0 < x) :
    1 / (3 * (2 * x + 1) ^ 2) + 1 / (5 * (2 * x + 1) ^ 4) ≤ (x + 1 / 2) * Real.log (1 + x⁻¹) - 1 ∧
    (x + 1 / 2) * Real.log (1 + x⁻¹) - 1 ≤ 1 / (3 * (2 * x + 1) ^ 2) + 1 / (5 * (2 * x + 1) ^ 4) + 1 / (28 * (2 * x + 1) ^ 4 * (x * (x + 1))) := by
  have h := (Real.hasSum_log_one_add_inv hx).mul_left (x + 1 / 2)
  have ht : (x + 1 / 2) * (2 * (1 / (2 * x + 1))) = 1 := by field_simp
  have e1 : 1 / (28 * (2 * x + 1) ^ 4 * (x * (x + 1))) = 1 / 7 * (1 / (2 * x + 1)) ^ 6 * (1 - (1 / (2 * x + 1)) ^ 2)⁻¹ := by
    have : 1 - (1 / (2 * x + 1)) ^ 2 = 4 * (x * (x + 1)) / (2 * x + 1) ^ 2 := by field_simp; ring
    rw [this]; field_simp; norm_num
  have e2 : 1 / (3 * (2 * x + 1) ^ 2) = 1 / 3 * (1 / (2 * x + 1)) ^ 2 := by field_simp
  have e3 : 1 / (5 * (2 * x + 1) ^ 4) = 1 / 5 * (1 / (2 * x + 1)) ^ 4 := by field_simp
  rw [e1, e2, e3]
  have t0 : 0 < 1 / (2 * x + 1) := by positivity
  have t1 : 1 / (2 * x + 1) < 1 := by rw [div_lt_one (by linarith)]; linarith
  generalize 1 / (2 * x + 1) = t at *
  have h2 : HasSum (fun k : ℕ => 1 / (2 * (k : ℝ) + 1) * (t ^ 2) ^ k) ((x + 1 / 2) * Real.log (1 + x⁻¹)) := by
    refine h.congr_fun fun k => ?_
    rw [pow_succ t (2 * k), pow_mul t 2 k]
    linear_combination -1 / (2 * (k : ℝ) + 1) * (t ^ 2) ^ k * ht
  have s0 : 0 < t ^ 2 := by positivity
  have s1 : t ^ 2 < 1 := by nlinarith
  have h3 := (hasSum_nat_add_iff' 3).2 h2
  simp only [Finset.sum_range_succ, Finset.sum_range_zero] at h3
  norm_num at h3
  have g : HasSum (fun k : ℕ => 1 / 7 * t ^ 6 * (t ^ 2) ^ k) (1 / 7 * t ^ 6 * (1 - t ^ 2)⁻¹) := (hasSum_geometric_of_lt_one s0.le s1).mul_left _
  constructor
  · have := h3.nonneg fun k => by positivity
    have e : (t ^ 2) ^ 2 = t ^ 4 := by ring
    rw [e] at this
    linarith
  · have := hasSum_le (fun k : ℕ => ?_) h3 g
    · have e : (t ^ 2) ^ 2 = t ^ 4 := by ring
      rw [e] at this
      linarith
    · have e : (t ^ 2) ^ (k + 3) = t ^ 6 * (t ^ 2) ^ k := by ring
      rw [e, ← _root_.mul_assoc]
      have hk : (2 * ((k : ℝ) + 3) + 1)⁻¹ ≤ 1 / 7 := by
        rw [inv_le_comm₀ (by positivity) (by norm_num)]
        have : (0 : ℝ) ≤ k := Nat.cast_nonneg _
        norm_num; linarith
      gcongr

/-- The corrections of Stirling's approximation. Not definitions of the repository. -/
noncomputable def corr3 (x : ℝ) : ℝ := 1 / (12 * x) - 1 / (360 * x ^ 3)
/-- With one more term. Not a definition of the repository. -/
noncomputable def corr5 (x : ℝ) : ℝ := corr3 x + 1 / (1260 * x ^ 5)

theorem gap_lower {x : ℝ} (hx : 0 < x) : corr3 x - corr3 (x + 1) ≤ (x + 1 / 2) * Real.log (1 + x⁻¹) - 1 := by
  refine le_trans ?_ (stir_gap hx).1
  have e : 1 / (3 * (2 * x + 1) ^ 2) + 1 / (5 * (2 * x + 1) ^ 4) - (corr3 x - corr3 (x + 1)) =
      (1 + 11 * (x * (x + 1)) + 10 * (x * (x + 1)) ^ 2) / (360 * (x * (x + 1)) ^ 3 * (2 * x + 1) ^ 4) := by
    unfold corr3
    field_simp
    ring
  have : 0 ≤ (1 + 11 * (x * (x + 1)) + 10 * (x * (x + 1)) ^ 2) / (360 * (x * (x + 1)) ^ 3 * (2 * x + 1) ^ 4) := by positivity
  linarith

theorem gap_upper {x : ℝ} (hx : 0 < x) : (x + 1 / 2) * Real.log (1 + x⁻¹) - 1 ≤ corr5 x - corr5 (x + 1) := by
  refine le_trans (stir_gap hx).2 ?_
  have e : corr5 x - corr5 (x + 1) - (1 / (3 * (2 * x + 1) ^ 2) + 1 / (5 * (2 * x + 1) ^ 4) + 1 / (28 * (2 * x + 1) ^ 4 * (x * (x + 1)))) =
      (2 + 26 * (x * (x + 1)) + 115 * (x * (x + 1)) ^ 2 + 163 * (x * (x + 1)) ^ 3) / (2520 * (x * (x + 1)) ^ 5 * (2 * x + 1) ^ 4) := by
    unfold corr5 corr3
    field_simp
    ring
  have : 0 ≤ (2 + 26 * (x * (x + 1)) + 115 * (x * (x + 1)) ^ 2 + 163 * (x * (x + 1)) ^ 3) / (2520 * (x * (x + 1)) ^ 5 * (2 * x + 1) ^ 4) := by
    positivity
  linarith

theorem log_Gamma_succ {x : ℝ} (hx : 0 < x) : Real.log (Real.Gamma (x + 1)) = Real.log x + Real.log (Real.Gamma x) := by
  rw [Real.Gamma_add_one hx.ne', Real.log_mul hx.ne' (Real.Gamma_pos_of_pos hx).ne']

theorem log_Gamma_add {x : ℝ} (hx : 0 < x) (n : ℕ) :
    Real.log (Real.Gamma (x + n)) = Real.log (Real.Gamma x) + ∑ m ∈ Finset.range n, Real.log (x + m) := by
  induction n with
  | zero => simp
  | succ n ih =>
    rw [Finset.sum_range_succ, ← add_assoc, ← ih]
    push_cast
    rw [← add_assoc, log_Gamma_succ (by positivity)]
    ring

theorem stir_step {x : ℝ} (hx : 0 < x) : Real.log x - (stir (x + 1) - stir x) = -((x + 1 / 2) * Real.log (1 + x⁻¹) - 1) := by
  have : Real.log (1 + x⁻¹) = Real.log (x + 1) - Real.log x := by
    rw [← Real.log_div (by positivity) hx.ne']
    congr 1; field_simp
  rw [this]; unfold stir; ring

/-- Stirling's formula. -/
theorem stir_limit {x : ℝ} (hx : 0 < x) : Tendsto (fun n : ℕ => Real.log (Real.Gamma (x + n)) - stir (x + n)) atTop (𝓝 0) := by
  rw [← tendsto_add_atTop_iff_nat 1]
  have a1 : Tendsto (fun n => Real.log (Real.Gamma x) - Real.BohrMollerup.logGammaSeq x n) atTop (𝓝 0) := by
    have := (tendsto_const_nhds (x := Real.log (Real.Gamma x))).sub (Real.BohrMollerup.tendsto_log_gamma hx)
    rwa [sub_self] at this
  have a2 : Tendsto (fun n => Real.log (Stirling.stirlingSeq n) - Real.log (√Real.pi)) atTop (𝓝 0) := by
    have := ((Real.continuousAt_log (by positivity : √Real.pi ≠ 0)).tendsto.comp Stirling.tendsto_stirlingSeq_sqrt_pi).sub
      (tendsto_const_nhds (x := Real.log (√Real.pi)))
    rwa [sub_self] at this
  have a3 : Tendsto (fun n : ℕ => (n : ℝ) * Real.log (1 + (x + 1) / n)) atTop (𝓝 (x + 1)) :=
    (Real.tendsto_mul_log_one_add_div_atTop (x + 1)).comp tendsto_natCast_atTop_atTop
  have a4 : Tendsto (fun n : ℕ => Real.log (1 + (x + 1) / n)) atTop (𝓝 0) := by
    have : Tendsto (fun n : ℕ => 1 + (x + 1) / (n : ℝ)) atTop (𝓝 (1 + 0)) :=
      tendsto_const_nhds.add (tendsto_const_div_atTop_nhds_zero_nat (x + 1))
    rw [add_zero] at this
    have h := (Real.continuousAt_log one_ne_zero).tendsto.comp this
    rwa [Real.log_one] at h
  have hh := ((a1.add a2).sub a3).sub (a4.const_mul (x + 1 / 2)) |>.add (tendsto_const_nhds (x := x + 1))
  have e : (0 : ℝ) + 0 - (x + 1) - (x + 1 / 2) * 0 + (x + 1) = 0 := by ring
  rw [e] at hh
  refine hh.congr' ?_
  filter_upwards [eventually_ge_atTop 1] with n hn
  have n0 : (0 : ℝ) < n := by exact_mod_cast hn
  rw [log_Gamma_add hx]
  unfold Real.BohrMollerup.logGammaSeq stir Stirling.stirlingSeq
  have l1 : Real.log (1 + (x + 1) / n) = Real.log (x + n + 1) - Real.log n := by
    rw [← Real.log_div (by positivity) n0.ne']; congr 1; field_simp; ring
  have l2 : Real.log ((n.factorial : ℝ) / (√(2 * n) * (n / Real.exp 1) ^ n)) =
      Real.log n.factorial - (Real.log 2 / 2 + Real.log n / 2 + n * (Real.log n - 1)) := by
    rw [Real.log_div (by positivity) (by positivity), Real.log_mul (by positivity) (by positivity), Real.log_sqrt (by positivity),
      Real.log_mul (by positivity) (by positivity), Real.log_pow, Real.log_div (by positivity) (by positivity), Real.log_exp]
    ring
  have l3 : Real.log (√Real.pi) = Real.log Real.pi / 2 := Real.log_sqrt Real.pi_pos.le
  have l4 : Real.log (2 * Real.pi) = Real.log 2 + Real.log Real.pi := Real.log_mul (by norm_num) Real.pi_pos.ne'
  rw [l1, l2, l3, l4]
  push_cast
  rw [← add_assoc]
  ring_nf

theorem corr_limit (x : ℝ) : Tendsto (fun n : ℕ => corr3 (x + n)) atTop (𝓝 0) ∧ Tendsto (fun n : ℕ => corr5 (x + n)) atTop (𝓝 0) := by
  have b : Tendsto (fun n : ℕ => (x + n : ℝ)⁻¹) atTop (𝓝 0) :=
    tendsto_inv_atTop_zero.comp (tendsto_atTop_add_const_left _ _ tendsto_natCast_atTop_atTop)
  have c3 : Tendsto (fun n : ℕ => corr3 (x + n)) atTop (𝓝 0) := by
    have := (b.const_mul (1 / 12)).sub ((b.pow 3).const_mul (1 / 360))
    norm_num at this
    refine this.congr fun n => ?_
    unfold corr3
    simp only [one_div, mul_inv]
  refine ⟨c3, ?_⟩
  have := c3.add ((b.pow 5).const_mul (1 / 1260))
  norm_num at this
  refine this.congr fun n => ?_
  unfold corr5
  simp only [one_div, mul_inv]

/-- Stirling's series encloses `log Γ`. -/
theorem stir_bounds {x : ℝ} (hx : 0 < x) :
    stir x + corr3 x ≤ Real.log (Real.Gamma x) ∧ Real.log (Real.Gamma x) ≤ stir x + corr5 x := by
  obtain ⟨c3, c5⟩ := corr_limit x
  have hs := stir_limit hx
  have key : ∀ n : ℕ, Real.log (Real.Gamma (x + (n + 1 : ℕ))) - stir (x + (n + 1 : ℕ)) - (Real.log (Real.Gamma (x + n)) - stir (x + n)) =
      -((x + n + 1 / 2) * Real.log (1 + (x + n)⁻¹) - 1) := by
    intro n
    have hp : 0 < x + n := by positivity
    rw [← stir_step hp]
    push_cast
    rw [← add_assoc, log_Gamma_succ hp]
    ring
  constructor
  · have ha : Antitone fun n : ℕ => Real.log (Real.Gamma (x + n)) - stir (x + n) - corr3 (x + n) := by
      refine antitone_nat_of_succ_le fun n => ?_
      have h1 := key n
      have h2 := gap_lower (x := x + n) (by positivity)
      rw [show x + ((n + 1 : ℕ) : ℝ) = x + n + 1 by push_cast; ring] at h1 ⊢
      linarith
    have := ha.le_of_tendsto (b := 0) (hs.sub c3)
    simp only [Nat.cast_zero, add_zero] at this
    linarith
  · have ha : Monotone fun n : ℕ => Real.log (Real.Gamma (x + n)) - stir (x + n) - corr5 (x + n) := by
      refine monotone_nat_of_le_succ fun n => ?_
      have h1 := key n
      have h2 := gap_upper (x := x + n) (by positivity)
      rw [show x + ((n + 1 : ℕ) : ℝ) = x + n + 1 by push_cast; ring] at h1 ⊢
      linarith
    have := ha.ge_of_tendsto (b := 0) (hs.sub c5)
    simp only [Nat.cast_zero, add_zero] at this
    linarith

end Verif.Ffmath
