import Verif.Pid.Config
import Mathlib.Tactic.Positivity
import Mathlib.Analysis.SpecialFunctions.Log.Basic

/-!
# Gains proposed by the auto-tuner, its initial model, and the model-reference term (C175, C176)
-/

namespace Verif.Pid

open Arith Numa

section Field
variable {K : Type u} [Field K] [LinearOrder K] [IsStrictOrderedRing K]

/-- **C175** (gains) with exact arithmetic the gains proposed for a process of gain `k` and time constant `tao` are inversely proportional to `k`
and proportional to the speed; the integral time `Kc/Ki` and the derivative time `Kd/Kc` are fixed multiples of `tao`. -/
theorem C175_gains (a : AutoTuning K) (hk : a.k ≠ 0) (ht : a.tao ≠ 0) :
    let g := a.getEstimates
    (a.type = .p → g.Kc = a.speed / a.k * (106502 / 10000) ∧ g.Ki = 0 ∧ g.Kd = 0) ∧
    (a.type = .pd → g.Kc = a.speed / a.k * (1255996 / 100000) ∧ g.Ki = 0 ∧ g.Kd = g.Kc * (a.tao * (261252 / 10129000))) ∧
    (a.type = .pi → g.Kc = a.speed / a.k * (90828 / 10000) ∧ g.Ki * (a.tao * (3360636 / 12220000)) = g.Kc ∧ g.Kd = 0) ∧
    (a.type = .pid → g.Kc = a.speed / a.k * (1374975 / 100000) ∧ g.Ki * (a.tao * (254625 / 1061100)) = g.Kc ∧
      g.Kd = g.Kc * (a.tao * (370 / 10185))) := by
  have h : a.tao / (a.tao * (1 / 10)) = 10 := by field_simp
  refine ⟨fun h0 => ?_, fun h0 => ?_, fun h0 => ?_, fun h0 => ?_⟩ <;>
    simp only [AutoTuning.getEstimates, h0, fDiv, fMul, fAdd, fSub, fLit] <;> push_cast <;> simp only [h]
  · refine ⟨?_, trivial, trivial⟩
    field_simp; ring
  · refine ⟨?_, trivial, ?_⟩
    · field_simp; ring
    · have : a.tao + 129 / 1000 * (a.tao * (1 / 10)) = a.tao * (10129 / 10000) := by ring
      rw [this]; field_simp; ring
  · refine ⟨?_, ?_, trivial⟩
    · field_simp; ring
    · have : a.tao + 92 / 1000 * (a.tao * (1 / 10)) = a.tao * (10092 / 10000) := by ring
      rw [this]; field_simp; ring
  · have : a.tao + 185 / 1000 * (a.tao * (1 / 10)) = a.tao * (10185 / 10000) := by ring
    rw [this]
    refine ⟨?_, ?_, ?_⟩
    · field_simp; ring
    · field_simp; ring
    · field_simp; ring

/-- **C175** (completion) tuning is complete exactly when a tuner is bound and its countdown has reached zero. -/
theorem C175_complete {R : Type u} [Arith R] (s : Ctl R) :
    s.isAutoTuningComplete = true ↔ ∃ a, s.adapt = some a ∧ a.it = 0#32 := by
  unfold Ctl.isAutoTuningComplete
  cases h : s.adapt with
  | none => simp
  | some a =>
    simp only [AutoTuning.isComplete, Bool.and_eq_true, decide_eq_true_eq, Option.some.injEq, exists_eq_left']
    constructor
    · rintro ⟨h1, -⟩; exact h1.symm
    · intro h1; rw [h1]; exact ⟨rfl, by decide⟩

omit [IsStrictOrderedRing K] in
/-- **C176** (frozen) while the anti-windup feedback exceeds the dead band the model-reference term is left out and its memory is kept. -/
theorem C176_frozen (s : Ctl K) (v w y r : K) (h : s.epsilon < |s.u1|) : s.mrac v w y r = (s.mState, v) := by
  unfold Ctl.mrac
  cases s.yr
  · simp
  · simp only [if_true, fAbs, fLe, not_le.2 h, decide_false, Bool.false_eq_true, if_false, fAdd, fMul, fLit, Rat.cast_zero, mul_zero, add_zero]

/-- **C176** (adaptation) otherwise the set-point is multiplied by a parameter that integrates a rate which opposes the model error and whose
size is bounded by `gamma·|y - yr|/( 2·sqrt( alpha ) )`, however large the reference is. -/
theorem C176_rate (s : Ctl K) (v w y r : K) (hy : s.yr = true) (h : |s.u1| ≤ s.epsilon) (hg : 0 < s.gamma) (ha : 0 < s.alpha) :
    ∃ δ, s.mrac v w y r = ((s.mState.integrate δ s.dt).1, v + w * (s.mState.integrate δ s.dt).2) ∧
      δ * ((y - r) * r) ≤ 0 ∧ (δ = 0 ↔ y = r ∨ r = 0) ∧ 4 * s.alpha * δ ^ 2 ≤ (s.gamma * (y - r)) ^ 2 := by
  have hd : 0 < s.alpha + r * r := by nlinarith [mul_self_nonneg r]
  refine ⟨-s.gamma * (y - r) * r / (s.alpha + r * r), ?_, ?_, ?_, ?_⟩
  · unfold Ctl.mrac
    simp only [hy, if_true, fAbs, fLe, h, decide_true, fAdd, fMul, fSub, fDiv, fNeg]
  · rw [div_mul_eq_mul_div, div_nonpos_iff]
    refine Or.inr ⟨?_, hd.le⟩
    have := mul_nonneg hg.le (mul_self_nonneg ((y - r) * r))
    nlinarith
  · rw [div_eq_zero_iff]
    simp only [mul_eq_zero, neg_eq_zero, hg.ne', hd.ne', false_or, or_false, sub_eq_zero]
  · rw [div_pow, mul_div_assoc', div_le_iff₀ (by positivity)]
    have e : (s.gamma * (y - r)) ^ 2 * (s.alpha + r * r) ^ 2 - 4 * s.alpha * (-s.gamma * (y - r) * r) ^ 2 =
        (s.gamma * (y - r)) ^ 2 * (s.alpha - r * r) ^ 2 := by ring
    have := mul_nonneg (sq_nonneg (s.gamma * (y - r))) (sq_nonneg (s.alpha - r * r))
    linarith

/-- Non-vacuity: a PI tuner for a process of gain 2 and time constant 5; a controller with a model reference of 1 and a process value of 3. -/
example : let a : AutoTuning ℚ := ⟨1, 0, 0, 1, 0, 0, 0, 0, 1, 2, 5, 1, 1 / 4, 0, .pi⟩
    a.k ≠ 0 ∧ a.tao ≠ 0 ∧ 0 < a.getEstimates.Kc ∧ 0 < a.getEstimates.Ki := by
  simp [AutoTuning.getEstimates]; norm_num

example (s : Ctl ℚ) (h1 : s.yr = true) (h2 : s.u1 = 0) (h3 : s.epsilon = 0) (h4 : s.gamma = 2) (h5 : s.alpha = 1)
    (h6 : s.mState = ⟨0, 0, 0, .rectangular, .twoPoints⟩) (h7 : s.dt = 1 / 2) :
    |s.u1| ≤ s.epsilon ∧ 0 < s.gamma ∧ 0 < s.alpha ∧ (s.mrac 10 4 3 1).2 = 6 := by
  simp [Ctl.mrac, h1, h2, h3, h4, h5, h6, h7, NState.integrate, NState.update]; norm_num

end Field

section RealModel

/-- **C175** (initial model) with the exact exponential and logarithm the model that a tuner starts from has the static gain `Kc/0.9` and the
time constant `0.3·Kc/Ki`, read back as `step` reads them. -/
theorem C175_initial [Trans ℝ] (hexp : ∀ x : ℝ, Trans.exp x = Real.exp x) (a : AutoTuning ℝ) (g : Gains ℝ) (dt : ℝ)
    (hc : 0 < g.Kc) (hi : 0 < g.Ki) (hd : 0 < dt) :
    let b := a.initialize g dt
    b.b1 / (1 + b.a1) = g.Kc / 0.9 ∧ -dt / Real.log |b.a1| = 0.3 * g.Kc / g.Ki ∧ -1 < b.a1 ∧ b.a1 < 0 ∧ 0 < b.b1 ∧
      b.it = UNDEFINED := by
  have hT : 0.27 * (g.Kc / 0.9) / g.Ki = 0.3 * g.Kc / g.Ki := by ring
  have Tp : 0 < 0.3 * g.Kc / g.Ki := by positivity
  have q : -dt / (0.3 * g.Kc / g.Ki) < 0 := div_neg_of_neg_of_pos (by linarith) Tp
  have e1 := Real.exp_pos (-dt / (0.3 * g.Kc / g.Ki))
  have e2 : Real.exp (-dt / (0.3 * g.Kc / g.Ki)) < 1 := by rw [← Real.exp_zero]; exact Real.exp_lt_exp.2 q
  have ea : (a.initialize g dt).a1 = -Real.exp (-dt / (0.3 * g.Kc / g.Ki)) := by
    simp only [AutoTuning.initialize, fDiv, fMul, fNeg, fLit, hexp]
    push_cast
    rw [← hT]; norm_num
  have eb : (a.initialize g dt).b1 = g.Kc / 0.9 * (1 + (a.initialize g dt).a1) := by
    simp only [AutoTuning.initialize, fDiv, fMul, fAdd, fNeg, fLit]
    push_cast; norm_num
  simp only
  rw [eb, ea]
  refine ⟨?_, ?_, by linarith, by linarith, ?_, rfl⟩
  · have : 1 + -Real.exp (-dt / (0.3 * g.Kc / g.Ki)) ≠ 0 := by linarith
    exact mul_div_cancel_right₀ _ this
  · rw [abs_neg, abs_of_pos e1, Real.log_exp]
    field_simp
  · have : 0 < 1 + -Real.exp (-dt / (0.3 * g.Kc / g.Ki)) := by linarith
    positivity

end RealModel
end Verif.Pid
