import Verif.Pid.Props
import Mathlib.Tactic.LinearCombination

/-!
# The identification of the auto-tuner (C143)

The auto-tuner estimates the plant `y[k+1] = B u[k] - A y[k]` by recursive least squares with a memory factor.
-/

namespace Verif.Pid

open Arith Numa

universe u

section Exact
variable {K : Type u} [Field K] [LinearOrder K] [IsStrictOrderedRing K]

/-- The covariance matrix is symmetric and positive definite, and the memory factor is in `(0, 1]`. -/
structure Cov (a : AutoTuning K) : Prop where
  l0 : 0 < a.l
  l1 : a.l ≤ 1
  sym : a.p10 = a.p01
  pos : 0 < a.p00
  det : 0 < a.p00 * a.p11 - a.p01 * a.p01

/-- The weighted estimation error `eᵀ P⁻¹ e`, `e = (B - b1, A - a1)`. -/
def weighted (a : AutoTuning K) (B A : K) : K :=
  (a.p11 * (B - a.b1) ^ 2 - 2 * a.p01 * (B - a.b1) * (A - a.a1) + a.p00 * (A - a.a1) ^ 2) /
    (a.p00 * a.p11 - a.p01 * a.p01)

theorem Cov.pos' {a : AutoTuning K} (h : Cov a) : 0 < a.p11 := by
  have h1 := h.det
  have h2 := h.pos
  have : 0 < a.p00 * a.p11 := by nlinarith [mul_self_nonneg a.p01]
  exact (mul_pos_iff_of_pos_left h2).1 this

/-- The quadratic form of the covariance is not negative. -/
theorem Cov.form {a : AutoTuning K} (h : Cov a) (u y : K) :
    0 ≤ a.p00 * u ^ 2 - 2 * a.p01 * u * y + a.p11 * y ^ 2 := by
  have h1 := h.det
  have h2 := h.pos
  have e : a.p00 * (a.p00 * u ^ 2 - 2 * a.p01 * u * y + a.p11 * y ^ 2) =
      (a.p00 * u - a.p01 * y) ^ 2 + (a.p00 * a.p11 - a.p01 * a.p01) * y ^ 2 := by ring
  have : 0 ≤ a.p00 * (a.p00 * u ^ 2 - 2 * a.p01 * u * y + a.p11 * y ^ 2) := by rw [e]; positivity
  exact (mul_nonneg_iff_of_pos_left h2).1 this

/-- The divisor of the update is at least the memory factor. -/
theorem Cov.divisor {a : AutoTuning K} (h : Cov a) :
    a.l ≤ a.l + a.uk * (a.p00 * a.uk - a.p10 * a.yk) - a.yk * (a.p01 * a.uk - a.p11 * a.yk) := by
  have := h.form a.uk a.yk
  rw [h.sym]
  nlinarith

/-- The update in closed form. -/
theorem identify_closed (a : AutoTuning K) (h : Cov a) (u y : K) :
    let r := a.l + (a.p00 * a.uk ^ 2 - 2 * a.p01 * a.uk * a.yk + a.p11 * a.yk ^ 2)
    let Δ := a.p00 * a.p11 - a.p01 * a.p01
    let t := a.identify u y
    let e := y - (a.b1 * a.uk - a.a1 * a.yk)
    t.p00 = (a.p00 * a.l + Δ * a.yk ^ 2) / (a.l * r) + 1 / 10 ^ 10 ∧
    t.p11 = (a.p11 * a.l + Δ * a.uk ^ 2) / (a.l * r) + 1 / 10 ^ 10 ∧
    t.p01 = (a.p01 * a.l + Δ * a.uk * a.yk) / (a.l * r) ∧ t.p10 = t.p01 ∧ t.l = a.l ∧ t.uk = u ∧ t.yk = y ∧
    t.b1 = a.b1 + (a.p00 * a.uk - a.p01 * a.yk) / r * e ∧ t.a1 = a.a1 + (a.p01 * a.uk - a.p11 * a.yk) / r * e := by
  intro r Δ t e
  have hr : 0 < r := by have := h.form a.uk a.yk; have := h.l0; simp only [r]; linarith
  have hl := h.l0
  have er : a.l + a.uk * (a.p00 * a.uk - a.p01 * a.yk) - a.yk * (a.p01 * a.uk - a.p11 * a.yk) = r := by
    simp only [r]; ring
  have hr' : a.p00 * a.uk ^ 2 = r - a.l + 2 * a.p01 * a.uk * a.yk - a.p11 * a.yk ^ 2 := by simp only [r]; ring
  simp only [t, AutoTuning.identify, fAdd, fSub, fMul, fDiv, fLit, h.sym, Rat.cast_one, Rat.cast_div, Rat.cast_pow,
    Rat.cast_ofNat, er]
  refine ⟨?_, ?_, ?_, ?_, trivial, trivial, trivial, rfl, rfl⟩
  · congr 1
    field_simp
    simp only [r, Δ]; ring
  · congr 1
    field_simp
    simp only [r, Δ]; ring
  · field_simp
    simp only [r, Δ]; ring
  · field_simp
    simp only [r]; ring

/-- The determinant of the updated covariance, without the regularisation. -/
theorem det_closed {a b d u y l r : K} (hl : 0 < l) (hr : 0 < r) (er : r = l + (a * u ^ 2 - 2 * b * u * y + d * y ^ 2)) :
    (a * l + (a * d - b * b) * y ^ 2) / (l * r) * ((d * l + (a * d - b * b) * u ^ 2) / (l * r)) -
      (b * l + (a * d - b * b) * u * y) / (l * r) * ((b * l + (a * d - b * b) * u * y) / (l * r)) =
      (a * d - b * b) / (l * r) := by
  have h : (a * l + (a * d - b * b) * y ^ 2) * (d * l + (a * d - b * b) * u ^ 2) -
      (b * l + (a * d - b * b) * u * y) * (b * l + (a * d - b * b) * u * y) = (a * d - b * b) * (l * r) := by
    rw [er]; ring
  have hlr : l * r ≠ 0 := (mul_pos hl hr).ne'
  rw [div_mul_div_comm, div_mul_div_comm, ← sub_div, h, mul_div_mul_right _ _ hlr]

/-- The covariance remains positive definite. -/
theorem identify_cov (a : AutoTuning K) (h : Cov a) (u y : K) : Cov (a.identify u y) := by
  obtain ⟨h1, h2, h3, h4, h5, -⟩ := identify_closed a h u y
  have hr : 0 < a.l + (a.p00 * a.uk ^ 2 - 2 * a.p01 * a.uk * a.yk + a.p11 * a.yk ^ 2) := by
    have := h.form a.uk a.yk; have := h.l0; linarith
  have hl := h.l0
  have hd := h.det
  have hp := h.pos
  have hp' := h.pos'
  refine ⟨by rw [h5]; exact hl, by rw [h5]; exact h.l1, h4, ?_, ?_⟩
  · rw [h1]; positivity
  · rw [h1, h2, h3]
    have k := det_closed hl hr rfl (a := a.p00) (b := a.p01) (d := a.p11) (u := a.uk) (y := a.yk)
    have k0 : 0 < (a.p00 * a.p11 - a.p01 * a.p01) /
        (a.l * (a.l + (a.p00 * a.uk ^ 2 - 2 * a.p01 * a.uk * a.yk + a.p11 * a.yk ^ 2))) := by positivity
    rw [← k] at k0
    have k1 : 0 ≤ (a.p00 * a.l + (a.p00 * a.p11 - a.p01 * a.p01) * a.yk ^ 2) /
      (a.l * (a.l + (a.p00 * a.uk ^ 2 - 2 * a.p01 * a.uk * a.yk + a.p11 * a.yk ^ 2))) := by positivity
    have k2 : 0 ≤ (a.p11 * a.l + (a.p00 * a.p11 - a.p01 * a.p01) * a.uk ^ 2) /
      (a.l * (a.l + (a.p00 * a.uk ^ 2 - 2 * a.p01 * a.uk * a.yk + a.p11 * a.yk ^ 2))) := by positivity
    have k3 : (0 : K) < 1 / 10 ^ 10 := by positivity
    nlinarith [mul_nonneg k1 k3.le, mul_nonneg k2 k3.le, mul_pos k3 k3]

/-- Adding a multiple of the identity to the covariance does not increase the weighted error. -/
theorem weighted_regular {a b d ε x z : K} (ha : 0 < a) (hd : 0 < d) (hΔ : 0 < a * d - b * b) (hε : 0 ≤ ε) :
    ((d + ε) * x ^ 2 - 2 * b * x * z + (a + ε) * z ^ 2) / ((a + ε) * (d + ε) - b * b) ≤
      (d * x ^ 2 - 2 * b * x * z + a * z ^ 2) / (a * d - b * b) := by
  have hq : 0 ≤ d * x ^ 2 - 2 * b * x * z + a * z ^ 2 := by
    have e : d * (d * x ^ 2 - 2 * b * x * z + a * z ^ 2) = (d * x - b * z) ^ 2 + (a * d - b * b) * z ^ 2 := by ring
    have : 0 ≤ d * (d * x ^ 2 - 2 * b * x * z + a * z ^ 2) := by rw [e]; positivity
    exact (mul_nonneg_iff_of_pos_left hd).1 this
  have hΔ' : 0 < (a + ε) * (d + ε) - b * b := by nlinarith [mul_nonneg ha.le hε, mul_nonneg hd.le hε, mul_nonneg hε hε]
  rw [div_le_div_iff₀ hΔ' hΔ]
  have e : (d * x ^ 2 - 2 * b * x * z + a * z ^ 2) * ((a + ε) * (d + ε) - b * b) -
      ((d + ε) * x ^ 2 - 2 * b * x * z + (a + ε) * z ^ 2) * (a * d - b * b) =
      ε * ((d * x - b * z) ^ 2 + (b * x - a * z) ^ 2) + ε * ε * (d * x ^ 2 - 2 * b * x * z + a * z ^ 2) := by ring
  have : 0 ≤ ε * ((d * x - b * z) ^ 2 + (b * x - a * z) ^ 2) + ε * ε * (d * x ^ 2 - 2 * b * x * z + a * z ^ 2) := by
    positivity
  linarith

/-- The weighted error after the update, without the regularisation. -/
theorem weighted_update {a b d u y l r x z : K} (hl : 0 < l) (hr : 0 < r) (hΔ : 0 < a * d - b * b)
    (er : r = l + (a * u ^ 2 - 2 * b * u * y + d * y ^ 2)) :
    let x' := x - (a * u - b * y) / r * (x * u - z * y)
    let z' := z - (b * u - d * y) / r * (x * u - z * y)
    ((d * l + (a * d - b * b) * u ^ 2) / (l * r) * x' ^ 2 - 2 * ((b * l + (a * d - b * b) * u * y) / (l * r)) * x' * z' +
      (a * l + (a * d - b * b) * y ^ 2) / (l * r) * z' ^ 2) / ((a * d - b * b) / (l * r)) =
      l * ((d * x ^ 2 - 2 * b * x * z + a * z ^ 2) / (a * d - b * b) - (x * u - z * y) ^ 2 / r) := by
  intro x' z'
  have hx : x' = ((l + d * y ^ 2 - b * u * y) * x + (a * u - b * y) * y * z) / r := by
    simp only [x']; field_simp; rw [er]; ring
  have hz : z' = ((l + a * u ^ 2 - b * u * y) * z - (b * u - d * y) * u * x) / r := by
    simp only [z']; field_simp; rw [er]; ring
  rw [hx, hz]
  generalize hD : a * d - b * b = Δ at *
  field_simp
  rw [er, ← hD]
  ring

/-- One update with a measurement that obeys the plant equation (or with the initial zero data) shrinks the weighted error
by the memory factor. -/
theorem identify_weighted (a : AutoTuning K) (h : Cov a) (B A u y : K)
    (hy : y = B * a.uk - A * a.yk ∨ (a.uk = 0 ∧ a.yk = 0)) :
    weighted (a.identify u y) B A ≤ a.l * weighted a B A := by
  obtain ⟨h1, h2, h3, h4, h5, -, -, h8, h9⟩ := identify_closed a h u y
  have hr : 0 < a.l + (a.p00 * a.uk ^ 2 - 2 * a.p01 * a.uk * a.yk + a.p11 * a.yk ^ 2) := by
    have := h.form a.uk a.yk; have := h.l0; linarith
  have hl := h.l0
  have hd := h.det
  have hp := h.pos
  have hp' := h.pos'
  have hx : B - (a.identify u y).b1 = (B - a.b1) - (a.p00 * a.uk - a.p01 * a.yk) /
      (a.l + (a.p00 * a.uk ^ 2 - 2 * a.p01 * a.uk * a.yk + a.p11 * a.yk ^ 2)) *
        ((B - a.b1) * a.uk - (A - a.a1) * a.yk) := by
    rw [h8]
    rcases hy with hy | ⟨k1, k2⟩
    · rw [hy]; ring
    · rw [k1, k2]; ring
  have hz : A - (a.identify u y).a1 = (A - a.a1) - (a.p01 * a.uk - a.p11 * a.yk) /
      (a.l + (a.p00 * a.uk ^ 2 - 2 * a.p01 * a.uk * a.yk + a.p11 * a.yk ^ 2)) *
        ((B - a.b1) * a.uk - (A - a.a1) * a.yk) := by
    rw [h9]
    rcases hy with hy | ⟨k1, k2⟩
    · rw [hy]; ring
    · rw [k1, k2]; ring
  have w1 := weighted_update hl hr hd rfl (x := B - a.b1) (z := A - a.a1)
  have w2 := det_closed hl hr rfl (a := a.p00) (b := a.p01) (d := a.p11) (u := a.uk) (y := a.yk)
  have k0 : 0 < (a.p00 * a.p11 - a.p01 * a.p01) /
      (a.l * (a.l + (a.p00 * a.uk ^ 2 - 2 * a.p01 * a.uk * a.yk + a.p11 * a.yk ^ 2))) := by positivity
  have k1 : 0 < (a.p00 * a.l + (a.p00 * a.p11 - a.p01 * a.p01) * a.yk ^ 2) /
    (a.l * (a.l + (a.p00 * a.uk ^ 2 - 2 * a.p01 * a.uk * a.yk + a.p11 * a.yk ^ 2))) := by positivity
  have k2 : 0 < (a.p11 * a.l + (a.p00 * a.p11 - a.p01 * a.p01) * a.uk ^ 2) /
    (a.l * (a.l + (a.p00 * a.uk ^ 2 - 2 * a.p01 * a.uk * a.yk + a.p11 * a.yk ^ 2))) := by positivity
  simp only [← hx, ← hz] at w1
  rw [← w2] at w1 k0
  have w3 := weighted_regular k1 k2 k0 (by positivity : (0 : K) ≤ 1 / 10 ^ 10) (x := B - (a.identify u y).b1)
    (z := A - (a.identify u y).a1)
  rw [w1, ← h1, ← h2, ← h3] at w3
  refine w3.trans ?_
  refine mul_le_mul_of_nonneg_left ?_ hl.le
  have : 0 ≤ ((B - a.b1) * a.uk - (A - a.a1) * a.yk) ^ 2 /
      (a.l + (a.p00 * a.uk ^ 2 - 2 * a.p01 * a.uk * a.yk + a.p11 * a.yk ^ 2)) := by positivity
  unfold weighted
  linarith

/-- The quadratic form of the covariance on the regressor `(u, -y)`. -/
def form (a : AutoTuning K) (u y : K) : K := a.p00 * u ^ 2 - 2 * a.p01 * u * y + a.p11 * y ^ 2

/-- In every direction the covariance grows by at most the inverse of the memory factor. -/
theorem form_identify (a : AutoTuning K) (h : Cov a) (u y v z : K) :
    form (a.identify u y) v z ≤ form a v z / a.l + 1 / 10 ^ 10 * (v ^ 2 + z ^ 2) := by
  obtain ⟨h1, h2, h3, -⟩ := identify_closed a h u y
  have hr : 0 < a.l + (a.p00 * a.uk ^ 2 - 2 * a.p01 * a.uk * a.yk + a.p11 * a.yk ^ 2) := by
    have := h.form a.uk a.yk; have := h.l0; linarith
  have hl := h.l0
  unfold form
  rw [h1, h2, h3]
  have e : (a.p00 * v ^ 2 - 2 * a.p01 * v * z + a.p11 * z ^ 2) / a.l -
      ((a.p00 * a.l + (a.p00 * a.p11 - a.p01 * a.p01) * a.yk ^ 2) /
      (a.l * (a.l + (a.p00 * a.uk ^ 2 - 2 * a.p01 * a.uk * a.yk + a.p11 * a.yk ^ 2))) * v ^ 2 -
      2 * ((a.p01 * a.l + (a.p00 * a.p11 - a.p01 * a.p01) * a.uk * a.yk) /
      (a.l * (a.l + (a.p00 * a.uk ^ 2 - 2 * a.p01 * a.uk * a.yk + a.p11 * a.yk ^ 2)))) * v * z +
      (a.p11 * a.l + (a.p00 * a.p11 - a.p01 * a.p01) * a.uk ^ 2) /
      (a.l * (a.l + (a.p00 * a.uk ^ 2 - 2 * a.p01 * a.uk * a.yk + a.p11 * a.yk ^ 2))) * z ^ 2) =
      (a.p00 * a.uk * v - a.p01 * (a.uk * z + a.yk * v) + a.p11 * a.yk * z) ^ 2 /
      (a.l * (a.l + (a.p00 * a.uk ^ 2 - 2 * a.p01 * a.uk * a.yk + a.p11 * a.yk ^ 2))) := by
    generalize hR : a.l + (a.p00 * a.uk ^ 2 - 2 * a.p01 * a.uk * a.yk + a.p11 * a.yk ^ 2) = R at *
    field_simp
    rw [← hR]; ring
  have : 0 ≤ (a.p00 * a.uk * v - a.p01 * (a.uk * z + a.yk * v) + a.p11 * a.yk * z) ^ 2 /
      (a.l * (a.l + (a.p00 * a.uk ^ 2 - 2 * a.p01 * a.uk * a.yk + a.p11 * a.yk ^ 2))) := by positivity
  linarith

/-- In the direction of the last regressor the covariance is at most 1 (plus the regularisation). -/
theorem form_last (a : AutoTuning K) (h : Cov a) (u y : K) :
    form (a.identify u y) a.uk a.yk ≤ 1 + 1 / 10 ^ 10 * (a.uk ^ 2 + a.yk ^ 2) := by
  obtain ⟨h1, h2, h3, -⟩ := identify_closed a h u y
  have hf := h.form a.uk a.yk
  have hl := h.l0
  have hr : 0 < a.l + (a.p00 * a.uk ^ 2 - 2 * a.p01 * a.uk * a.yk + a.p11 * a.yk ^ 2) := by linarith
  unfold form
  rw [h1, h2, h3]
  have e : 1 - ((a.p00 * a.l + (a.p00 * a.p11 - a.p01 * a.p01) * a.yk ^ 2) /
      (a.l * (a.l + (a.p00 * a.uk ^ 2 - 2 * a.p01 * a.uk * a.yk + a.p11 * a.yk ^ 2))) * a.uk ^ 2 -
      2 * ((a.p01 * a.l + (a.p00 * a.p11 - a.p01 * a.p01) * a.uk * a.yk) /
      (a.l * (a.l + (a.p00 * a.uk ^ 2 - 2 * a.p01 * a.uk * a.yk + a.p11 * a.yk ^ 2)))) * a.uk * a.yk +
      (a.p11 * a.l + (a.p00 * a.p11 - a.p01 * a.p01) * a.uk ^ 2) /
      (a.l * (a.l + (a.p00 * a.uk ^ 2 - 2 * a.p01 * a.uk * a.yk + a.p11 * a.yk ^ 2))) * a.yk ^ 2) =
      a.l / (a.l + (a.p00 * a.uk ^ 2 - 2 * a.p01 * a.uk * a.yk + a.p11 * a.yk ^ 2)) := by
    generalize hR : a.l + (a.p00 * a.uk ^ 2 - 2 * a.p01 * a.uk * a.yk + a.p11 * a.yk ^ 2) = R at *
    field_simp
    rw [← hR]; ring
  have : 0 ≤ a.l / (a.l + (a.p00 * a.uk ^ 2 - 2 * a.p01 * a.uk * a.yk + a.p11 * a.yk ^ 2)) := by positivity
  linarith

/-- The estimation error is bounded by the weighted error and the trace of the covariance. -/
theorem error_weighted (a : AutoTuning K) (h : Cov a) (B A : K) :
    (B - a.b1) ^ 2 + (A - a.a1) ^ 2 ≤ (a.p00 + a.p11) * weighted a B A := by
  have hd := h.det
  unfold weighted
  rw [← mul_div_assoc, le_div_iff₀ hd]
  nlinarith [sq_nonneg (a.p11 * (B - a.b1) - a.p01 * (A - a.a1)), sq_nonneg (a.p01 * (B - a.b1) - a.p00 * (A - a.a1))]

/-- Two independent regressors bound the trace. -/
theorem trace_form (a : AutoTuning K) (h : Cov a) {u₁ y₁ u₂ y₂ : K} (hδ : u₁ * y₂ - u₂ * y₁ ≠ 0) :
    a.p00 + a.p11 ≤ 2 * ((u₂ ^ 2 + y₂ ^ 2) * form a u₁ y₁ + (u₁ ^ 2 + y₁ ^ 2) * form a u₂ y₂) /
      (u₁ * y₂ - u₂ * y₁) ^ 2 := by
  have hp : 0 < (u₁ * y₂ - u₂ * y₁) ^ 2 := by positivity
  rw [le_div_iff₀ hp]
  have f1 := h.form (y₂ * u₁ + y₁ * u₂) (y₂ * y₁ + y₁ * y₂)
  have f2 := h.form (u₁ * u₂ + u₂ * u₁) (u₁ * y₂ + u₂ * y₁)
  unfold form
  nlinarith [f1, f2]

section Run
variable [Trans K]

omit [IsStrictOrderedRing K] in
/-- The rest of `step` leaves the identification alone. -/
theorem step_identify (a : AutoTuning K) (u y dt : K) :
    ∃ k tao it, (a.step u y dt).1 = { a.identify u y with k := k, tao := tao, it := it } := by
  unfold AutoTuning.step
  simp only
  split_ifs
  · exact ⟨_, _, _, rfl⟩
  · exact ⟨_, _, _, rfl⟩

omit [IsStrictOrderedRing K] in
/-- The controller feeds its output and the process value to the auto-tuner. -/
theorem control_tuner (s : Ctl K) (hi : s.isInitialized = true) {a : AutoTuning K} (ha : s.adapt = some a) (w y r : K) :
    (s.control w y r).1.isInitialized = true ∧ (s.control w y r).1.dt = s.dt ∧
      (s.control w y r).1.adapt = some (a.step (s.control w y r).2 y s.dt).1 := by
  unfold Ctl.control
  rw [if_pos hi]
  simp only [ha, Ctl.adaptGains]
  split_ifs
  · exact ⟨hi, rfl, rfl⟩
  · exact ⟨hi, rfl, rfl⟩

/-- What one `step` does to the identification. -/
theorem step_facts (a : AutoTuning K) (h : Cov a) (B A u y dt : K)
    (hy : y = B * a.uk - A * a.yk ∨ (a.uk = 0 ∧ a.yk = 0)) :
    let t := (a.step u y dt).1
    Cov t ∧ t.l = a.l ∧ t.uk = u ∧ t.yk = y ∧ weighted t B A ≤ a.l * weighted a B A ∧
      (∀ v z, form t v z ≤ form a v z / a.l + 1 / 10 ^ 10 * (v ^ 2 + z ^ 2)) ∧
      form t a.uk a.yk ≤ 1 + 1 / 10 ^ 10 * (a.uk ^ 2 + a.yk ^ 2) := by
  intro t
  obtain ⟨k, tao, it, e⟩ := step_identify a u y dt
  obtain ⟨-, -, -, -, h5, h6, h7, -⟩ := identify_closed a h u y
  have hc := identify_cov a h u y
  have hw := identify_weighted a h B A u y hy
  simp only [t]
  rw [e]
  exact ⟨⟨hc.l0, hc.l1, hc.sym, hc.pos, hc.det⟩, h5, h6, h7, hw, form_identify a h u y, form_last a h u y⟩

/-- The identification data right after `bindAutoTuning`; the memory factor may have been changed by
`setAutoTuningParameters`. -/
structure Start (a : AutoTuning K) : Prop where
  p00 : a.p00 = 1000
  p11 : a.p11 = 1000
  p01 : a.p01 = 0
  p10 : a.p10 = 0
  uk : a.uk = 0
  yk : a.yk = 0
  l0 : 0 < a.l
  l1 : a.l ≤ 1

/-- The output of call `n`. -/
def output (s : Ctl K) (w y r : ℕ → K) (n : ℕ) : K := ((after s w y r n).control (w n) (y n) (r n)).2

/-- The invariant of a controller with an auto-tuner in a loop with the plant. -/
theorem tuner_run (s : Ctl K) (hi : s.isInitialized = true) (a : AutoTuning K) (ha : s.adapt = some a) (h0 : Start a)
    (w y r : ℕ → K) (B A : K) (hplant : ∀ n, y (n + 1) = B * output s w y r n - A * y n) (n : ℕ) :
    (after s w y r n).isInitialized = true ∧ (after s w y r n).dt = s.dt ∧ ∃ t, (after s w y r n).adapt = some t ∧
      Cov t ∧ t.l = a.l ∧ weighted t B A ≤ a.l ^ n * (((B - a.b1) ^ 2 + (A - a.a1) ^ 2) / 1000) ∧
      (1 - a.l) * (a.l ^ n * (t.p00 + t.p11)) ≤ 2000 * (1 - a.l) + 2 / 10 ^ 10 * (1 - a.l ^ n) ∧
      ((n = 0 ∧ t.uk = 0 ∧ t.yk = 0) ∨ ∃ m, n = m + 1 ∧ t.uk = output s w y r m ∧ t.yk = y m) := by
  induction n with
  | zero =>
    refine ⟨hi, rfl, a, ha, ⟨h0.l0, h0.l1, by rw [h0.p10, h0.p01], by rw [h0.p00]; norm_num,
      by rw [h0.p00, h0.p11, h0.p01]; norm_num⟩, rfl, ?_, ?_, .inl ⟨rfl, h0.uk, h0.yk⟩⟩
    · unfold weighted
      rw [h0.p00, h0.p11, h0.p01]
      apply le_of_eq
      ring
    · rw [h0.p00, h0.p11]
      apply le_of_eq
      ring
  | succ n ih =>
    obtain ⟨i1, i2, t, i3, i4, i5, i6, i7, i8⟩ := ih
    obtain ⟨c1, c2, c3⟩ := control_tuner _ i1 i3 (w n) (y n) (r n)
    have hl := h0.l0
    have hl1 := h0.l1
    have hy : y n = B * t.uk - A * t.yk ∨ (t.uk = 0 ∧ t.yk = 0) := by
      rcases i8 with ⟨-, k⟩ | ⟨m, rfl, k1, k2⟩
      · exact .inr k
      · left; rw [k1, k2]; exact hplant m
    obtain ⟨f1, f2, f3, f4, f5, f6, -⟩ := step_facts t i4 B A (output s w y r n) (y n) (after s w y r n).dt hy
    rw [i5] at f5 f6
    replace c3 : (after s w y r (n + 1)).adapt = some (t.step (output s w y r n) (y n) (after s w y r n).dt).1 := c3
    refine ⟨c1, c2.trans i2, _, c3, f1, f2.trans i5, ?_, ?_, .inr ⟨n, rfl, f3, f4⟩⟩
    · refine f5.trans ?_
      rw [pow_succ', mul_assoc]
      exact mul_le_mul_of_nonneg_left i6 hl.le
    · have g1 := f6 1 0
      have g2 := f6 0 1
      simp only [form, one_pow, mul_one, mul_zero, sub_zero, add_zero, zero_add, ne_eq, OfNat.ofNat_ne_zero,
        not_false_eq_true, zero_pow] at g1 g2
      generalize ((t.step (output s w y r n) (y n) (after s w y r n).dt).1) = t' at *
      have g3 : a.l * (t'.p00 + t'.p11) ≤ t.p00 + t.p11 + 2 / 10 ^ 10 * a.l := by
        have e1 := mul_le_mul_of_nonneg_left (add_le_add g1 g2) hl.le
        have e2 : a.l * (t.p00 / a.l + 1 / 10 ^ 10 + (t.p11 / a.l + 1 / 10 ^ 10)) =
          t.p00 + t.p11 + 2 / 10 ^ 10 * a.l := by field_simp; ring
        linarith
      have hn : 0 < a.l ^ n := by positivity
      have g4 := mul_le_mul_of_nonneg_left g3 hn.le
      have g5 := mul_le_mul_of_nonneg_left g4 (by linarith : 0 ≤ 1 - a.l)
      have e3 : (1 - a.l) * (a.l ^ (n + 1) * (t'.p00 + t'.p11)) =
        (1 - a.l) * (a.l ^ n * (a.l * (t'.p00 + t'.p11))) := by ring
      have e4 : (1 - a.l) * (a.l ^ n * (t.p00 + t.p11 + 2 / 10 ^ 10 * a.l)) =
        (1 - a.l) * (a.l ^ n * (t.p00 + t.p11)) + 2 / 10 ^ 10 * (a.l * (1 - a.l) * a.l ^ n) := by ring
      have e5 : a.l * (1 - a.l) * a.l ^ n ≤ 1 * (1 - a.l) * a.l ^ n := by
        refine mul_le_mul_of_nonneg_right (mul_le_mul_of_nonneg_right hl1 (by linarith)) hn.le
      have e6 : 1 - a.l ^ (n + 1) = 1 - a.l ^ n + 1 * (1 - a.l) * a.l ^ n := by ring
      rw [e3, e6]
      have e7 : (2 : K) / 10 ^ 10 * (a.l * (1 - a.l) * a.l ^ n) ≤ 2 / 10 ^ 10 * (1 * (1 - a.l) * a.l ^ n) :=
        mul_le_mul_of_nonneg_left e5 (by positivity)
      linarith

/-- **C143** while the plant is the linear system `y[k+1] = B u[k] - A y[k]`, whatever the set-points, gains and limits, for
ever: the divisor of the update is at least the memory factor (there is no division by zero), and the estimation error never
exceeds its initial value by more than a factor near `√2`. -/
theorem C143_bounded (s : Ctl K) (hi : s.isInitialized = true) (a : AutoTuning K) (ha : s.adapt = some a) (h0 : Start a)
    (hl : a.l < 1) (w y r : ℕ → K) (B A : K) (hplant : ∀ n, y (n + 1) = B * output s w y r n - A * y n) (n : ℕ) :
    ∃ t, (after s w y r n).adapt = some t ∧
      t.l ≤ t.l + t.uk * (t.p00 * t.uk - t.p10 * t.yk) - t.yk * (t.p01 * t.uk - t.p11 * t.yk) ∧
      (B - t.b1) ^ 2 + (A - t.a1) ^ 2 ≤
        (2 + 2 / 10 ^ 13 / (1 - a.l)) * ((B - a.b1) ^ 2 + (A - a.a1) ^ 2) := by
  obtain ⟨-, -, t, h1, h2, h3, h4, h5, -⟩ := tuner_run s hi a ha h0 w y r B A hplant n
  refine ⟨t, h1, h2.divisor, ?_⟩
  have ht : 0 < t.p00 + t.p11 := add_pos h2.pos h2.pos'
  have hn : 0 < a.l ^ n := pow_pos h0.l0 n
  have hd : 0 < 1 - a.l := by linarith
  have k1 := (error_weighted t h2 B A).trans (mul_le_mul_of_nonneg_left h4 ht.le)
  have k2 : a.l ^ n * (t.p00 + t.p11) ≤ 2000 + 2 / 10 ^ 10 / (1 - a.l) := by
    rw [← mul_le_mul_iff_of_pos_left hd]
    have : (1 - a.l) * (2000 + 2 / 10 ^ 10 / (1 - a.l)) = 2000 * (1 - a.l) + 2 / 10 ^ 10 := by field_simp
    rw [this]
    refine h5.trans ?_
    have : (2 : K) / 10 ^ 10 * (1 - a.l ^ n) ≤ 2 / 10 ^ 10 * 1 := mul_le_mul_of_nonneg_left (by linarith) (by positivity)
    linarith
  have e0 : 0 ≤ ((B - a.b1) ^ 2 + (A - a.a1) ^ 2) / 1000 := by positivity
  have k3 := mul_le_mul_of_nonneg_right k2 e0
  have e1 : (t.p00 + t.p11) * (a.l ^ n * (((B - a.b1) ^ 2 + (A - a.a1) ^ 2) / 1000)) =
    a.l ^ n * (t.p00 + t.p11) * (((B - a.b1) ^ 2 + (A - a.a1) ^ 2) / 1000) := by ring
  have e2 : (2000 + 2 / 10 ^ 10 / (1 - a.l)) * (((B - a.b1) ^ 2 + (A - a.a1) ^ 2) / 1000) =
    (2 + 2 / 10 ^ 13 / (1 - a.l)) * ((B - a.b1) ^ 2 + (A - a.a1) ^ 2) := by field_simp; ring
  rw [e1] at k1
  rw [← e2]
  exact k1.trans k3

/-- **C143** the estimates converge: if the data of two consecutive calls are linearly independent, then the estimation error
after them is at most `l^n` times the initial error times a constant of these two data. -/
theorem C143_converges (s : Ctl K) (hi : s.isInitialized = true) (a : AutoTuning K) (ha : s.adapt = some a) (h0 : Start a)
    (w y r : ℕ → K) (B A : K) (hplant : ∀ n, y (n + 1) = B * output s w y r n - A * y n) (n : ℕ)
    (hδ : output s w y r n * y (n + 1) - output s w y r (n + 1) * y n ≠ 0) :
    let ε : K := 1 / 10 ^ 10
    let N₁ := output s w y r n ^ 2 + y n ^ 2
    let N₂ := output s w y r (n + 1) ^ 2 + y (n + 1) ^ 2
    ∃ t, (after s w y r (n + 3)).adapt = some t ∧
      (B - t.b1) ^ 2 + (A - t.a1) ^ 2 ≤
        a.l ^ (n + 3) * (((B - a.b1) ^ 2 + (A - a.a1) ^ 2) / 1000) *
        (2 * (N₂ * ((1 + ε * N₁) / a.l + ε * N₁) + N₁ * (1 + ε * N₂)) /
          (output s w y r n * y (n + 1) - output s w y r (n + 1) * y n) ^ 2) := by
  intro ε N₁ N₂
  obtain ⟨i1, i2, t1, a1, c1, l1, -, -, m1⟩ := tuner_run s hi a ha h0 w y r B A hplant (n + 1)
  obtain ⟨j1, j2, t2, a2, c2, l2, -, -, m2⟩ := tuner_run s hi a ha h0 w y r B A hplant (n + 2)
  obtain ⟨k1, k2, t3, a3, c3, l3, w3, -, -⟩ := tuner_run s hi a ha h0 w y r B A hplant (n + 3)
  obtain ⟨u1, y1⟩ : t1.uk = output s w y r n ∧ t1.yk = y n := by
    rcases m1 with ⟨k, -⟩ | ⟨m, k, h⟩
    · omega
    · obtain rfl : m = n := by omega
      exact h
  obtain ⟨u2, y2⟩ : t2.uk = output s w y r (n + 1) ∧ t2.yk = y (n + 1) := by
    rcases m2 with ⟨k, -⟩ | ⟨m, k, h⟩
    · omega
    · obtain rfl : m = n + 1 := by omega
      exact h
  have e2 : t2 = (t1.step (output s w y r (n + 1)) (y (n + 1)) (after s w y r (n + 1)).dt).1 := by
    have := (control_tuner _ i1 a1 (w (n + 1)) (y (n + 1)) (r (n + 1))).2.2
    exact Option.some.inj (a2.symm.trans this)
  have e3 : t3 = (t2.step (output s w y r (n + 2)) (y (n + 2)) (after s w y r (n + 2)).dt).1 := by
    have := (control_tuner _ j1 a2 (w (n + 2)) (y (n + 2)) (r (n + 2))).2.2
    exact Option.some.inj (a3.symm.trans this)
  obtain ⟨-, -, -, -, -, -, p2⟩ := step_facts t1 c1 B A (output s w y r (n + 1)) (y (n + 1)) (after s w y r (n + 1)).dt
    (.inl (by rw [u1, y1]; exact hplant n))
  obtain ⟨-, -, -, -, -, q3, p3⟩ := step_facts t2 c2 B A (output s w y r (n + 2)) (y (n + 2)) (after s w y r (n + 2)).dt
    (.inl (by rw [u2, y2]; exact hplant (n + 1)))
  rw [← e2, u1, y1] at p2
  rw [← e3, u2, y2] at p3
  have q3' := q3 (output s w y r n) (y n)
  rw [← e3, l2] at q3'
  have tr := trace_form t3 c3 hδ
  refine ⟨t3, a3, ?_⟩
  have ht : 0 < t3.p00 + t3.p11 := add_pos c3.pos c3.pos'
  refine ((error_weighted t3 c3 B A).trans (mul_le_mul_of_nonneg_left w3 ht.le)).trans ?_
  rw [mul_comm]
  have hl := h0.l0
  refine mul_le_mul_of_nonneg_left (tr.trans ?_) (by positivity)
  refine div_le_div_of_nonneg_right ?_ (by positivity)
  have hN1 : 0 ≤ N₁ := by positivity
  have hN2 : 0 ≤ N₂ := by positivity
  have f1 : form t3 (output s w y r n) (y n) ≤ (1 + ε * N₁) / a.l + ε * N₁ :=
    q3'.trans (add_le_add (div_le_div_of_nonneg_right p2 hl.le) le_rfl)
  have f2 := mul_le_mul_of_nonneg_left f1 hN2
  have f3 := mul_le_mul_of_nonneg_left p3 hN1
  linarith

end Run

end Exact

section Witness
attribute [local instance] ratTrans

/-- A PI controller with a bound auto-tuner. -/
def tuned0 : Ctl ℚ := ((((fresh0.setup 1 1 0 1).1.setSaturation (-100) 100).1).bindAutoTuning tuner0).1

/-- The loop of `tuned0` with the plant `y[k+1] = u[k]/5 + y[k]/2`, which starts at 0. -/
def loop (w : ℚ) : ℕ → Ctl ℚ × ℚ
  | 0 => (tuned0, 0)
  | n + 1 => let p := loop w n; let q := p.1.control w p.2 0; (q.1, 1 / 5 * q.2 + 1 / 2 * p.2)

-- the hypotheses of C143 hold for this loop, and the error has decreased a lot after four calls
example : tuned0.isInitialized = true ∧ ∃ a, tuned0.adapt = some a ∧ Start a ∧ a.l < 1 := by
  refine ⟨by decide +kernel, tuner0.initialize ⟨1, 1, 0⟩ 1, ?_, ⟨?_, ?_, ?_, ?_, ?_, ?_, ?_, ?_⟩, ?_⟩ <;> decide +kernel

example : ((tuned0.adapt.map fun a => decide (1 / 10 < (1 / 5 - a.b1) ^ 2 + (-1 / 2 - a.a1) ^ 2)) = some true) ∧
    (((loop 10 4).1.adapt.map fun a => decide ((1 / 5 - a.b1) ^ 2 + (-1 / 2 - a.a1) ^ 2 < 1 / 10 ^ 6)) = some true) := by
  decide +kernel

end Witness

end Verif.Pid
