import Verif.Ffmath.StirlingReal
import Verif.F32.PolyPos
import Mathlib.Analysis.Convex.Deriv

/-!
# Comparison of rational functions with `log Γ`

Facts about real numbers only; nothing here is a definition of the repository. Stirling's series at `x + 6` gives `log Γ(x)` up to
`5e-8`, and its second derivative is a rational function: a function that agrees with `log Γ` at two points and whose second derivative
agrees with that rational function (a check of polynomials) agrees with `log Γ` in between.
-/

namespace Verif.Ffmath

open Verif.F32

/-- The derivative of a polynomial. Not a definition of the repository. -/
def pder : List ℚ → List ℚ
  | [] => []
  | _ :: p => padd p (0 :: pder p)

theorem hasDerivAt_peval (p : List ℚ) (x : ℝ) : HasDerivAt (peval p) (peval (pder p) x) x := by
  induction p with
  | nil => exact hasDerivAt_const x 0
  | cons a p ih =>
    have h := ((hasDerivAt_id x).mul ih).const_add (a : ℝ)
    have e : peval (pder (a :: p)) x = 1 * peval p x + id x * peval (pder p) x := by
      rw [pder, peval_padd, peval_cons]; push_cast; simp
    rw [e]
    exact h

/-- Interpolation between (or beyond) two points with a bound of the second derivative. -/
theorem three_points {F F' F'' : ℝ → ℝ} {a b e : ℝ} (h1 : ∀ x ∈ Set.Icc a b, HasDerivAt F (F' x) x)
    (h2 : ∀ x ∈ Set.Icc a b, HasDerivAt F' (F'' x) x) (hb : ∀ x ∈ Set.Icc a b, |F'' x| ≤ e) {p q r : ℝ} (hp : a ≤ p) (hpq : p < q) (hqr : q < r)
    (hr : r ≤ b) : |(r - q) * F p + (q - p) * F r - (r - p) * F q| ≤ e / 2 * ((r - q) * (q - p) * (r - p)) := by
  have conv : ∀ G G' G'' : ℝ → ℝ, (∀ x ∈ Set.Icc a b, HasDerivAt G (G' x) x) → (∀ x ∈ Set.Icc a b, HasDerivAt G' (G'' x) x) →
      (∀ x ∈ Set.Icc a b, -e ≤ G'' x) → (r - p) * G q ≤ (r - q) * G p + (q - p) * G r + e / 2 * ((r - q) * (q - p) * (r - p)) := by
    intro G G' G'' g1 g2 g3
    have hsub : interior (Set.Icc a b) ⊆ Set.Icc a b := interior_subset
    have hc : ConvexOn ℝ (Set.Icc a b) fun x => G x + e / 2 * x ^ 2 := by
      refine convexOn_of_hasDerivWithinAt2_nonneg (f' := fun x => G' x + e * x) (f'' := fun x => G'' x + e) (convex_Icc a b) ?_ ?_ ?_ ?_
      · exact fun x hx => ((g1 x hx).continuousAt.continuousWithinAt).add (by fun_prop)
      · intro x hx
        have := (g1 x (hsub hx)).add (((hasDerivAt_pow 2 x).const_mul (e / 2)))
        refine (this.congr_deriv ?_).hasDerivWithinAt
        norm_num; ring
      · intro x hx
        have := (g2 x (hsub hx)).add ((hasDerivAt_id x).const_mul e)
        refine (this.congr_deriv ?_).hasDerivWithinAt
        ring
      · intro x hx
        have := g3 x (hsub hx)
        linarith
    have hpr : 0 < r - p := by linarith
    have h := hc.2 (show p ∈ Set.Icc a b from ⟨hp, by linarith⟩) (show r ∈ Set.Icc a b from ⟨by linarith, hr⟩)
      (div_nonneg (by linarith) hpr.le : 0 ≤ (r - q) / (r - p)) (div_nonneg (by linarith) hpr.le : 0 ≤ (q - p) / (r - p))
      (by field_simp; ring)
    have e1 : ((r - q) / (r - p)) • p + ((q - p) / (r - p)) • r = q := by
      simp only [smul_eq_mul]; field_simp; ring
    rw [e1] at h
    simp only [smul_eq_mul] at h
    have h' := mul_le_mul_of_nonneg_left h hpr.le
    have e2 : (r - p) * ((r - q) / (r - p) * (G p + e / 2 * p ^ 2) + (q - p) / (r - p) * (G r + e / 2 * r ^ 2)) =
        (r - q) * (G p + e / 2 * p ^ 2) + (q - p) * (G r + e / 2 * r ^ 2) := by field_simp
    rw [e2] at h'
    nlinarith [h']
  have u1 := conv F F' F'' h1 h2 fun x hx => (abs_le.1 (hb x hx)).1
  have u2 := conv (fun x => -F x) (fun x => -F' x) (fun x => -F'' x) (fun x hx => (h1 x hx).neg) (fun x hx => (h2 x hx).neg)
    fun x hx => by have := (abs_le.1 (hb x hx)).2; linarith
  rw [abs_le]
  constructor <;> linarith

/-! ## Stirling's series at `x + 6` -/

/-- `log Γ(x)` by Stirling's series at `x + 6`. Not a definition of the repository. -/
noncomputable def lgs (x : ℝ) : ℝ := stir (x + 6) + corr3 (x + 6) - ∑ m ∈ Finset.range 6, Real.log (x + m)

theorem lgs_bounds {x : ℝ} (hx : 0 < x) : lgs x ≤ Real.log (Real.Gamma x) ∧ Real.log (Real.Gamma x) ≤ lgs x + 1 / (1260 * (x + 6) ^ 5) := by
  obtain ⟨h1, h2⟩ := stir_bounds (x := x + 6) (by linarith)
  have h3 := log_Gamma_add hx 6
  push_cast at h3
  unfold lgs
  unfold corr5 at h2
  constructor <;> linarith

/-- Its derivative. Not a definition of the repository. -/
noncomputable def lgs1 (x : ℝ) : ℝ := Real.log (x + 6) - 1 / (2 * (x + 6)) - 1 / (12 * (x + 6) ^ 2) + 1 / (120 * (x + 6) ^ 4)
  - ∑ m ∈ Finset.range 6, (x + m)⁻¹

/-- Its second derivative. Not a definition of the repository. -/
noncomputable def lgs2 (x : ℝ) : ℝ := 1 / (x + 6) + 1 / (2 * (x + 6) ^ 2) + 1 / (6 * (x + 6) ^ 3) - 1 / (30 * (x + 6) ^ 5)
  + ∑ m ∈ Finset.range 6, ((x + m) ^ 2)⁻¹

theorem hasDerivAt_lgs {x : ℝ} (hx : 0 < x) : HasDerivAt lgs (lgs1 x) x := by
  have y0 : x + 6 ≠ 0 := by positivity
  have hy : HasDerivAt (fun x : ℝ => x + 6) 1 x := (hasDerivAt_id x).add_const 6
  have hl := hy.log y0
  have a1 : HasDerivAt (fun x : ℝ => stir (x + 6)) (1 * Real.log (x + 6) + (x + 6 - 1 / 2) * (1 / (x + 6)) - 1) x :=
    (((hy.sub_const (1 / 2)).mul hl).sub hy).add_const _
  have i := hy.inv y0
  have a2 : HasDerivAt (fun x : ℝ => corr3 (x + 6)) (1 / 12 * (-1 / (x + 6) ^ 2) - 1 / 360 * (3 * (x + 6)⁻¹ ^ 2 * (-1 / (x + 6) ^ 2))) x := by
    have := (i.const_mul (1 / 12)).sub ((i.pow 3).const_mul (1 / 360))
    refine (this.congr_deriv (by norm_num)).congr_of_eventuallyEq (Filter.Eventually.of_forall fun x => ?_)
    simp only [corr3, one_div, mul_inv, inv_pow, Pi.pow_apply, Pi.sub_apply, Pi.inv_apply]
  have a3 : HasDerivAt (fun x : ℝ => ∑ m ∈ Finset.range 6, Real.log (x + m)) (∑ m ∈ Finset.range 6, (x + m)⁻¹) x := by
    refine HasDerivAt.fun_sum fun m _ => ?_
    have := ((hasDerivAt_id x).add_const (m : ℝ)).log (by simp only [id]; positivity)
    simpa using this
  refine ((a1.add a2).sub a3).congr_deriv ?_
  unfold lgs1
  field_simp
  ring

theorem hasDerivAt_lgs1 {x : ℝ} (hx : 0 < x) : HasDerivAt lgs1 (lgs2 x) x := by
  have y0 : x + 6 ≠ 0 := by positivity
  have hy : HasDerivAt (fun x : ℝ => x + 6) 1 x := (hasDerivAt_id x).add_const 6
  have hl := hy.log y0
  have i := hy.inv y0
  have a2 : HasDerivAt (fun x : ℝ => Real.log (x + 6) - 1 / (2 * (x + 6)) - 1 / (12 * (x + 6) ^ 2) + 1 / (120 * (x + 6) ^ 4))
      (1 / (x + 6) - 1 / 2 * (-1 / (x + 6) ^ 2) - 1 / 12 * (2 * (x + 6)⁻¹ ^ 1 * (-1 / (x + 6) ^ 2)) +
        1 / 120 * (4 * (x + 6)⁻¹ ^ 3 * (-1 / (x + 6) ^ 2))) x := by
    have := ((hl.sub (i.const_mul (1 / 2))).sub ((i.pow 2).const_mul (1 / 12))).add ((i.pow 4).const_mul (1 / 120))
    refine (this.congr_deriv (by norm_num)).congr_of_eventuallyEq (Filter.Eventually.of_forall fun x => ?_)
    simp only [one_div, mul_inv, inv_pow, Pi.pow_apply, Pi.sub_apply, Pi.add_apply, Pi.inv_apply]
  have a3 : HasDerivAt (fun x : ℝ => ∑ m ∈ Finset.range 6, (x + m)⁻¹) (∑ m ∈ Finset.range 6, -((x + m) ^ 2)⁻¹) x := by
    refine HasDerivAt.fun_sum fun m _ => ?_
    have := ((hasDerivAt_id x).add_const (m : ℝ)).inv (by simp only [id]; positivity)
    refine this.congr_deriv ?_
    simp [neg_div]
  refine (a2.sub a3).congr_deriv ?_
  unfold lgs2
  rw [Finset.sum_neg_distrib]
  field_simp
  ring

/-- A multiple of the numerator of `lgs2`. Not a definition of the repository. -/
def lgsN : List ℚ := [3359232000, 18139852800, 49353428160, 84794363040, 99929113724, 84540639900, 52873228515, 24923247210, 8959484632, 
  2469049575, 520952950, 83442315, 9965514, 859425, 50555, 1815, 30]
/-- The same multiple of its denominator. Not a definition of the repository. -/
def lgsD : List ℚ := [0, 0, 3359232000, 18139852800, 43827713280, 63031478400, 60538363200, 41258397600, 20670614640, 7771815480, 2215939500, 
  480097950, 78533280, 9540090, 834300, 49650, 1800, 30]

theorem lgs2_eq {x : ℝ} (hx : 0 < x) : 0 < peval lgsD x ∧ lgs2 x = peval lgsN x / peval lgsD x := by
  have e : peval lgsD x = 30 * (x * (x + 1) * (x + 2) * (x + 3) * (x + 4) * (x + 5)) ^ 2 * (x + 6) ^ 5 := by
    simp only [lgsD, peval_cons, peval_nil]
    push_cast
    ring
  have h0 : 0 < peval lgsD x := by rw [e]; positivity
  refine ⟨h0, ?_⟩
  rw [eq_div_iff h0.ne', e]
  simp only [lgs2, lgsN, peval_cons, peval_nil, Finset.sum_range_succ, Finset.sum_range_zero]
  push_cast
  field_simp
  ring

end Verif.Ffmath
