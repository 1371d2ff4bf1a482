import Verif.Ffmath.GammaCore

/-!
# Comparison of rational functions with `log Γ`, without an error at the end points

Facts about real numbers only; nothing here is a definition of the repository. The differences of Stirling's series at `x + n` and at
`x + n + 1` have tiny second derivatives whose bounds telescope; so a function whose second derivative is close to that of Stirling's
series at `x + 6` can be compared with `log Γ` itself through interpolation between two points.
-/

namespace Verif.Ffmath

open Verif.F32

/-- Stirling's series with two correction terms. Not a definition of the repository. -/
noncomputable def stc (x : ℝ) : ℝ := stir x + corr3 x
/-- Its derivative. Not a definition of the repository. -/
noncomputable def stc1 (x : ℝ) : ℝ := Real.log x - 1 / (2 * x) - 1 / (12 * x ^ 2) + 1 / (120 * x ^ 4)
/-- Its second derivative. Not a definition of the repository. -/
noncomputable def stc2 (x : ℝ) : ℝ := 1 / x + 1 / (2 * x ^ 2) + 1 / (6 * x ^ 3) - 1 / (30 * x ^ 5)

theorem hasDerivAt_stc {x : ℝ} (hx : 0 < x) : HasDerivAt stc (stc1 x) x := by
  have hy : HasDerivAt (fun x : ℝ => x) 1 x := hasDerivAt_id x
  have hl := hy.log hx.ne'
  have a1 : HasDerivAt stir (1 * Real.log x + (x - 1 / 2) * (1 / x) - 1) x := (((hy.sub_const (1 / 2)).mul hl).sub hy).add_const _
  have i := hy.inv hx.ne'
  have a2 : HasDerivAt corr3 (1 / 12 * (-1 / x ^ 2) - 1 / 360 * (3 * x⁻¹ ^ 2 * (-1 / x ^ 2))) x := by
    have := (i.const_mul (1 / 12)).sub ((i.pow 3).const_mul (1 / 360))
    refine (this.congr_deriv (by norm_num)).congr_of_eventuallyEq (Filter.Eventually.of_forall fun x => ?_)
    simp only [corr3, one_div, mul_inv, inv_pow, Pi.pow_apply, Pi.sub_apply, Pi.inv_apply]
  refine (a1.add a2).congr_deriv ?_
  unfold stc1
  field_simp
  ring

theorem hasDerivAt_stc1 {x : ℝ} (hx : 0 < x) : HasDerivAt stc1 (stc2 x) x := by
  have hy : HasDerivAt (fun x : ℝ => x) 1 x := hasDerivAt_id x
  have hl := hy.log hx.ne'
  have i := hy.inv hx.ne'
  have a2 : HasDerivAt stc1
      (1 / x - 1 / 2 * (-1 / x ^ 2) - 1 / 12 * (2 * x⁻¹ ^ 1 * (-1 / x ^ 2)) + 1 / 120 * (4 * x⁻¹ ^ 3 * (-1 / x ^ 2))) x := by
    have := ((hl.sub (i.const_mul (1 / 2))).sub ((i.pow 2).const_mul (1 / 12))).add ((i.pow 4).const_mul (1 / 120))
    refine (this.congr_deriv (by norm_num)).congr_of_eventuallyEq (Filter.Eventually.of_forall fun x => ?_)
    simp only [stc1, one_div, mul_inv, inv_pow, Pi.pow_apply, Pi.sub_apply, Pi.add_apply, Pi.inv_apply]
  refine a2.congr_deriv ?_
  unfold stc2
  field_simp
  ring

theorem stc2_step {x : ℝ} (hx : 0 < x) :
    0 ≤ 1 / x ^ 2 + stc2 (x + 1) - stc2 x ∧ 1 / x ^ 2 + stc2 (x + 1) - stc2 x ≤ 1 / (42 * x ^ 7) - 1 / (42 * (x + 1) ^ 7) := by
  have y : 0 < x + 1 := by linarith
  have e1 : 1 / x ^ 2 + stc2 (x + 1) - stc2 x = (x ^ 2 / 30 + 7 / 30 * x ^ 3 + 8 / 15 * x ^ 4 + x ^ 5 / 2 + x ^ 6 / 6) / (x ^ 7 * (x + 1) ^ 7) := by
    unfold stc2; field_simp; ring
  have e2 : 1 / (42 * x ^ 7) - 1 / (42 * (x + 1) ^ 7) - (1 / x ^ 2 + stc2 (x + 1) - stc2 x) =
      (1 / 42 + x / 6 + 7 / 15 * x ^ 2 + 3 / 5 * x ^ 3 + 3 / 10 * x ^ 4) / (x ^ 7 * (x + 1) ^ 7) := by
    unfold stc2; field_simp; ring
  constructor
  · rw [e1]; positivity
  · have : 0 ≤ 1 / (42 * x ^ 7) - 1 / (42 * (x + 1) ^ 7) - (1 / x ^ 2 + stc2 (x + 1) - stc2 x) := by rw [e2]; positivity
    linarith

/-- The step of Stirling's series. Not a definition of the repository. -/
noncomputable def dlt (x : ℝ) : ℝ := stc (x + 1) - Real.log x - stc x

/-- The second difference of a function over three points. Not a definition of the repository. -/
def tri (p q r : ℝ) (f : ℝ → ℝ) : ℝ := (r - q) * f p + (q - p) * f r - (r - p) * f q

theorem tri_add (p q r : ℝ) (f g : ℝ → ℝ) : tri p q r (fun x => f x + g x) = tri p q r f + tri p q r g := by unfold tri; ring

theorem dlt_tri {a p q r s : ℝ} (ha : 0 < a + s) (hp : a ≤ p) (hpq : p < q) (hqr : q < r) :
    |tri p q r fun x => dlt (x + s)| ≤ (1 / (42 * (a + s) ^ 7) - 1 / (42 * (a + s + 1) ^ 7)) / 2 * ((r - q) * (q - p) * (r - p)) := by
  have hsh : ∀ x : ℝ, HasDerivAt (fun x : ℝ => x + s) 1 x := fun x => (hasDerivAt_id x).add_const s
  have hsh1 : ∀ x : ℝ, HasDerivAt (fun x : ℝ => x + s + 1) 1 x := fun x => (hsh x).add_const 1
  have anti : ∀ x : ℝ, a ≤ x → 1 / (42 * (x + s) ^ 7) - 1 / (42 * (x + s + 1) ^ 7) ≤ 1 / (42 * (a + s) ^ 7) - 1 / (42 * (a + s + 1) ^ 7) := by
    intro x hx
    -- the difference is a sum of decreasing functions
    have key : ∀ t : ℝ, 0 < t → 1 / (42 * t ^ 7) - 1 / (42 * (t + 1) ^ 7) =
        1 / 42 * (1 / (t * (t + 1)) * ∑ i ∈ Finset.range 7, (1 / t) ^ i * (1 / (t + 1)) ^ (6 - i)) := by
      intro t ht
      have t1 : 0 < t + 1 := by linarith
      have hg := (Commute.all (1 / t) (1 / (t + 1))).geom_sum₂_mul 7
      have e : 1 / t - 1 / (t + 1) = 1 / (t * (t + 1)) := by field_simp; ring
      rw [e] at hg
      have : 1 / (42 * t ^ 7) - 1 / (42 * (t + 1) ^ 7) = 1 / 42 * ((1 / t) ^ 7 - (1 / (t + 1)) ^ 7) := by
        field_simp
      rw [this, ← hg]
      simp only [Nat.reduceSub]
      ring
    have hxs : 0 < x + s := by linarith
    rw [key _ ha, key _ hxs]
    have m1 : 1 / (x + s) ≤ 1 / (a + s) := one_div_le_one_div_of_le ha (by linarith)
    have m2 : 1 / (x + s + 1) ≤ 1 / (a + s + 1) := one_div_le_one_div_of_le (by linarith) (by linarith)
    have m3 : 1 / ((x + s) * (x + s + 1)) ≤ 1 / ((a + s) * (a + s + 1)) :=
      one_div_le_one_div_of_le (by positivity) (mul_le_mul (by linarith) (by linarith) (by linarith) (by linarith))
    have q1 : 0 ≤ 1 / (x + s) := by positivity
    have q2 : 0 ≤ 1 / (x + s + 1) := by positivity
    gcongr
  have h := three_points (F := fun x => dlt (x + s)) (F' := fun x => stc1 (x + s + 1) - 1 / (x + s) - stc1 (x + s))
    (F'' := fun x => stc2 (x + s + 1) + 1 / (x + s) ^ 2 - stc2 (x + s)) (a := a) (b := r)
    (e := 1 / (42 * (a + s) ^ 7) - 1 / (42 * (a + s + 1) ^ 7)) ?_ ?_ ?_ hp hpq hqr le_rfl
  · exact h
  · intro x hx
    have xs : 0 < x + s := by linarith [hx.1]
    have h1 := (hasDerivAt_stc (x := x + s + 1) (by linarith)).comp x (hsh1 x)
    have h2 := (hasDerivAt_stc xs).comp x (hsh x)
    have h3 := (hsh x).log xs.ne'
    refine ((h1.sub h3).sub h2).congr_deriv ?_
    simp
  · intro x hx
    have xs : 0 < x + s := by linarith [hx.1]
    have h1 := (hasDerivAt_stc1 (x := x + s + 1) (by linarith)).comp x (hsh1 x)
    have h2 := (hasDerivAt_stc1 xs).comp x (hsh x)
    have h3 := (hsh x).inv xs.ne'
    refine (((h1.sub h3).sub h2).congr_deriv ?_).congr_of_eventuallyEq (Filter.Eventually.of_forall fun x => ?_)
    · simp only [mul_one]; ring
    · simp only [Function.comp, Pi.sub_apply, one_div, Pi.inv_apply]
  · intro x hx
    have xs : 0 < x + s := by linarith [hx.1]
    obtain ⟨s1, s2⟩ := stc2_step xs
    rw [abs_of_nonneg (by linarith)]
    linarith [anti x hx.1]

theorem sum_tri {a p q r s : ℝ} (ha : 0 < a + s) (hp : a ≤ p) (hpq : p < q) (hqr : q < r) (n : ℕ) :
    |tri p q r fun x => ∑ k ∈ Finset.range n, dlt (x + s + k)| ≤
      (1 / (42 * (a + s) ^ 7) - 1 / (42 * (a + s + n) ^ 7)) / 2 * ((r - q) * (q - p) * (r - p)) := by
  induction n with
  | zero => simp [tri]
  | succ n ih =>
    have h := dlt_tri (a := a) (s := s + n) (by have : (0 : ℝ) ≤ n := Nat.cast_nonneg _; linarith) hp hpq hqr
    simp only [← add_assoc] at h
    simp only [Finset.sum_range_succ]
    rw [tri_add p q r (fun x => ∑ k ∈ Finset.range n, dlt (x + s + k)) fun x => dlt (x + s + n)]
    refine (abs_add_le _ _).trans ((add_le_add ih h).trans (le_of_eq ?_))
    push_cast
    rw [← add_assoc (a + s)]
    ring

theorem sum_dlt (x : ℝ) (n : ℕ) :
    ∑ k ∈ Finset.range n, dlt (x + k) = stc (x + n) - stc x - ∑ k ∈ Finset.range n, Real.log (x + k) := by
  induction n with
  | zero => simp
  | succ n ih =>
    rw [Finset.sum_range_succ, Finset.sum_range_succ, ih, dlt]
    push_cast
    rw [← add_assoc x]
    ring

/-- What is left of `log Γ` after Stirling's series at `x + 6` and `n` further steps. -/
theorem rest_small {x : ℝ} (hx : 0 < x) (n : ℕ) :
    |Real.log (Real.Gamma x) - lgs x - ∑ k ∈ Finset.range n, dlt (x + 6 + k)| ≤ 1 / (n + 1) := by
  have hn : (0 : ℝ) ≤ n := Nat.cast_nonneg _
  have g6 := log_Gamma_add hx 6
  have gn := log_Gamma_add (x := x + 6) (by linarith) n
  obtain ⟨b1, b2⟩ := stir_bounds (x := x + 6 + n) (by linarith)
  rw [sum_dlt]
  unfold lgs stc
  unfold corr5 at b2
  push_cast at g6
  have hs : 1 / (1260 * (x + 6 + n) ^ 5) ≤ 1 / ((n : ℝ) + 1) := by
    apply one_div_le_one_div_of_le (by linarith)
    have : (1 : ℝ) * (x + 6 + n) ≤ (x + 6 + n) ^ 4 * (x + 6 + n) := by
      apply mul_le_mul_of_nonneg_right _ (by linarith)
      exact one_le_pow₀ (by linarith)
    nlinarith
  rw [abs_le]
  constructor <;> linarith

theorem Gamma_tri {a p q r : ℝ} (ha : 0 < a) (hp : a ≤ p) (hpq : p < q) (hqr : q < r) :
    |tri p q r fun x => Real.log (Real.Gamma x) - lgs x| ≤ 1 / (42 * (a + 6) ^ 7) / 2 * ((r - q) * (q - p) * (r - p)) := by
  have w : 0 < (r - q) * (q - p) * (r - p) := mul_pos (mul_pos (by linarith) (by linarith)) (by linarith)
  have main : ∀ n : ℕ, |tri p q r fun x => Real.log (Real.Gamma x) - lgs x| ≤
      1 / (42 * (a + 6) ^ 7) / 2 * ((r - q) * (q - p) * (r - p)) + 2 * (r - p) * (1 / (n + 1)) := by
    intro n
    have h1 := sum_tri (a := a) (s := 6) (by linarith) hp hpq hqr n
    have e : (fun x => Real.log (Real.Gamma x) - lgs x) =
        fun x => (∑ k ∈ Finset.range n, dlt (x + 6 + k)) + (Real.log (Real.Gamma x) - lgs x - ∑ k ∈ Finset.range n, dlt (x + 6 + k)) := by
      funext x; ring
    rw [e, tri_add]
    have hn : (0 : ℝ) ≤ n := Nat.cast_nonneg _
    have h2 : |tri p q r fun x => Real.log (Real.Gamma x) - lgs x - ∑ k ∈ Finset.range n, dlt (x + 6 + k)| ≤ 2 * (r - p) * (1 / (n + 1)) := by
      have r1 := rest_small (x := p) (by linarith) n
      have r2 := rest_small (x := q) (by linarith) n
      have r3 := rest_small (x := r) (by linarith) n
      unfold tri
      beta_reduce
      generalize Real.log (Real.Gamma p) - lgs p - ∑ k ∈ Finset.range n, dlt (p + 6 + k) = A at *
      generalize Real.log (Real.Gamma q) - lgs q - ∑ k ∈ Finset.range n, dlt (q + 6 + k) = B at *
      generalize Real.log (Real.Gamma r) - lgs r - ∑ k ∈ Finset.range n, dlt (r + 6 + k) = C at *
      generalize 1 / ((n : ℝ) + 1) = w at *
      rw [abs_le] at *
      have x1 := mul_le_mul_of_nonneg_left r1.1 (by linarith : (0 : ℝ) ≤ r - q)
      have x2 := mul_le_mul_of_nonneg_left r1.2 (by linarith : (0 : ℝ) ≤ r - q)
      have x3 := mul_le_mul_of_nonneg_left r3.1 (by linarith : (0 : ℝ) ≤ q - p)
      have x4 := mul_le_mul_of_nonneg_left r3.2 (by linarith : (0 : ℝ) ≤ q - p)
      have x5 := mul_le_mul_of_nonneg_left r2.1 (by linarith : (0 : ℝ) ≤ r - p)
      have x6 := mul_le_mul_of_nonneg_left r2.2 (by linarith : (0 : ℝ) ≤ r - p)
      constructor <;> linarith
    refine (abs_add_le _ _).trans (add_le_add (h1.trans ?_) h2)
    apply mul_le_mul_of_nonneg_right _ w.le
    have : 0 < 1 / (42 * (a + 6 + n) ^ 7) := by positivity
    linarith
  refine ge_of_tendsto' (x := Filter.atTop) (f := fun n : ℕ => 1 / (42 * (a + 6) ^ 7) / 2 * ((r - q) * (q - p) * (r - p)) + 2 * (r - p) * (1 / ((n : ℝ) + 1))) ?_ main
  have := (tendsto_one_div_add_atTop_nhds_zero_nat (𝕜 := ℝ)).const_mul (2 * (r - p))
  have := this.const_add (1 / (42 * (a + 6) ^ 7) / 2 * ((r - q) * (q - p) * (r - p)))
  simpa using this

/-- A function whose second derivative is close to that of Stirling's series at `x + s + 6`, compared with `log Γ` over three points. -/
theorem compare_three {f f' f'' : ℝ → ℝ} {a b e s : ℝ} (has : 0 < a + s) (h1 : ∀ x ∈ Set.Icc a b, HasDerivAt f (f' x) x)
    (h2 : ∀ x ∈ Set.Icc a b, HasDerivAt f' (f'' x) x) (hb : ∀ x ∈ Set.Icc a b, |f'' x - lgs2 (x + s)| ≤ e) {p q r : ℝ} (hp : a ≤ p) (hpq : p < q)
    (hqr : q < r) (hr : r ≤ b) :
    |tri p q r fun z => f z - Real.log (Real.Gamma (z + s))| ≤ (e + 1 / (42 * (a + s + 6) ^ 7)) / 2 * ((r - q) * (q - p) * (r - p)) := by
  have hsh : ∀ x : ℝ, HasDerivAt (fun x : ℝ => x + s) 1 x := fun x => (hasDerivAt_id x).add_const s
  have t1 := three_points (F := fun z => f z - lgs (z + s)) (F' := fun z => f' z - lgs1 (z + s)) (F'' := fun z => f'' z - lgs2 (z + s))
    (a := a) (b := b) (e := e)
    (fun x hx => by
      have := (h1 x hx).sub ((hasDerivAt_lgs (x := x + s) (by linarith [hx.1])).comp x (hsh x))
      rw [mul_one] at this
      exact this)
    (fun x hx => by
      have := (h2 x hx).sub ((hasDerivAt_lgs1 (x := x + s) (by linarith [hx.1])).comp x (hsh x))
      rw [mul_one] at this
      exact this) hb hp hpq hqr hr
  have t2 := Gamma_tri (a := a + s) (p := p + s) (q := q + s) (r := r + s) has (by linarith) (by linarith) (by linarith)
  have e1 : (r + s - (q + s)) * (q + s - (p + s)) * (r + s - (p + s)) = (r - q) * (q - p) * (r - p) := by ring
  rw [e1] at t2
  have e2 : (tri p q r fun z => f z - Real.log (Real.Gamma (z + s))) =
      ((r - q) * (f p - lgs (p + s)) + (q - p) * (f r - lgs (r + s)) - (r - p) * (f q - lgs (q + s))) -
      (tri (p + s) (q + s) (r + s) fun x => Real.log (Real.Gamma x) - lgs x) := by
    unfold tri; ring
  rw [e2]
  refine (abs_sub _ _).trans ((add_le_add t1 t2).trans (le_of_eq ?_))
  ring

end Verif.Ffmath
