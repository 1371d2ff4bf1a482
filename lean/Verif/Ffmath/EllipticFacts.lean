import Verif.Ffmath.Elliptic
import Verif.Ffmath.Hypot
import Mathlib.Analysis.SpecialFunctions.Trigonometric.ArctanDeriv
import Mathlib.Analysis.Real.Pi.Bounds

/-!
# Symmetry, domain and defects of the elliptic integrals (C108-C110)
-/

namespace Verif.Ffmath

open Verif F32

/-- **C108, accuracy at work**: the theorem applies to `k = 0.9`. -/
example : F32.Finite (lit 0.9) ∧ |val (lit 0.9)| < 1 := by decide +kernel

theorem mul_negate_negate (a b : BitVec 32) : F32.mul (negate a) (negate b) = F32.mul a b := by
  unfold F32.mul
  simp only [nan_negate, inf_negate, (negate_spec _).1, (negate_spec _).2, val_negate, neg_mul_neg]
  simp

/-- **C109, symmetry.** The complete integrals are even in the modulus, bit for bit, for every float (NaNs and infinities too). -/
theorem C109_even (k nu : BitVec 32) : comp_ellint_1 (negate k) = comp_ellint_1 k ∧ comp_ellint_2 (negate k) = comp_ellint_2 k ∧
    comp_ellint_3 (negate k) nu = comp_ellint_3 k nu := by
  unfold comp_ellint_1 comp_ellint_2 comp_ellint_3
  simp only [nan_negate, absolute_negate, mul_negate_negate]
  exact ⟨trivial, trivial, trivial⟩

example : comp_ellint_1 (negate (lit 0.5)) = comp_ellint_1 (lit 0.5) := (C109_even _ (lit 0)).1

/-- **C109, symmetry of the incomplete integrals** in the modulus. -/
theorem C109_even_incomplete (k nu phi : BitVec 32) : ellint_1 (negate k) phi = ellint_1 k phi ∧ ellint_2 (negate k) phi = ellint_2 k phi ∧
    ellint_3 (negate k) nu phi = ellint_3 k nu phi := by
  unfold ellint_1 ellint_2 ellint_3
  simp only [nan_negate, absolute_negate, mul_negate_negate, (C109_even k nu).1, (C109_even k nu).2.1, (C109_even k nu).2.2]
  exact ⟨trivial, trivial, trivial⟩

/-- **C109, domain.** A NaN argument and a modulus beyond one give NaN, for the complete and the incomplete integrals. -/
theorem C109_domain (k nu phi : BitVec 32) (h : IsNaN k ∨ F32.lt (lit 1) (absolute k) = true) :
    comp_ellint_1 k = nan ∧ comp_ellint_2 k = nan ∧ comp_ellint_3 k nu = nan ∧
    ellint_1 k phi = .ok nan ∧ ellint_2 k phi = .ok nan ∧ ellint_3 k nu phi = .ok nan := by
  have h1 : IsNaN k ∨ F32.le (lit 1) (absolute k) = true := by
    rcases h with h | h
    · exact .inl h
    · refine .inr ?_
      unfold F32.lt at h
      unfold F32.le
      simp only [decide_eq_true_eq, Bool.and_eq_true] at h ⊢
      grind
  unfold comp_ellint_1 comp_ellint_2 comp_ellint_3 ellint_1 ellint_2 ellint_3
  rw [if_pos h1, if_pos h, if_pos (by tauto), if_pos (by tauto), if_pos (by tauto), if_pos (by tauto)]
  exact ⟨rfl, rfl, rfl, rfl, rfl, rfl⟩

example : F32.lt (lit 1) (absolute (lit (-1.5))) = true := by decide +kernel

/-- **C109, domain.** So does a NaN characteristic or amplitude. -/
theorem C109_nan (k nu phi : BitVec 32) : (IsNaN nu → comp_ellint_3 k nu = nan ∧ ellint_3 k nu phi = .ok nan) ∧
    (IsNaN phi → ellint_1 k phi = .ok nan ∧ ellint_2 k phi = .ok nan ∧ ellint_3 k nu phi = .ok nan) := by
  unfold comp_ellint_3 ellint_1 ellint_2 ellint_3
  refine ⟨fun h => ?_, fun h => ?_⟩
  · rw [if_pos (by tauto), if_pos (by tauto)]; exact ⟨rfl, rfl⟩
  · rw [if_pos (by tauto), if_pos (by tauto), if_pos (by tauto)]; exact ⟨rfl, rfl, rfl⟩

/-- **C109, no undefined behaviour.** The incomplete integrals return for all arguments. -/
theorem C109_defined (k nu phi : BitVec 32) : (∃ r, ellint_1 k phi = .ok r) ∧ (∃ r, ellint_2 k phi = .ok r) ∧ (∃ r, ellint_3 k nu phi = .ok r) := by
  obtain ⟨n, hn, -⟩ := floor_pat (F32.add (F32.div phi FFP_PI) (lit 0.5))
  have hr : ellintReduce phi = .ok (n, F32.sub phi (F32.mul n FFP_PI)) := by unfold ellintReduce; rw [hn]; rfl
  unfold ellint_1 ellint_2 ellint_3
  rw [hr]
  refine ⟨?_, ?_, ?_⟩ <;> split
  · exact ⟨_, rfl⟩
  · simp only [Out.bind_ok]; split <;> exact ⟨_, rfl⟩
  · exact ⟨_, rfl⟩
  · simp only [Out.bind_ok]; split <;> exact ⟨_, rfl⟩
  · exact ⟨_, rfl⟩
  · simp only [Out.bind_ok]; split <;> exact ⟨_, rfl⟩

/-- **C110, defect.** The documentation promises NaN for `|k| > 1` only; at `k = 1`, where the integrals of the first and
third kind are infinite, the library returns NaN. -/
theorem C110_false_one : comp_ellint_1 (lit 1) = nan ∧ comp_ellint_1 (negate (lit 1)) = nan ∧ comp_ellint_2 (lit 1) = lit 1 ∧
    IsNaN (comp_ellint_3 (lit 1) (lit 0.5)) := by decide +kernel

/-- **C110, what holds of the special values.** For every modulus up to one the integral of the third kind with characteristic one is infinite;
the integral of the second kind is one at both ends. Missing: the first and third kind at the ends (NaN, `C110_false_one`), and the accuracy of
the third kind (`C110_false_third`; for the second kind see `C167_comp_ellint_2`). -/
theorem C110_special_partial (k : BitVec 32) (fk : F32.Finite k) (hk : |val k| ≤ 1) :
    comp_ellint_3 k (lit 1) = inf ∧ (|val k| = 1 → comp_ellint_2 k = lit 1) := by
  have h1 : ¬ (F32.lt (lit 1) (absolute k) = true) := by
    rw [lt_fin one_val.1 (absolute_finite.2 fk), absolute_val, one_val.2]
    simpa using hk
  have h2 : ¬ IsNaN (lit 1) := by decide +kernel
  have h3 : isEqual (lit 1) (lit 1) = true := by decide +kernel
  constructor
  · unfold comp_ellint_3
    rw [if_neg (by have := fk.notNaN; tauto), if_pos h3]
  · intro h
    have e : absolute k = lit 1 := eq_of_val_ne (by rw [absolute_val, h, one_val.2]) (by rw [absolute_val, h]; norm_num)
    unfold comp_ellint_2
    rw [if_neg (by have := fk.notNaN; tauto), e, if_pos h3]

example : F32.Finite (lit (-0.5)) ∧ |val (lit (-0.5))| ≤ 1 := by decide +kernel

/-- The integral of the third kind for `k = 0` and `nu = 3/4` is pi. -/
theorem third_kind_pi : ∫ θ in (0 : ℝ)..(Real.pi / 2), 1 / ((1 - 0.75 * Real.sin θ ^ 2) * √(1 - (0 : ℝ) ^ 2 * Real.sin θ ^ 2)) = Real.pi := by
  have hd : ∀ θ : ℝ, HasDerivAt (fun θ => 2 * (θ - Real.arctan (Real.sin θ * Real.cos θ / (1 + Real.cos θ ^ 2))))
      (1 / ((1 - 0.75 * Real.sin θ ^ 2) * √(1 - (0 : ℝ) ^ 2 * Real.sin θ ^ 2))) θ := by
    intro θ
    have h1 : (1 + Real.cos θ ^ 2) ≠ 0 := by positivity
    have hs := Real.hasDerivAt_sin θ
    have hc := Real.hasDerivAt_cos θ
    have := (((hasDerivAt_id θ).sub (((hs.mul hc).div ((hc.pow 2).const_add 1) h1).arctan)).const_mul 2)
    refine this.congr_deriv ?_
    have e := Real.sin_sq_add_cos_sq θ
    simp only [ne_eq, OfNat.ofNat_ne_zero, not_false_eq_true, zero_pow, zero_mul, sub_zero, Real.sqrt_one, mul_one, Pi.pow_apply, Pi.mul_apply, Pi.div_apply]
    generalize Real.sin θ = s at *
    generalize Real.cos θ = c at *
    have hq : s ^ 2 = 1 - c ^ 2 := by linarith
    have h2 : (1 + 3 * c ^ 2) ≠ 0 := by positivity
    have t1 : 1 - 0.75 * s ^ 2 = (1 + 3 * c ^ 2) / 4 := by rw [hq]; ring
    have t2 : 1 + (s * c / (1 + c ^ 2)) ^ 2 = (1 + 3 * c ^ 2) / (1 + c ^ 2) ^ 2 := by
      rw [div_pow, mul_pow, hq]; field_simp; ring
    rw [t1, t2]
    field_simp
    linear_combination (2 - 2 * c ^ 2) * e
  rw [intervalIntegral.integral_eq_sub_of_hasDerivAt (fun θ _ => hd θ)]
  · simp; ring
  · refine Continuous.intervalIntegrable ?_ _ _
    have : ∀ θ : ℝ, (1 - 0.75 * Real.sin θ ^ 2) * √(1 - (0 : ℝ) ^ 2 * Real.sin θ ^ 2) ≠ 0 := by
      intro θ
      have := Real.sin_sq_le_one θ
      simp only [ne_eq, OfNat.ofNat_ne_zero, not_false_eq_true, zero_pow, zero_mul, sub_zero, Real.sqrt_one, mul_one]
      linarith
    fun_prop (disch := exact this _)

/-- **C110, defect.** The integral of the third kind is not computed to the accuracy of the type: at `k = 0`, `nu = 3/4`, where it is pi, the
result is off by more than 1e-3, because `ellint_rc` ends with the approximate reciprocal root `rSqrt`. -/
theorem C110_false_third :
    let P := ∫ θ in (0 : ℝ)..(Real.pi / 2), 1 / ((1 - 0.75 * Real.sin θ ^ 2) * √(1 - (0 : ℝ) ^ 2 * Real.sin θ ^ 2))
    val (lit 0.75) = 0.75 ∧ val (lit 0) = 0 ∧ F32.Finite (comp_ellint_3 (lit 0) (lit 0.75)) ∧
    1e-3 < |(val (comp_ellint_3 (lit 0) (lit 0.75)) : ℝ) - P| := by
  simp only
  rw [third_kind_pi]
  have h : F32.Finite (comp_ellint_3 (lit 0) (lit 0.75)) ∧ val (comp_ellint_3 (lit 0) (lit 0.75)) ≤ 3.1404 := by decide +kernel
  refine ⟨by decide +kernel, by decide +kernel, h.1, ?_⟩
  have h2 : ((val (comp_ellint_3 (lit 0) (lit 0.75)) : ℚ) : ℝ) ≤ ((3.1404 : ℚ) : ℝ) := by exact_mod_cast h.2
  push_cast at h2
  have := Real.pi_gt_d4
  rw [abs_sub_comm, abs_of_pos (by linarith)]
  linarith

/-- The same loss in `ellint_rc( 1, 1 )`, which is one. -/
theorem C110_false_rc : val (ellintRc (lit 1) (lit 1)) < 0.9984 ∧ F32.Finite (ellintRc (lit 1) (lit 1)) := by decide +kernel

end Verif.Ffmath
