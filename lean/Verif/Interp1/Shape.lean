import Verif.Interp1.Smooth
import Mathlib.Algebra.Polynomial.Derivative
import Mathlib.Tactic.ComputeDegree

/-!
# Properties C64 and C65: reproduction of straight lines, smoothness of `spline` (exact arithmetic)
-/

namespace Verif.Interp1

open Arith

variable {K : Type} [Field K] [LinearOrder K] [IsStrictOrderedRing K]

/-! ## C64: straight lines -/

omit [LinearOrder K] [IsStrictOrderedRing K] in
theorem line_affine {a b x x0 x1 : K} (h : x0 ≠ x1) :
    (a * x0 + b) + ((a * x1 + b) - (a * x0 + b)) / (x1 - x0) * (x - x0) = a * x + b := by
  have := sub_ne_zero.mpr h.symm
  field_simp
  ring

omit [IsStrictOrderedRing K] in
/-- **C64** points on a straight line are reproduced by `linear`, for every `x`. -/
theorem C64_linear (nan x : K) (tx ty : Array K) (n : Nat) (X Y : Nat → K) (a b : K)
    (hn : 2 ≤ n) (hX : IsTable tx n X) (hY : IsTable ty n Y) (hinc : Increasing n X)
    (hline : ∀ i, i < n → Y i = a * X i + b) :
    linear nan x (some tx) (some ty) n = .ok (a * x + b) := by
  by_cases c0 : x < X 0
  · rw [C45_below nan x tx ty n X Y hn hX hY c0, hline 0 (by omega), hline 1 (by omega),
      line_affine (inc_lt hinc (by omega) (by omega)).ne]
  · by_cases c1 : X (n - 1) < x
    · rw [C45_above nan x tx ty n X Y hn hX hY hinc c1, hline (n - 1) (by omega), hline (n - 2) (by omega),
        line_affine (inc_lt hinc (by omega) (by omega)).ne]
    · obtain ⟨i, hi, _, h⟩ := segment_spec x tx n X hn hX hinc
      have hle : X i ≤ x ∧ x ≤ X (i + 1) := by
        rcases h with ⟨h1, rfl⟩ | ⟨h1, rfl⟩ | ⟨h1, h2⟩
        · exact ⟨not_lt.mp c0, h1.trans (inc_le hinc (by omega) hi)⟩
        · rw [show n - 2 + 1 = n - 1 by omega]
          exact ⟨(inc_le hinc (by omega) (by omega)).trans h1, not_lt.mp c1⟩
        · exact ⟨h1, h2.le⟩
      rw [C45_inside nan x tx ty n X Y hX hY hinc i hi hle.1 hle.2, hline i (by omega), hline (i + 1) hi,
        line_affine (inc_lt hinc (by omega) hi).ne]

omit [IsStrictOrderedRing K] in
/-- **C64** points on a straight line are reproduced by `hermite`, for every `x`. -/
theorem C64_hermite_line (nan x : K) (tx ty : Array K) (n : Nat) (X Y : Nat → K) (a b : K)
    (hn : 2 ≤ n) (hX : IsTable tx n X) (hY : IsTable ty n Y) (hinc : Increasing n X)
    (hline : ∀ i, i < n → Y i = a * X i + b) :
    hermite nan x (some tx) (some ty) n = .ok (a * x + b) := by
  by_cases c : X 0 ≤ x ∧ x ≤ X (n - 1)
  · have hp : (Polynomial.C a * Polynomial.X + Polynomial.C b : Polynomial K).degree < n := by
      refine lt_of_le_of_lt Polynomial.degree_linear_le ?_
      exact_mod_cast (by omega : 1 < n)
    rw [C64_hermite nan x tx ty n X Y hn hX hY hinc c.1 c.2 _ hp (by intro i hi; simp [hline i hi])]
    simp
  · -- outside the table both methods run the same code
    have h := C64_linear nan x tx ty n X Y a b hn hX hY hinc hline
    rw [← h]
    unfold hermite linear guarded withLines
    simp only [ge_iff_le, if_pos hn]
    rw [hX 0 (by omega), Out.bind_ok, Out.bind_ok]
    by_cases c0 : x < X 0
    · rw [if_pos (by simpa using c0), if_pos (by simpa using c0)]
    · rw [if_neg (by simpa using c0), if_neg (by simpa using c0), hX (n - 1) (by omega), Out.bind_ok, Out.bind_ok]
      have c1 : X (n - 1) < x := by
        by_contra h1
        exact c ⟨not_lt.mp c0, not_lt.mp h1⟩
      rw [if_pos (by simpa using c1), if_pos (by simpa using c1)]

omit [IsStrictOrderedRing K] in
theorem tangent_affine (n i : Nat) (X Y : Nat → K) (a b : K) (hn : 2 ≤ n) (hinc : Increasing n X)
    (hline : ∀ i, i < n → Y i = a * X i + b) (hi : i < n) : tangent X Y n i = a := by
  have key : ∀ p q, p < q → q < n → (Y q - Y p) / (X q - X p) = a := by
    intro p q hpq hq
    rw [hline q hq, hline p (by omega)]
    have := sub_ne_zero.mpr (inc_lt hinc hpq hq).ne'
    field_simp
    ring
  unfold tangent
  split_ifs with h1 h2
  · exact key 0 1 (by omega) (by omega)
  · exact key (n - 2) (n - 1) (by omega) (by omega)
  · exact key (i - 1) (i + 1) (by omega) (by omega)

/-- **C64** points on a straight line are reproduced by `spline`, for every `x` (extrapolation
included); an `x` within 2^-126 of a knot gives the ordinate of the knot. -/
theorem C64_spline (nan x : K) (tx ty : Array K) (n : Nat) (X Y : Nat → K) (a b : K)
    (hn : 4 ≤ n) (hX : IsTable tx n X) (hY : IsTable ty n Y) (hs : Spaced n X)
    (hline : ∀ i, i < n → Y i = a * X i + b) :
    spline nan x (some tx) (some ty) n = .ok (a * x + b) ∨
      ∃ j, j < n ∧ |x - X j| ≤ 1 / 2 ^ 126 ∧ spline nan x (some tx) (some ty) n = .ok (Y j) := by
  obtain ⟨i, hi, hseg, _⟩ := segment_spec x tx n X (by omega) hX hs.inc
  rw [spline_eq nan x tx ty n X Y hn hX hY hs i hi hseg]
  by_cases c : isEqual x (X (i + 1)) = true
  · rw [if_pos c]
    exact .inr ⟨i + 1, hi, (isEqual_iff _ _).mp c, rfl⟩
  · rw [if_neg c]
    left
    rw [tangent_affine n i X Y a b (by omega) hs.inc hline (by omega),
      tangent_affine n (i + 1) X Y a b (by omega) hs.inc hline hi, hline i (by omega), hline (i + 1) hi]
    have := sub_ne_zero.mpr (inc_lt hs.inc (show i < i + 1 by omega) hi).ne'
    simp only [splineSeg, fAdd, fSub, fMul, fDiv, fLit]
    push_cast
    congr 1
    field_simp
    ring

omit [LinearOrder K] [IsStrictOrderedRing K] in
theorem ratio_inv {a d : K} (hd : d ≠ 0) : d / (a * d) = a⁻¹ := by
  rcases eq_or_ne a 0 with rfl | ha
  · simp
  · field_simp

omit [LinearOrder K] [IsStrictOrderedRing K] in
theorem two_div_inv [CharZero K] (a : K) : 2 / (a⁻¹ + a⁻¹) = a := by
  rcases eq_or_ne a 0 with rfl | ha
  · simp
  · field_simp
    norm_num

theorem firstDerivate_affine (tx ty : Array K) (n i : Nat) (X Y : Nat → K) (a b : K) (hn : 3 ≤ n)
    (hX : IsTable tx n X) (hY : IsTable ty n Y) (hinc : Increasing n X)
    (hline : ∀ i, i < n → Y i = a * X i + b) (hi : i < n) :
    firstDerivate tx ty (n - 1) i = .ok a := by
  have dy : ∀ p q, p < n → q < n → Y q - Y p = a * (X q - X p) := by
    intro p q hp hq
    rw [hline q hq, hline p hp]; ring
  have dx : ∀ p q, p < q → q < n → X q - X p ≠ 0 := fun p q h h' =>
    sub_ne_zero.mpr (inc_lt hinc h h').ne'
  have ends : (3 / 2 : K) * a - 1 / (a⁻¹ + a⁻¹) = a := by
    have := two_div_inv a
    have h2 : 1 / (a⁻¹ + a⁻¹) = a / 2 := by
      rw [← this]
      rw [this]
      rw [eq_div_iff (by norm_num), ← this, this]
      rw [div_mul_eq_mul_div, one_mul, this]
    rw [h2]; ring
  have quot : ∀ d : K, d ≠ 0 → a * d / d = a := fun d hd => mul_div_cancel_right₀ a hd
  unfold firstDerivate
  split_ifs with h1 h2
  · simp (disch := omega) only [hX _, hY _, Out.bind_ok]
    simp only [fAdd, fSub, fMul, fDiv, fLit, Out.pure_eq, Out.ok.injEq]
    rw [dy 0 1 (by omega) (by omega), dy 0 2 (by omega) (by omega), quot _ (dx 0 1 (by omega) (by omega)),
      ratio_inv (dx 0 1 (by omega) (by omega)), ratio_inv (dx 0 2 (by omega) (by omega))]
    push_cast
    exact ends
  · simp (disch := omega) only [hX _, hY _, Out.bind_ok]
    simp only [fAdd, fSub, fMul, fDiv, fLit, Out.pure_eq, Out.ok.injEq]
    rw [dy (n - 1 - 1) (n - 1) (by omega) (by omega), dy (n - 1 - 2) (n - 1) (by omega) (by omega),
      quot _ (dx _ _ (by omega) (by omega)),
      ratio_inv (dx _ _ (by omega) (by omega)), ratio_inv (dx _ _ (by omega) (by omega))]
    push_cast
    exact ends
  · simp (disch := omega) only [hX _, hY _, Out.bind_ok]
    simp only [fAdd, fSub, fMul, fDiv, fLit, fLt, Out.pure_eq]
    rw [dy i (i + 1) (by omega) (by omega), dy (i - 1) i (by omega) (by omega),
      ratio_inv (dx _ _ (by omega) (by omega)), ratio_inv (dx _ _ (by omega) (by omega)), if_neg]
    · push_cast
      rw [two_div_inv]
    · push_cast
      simp only [decide_eq_true_eq, not_lt]
      exact mul_self_nonneg _

/-- **C64** points on a straight line are reproduced by `cSpline`, for every `x` (extrapolation
included); an `x` within 2^-126 of a knot gives the ordinate of the knot. For a horizontal line
the code divides by zero and then takes a reciprocal; the convention `1/0 = 0` of the model gives
the same 0 as `1/(d/0) = 1/∞ = 0` in IEEE arithmetic. -/
theorem C64_cSpline (nan x : K) (tx ty : Array K) (n : Nat) (X Y : Nat → K) (a b : K)
    (hn : 4 ≤ n) (hX : IsTable tx n X) (hY : IsTable ty n Y) (hs : Spaced n X)
    (hline : ∀ i, i < n → Y i = a * X i + b) :
    cSpline nan x (some tx) (some ty) n = .ok (a * x + b) ∨
      ∃ j, j < n ∧ |x - X j| ≤ 1 / 2 ^ 126 ∧ cSpline nan x (some tx) (some ty) n = .ok (Y j) := by
  obtain ⟨i, hi, hseg, _⟩ := segment_spec x tx n X (by omega) hX hs.inc
  obtain ⟨f0, f1, h0, h1, h⟩ := cSpline_eq nan x tx ty n X Y hn hX hY i hi hseg
  rw [h]
  by_cases c : isEqual x (X (i + 1)) = true
  · rw [if_pos c]
    exact .inr ⟨i + 1, hi, (isEqual_iff _ _).mp c, rfl⟩
  · rw [if_neg c]
    left
    have hd := sub_ne_zero.mpr (inc_lt hs.inc (show i < i + 1 by omega) hi).ne'
    have hfi := firstDerivate_affine tx ty n (i + 1) X Y a b (by omega) hX hY hs.inc hline hi
    have hfl := firstDerivate_affine tx ty n i X Y a b (by omega) hX hY hs.inc hline (by omega)
    have hdy : Y (i + 1) - Y i = a * (X (i + 1) - X i) := by
      rw [hline _ hi, hline i (by omega)]; ring
    have e0 : f0 = 0 := by
      unfold leftSecondDerivate at h0
      rw [hfi, Out.bind_ok, Nat.add_sub_cancel, hfl, Out.bind_ok, hX (i + 1) hi, Out.bind_ok,
        hX i (by omega), Out.bind_ok] at h0
      dsimp only at h0
      rw [hY (i + 1) hi, Out.bind_ok, hY i (by omega), Out.bind_ok, Out.pure_eq] at h0
      have := Out.ok.inj h0
      rw [← this]
      simp only [fAdd, fSub, fMul, fDiv, fLit, hdy]
      push_cast
      field_simp
      ring
    have e1 : f1 = 0 := by
      unfold rightSecondDerivate at h1
      rw [hfi, Out.bind_ok, Nat.add_sub_cancel, hfl, Out.bind_ok, hX (i + 1) hi, Out.bind_ok,
        hX i (by omega), Out.bind_ok] at h1
      dsimp only at h1
      rw [hY (i + 1) hi, Out.bind_ok, hY i (by omega), Out.bind_ok, Out.pure_eq] at h1
      have := Out.ok.inj h1
      rw [← this]
      simp only [fAdd, fSub, fMul, fDiv, fLit, hdy]
      push_cast
      field_simp
      ring
    subst e0 e1
    rw [hline i (by omega), hline (i + 1) hi]
    have hd' : X i - X (i + 1) ≠ 0 := fun h => hd (by linear_combination -h)
    congr 1
    simp only [cSplineSeg, fAdd, fSub, fMul, fDiv, fLit]
    push_cast
    field_simp
    ring

/-- **C64 is false of the code for `cubic`**: it does not divide its differences by the spacing. -/
theorem C64_cubic_false :
    cubic (0 : ℚ) (9 / 2) (some #[0, 2, 4, 6]) (some #[0, 2, 4, 6]) 4 = .ok (75 / 16) ∧
    cubic (0 : ℚ) (-1) (some #[0, 1, 2, 3]) (some #[0, 1, 2, 3]) 4 = .ok 7 := by
  decide +kernel

/-! ## C65: `spline` is continuously differentiable -/

open Polynomial in
/-- The cubic with values `y0`, `y1` and derivatives `m0`, `m1` at `x0`, `x1`. -/
noncomputable def hermitePoly (x0 x1 y0 y1 m0 m1 : K) : K[X] :=
  let h := x1 - x0
  let s := (y1 - y0) / h
  C y0 + C m0 * (X - C x0) + C ((3 * s - 2 * m0 - m1) / h) * (X - C x0) ^ 2 +
    C ((m0 + m1 - 2 * s) / h ^ 2) * (X - C x0) ^ 3

omit [LinearOrder K] [IsStrictOrderedRing K] in
open Polynomial in
theorem hermitePoly_props (x0 x1 y0 y1 m0 m1 : K) (h : x0 ≠ x1) :
    (hermitePoly x0 x1 y0 y1 m0 m1).natDegree ≤ 3 ∧
    (hermitePoly x0 x1 y0 y1 m0 m1).eval x0 = y0 ∧ (hermitePoly x0 x1 y0 y1 m0 m1).eval x1 = y1 ∧
    (derivative (hermitePoly x0 x1 y0 y1 m0 m1)).eval x0 = m0 ∧
    (derivative (hermitePoly x0 x1 y0 y1 m0 m1)).eval x1 = m1 := by
  have h' := sub_ne_zero.mpr h.symm
  refine ⟨?_, ?_, ?_, ?_, ?_⟩
  · unfold hermitePoly
    dsimp only
    compute_degree
  · simp [hermitePoly]
  · simp only [hermitePoly, eval_add, eval_mul, eval_C, eval_sub, eval_X, eval_pow]
    field_simp
    ring
  · simp [hermitePoly, derivative_pow]
  · simp only [hermitePoly, derivative_add, derivative_C_mul, derivative_X_sub_C_pow, derivative_sub,
      derivative_X, derivative_C, eval_add, eval_mul, eval_C, eval_sub, eval_X, eval_pow, eval_one,
      zero_add, sub_zero]
    push_cast
    field_simp
    ring

omit [IsStrictOrderedRing K] in
theorem splineSeg_poly (x x0 x1 y0 y1 m0 m1 : K) (h : x0 ≠ x1) :
    splineSeg x x0 x1 y0 y1 m0 m1 = (hermitePoly x0 x1 y0 y1 m0 m1).eval x := by
  have h' := sub_ne_zero.mpr h.symm
  simp only [splineSeg, hermitePoly, fAdd, fSub, fMul, fDiv, fLit, Polynomial.eval_add, Polynomial.eval_mul,
    Polynomial.eval_C, Polynomial.eval_sub, Polynomial.eval_X, Polynomial.eval_pow]
  push_cast
  field_simp
  ring

/-- **C65** `spline` is piecewise cubic, passes through the knots, and neighbouring pieces have the same
derivative at their common knot; the end pieces are used for extrapolation. -/
theorem C65_spline (nan : K) (tx ty : Array K) (n : Nat) (X Y : Nat → K)
    (hn : 4 ≤ n) (hX : IsTable tx n X) (hY : IsTable ty n Y) (hs : Spaced n X) :
    ∃ P : Nat → Polynomial K,
      (∀ i, i + 1 < n → (P i).natDegree ≤ 3 ∧ (P i).eval (X i) = Y i ∧ (P i).eval (X (i + 1)) = Y (i + 1)) ∧
      (∀ i, i + 2 < n → (P i).derivative.eval (X (i + 1)) = (P (i + 1)).derivative.eval (X (i + 1))) ∧
      (∀ x i, i + 1 < n → (X i ≤ x ∨ i = 0) → (x < X (i + 1) ∨ i + 2 = n) →
        1 / 2 ^ 126 < |x - X (i + 1)| → spline nan x (some tx) (some ty) n = .ok ((P i).eval x)) := by
  have hne : ∀ i, i + 1 < n → X i ≠ X (i + 1) := fun i hi => (inc_lt hs.inc (by omega) hi).ne
  refine ⟨fun i => hermitePoly (X i) (X (i + 1)) (Y i) (Y (i + 1)) (tangent X Y n i) (tangent X Y n (i + 1)),
    ?_, ?_, ?_⟩
  · intro i hi
    have := hermitePoly_props (X i) (X (i + 1)) (Y i) (Y (i + 1)) (tangent X Y n i) (tangent X Y n (i + 1))
      (hne i hi)
    exact ⟨this.1, this.2.1, this.2.2.1⟩
  · intro i hi
    rw [(hermitePoly_props _ _ _ _ _ _ (hne i (by omega))).2.2.2.2,
      (hermitePoly_props _ _ _ _ _ _ (hne (i + 1) hi)).2.2.2.1]
  · intro x i hi hl hr htol
    have hseg : segment x tx n = .ok i := by
      obtain ⟨j, hj, h1, h2⟩ := segment_spec x tx n X (by omega) hX hs.inc
      rw [h1]
      congr 1
      rcases h2 with ⟨h3, h4⟩ | ⟨h3, h4⟩ | ⟨h3, h4⟩
      · rcases hl with h | h
        · by_contra c
          exact absurd (h.trans h3) (not_le.mpr (inc_lt hs.inc (by omega) (by omega)))
        · omega
      · rcases hr with h | h
        · exact absurd (h.trans_le (inc_le hs.inc (show i + 1 ≤ n - 1 by omega) (by omega))) (not_lt.mpr h3)
        · omega
      · rcases Nat.lt_trichotomy i j with c | c | c
        · rcases hr with h | h
          · exact absurd (h.trans_le (inc_le hs.inc (show i + 1 ≤ j by omega) (by omega))) (not_lt.mpr h3)
          · omega
        · exact c.symm
        · rcases hl with h | h
          · exact absurd (h4.trans_le (inc_le hs.inc (show j + 1 ≤ i by omega) (by omega))) (not_lt.mpr h)
          · omega
    rw [spline_eq nan x tx ty n X Y hn hX hY hs i hi hseg, if_neg]
    · rw [splineSeg_poly _ _ _ _ _ _ _ (hne i hi)]
    · rw [isEqual_iff, not_le]; exact htol

-- C64, C65: concrete values
example : cSpline (0 : ℚ) (7 / 2) (some #[0, 1, 2, 4]) (some #[1, 3, 5, 9]) 4 = .ok 8 := by decide +kernel
example : spline (0 : ℚ) 9 (some #[0, 1, 2, 4]) (some #[1, 3, 5, 9]) 4 = .ok 19 := by decide +kernel
example : cSpline (0 : ℚ) (7 / 2) (some #[0, 1, 2, 4]) (some #[1, 1, 1, 1]) 4 = .ok 1 := by decide +kernel

end Verif.Interp1
