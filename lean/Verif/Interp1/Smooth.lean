import Verif.Interp1.Linear
import Mathlib.LinearAlgebra.Lagrange
import Mathlib.Algebra.BigOperators.Intervals
import Mathlib.Algebra.Order.BigOperators.Group.LocallyFinite

/-!
# Property C47: the smooth interpolants at the knots (exact arithmetic)
-/

namespace Verif.Interp1

open Arith

variable {K : Type} [Field K] [LinearOrder K] [IsStrictOrderedRing K]

omit [IsStrictOrderedRing K] in
theorem inside_lines (x : K) (tx ty : Array K) (n : Nat) (X : Nat → K) (hn : 2 ≤ n) (hX : IsTable tx n X)
    (h1 : X 0 ≤ x) (h2 : x ≤ X (n - 1)) (f : Out K) : withLines x tx ty n f = f := by
  unfold withLines
  rw [hX 0 (by omega), Out.bind_ok, if_neg (by simpa using h1), hX (n - 1) (by omega), Out.bind_ok,
    if_neg (by simpa using h2)]

/-! ## hermite (in fact the Lagrange polynomial) -/

omit [IsStrictOrderedRing K] in
theorem termLoop_spec (x : K) (tx : Array K) (n i : Nat) (X : Nat → K) (hX : IsTable tx n X) (hi : i < n)
    (k j : Nat) (term : K) (hb : j + k ≤ n) :
    termLoop x tx i k j term =
      .ok (term * ∏ m ∈ Finset.Ico j (j + k), if m = i then 1 else (x - X m) / (X i - X m)) := by
  induction k generalizing j term with
  | zero => simp [termLoop]
  | succ k ih =>
    rw [termLoop, Finset.prod_eq_prod_Ico_succ_bot (show j < j + (k + 1) by omega)]
    by_cases c : j = i
    · rw [if_neg (by omega), ih (j + 1) term (by omega), if_pos c, one_mul,
        show j + 1 + k = j + (k + 1) by omega]
    · rw [if_pos (fun h => c h.symm), hX j (by omega), Out.bind_ok, hX i hi, Out.bind_ok,
        ih (j + 1) _ (by omega), if_neg c, show j + 1 + k = j + (k + 1) by omega]
      simp only [fMul, fDiv, fSub, mul_assoc]

/-- The Lagrange basis polynomial of knot `i` of `n`, evaluated. -/
noncomputable def basisVal (X : Nat → K) (n i : Nat) (x : K) : K :=
  ((Lagrange.basis (Finset.range n) X i).eval x)

omit [IsStrictOrderedRing K] [LinearOrder K] in
theorem basisVal_eq (X : Nat → K) (n i : Nat) (hi : i < n) (x : K) :
    basisVal X n i x = ∏ m ∈ Finset.range n, if m = i then 1 else (x - X m) / (X i - X m) := by
  unfold basisVal Lagrange.basis
  rw [Polynomial.eval_prod, ← Finset.mul_prod_erase (Finset.range n) _ (Finset.mem_range.mpr hi),
    if_pos rfl, one_mul]
  refine Finset.prod_congr rfl fun m hm => ?_
  rw [if_neg (Finset.ne_of_mem_erase hm), Lagrange.basisDivisor]
  simp [div_eq_mul_inv, mul_comm]

omit [IsStrictOrderedRing K] in
theorem hermiteLoop_spec (x : K) (tx ty : Array K) (n : Nat) (X Y : Nat → K) (hX : IsTable tx n X)
    (hY : IsTable ty n Y) (k i : Nat) (y : K) (hb : i + k ≤ n) :
    hermiteLoop x tx ty n k i y = .ok (y + ∑ m ∈ Finset.Ico i (i + k), Y m * basisVal X n m x) := by
  induction k generalizing i y with
  | zero => simp [hermiteLoop]
  | succ k ih =>
    rw [hermiteLoop, hY i (by omega), Out.bind_ok,
      termLoop_spec x tx n i X hX (by omega) n 0 (Y i) (by omega), Out.bind_ok,
      ih (i + 1) _ (by omega), Finset.sum_eq_sum_Ico_succ_bot (show i < i + (k + 1) by omega), show i + 1 + k = i + (k + 1) by omega,
      basisVal_eq X n i (by omega), Nat.zero_add, ← Finset.range_eq_Ico]
    simp only [fAdd, add_assoc]

omit [IsStrictOrderedRing K] in
/-- **C64** inside the table `hermite` evaluates the polynomial of degree below `n` through the
knots (it is the Lagrange interpolant, whatever its name). -/
theorem C64_hermite (nan x : K) (tx ty : Array K) (n : Nat) (X Y : Nat → K)
    (hn : 2 ≤ n) (hX : IsTable tx n X) (hY : IsTable ty n Y) (hinc : Increasing n X)
    (h1 : X 0 ≤ x) (h2 : x ≤ X (n - 1)) (p : Polynomial K) (hp : p.degree < n)
    (hpY : ∀ i, i < n → p.eval (X i) = Y i) :
    hermite nan x (some tx) (some ty) n = .ok (p.eval x) := by
  have hinj : Set.InjOn X (Finset.range n : Set ℕ) := by
    intro a ha b hb hab
    simp only [Finset.coe_range, Set.mem_Iio] at ha hb
    rcases Nat.lt_trichotomy a b with h | h | h
    · exact absurd hab (inc_lt hinc h hb).ne
    · exact h
    · exact absurd hab (inc_lt hinc h ha).ne'
  have hp' : p.degree < (Finset.range n).card := by rwa [Finset.card_range]
  unfold hermite guarded
  simp only [ge_iff_le, if_pos hn]
  rw [inside_lines x tx ty n X hn hX h1 h2, hermiteLoop_spec x tx ty n X Y hX hY n 0 _ (by omega)]
  congr 1
  simp only [fLit, Rat.cast_zero, zero_add]
  rw [Lagrange.eq_interpolate hinj hp', Lagrange.interpolate_apply, Polynomial.eval_finsetSum,
    Finset.range_eq_Ico]
  refine Finset.sum_congr rfl fun m hm => ?_
  rw [Polynomial.eval_mul, Polynomial.eval_C, hpY m (by simpa using hm), basisVal, Finset.range_eq_Ico]

omit [IsStrictOrderedRing K] in
/-- **C47** (`hermite`) at a knot the result is its ordinate. -/
theorem C47_hermite (nan : K) (tx ty : Array K) (n : Nat) (X Y : Nat → K)
    (hn : 2 ≤ n) (hX : IsTable tx n X) (hY : IsTable ty n Y) (hinc : Increasing n X)
    (i : Nat) (hi : i < n) : hermite nan (X i) (some tx) (some ty) n = .ok (Y i) := by
  have hinj : Set.InjOn X (Finset.range n : Set ℕ) := by
    intro a ha b hb hab
    simp only [Finset.coe_range, Set.mem_Iio] at ha hb
    rcases Nat.lt_trichotomy a b with h | h | h
    · exact absurd hab (inc_lt hinc h hb).ne
    · exact h
    · exact absurd hab (inc_lt hinc h ha).ne'
  have hev : ∀ i, i < n → (Lagrange.interpolate (Finset.range n) X Y).eval (X i) = Y i := fun i hi =>
    Lagrange.eval_interpolate_at_node Y hinj (Finset.mem_range.mpr hi)
  rw [C64_hermite nan (X i) tx ty n X Y hn hX hY hinc (inc_le hinc (by omega) hi)
    (inc_le hinc (by omega) (by omega)) (Lagrange.interpolate (Finset.range n) X Y) ?_ hev, hev i hi]
  have := Lagrange.degree_interpolate_lt Y hinj
  rwa [Finset.card_range] at this

/-! ## spline and cSpline -/

omit [IsStrictOrderedRing K] in
theorem segLoop_spec (x : K) (tx : Array K) (n : Nat) (X : Nat → K) (hX : IsTable tx n X)
    (hinc : Increasing n X) (j : Nat) (hj : j + 1 < n) (h1 : X j ≤ x) (h2 : x < X (j + 1))
    (k i : Nat) (hij : i ≤ j) (hk : j < i + k) : segLoop x tx k i = .ok j := by
  induction k generalizing i with
  | zero => omega
  | succ k ih =>
    rw [segLoop, hX (i + 1) (by omega), Out.bind_ok]
    simp only [fLe, decide_eq_true_eq]
    by_cases c : i = j
    · subst c
      rw [if_neg (not_le.mpr h2)]; rfl
    · rw [if_pos ((inc_le hinc (by omega) (by omega)).trans h1)]
      exact ih (i + 1) (by omega) (by omega)

omit [Field K] [LinearOrder K] [IsStrictOrderedRing K] in
theorem table_size {a : Array K} {n : Nat} {f : Nat → K} (h : IsTable a n f) : n ≤ a.size := by
  by_contra hc
  have := h (n - 1) (by omega)
  unfold rdArr at this
  rw [dif_neg (by omega)] at this
  cases this

omit [IsStrictOrderedRing K] in
/-- The segment that `spline` and `cSpline` use: the first below the table, the last from the last
knot on, and the one with `X i ≤ x < X (i+1)` inside. -/
theorem segment_spec (x : K) (tx : Array K) (n : Nat) (X : Nat → K) (hn : 2 ≤ n) (hX : IsTable tx n X)
    (hinc : Increasing n X) :
    ∃ i, i + 1 < n ∧ segment x tx n = .ok i ∧
      ((x ≤ X 0 ∧ i = 0) ∨ (X (n - 1) ≤ x ∧ i = n - 2) ∨ (X i ≤ x ∧ x < X (i + 1))) := by
  unfold segment
  rw [hX 0 (by omega), Out.bind_ok]
  simp only [fLe, decide_eq_true_eq]
  by_cases c0 : x ≤ X 0
  · rw [if_pos c0]; exact ⟨0, by omega, rfl, .inl ⟨c0, rfl⟩⟩
  · rw [if_neg c0, hX (n - 1) (by omega), Out.bind_ok]
    by_cases c1 : X (n - 1) ≤ x
    · rw [if_pos c1]; exact ⟨n - 2, by omega, rfl, .inr (.inl ⟨c1, rfl⟩)⟩
    · rw [if_neg c1]
      have : ∀ k, k + 1 < n → x < X (k + 1) → ∃ i, i + 1 < n ∧ X i ≤ x ∧ x < X (i + 1) := by
        intro k
        induction k with
        | zero => intro hk h; exact ⟨0, hk, (not_le.mp c0).le, h⟩
        | succ k ih =>
          intro hk h
          by_cases c : x < X (k + 1)
          · exact ih (by omega) c
          · exact ⟨k + 1, hk, not_lt.mp c, h⟩
      obtain ⟨i, hi, h1, h2⟩ := this (n - 2) (by omega)
        (by rw [show n - 2 + 1 = n - 1 by omega]; exact not_le.mp c1)
      have := table_size hX
      exact ⟨i, hi, segLoop_spec x tx n X hX hinc i hi h1 h2 _ 0 (by omega) (by omega),
        .inr (.inr ⟨h1, h2⟩)⟩

/-- Neighbouring knots are further apart than the tolerance of `isEqual` (2^-126, the smallest
normal `float`). -/
def Spaced (n : Nat) (X : Nat → K) : Prop := ∀ i, i + 1 < n → (1 / 2 ^ 126 : K) < X (i + 1) - X i

theorem isEqual_iff (a b : K) : isEqual a b = true ↔ |a - b| ≤ 1 / 2 ^ 126 := by
  unfold isEqual
  simp only [fLe, fAbs, fSub, fLit, decide_eq_true_eq]
  rw [abs_of_nonneg (a := ((1 / 2 ^ 126 : ℚ) : K)) (by positivity)]
  push_cast
  rfl

theorem Spaced.gap {n : Nat} {X : Nat → K} (h : Spaced n X) {i j : Nat} (hij : i < j) (hj : j < n) :
    (1 / 2 ^ 126 : K) < X j - X i := by
  induction j with
  | zero => omega
  | succ j ih =>
    have h1 := h j hj
    have h0 : (0 : K) < 1 / 2 ^ 126 := by positivity
    by_cases c : i = j
    · subst c; exact h1
    · have := ih (by omega) (by omega)
      linarith

theorem Spaced.inc {n : Nat} {X : Nat → K} (h : Spaced n X) : Increasing n X := by
  intro i j hij hj
  simp only [fLt, decide_eq_true_eq]
  have h0 : (0 : K) < 1 / 2 ^ 126 := by positivity
  have := h.gap hij hj
  linarith

theorem Spaced.neq {n : Nat} {X : Nat → K} (h : Spaced n X) {i j : Nat} (hij : i < j) (hj : j < n) :
    isEqual (X j) (X i) = false ∧ isEqual (X i) (X j) = false := by
  have h0 : (0 : K) < 1 / 2 ^ 126 := by positivity
  have h1 := h.gap hij hj
  constructor <;>
  · rw [← Bool.not_eq_true, isEqual_iff, not_le]
    first
      | exact h1.trans_le (le_abs_self _)
      | (rw [abs_sub_comm]; exact h1.trans_le (le_abs_self _))

/-- Derivative that `spline` uses at knot `i`: the slope of the chord between its neighbours, one-sided
at the ends. -/
def tangent (X Y : Nat → K) (n i : Nat) : K :=
  if i = 0 then (Y 1 - Y 0) / (X 1 - X 0)
  else if i = n - 1 then (Y (n - 1) - Y (n - 2)) / (X (n - 1) - X (n - 2))
  else (Y (i + 1) - Y (i - 1)) / (X (i + 1) - X (i - 1))

omit [IsStrictOrderedRing K] in
theorem chord_eq (tx ty : Array K) (n : Nat) (X Y : Nat → K) (hX : IsTable tx n X) (hY : IsTable ty n Y)
    (j i : Nat) (hj : j < n) (hi : i < n) : chord tx ty j i = .ok ((Y j - Y i) / (X j - X i)) := by
  unfold chord
  rw [hY j hj, Out.bind_ok, hY i hi, Out.bind_ok, hX j hj, Out.bind_ok, hX i hi, Out.bind_ok]
  rfl

theorem slope_eq (tx ty : Array K) (n : Nat) (X Y : Nat → K) (hX : IsTable tx n X) (hY : IsTable ty n Y)
    (hs : Spaced n X) (i : Nat) (h1 : 1 ≤ i) (hi : i + 1 < n) :
    slope tx ty i = .ok (tangent X Y n i) := by
  unfold slope tangent
  rw [hX (i + 1) hi, Out.bind_ok, hX (i - 1) (by omega), Out.bind_ok,
    (hs.neq (show i - 1 < i + 1 by omega) hi).1, if_neg (by simp), hY (i + 1) hi, Out.bind_ok,
    hY (i - 1) (by omega), Out.bind_ok, if_neg (by omega), if_neg (by omega)]
  rfl

/-- What `spline` computes: within the tolerance of the right end of the segment its ordinate, otherwise
the cubic with the tangents at both ends. -/
theorem spline_eq (nan x : K) (tx ty : Array K) (n : Nat) (X Y : Nat → K) (hn : 4 ≤ n)
    (hX : IsTable tx n X) (hY : IsTable ty n Y) (hs : Spaced n X) (i : Nat) (hi : i + 1 < n)
    (hseg : segment x tx n = .ok i) :
    spline nan x (some tx) (some ty) n =
      if isEqual x (X (i + 1)) then .ok (Y (i + 1))
      else .ok (splineSeg x (X i) (X (i + 1)) (Y i) (Y (i + 1)) (tangent X Y n i) (tangent X Y n (i + 1))) := by
  unfold spline guarded
  simp only [ge_iff_le, if_pos hn]
  rw [hseg, Out.bind_ok, hX (i + 1) hi, Out.bind_ok]
  by_cases c : isEqual x (X (i + 1)) = true
  · rw [if_pos c, if_pos c, hY (i + 1) hi]
  · rw [if_neg c, if_neg c, hX i (by omega), Out.bind_ok, hY i (by omega), Out.bind_ok, hY (i + 1) hi,
      Out.bind_ok]
    by_cases c0 : i = 0
    · subst c0
      rw [if_pos rfl, chord_eq tx ty n X Y hX hY 1 0 (by omega) (by omega), Out.bind_ok,
        chord_eq tx ty n X Y hX hY 2 0 (by omega) (by omega), Out.bind_ok, Out.pure_eq, Out.bind_ok,
        Out.pure_eq]
      unfold tangent
      rw [if_pos rfl, if_neg (by omega), if_neg (by omega)]
    · rw [if_neg c0]
      by_cases c1 : n - 2 = i
      · subst c1
        rw [if_pos rfl, chord_eq tx ty n X Y hX hY (n - 1) (n - 3) (by omega) (by omega), Out.bind_ok,
          chord_eq tx ty n X Y hX hY (n - 1) (n - 2) (by omega) (by omega), Out.bind_ok, Out.pure_eq,
          Out.bind_ok, Out.pure_eq]
        unfold tangent
        rw [if_neg (by omega), if_neg (by omega), if_neg (by omega), if_pos (by omega),
          show n - 2 + 1 = n - 1 by omega, show n - 2 - 1 = n - 3 by omega]
      · rw [if_neg c1, slope_eq tx ty n X Y hX hY hs i (by omega) (by omega), Out.bind_ok,
          slope_eq tx ty n X Y hX hY hs (i + 1) (by omega) (by omega), Out.bind_ok, Out.pure_eq,
          Out.bind_ok, Out.pure_eq]

omit [IsStrictOrderedRing K] in
theorem firstDerivate_ok (tx ty : Array K) (n i : Nat) (X Y : Nat → K) (hn : 3 ≤ n)
    (hX : IsTable tx n X) (hY : IsTable ty n Y) (hi : i < n) :
    ∃ v, firstDerivate tx ty (n - 1) i = .ok v := by
  unfold firstDerivate
  split_ifs with h1 h2
  · simp (disch := omega) only [hX _, hY _, Out.bind_ok]
    exact ⟨_, rfl⟩
  · simp (disch := omega) only [hX _, hY _, Out.bind_ok]
    exact ⟨_, rfl⟩
  · simp (disch := omega) only [hX _, hY _, Out.bind_ok]
    split_ifs <;> exact ⟨_, rfl⟩

omit [IsStrictOrderedRing K] in
theorem cSpline_eq (nan x : K) (tx ty : Array K) (n : Nat) (X Y : Nat → K) (hn : 4 ≤ n)
    (hX : IsTable tx n X) (hY : IsTable ty n Y) (i : Nat) (hi : i + 1 < n)
    (hseg : segment x tx n = .ok i) :
    ∃ f0 f1 : K, leftSecondDerivate tx ty (n - 1) (i + 1) = .ok f0 ∧
      rightSecondDerivate tx ty (n - 1) (i + 1) = .ok f1 ∧
      cSpline nan x (some tx) (some ty) n =
      if isEqual x (X (i + 1)) then .ok (Y (i + 1))
      else .ok (cSplineSeg x (X i) (X (i + 1)) (Y i) (Y (i + 1)) f0 f1) := by
  obtain ⟨a, ha⟩ := firstDerivate_ok tx ty n (i + 1) X Y (by omega) hX hY hi
  obtain ⟨b, hb⟩ := firstDerivate_ok tx ty n i X Y (by omega) hX hY (by omega)
  have hl : ∃ f, leftSecondDerivate tx ty (n - 1) (i + 1) = .ok f := by
    unfold leftSecondDerivate
    rw [ha, Out.bind_ok, Nat.add_sub_cancel, hb, Out.bind_ok, hX (i + 1) hi, Out.bind_ok,
      hX i (by omega), Out.bind_ok]
    dsimp only
    rw [hY (i + 1) hi, Out.bind_ok, hY i (by omega), Out.bind_ok]
    exact ⟨_, rfl⟩
  have hr : ∃ f, rightSecondDerivate tx ty (n - 1) (i + 1) = .ok f := by
    unfold rightSecondDerivate
    rw [ha, Out.bind_ok, Nat.add_sub_cancel, hb, Out.bind_ok, hX (i + 1) hi, Out.bind_ok,
      hX i (by omega), Out.bind_ok]
    dsimp only
    rw [hY (i + 1) hi, Out.bind_ok, hY i (by omega), Out.bind_ok]
    exact ⟨_, rfl⟩
  obtain ⟨f0, h0⟩ := hl
  obtain ⟨f1, h1⟩ := hr
  refine ⟨f0, f1, h0, h1, ?_⟩
  unfold cSpline guarded
  simp only [ge_iff_le, if_pos hn]
  rw [hseg, Out.bind_ok, hX (i + 1) hi, Out.bind_ok]
  by_cases c : isEqual x (X (i + 1)) = true
  · rw [if_pos c, if_pos c, hY (i + 1) hi]
  · rw [if_neg c, if_neg c, hX i (by omega), Out.bind_ok, hY i (by omega), Out.bind_ok, hY (i + 1) hi,
      Out.bind_ok, h0, Out.bind_ok, h1, Out.bind_ok]
    rfl

omit [IsStrictOrderedRing K] in
theorem splineSeg_left (x0 x1 y0 y1 m0 m1 : K) : splineSeg x0 x0 x1 y0 y1 m0 m1 = y0 := by
  simp [splineSeg]

theorem cSplineSeg_left (x0 x1 y0 y1 f0 f1 : K) (h : x0 ≠ x1) : cSplineSeg x0 x0 x1 y0 y1 f0 f1 = y0 := by
  have h' := sub_ne_zero.mpr h
  simp only [cSplineSeg, fAdd, fSub, fMul, fDiv, fLit]
  push_cast
  field_simp
  ring

omit [IsStrictOrderedRing K] in
/-- The segment of a knot. -/
theorem segment_knot (tx : Array K) (n : Nat) (X : Nat → K) (hn : 2 ≤ n) (hX : IsTable tx n X)
    (hinc : Increasing n X) (i : Nat) (hi : i < n) :
    segment (X i) tx n = .ok (if i = n - 1 then n - 2 else i) := by
  obtain ⟨j, hj, h1, h2⟩ := segment_spec (X i) tx n X hn hX hinc
  rw [h1]
  congr 1
  have inj : ∀ a b, a < n → b < n → X a ≤ X b → a ≤ b := by
    intro a b ha hb h
    by_contra c
    exact absurd h (not_le.mpr (inc_lt hinc (by omega) ha))
  rcases h2 with ⟨h3, h4⟩ | ⟨h3, h4⟩ | ⟨h3, h4⟩
  · have := inj i 0 hi (by omega) h3
    rw [if_neg (by omega)]; omega
  · have := inj (n - 1) i (by omega) hi h3
    rw [if_pos (by omega)]; exact h4
  · have h5 := inj j i (by omega) hi h3
    have h6 : i < j + 1 := by
      by_contra c
      exact absurd h4 (not_lt.mpr (inc_le hinc (by omega) hi))
    rw [if_neg (by omega)]; omega

/-- **C47** (`spline`) at a knot the result is its ordinate. -/
theorem C47_spline (nan : K) (tx ty : Array K) (n : Nat) (X Y : Nat → K) (hn : 4 ≤ n)
    (hX : IsTable tx n X) (hY : IsTable ty n Y) (hs : Spaced n X) (i : Nat) (hi : i < n) :
    spline nan (X i) (some tx) (some ty) n = .ok (Y i) := by
  have hseg := segment_knot tx n X (by omega) hX hs.inc i hi
  by_cases c : i = n - 1
  · rw [if_pos c] at hseg
    rw [spline_eq nan _ tx ty n X Y hn hX hY hs (n - 2) (by omega) hseg, if_pos]
    · rw [c, show n - 2 + 1 = n - 1 by omega]
    · rw [isEqual_iff, c, show n - 2 + 1 = n - 1 by omega, sub_self, abs_zero]; positivity
  · rw [if_neg c] at hseg
    rw [spline_eq nan _ tx ty n X Y hn hX hY hs i (by omega) hseg,
      (hs.neq (show i < i + 1 by omega) (by omega)).2, if_neg (by simp), splineSeg_left]

/-- **C47** (`cSpline`) at a knot the result is its ordinate. -/
theorem C47_cSpline (nan : K) (tx ty : Array K) (n : Nat) (X Y : Nat → K) (hn : 4 ≤ n)
    (hX : IsTable tx n X) (hY : IsTable ty n Y) (hs : Spaced n X) (i : Nat) (hi : i < n) :
    cSpline nan (X i) (some tx) (some ty) n = .ok (Y i) := by
  have hseg := segment_knot tx n X (by omega) hX hs.inc i hi
  by_cases c : i = n - 1
  · rw [if_pos c] at hseg
    obtain ⟨f0, f1, _, _, h⟩ := cSpline_eq nan _ tx ty n X Y hn hX hY (n - 2) (by omega) hseg
    rw [h, if_pos]
    · rw [c, show n - 2 + 1 = n - 1 by omega]
    · rw [isEqual_iff, c, show n - 2 + 1 = n - 1 by omega, sub_self, abs_zero]; positivity
  · rw [if_neg c] at hseg
    obtain ⟨f0, f1, _, _, h⟩ := cSpline_eq nan _ tx ty n X Y hn hX hY i (by omega) hseg
    rw [h, (hs.neq (show i < i + 1 by omega) (by omega)).2, if_neg (by simp), cSplineSeg_left]
    exact (inc_lt hs.inc (show i < i + 1 by omega) (by omega)).ne

/-! ## cubic -/

omit [IsStrictOrderedRing K] in
theorem cubicLoop_spec (nan x : K) (tx ty : Array K) (n : Nat) (X Y : Nat → K) (hX : IsTable tx n X)
    (hY : IsTable ty n Y) (hinc : Increasing n X) (j : Nat) (h2 : 2 ≤ j) (hj : j < n)
    (hl : X (j - 1) < x) (hr : x ≤ X j) (k i : Nat) (h1 : 1 ≤ i) (hij : i ≤ j) (hk : j < i + k) :
    cubicLoop nan x tx ty k i = .ok (cubicSeg x (X (j - 1)) (X j - X (j - 1)) (Y (j - 1)) (Y j)
      (Y (j - 1) - Y (j - 2)) (Y j - Y (j - 1))) := by
  induction k generalizing i with
  | zero => omega
  | succ k ih =>
    rw [cubicLoop, hX i (by omega), Out.bind_ok]
    simp only [fLe, decide_eq_true_eq]
    by_cases c : i = j
    · subst c
      rw [if_pos hr, hX (i - 1) (by omega), Out.bind_ok, hY (i - 1) (by omega), Out.bind_ok, hY i hj,
        Out.bind_ok, if_neg (by omega), hY (i - 2) (by omega), Out.bind_ok]
      rfl
    · rw [if_neg]
      · exact ih (i + 1) (by omega) (by omega) (by omega)
      · rw [not_le]
        exact lt_of_le_of_lt (inc_le hinc (by omega) (by omega)) hl

omit [IsStrictOrderedRing K] in
theorem cubic_inside (nan x : K) (tx ty : Array K) (n : Nat) (X : Nat → K) (hn : 4 ≤ n) (hX : IsTable tx n X)
    (h1 : X 0 ≤ x) (h2 : x ≤ X (n - 1)) :
    cubic nan x (some tx) (some ty) n = cubicLoop nan x tx ty (n - 1) 1 := by
  unfold cubic guarded
  simp only [ge_iff_le, if_pos hn]
  rw [hX 0 (by omega), Out.bind_ok, if_neg (by simpa using h1), hX (n - 1) (by omega), Out.bind_ok,
    if_neg (by simpa using h2)]

omit [IsStrictOrderedRing K] in
/-- **C47** (`cubic`, partial: from the third knot on, see `C47_cubic_ub_false`) at a knot the result is
its ordinate. -/
theorem C47_cubic_partial (nan : K) (tx ty : Array K) (n : Nat) (X Y : Nat → K) (hn : 4 ≤ n)
    (hX : IsTable tx n X) (hY : IsTable ty n Y) (hinc : Increasing n X) (i : Nat) (h2 : 2 ≤ i)
    (hi : i < n) : cubic nan (X i) (some tx) (some ty) n = .ok (Y i) := by
  have hlt := inc_lt hinc (show i - 1 < i by omega) hi
  rw [cubic_inside nan _ tx ty n X hn hX (inc_le hinc (by omega) hi) (inc_le hinc (by omega) (by omega)),
    cubicLoop_spec nan (X i) tx ty n X Y hX hY hinc i h2 hi hlt le_rfl (n - 1) 1
      le_rfl (by omega) (by omega)]
  have h0 := sub_ne_zero.mpr hlt.ne'
  congr 1
  simp only [cubicSeg, fAdd, fSub, fMul, fDiv, fLit, div_self h0]
  push_cast
  ring

omit [IsStrictOrderedRing K] in
/-- **C47 is false of the code for `cubic` in the whole first segment**: it reads `ty[-1]`. -/
theorem C47_cubic_ub_false (nan x : K) (tx ty : Array K) (n : Nat) (X Y : Nat → K) (hn : 4 ≤ n)
    (hX : IsTable tx n X) (hY : IsTable ty n Y) (hinc : Increasing n X) (h0 : X 0 ≤ x) (h1 : x ≤ X 1) :
    cubic nan x (some tx) (some ty) n = .ub := by
  rw [cubic_inside nan x tx ty n X hn hX h0 (h1.trans (inc_le hinc (by omega) (by omega)))]
  obtain ⟨m, rfl⟩ : ∃ m, n = m + 2 := ⟨n - 2, by omega⟩
  rw [show m + 2 - 1 = m + 1 by omega, cubicLoop, hX 1 (by omega), Out.bind_ok, if_pos (by simpa using h1),
    hX (1 - 1) (by omega), Out.bind_ok, hY (1 - 1) (by omega), Out.bind_ok, hY 1 (by omega), Out.bind_ok,
    if_pos (by omega)]
  rfl

/-! ## sine -/

section sine
variable [Trans K]

omit [IsStrictOrderedRing K] in
theorem sineLoop_last (x : K) (tx ty : Array K) (n : Nat) (X Y : Nat → K) (hX : IsTable tx n X)
    (hY : IsTable ty n Y) (hr : x ≤ X (n - 1)) (k i : Nat) (y : K) (h1 : 1 ≤ i) (hk : 1 ≤ k)
    (hik : i + k = n) :
    sineLoop x tx ty k i y = .ok (sineSeg x (X (n - 2)) (X (n - 1)) (Y (n - 2)) (Y (n - 1))) := by
  induction k generalizing i y with
  | zero => omega
  | succ k ih =>
    rw [sineLoop, hX i (by omega), Out.bind_ok]
    simp only [fLe, decide_eq_true_eq]
    cases k with
    | zero =>
      obtain rfl : i = n - 1 := by omega
      rw [if_pos hr, hX (n - 1 - 1) (by omega), Out.bind_ok, hY (n - 1 - 1) (by omega), Out.bind_ok,
        hY (n - 1) (by omega), Out.bind_ok, show n - 1 - 1 = n - 2 by omega]
      rfl
    | succ k =>
      split_ifs with c
      · rw [hX (i - 1) (by omega), Out.bind_ok, hY (i - 1) (by omega), Out.bind_ok,
          hY i (by omega), Out.bind_ok]
        exact ih (i + 1) _ (by omega) (by omega) (by omega)
      · exact ih (i + 1) _ (by omega) (by omega) (by omega)

omit [IsStrictOrderedRing K] in
/-- `sine` uses the last segment for every `x` inside the table. -/
theorem sine_last (nan x : K) (tx ty : Array K) (n : Nat) (X Y : Nat → K) (hn : 2 ≤ n)
    (hX : IsTable tx n X) (hY : IsTable ty n Y) (h1 : X 0 ≤ x) (h2 : x ≤ X (n - 1)) :
    sine nan x (some tx) (some ty) n =
      .ok (sineSeg x (X (n - 2)) (X (n - 1)) (Y (n - 2)) (Y (n - 1))) := by
  unfold sine guarded
  simp only [ge_iff_le, if_pos hn]
  rw [hX 0 (by omega), Out.bind_ok, if_neg (by simpa using h1), hX (n - 1) (by omega), Out.bind_ok,
    if_neg (by simpa using h2)]
  exact sineLoop_last x tx ty n X Y hX hY h2 (n - 1) 1 nan le_rfl (by omega) (by omega)

/-- **C47** (`sine`, partial: the last two knots, see `C47_sine_false`) at a knot the result is its
ordinate, for a cosine with `cos 0 = 1` and `cos π = -1`. -/
theorem C47_sine_partial (nan : K) (tx ty : Array K) (n : Nat) (X Y : Nat → K) (hn : 2 ≤ n)
    (hX : IsTable tx n X) (hY : IsTable ty n Y) (hinc : Increasing n X)
    (hc0 : (Trans.cos (0 : K)) = 1) (hcpi : (Trans.cos (pi : K)) = -1) (i : Nat) (h2 : n ≤ i + 2)
    (hi : i < n) : sine nan (X i) (some tx) (some ty) n = .ok (Y i) := by
  rw [sine_last nan _ tx ty n X Y hn hX hY (inc_le hinc (by omega) hi) (inc_le hinc (by omega) (by omega))]
  have h0 := sub_ne_zero.mpr (inc_lt hinc (show n - 2 < n - 1 by omega) (by omega)).ne'
  congr 1
  by_cases c : i = n - 1
  · subst c
    simp only [sineSeg, fAdd, fSub, fMul, fDiv, fLit, mul_div_assoc, div_self h0, mul_one, hcpi]
    push_cast; ring
  · obtain rfl : i = n - 2 := by omega
    simp only [sineSeg, fAdd, fSub, fMul, fDiv, fLit, sub_self, mul_zero, zero_div, hc0]
    push_cast; ring

/-- **C47 is false of the code for `sine`**: whatever the cosine, the first knot (0, 1) of a table of
three gives 0. -/
theorem C47_sine_false (nan : K) :
    sine nan 0 (some #[0, 1, 2]) (some #[1, 0, 0]) 3 = .ok (0 : K) := by
  have hX : IsTable (#[0, 1, 2] : Array K) 3 (fun i => i) := by
    intro i hi
    interval_cases i <;> simp [rdArr]
  have hY : IsTable (#[1, 0, 0] : Array K) 3 (fun i => if i = 0 then 1 else 0) := by
    intro i hi
    interval_cases i <;> simp [rdArr]
  rw [sine_last nan 0 _ _ 3 _ _ (by omega) hX hY (by simp) (by simp)]
  simp [sineSeg]

end sine

-- C47, C64: concrete tables
example : spline (0 : ℚ) 2 (some #[0, 1, 2, 3]) (some #[5, 0, 7, 1]) 4 = .ok 7 := by decide +kernel
example : cSpline (0 : ℚ) 2 (some #[0, 1, 2, 3]) (some #[5, 0, 7, 1]) 4 = .ok 7 := by decide +kernel
example : cubic (0 : ℚ) 2 (some #[0, 1, 2, 3]) (some #[5, 0, 7, 1]) 4 = .ok 7 := by decide +kernel
example : cubic (0 : ℚ) (1 / 2) (some #[0, 1, 2, 3]) (some #[5, 0, 7, 1]) 4 = .ub := by decide +kernel
example : hermite (0 : ℚ) (3 / 2) (some #[0, 1, 2, 3]) (some #[0, 1, 4, 9]) 4 = .ok (9 / 4) := by
  decide +kernel
example : Spaced 4 (fun i => (i : ℚ)) := by
  intro i _
  push_cast
  norm_num

end Verif.Interp1
