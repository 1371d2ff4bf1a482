import Verif.Interp1.Step
import Mathlib.Tactic.LinearCombination

/-!
# Property C45: linear interpolation (exact arithmetic)
-/

namespace Verif.Interp1

open Arith

variable {K : Type} [Field K] [LinearOrder K] [IsStrictOrderedRing K]

omit [IsStrictOrderedRing K] in
theorem inc_lt {n : Nat} {X : Nat → K} (h : Increasing n X) {i j : Nat} (hij : i < j) (hj : j < n) :
    X i < X j := by
  simpa using h i j hij hj

omit [IsStrictOrderedRing K] in
theorem inc_le {n : Nat} {X : Nat → K} (h : Increasing n X) {i j : Nat} (hij : i ≤ j) (hj : j < n) :
    X i ≤ X j := by
  rcases Nat.lt_or_eq_of_le hij with h1 | rfl
  · exact (inc_lt h h1 hj).le
  · exact le_rfl

omit [IsStrictOrderedRing K] in
theorem linLoop_spec (nan x : K) (tx ty : Array K) (n : Nat) (X Y : Nat → K) (hX : IsTable tx n X)
    (hY : IsTable ty n Y) (hinc : Increasing n X) (k i j : Nat) (hb : i + k + 1 ≤ n)
    (hij : i ≤ j) (hj : j < i + k) (h1 : X j ≤ x) (h2 : x ≤ X (j + 1)) :
    linLoop nan x tx ty k i = .ok (Y j + (Y (j + 1) - Y j) / (X (j + 1) - X j) * (x - X j)) := by
  induction k generalizing i with
  | zero => omega
  | succ k ih =>
    rw [linLoop, hX i (by omega), Out.bind_ok, hX (i + 1) (by omega), Out.bind_ok]
    simp only [fLe, Bool.and_eq_true, decide_eq_true_eq]
    by_cases c : X i ≤ x ∧ x ≤ X (i + 1)
    · rw [if_pos c, hY i (by omega), Out.bind_ok, hY (i + 1) (by omega), Out.bind_ok, Out.pure_eq]
      simp only [line, fAdd, fSub, fMul, fDiv]
      by_cases e : j = i
      · subst e; rfl
      · have hle := inc_le hinc (show i + 1 ≤ j by omega) (by omega)
        have hx : x = X (i + 1) := le_antisymm c.2 (hle.trans h1)
        have hji : j = i + 1 := by
          by_contra h
          have := inc_lt hinc (show i + 1 < j by omega) (by omega)
          exact absurd (hx ▸ h1) (not_le.mpr this)
        subst hji
        have := sub_ne_zero.mpr (inc_lt hinc (show i < i + 1 by omega) (by omega)).ne'
        rw [hx, div_mul_cancel₀ _ this, sub_self, mul_zero, add_zero]
        congr 1; ring
    · rw [if_neg c]
      refine ih (i + 1) (by omega) ?_ (by omega)
      by_contra h
      have : j = i := by omega
      subst this
      exact c ⟨h1, h2⟩

omit [IsStrictOrderedRing K] in
/-- **C45** between two neighbouring knots the result is on the line through them. -/
theorem C45_inside (nan x : K) (tx ty : Array K) (n : Nat) (X Y : Nat → K)
    (hX : IsTable tx n X) (hY : IsTable ty n Y) (hinc : Increasing n X)
    (i : Nat) (hi : i + 1 < n) (h1 : X i ≤ x) (h2 : x ≤ X (i + 1)) :
    linear nan x (some tx) (some ty) n =
      .ok (Y i + (Y (i + 1) - Y i) / (X (i + 1) - X i) * (x - X i)) := by
  unfold linear guarded withLines
  simp only [ge_iff_le, if_pos (show 2 ≤ n by omega)]
  rw [hX 0 (by omega), Out.bind_ok, if_neg, hX (n - 1) (by omega), Out.bind_ok, if_neg]
  · exact linLoop_spec nan x tx ty n X Y hX hY hinc (n - 1) 0 i (by omega) (by omega) (by omega) h1 h2
  · simp only [fLt, decide_eq_true_eq, not_lt]
    exact h2.trans (inc_le hinc (by omega) (by omega))
  · simp only [fLt, decide_eq_true_eq, not_lt]
    exact (inc_le hinc (Nat.zero_le i) (by omega)).trans h1

omit [IsStrictOrderedRing K] in
/-- **C45** below the table the result is on the line through the first two knots. -/
theorem C45_below (nan x : K) (tx ty : Array K) (n : Nat) (X Y : Nat → K)
    (hn : 2 ≤ n) (hX : IsTable tx n X) (hY : IsTable ty n Y) (h : x < X 0) :
    linear nan x (some tx) (some ty) n =
      .ok (Y 0 + (Y 1 - Y 0) / (X 1 - X 0) * (x - X 0)) := by
  unfold linear guarded withLines
  simp only [ge_iff_le, if_pos hn]
  rw [hX 0 (by omega), Out.bind_ok, if_pos (by simpa using h), hX 1 (by omega), Out.bind_ok,
    hY 0 (by omega), Out.bind_ok, hY 1 (by omega), Out.bind_ok]
  rfl

omit [IsStrictOrderedRing K] in
/-- **C45** above the table the result is on the line through the last two knots. -/
theorem C45_above (nan x : K) (tx ty : Array K) (n : Nat) (X Y : Nat → K)
    (hn : 2 ≤ n) (hX : IsTable tx n X) (hY : IsTable ty n Y) (hinc : Increasing n X)
    (h : X (n - 1) < x) :
    linear nan x (some tx) (some ty) n =
      .ok (Y (n - 2) + (Y (n - 1) - Y (n - 2)) / (X (n - 1) - X (n - 2)) * (x - X (n - 2))) := by
  unfold linear guarded withLines
  simp only [ge_iff_le, if_pos hn]
  rw [hX 0 (by omega), Out.bind_ok, if_neg, hX (n - 1) (by omega), Out.bind_ok,
    if_pos (by simpa using h), hX (n - 2) (by omega), Out.bind_ok,
    hY (n - 2) (by omega), Out.bind_ok, hY (n - 1) (by omega), Out.bind_ok]
  · have h1 := inc_lt hinc (show n - 2 < n - 1 by omega) (by omega)
    have h2 : X (n - 1) - X (n - 2) ≠ 0 := sub_ne_zero.mpr h1.ne'
    have h3 : X (n - 2) - X (n - 1) ≠ 0 := sub_ne_zero.mpr h1.ne
    simp only [line, fAdd, fSub, fMul, fDiv, Out.pure_eq, Out.ok.injEq]
    field_simp
    ring
  · simp only [fLt, decide_eq_true_eq, not_lt]
    exact (inc_le hinc (Nat.zero_le _) (by omega)).trans h.le

omit [IsStrictOrderedRing K] in
/-- **C45** at a knot the result is its ordinate. -/
theorem C45_knot (nan : K) (tx ty : Array K) (n : Nat) (X Y : Nat → K)
    (hn : 2 ≤ n) (hX : IsTable tx n X) (hY : IsTable ty n Y) (hinc : Increasing n X)
    (i : Nat) (hi : i < n) : linear nan (X i) (some tx) (some ty) n = .ok (Y i) := by
  by_cases c : i + 1 < n
  · rw [C45_inside nan (X i) tx ty n X Y hX hY hinc i c le_rfl (inc_le hinc (by omega) c)]
    simp
  · obtain ⟨j, rfl⟩ : ∃ j, i = j + 1 := ⟨i - 1, by omega⟩
    rw [C45_inside nan _ tx ty n X Y hX hY hinc j hi (inc_le hinc (by omega) hi) le_rfl]
    have := sub_ne_zero.mpr (inc_lt hinc (show j < j + 1 by omega) hi).ne'
    rw [div_mul_cancel₀ _ this]
    congr 1; ring

/-- Slope of a segment. -/
theorem slope_nonneg {n : Nat} {X : Nat → K} (hinc : Increasing n X) {a b : K} {i : Nat} (hi : i + 1 < n)
    (h : a ≤ b) : 0 ≤ (b - a) / (X (i + 1) - X i) :=
  div_nonneg (sub_nonneg.mpr h) (sub_pos.mpr (inc_lt hinc (by omega) hi)).le

/-- **C45** between two neighbouring knots the result lies between their ordinates. -/
theorem C45_between (nan x : K) (tx ty : Array K) (n : Nat) (X Y : Nat → K)
    (hX : IsTable tx n X) (hY : IsTable ty n Y) (hinc : Increasing n X)
    (i : Nat) (hi : i + 1 < n) (h1 : X i ≤ x) (h2 : x ≤ X (i + 1)) :
    ∃ v, linear nan x (some tx) (some ty) n = .ok v ∧
      min (Y i) (Y (i + 1)) ≤ v ∧ v ≤ max (Y i) (Y (i + 1)) := by
  refine ⟨_, C45_inside nan x tx ty n X Y hX hY hinc i hi h1 h2, ?_⟩
  have hp : 0 < X (i + 1) - X i := sub_pos.mpr (inc_lt hinc (by omega) hi)
  have ht0 : 0 ≤ (x - X i) / (X (i + 1) - X i) := div_nonneg (sub_nonneg.mpr h1) hp.le
  have ht1 : (x - X i) / (X (i + 1) - X i) ≤ 1 := by
    rw [div_le_one hp]; linarith
  rw [div_mul_eq_mul_div, mul_div_assoc]
  generalize (x - X i) / (X (i + 1) - X i) = t at *
  rcases le_total (Y i) (Y (i + 1)) with h | h
  · rw [min_eq_left h, max_eq_right h]
    constructor <;> nlinarith
  · rw [min_eq_right h, max_eq_left h]
    constructor <;> nlinarith

/-- The method on an increasing sequence of pieces: monotone data give a monotone function. -/
theorem mono_piece (X Y : Nat → K) (n : Nat) (hinc : Increasing n X) (hmono : ∀ i, i + 1 < n → Y i ≤ Y (i + 1))
    (i : Nat) (hi : i + 1 < n) {x x' : K} (h : x ≤ x') :
    Y i + (Y (i + 1) - Y i) / (X (i + 1) - X i) * (x - X i) ≤
      Y i + (Y (i + 1) - Y i) / (X (i + 1) - X i) * (x' - X i) := by
  have := slope_nonneg (X := X) hinc hi (hmono i hi)
  nlinarith

/-- **C45** monotone ordinates give a monotone interpolant, on the whole line (extrapolation
included). -/
theorem C45_mono (nan x x' : K) (tx ty : Array K) (n : Nat) (X Y : Nat → K)
    (hn : 2 ≤ n) (hX : IsTable tx n X) (hY : IsTable ty n Y) (hinc : Increasing n X)
    (hmono : ∀ i, i + 1 < n → Y i ≤ Y (i + 1)) (h : x ≤ x') :
    ∃ v v', linear nan x (some tx) (some ty) n = .ok v ∧
      linear nan x' (some tx) (some ty) n = .ok v' ∧ v ≤ v' := by
  -- every point lies on some piece
  have key : ∀ x, ∃ i, i + 1 < n ∧ linear nan x (some tx) (some ty) n =
      .ok (Y i + (Y (i + 1) - Y i) / (X (i + 1) - X i) * (x - X i)) ∧
      (x ≤ X (i + 1) ∨ i + 2 = n) ∧ (X i ≤ x ∨ i = 0) := by
    intro x
    by_cases c0 : x < X 0
    · exact ⟨0, by omega, C45_below nan x tx ty n X Y hn hX hY c0,
        .inl (c0.le.trans (inc_le hinc (by omega) (by omega))), .inr rfl⟩
    · by_cases c1 : X (n - 1) < x
      · refine ⟨n - 2, by omega, ?_, .inr (by omega),
          .inl ((inc_le hinc (show n - 2 ≤ n - 1 by omega) (by omega)).trans c1.le)⟩
        have := C45_above nan x tx ty n X Y hn hX hY hinc c1
        rwa [show n - 2 + 1 = n - 1 by omega]
      · have : ∀ k, k + 1 < n → x ≤ X (k + 1) → ∃ i, i + 1 < n ∧ X i ≤ x ∧ x ≤ X (i + 1) := by
          intro k
          induction k with
          | zero => intro hk h; exact ⟨0, hk, not_lt.mp c0, h⟩
          | succ k ih =>
            intro hk h
            by_cases c : x ≤ X (k + 1)
            · exact ih (by omega) c
            · exact ⟨k + 1, hk, (not_le.mp c).le, h⟩
        obtain ⟨i, hi, h1, h2⟩ := this (n - 2) (by omega)
          (by rw [show n - 2 + 1 = n - 1 by omega]; exact not_lt.mp c1)
        exact ⟨i, hi, C45_inside nan x tx ty n X Y hX hY hinc i hi h1 h2, .inl h2, .inl h1⟩
  obtain ⟨i, hi, e1, hi1, hi2⟩ := key x
  obtain ⟨j, hj, e2, hj1, hj2⟩ := key x'
  refine ⟨_, _, e1, e2, ?_⟩
  have hY' : ∀ a b, a ≤ b → b < n → Y a ≤ Y b := by
    intro a b hab
    induction b with
    | zero => intro _; rw [Nat.le_zero.mp hab]
    | succ b ih =>
      intro hb
      rcases Nat.lt_or_eq_of_le hab with h1 | h1
      · exact (ih (by omega) (by omega)).trans (hmono b hb)
      · rw [h1]
  have knot : ∀ i, i + 1 < n → Y i + (Y (i + 1) - Y i) / (X (i + 1) - X i) * (X (i + 1) - X i) = Y (i + 1) := by
    intro i hi
    rw [div_mul_cancel₀ _ (sub_ne_zero.mpr (inc_lt hinc (show i < i + 1 by omega) hi).ne')]
    ring
  rcases Nat.lt_trichotomy i j with c | c | c
  · have hx : x ≤ X (i + 1) := by rcases hi1 with h | h; exacts [h, by omega]
    have hx' : X j ≤ x' := by rcases hj2 with h | h; exacts [h, by omega]
    calc _ ≤ Y i + (Y (i + 1) - Y i) / (X (i + 1) - X i) * (X (i + 1) - X i) :=
          mono_piece X Y n hinc hmono i hi hx
      _ = Y (i + 1) := knot i hi
      _ ≤ Y j := hY' _ _ (by omega) (by omega)
      _ = Y j + (Y (j + 1) - Y j) / (X (j + 1) - X j) * (X j - X j) := by ring
      _ ≤ _ := mono_piece X Y n hinc hmono j hj hx'
  · subst c
    exact mono_piece X Y n hinc hmono i hi h
  · -- the pieces are out of order: `x ≤ x' ≤ X (j+1) ≤ X i ≤ x`, so all are equal
    have hx : X i ≤ x := by rcases hi2 with h | h; exacts [h, by omega]
    have hx' : x' ≤ X (j + 1) := by rcases hj1 with h | h; exacts [h, by omega]
    have h3 := inc_le hinc (show j + 1 ≤ i by omega) (by omega)
    have h4 : x = x' := le_antisymm h (hx'.trans (h3.trans hx))
    rw [h4] at e1
    rw [e1] at e2
    rw [h4]
    exact (Out.ok.inj e2).le

-- C45: a concrete table
example : linear (0 : ℚ) (3 / 2) (some #[1, 2, 4]) (some #[10, 20, 40]) 3 = .ok 15 := by decide +kernel
example : linear (0 : ℚ) 5 (some #[1, 2, 4]) (some #[10, 20, 40]) 3 = .ok 50 := by decide +kernel

end Verif.Interp1
