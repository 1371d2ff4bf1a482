import Verif.Interp1.Model
import Mathlib.Tactic.IntervalCases

/-!
# Property C46: step interpolation (any arithmetic)
-/

namespace Verif.Interp1

open Arith

variable {R : Type} [Arith R]

/-- The first `n` cells of `a` are `f 0, f 1, ...`. -/
def IsTable (a : Array R) (n : Nat) (f : Nat → R) : Prop := ∀ i, i < n → rdArr a i = .ok (f i)

/-- The abscissae are strictly increasing. -/
def Increasing (n : Nat) (X : Nat → R) : Prop := ∀ i j, i < j → j < n → (X i <. X j) = true

theorem lt_of_lt_of_le [LawfulOrd R] {x a b : R} (h1 : (x <. a) = true) (h2 : (a ≤. b) = true) :
    (x <. b) = true := by
  by_contra h
  have h3 := LawfulOrd.le_of_not_lt (LawfulOrd.lt_nan h1).1 (LawfulOrd.le_nan h2).2 (by simpa using h)
  have h4 := LawfulOrd.not_lt_of_le (LawfulOrd.le_trans h2 h3)
  rw [h1] at h4; cases h4

/-! ## next -/

theorem nextLoop_spec (x : R) (tx : Array R) (n dflt : Nat) (X : Nat → R) (hx : IsTable tx n X)
    (k i : Nat) (hb : i + k + 1 ≤ n) :
    (∃ j, nextLoop x tx dflt k i = .ok j ∧ i ≤ j ∧ j < i + k ∧ (x <. X (j + 1)) = true ∧
      ∀ m, i ≤ m → m < j → (x <. X (m + 1)) = false) ∨
    (nextLoop x tx dflt k i = .ok dflt ∧ ∀ m, i ≤ m → m < i + k → (x <. X (m + 1)) = false) := by
  induction k generalizing i with
  | zero => exact .inr ⟨rfl, by intros; omega⟩
  | succ k ih =>
    rw [nextLoop, hx (i + 1) (by omega), Out.bind_ok]
    by_cases c : (x <. X (i + 1)) = true
    · rw [if_pos c]
      exact .inl ⟨i, rfl, le_rfl, by omega, c, by intros; omega⟩
    · rw [if_neg c]
      have c' : (x <. X (i + 1)) = false := by simpa using c
      rcases ih (i + 1) (by omega) with ⟨j, h1, h2, h3, h4, h5⟩ | ⟨h1, h2⟩
      · refine .inl ⟨j, h1, by omega, by omega, h4, fun m hm hm' => ?_⟩
        by_cases e : m = i
        · subst e; exact c'
        · exact h5 m (by omega) hm'
      · refine .inr ⟨h1, fun m hm hm' => ?_⟩
        by_cases e : m = i
        · subst e; exact c'
        · exact h2 m (by omega) (by omega)

/-- **C46** (`next`, partial: `x` not below the table, see `C46_next_below_false`) the result is the
ordinate of the first knot greater than `x`, or of the last knot beyond the table; nothing outside
the tables is read. -/
theorem C46_next_partial [LawfulOrd R] (nan x : R) (tx ty : Array R) (n : Nat) (X Y : Nat → R)
    (hn : 2 ≤ n) (hX : IsTable tx n X) (hY : IsTable ty n Y) (hinc : Increasing n X)
    (h0 : (X 0 ≤. x) = true) :
    ∃ j, j < n ∧ next nan x (some tx) (some ty) n = .ok (Y j) ∧
      (((X (n - 1) ≤. x) = true ∧ j = n - 1) ∨
        ((x <. X j) = true ∧ ∀ m, m < j → (X m ≤. x) = true)) := by
  have hxn := (LawfulOrd.le_nan h0).2
  unfold next guarded
  simp only [ge_iff_le, if_pos hn]
  rcases nextLoop_spec x tx n (n - 1) X hX (n - 1) 0 (by omega) with ⟨j, h1, _, h3, h4, h5⟩ | ⟨h1, h2⟩
  · rw [h1, Out.bind_ok, hX (n - 1) (by omega), Out.bind_ok]
    by_cases c : (X (n - 1) ≤. x) = true
    · rw [if_pos c]
      exact ⟨n - 1, by omega, hY (n - 1) (by omega), .inl ⟨c, rfl⟩⟩
    · rw [if_neg c]
      refine ⟨j + 1, by omega, hY (j + 1) (by omega), .inr ⟨h4, fun m hm => ?_⟩⟩
      cases m with
      | zero => exact h0
      | succ m =>
        have hmn : isNan (X (m + 1)) = false :=
          (LawfulOrd.lt_nan (hinc m (m + 1) (by omega) (by omega))).2
        exact LawfulOrd.le_of_not_lt hxn hmn (h5 m (by omega) (by omega))
  · rw [h1, Out.bind_ok, hX (n - 1) (by omega), Out.bind_ok]
    have c : (X (n - 1) ≤. x) = true := by
      have := h2 (n - 2) (by omega) (by omega)
      rw [show n - 2 + 1 = n - 1 by omega] at this
      exact LawfulOrd.le_of_not_lt hxn (LawfulOrd.lt_nan (hinc 0 (n - 1) (by omega) (by omega))).2 this
    rw [if_pos c]
    exact ⟨n - 1, by omega, hY (n - 1) (by omega), .inl ⟨c, rfl⟩⟩

/-- **C46 is false of the code for `next` below the table**: the result is the ordinate of the second
knot, not of the first. -/
theorem C46_next_below_false [LawfulOrd R] (nan x : R) (tx ty : Array R) (n : Nat) (X Y : Nat → R)
    (hn : 2 ≤ n) (hX : IsTable tx n X) (hY : IsTable ty n Y) (hinc : Increasing n X)
    (h0 : (x <. X 0) = true) :
    next nan x (some tx) (some ty) n = .ok (Y 1) := by
  have hlt : ∀ m, m < n → (x <. X m) = true := by
    intro m hm
    cases m with
    | zero => exact h0
    | succ m => exact lt_of_lt_of_le h0 (LawfulOrd.le_of_lt (hinc 0 (m + 1) (by omega) hm))
  obtain ⟨k, rfl⟩ : ∃ k, n = k + 2 := ⟨n - 2, by omega⟩
  unfold next guarded
  simp only [ge_iff_le, if_pos hn, show k + 2 - 1 = k + 1 by omega]
  rw [nextLoop, hX 1 (by omega), Out.bind_ok, if_pos (hlt 1 (by omega)), Out.pure_eq, Out.bind_ok,
    hX (k + 1) (by omega), Out.bind_ok, if_neg]
  · exact hY 1 (by omega)
  · intro h
    have := LawfulOrd.not_lt_of_le h
    rw [hlt (k + 1) (by omega)] at this
    cases this

/-- **C46 is false of the code for `next` of a NaN**: with tables of exactly `n` cells the code reads
outside the ordinates. -/
theorem C46_next_nan_false [LawfulOrd R] (nan x : R) (tx ty : Array R) (n : Nat) (X : Nat → R)
    (hn : 2 ≤ n) (hX : IsTable tx n X) (hs : ty.size = n) (hx : isNan x = true) :
    next nan x (some tx) (some ty) n = .ub := by
  have hlt : ∀ m, (x <. X m) = false := by
    intro m
    by_contra h
    have := (LawfulOrd.lt_nan (by simpa using h)).1
    rw [hx] at this; cases this
  unfold next guarded
  simp only [ge_iff_le, if_pos hn]
  rcases nextLoop_spec x tx n (n - 1) X hX (n - 1) 0 (by omega) with ⟨j, _, _, _, h4, _⟩ | ⟨h1, _⟩
  · rw [hlt] at h4; cases h4
  · rw [h1, Out.bind_ok, hX (n - 1) (by omega), Out.bind_ok, if_neg]
    · unfold rdArr
      rw [dif_neg (by omega)]
    · intro h
      have := (LawfulOrd.le_nan h).2
      rw [hx] at this; cases this

/-! ## previous -/

theorem prevLoop_spec (x : R) (tx : Array R) (n : Nat) (X : Nat → R) (hx : IsTable tx n X)
    (k i near : Nat) (hb : i + k ≤ n) :
    ∃ j, prevLoop x tx k i near = .ok j ∧ ((j = near ∧ (0 < k → (x <. X i) = true)) ∨
      (i ≤ j ∧ j < i + k ∧ (x <. X j) = false ∧ (j + 1 < i + k → (x <. X (j + 1)) = true))) := by
  induction k generalizing i near with
  | zero => exact ⟨near, rfl, .inl ⟨rfl, by omega⟩⟩
  | succ k ih =>
    rw [prevLoop, hx i (by omega), Out.bind_ok]
    by_cases c : (x <. X i) = true
    · rw [if_pos c]
      exact ⟨near, rfl, .inl ⟨rfl, fun _ => c⟩⟩
    · rw [if_neg c]
      have c' : (x <. X i) = false := by simpa using c
      obtain ⟨j, h1, h2⟩ := ih (i + 1) i (by omega)
      refine ⟨j, h1, .inr ?_⟩
      rcases h2 with ⟨rfl, h2⟩ | ⟨h3, h4, h5, h6⟩
      · exact ⟨le_rfl, by omega, c', fun h => h2 (by omega)⟩
      · exact ⟨by omega, by omega, h5, fun h => h6 (by omega)⟩

/-- **C46** (`previous`) the result is the ordinate of the last knot that is at most `x`, or of the first
knot below the table; nothing outside the tables is read. -/
theorem C46_previous [LawfulOrd R] (nan x : R) (tx ty : Array R) (n : Nat) (X Y : Nat → R)
    (hn : 2 ≤ n) (hX : IsTable tx n X) (hY : IsTable ty n Y) (hinc : Increasing n X)
    (hx : isNan x = false) :
    ∃ j, j < n ∧ previous nan x (some tx) (some ty) n = .ok (Y j) ∧
      (((x ≤. X 0) = true ∧ j = 0) ∨
        ((X j ≤. x) = true ∧ ∀ m, j < m → m < n → (x <. X m) = true)) := by
  unfold previous guarded
  simp only [ge_iff_le, if_pos hn]
  rw [hX 0 (by omega), Out.bind_ok]
  have hXn : ∀ m, m < n → isNan (X m) = false := by
    intro m hm
    cases m with
    | zero => exact (LawfulOrd.lt_nan (hinc 0 1 (by omega) (by omega))).1
    | succ m => exact (LawfulOrd.lt_nan (hinc m (m + 1) (by omega) hm)).2
  by_cases c : (x ≤. X 0) = true
  · rw [if_pos c]
    exact ⟨0, by omega, hY 0 (by omega), .inl ⟨c, rfl⟩⟩
  · rw [if_neg c]
    have c0 : (x <. X 0) = false := by
      by_contra h
      exact c (LawfulOrd.le_of_lt (by simpa using h))
    obtain ⟨j, h1, h2⟩ := prevLoop_spec x tx n X hX (n - 1) 1 0 (by omega)
    rw [h1, Out.bind_ok]
    have hj : j < n ∧ (x <. X j) = false ∧ (j + 1 < n → (x <. X (j + 1)) = true) := by
      rcases h2 with ⟨rfl, h2⟩ | ⟨h3, h4, h5, h6⟩
      · exact ⟨by omega, c0, fun h => h2 (by omega)⟩
      · exact ⟨by omega, h5, fun h => h6 (by omega)⟩
    refine ⟨j, hj.1, hY j hj.1, .inr ⟨LawfulOrd.le_of_not_lt hx (hXn j hj.1) hj.2.1, fun m h3 h4 => ?_⟩⟩
    have h5 := hj.2.2 (by omega)
    by_cases e : m = j + 1
    · subst e; exact h5
    · exact lt_of_lt_of_le h5 (LawfulOrd.le_of_lt (hinc (j + 1) m (by omega) h4))

/-! ## nearest -/

theorem nearLoop_spec [LawfulOrd R] (x : R) (tx : Array R) (n : Nat) (X : Nat → R) (hx : IsTable tx n X)
    (hd : ∀ m, m < n → isNan (absf (x -. X m)) = false)
    (k i near : Nat) (hb : i + k = n) (hi : near < i) (hin : i ≤ n)
    (hm : ∀ m, m < i → (absf (x -. X near) ≤. absf (x -. X m)) = true ∧
      (near < m → (absf (x -. X near) <. absf (x -. X m)) = true)) :
    ∃ j, nearLoop x tx k i (absf (x -. X near)) near = .ok j ∧ j < n ∧
      ∀ m, m < n → (absf (x -. X j) ≤. absf (x -. X m)) = true ∧
        (j < m → (absf (x -. X j) <. absf (x -. X m)) = true) := by
  induction k generalizing i near with
  | zero => exact ⟨near, rfl, by omega, fun m h => hm m (by omega)⟩
  | succ k ih =>
    rw [nearLoop, hx i (by omega), Out.bind_ok]
    dsimp only
    by_cases c : (absf (x -. X i) ≤. absf (x -. X near)) = true
    · rw [if_pos c]
      refine ih (i + 1) i (by omega) (by omega) (by omega) fun m h => ?_
      by_cases e : m = i
      · subst e; exact ⟨LawfulOrd.le_refl (hd m (by omega)), by omega⟩
      · exact ⟨LawfulOrd.le_trans c (hm m (by omega)).1, by omega⟩
    · rw [if_neg c]
      have hlt : (absf (x -. X near) <. absf (x -. X i)) = true := by
        by_contra h
        exact c (LawfulOrd.le_of_not_lt (hd near (by omega)) (hd i (by omega)) (by simpa using h))
      refine ih (i + 1) near (by omega) (by omega) (by omega) fun m h => ?_
      by_cases e : m = i
      · subst e; exact ⟨LawfulOrd.le_of_lt hlt, fun _ => hlt⟩
      · exact hm m (by omega)

/-- **C46** (`nearest`) the result is the ordinate of a knot at minimal (computed) distance from `x`, the
last one on ties; nothing outside the tables is read. -/
theorem C46_nearest [LawfulOrd R] (nan x : R) (tx ty : Array R) (n : Nat) (X Y : Nat → R)
    (hn : 2 ≤ n) (hX : IsTable tx n X) (hY : IsTable ty n Y)
    (hd : ∀ m, m < n → isNan (absf (x -. X m)) = false) :
    ∃ j, j < n ∧ nearest nan x (some tx) (some ty) n = .ok (Y j) ∧
      ∀ m, m < n → (absf (x -. X j) ≤. absf (x -. X m)) = true ∧
        (j < m → (absf (x -. X j) <. absf (x -. X m)) = true) := by
  unfold nearest guarded
  simp only [ge_iff_le, if_pos hn]
  rw [hX 0 (by omega), Out.bind_ok]
  obtain ⟨j, h1, h2, h3⟩ := nearLoop_spec x tx n X hX hd (n - 1) 1 0 (by omega) (by omega) (by omega)
    (by
      intro m hm
      obtain rfl : m = 0 := by omega
      exact ⟨LawfulOrd.le_refl (hd 0 (by omega)), by omega⟩)
  rw [h1, Out.bind_ok]
  exact ⟨j, h2, hY j h2, h3⟩

/-! ## The object -/

/-- **C46** (`setMethod`, `setData`) the enumerators select the methods of their names, other values and
tables of fewer than four points or null tables are refused and change nothing. -/
theorem C46_config [Trans R] (s : Interp R) (m : Nat) (x y : Option (Array R)) (n : Nat) :
    ((s.setMethod m).2 = true ↔ m < 9) ∧ (9 ≤ m → (s.setMethod m).1 = s) ∧
    (s.setMethod 0).1.method = .next ∧ (s.setMethod 1).1.method = .previous ∧
    (s.setMethod 2).1.method = .nearest ∧ (s.setMethod 3).1.method = .linear ∧
    (s.setMethod 4).1.method = .sine ∧ (s.setMethod 5).1.method = .cubic ∧
    (s.setMethod 6).1.method = .hermite ∧ (s.setMethod 7).1.method = .spline ∧
    (s.setMethod 8).1.method = .cSpline ∧
    ((s.setData x y n).2 = true ↔ x.isSome = true ∧ y.isSome = true ∧ 4 ≤ n) ∧
    ((s.setData x y n).2 = false → (s.setData x y n).1 = s) ∧
    ((s.setData x y n).2 = true → ∀ nan v, (s.setData x y n).1.get nan v = s.method.fn nan v x y n) := by
  have hlen : methodTable.length = 9 := rfl
  refine ⟨?_, ?_, rfl, rfl, rfl, rfl, rfl, rfl, rfl, rfl, rfl, ?_, ?_, ?_⟩
  · unfold Interp.setMethod
    by_cases h : m < 9
    · rw [List.getElem?_eq_getElem (by omega)]; simp [h]
    · rw [List.getElem?_eq_none (by omega)]; simp [h]
  · intro h
    unfold Interp.setMethod
    rw [List.getElem?_eq_none (by omega)]
  · unfold Interp.setData
    split_ifs with h
    · simp only [Bool.and_eq_true, decide_eq_true_eq] at h
      simp [h]
    · simp only [Bool.and_eq_true, decide_eq_true_eq, not_and] at h
      simp only [false_iff, not_and]
      intro h1 h2
      exact h ⟨h1, h2⟩
  · unfold Interp.setData
    split_ifs with h <;> simp
  · unfold Interp.setData
    split_ifs with h
    · intro _ _ _; rfl
    · simp

-- C46: concrete tables
example : next (0 : ℚ) (3 / 2) (some #[1, 2, 3]) (some #[10, 20, 30]) 3 = .ok 20 := by decide +kernel
example : next (0 : ℚ) (1 / 2) (some #[1, 2, 3]) (some #[10, 20, 30]) 3 = .ok 20 := by decide +kernel
example : previous (0 : ℚ) (3 / 2) (some #[1, 2, 3]) (some #[10, 20, 30]) 3 = .ok 10 := by decide +kernel
example : nearest (0 : ℚ) (3 / 2) (some #[1, 2, 3]) (some #[10, 20, 30]) 3 = .ok 20 := by decide +kernel
example : IsTable (#[1, 2, 3] : Array ℚ) 3 (fun i => i + 1) ∧ Increasing 3 (fun i => (i : ℚ) + 1) := by
  constructor
  · intro i hi
    interval_cases i <;> decide +kernel
  · intro i j h _
    simp only [fLt, decide_eq_true_eq, add_lt_add_iff_right, Nat.cast_lt]
    exact h

end Verif.Interp1
