import Verif.Algorithm.Lemmas

/-!
# Properties C14-C20 (`algorithm.hpp`)

`lt`, `eqv`, predicates and callbacks are arbitrary; positions `f`, `l` are inclusive, as in
the code. `Out.ok` in a conclusion includes termination and absence of out-of-bounds
accesses.
-/

namespace Verif.Algorithm

variable {α : Type}

/-- **C14.** `sort` with the default order, for every array, every range inside it and every
strict weak order: it terminates without out-of-bounds access, the result is a permutation,
the range is ordered, and positions outside the range are untouched. -/
theorem C14_sorted (lt : α → α → Bool) (hlt : StrictWeak lt) (a : Array α) (f l : Nat)
    (hfl : f ≤ l) (hl : l < a.size) :
    ∃ a', sort lt none a f l = .ok a' ∧ a'.size = a.size ∧ a'.Perm a ∧
      (∀ i j x y, f ≤ i → i < j → j ≤ l → a'[i]? = some x → a'[j]? = some y → lt y x = false) ∧
      (∀ k, (k < f ∨ l < k) → a'[k]? = a[k]?) := by
  obtain ⟨a', h1, h2, h3⟩ := sort_ok lt none a f l hfl hl
  refine ⟨a', h1, h2.size, h2.perm, ?_, h2.out⟩
  intro i j x y hi hij hj hx hy
  rcases h3 rfl hlt i j x y hi hij hj hx hy with ⟨p, hp, _⟩ | h
  · simp at hp
  · exact h

/-- **C14, whole array** (default arguments `first = 0`, `last = n - 1`). -/
theorem C14_sorted_all (lt : α → α → Bool) (hlt : StrictWeak lt) (a : Array α)
    (hn : 0 < a.size) :
    ∃ a', sort lt none a 0 (a.size - 1) = .ok a' ∧ a'.Perm a ∧
      a'.toList.Pairwise (fun x y => lt y x = false) := by
  obtain ⟨a', h1, h2, h3, h4, _⟩ := C14_sorted lt hlt a 0 (a.size - 1) (by omega) (by omega)
  refine ⟨a', h1, h3, ?_⟩
  rw [List.pairwise_iff_getElem]
  intro i j hi hj hij
  have hi' : i < a'.size := by simpa using hi
  have hj' : j < a'.size := by simpa using hj
  exact h4 i j _ _ (by omega) hij (by omega) (by simp [hi']) (by simp [hj'])

/-- **C14, any comparison and any comparator** (also not an order, e.g. NaN among floats):
still a permutation, terminating, in bounds; and the capacity `n` of the interval stack is
never exceeded, i.e. every larger capacity gives the same run. -/
theorem C14_permutation (lt : α → α → Bool) (comp : Option (α → α → Bool)) (a : Array α)
    (f l : Nat) (hfl : f ≤ l) (hl : l < a.size) :
    (∃ a', sort lt comp a f l = .ok a' ∧ a'.Perm a ∧ (∀ k, (k < f ∨ l < k) → a'[k]? = a[k]?)) ∧
    (∀ cap, a.size ≤ cap → 1 < a.size →
      sortLoop lt comp cap (a.size + 1) [(f, l)] a = sort lt comp a f l) := by
  obtain ⟨a', h1, h2, _⟩ := sort_ok lt comp a f l hfl hl
  refine ⟨⟨a', h1, h2.perm, h2.out⟩, ?_⟩
  intro cap hcap hsz
  have h0 : 0 < a.size := by omega
  have hpush : push a.size [] (f, l) = [(f, l)] := by simp [push, h0]
  unfold sort
  rw [if_pos hsz, hpush]
  apply sortLoop_cap
  · rw [mu_cons]; simp [mu]; omega
  · rw [mu_cons]; simp [mu]; omega
  · intro p hp
    simp only [List.mem_singleton] at hp
    subst hp
    exact ⟨hfl, hl⟩

/-- The usual order on integers is a strict weak order. -/
theorem strictWeak_int : StrictWeak (fun a b : Int => decide (a < b)) :=
  ⟨fun x y h => by simp at h ⊢; omega, fun x y z h1 h2 => by simp at h1 h2 ⊢; omega⟩

example : sort (fun a b : Int => decide (a < b)) none #[5, -3, 9, 1, 1, 7, 2] 0 6
    = .ok #[-3, 1, 1, 2, 5, 7, 9] := by decide +kernel

/-- **C15 (partial).** With a comparator `sort` terminates in bounds and gives a permutation.
Full claim: the range is ordered by the comparator. It is false (`C15_two_false`): the loop
compares with `array[pivotIndex]` instead of the pivot value. -/
theorem C15_comparator_partial (lt c : α → α → Bool) (a : Array α) (f l : Nat)
    (hfl : f ≤ l) (hl : l < a.size) :
    ∃ a', sort lt (some c) a f l = .ok a' ∧ a'.Perm a ∧
      (∀ k, (k < f ∨ l < k) → a'[k]? = a[k]?) :=
  (C14_permutation lt (some c) a f l hfl hl).1

example : (0 : Nat) ≤ 6 ∧ 6 < (#[5, -3, 9, 1, 1, 7, 2] : Array Int).size := by decide

/-- **C15 is false**: for every irreflexive comparator, a two-element array is always
exchanged, so two elements given in the right order come out in the wrong order. -/
theorem C15_two_false (lt c : α → α → Bool) (hirr : ∀ x, c x x = false) (x y : α) :
    sort lt (some c) #[x, y] 0 1 = .ok #[y, x] := by
  have h1 : rdArr #[x, y] 1 = .ok y := rfl
  have h0 : rdArr #[x, y] 0 = .ok x := rfl
  have hw : swapAt #[x, y] 0 1 = .ok #[y, x] := rfl
  have e : sort lt (some c) #[x, y] 0 1 =
      sortLoop lt (some c) 2 (2 + 1) [(0, 1)] #[x, y] := rfl
  rw [e]
  simp [sortLoop, h1, partLoop, sortTest, h0, hirr, hw]

/-- The witness on integers: `{1, 2}` sorted with `<` as comparator gives `{2, 1}`. -/
theorem C15_witness : sort (fun a b : Int => decide (a < b)) (some fun a b => decide (a < b))
    #[1, 2] 0 1 = .ok #[2, 1] := by decide +kernel

/-- **C16.** `reverse` maps position `k` of the range to `f + l - k` and leaves the rest;
applying it twice restores the array. -/
theorem C16_reverse (a : Array α) (f l : Nat) (hl : l < a.size) :
    ∃ a', reverse a f l = .ok a' ∧ a'.size = a.size ∧
      (∀ k, f ≤ k → k ≤ l → a'[k]? = a[f + l - k]?) ∧
      (∀ k, (k < f ∨ l < k) → a'[k]? = a[k]?) ∧
      reverse a' f l = .ok a := by
  obtain ⟨a', h1, h2, h3⟩ := reverse_ok a f l hl
  obtain ⟨a2, g1, g2, g3⟩ := reverse_ok a' f l (by omega)
  refine ⟨a', h1, h2, fun k a1 a2 => by rw [h3, if_pos ⟨a1, a2⟩],
    fun k hk => by rw [h3, if_neg (by omega)], ?_⟩
  rw [g1]
  congr 1
  apply Array.ext_getElem?
  intro k
  rw [g3]
  by_cases c : f ≤ k ∧ k ≤ l
  · rw [if_pos c, h3, if_pos (by omega)]
    exact congrArg (fun m => a[m]?) (by omega)
  · rw [if_neg c, h3, if_neg c]

example : reverse #[0, 1, 2, 3, 4, 5] 1 4 = .ok #[0, 4, 3, 2, 1, 5] := by decide +kernel

/-- **C17 (partial: negative `k` that is a multiple of the length is excluded).**
Element `i` moves to position `(i + k) mod n`.
Full claim: for every `int` value `k`. It is false, `C17_negative_multiple_ub`. -/
theorem C17_rotate_partial (a : Array α) (k : Int) (hn : 0 < a.size) (hsz : a.size < 2 ^ 31)
    (hmin : -2 ^ 31 < k) (hk : k < 0 → k % a.size ≠ 0) :
    ∃ a', rotate a k = .ok a' ∧ a'.size = a.size ∧
      ∀ i, i < a.size → a'[((i + k) % a.size).toNat]? = a[i]? := by
  have hnI : (0 : Int) < a.size := by omega
  rcases Int.lt_trichotomy k 0 with hneg | rfl | hpos
  · have hkm := hk hneg
    have hm0 := Int.emod_nonneg k (show (a.size : Int) ≠ 0 by omega)
    have hm1 := Int.emod_lt_of_pos k hnI
    have hr : ((-k).toNat % a.size : Nat) = a.size - (k % a.size).toNat := by
      have h1 : (((-k).toNat % a.size : Nat) : Int) = (-k) % a.size := by
        rw [Int.natCast_emod]
        congr 1
        omega
      have h2 : (-k) % (a.size : Int) = a.size - k % a.size := by
        have h3 : -k = (a.size - k % a.size) + a.size * (-(k / a.size) - 1) := by
          have := Int.mul_ediv_add_emod k a.size
          rw [Int.mul_sub, Int.mul_neg]
          omega
        rw [h3, Int.add_mul_emod_self_left]
        exact Int.emod_eq_of_lt (by omega) (by omega)
      omega
    obtain ⟨a', h1, h2, h3⟩ := rotate_left_ok a k hsz hneg (by omega) (by omega) (by omega)
    refine ⟨a', h1, h2, ?_⟩
    intro i hi
    have hpos' : ((i : Int) + k) % a.size = ((i : Int) + k % a.size) % a.size := by
      rw [Int.add_comm (i : Int) (k % a.size), Int.emod_add_emod, Int.add_comm]
    rw [hr] at h3
    by_cases c : (i : Int) + k % a.size < a.size
    · have e : ((i : Int) + k % a.size) % a.size = (i : Int) + k % a.size :=
        Int.emod_eq_of_lt (by omega) c
      rw [hpos', e, h3 _ (by omega), if_neg (by omega)]
      exact congrArg (fun m => a[m]?) (by omega)
    · have e : ((i : Int) + k % a.size) % a.size = (i : Int) + k % a.size - a.size := by
        rw [← Int.sub_emod_right]
        exact Int.emod_eq_of_lt (by omega) (by omega)
      rw [hpos', e, h3 _ (by omega), if_pos (by omega)]
      exact congrArg (fun m => a[m]?) (by omega)
  · refine ⟨a, by simp [rotate], rfl, ?_⟩
    intro i hi
    have : ((i : Int) + 0) % a.size = i := by
      rw [Int.add_zero]; exact Int.emod_eq_of_lt (by omega) (by omega)
    rw [this]; rfl
  · obtain ⟨a', h1, h2, h3⟩ := rotate_right_ok a k hn hsz hpos
    refine ⟨a', h1, h2, ?_⟩
    intro i hi
    have hm0 := Int.emod_nonneg k (show (a.size : Int) ≠ 0 by omega)
    have hm1 := Int.emod_lt_of_pos k hnI
    have hr : (k.toNat % a.size : Nat) = (k % a.size).toNat := by
      have h1 : ((k.toNat % a.size : Nat) : Int) = k % a.size := by
        rw [Int.natCast_emod]
        congr 1
        omega
      omega
    have hpos' : ((i : Int) + k) % a.size = ((i : Int) + k % a.size) % a.size := by
      rw [Int.add_comm (i : Int) (k % a.size), Int.emod_add_emod, Int.add_comm]
    rw [hr] at h3
    by_cases c : (i : Int) + k % a.size < a.size
    · have e : ((i : Int) + k % a.size) % a.size = (i : Int) + k % a.size :=
        Int.emod_eq_of_lt (by omega) c
      rw [hpos', e, h3 _ (by omega), if_neg (by omega)]
      exact congrArg (fun m => a[m]?) (by omega)
    · have e : ((i : Int) + k % a.size) % a.size = (i : Int) + k % a.size - a.size := by
        rw [← Int.sub_emod_right]
        exact Int.emod_eq_of_lt (by omega) (by omega)
      rw [hpos', e, h3 _ (by omega), if_pos (by omega)]
      exact congrArg (fun m => a[m]?) (by omega)

example : rotate #[0, 1, 2, 3, 4] 7 = .ok #[3, 4, 0, 1, 2] ∧
    rotate #[0, 1, 2, 3, 4] (-7) = .ok #[2, 3, 4, 0, 1] ∧ ((-7 : Int) % 5 ≠ 0) := by
  decide +kernel

/-- **C17, inverse** (partial: same exclusion): rotating by `k` and then by `-k` restores the
array whenever `k` is not a multiple of the length. -/
theorem C17_inverse_partial (a : Array α) (k : Int) (hn : 0 < a.size) (hsz : a.size < 2 ^ 31)
    (hk1 : -2 ^ 31 < k) (hk2 : k < 2 ^ 31) (hk : k % a.size ≠ 0) :
    ∃ a', rotate a k = .ok a' ∧ rotate a' (-k) = .ok a := by
  obtain ⟨a1, h1, h2, h3⟩ := C17_rotate_partial a k hn hsz hk1 (fun _ => hk)
  have hk' : (-k) % a1.size ≠ 0 := by
    rw [h2]
    intro h
    apply hk
    have := Int.dvd_of_emod_eq_zero h
    exact Int.emod_eq_zero_of_dvd ((Int.dvd_neg).mp this)
  obtain ⟨a2, g1, g2, g3⟩ := C17_rotate_partial a1 (-k) (by omega) (by omega) (by omega)
    (fun _ => hk')
  refine ⟨a1, h1, ?_⟩
  rw [g1]
  congr 1
  apply Array.ext_getElem?
  intro j
  by_cases hj : j < a.size
  · have hnI : (0 : Int) < a.size := by omega
    have hm0 := Int.emod_nonneg ((j : Int) + k) (show (a.size : Int) ≠ 0 by omega)
    have hm1 := Int.emod_lt_of_pos ((j : Int) + k) hnI
    have hp := g3 (((j : Int) + k) % a.size).toNat (by omega)
    rw [h3 j hj, h2] at hp
    have e : ((((((j : Int) + k) % a.size).toNat : Nat) : Int) + -k) % a.size = j := by
      have e0 : ((((((j : Int) + k) % a.size).toNat : Nat) : Int) + -k) =
          ((j : Int) + k) % a.size + -k := by omega
      rw [e0, Int.emod_add_emod]
      have e1 : (j : Int) + k + -k = j := by omega
      rw [e1]
      exact Int.emod_eq_of_lt (by omega) (by omega)
    rw [e] at hp
    simpa using hp
  · have b1 : a2[j]? = none := by simp; omega
    have b2 : a[j]? = none := by simp; omega
    rw [b1, b2]

/-- **C17 is false for negative multiples of the length** (for a one-element array: every
negative `k`), and for `INT_MIN`: undefined behaviour. -/
theorem C17_negative_multiple_ub (a : Array α) (k : Int) (hsz : a.size < 2 ^ 31) (hneg : k < 0)
    (hk : k % a.size = 0) : rotate a k = .ub := by
  have hk0 : k ≠ 0 := by omega
  have hk1 : ¬ k > 0 := by omega
  unfold rotate
  simp only [if_pos hk0, if_neg hk1]
  by_cases hm : k = -2 ^ 31
  · rw [if_pos hm]
  · rw [if_neg hm]
    have hr : (-k).toNat % a.size = 0 := by
      have h1 : (((-k).toNat % a.size : Nat) : Int) = (-k) % a.size := by
        rw [Int.natCast_emod]
        congr 1
        omega
      have h2 : (-k) % (a.size : Int) = 0 :=
        Int.emod_eq_zero_of_dvd ((Int.dvd_neg).mpr (Int.dvd_of_emod_eq_zero hk))
      omega
    rw [hr, reverse_wrapped_ub a (by omega)]
    rfl

example : rotate #[1, 2, 3] (-3) = .ub := C17_negative_multiple_ub _ _ (by decide) (by decide)
  (by decide)

/-- **C18.** `binary_search` on any range inside the array terminates in bounds; if it returns
a position, that position is in the range and holds an element equal to the key; if it
returns null and the range is partitioned with respect to the key (as documented), no
element of the range equals the key. -/
theorem C18_binary_search (lt eqv : α → α → Bool) (a : Array α) (key : α) (f l : Nat)
    (hl : l < a.size) :
    (∃ p x, binary_search lt eqv a key f l = .ok (some ((p : Nat) : Int)) ∧ f ≤ p ∧ p ≤ l ∧
      a[p]? = some x ∧ eqv x key = true) ∨
    (binary_search lt eqv a key f l = .ok none ∧
      (Partitioned lt eqv a key f l →
        ∀ j y, f ≤ j → j ≤ l → a[j]? = some y → eqv y key = false)) := by
  rcases bsLoop_ok lt eqv a key f l hl (l + 1 - f) f l (by omega) (by omega)
    (by omega) with h | ⟨h1, h2⟩
  · exact Or.inl h
  · right
    exact ⟨h1, fun hP j y a1 a2 => h2 hP j y (by omega) (by omega)⟩

/-- **C18, sorted arrays.** For a strict weak order whose equivalence is `==`, on a sorted
range `binary_search` finds an element iff the range contains one equal to the key. -/
theorem C18_iff_present (lt eqv : α → α → Bool) (hlt : StrictWeak lt)
    (heq : ∀ x y, eqv x y = (!lt x y && !lt y x)) (a : Array α) (key : α) (f l : Nat)
    (hl : l < a.size)
    (hs : ∀ i j x y, f ≤ i → i < j → j ≤ l → a[i]? = some x → a[j]? = some y → lt y x = false) :
    (∃ p : Nat, binary_search lt eqv a key f l = .ok (some (p : Int))) ↔
      ∃ j y, f ≤ j ∧ j ≤ l ∧ a[j]? = some y ∧ eqv y key = true := by
  have hP : Partitioned lt eqv a key f l := by
    intro i j x y hi hij hj hx hy
    rcases Nat.lt_or_eq_of_le hij with hij | rfl
    · have hyx := hs i j x y hi hij hj hx hy
      rw [heq, heq]
      constructor
      · intro h1 _
        -- y < key, x ≤ y, so x < key
        have : lt x key = true := by
          cases hc : lt x key with
          | true => rfl
          | false =>
            have := hlt.trans' key x y hc hyx
            rw [this] at h1; cases h1
        simp [this]
      · intro h1 h2
        rw [h1] at h2
        simp at h2
        have : lt key y = true := by
          cases hc : lt key y with
          | true => rfl
          | false =>
            have := hlt.trans' x y key hyx hc
            rw [this] at h2; cases h2
        simp [this]
    · rw [hx] at hy; cases hy
      exact ⟨fun _ h => h, fun _ h => h⟩
  rcases C18_binary_search lt eqv a key f l hl with ⟨p, x, h1, h2, h3, h4, h5⟩ | ⟨h1, h2⟩
  · exact iff_of_true ⟨p, h1⟩ ⟨p, x, h2, h3, h4, h5⟩
  · apply iff_of_false
    · rintro ⟨p, hp⟩
      rw [h1] at hp; cases hp
    · rintro ⟨j, y, a1, a2, a3, a4⟩
      rw [h2 hP j y a1 a2 a3] at a4; cases a4

example : binary_search (fun a b : Int => decide (a < b)) (fun a b => a == b)
    #[-4, 0, 3, 3, 8, 11] 8 0 5 = .ok (some 4) := by decide +kernel

/-- **C19, find**: the first matching position, or null when there is none. -/
theorem C19_find (eqv : α → α → Bool) (a : Array α) (key : α) (f l : Nat) (hl : l < a.size) :
    (∃ p x, find eqv a key f l = .ok (some p) ∧ f ≤ p ∧ p ≤ l ∧ a[p]? = some x ∧
        eqv x key = true ∧ ∀ j y, f ≤ j → j < p → a[j]? = some y → eqv y key = false) ∨
    (find eqv a key f l = .ok none ∧
        ∀ j y, f ≤ j → j ≤ l → a[j]? = some y → eqv y key = false) := by
  by_cases hfl : f ≤ l
  · rcases findLoop_ok eqv a key (l + 1 - f) f (by omega) with ⟨p, x, h1, h2, h3, h4⟩ | ⟨h1, h2⟩
    · exact Or.inl ⟨p, x, h1, h2, by omega, h4⟩
    · exact Or.inr ⟨h1, fun j y a1 a2 => h2 j y a1 (by omega)⟩
  · right
    have : l + 1 - f = 0 := by omega
    exact ⟨by simp [find, this, findLoop], fun j y a1 a2 => by omega⟩

example : find (fun a b : Nat => a == b) #[4, 7, 7, 1] 7 0 3 = .ok (some 1) := by decide +kernel

/-- **C19, any_of and all_of** are the existential and universal quantifier over the range. -/
theorem C19_quantifiers (pred : α → Bool) (a : Array α) (f l : Nat) (hl : l < a.size) :
    ∃ b c, any_of pred a f l = .ok b ∧ all_of pred a f l = .ok c ∧
      (b = true ↔ ∃ j x, f ≤ j ∧ j ≤ l ∧ a[j]? = some x ∧ pred x = true) ∧
      (c = true ↔ ∀ j x, f ≤ j → j ≤ l → a[j]? = some x → pred x = true) := by
  by_cases hfl : f ≤ l
  · obtain ⟨b, h1, h2⟩ := anyLoop_ok pred a (l + 1 - f) f (by omega)
    obtain ⟨c, g1, g2⟩ := allLoop_ok pred a (l + 1 - f) f (by omega)
    refine ⟨b, c, h1, g1, ?_, ?_⟩
    · rw [h2]
      constructor
      · rintro ⟨j, x, a1, a2, a3⟩; exact ⟨j, x, a1, by omega, a3⟩
      · rintro ⟨j, x, a1, a2, a3⟩; exact ⟨j, x, a1, by omega, a3⟩
    · rw [g2]
      constructor
      · intro h j x a1 a2; exact h j x a1 (by omega)
      · intro h j x a1 a2; exact h j x a1 (by omega)
  · have : l + 1 - f = 0 := by omega
    refine ⟨false, true, by simp [any_of, this, anyLoop], by simp [all_of, this, allLoop],
      iff_of_false (by simp) ?_, iff_of_true rfl ?_⟩
    · rintro ⟨j, x, a1, a2, _⟩; omega
    · intro j x a1 a2; omega

example : (3 : Nat) < (#[4, 7, 7, 1] : Array Nat).size := by decide

/-- **C19, count_if** is the number of elements of the range satisfying the predicate. -/
theorem C19_count (pred : α → Bool) (a : Array α) (f l : Nat) (hl : l < a.size) :
    count_if pred a f l = .ok (((a.toList.drop f).take (l + 1 - f)).countP pred) := by
  by_cases hfl : f ≤ l
  · simp [count_if, countLoop_ok pred a (l + 1 - f) f 0 (by omega)]
  · have : l + 1 - f = 0 := by omega
    simp [count_if, this, countLoop]

example : count_if (fun x : Nat => x == 7) #[7, 4, 7, 7, 1] 1 4 = .ok 2 := by decide +kernel

/-- **C19, fill** sets exactly the range. -/
theorem C19_fill (a : Array α) (v : α) (f l : Nat) (hl : l < a.size) :
    ∃ a', fill a v f l = .ok a' ∧ a'.size = a.size ∧
      ∀ j, a'[j]? = if f ≤ j ∧ j ≤ l then some v else a[j]? := by
  by_cases hfl : f ≤ l
  · obtain ⟨a', h1, h2, h3⟩ := fillLoop_ok v (l + 1 - f) f a (by omega)
    refine ⟨a', h1, h2, fun j => ?_⟩
    rw [h3 j]
    by_cases c : f ≤ j ∧ j ≤ l
    · rw [if_pos c, if_pos (by omega)]
    · rw [if_neg c, if_neg (by omega)]
  · have : l + 1 - f = 0 := by omega
    refine ⟨a, by simp [fill, this, fillLoop], rfl, fun j => ?_⟩
    rw [if_neg (by omega)]

example : fill #[1, 2, 3, 4] 9 1 2 = .ok #[1, 9, 9, 4] := by decide +kernel

/-- **C19, for_each** calls the function on each element of the range exactly once, in order
(`visit`), and changes nothing outside the range. -/
theorem C19_for_each {σ : Type} (fn : σ → α → σ × α) (st : σ) (a : Array α) (f l : Nat)
    (hfl : f ≤ l) (hl : l < a.size) :
    ∃ a', for_each fn st a f l =
        .ok ((visit fn st ((a.toList.drop f).take (l + 1 - f))).1, a') ∧
      a'.toList = a.toList.take f ++ (visit fn st ((a.toList.drop f).take (l + 1 - f))).2 ++
        a.toList.drop (l + 1) := by
  obtain ⟨a', h1, h2⟩ := forEachLoop_ok fn (l + 1 - f) f st a (by omega)
  have e : f + (l + 1 - f) = l + 1 := by omega
  rw [e] at h2
  exact ⟨a', h1, h2⟩

example : for_each (fun (s : List Nat) x => (s ++ [x], x * x)) [] #[1, 2, 3, 4] 1 2
    = .ok ([2, 3], #[1, 4, 9, 4]) := by decide +kernel

/-- **C20 (partial).** `replace_if` replaces the first match only, `replace` likewise.
Full claim: every match in the range is replaced. False: `C20_replace_false`. -/
theorem C20_replace_partial (pred : α → Bool) (a : Array α) (v : α) (f l : Nat)
    (hl : l < a.size) :
    (∃ p x a', replace_if pred a v f l = .ok a' ∧ f ≤ p ∧ p ≤ l ∧ a[p]? = some x ∧
        pred x = true ∧ (∀ j y, f ≤ j → j < p → a[j]? = some y → pred y = false) ∧
        (∀ j, a'[j]? = if j = p then some v else a[j]?)) ∨
    (replace_if pred a v f l = .ok a ∧
        ∀ j y, f ≤ j → j ≤ l → a[j]? = some y → pred y = false) := by
  by_cases hfl : f ≤ l
  · rcases replaceIfLoop_ok pred v (l + 1 - f) f a (by omega) with
      ⟨p, x, h1, h2, h3, h4, h5, h6⟩ | ⟨h1, h2⟩
    · left
      have hp : p < a.size := by omega
      refine ⟨p, x, a.set p v, ?_, h2, by omega, h4, h5, h6, ?_⟩
      · unfold replace_if
        rw [h1, wrArr_ok hp]
      · intro j
        rw [Array.getElem?_set]
        by_cases c : p = j
        · subst c; simp
        · have c' : ¬ j = p := fun h => c h.symm
          rw [if_neg c, if_neg c']
    · right
      exact ⟨h1, fun j y a1 a2 => h2 j y a1 (by omega)⟩
  · right
    have : l + 1 - f = 0 := by omega
    exact ⟨by simp [replace_if, this, replaceIfLoop], fun j y a1 a2 => by omega⟩

/-- **C20, replace** is `replace_if` with the test `old_value == element`. -/
theorem C20_replace_eq (eqv : α → α → Bool) (a : Array α) (old new : α) (f l : Nat) :
    replace eqv a old new f l = replace_if (fun x => eqv old x) a new f l := rfl

/-- **C20 is false for `replace`/`replace_if`**: with two matches the second one stays. -/
theorem C20_replace_false :
    replace (fun a b : Nat => a == b) #[7, 1, 7] 7 0 0 2 = .ok #[0, 1, 7] ∧
    replace_if (fun x : Nat => x == 7) #[7, 1, 7] 0 0 2 = .ok #[0, 1, 7] := by decide +kernel

example : (2 : Nat) < (#[7, 1, 7] : Array Nat).size := by decide

/-- **C20, find_if (partial)**: the result is null iff no element matches, otherwise it is the
*last* match. Full claim: the first match. False in general: `C20_find_if_false`; it is the
first match exactly when there is only one. -/
theorem C20_find_if_partial (pred : α → Bool) (a : Array α) (f l : Nat) (hl : l < a.size) :
    (∃ p x, find_if pred a f l = .ok (some p) ∧ f ≤ p ∧ p ≤ l ∧ a[p]? = some x ∧
        pred x = true ∧ ∀ j y, p < j → j ≤ l → a[j]? = some y → pred y = false) ∨
    (find_if pred a f l = .ok none ∧
        ∀ j y, f ≤ j → j ≤ l → a[j]? = some y → pred y = false) := by
  by_cases hfl : f ≤ l
  · rcases findIfLoop_ok pred a (l + 1 - f) f none (by omega) with
      ⟨p, x, h1, h2, h3, h4, h5, h6⟩ | ⟨h1, h2⟩
    · exact Or.inl ⟨p, x, h1, h2, by omega, h4, h5, fun j y a1 a2 => h6 j y a1 (by omega)⟩
    · exact Or.inr ⟨h1, fun j y a1 a2 => h2 j y a1 (by omega)⟩
  · right
    have : l + 1 - f = 0 := by omega
    exact ⟨by simp [find_if, this, findIfLoop], fun j y a1 a2 => by omega⟩

/-- **C20 is false for `find_if`**: the position of the last match is returned. -/
theorem C20_find_if_false :
    find_if (fun x : Nat => x == 7) #[7, 1, 7] 0 2 = .ok (some 2) := by decide +kernel

end Verif.Algorithm
