import Verif.Algorithm.Sort

/-! Helper lemmas for the remaining algorithms. -/

namespace Verif.Algorithm

variable {α : Type}

theorem reverseLoop_ok (fuel s e : Nat) (a : Array α) (he : e < a.size) (hf : e ≤ s + fuel) :
    ∃ a', reverseLoop fuel s e a = .ok a' ∧ a'.size = a.size ∧
      ∀ k, a'[k]? = if s ≤ k ∧ k ≤ e then a[s + e - k]? else a[k]? := by
  have base : ∀ k, e ≤ s → a[k]? = if s ≤ k ∧ k ≤ e then a[s + e - k]? else a[k]? := by
    intro k h
    split
    · have : s + e - k = k := by omega
      rw [this]
    · rfl
  induction fuel generalizing s e a with
  | zero =>
    have : ¬ s < e := by omega
    exact ⟨a, by simp [reverseLoop, this], rfl, fun k => base k (by omega)⟩
  | succ fuel ih =>
    by_cases hse : s < e
    · obtain ⟨a1, h1, h2, _, h3⟩ := swapAt_ok (a := a) (i := s) (j := e) (by omega) he
      obtain ⟨a2, g1, g2, g3⟩ := ih (s + 1) (e - 1) a1 (by omega) (by omega) (by
        intro k h
        split
        · have : s + 1 + (e - 1) - k = k := by omega
          rw [this]
        · rfl)
      refine ⟨a2, by simp [reverseLoop, hse, h1, g1], by omega, ?_⟩
      intro k
      rw [g3 k]
      by_cases c1 : s + 1 ≤ k ∧ k ≤ e - 1
      · have e1 : s + 1 + (e - 1) - k = s + e - k := by omega
        rw [if_pos c1, if_pos (by omega), e1, h3, if_neg (by omega), if_neg (by omega)]
      · rw [if_neg c1, h3]
        by_cases c2 : k = e
        · have e1 : s + e - k = s := by omega
          rw [if_pos c2, if_pos (by omega), e1]
        · by_cases c3 : k = s
          · have e1 : s + e - k = e := by omega
            rw [if_neg c2, if_pos c3, if_pos (by omega), e1]
          · rw [if_neg c2, if_neg c3, if_neg (by omega)]
    · exact ⟨a, by simp [reverseLoop, hse], rfl, fun k => base k (by omega)⟩

theorem reverse_ok (a : Array α) (f l : Nat) (hl : l < a.size) :
    ∃ a', reverse a f l = .ok a' ∧ a'.size = a.size ∧
      ∀ k, a'[k]? = if f ≤ k ∧ k ≤ l then a[f + l - k]? else a[k]? := by
  unfold reverse
  by_cases h : l > f
  · rw [if_pos h]
    exact reverseLoop_ok (l - f) f l a hl (by omega)
  · rw [if_neg h]
    refine ⟨a, rfl, rfl, ?_⟩
    intro k
    split
    · have : f + l - k = k := by omega
      rw [this]
    · rfl

theorem subSize_eq {a b : Nat} (h : b ≤ a) (ha : a < 2 ^ 64) : subSize a b = a - b := by
  unfold subSize; omega

theorem rotate_right_ok (a : Array α) (k : Int) (hn : 0 < a.size) (hsz : a.size < 2 ^ 31)
    (hk : 0 < k) :
    ∃ a', rotate a k = .ok a' ∧ a'.size = a.size ∧
      ∀ j, j < a.size → a'[j]? = if j < k.toNat % a.size then a[a.size - k.toNat % a.size + j]?
        else a[j - k.toNat % a.size]? := by
  have hr : k.toNat % a.size < a.size := Nat.mod_lt _ hn
  generalize hrr : k.toNat % a.size = r at hr ⊢
  have e1 : subSize a.size r = a.size - r := subSize_eq (by omega) (by omega)
  have e2 : subSize a.size 1 = a.size - 1 := subSize_eq (by omega) (by omega)
  have e3 : subSize (a.size - r) 1 = a.size - r - 1 := subSize_eq (by omega) (by omega)
  obtain ⟨a1, h1, h2, h3⟩ := reverse_ok a (a.size - r) (a.size - 1) (by omega)
  obtain ⟨a2, g1, g2, g3⟩ := reverse_ok a1 0 (a.size - r - 1) (by omega)
  obtain ⟨a3, f1, f2, f3⟩ := reverse_ok a2 0 (a.size - 1) (by omega)
  have hk0 : k ≠ 0 := by omega
  refine ⟨a3, ?_, by omega, ?_⟩
  · simp only [rotate, if_pos hk0, if_pos hk, hrr, e1, e2, e3, h1, Out.bind_ok, g1, f1]
  · intro j hj
    rw [f3 j, if_pos (by omega), g3]
    by_cases c : j < r
    · rw [if_neg (by omega), h3, if_pos (by omega), if_pos c]
      exact congrArg (fun m => a[m]?) (by omega)
    · rw [if_pos (by omega), h3, if_neg (by omega), if_neg c]
      exact congrArg (fun m => a[m]?) (by omega)

theorem rotate_left_ok (a : Array α) (k : Int) (hsz : a.size < 2 ^ 31)
    (hk : k < 0) (hmin : k ≠ -2 ^ 31) (hr0 : 0 < (-k).toNat % a.size)
    (hr : (-k).toNat % a.size < a.size) :
    ∃ a', rotate a k = .ok a' ∧ a'.size = a.size ∧
      ∀ j, j < a.size → a'[j]? = if j < a.size - (-k).toNat % a.size
        then a[j + (-k).toNat % a.size]? else a[j - (a.size - (-k).toNat % a.size)]? := by
  generalize hrr : (-k).toNat % a.size = r at hr hr0 ⊢
  have e1 : subSize r 1 = r - 1 := subSize_eq (by omega) (by omega)
  have e2 : subSize a.size 1 = a.size - 1 := subSize_eq (by omega) (by omega)
  obtain ⟨a1, h1, h2, h3⟩ := reverse_ok a 0 (r - 1) (by omega)
  obtain ⟨a2, g1, g2, g3⟩ := reverse_ok a1 r (a.size - 1) (by omega)
  obtain ⟨a3, f1, f2, f3⟩ := reverse_ok a2 0 (a.size - 1) (by omega)
  have hk0 : k ≠ 0 := by omega
  have hk1 : ¬ k > 0 := by omega
  refine ⟨a3, ?_, by omega, ?_⟩
  · simp only [rotate, if_pos hk0, if_neg hk1, if_neg hmin, hrr, e1, e2, h1, Out.bind_ok, g1, f1]
  · intro j hj
    rw [f3 j, if_pos (by omega), g3]
    by_cases c : j < a.size - r
    · rw [if_pos (by omega), h3, if_neg (by omega), if_pos c]
      exact congrArg (fun m => a[m]?) (by omega)
    · rw [if_neg (by omega), h3, if_pos (by omega), if_neg c]
      exact congrArg (fun m => a[m]?) (by omega)

theorem reverse_wrapped_ub (a : Array α) (hsz : a.size < 2 ^ 64) :
    reverse a 0 (subSize 0 1) = .ub := by
  have e : subSize 0 1 = 2 ^ 64 - 1 := by decide
  have hb : ¬ (2 ^ 64 - 1 : Nat) < a.size := by omega
  rw [e]
  show (if (2 ^ 64 - 1 : Nat) > 0 then _ else _) = _
  rw [if_pos (by decide)]
  have : (2 ^ 64 - 1 - 0 : Nat) = (2 ^ 64 - 2) + 1 := by decide
  rw [this]
  show (if (0 : Nat) < 2 ^ 64 - 1 then _ else _) = _
  rw [if_pos (by decide)]
  have hsw : swapAt a 0 (2 ^ 64 - 1) = .ub := by
    unfold swapAt
    unfold rdArr
    by_cases h0 : 0 < a.size
    · simp only [dif_pos h0, Out.bind_ok, dif_neg hb, Out.bind_ub]
    · simp only [dif_neg h0, Out.bind_ub]
  rw [hsw]; rfl

theorem fillLoop_ok (v : α) (k i : Nat) (a : Array α) (h : i + k ≤ a.size) :
    ∃ a', fillLoop v k i a = .ok a' ∧ a'.size = a.size ∧
      ∀ j, a'[j]? = if i ≤ j ∧ j < i + k then some v else a[j]? := by
  induction k generalizing i a with
  | zero =>
    refine ⟨a, rfl, rfl, fun j => ?_⟩
    rw [if_neg (by omega)]
  | succ k ih =>
    have hi : i < a.size := by omega
    obtain ⟨a', h1, h2, h3⟩ := ih (i + 1) (a.set i v) (by simp; omega)
    refine ⟨a', by simp [fillLoop, wrArr_ok hi, h1], by simpa using h2, ?_⟩
    intro j
    rw [h3 j, Array.getElem?_set]
    by_cases c : i = j
    · subst c
      rw [if_neg (by omega), if_pos rfl, if_pos (by omega)]
    · rw [if_neg c]
      by_cases c2 : i + 1 ≤ j ∧ j < i + 1 + k
      · rw [if_pos c2, if_pos (by omega)]
      · rw [if_neg c2, if_neg (by omega)]

theorem findLoop_ok (eqv : α → α → Bool) (a : Array α) (key : α) (k i : Nat)
    (h : i + k ≤ a.size) :
    (∃ p x, findLoop eqv a key k i = .ok (some p) ∧ i ≤ p ∧ p < i + k ∧ a[p]? = some x ∧
        eqv x key = true ∧ ∀ j y, i ≤ j → j < p → a[j]? = some y → eqv y key = false) ∨
    (findLoop eqv a key k i = .ok none ∧
        ∀ j y, i ≤ j → j < i + k → a[j]? = some y → eqv y key = false) := by
  induction k generalizing i with
  | zero =>
    right
    exact ⟨rfl, fun j y h1 h2 => by omega⟩
  | succ k ih =>
    have hi : i < a.size := by omega
    have hx : a[i]? = some a[i] := by simp [hi]
    cases hc : eqv a[i] key with
    | true =>
      left
      exact ⟨i, a[i], by simp [findLoop, rdArr_ok hi, hc], by omega, by omega, hx, hc,
        fun j y h1 h2 => by omega⟩
    | false =>
      have estep : findLoop eqv a key (k + 1) i = findLoop eqv a key k (i + 1) := by
        simp [findLoop, rdArr_ok hi, hc]
      have key0 : ∀ j y, j = i → a[j]? = some y → eqv y key = false := by
        intro j y hj hy
        subst hj
        rw [hx] at hy; cases hy; exact hc
      rcases ih (i + 1) (by omega) with ⟨p, x, h1, h2, h3, h4, h5, h6⟩ | ⟨h1, h2⟩
      · left
        refine ⟨p, x, by rw [estep, h1], by omega, by omega, h4, h5, ?_⟩
        intro j y hj1 hj2 hy
        by_cases c : j = i
        · exact key0 j y c hy
        · exact h6 j y (by omega) hj2 hy
      · right
        refine ⟨by rw [estep, h1], ?_⟩
        intro j y hj1 hj2 hy
        by_cases c : j = i
        · exact key0 j y c hy
        · exact h2 j y (by omega) (by omega) hy

theorem anyLoop_ok (pred : α → Bool) (a : Array α) (k i : Nat) (h : i + k ≤ a.size) :
    ∃ b, anyLoop pred a k i = .ok b ∧
      (b = true ↔ ∃ j x, i ≤ j ∧ j < i + k ∧ a[j]? = some x ∧ pred x = true) := by
  induction k generalizing i with
  | zero => exact ⟨false, rfl, by simp; omega⟩
  | succ k ih =>
    have hi : i < a.size := by omega
    have hx : a[i]? = some a[i] := by simp [hi]
    cases hc : pred a[i] with
    | true =>
      exact ⟨true, by simp [anyLoop, rdArr_ok hi, hc],
        iff_of_true rfl ⟨i, a[i], by omega, by omega, hx, hc⟩⟩
    | false =>
      obtain ⟨b, h1, h2⟩ := ih (i + 1) (by omega)
      refine ⟨b, by simp [anyLoop, rdArr_ok hi, hc, h1], ?_⟩
      rw [h2]
      constructor
      · rintro ⟨j, x, a1, a2, a3, a4⟩
        exact ⟨j, x, by omega, by omega, a3, a4⟩
      · rintro ⟨j, x, a1, a2, a3, a4⟩
        have : j ≠ i := by
          rintro rfl
          rw [hx] at a3; cases a3; rw [hc] at a4; cases a4
        exact ⟨j, x, by omega, by omega, a3, a4⟩

theorem allLoop_ok (pred : α → Bool) (a : Array α) (k i : Nat) (h : i + k ≤ a.size) :
    ∃ b, allLoop pred a k i = .ok b ∧
      (b = true ↔ ∀ j x, i ≤ j → j < i + k → a[j]? = some x → pred x = true) := by
  induction k generalizing i with
  | zero => exact ⟨true, rfl, iff_of_true rfl (fun j x h1 h2 => by omega)⟩
  | succ k ih =>
    have hi : i < a.size := by omega
    have hx : a[i]? = some a[i] := by simp [hi]
    cases hc : pred a[i] with
    | false =>
      refine ⟨false, by simp [allLoop, rdArr_ok hi, hc], iff_of_false (by simp) ?_⟩
      intro hall
      rw [hall i a[i] (by omega) (by omega) hx] at hc
      cases hc
    | true =>
      obtain ⟨b, h1, h2⟩ := ih (i + 1) (by omega)
      refine ⟨b, by simp [allLoop, rdArr_ok hi, hc, h1], ?_⟩
      rw [h2]
      constructor
      · intro hall j x a1 a2 a3
        by_cases c : j = i
        · subst c
          rw [hx] at a3; cases a3; exact hc
        · exact hall j x (by omega) (by omega) a3
      · intro hall j x a1 a2 a3
        exact hall j x (by omega) (by omega) a3

theorem countLoop_ok (pred : α → Bool) (a : Array α) (k i c : Nat) (h : i + k ≤ a.size) :
    countLoop pred a k i c = .ok (c + ((a.toList.drop i).take k).countP pred) := by
  induction k generalizing i c with
  | zero => simp [countLoop]
  | succ k ih =>
    have hi : i < a.size := by omega
    have hd : a.toList.drop i = a[i] :: a.toList.drop (i + 1) := by
      rw [List.drop_eq_getElem_cons (by simpa using hi)]
      simp
    rw [hd, List.take_succ_cons, List.countP_cons]
    simp only [countLoop, rdArr_ok hi, Out.bind_ok, ih (i + 1) _ (by omega)]
    cases pred a[i] <;> simp <;> omega

theorem findIfLoop_ok (pred : α → Bool) (a : Array α) (k i : Nat) (f : Option Nat)
    (h : i + k ≤ a.size) :
    (∃ p x, findIfLoop pred a k i f = .ok (some p) ∧ i ≤ p ∧ p < i + k ∧ a[p]? = some x ∧
        pred x = true ∧ ∀ j y, p < j → j < i + k → a[j]? = some y → pred y = false) ∨
    (findIfLoop pred a k i f = .ok f ∧
        ∀ j y, i ≤ j → j < i + k → a[j]? = some y → pred y = false) := by
  induction k generalizing i f with
  | zero =>
    right
    exact ⟨rfl, fun j y h1 h2 => by omega⟩
  | succ k ih =>
    have hi : i < a.size := by omega
    have hx : a[i]? = some a[i] := by simp [hi]
    have estep : findIfLoop pred a (k + 1) i f =
        findIfLoop pred a k (i + 1) (if pred a[i] then some i else f) := by
      simp [findIfLoop, rdArr_ok hi]
    rw [estep]
    rcases ih (i + 1) (if pred a[i] then some i else f) (by omega) with
      ⟨p, x, h1, h2, h3, h4, h5, h6⟩ | ⟨h1, h2⟩
    · left
      exact ⟨p, x, h1, by omega, by omega, h4, h5, fun j y a1 a2 => h6 j y a1 (by omega)⟩
    · rw [h1]
      cases hc : pred a[i] with
      | true =>
        left
        exact ⟨i, a[i], by simp, by omega, by omega, hx, hc,
          fun j y a1 a2 => h2 j y (by omega) (by omega)⟩
      | false =>
        right
        refine ⟨by simp, ?_⟩
        intro j y a1 a2 a3
        by_cases c : j = i
        · subst c; rw [hx] at a3; cases a3; exact hc
        · exact h2 j y (by omega) (by omega) a3

theorem replaceIfLoop_ok (pred : α → Bool) (v : α) (k i : Nat) (a : Array α)
    (h : i + k ≤ a.size) :
    (∃ p x, replaceIfLoop pred v k i a = wrArr a p v ∧ i ≤ p ∧ p < i + k ∧ a[p]? = some x ∧
        pred x = true ∧ ∀ j y, i ≤ j → j < p → a[j]? = some y → pred y = false) ∨
    (replaceIfLoop pred v k i a = .ok a ∧
        ∀ j y, i ≤ j → j < i + k → a[j]? = some y → pred y = false) := by
  induction k generalizing i with
  | zero =>
    right
    exact ⟨rfl, fun j y h1 h2 => by omega⟩
  | succ k ih =>
    have hi : i < a.size := by omega
    have hx : a[i]? = some a[i] := by simp [hi]
    cases hc : pred a[i] with
    | true =>
      left
      exact ⟨i, a[i], by simp [replaceIfLoop, rdArr_ok hi, hc], by omega, by omega, hx, hc,
        fun j y h1 h2 => by omega⟩
    | false =>
      have estep : replaceIfLoop pred v (k + 1) i a = replaceIfLoop pred v k (i + 1) a := by
        simp [replaceIfLoop, rdArr_ok hi, hc]
      have key0 : ∀ j y, j = i → a[j]? = some y → pred y = false := by
        intro j y hj hy
        subst hj
        rw [hx] at hy; cases hy; exact hc
      rcases ih (i + 1) (by omega) with ⟨p, x, h1, h2, h3, h4, h5, h6⟩ | ⟨h1, h2⟩
      · left
        refine ⟨p, x, by rw [estep, h1], by omega, by omega, h4, h5, ?_⟩
        intro j y hj1 hj2 hy
        by_cases c : j = i
        · exact key0 j y c hy
        · exact h6 j y (by omega) hj2 hy
      · right
        refine ⟨by rw [estep, h1], ?_⟩
        intro j y hj1 hj2 hy
        by_cases c : j = i
        · exact key0 j y c hy
        · exact h2 j y (by omega) (by omega) hy

theorem visit_length {σ : Type} (fn : σ → α → σ × α) (st : σ) (l : List α) :
    (visit fn st l).2.length = l.length := by
  induction l generalizing st with
  | nil => rfl
  | cons x xs ih => simp [visit, ih]

theorem forEachLoop_ok {σ : Type} (fn : σ → α → σ × α) (k i : Nat) (st : σ) (a : Array α)
    (h : i + k ≤ a.size) :
    ∃ a', forEachLoop fn k i st a = .ok ((visit fn st ((a.toList.drop i).take k)).1, a') ∧
      a'.toList = a.toList.take i ++ (visit fn st ((a.toList.drop i).take k)).2 ++
        a.toList.drop (i + k) := by
  induction k generalizing i st a with
  | zero =>
    refine ⟨a, by simp [forEachLoop, visit], by simp [visit]⟩
  | succ k ih =>
    have hi : i < a.size := by omega
    have hd : a.toList.drop i = a[i] :: a.toList.drop (i + 1) := by
      rw [List.drop_eq_getElem_cons (by simpa using hi)]
      simp
    obtain ⟨a', h1, h2⟩ := ih (i + 1) (fn st a[i]).1 (a.set i (fn st a[i]).2) (by simp; omega)
    have e1 : (a.set i (fn st a[i]).2).toList.drop (i + 1) = a.toList.drop (i + 1) := by
      rw [Array.toList_set, List.drop_set_of_lt (by omega)]
    have e2 : (a.set i (fn st a[i]).2).toList.take (i + 1) =
        a.toList.take i ++ [(fn st a[i]).2] := by
      rw [Array.toList_set, List.take_succ_eq_append_getElem (by simpa using hi)]
      simp only [List.take_set, List.getElem_set_self, List.append_cancel_right_eq]
      exact List.set_eq_of_length_le (by simp; omega)
    have e3 : (a.set i (fn st a[i]).2).toList.drop (i + 1 + k) = a.toList.drop (i + 1 + k) := by
      rw [Array.toList_set, List.drop_set_of_lt (by omega)]
    rw [e1] at h1 h2
    rw [e2, e3] at h2
    refine ⟨a', ?_, ?_⟩
    · simp only [forEachLoop, rdArr_ok hi, Out.bind_ok, wrArr_ok hi, h1, hd, List.take_succ_cons,
        visit]
    · rw [h2, hd, List.take_succ_cons]
      rw [show i + (k + 1) = i + 1 + k by omega]
      simp only [visit, List.append_assoc, List.cons_append, List.nil_append]

theorem bsLoop_ok (lt eqv : α → α → Bool) (a : Array α) (key : α) (f l : Nat)
    (hl : l < a.size) (fuel : Nat) (left right : Int)
    (hfl : (f : Int) ≤ left) (hr : right ≤ l) (hfuel : right + 1 - left ≤ fuel) :
    (∃ p x, bsLoop lt eqv a key fuel left right = .ok (some ((p : Nat) : Int)) ∧ f ≤ p ∧ p ≤ l ∧
      a[p]? = some x ∧ eqv x key = true) ∨
    (bsLoop lt eqv a key fuel left right = .ok none ∧
      (Partitioned lt eqv a key f l →
        ∀ (j : Nat) y, left ≤ (j : Int) → (j : Int) ≤ right → a[j]? = some y → eqv y key = false)) := by
  induction fuel generalizing left right with
  | zero =>
    right
    have : ¬ left ≤ right := by omega
    exact ⟨by simp [bsLoop, this], fun _ j y h1 h2 => by omega⟩
  | succ fuel ih =>
    by_cases hle : left ≤ right
    · have hmid1 : left ≤ left + (right - left) / 2 := by omega
      have hmid2 : left + (right - left) / 2 ≤ right := by omega
      generalize hm : left + (right - left) / 2 = mid at hmid1 hmid2
      obtain ⟨m, rfl⟩ : ∃ m : Nat, mid = m := ⟨mid.toNat, by omega⟩
      have hms : m < a.size := by omega
      have hx : a[m]? = some a[m] := by simp [hms]
      have hrd : rdInt a m = .ok a[m] := by simp [rdInt, rdArr_ok hms]
      cases hc : eqv a[m] key with
      | true =>
        left
        exact ⟨m, a[m], by simp [bsLoop, hle, hm, hrd, hc], by omega, by omega, hx, hc⟩
      | false =>
        cases hlt : lt a[m] key with
        | true =>
          have estep : bsLoop lt eqv a key (fuel + 1) left right =
              bsLoop lt eqv a key fuel (m + 1) right := by
            simp [bsLoop, hle, hm, hrd, hc, hlt]
          rw [estep]
          rcases ih (m + 1) right (by omega) hr (by omega) with h | ⟨h1, h2⟩
          · exact Or.inl h
          · right
            refine ⟨h1, fun hP j y hj1 hj2 hy => ?_⟩
            by_cases c : (j : Int) ≤ m
            · exact (hP j m y a[m] (by omega) (by omega) (by omega) hy hx).1 hlt hc
            · exact h2 hP j y (by omega) hj2 hy
        | false =>
          have estep : bsLoop lt eqv a key (fuel + 1) left right =
              bsLoop lt eqv a key fuel left (m - 1) := by
            simp [bsLoop, hle, hm, hrd, hc, hlt]
          rw [estep]
          rcases ih left (m - 1) hfl (by omega) (by omega) with h | ⟨h1, h2⟩
          · exact Or.inl h
          · right
            refine ⟨h1, fun hP j y hj1 hj2 hy => ?_⟩
            by_cases c : (j : Int) < m
            · exact h2 hP j y hj1 (by omega) hy
            · exact (hP m j a[m] y (by omega) (by omega) (by omega) hx hy).2 hlt hc
    · right
      exact ⟨by simp [bsLoop, hle], fun _ j y h1 h2 => by omega⟩

end Verif.Algorithm
