import Verif.Algorithm.Spec

/-! Helper lemmas for `sort`: range permutations, the partition loop and the interval
stack invariant. -/

namespace Verif.Algorithm

variable {α : Type}

theorem swapAt_ok {a : Array α} {i j : Nat} (hi : i < a.size) (hj : j < a.size) :
    ∃ a', swapAt a i j = .ok a' ∧ a'.size = a.size ∧ a'.Perm a ∧
      ∀ k, a'[k]? = if k = j then a[i]? else if k = i then a[j]? else a[k]? := by
  refine ⟨a.swap i j, ?_, by simp, Array.swap_perm hi hj, ?_⟩
  · simp only [swapAt, rdArr_ok hi, rdArr_ok hj, Out.bind_ok, wrArr_ok hi]
    rw [wrArr_ok (by simpa using hj)]
    rfl
  · intro k
    by_cases h1 : k = j
    · subst h1; by_cases h2 : i = k
      · subst h2; simp [Array.getElem?_swap]
      · simp [Array.getElem?_swap, hi, h2]
    · by_cases h2 : k = i
      · subst h2
        have h1' : ¬ j = k := fun h => h1 h.symm
        simp [Array.getElem?_swap, hj, h1, h1']
      · have h1' : ¬ j = k := fun h => h1 h.symm
        have h2' : ¬ i = k := fun h => h2 h.symm
        simp [Array.getElem?_swap, h1, h2, h1', h2']

/-- `a'` arises from `a` by permuting positions `s..e` only. -/
structure RP (a a' : Array α) (s e : Nat) : Prop where
  size : a'.size = a.size
  perm : a'.Perm a
  out : ∀ k, (k < s ∨ e < k) → a'[k]? = a[k]?
  inn : ∀ k, s ≤ k → k ≤ e → ∃ k', s ≤ k' ∧ k' ≤ e ∧ a'[k]? = a[k']?

theorem RP.refl (a : Array α) (s e : Nat) : RP a a s e :=
  ⟨rfl, Array.Perm.refl a, fun _ _ => rfl, fun k h1 h2 => ⟨k, h1, h2, rfl⟩⟩

theorem RP.trans {a b c : Array α} {s e : Nat} (h1 : RP a b s e) (h2 : RP b c s e) :
    RP a c s e := by
  refine ⟨h2.size.trans h1.size, h2.perm.trans h1.perm,
    fun k hk => (h2.out k hk).trans (h1.out k hk), ?_⟩
  intro k hs he
  obtain ⟨k1, a1, a2, a3⟩ := h2.inn k hs he
  obtain ⟨k2, b1, b2, b3⟩ := h1.inn k1 a1 a2
  exact ⟨k2, b1, b2, a3.trans b3⟩

theorem RP.mono {a b : Array α} {s e s' e' : Nat} (h : RP a b s e) (hs : s' ≤ s) (he : e ≤ e') :
    RP a b s' e' := by
  refine ⟨h.size, h.perm, fun k hk => h.out k (by omega), ?_⟩
  intro k h1 h2
  by_cases hk : s ≤ k ∧ k ≤ e
  · obtain ⟨k', a1, a2, a3⟩ := h.inn k hk.1 hk.2
    exact ⟨k', by omega, by omega, a3⟩
  · exact ⟨k, h1, h2, h.out k (by omega)⟩

theorem swapAt_rp {a : Array α} {i j s e : Nat} (hi : i < a.size) (hj : j < a.size)
    (hsi : s ≤ i) (hie : i ≤ e) (hsj : s ≤ j) (hje : j ≤ e) :
    ∃ a', swapAt a i j = .ok a' ∧ RP a a' s e ∧
      ∀ k, a'[k]? = if k = j then a[i]? else if k = i then a[j]? else a[k]? := by
  obtain ⟨a', h1, h2, h3, h4⟩ := swapAt_ok hi hj
  refine ⟨a', h1, ⟨h2, h3, ?_, ?_⟩, h4⟩
  · intro k hk
    rw [h4, if_neg (by omega), if_neg (by omega)]
  · intro k hs he
    rw [h4]
    by_cases c1 : k = j
    · exact ⟨i, hsi, hie, by rw [if_pos c1]⟩
    · by_cases c2 : k = i
      · exact ⟨j, hsj, hje, by rw [if_neg c1, if_pos c2]⟩
      · exact ⟨k, hs, he, by rw [if_neg c1, if_neg c2]⟩

theorem sortTest_ok (lt : α → α → Bool) (comp : Option (α → α → Bool)) {a : Array α} (pv : α)
    {i q : Nat} (hi : i < a.size) (hq : q < a.size) :
    ∃ b, sortTest lt comp a pv i q = .ok b ∧ (comp = none → b = lt a[i] pv) := by
  cases comp with
  | none => exact ⟨lt a[i] pv, by simp [sortTest, rdArr_ok hi], fun _ => rfl⟩
  | some c => exact ⟨c a[i] a[q], by simp [sortTest, rdArr_ok hi, rdArr_ok hq], by simp⟩

/-- The partition loop, for any comparator: it permutes `s..e-1` only and the final pivot
index lies in `s..e`. With the default order the elements before the pivot index are smaller
than the pivot, those after are not. -/
theorem partLoop_ok (lt : α → α → Bool) (comp : Option (α → α → Bool)) (pv : α) (s e : Nat)
    (k i q : Nat) (a : Array α) (hk : i + k = e) (hsq : s ≤ q) (hqi : q ≤ i) (he : e < a.size)
    (hlo : comp = none → ∀ p x, s ≤ p → p < q → a[p]? = some x → lt x pv = true)
    (hhi : comp = none → ∀ p x, q ≤ p → p < i → a[p]? = some x → lt x pv = false) :
    ∃ a' q', partLoop lt comp pv k i q a = .ok (a', q') ∧ RP a a' s e ∧ a'[e]? = a[e]? ∧
      s ≤ q' ∧ q' ≤ e ∧
      (comp = none → ∀ p x, s ≤ p → p < q' → a'[p]? = some x → lt x pv = true) ∧
      (comp = none → ∀ p x, q' ≤ p → p < e → a'[p]? = some x → lt x pv = false) := by
  induction k generalizing i q a with
  | zero =>
    have : i = e := by omega
    subst this
    exact ⟨a, q, rfl, RP.refl a s i, rfl, hsq, by omega, hlo, hhi⟩
  | succ k ih =>
    have hi : i < a.size := by omega
    have hq : q < a.size := by omega
    obtain ⟨b, hb, hbn⟩ := sortTest_ok lt comp (a := a) pv hi hq
    cases b with
    | true =>
      obtain ⟨a1, h1, h2, h3⟩ := swapAt_rp (s := s) (e := e) hi hq (by omega) (by omega) hsq
        (by omega)
      obtain ⟨a2, q2, g1, g2, g3, g4, g5, g6, g7⟩ := ih (i + 1) (q + 1) a1 (by omega) (by omega)
        (by omega) (by rw [h2.size]; exact he)
        (fun hc p x hp1 hp2 hx => by
          rw [h3] at hx
          by_cases hpq : p = q
          · rw [if_pos hpq] at hx
            have : a[i]? = some a[i] := by simp [hi]
            rw [this] at hx
            have := hbn hc
            cases hx; exact this.symm
          · rw [if_neg hpq, if_neg (by omega)] at hx
            exact hlo hc p x hp1 (by omega) hx)
        (fun hc p x hp1 hp2 hx => by
          rw [h3, if_neg (by omega)] at hx
          by_cases hpi : p = i
          · rw [if_pos hpi] at hx
            exact hhi hc q x (by omega) (by omega) hx
          · rw [if_neg hpi] at hx
            exact hhi hc p x (by omega) (by omega) hx)
      refine ⟨a2, q2, ?_, h2.trans g2, ?_, g4, g5, g6, g7⟩
      · simp [partLoop, hb, h1, g1]
      · rw [g3, h3, if_neg (by omega), if_neg (by omega)]
    | false =>
      obtain ⟨a2, q2, g1, g2, g3, g4, g5, g6, g7⟩ := ih (i + 1) q a (by omega) (by omega)
        (by omega) he hlo
        (fun hc p x hp1 hp2 hx => by
          by_cases hpi : p = i
          · subst hpi
            have : a[p]? = some a[p] := by simp [hi]
            rw [this] at hx
            cases hx
            exact (hbn hc).symm
          · exact hhi hc p x hp1 (by omega) hx)
      refine ⟨a2, q2, ?_, g2, g3, g4, g5, g6, g7⟩
      simp [partLoop, hb, g1]

/-- Total number of positions in the stacked intervals. -/
def mu (st : List (Nat × Nat)) : Nat := (st.map (fun p => p.2 + 1 - p.1)).sum

theorem mu_cons (p : Nat × Nat) (st : List (Nat × Nat)) :
    mu (p :: st) = (p.2 + 1 - p.1) + mu st := by simp [mu]

theorem length_le_mu {st : List (Nat × Nat)} (h : ∀ p ∈ st, p.1 ≤ p.2) : st.length ≤ mu st := by
  induction st with
  | nil => simp
  | cons p st ih =>
    rw [mu_cons]
    have := h p (by simp)
    have := ih (fun q hq => h q (by simp [hq]))
    simp only [List.length_cons]
    omega

/-- Two intervals are disjoint. -/
def Disj (p q : Nat × Nat) : Prop := p.2 < q.1 ∨ q.2 < p.1

/-- Main invariant of `sort`: every pair of positions not inside one stacked interval is
already in order. -/
def Ordered (lt : α → α → Bool) (a : Array α) (st : List (Nat × Nat)) (f l : Nat) : Prop :=
  ∀ i j x y, f ≤ i → i < j → j ≤ l → a[i]? = some x → a[j]? = some y →
    (∃ p ∈ st, p.1 ≤ i ∧ j ≤ p.2) ∨ lt y x = false

theorem some_of_lt {a : Array α} {i : Nat} (h : i < a.size) : ∃ x, a[i]? = some x :=
  ⟨a[i], by simp [h]⟩

/-- One iteration of the `while` loop. -/
theorem sortLoop_step (lt : α → α → Bool) (comp : Option (α → α → Bool)) (fuel s e : Nat)
    (st : List (Nat × Nat)) (a : Array α) (hse : s ≤ e) (he : e < a.size) :
    ∃ a' q, RP a a' s e ∧ s ≤ q ∧ q ≤ e ∧
      (∀ cap, sortLoop lt comp cap (fuel + 1) ((s, e) :: st) a =
        sortLoop lt comp cap fuel
          (let st := if q > s + 1 then push cap st (s, q - 1) else st
           if q + 1 < e then push cap st (q + 1, e) else st) a') ∧
      (comp = none → (∀ x y, lt x y = true → lt y x = false) →
        ∃ v, a'[q]? = some v ∧ (∀ p x, s ≤ p → p < q → a'[p]? = some x → lt v x = false) ∧
          (∀ p x, q < p → p ≤ e → a'[p]? = some x → lt x v = false)) := by
  obtain ⟨pv, hpv⟩ := some_of_lt he
  have hrd : rdArr a e = .ok pv := rdArr_eq_ok.mpr hpv
  obtain ⟨a1, q, h1, h2, h3, h4, h5, h6, h7⟩ := partLoop_ok lt comp pv s e (e - s) s s a (by omega)
    (by omega) (by omega) he (fun _ p x hp1 hp2 _ => by omega) (fun _ p x hp1 hp2 _ => by omega)
  obtain ⟨a2, g1, g2, g3⟩ := swapAt_rp (a := a1) (i := q) (j := e) (s := s) (e := e)
    (by rw [h2.size]; omega) (by rw [h2.size]; omega) h4 h5 hse (by omega)
  refine ⟨a2, q, h2.trans g2, h4, h5, ?_, ?_⟩
  · intro cap
    simp [sortLoop, hrd, h1, g1]
  · intro hc hasym
    have hq : a2[q]? = some pv := by
      rw [g3]
      by_cases hqe : q = e
      · rw [if_pos hqe, hqe, h3, hpv]
      · rw [if_neg hqe, if_pos rfl, h3, hpv]
    refine ⟨pv, hq, ?_, ?_⟩
    · intro p x hp1 hp2 hx
      rw [g3, if_neg (by omega), if_neg (by omega)] at hx
      exact hasym _ _ (h6 hc p x hp1 hp2 hx)
    · intro p x hp1 hp2 hx
      rw [g3] at hx
      by_cases hpe : p = e
      · rw [if_pos hpe] at hx
        exact h7 hc q x (by omega) (by omega) hx
      · rw [if_neg hpe, if_neg (by omega)] at hx
        exact h7 hc p x (by omega) (by omega) hx

/-- The `while` loop terminates without undefined behaviour, never drops an interval
(the invariant `mu st ≤ cap` leaves room for every push), permutes `f..l` only, and with the
default order ends with `f..l` in order. -/
theorem sortLoop_ok (lt : α → α → Bool) (comp : Option (α → α → Bool)) (cap f l : Nat)
    (fuel : Nat) (st : List (Nat × Nat)) (a : Array α)
    (hl : l < a.size) (hfuel : mu st ≤ fuel) (hcap : mu st ≤ cap)
    (hin : ∀ p ∈ st, f ≤ p.1 ∧ p.1 ≤ p.2 ∧ p.2 ≤ l)
    (hdis : st.Pairwise Disj)
    (hord : comp = none → StrictWeak lt → Ordered lt a st f l) :
    ∃ a', sortLoop lt comp cap fuel st a = .ok a' ∧ RP a a' f l ∧
      (comp = none → StrictWeak lt → Ordered lt a' [] f l) := by
  induction fuel generalizing st a with
  | zero =>
    cases st with
    | nil => exact ⟨a, rfl, RP.refl a f l, hord⟩
    | cons p st =>
      have := hin p (by simp)
      rw [mu_cons] at hfuel
      omega
  | succ fuel ih =>
    cases st with
    | nil => exact ⟨a, rfl, RP.refl a f l, hord⟩
    | cons p st =>
      obtain ⟨s, e⟩ := p
      have hp := hin (s, e) (by simp)
      simp only at hp
      rw [mu_cons] at hfuel hcap
      simp only at hfuel hcap
      obtain ⟨a1, q, h1, h2, h3, h4, h5⟩ := sortLoop_step lt comp fuel s e st a hp.2.1 (by omega)
      have hdis' := List.pairwise_cons.mp hdis
      have hin' : ∀ p ∈ st, f ≤ p.1 ∧ p.1 ≤ p.2 ∧ p.2 ≤ l := fun p hp => hin p (by simp [hp])
      have hlen : st.length ≤ mu st := length_le_mu (fun p hp => (hin' p hp).2.1)
      -- the new stack, with every push effective
      let L : List (Nat × Nat) := if q > s + 1 then [(s, q - 1)] else []
      let R : List (Nat × Nat) := if q + 1 < e then [(q + 1, e)] else []
      have hstack : (let st := if q > s + 1 then push cap st (s, q - 1) else st
           if q + 1 < e then push cap st (q + 1, e) else st) = R ++ (L ++ st) := by
        simp only [L, R, push]
        by_cases c1 : q > s + 1
        · have : st.length < cap := by omega
          by_cases c2 : q + 1 < e
          · have h2' : st.length + 1 < cap := by omega
            simp [c1, c2, this, h2']
          · simp [c1, c2, this]
        · by_cases c2 : q + 1 < e
          · have : st.length < cap := by omega
            simp [c1, c2, this]
          · simp [c1, c2]
      have hLR : ∀ p ∈ R ++ L, s ≤ p.1 ∧ p.1 ≤ p.2 ∧ p.2 ≤ e := by
        intro p hpm
        simp only [L, R, List.mem_append] at hpm
        rcases hpm with hpm | hpm
        · split at hpm
          · simp only [List.mem_singleton] at hpm; subst hpm; simp only; omega
          · simp at hpm
        · split at hpm
          · simp only [List.mem_singleton] at hpm; subst hpm; simp only; omega
          · simp at hpm
      have hmuL : mu (R ++ (L ++ st)) + 1 ≤ (e + 1 - s) + mu st := by
        simp only [L, R]
        by_cases c1 : q > s + 1
        · by_cases c2 : q + 1 < e
          · simp only [c1, c2, if_true, List.cons_append, List.nil_append, mu_cons]; omega
          · simp only [c1, c2, if_true, if_false, List.cons_append, List.nil_append, mu_cons]; omega
        · by_cases c2 : q + 1 < e
          · simp only [c1, c2, if_true, if_false, List.cons_append, List.nil_append, mu_cons]; omega
          · simp only [c1, c2, if_false, List.nil_append]; omega
      have hmem : ∀ p ∈ R ++ (L ++ st), p ∈ R ++ L ∨ p ∈ st := by
        intro p hpm
        simp only [List.mem_append] at hpm ⊢
        rcases hpm with h | h | h
        · exact Or.inl (Or.inl h)
        · exact Or.inl (Or.inr h)
        · exact Or.inr h
      have hdisnew : (R ++ (L ++ st)).Pairwise Disj := by
        rw [← List.append_assoc, List.pairwise_append]
        refine ⟨?_, hdis'.2, ?_⟩
        · simp only [L, R]
          by_cases c1 : q > s + 1
          · by_cases c2 : q + 1 < e
            · simp only [c1, c2, if_true, List.cons_append, List.nil_append, List.pairwise_cons,
                List.mem_singleton]
              refine ⟨fun p hpm => ?_, ?_⟩
              · subst hpm; right; simp only; omega
              · simp
            · simp [c1, c2]
          · by_cases c2 : q + 1 < e <;> simp [c1, c2]
        · intro p hpm p' hpm'
          have b1 := hLR p hpm
          have b2 := hdis'.1 p' hpm'
          rcases b2 with b2 | b2
          · left; simp only at b2; omega
          · right; simp only at b2; omega
      obtain ⟨a2, g1, g2, g3⟩ := ih (R ++ (L ++ st)) a1 (by rw [h1.size]; exact hl) (by omega)
        (by omega)
        (fun p hpm => by
          rcases hmem p hpm with hm | hm
          · have := hLR p hm; omega
          · exact hin' p hm)
        hdisnew
        (fun hc hsw => by
          obtain ⟨v, hv, hvlo, hvhi⟩ := h5 hc hsw.asymm
          have hold := hord hc hsw
          intro i j x y hfi hij hjl hx hy
          -- elements of a1 inside s..e come from a inside s..e
          by_cases hi_in : s ≤ i ∧ i ≤ e
          · by_cases hj_in : j ≤ e
            · -- both inside
              rcases Nat.lt_trichotomy i q with hiq | hiq | hiq
              · rcases Nat.lt_trichotomy j q with hjq | hjq | hjq
                · left
                  refine ⟨(s, q - 1), ?_, by simp only; omega, by simp only; omega⟩
                  have c1 : q > s + 1 := by omega
                  simp [L, c1]
                · right
                  subst hjq
                  rw [hv] at hy; cases hy
                  exact hvlo i x hi_in.1 hiq hx
                · right
                  exact hsw.trans' x v y (hvlo i x hi_in.1 hiq hx) (hvhi j y hjq hj_in hy)
              · subst hiq
                right
                rw [hv] at hx; cases hx
                exact hvhi j y hij hj_in hy
              · left
                refine ⟨(q + 1, e), ?_, by simp only; omega, by simp only; omega⟩
                have c2 : q + 1 < e := by omega
                simp [R, c2]
            · -- i inside, j after
              right
              obtain ⟨i', b1, b2, b3⟩ := h1.inn i hi_in.1 hi_in.2
              rw [b3] at hx
              rw [h1.out j (by omega)] at hy
              rcases hold i' j x y (by omega) (by omega) hjl hx hy with ⟨p, hpm, hp1, hp2⟩ | h
              · simp only [List.mem_cons] at hpm
                rcases hpm with rfl | hpm
                · simp only at hp2; omega
                · have := hdis'.1 p hpm
                  rcases this with h | h
                  · simp only at h; omega
                  · simp only at h; omega
              · exact h
          · by_cases hj_in : s ≤ j ∧ j ≤ e
            · right
              obtain ⟨j', b1, b2, b3⟩ := h1.inn j hj_in.1 hj_in.2
              rw [b3] at hy
              rw [h1.out i (by omega)] at hx
              rcases hold i j' x y hfi (by omega) (by omega) hx hy with ⟨p, hpm, hp1, hp2⟩ | h
              · simp only [List.mem_cons] at hpm
                rcases hpm with rfl | hpm
                · simp only at hp1; omega
                · have := hdis'.1 p hpm
                  rcases this with h | h
                  · simp only at h; omega
                  · simp only at h; omega
              · exact h
            · rw [h1.out i (by omega)] at hx
              rw [h1.out j (by omega)] at hy
              rcases hold i j x y hfi hij hjl hx hy with ⟨p, hpm, hp1, hp2⟩ | h
              · simp only [List.mem_cons] at hpm
                rcases hpm with rfl | hpm
                · simp only at hp1 hp2; omega
                · left
                  exact ⟨p, by simp [hpm], hp1, hp2⟩
              · right; exact h)
      exact ⟨a2, by rw [h4 cap, hstack, g1], (h1.mono hp.1 hp.2.2).trans g2, g3⟩

/-- With room for all stacked positions the capacity is irrelevant. -/
theorem sortLoop_cap (lt : α → α → Bool) (comp : Option (α → α → Bool)) (cap cap' : Nat)
    (fuel : Nat) (st : List (Nat × Nat)) (a : Array α)
    (hcap : mu st ≤ cap) (hcap' : mu st ≤ cap')
    (hin : ∀ p ∈ st, p.1 ≤ p.2 ∧ p.2 < a.size) :
    sortLoop lt comp cap fuel st a = sortLoop lt comp cap' fuel st a := by
  induction fuel generalizing st a with
  | zero => cases st <;> rfl
  | succ fuel ih =>
    cases st with
    | nil => rfl
    | cons p st =>
      obtain ⟨s, e⟩ := p
      have hp := hin (s, e) (by simp)
      simp only at hp
      rw [mu_cons] at hcap hcap'
      simp only at hcap hcap'
      obtain ⟨a1, q, h1, h2, h3, h4, _⟩ := sortLoop_step lt comp fuel s e st a hp.1 hp.2
      rw [h4 cap, h4 cap']
      have hin' : ∀ p ∈ st, p.1 ≤ p.2 ∧ p.2 < a1.size := fun p hp => by
        rw [h1.size]; exact hin p (by simp [hp])
      have hlen : st.length ≤ mu st := length_le_mu (fun p hp => (hin' p hp).1)
      have hsz := h1.size
      simp only [push]
      by_cases c1 : q > s + 1
      · have b1 : st.length < cap := by omega
        have b2 : st.length < cap' := by omega
        by_cases c2 : q + 1 < e
        · have b3 : st.length + 1 < cap := by omega
          have b4 : st.length + 1 < cap' := by omega
          simp only [c1, c2, b1, b2, if_true, List.length_cons, b3, b4]
          apply ih
          · simp only [mu_cons]; omega
          · simp only [mu_cons]; omega
          · intro p hp'
            simp only [List.mem_cons] at hp'
            rcases hp' with rfl | rfl | hp'
            · simp only; omega
            · simp only; omega
            · exact hin' p hp'
        · simp only [c1, c2, b1, b2, if_true, if_false]
          apply ih
          · simp only [mu_cons]; omega
          · simp only [mu_cons]; omega
          · intro p hp'
            simp only [List.mem_cons] at hp'
            rcases hp' with rfl | hp'
            · simp only; omega
            · exact hin' p hp'
      · by_cases c2 : q + 1 < e
        · have b1 : st.length < cap := by omega
          have b2 : st.length < cap' := by omega
          simp only [c1, c2, b1, b2, if_true, if_false]
          apply ih
          · simp only [mu_cons]; omega
          · simp only [mu_cons]; omega
          · intro p hp'
            simp only [List.mem_cons] at hp'
            rcases hp' with rfl | hp'
            · simp only; omega
            · exact hin' p hp'
        · simp only [c1, c2, if_false]
          exact ih st a1 (by omega) (by omega) hin'

theorem sort_ok (lt : α → α → Bool) (comp : Option (α → α → Bool)) (a : Array α) (f l : Nat)
    (hfl : f ≤ l) (hl : l < a.size) :
    ∃ a', sort lt comp a f l = .ok a' ∧ RP a a' f l ∧
      (comp = none → StrictWeak lt → Ordered lt a' [] f l) := by
  unfold sort
  by_cases h1 : a.size > 1
  · rw [if_pos h1]
    have hpush : push a.size [] (f, l) = [(f, l)] := by
      have : 0 < a.size := by omega
      simp [push, this]
    rw [hpush]
    apply sortLoop_ok lt comp a.size f l (a.size + 1) [(f, l)] a hl
    · rw [mu_cons]; simp [mu]; omega
    · rw [mu_cons]; simp [mu]; omega
    · intro p hp
      simp only [List.mem_singleton] at hp
      subst hp
      exact ⟨Nat.le_refl f, hfl, Nat.le_refl l⟩
    · simp
    · intro _ _ i j x y hi hij hj _ _
      exact Or.inl ⟨(f, l), by simp, hi, hj⟩
  · rw [if_neg h1]
    refine ⟨a, rfl, RP.refl a f l, ?_⟩
    intro _ _ i j x y hi hij hj _ _
    omega

end Verif.Algorithm
