import Verif.Tdl.Spec

namespace Verif.Tdl

variable {α : Type}

/-- Representation invariant relating a concrete delay line to a history. -/
structure Inv (area : Array α) (n : Nat) (h : Nat → α) (t : Tdl α) : Prop where
  npos : 0 < n
  neq : t.n = n
  size : t.mem.size = area.size
  room : n ≤ area.size
  rdlt : t.rd < n
  wreq : t.wr = if t.rd + 1 ≥ n then 0 else t.rd + 1
  hist : ∀ i, i < n → rdArr t.mem (if i ≤ t.rd then t.rd - i else t.rd + n - i) = .ok (h i)
  frame : ∀ j, n ≤ j → rdArr t.mem j = rdArr area j

theorem inv_insert {area : Array α} {n : Nat} {h : Nat → α} {t : Tdl α}
    (hi : Inv area n h t) (x : α) :
    ∃ t', insertSample t x = .ok t' ∧ t'.undef = t.undef ∧
      Inv area n (Spec.step h (.insert x)) t' := by
  obtain ⟨npos, neq, size, room, rdlt, wreq, hist, frame⟩ := hi
  have hwr : t.wr < t.mem.size := by rw [wreq]; split <;> omega
  refine ⟨{ t with mem := t.mem.set t.wr x,
                   rd := if t.rd + 1 ≥ t.n then 0 else t.rd + 1,
                   wr := if t.wr + 1 ≥ t.n then 0 else t.wr + 1 }, ?_, rfl, ?_⟩
  · simp [insertSample, insertNewest, removeOldest, wrArr_ok hwr]
  · refine ⟨npos, neq, by simpa using size, room, ?_, ?_, ?_, ?_⟩
    · simp only [neq]; split <;> omega
    · simp only [neq, wreq]
    · intro i hin
      simp only [rdArr_set hwr, neq]
      rw [← wreq]
      cases i with
      | zero => simp [Spec.step]
      | succ i =>
        have hne : t.wr ≠ (if i + 1 ≤ t.wr then t.wr - (i+1) else t.wr + n - (i+1)) := by
          have : t.wr < n := by rw [wreq]; split <;> omega
          split <;> omega
        rw [if_neg hne]
        have := hist i (by omega)
        simp only [Spec.step]
        rw [← this]
        congr 1
        rw [wreq]
        split <;> split <;> split <;> omega
    · intro j hj
      have hw : t.wr ≠ j := by rw [wreq]; split <;> omega
      simp only [rdArr_set hwr]
      rw [if_neg hw]
      exact frame j hj

theorem flushLoop_ok {area : Array α} (v : α) (k : Nat) : ∀ (t : Tdl α), t.mem.size = area.size →
    t.n ≤ area.size → t.wr + k = t.n → (0 < k) →
    (∀ j, j < t.wr → rdArr t.mem j = .ok v) →
    (∀ j, t.n ≤ j → rdArr t.mem j = rdArr area j) →
    ∃ t', flushLoop v k t = .ok t' ∧ t'.n = t.n ∧ t'.rd = t.rd ∧ t'.wr = 0 ∧
      t'.undef = t.undef ∧
      t'.mem.size = area.size ∧ (∀ j, j < t.n → rdArr t'.mem j = .ok v) ∧
      (∀ j, t.n ≤ j → rdArr t'.mem j = rdArr area j) := by
  induction k with
  | zero => intros; omega
  | succ k ih =>
    intro t hs hn hwk _ hpre hfr
    have hwr : t.wr < t.mem.size := by omega
    simp only [flushLoop, insertNewest, wrArr_ok hwr, Out.bind_ok, Out.pure_eq]
    by_cases hk : k = 0
    · subst hk
      refine ⟨_, rfl, rfl, rfl, ?_, rfl, by simpa using hs, ?_, ?_⟩
      · show (if t.wr + 1 ≥ t.n then 0 else t.wr + 1) = 0
        rw [if_pos (by omega)]
      · intro j hj
        simp only [rdArr_set hwr]
        split
        · rfl
        · exact hpre j (by omega)
      · intro j hj
        simp only [rdArr_set hwr]
        rw [if_neg (by omega)]
        exact hfr j hj
    · have := ih { t with mem := t.mem.set t.wr v,
                          wr := if t.wr + 1 ≥ t.n then 0 else t.wr + 1 }
        (by simpa using hs) hn (by
          show (if t.wr + 1 ≥ t.n then 0 else t.wr + 1) + k = t.n
          rw [if_neg (by omega)]; omega)
        (by omega)
        (by
          intro j hj
          have hj' : j < if t.wr + 1 ≥ t.n then 0 else t.wr + 1 := hj
          rw [if_neg (by omega)] at hj'
          simp only [rdArr_set hwr]
          split
          · rfl
          · exact hpre j (by omega))
        (by
          intro j hj
          have hj' : t.n ≤ j := hj
          simp only [rdArr_set hwr]
          rw [if_neg (by omega)]
          exact hfr j hj)
      exact this

theorem inv_flush {area : Array α} (t : Tdl α) (v : α) (hn : 0 < t.n) (room : t.n ≤ area.size)
    (hs : t.mem.size = area.size) (hfr : ∀ j, t.n ≤ j → rdArr t.mem j = rdArr area j)
    (h : Nat → α) :
    ∃ t', flush t v = .ok t' ∧ t'.undef = t.undef ∧
      Inv area t.n (Spec.step h (.flush v)) t' := by
  obtain ⟨t', h1, h2, h3, h4, h5, h6, h7, h8⟩ :=
    flushLoop_ok (area := area) v t.n { t with wr := 0, rd := t.n - 1 } hs room
      (by simp) hn (by intro j hj; simp at hj) hfr
  refine ⟨t', ?_, h5, ?_⟩
  · simp only [flush]; rw [if_neg (by omega)]; exact h1
  · refine ⟨hn, h2, h6, room, ?_, ?_, ?_, h8⟩
    · rw [h3]; show t.n - 1 < t.n; omega
    · rw [h3, h4]; show 0 = if t.n - 1 + 1 ≥ t.n then 0 else _
      rw [if_pos (by omega)]
    · intro i hi
      have : t'.rd = t.n - 1 := h3
      rw [if_pos (by omega)]
      exact h7 _ (by show _ < t.n; omega)

theorem inv_step {area : Array α} {n : Nat} {h : Nat → α} {t : Tdl α}
    (hi : Inv area n h t) (op : Op α) :
    ∃ t', step t op = .ok t' ∧ t'.undef = t.undef ∧ Inv area n (Spec.step h op) t' := by
  cases op with
  | insert x => exact inv_insert hi x
  | flush v =>
    have hn := hi.neq
    subst hn
    exact inv_flush t v hi.npos hi.room hi.size hi.frame h

theorem inv_run {area : Array α} {n : Nat} (ops : List (Op α)) : ∀ {h : Nat → α} {t : Tdl α},
    Inv area n h t → ∃ t', run t ops = .ok t' ∧ t'.undef = t.undef ∧
      Inv area n (Spec.run h ops) t' := by
  induction ops with
  | nil => intro h t hi; exact ⟨t, rfl, rfl, hi⟩
  | cons op ops ih =>
    intro h t hi
    obtain ⟨t1, h1, hu1, hi1⟩ := inv_step hi op
    obtain ⟨t2, h2, hu2, hi2⟩ := ih hi1
    exact ⟨t2, by simp [run, h1, h2], by rw [hu2, hu1], hi2⟩

theorem inv_setup (u : α) (area : Array α) (n : Nat) (v : α) (hn : 0 < n) (room : n ≤ area.size) :
    ∃ t, setup u area n v = .ok t ∧ t.undef = u ∧ Inv area n (fun _ => v) t := by
  have := inv_flush (area := area) { mem := area, n := n, rd := 0, wr := 0, undef := u } v hn room
    rfl (fun _ _ => rfl) (fun _ => v)
  exact this

theorem recent_of_inv {area : Array α} {n : Nat} {h : Nat → α} {t : Tdl α}
    (hi : Inv area n h t) : getRecent t = .ok (h 0) := by
  have := hi.hist 0 hi.npos
  simpa [getRecent] using this

theorem oldest_of_inv {area : Array α} {n : Nat} {h : Nat → α} {t : Tdl α}
    (hi : Inv area n h t) : getOldest t = .ok (h (n - 1)) := by
  have hp := hi.npos
  have hr := hi.rdlt
  have := hi.hist (n - 1) (by omega)
  unfold getOldest
  rw [hi.neq]
  by_cases hc : t.rd + 1 ≥ n
  · rw [if_pos (by omega)] at this
    rw [if_pos hc, ← this]; congr 1; omega
  · rw [if_neg (by omega)] at this
    rw [if_neg hc, ← this]; congr 1; omega

theorem atIndex_of_inv {area : Array α} {n : Nat} {h : Nat → α} {t : Tdl α}
    (hi : Inv area n h t) (hn2 : 2 ≤ n) {i : Nat} (hin : i < n) : getAtIndex t i = .ok (h i) := by
  have hr := hi.rdlt
  have := hi.hist i hin
  unfold getAtIndex
  rw [hi.neq]
  have hw := hi.wreq
  rw [← this]
  by_cases hc : t.rd + 1 ≥ n
  · rw [if_pos hc] at hw
    rw [if_neg (by omega), if_pos (by omega), if_pos (by omega)]
  · rw [if_neg hc] at hw
    by_cases hd : i ≤ t.rd
    · rw [if_neg (by omega), if_pos hd, if_pos hd]
    · rw [if_pos (by omega), if_pos (by omega), if_neg hd]
      congr 1; omega

theorem subscript_eq (t : Tdl α) (k : Int) : subscript t k =
    if 0 ≤ k ∧ k.toNat < t.n then getAtIndex t k.toNat
    else if k = -1 then getOldest t else .ok t.undef := rfl

end Verif.Tdl
