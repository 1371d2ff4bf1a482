import Verif.Tdl.Lemmas

/-!
# Properties C06, C07, C08 (tapped delay line)

`n` is the window size given to `setup`, `area` the user memory (at least `n`
elements), `ops` any sequence of inserts and flushes.
-/

namespace Verif.Tdl

variable {α : Type}

/-- **C06 (partial: window size at least 2 for indexed reads).** After set-up with
initial value `v` and any history of inserts and flushes, no call is undefined, index
`i < n` reads the value inserted `i` insertions ago, `getRecent` index 0 and `getOldest`
index `n-1`.
Full claim: the same for every `n ≥ 1`. It is false for `n = 1`
(`C06_index_window_one_false`). -/
theorem C06_history_partial (u : α) (area : Array α) (n : Nat) (v : α) (ops : List (Op α))
    (hn : 2 ≤ n) (hroom : n ≤ area.size) :
    ∃ t t', setup u area n v = .ok t ∧ run t ops = .ok t' ∧
      (∀ i, i < n → getAtIndex t' i = .ok (Spec.run (fun _ => v) ops i)) ∧
      getRecent t' = .ok (Spec.run (fun _ => v) ops 0) ∧
      getOldest t' = .ok (Spec.run (fun _ => v) ops (n - 1)) := by
  obtain ⟨t, h1, _, hi⟩ := inv_setup u area n v (by omega) hroom
  obtain ⟨t', h2, _, hi'⟩ := inv_run ops hi
  exact ⟨t, t', h1, h2, fun i hin => atIndex_of_inv hi' hn hin, recent_of_inv hi', oldest_of_inv hi'⟩

/-- The first two samples of a three-sample history, with one flush in between. -/
example : Spec.run (fun _ => 0) [.insert 7, .flush 5, .insert 1, .insert 2] 2 = 5 := rfl
example : (2 : Nat) ≤ 3 ∧ 3 ≤ (#[0, 0, 0, 9] : Array Nat).size := by decide

/-- **C06 for `n = 1` (and every other size): newest and oldest sample.** -/
theorem C06_recent_oldest (u : α) (area : Array α) (n : Nat) (v : α) (ops : List (Op α))
    (hn : 1 ≤ n) (hroom : n ≤ area.size) :
    ∃ t t', setup u area n v = .ok t ∧ run t ops = .ok t' ∧
      getRecent t' = .ok (Spec.run (fun _ => v) ops 0) ∧
      getOldest t' = .ok (Spec.run (fun _ => v) ops (n - 1)) := by
  obtain ⟨t, h1, _, hi⟩ := inv_setup u area n v hn hroom
  obtain ⟨t', h2, _, hi'⟩ := inv_run ops hi
  exact ⟨t, t', h1, h2, recent_of_inv hi', oldest_of_inv hi'⟩

example : (1 : Nat) ≤ 1 ∧ 1 ≤ (#[0] : Array Nat).size := by decide

/-- **C06/C07/C08 are false for a one-element window**: after any history of inserts and
flushes, reading index 0 accesses the element one past the window. With a one-element
buffer that is undefined behaviour. -/
theorem C06_index_window_one_false (u : α) (area : Array α) (v : α) (ops : List (Op α))
    (hsz : area.size = 1) :
    ∃ t t', setup u area 1 v = .ok t ∧ run t ops = .ok t' ∧
      getAtIndex t' 0 = .ub ∧ subscript t' 0 = .ub := by
  obtain ⟨t, h1, _, hi⟩ := inv_setup u area 1 v (by omega) (by omega)
  obtain ⟨t', h2, _, hi'⟩ := inv_run ops hi
  have hr := hi'.rdlt
  have hw := hi'.wreq
  have hs := hi'.size
  have hrd : t'.rd = 0 := by omega
  have hwr : t'.wr = 0 := by rw [hw]; simp
  have hub : getAtIndex t' 0 = .ub := by
    simp [getAtIndex, hrd, hwr, hi'.neq, rdArr, hs, hsz]
  refine ⟨t, t', h1, h2, hub, ?_⟩
  rw [subscript_eq, if_pos (by simp [hi'.neq])]
  exact hub

/-- Concrete witness of the defect: a one-sample delay line, one insertion. -/
theorem C06_window_one_witness :
    (setup (α := Nat) 99 #[0] 1 0 >>= fun t => run t [.insert 5] >>= fun t => getAtIndex t 0)
      = .ub := by decide

/-- **C07 (partial: window size at least 2).** The subscript operator returns sample `k`
for `0 ≤ k < n`, the oldest sample for `-1` and the NaN marker otherwise; it is never
undefined. Full claim: for every `n ≥ 1` (false for `n = 1`, index 0, see above; the
other indices are covered by `C07_subscript_out_of_range`). -/
theorem C07_subscript_partial (u : α) (area : Array α) (n : Nat) (v : α) (ops : List (Op α))
    (hn : 2 ≤ n) (hroom : n ≤ area.size) (k : Int) :
    ∃ t t', setup u area n v = .ok t ∧ run t ops = .ok t' ∧
      subscript t' k = .ok (if 0 ≤ k ∧ k < n then Spec.run (fun _ => v) ops k.toNat
        else if k = -1 then Spec.run (fun _ => v) ops (n - 1) else u) := by
  obtain ⟨t, h1, hu1, hi⟩ := inv_setup u area n v (by omega) hroom
  obtain ⟨t', h2, hu2, hi'⟩ := inv_run ops hi
  refine ⟨t, t', h1, h2, ?_⟩
  rw [subscript_eq, hi'.neq]
  by_cases hk : 0 ≤ k ∧ k < n
  · rw [if_pos hk, if_pos (by omega)]
    exact atIndex_of_inv hi' hn (by omega)
  · rw [if_neg hk, if_neg (by omega)]
    split
    · exact oldest_of_inv hi'
    · rw [hu2, hu1]

example : (2 : Nat) ≤ 2 ∧ 2 ≤ (#[0, 0] : Array Nat).size := by decide

/-- **C07 for every window size, indices outside the window.** -/
theorem C07_subscript_out_of_range (u : α) (area : Array α) (n : Nat) (v : α) (ops : List (Op α))
    (hn : 1 ≤ n) (hroom : n ≤ area.size) (k : Int) (hk : k < 0 ∨ n ≤ k) :
    ∃ t t', setup u area n v = .ok t ∧ run t ops = .ok t' ∧
      subscript t' k = .ok (if k = -1 then Spec.run (fun _ => v) ops (n - 1) else u) := by
  obtain ⟨t, h1, hu1, hi⟩ := inv_setup u area n v (by omega) hroom
  obtain ⟨t', h2, hu2, hi'⟩ := inv_run ops hi
  refine ⟨t, t', h1, h2, ?_⟩
  rw [subscript_eq, hi'.neq, if_neg (by omega)]
  split
  · exact oldest_of_inv hi'
  · rw [hu2, hu1]

example : ((-5 : Int) < 0 ∨ ((1 : Nat) : Int) ≤ -5) ∧ (1 : Nat) ≤ 1 := by decide

/-- **C08 (memory safety and framing of the mutating calls, every `n ≥ 1`).** No history of
inserts and flushes accesses memory outside the window (the outcome is never `ub`), and
user memory beyond the window keeps its contents and size. Indexed reads are covered by
C06/C07 for `n ≥ 2`; for `n = 1` they are unsafe. -/
theorem C08_memory_safe_partial (u : α) (area : Array α) (n : Nat) (v : α) (ops : List (Op α))
    (hn : 1 ≤ n) (hroom : n ≤ area.size) :
    ∃ t t', setup u area n v = .ok t ∧ run t ops = .ok t' ∧
      t'.mem.size = area.size ∧ ∀ j, n ≤ j → t'.mem[j]? = area[j]? := by
  obtain ⟨t, h1, _, hi⟩ := inv_setup u area n v hn hroom
  obtain ⟨t', h2, _, hi'⟩ := inv_run ops hi
  refine ⟨t, t', h1, h2, hi'.size, ?_⟩
  intro j hj
  by_cases hja : j < area.size
  · have := hi'.frame j hj
    rw [rdArr_ok hja, rdArr_eq_ok] at this
    rw [this]; simp [hja]
  · have hs := hi'.size
    rw [Array.getElem?_eq_none (by omega), Array.getElem?_eq_none (by omega)]

example : (1 : Nat) ≤ 2 ∧ 2 ≤ (#[0, 0, 3] : Array Nat).size := by decide

/-- **C08: an empty window is rejected by the language** (`&head[-1]`). -/
theorem C08_empty_window_ub (u : α) (area : Array α) (v : α) : setup u area 0 v = .ub := rfl

end Verif.Tdl
