import Verif.Ltisys.Discrete
import Verif.F32.Dot

/-!
# FIR filters in binary32 (C140)
-/

namespace Verif.Ltisys

open Arith F32

theorem sum_range_rev (n : Nat) (f : Nat → ℚ) :
    (((List.range n).reverse.map f)).sum = ∑ j ∈ Finset.range n, f j := by
  induction n with
  | zero => simp
  | succ n ih =>
    rw [List.range_succ, List.reverse_append, List.map_append, List.sum_append, ih, Finset.sum_range_succ]
    simp [_root_.add_comm]

theorem mul_one_float {b : BitVec 32} (hb : F32.Finite b) : F32.mul b (F32.lit 1) = b := by
  have e : F32.neg (F32.lit 1) = false ∧ F32.Finite (F32.lit 1) ∧ val (F32.lit 1) = 1 := by decide +kernel
  rw [mul_fin hb e.2.1, e.2.2, mul_one, e.1, Bool.xor_false, rnd_self hb]

/-- The products added by `updateFIR`, in the order of the code. Not a definition of the repository. -/
def terms (k h : Nat → BitVec 32) (n : Nat) : List (BitVec 32 × BitVec 32) :=
  (List.range n).reverse.map fun j => (h j, k (j + 1))

theorem firLoop_float (c : Option (Array (BitVec 32))) (k : Nat → BitVec 32) (i : Nat) (w : Array (BitVec 32))
    (y : BitVec 32) (h : Nat → BitVec 32) (hi : i < w.size) (hw : ∀ j, j ≤ i → rdArr w j = .ok (h j))
    (hc : ∀ c', c = some c' → ∀ j, j ≤ i → rdArr c' j = .ok (k j))
    (hk : c = none → ∀ j, k j = F32.lit 1) (hf : c = none → ∀ j, F32.Finite (h j)) :
    ∃ w', firLoop c i w y = .ok (w', (terms k h i).foldl (fun acc p => F32.add acc (F32.mul p.1 p.2)) y) := by
  induction i generalizing w y with
  | zero => exact ⟨w, by simp [firLoop, terms]⟩
  | succ i ih =>
    have hv := hw i (by omega)
    have hy : firAcc c (i + 1) y (h i) = .ok (F32.add y (F32.mul (h i) (k (i + 1)))) := by
      unfold firAcc
      cases c with
      | none => rw [hk rfl, mul_one_float (hf rfl i)]; rfl
      | some c => dsimp only; rw [hc c rfl (i + 1) le_rfl]; rfl
    obtain ⟨w', h1⟩ := ih (w.set (i + 1) (h i)) (F32.add y (F32.mul (h i) (k (i + 1)))) (by simp; omega)
      (by intro j hj; rw [rdArr_set hi, if_neg (by omega)]; exact hw j (by omega))
      (by intro c' hc' j hj; exact hc c' hc' j (by omega))
    refine ⟨w', ?_⟩
    rw [firLoop, hv]
    simp only [Out.bind_ok, wrArr_ok hi]
    rw [hy]
    simp only [Out.bind_ok]
    rw [h1]
    unfold terms
    rw [List.range_succ, List.reverse_append]
    rfl

theorem firSums (k h : Nat → BitVec 32) (x : BitVec 32) (n : Nat) (hn : 0 < n) :
    dots (terms k h (n - 1) ++ [(k 0, x)]) = ∑ j ∈ Finset.range n, val (k j) * val (push x h j) ∧
      adots (terms k h (n - 1) ++ [(k 0, x)]) = ∑ j ∈ Finset.range n, |val (k j) * val (push x h j)| ∧
      (terms k h (n - 1) ++ [(k 0, x)]).length = n := by
  obtain ⟨m, rfl⟩ : ∃ m, n = m + 1 := ⟨n - 1, by omega⟩
  refine ⟨?_, ?_, by simp [terms]⟩
  · unfold dots terms
    rw [List.map_append, List.sum_append, List.map_map, sum_range_rev, Finset.sum_range_succ', Nat.add_sub_cancel]
    simp only [Function.comp, List.map_cons, List.map_nil, List.sum_cons, List.sum_nil, add_zero, push]
    congr 1
    exact Finset.sum_congr rfl fun j _ => _root_.mul_comm _ _
  · unfold adots terms
    rw [List.map_append, List.sum_append, List.map_map, sum_range_rev, Finset.sum_range_succ', Nat.add_sub_cancel]
    simp only [Function.comp, List.map_cons, List.map_nil, List.sum_cons, List.sum_nil, add_zero, push]
    congr 1
    exact Finset.sum_congr rfl fun j _ => by rw [_root_.mul_comm]

/-- One call in binary32. -/
theorem updateFIR_float (w : Array (BitVec 32)) (n : Nat) (x : BitVec 32) (c : Option (Array (BitVec 32)))
    (k h : Nat → BitVec 32) (hn : 0 < n) (hw : Holds w n h) (hc : ∀ c', c = some c' → Holds c' n k)
    (hk : c = none → ∀ j, k j = F32.lit 1) (hf : c = none → (∀ j, F32.Finite (h j)) ∧ F32.Finite x) :
    ∃ w', updateFIR w n x c = .ok (w', fdot (terms k h (n - 1) ++ [(k 0, x)])) ∧
      Holds w' n (push x h) := by
  obtain ⟨w', y, h1, h2, h3, h4⟩ := updateFIR_mem w n x c h hn hw (fun c' hc' => (hc c' hc').1)
  obtain ⟨w'', g1⟩ := firLoop_float c k (n - 1) w (F32.lit 0) h (by have := hw.1; omega)
    (fun j hj => hw.2 j (by omega)) (fun c' hc' j hj => (hc c' hc').2 j (by omega)) hk
    (fun e => (hf e).1)
  refine ⟨w', ?_, h3⟩
  have hy : ∀ y, firLast c y x = .ok (F32.add y (F32.mul (k 0) x)) := by
    intro y
    unfold firLast
    cases c with
    | none => rw [hk rfl, F32.mul_comm, mul_one_float (hf rfl).2]; rfl
    | some c => dsimp only; rw [(hc c rfl).2 0 hn]; rfl
  have hy2 : y = fdot (terms k h (n - 1) ++ [(k 0, x)]) := by
    unfold updateFIR at h1
    rw [if_neg (by omega)] at h1
    rw [show (Arith.lit 0 : BitVec 32) = F32.lit 0 from rfl, g1] at h1
    simp only [Out.bind_ok] at h1
    rw [hy] at h1
    simp only [Out.bind_ok] at h1
    obtain ⟨a, ha, hb⟩ := Out.bind_eq_ok.mp h1
    simp only [Out.pure_eq, Out.ok.injEq, Prod.mk.injEq] at hb
    rw [← hb.2]
    unfold fdot
    rw [List.foldl_append]
    rfl
  rw [h1, hy2]

/-- All outputs of a run from an empty window. -/
theorem fir_run (n : Nat) (c : Option (Array (BitVec 32))) (k : Nat → BitVec 32) (hn : 0 < n)
    (hc : ∀ c', c = some c' → Holds c' n k) (hk : c = none → ∀ j, k j = F32.lit 1)
    (w : Array (BitVec 32)) (hw : Holds w n (fun _ => 0#32)) (us : List (BitVec 32))
    (hu : ∀ u ∈ us, F32.Finite u) :
    ∃ w' ys, feedAll (fun w u => updateFIR w n u c) w us = .ok (w', ys) ∧ ys.length = us.length ∧
      Holds w' n (fun i => at' 0#32 us (us.length - 1) i) ∧
      ∀ t, t < us.length → ys.getD t 0#32 =
        fdot (terms k (fun j => at' 0#32 us t (j + 1)) (n - 1) ++ [(k 0, at' 0#32 us t 0)]) := by
  have z : F32.Finite 0#32 := by decide +kernel
  induction us using List.reverseRecOn with
  | nil =>
    refine ⟨w, [], rfl, rfl, ⟨hw.1, fun i hi => ?_⟩, by simp⟩
    rw [hw.2 i hi]
    simp [at']
  | append_singleton us u ih =>
    obtain ⟨w1, ys, h1, h2, h3, h4⟩ := ih (fun v hv => hu v (by simp [hv]))
    have hfin : ∀ j, F32.Finite (at' 0#32 us (us.length - 1) j) := by
      intro j
      unfold at'
      split_ifs
      · rw [List.getD_eq_getElem?_getD]
        cases hg : us[us.length - 1 - j]? with
        | none => exact z
        | some v => exact hu v (by simp [List.mem_of_getElem? hg])
      · exact z
    obtain ⟨w2, g1, g2⟩ := updateFIR_float w1 n u c k _ hn h3 hc hk (fun _ => ⟨hfin, hu u (by simp)⟩)
    refine ⟨w2, _, feedAll_snoc _ us u w w1 w2 ys _ h1 g1, by simp [h2], ?_, ?_⟩
    · have := at'_snoc 0#32 us u
      rw [List.length_append, List.length_singleton, Nat.add_sub_cancel, this]
      exact g2
    · intro t ht
      rw [List.length_append, List.length_singleton] at ht
      rcases Nat.lt_or_eq_of_le (Nat.le_of_lt_succ ht) with c1 | rfl
      · rw [List.getD_append _ _ _ _ (by omega), h4 t c1]
        simp only [at'_snoc_lt 0#32 us u t _ c1]
      · rw [List.getD_append_right _ _ _ _ (by omega), h2, Nat.sub_self]
        have := at'_snoc 0#32 us u
        have e1 : ∀ j, at' 0#32 (us ++ [u]) us.length j = push u (fun i => at' 0#32 us (us.length - 1) i) j :=
          fun j => congrFun this j
        simp only [e1]
        rfl

/-- **C140.** In binary32 every output of an FIR filter (`discreteSystem::updateFIR` called once per sample on a
window of `n` zeros) is finite and within `1.01 (n + 1) 2^-24` of the exact convolution, relative to the sum of
the magnitudes of its terms: the error does not grow with time. The filter without coefficients is the sum of
the last `n` samples. -/
theorem C140_fir (n : Nat) (c : Option (Array (BitVec 32))) (k : Nat → BitVec 32) (hn : 0 < n)
    (hn2 : n ≤ 131072) (hc : ∀ c', c = some c' → Holds c' n k) (hk : c = none → ∀ j, k j = F32.lit 1)
    (hkf : ∀ j, j < n → F32.Finite (k j)) (w : Array (BitVec 32)) (hw : Holds w n (fun _ => 0#32))
    (us : List (BitVec 32)) (hu : ∀ u ∈ us, F32.Finite u)
    (hs : ∀ t, t < us.length → ∑ j ∈ Finset.range n, |val (k j) * val (at' 0#32 us t j)| ≤ 1e38) :
    ∃ w' ys, feedAll (fun w u => updateFIR w n u c) w us = .ok (w', ys) ∧ ys.length = us.length ∧
      ∀ t, t < us.length → F32.Finite (ys.getD t 0#32) ∧
        |val (ys.getD t 0#32) - ∑ j ∈ Finset.range n, val (k j) * val (at' 0#32 us t j)| ≤
          1.01 * (n + 1) / 16777216 * ∑ j ∈ Finset.range n, |val (k j) * val (at' 0#32 us t j)| + 3e-45 * n := by
  obtain ⟨w', ys, h1, h2, -, h4⟩ := fir_run n c k hn hc hk w hw us hu
  refine ⟨w', ys, h1, h2, fun t ht => ?_⟩
  rw [h4 t ht]
  have z : F32.Finite 0#32 := by decide +kernel
  have hfin : ∀ j, F32.Finite (at' 0#32 us t j) := by
    intro j
    unfold at'
    split_ifs
    · rw [List.getD_eq_getElem?_getD]
      cases hg : us[t - j]? with
      | none => exact z
      | some v => exact hu v (List.mem_of_getElem? hg)
    · exact z
  obtain ⟨e1, e2, e3⟩ := firSums k (fun j => at' 0#32 us t (j + 1)) (at' 0#32 us t 0) n hn
  have ep : ∀ j, push (at' 0#32 us t 0) (fun j => at' 0#32 us t (j + 1)) j = at' 0#32 us t j := by
    intro j; cases j <;> rfl
  simp only [ep] at e1 e2
  have h := fdot_err (terms k (fun j => at' 0#32 us t (j + 1)) (n - 1) ++ [(k 0, at' 0#32 us t 0)]) (fun p hp => by
    rcases List.mem_append.1 hp with hp | hp
    · obtain ⟨j, hj, rfl⟩ := List.mem_map.1 hp
      have : j < n - 1 := by simpa using hj
      exact ⟨hfin (j + 1), hkf (j + 1) (by omega)⟩
    · rw [List.mem_singleton.1 hp]
      exact ⟨hkf 0 hn, hfin 0⟩) (by rw [e3]; exact hn2) (by rw [e2]; exact hs t ht)
  rw [e1, e2, e3] at h
  exact h

/-- **C140** (integers). With integer coefficients and samples the outputs are exact as long as the sums of the
magnitudes are at most `2^24`. -/
theorem C140_integers (n : Nat) (c : Option (Array (BitVec 32))) (k : Nat → BitVec 32) (hn : 0 < n)
    (hc : ∀ c', c = some c' → Holds c' n k) (hk : c = none → ∀ j, k j = F32.lit 1)
    (hkf : ∀ j, j < n → F32.Finite (k j) ∧ ∃ a : ℤ, val (k j) = a)
    (w : Array (BitVec 32)) (hw : Holds w n (fun _ => 0#32))
    (us : List (BitVec 32)) (hu : ∀ u ∈ us, F32.Finite u ∧ ∃ a : ℤ, val u = a)
    (hs : ∀ t, t < us.length → ∑ j ∈ Finset.range n, |val (k j) * val (at' 0#32 us t j)| ≤ 16777216) :
    ∃ w' ys, feedAll (fun w u => updateFIR w n u c) w us = .ok (w', ys) ∧ ys.length = us.length ∧
      ∀ t, t < us.length → F32.Finite (ys.getD t 0#32) ∧
        val (ys.getD t 0#32) = ∑ j ∈ Finset.range n, val (k j) * val (at' 0#32 us t j) := by
  obtain ⟨w', ys, h1, h2, -, h4⟩ := fir_run n c k hn hc hk w hw us (fun u h => (hu u h).1)
  refine ⟨w', ys, h1, h2, fun t ht => ?_⟩
  rw [h4 t ht]
  have z : F32.Finite 0#32 ∧ val 0#32 = 0 := by decide +kernel
  have hfin : ∀ j, F32.Finite (at' 0#32 us t j) ∧ ∃ a : ℤ, val (at' 0#32 us t j) = a := by
    intro j
    unfold at'
    split_ifs
    · rw [List.getD_eq_getElem?_getD]
      cases hg : us[t - j]? with
      | none => exact ⟨z.1, 0, by simpa using z.2⟩
      | some v => exact hu v (List.mem_of_getElem? hg)
    · exact ⟨z.1, 0, by simpa using z.2⟩
  obtain ⟨e1, e2, e3⟩ := firSums k (fun j => at' 0#32 us t (j + 1)) (at' 0#32 us t 0) n hn
  have ep : ∀ j, push (at' 0#32 us t 0) (fun j => at' 0#32 us t (j + 1)) j = at' 0#32 us t j := by
    intro j; cases j <;> rfl
  simp only [ep] at e1 e2
  have h := fdot_int (terms k (fun j => at' 0#32 us t (j + 1)) (n - 1) ++ [(k 0, at' 0#32 us t 0)]) (fun p hp => by
    rcases List.mem_append.1 hp with hp | hp
    · obtain ⟨j, hj, rfl⟩ := List.mem_map.1 hp
      have : j < n - 1 := by simpa using hj
      exact ⟨(hfin (j + 1)).1, (hkf (j + 1) (by omega)).1, (hfin (j + 1)).2, (hkf (j + 1) (by omega)).2⟩
    · rw [List.mem_singleton.1 hp]
      exact ⟨(hkf 0 hn).1, (hfin 0).1, (hkf 0 hn).2, (hfin 0).2⟩) (by rw [e2]; exact hs t ht)
  rw [e1] at h
  exact ⟨h.1, h.2.1⟩

-- C140: a filter with three coefficients, and the moving sum
example : Prod.snd <$> feedAll (fun w u => updateFIR w 3 u (some #[F32.lit 1, F32.lit 2, F32.lit (-1)]))
      #[0#32, 0#32, 0#32] [F32.lit 5, F32.lit 0, F32.lit 7, F32.lit 1] =
    .ok [F32.lit 5, F32.lit 10, F32.lit 2, F32.lit 15] := by decide +kernel
example : Prod.snd <$> feedAll (fun w u => updateFIR w 2 u none) #[0#32, 0#32]
      [F32.lit 5, F32.lit 3, F32.lit 7] = .ok [F32.lit 5, F32.lit 8, F32.lit 10] := by decide +kernel
example : Holds #[0#32, 0#32, 0#32] 3 (fun _ => 0#32) ∧
    Holds #[F32.lit 1, F32.lit 2, F32.lit (-1)] 3 (fun i => #[F32.lit 1, F32.lit 2, F32.lit (-1)].getD i 0) := by
  unfold Holds; decide +kernel

end Verif.Ltisys
