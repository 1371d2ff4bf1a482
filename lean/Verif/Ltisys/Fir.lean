import Verif.Base
import Verif.Arith
import Mathlib.Algebra.BigOperators.Group.Finset.Basic
import Mathlib.Algebra.BigOperators.Intervals

/-!
# Model of `discreteSystem::updateFIR` (`/repo/src/ltisys.cpp`), used by the smoothers and by
`discreteSystem`, and what it does to a window.
-/

namespace Verif.Ltisys

open Arith

variable {R : Type} [Arith R]

/-- `y += w[ i ]*c[ i ]` or `y += w[ i ]`, `/repo/src/ltisys.cpp` lines 91 and 98. -/
def firAcc (c : Option (Array R)) (i : Nat) (y v : R) : Out R :=
  match c with
  | some c => do
    let k ← rdArr c i
    pure (y +. v *. k)
  | none => pure (y +. v)

/-- `y += c[ 0 ]*x` or `y += x`, `/repo/src/ltisys.cpp` lines 93 and 100. -/
def firLast (c : Option (Array R)) (y x : R) : Out R :=
  match c with
  | some c => do
    let k ← rdArr c 0
    pure (y +. k *. x)
  | none => pure (y +. x)

/-- The two loops of `discreteSystem::updateFIR` (with and without coefficients `c`), counting the
index down from `i` to 1. `/repo/src/ltisys.cpp` lines 89-92 and 96-99. -/
def firLoop (c : Option (Array R)) : Nat → Array R → R → Out (Array R × R)
  | 0, w, y => .ok (w, y)
  | i + 1, w, y => do
    let v ← rdArr w i
    let w ← wrArr w (i + 1) v
    let y ← firAcc c (i + 1) y v
    firLoop c i w y

/-- `discreteSystem::updateFIR`; for `wsize = 0` the index starts at `SIZE_MAX`, outside the window.
`/repo/src/ltisys.cpp` lines 80-105. -/
def updateFIR (w : Array R) (wsize : Nat) (x : R) (c : Option (Array R)) : Out (Array R × R) :=
  if wsize = 0 then .ub
  else do
    let (w, y) ← firLoop c (wsize - 1) w (lit 0)
    let y ← firLast c y x
    let w ← wrArr w 0 x
    pure (w, y)

/-- The first `n` cells of `w` hold `h 0, h 1, ...` (specification side). -/
def Holds (w : Array R) (n : Nat) (h : Nat → R) : Prop :=
  n ≤ w.size ∧ ∀ i, i < n → rdArr w i = .ok (h i)

/-- History after one more sample: `x` is the newest. -/
def push (x : R) (h : Nat → R) : Nat → R
  | 0 => x
  | i + 1 => h i

theorem firLoop_mem (c : Option (Array R)) (i : Nat) (w : Array R) (y : R) (h : Nat → R)
    (hi : i < w.size) (hw : ∀ j, j ≤ i → rdArr w j = .ok (h j))
    (hc : ∀ c', c = some c' → i < c'.size) :
    ∃ w' y', firLoop c i w y = .ok (w', y') ∧ w'.size = w.size ∧
      (∀ j, 1 ≤ j → j ≤ i → rdArr w' j = .ok (h (j - 1))) ∧
      (∀ j, i < j → rdArr w' j = rdArr w j) := by
  induction i generalizing w y with
  | zero => exact ⟨w, y, rfl, rfl, by intro j h1 h2; omega, fun _ _ => rfl⟩
  | succ i ih =>
    have hv := hw i (by omega)
    have hy : ∃ y1, firAcc c (i + 1) y (h i) = .ok y1 := by
      unfold firAcc
      cases c with
      | none => exact ⟨_, rfl⟩
      | some c => dsimp only; rw [rdArr_ok (hc c rfl)]; exact ⟨_, rfl⟩
    obtain ⟨y1, hy1⟩ := hy
    obtain ⟨w', y', h1, h2, h3, h4⟩ := ih (w.set (i + 1) (h i)) y1 (by simp; omega)
      (by intro j hj; rw [rdArr_set hi, if_neg (by omega)]; exact hw j (by omega))
      (by intro c' hc'; have := hc c' hc'; omega)
    refine ⟨w', y', ?_, by simpa using h2, ?_, ?_⟩
    · rw [firLoop, hv]
      simp only [Out.bind_ok, wrArr_ok hi]
      rw [hy1]
      exact h1
    · intro j hj1 hj2
      by_cases hj : j ≤ i
      · exact h3 j hj1 hj
      · have : j = i + 1 := by omega
        subst this
        rw [h4 _ (by omega), rdArr_set hi, if_pos rfl]; rfl
    · intro j hj
      rw [h4 j (by omega), rdArr_set hi, if_neg (by omega)]

/-- `updateFIR` shifts the window by one sample and never leaves it. -/
theorem updateFIR_mem (w : Array R) (n : Nat) (x : R) (c : Option (Array R)) (h : Nat → R)
    (hn : 0 < n) (hw : Holds w n h) (hc : ∀ c', c = some c' → n ≤ c'.size) :
    ∃ w' y, updateFIR w n x c = .ok (w', y) ∧ w'.size = w.size ∧ Holds w' n (push x h) ∧
      (∀ j, n ≤ j → rdArr w' j = rdArr w j) := by
  have hs := hw.1
  obtain ⟨w', y', h1, h2, h3, h4⟩ := firLoop_mem c (n - 1) w (lit 0) h (by omega)
    (fun j hj => hw.2 j (by omega)) (by intro c' hc'; have := hc c' hc'; omega)
  have hy : ∃ y1, firLast c y' x = .ok y1 := by
    unfold firLast
    cases c with
    | none => exact ⟨_, rfl⟩
    | some c => dsimp only; rw [rdArr_ok (by have := hc c rfl; omega)]; exact ⟨_, rfl⟩
  obtain ⟨y1, hy1⟩ := hy
  have h0 : 0 < w'.size := by omega
  refine ⟨w'.set 0 x, y1, ?_, by simpa using h2, ⟨by simp; omega, ?_⟩, ?_⟩
  · unfold updateFIR
    rw [if_neg (by omega), h1]
    simp only [Out.bind_ok]
    rw [hy1]
    simp only [Out.bind_ok, wrArr_ok h0, Out.pure_eq]
  · intro i hi
    rw [rdArr_set h0]
    cases i with
    | zero => rfl
    | succ i =>
      rw [if_neg (by omega), h3 (i + 1) (by omega) (by omega)]; rfl
  · intro j hj
    rw [rdArr_set h0, if_neg (by omega), h4 j (by omega)]

section Exact
variable {K : Type} [Field K] [LinearOrder K]

theorem firLoop_sum (c : Option (Array K)) (k : Nat → K) (i : Nat) (w : Array K) (y : K)
    (h : Nat → K) (hi : i < w.size) (hw : ∀ j, j ≤ i → rdArr w j = .ok (h j))
    (hc : ∀ c', c = some c' → ∀ j, j ≤ i → rdArr c' j = .ok (k j))
    (hk : c = none → ∀ j, k j = 1) :
    ∃ w', firLoop c i w y = .ok (w', y + ∑ j ∈ Finset.range i, k (j + 1) * h j) := by
  induction i generalizing w y with
  | zero => exact ⟨w, by simp [firLoop]⟩
  | succ i ih =>
    have hv := hw i (by omega)
    have hy : firAcc c (i + 1) y (h i) = .ok (y + k (i + 1) * h i) := by
      unfold firAcc
      cases c with
      | none => simp [hk rfl (i + 1)]
      | some c => dsimp only; rw [hc c rfl (i + 1) le_rfl]; simp [mul_comm]
    obtain ⟨w', h1⟩ := ih (w.set (i + 1) (h i)) (y + k (i + 1) * h i) (by simp; omega)
      (by intro j hj; rw [rdArr_set hi, if_neg (by omega)]; exact hw j (by omega))
      (by intro c' hc' j hj; exact hc c' hc' j (by omega))
    refine ⟨w', ?_⟩
    rw [firLoop, hv]
    simp only [Out.bind_ok, wrArr_ok hi]
    rw [hy]
    simp only [Out.bind_ok]
    rw [h1, Finset.sum_range_succ]
    congr 2
    ring

/-- In exact arithmetic `updateFIR` returns `Σ k_j h_j` over the window after the insertion of `x`
(`k_j = 1` when there are no coefficients). -/
theorem updateFIR_sum (w : Array K) (n : Nat) (x : K) (c : Option (Array K)) (k : Nat → K)
    (h : Nat → K) (hn : 0 < n) (hw : Holds w n h) (hc : ∀ c', c = some c' → Holds c' n k)
    (hk : c = none → ∀ j, k j = 1) :
    ∃ w', updateFIR w n x c = .ok (w', ∑ j ∈ Finset.range n, k j * push x h j) ∧
      w'.size = w.size ∧ Holds w' n (push x h) ∧ (∀ j, n ≤ j → rdArr w' j = rdArr w j) := by
  obtain ⟨w', y, h1, h2, h3, h4⟩ := updateFIR_mem w n x c h hn hw (fun c' hc' => (hc c' hc').1)
  obtain ⟨w'', g1⟩ := firLoop_sum c k (n - 1) w 0 h (by have := hw.1; omega)
    (fun j hj => hw.2 j (by omega)) (fun c' hc' j hj => (hc c' hc').2 j (by omega)) hk
  have hy : firLast c (0 + ∑ j ∈ Finset.range (n - 1), k (j + 1) * h j) x
      = .ok (∑ j ∈ Finset.range n, k j * push x h j) := by
    have e : ∑ j ∈ Finset.range n, k j * push x h j
        = 0 + ∑ j ∈ Finset.range (n - 1), k (j + 1) * h j + k 0 * x := by
      obtain ⟨m, rfl⟩ : ∃ m, n = m + 1 := ⟨n - 1, by omega⟩
      rw [Finset.sum_range_succ', zero_add]; rfl
    rw [e]
    unfold firLast
    cases c with
    | none => simp [hk rfl 0]
    | some c => dsimp only; rw [(hc c rfl).2 0 hn]; simp
  refine ⟨w', ?_, h2, h3, h4⟩
  have hy2 : y = ∑ j ∈ Finset.range n, k j * push x h j := by
    unfold updateFIR at h1
    rw [if_neg (by omega)] at h1
    rw [show (lit 0 : K) = 0 by simp, g1] at h1
    simp only [Out.bind_ok] at h1
    rw [hy] at h1
    simp only [Out.bind_ok] at h1
    obtain ⟨a, ha, hb⟩ := Out.bind_eq_ok.mp h1
    simp only [Out.pure_eq, Out.ok.injEq, Prod.mk.injEq] at hb
    exact hb.2.symm
  rw [h1, hy2]

end Exact

end Verif.Ltisys
