import Verif.Smoother.Model
import Verif.Tdl.Lemmas

/-!
# Auxiliary results for the smoothers
-/

namespace Verif.Smoother

open Arith Ltisys

section Any
variable {R : Type} [Arith R]

omit [Arith R] in
theorem windowSetLoop_ok (x : R) (k i : Nat) (w : Array R) (h : i + k ≤ w.size)
    (hp : ∀ j, j < i → rdArr w j = .ok x) :
    ∃ w', windowSetLoop x k i w = .ok w' ∧ w'.size = w.size ∧
      (∀ j, j < i + k → rdArr w' j = .ok x) ∧ (∀ j, i + k ≤ j → rdArr w' j = rdArr w j) := by
  induction k generalizing i w with
  | zero => exact ⟨w, rfl, rfl, by simpa using hp, fun _ _ => rfl⟩
  | succ k ih =>
    have hi : i < w.size := by omega
    obtain ⟨w', h1, h2, h3, h4⟩ := ih (i + 1) (w.set i x) (by simp; omega) (by
      intro j hj
      rw [rdArr_set hi]
      by_cases e : i = j
      · rw [if_pos e]
      · rw [if_neg e]; exact hp j (by omega))
    refine ⟨w', ?_, by simpa using h2, fun j hj => h3 j (by omega), fun j hj => ?_⟩
    · rw [windowSetLoop, wrArr_ok hi]; exact h1
    · rw [h4 j (by omega), rdArr_set hi, if_neg (by omega)]

omit [Arith R] in
/-- `windowSet` fills the window. -/
theorem windowSet_ok (x : R) (w : Array R) (n : Nat) (h : n ≤ w.size) :
    ∃ w', windowSet w n x = .ok w' ∧ w'.size = w.size ∧ Holds w' n (fun _ => x) ∧
      (∀ j, n ≤ j → rdArr w' j = rdArr w j) := by
  obtain ⟨w', h1, h2, h3, h4⟩ := windowSetLoop_ok x n 0 w (by omega) (by intro j hj; omega)
  exact ⟨w', h1, h2, ⟨by omega, fun i hi => h3 i (by omega)⟩, fun j hj => h4 j (by omega)⟩

end Any

section Exact
variable {K : Type} [Field K] [LinearOrder K] [IsStrictOrderedRing K]

/-- Mean of `h 0, ..., h (n-1)`. -/
def mean (n : Nat) (h : Nat → K) : K := (∑ j ∈ Finset.range n, h j) / n

omit [LinearOrder K] [IsStrictOrderedRing K] in
theorem sum_push (n : Nat) (hn : 0 < n) (x : K) (h : Nat → K) :
    ∑ j ∈ Finset.range n, push x h j = (∑ j ∈ Finset.range n, h j) + (x - h (n - 1)) := by
  obtain ⟨m, rfl⟩ : ∃ m, n = m + 1 := ⟨n - 1, by omega⟩
  rw [Finset.sum_range_succ', Finset.sum_range_succ]
  simp only [push, Nat.add_sub_cancel]
  ring

omit [LinearOrder K] [IsStrictOrderedRing K] in
theorem sum_const (n : Nat) (x : K) : ∑ _j ∈ Finset.range n, x = n * x := by
  rw [Finset.sum_const, Finset.card_range, nsmul_eq_mul]

theorem mean_const (n : Nat) (hn : 0 < n) (x : K) : mean n (fun _ => x) = x := by
  have : (n : K) ≠ 0 := by exact_mod_cast hn.ne'
  rw [mean, sum_const]; field_simp

omit [Field K] [LinearOrder K] [IsStrictOrderedRing K] in
theorem push_zero (x : K) (h : Nat → K) : push x h 0 = x := rfl

omit [Field K] [LinearOrder K] [IsStrictOrderedRing K] in
theorem push_const (x : K) : push x (fun _ => x) = fun _ => x := by
  funext i; cases i <;> rfl

omit [Field K] [LinearOrder K] [IsStrictOrderedRing K] in
theorem tdl_step_eq (x : K) (h : Nat → K) :
    Tdl.Spec.step h (.insert x) = push x h := by
  funext i; cases i <;> rfl

end Exact

end Verif.Smoother
