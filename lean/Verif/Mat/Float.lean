import Verif.Mat.Props
import Verif.F32.Dot

/-!
# Matrix products in binary32 (C139)
-/

namespace Verif.Mat

open Arith F32

/-- The pairs multiplied for the entry `(i, j)` of a product. Not a definition of the repository. -/
def pairs {r c n : Nat} (A : Mx r c (BitVec 32)) (B : Mx c n (BitVec 32)) (i : Fin r) (j : Fin n) :
    List (BitVec 32 × BitVec 32) := (List.finRange c).map fun k => (A i k, B k j)

theorem pairs_sums {r c n : Nat} (A : Mx r c (BitVec 32)) (B : Mx c n (BitVec 32)) (i : Fin r) (j : Fin n) :
    dot (A i) (fun k => B k j) = fdot (pairs A B i j) ∧
      dots (pairs A B i j) = ∑ k, val (A i k) * val (B k j) ∧
      adots (pairs A B i j) = ∑ k, |val (A i k) * val (B k j)| ∧ (pairs A B i j).length = c := by
  refine ⟨?_, ?_, ?_, by simp [pairs]⟩
  · unfold dot fdot pairs
    rw [List.foldl_map]
    rfl
  · unfold dots pairs
    rw [List.map_map, Fin.sum_univ_def]
    rfl
  · unfold adots pairs
    rw [List.map_map, Fin.sum_univ_def]
    rfl

/-- **C139** (accuracy). In binary32 the product of two matrices of finite numbers whose inner dimension is at
most `2^17` is finite and each entry is within `1.01 (c + 1) 2^-24` of the exact entry, relative to the sum of
the magnitudes of the products, as long as these sums are at most `1e38`. -/
theorem C139_product {r c n : Nat} (A : Mx r c (BitVec 32)) (B : Mx c n (BitVec 32)) (u : Mx r n (BitVec 32))
    (hA : ∀ i k, F32.Finite (A i k)) (hB : ∀ k j, F32.Finite (B k j)) (hc : c ≤ 131072)
    (hs : ∀ i j, ∑ k, |val (A i k) * val (B k j)| ≤ 1e38) :
    ∃ M, mul u A B = .ok M ∧ ∀ i j, F32.Finite (M i j) ∧
      |val (M i j) - ((Matrix.of fun i k => val (A i k)) * (Matrix.of fun k j => val (B k j))) i j| ≤
        1.01 * (c + 1) / 16777216 * ∑ k, |val (A i k) * val (B k j)| + 3e-45 * c := by
  refine ⟨_, mul_eq u A B, fun i j => ?_⟩
  obtain ⟨e1, e2, e3, e4⟩ := pairs_sums A B i j
  have h := fdot_err (pairs A B i j) (by
    intro p hp
    obtain ⟨k, _, rfl⟩ := List.mem_map.1 hp
    exact ⟨hA i k, hB k j⟩) (by rw [e4]; exact hc) (by rw [e3]; exact hs i j)
  rw [e2, e3, e4] at h
  rw [e1]
  refine ⟨h.1, ?_⟩
  simpa only [Matrix.mul_apply, Matrix.of_apply] using h.2

/-- **C139** (integers). In binary32 the product of matrices of integers is the exact product as long as the
sums of the magnitudes of the products are at most `2^24`. -/
theorem C139_integers {r c n : Nat} (A : Mx r c (BitVec 32)) (B : Mx c n (BitVec 32)) (u : Mx r n (BitVec 32))
    (a : Matrix (Fin r) (Fin c) ℤ) (b : Matrix (Fin c) (Fin n) ℤ)
    (hA : ∀ i k, F32.Finite (A i k) ∧ val (A i k) = a i k)
    (hB : ∀ k j, F32.Finite (B k j) ∧ val (B k j) = b k j)
    (hs : ∀ i j, ∑ k, |a i k * b k j| ≤ 16777216) :
    ∃ M, mul u A B = .ok M ∧ ∀ i j, F32.Finite (M i j) ∧ val (M i j) = ((a * b) i j : ℤ) := by
  refine ⟨_, mul_eq u A B, fun i j => ?_⟩
  obtain ⟨e1, e2, e3, e4⟩ := pairs_sums A B i j
  have h := fdot_int (pairs A B i j) (by
    intro p hp
    obtain ⟨k, _, rfl⟩ := List.mem_map.1 hp
    exact ⟨(hA i k).1, (hB k j).1, ⟨_, (hA i k).2⟩, _, (hB k j).2⟩) (by
      rw [e3]
      have : ((∑ k, |a i k * b k j| : ℤ) : ℚ) ≤ 16777216 := by exact_mod_cast hs i j
      refine le_trans (le_of_eq ?_) this
      push_cast
      exact Finset.sum_congr rfl fun k _ => by rw [(hA i k).2, (hB k j).2])
  rw [e1]
  refine ⟨h.1, ?_⟩
  rw [h.2.1, e2, Matrix.mul_apply]
  push_cast
  exact Finset.sum_congr rfl fun k _ => by rw [(hA i k).2, (hB k j).2]

/-- **C139**: the bound on the sums is needed, beyond it the product of integer matrices is inexact:
`4097 * 4097 = 16785409` is not a float. -/
theorem C139_integers_bound :
    (fun M => val (M 0 0)) <$> mul (r := 1) (c := 1) (n := 1) (fun _ _ => 0#32) (fun _ _ => F32.lit 4097)
      (fun _ _ => F32.lit 4097) = .ok 16785408 ∧ val (F32.lit 4097) = 4097 := by decide +kernel

-- C139: matrices meeting the hypotheses of both theorems
example : let A : Mx 2 2 (BitVec 32) := ![![F32.lit 1, F32.lit 2], ![F32.lit (-3), F32.lit 4]]
    let B : Mx 2 1 (BitVec 32) := ![![F32.lit 5], ![F32.lit 1000]]
    (∀ i k, F32.Finite (A i k)) ∧ (∀ k j, F32.Finite (B k j)) ∧
      (∀ i j, ∑ k, |val (A i k) * val (B k j)| ≤ 1e38) ∧
      (fun M => (val (M 0 0), val (M 1 0))) <$> mul (fun _ _ => 0#32) A B = .ok (2005, 3985) := by
  decide +kernel
example : let A : Mx 1 2 (BitVec 32) := ![![F32.lit (1 / 10), F32.lit (2 / 10)]]
    let B : Mx 2 1 (BitVec 32) := ![![F32.lit 1], ![F32.lit 1]]
    (fun M => M 0 0) <$> mul (fun _ _ => 0#32) A B = .ok 0x3E99999A#32 := by
  decide +kernel

end Verif.Mat
