import Verif.Mat.Lemmas
import Mathlib.LinearAlgebra.Matrix.NonsingularInverse
import Mathlib.LinearAlgebra.Matrix.Block
import Mathlib.LinearAlgebra.Matrix.Notation
import Mathlib.Tactic.LinearCombination
import Mathlib.Algebra.BigOperators.Field

/-!
# Properties C52, C53, C66: matrices (exact arithmetic)
-/

namespace Verif.Mat

open Arith

variable {K : Type} [Field K] [LinearOrder K]

/-- The code returns the matrix `M` (without undefined behaviour). -/
def Returns {r c : Nat} (o : Out (Mx r c K)) (M : Matrix (Fin r) (Fin c) K) : Prop :=
  o = .ok (fun i j => M i j)

open Matrix (of)

/-! ## C52 -/

theorem dot_eq {c : Nat} (f g : Fin c → K) : dot f g = ∑ k, f k * g k := by
  have : ∀ (l : List (Fin c)) (x : K), l.foldl (fun x k => x +. f k *. g k) x =
      x + (l.map fun k => f k * g k).sum := by
    intro l
    induction l with
    | nil => intro x; simp
    | cons a l ih => intro x; rw [List.foldl_cons, ih]; simp [add_assoc]
  unfold dot
  rw [this, Fin.sum_univ_def]
  simp

/-- **C52** sums, differences, products and the negative are those of matrix algebra; `u` and `w` are the
contents of the uninitialised results. -/
theorem C52_algebra {r c n : Nat} (A B : Mx r c K) (D : Mx c n K) (u : Mx r c K) (w : Mx r n K) :
    Returns (add u A B) (of A + of B) ∧ Returns (sub u A B) (of A - of B) ∧
      Returns (mul w A D) (of A * of D) ∧ Returns (negate u A) (-of A) := by
  refine ⟨add_eq u A B, sub_eq u A B, ?_, mapNew_eq u _ A⟩
  unfold Returns
  rw [mul_eq]
  simp only [dot_eq, Matrix.mul_apply, Matrix.of_apply]

/-- **C52** operators with a scalar on either side. -/
theorem C52_scalar {r c : Nat} (A : Mx r c K) (s : K) (u : Mx r c K) :
    Returns (mulScalar u A s) (s • of A) ∧ Returns (scalarMul u A s) (s • of A) ∧
      Returns (divScalar u A s) (s⁻¹ • of A) ∧
      Returns (addScalar u A s) (of A + of fun _ _ => s) ∧
      Returns (scalarAdd u A s) (of A + of fun _ _ => s) ∧
      Returns (subScalar u A s) (of A - of fun _ _ => s) ∧
      Returns (scalarSub u A s) (of (fun _ _ => s) - of A) := by
  refine ⟨?_, mapNew_eq u _ A, ?_, mapNew_eq u _ A, ?_, mapNew_eq u _ A, mapNew_eq u _ A⟩
  · unfold mulScalar Returns
    rw [mapNew_eq]
    simp [mul_comm]
  · unfold divScalar Returns
    rw [mapNew_eq]
    simp [div_eq_inv_mul]
  · unfold scalarAdd Returns
    rw [mapNew_eq]
    simp [add_comm]

/-- **C52** compound assignments with a matrix, which may be the object itself. -/
theorem C52_assign {r c : Nat} (A B : Mx r c K) (D : Mx c c K) (u : Mx r c K) :
    Returns (addAssign A (some B)) (of A + of B) ∧ Returns (addAssign A none) (of A + of A) ∧
      Returns (subAssign A (some B)) (of A - of B) ∧ Returns (subAssign A none) (of A - of A) ∧
      Returns (mulAssign u A D) (of A * of D) ∧ Returns (assign A B) (of B) := by
  refine ⟨?_, ?_, ?_, ?_, ?_, copy_eq A B⟩
  · unfold addAssign
    rw [for2_cell _ (fun i j x => x + B i j)]
    · rfl
    · intro i j M
      simp only [operand, get_ok, put_ok, Out.bind_ok, fAdd]
  · unfold addAssign
    rw [for2_cell _ (fun i j x => x + x)]
    · rfl
    · intro i j M
      simp only [operand, get_ok, put_ok, Out.bind_ok, fAdd]
  · unfold subAssign
    rw [for2_cell _ (fun i j x => x - B i j)]
    · rfl
    · intro i j M
      simp only [operand, get_ok, put_ok, Out.bind_ok, fSub]
  · unfold subAssign
    rw [for2_cell _ (fun i j x => x - x)]
    · rfl
    · intro i j M
      simp only [operand, get_ok, put_ok, Out.bind_ok, fSub]
  · have := (C52_algebra A A D u u).2.2.1
    unfold mulAssign
    unfold Returns at *
    rw [this, Out.bind_ok, copy_eq]

/-- **C52** (partial: the scalar is not an element of the matrix, see `C52_alias_false`) compound
assignments with a scalar. -/
theorem C52_assign_scalar_partial {r c : Nat} (A : Mx r c K) (s : K) :
    Returns (mulAssignScalar A (.val s)) (s • of A) ∧ Returns (divAssignScalar A (.val s)) (s⁻¹ • of A) ∧
      Returns (addAssignScalar A (.val s)) (of A + of fun _ _ => s) ∧
      Returns (subAssignScalar A (.val s)) (of A - of fun _ _ => s) := by
  have key : ∀ f : K → K → K, scalarAssign f A (.val s) = .ok (fun i j => f (A i j) s) := by
    intro f
    unfold scalarAssign
    rw [for2_cell _ (fun i j x => f x s)]
    intro i j M
    simp only [Ref.read, get_ok, put_ok, Out.bind_ok]
  refine ⟨?_, ?_, key _, key _⟩
  · unfold mulAssignScalar Returns
    rw [key]
    simp [mul_comm]
  · unfold divAssignScalar Returns
    rw [key]
    simp [div_eq_inv_mul]

/-- **C52 is false of the code when the scalar is an element of the matrix**: it is passed by reference
and changes during the loop, so `A /= A(0,0)` on `[2 4]` gives `[1 4]`. -/
theorem C52_alias_false :
    (fun M => (M 0 0, M 0 1)) <$> divAssignScalar (r := 1) (c := 2) ![![(2 : ℚ), 4]] (.elem 0 0) =
      .ok (1, 4) := by
  decide +kernel

/-- **C52** constructors, copy, transpose and indexing. -/
theorem C52_build {r c n : Nat} (A : Mx r c K) (s : K) (u : Mx r c K) (w : Mx c r K)
    (q : Mx n n K) (e : Array K) (he : e.size = r * c) :
    Returns (zero u) 0 ∧ Returns (copy u A) (of A) ∧
      Returns (transpose w A) (of A).transpose ∧
      Returns (special q .identity s) (s • 1) ∧
      Returns (special q .all s) (of fun _ _ => s) ∧
      Returns (special q .zero s) 0 ∧
      ∃ M : Mx r c K, ofElements u e = .ok M ∧
        ∀ i j, rdArr e (i.val * c + j.val) = .ok (M i j) ∧ getIndex M (i.val * c + j.val) = .ok (M i j) := by
  refine ⟨?_, copy_eq u A, ?_, ?_, (special_eq q s).2.1, ?_, ?_⟩
  · unfold Returns
    rw [zero_eq]
    simp
  · unfold transpose
    rw [zero_eq, Out.bind_ok, transpose_aux]
    rfl
  · unfold Returns
    rw [(special_eq q s).1]
    congr 1
    funext i j
    by_cases h : i = j
    · subst h; simp
    · simp [h]
  · unfold Returns
    rw [(special_eq q s).2.2]
    simp
  · have hlt : ∀ (i : Fin r) (j : Fin c), i.val * c + j.val < e.size := by
      intro i j
      rw [he]
      have h1 := i.2
      have h2 := j.2
      calc i.val * c + j.val < i.val * c + c := by omega
        _ = (i.val + 1) * c := by ring
        _ ≤ r * c := Nat.mul_le_mul_right c h1
    refine ⟨fun i j => e[i.val * c + j.val]'(hlt i j), ?_, ?_⟩
    · unfold ofElements
      rw [for2_cell _ (fun i j _ => e[i.val * c + j.val]'(hlt i j))]
      intro i j M
      rw [rdArr_ok (hlt i j), Out.bind_ok, put_ok]
    · intro i j
      refine ⟨rdArr_ok (hlt i j), ?_⟩
      unfold getIndex
      have hc : 0 < c := by have := j.2; omega
      rw [show (i.val * c + j.val) / c = i.val by
          rw [Nat.mul_comm, Nat.mul_add_div hc, Nat.div_eq_of_lt j.2, Nat.add_zero],
        show (i.val * c + j.val) % c = j.val by
          rw [Nat.mul_comm, Nat.mul_add_mod, Nat.mod_eq_of_lt j.2], get_ok]

/-- **C52** (partial: not the prefix decrement, see `C52_preDec_false`) increments and decrements add or
subtract one everywhere; the postfix forms return the old value. -/
theorem C52_step_partial {r c : Nat} (A : Mx r c K) (u : Mx r c K) :
    preInc A = .ok (fun i j => A i j + 1) ∧
      postInc u A = .ok (fun i j => A i j + 1, A) ∧
      postDec u A = .ok (fun i j => A i j - 1, A) := by
  have hi : for2 r c (fun i j (M : Mx r c K) => do
      let v ← get M i j
      put M i j (v +. lit 1)) A = .ok (fun i j => A i j + 1) := by
    rw [for2_cell _ (fun i j x => x + 1)]
    intro i j M
    simp only [get_ok, put_ok, Out.bind_ok, fAdd, fLit, Rat.cast_one]
  have hd : for2 r c (fun i j (M : Mx r c K) => do
      let v ← get M i j
      put M i j (v -. lit 1)) A = .ok (fun i j => A i j - 1) := by
    rw [for2_cell _ (fun i j x => x - 1)]
    intro i j M
    simp only [get_ok, put_ok, Out.bind_ok, fSub, fLit, Rat.cast_one]
  refine ⟨hi, ?_, ?_⟩
  · unfold postInc
    rw [copy_eq, Out.bind_ok, hi, Out.bind_ok, Out.pure_eq]
  · unfold postDec
    rw [copy_eq, Out.bind_ok, hd, Out.bind_ok, Out.pure_eq]

/-- **C52 is false of the code for the prefix decrement**: it adds one, for every matrix. -/
theorem C52_preDec_false {r c : Nat} (A : Mx r c K) :
    preDec A = .ok (fun i j => A i j + 1) := (C52_step_partial A A).1

/-! ## C53 -/

/-- State of `inv` before iteration `i`: `X = I A`, the columns of `X` before `i` and those of `I` from `i`
on are unit vectors. -/
structure GJ {n : Nat} (A X I : Mx n n K) (i : Nat) : Prop where
  prod : of X = of I * of A
  colX : ∀ a b : Fin n, b.val < i → X a b = if a = b then 1 else 0
  colI : ∀ a b : Fin n, i ≤ b.val → I a b = if a = b then 1 else 0

/-- The leading square block of order `k`. -/
def lead {n : Nat} (A : Mx n n K) (k : Nat) (h : k ≤ n) : Matrix (Fin k) (Fin k) K :=
  (of A).submatrix (Fin.castLE h) (Fin.castLE h)

omit [LinearOrder K] in
theorem GJ.entry {n : Nat} {A X I : Mx n n K} {i : Nat} (g : GJ A X I i) (a b : Fin n) :
    X a b = ∑ k, I a k * A k b := by
  have := congrFun (congrFun g.prod a) b
  rw [Matrix.mul_apply] at this
  exact this

omit [LinearOrder K] in
theorem lead_mul {n : Nat} {A X I : Mx n n K} {i : Nat} (g : GJ A X I i) (k : Nat) (h : k ≤ n)
    (hik : i ≤ k) : lead X k h = lead I k h * lead A k h := by
  funext a b
  rw [Matrix.mul_apply]
  unfold lead
  simp only [Matrix.submatrix_apply, Matrix.of_apply]
  rw [g.entry]
  symm
  refine Fintype.sum_of_injective (Fin.castLE h) (Fin.castLE_injective h) _ _ ?_ (fun _ => rfl)
  intro m hm
  have hkm : k ≤ m.val := by
    by_contra hc
    exact hm ⟨⟨m.val, by omega⟩, Fin.ext rfl⟩
  have : Fin.castLE h a ≠ m := fun e => by
    have := congrArg Fin.val e
    have ha := a.2
    simp at this
    omega
  rw [g.colI _ _ (by omega), if_neg this, zero_mul]

omit [LinearOrder K] in
theorem lead_one {n : Nat} {A X I : Mx n n K} {i : Nat} (g : GJ A X I i) (h : i ≤ n) :
    lead X i h = 1 := by
  funext a b
  unfold lead
  rw [Matrix.submatrix_apply, Matrix.of_apply, g.colX _ _ b.2, Matrix.one_apply]
  simp only [Fin.castLE_inj]

omit [LinearOrder K] in
theorem lead_det_X {n : Nat} {A X I : Mx n n K} (i : Fin n) (g : GJ A X I i) :
    (lead X (i + 1) i.2).det = X i i := by
  have htri : (lead X (i + 1) i.2).BlockTriangular id := by
    intro a b hab
    simp only [id] at hab
    have hlt : b.val < a.val := hab
    have := a.2
    unfold lead
    rw [Matrix.submatrix_apply, Matrix.of_apply, g.colX _ _ (by
      simp only [Fin.val_castLE]
      omega), if_neg]
    intro e
    have := congrArg Fin.val e
    simp at this
    omega
  rw [Matrix.det_of_isUpperTriangular htri, Fin.prod_univ_castSucc]
  have h1 : ∀ a : Fin i.val, lead X (i + 1) i.2 a.castSucc a.castSucc = 1 := by
    intro a
    unfold lead
    rw [Matrix.submatrix_apply, Matrix.of_apply, g.colX _ _ (by simp), if_pos rfl]
  rw [Finset.prod_congr rfl (fun a _ => h1 a), Finset.prod_const_one, one_mul]
  rfl

omit [LinearOrder K] in
theorem lead_det_I {n : Nat} {A X I : Mx n n K} (i : Fin n) (g : GJ A X I i) :
    (lead I (i + 1) i.2).det = (lead I i (by omega)).det := by
  rw [Matrix.det_succ_column _ (Fin.last i.val)]
  have hcol : ∀ a : Fin (i.val + 1), lead I (i + 1) i.2 a (Fin.last i.val) =
      if a = Fin.last i.val then 1 else 0 := by
    intro a
    unfold lead
    rw [Matrix.submatrix_apply, Matrix.of_apply, g.colI _ _ (by simp)]
    simp only [Fin.castLE_inj]
  rw [Finset.sum_eq_single (Fin.last i.val)]
  · rw [hcol, if_pos rfl, mul_one]
    have : (-1 : K) ^ ((Fin.last i.val).val + (Fin.last i.val).val) = 1 := by
      rw [← two_mul, pow_mul]; simp
    rw [this, one_mul]
    congr 1
    funext a b
    unfold lead
    simp only [Matrix.submatrix_apply, Fin.succAbove_last]
    rfl
  · intro b _ hb
    rw [hcol, if_neg hb]; ring
  · simp

omit [LinearOrder K] in
/-- The pivot of iteration `i` is the quotient of two leading principal minors. -/
theorem pivot_minor {n : Nat} {A X I : Mx n n K} (i : Fin n) (g : GJ A X I i) :
    X i i * (lead A i (by omega)).det = (lead A (i + 1) i.2).det := by
  have h1 : (lead I i.val (by omega)).det * (lead A i.val (by omega)).det = 1 := by
    rw [← Matrix.det_mul, ← lead_mul g i.val (by omega) le_rfl, lead_one g, Matrix.det_one]
  have h2 := lead_det_X i g
  rw [lead_mul g (i + 1) i.2 (by omega), Matrix.det_mul, lead_det_I i g] at h2
  rw [← h2]
  linear_combination (lead A (i + 1) i.2).det * h1

/-- An iteration with a nonzero pivot preserves the invariant. -/
theorem GJ.step {n : Nat} {A X I : Mx n n K} (i : Fin n) (g : GJ A X I i) (hp : X i i ≠ 0) :
    ∃ X' I' : Mx n n K, invStep i.val (X, I) = .ok (X', I') ∧ GJ A X' I' (i + 1) := by
  refine ⟨_, _, invStep_eq i X I, ⟨?_, ?_, ?_⟩⟩
  · funext a b
    rw [Matrix.mul_apply]
    simp only [Matrix.of_apply]
    by_cases h : a = i
    · simp only [if_pos h, fDiv]
      rw [g.entry i b, Finset.sum_div]
      exact Finset.sum_congr rfl fun k _ => by ring
    · simp only [if_neg h, fDiv, fSub, fMul]
      rw [Finset.sum_congr rfl fun k _ => (sub_mul _ _ _), Finset.sum_sub_distrib, ← g.entry a b]
      congr 1
      conv_lhs => rw [g.entry i b, Finset.sum_div, Finset.mul_sum]
      exact Finset.sum_congr rfl fun k _ => by ring
  · intro a b hb
    simp only [fDiv, fSub, fMul]
    by_cases hbi : b = i
    · subst hbi
      by_cases h : a = b
      · subst h; rw [if_pos rfl, if_pos rfl, div_self hp]
      · rw [if_neg h, if_neg h, div_self hp]; ring
    · have hlt : b.val < i.val := by
        have : b.val ≠ i.val := fun e => hbi (Fin.ext e)
        omega
      have hib : X i b = 0 := by rw [g.colX i b hlt, if_neg (fun e => hbi e.symm)]
      by_cases h : a = i
      · subst h
        rw [if_pos rfl, hib, zero_div, if_neg (fun e => hbi e.symm)]
      · rw [if_neg h, hib, zero_div, mul_zero, sub_zero, g.colX a b hlt]
  · intro a b hb
    simp only [fDiv, fSub, fMul]
    have hib : I i b = 0 := by
      rw [g.colI i b (by omega), if_neg]
      intro e; have := congrArg Fin.val e; omega
    by_cases h : a = i
    · subst h
      rw [if_pos rfl, hib, zero_div, if_neg]
      intro e; have := congrArg Fin.val e; omega
    · rw [if_neg h, hib, zero_div, mul_zero, sub_zero, g.colI a b (by omega)]

/-- The identity, as the code builds it. -/
def ident (n : Nat) (K : Type) [Field K] : Mx n n K := fun i j => if i = j then 1 else 0

omit [LinearOrder K] in
theorem GJ.init {n : Nat} (A : Mx n n K) : GJ A A (ident n K) 0 := by
  refine ⟨?_, by intro a b h; omega, fun a b _ => rfl⟩
  have : of (ident n K) = 1 := by
    funext i j
    rw [Matrix.one_apply]; rfl
  rw [this, one_mul]

theorem loop_append {S : Type} (f : Nat → S → Out S) (k m i : Nat) (s : S) :
    loop f (k + m) i s = loop f k i s >>= loop f m (i + k) := by
  induction k generalizing i s with
  | zero => simp [loop]
  | succ k ih =>
    rw [show k + 1 + m = (k + m) + 1 by omega, loop, loop, bind_assoc]
    congr 1
    funext s
    rw [ih, show i + 1 + k = i + (k + 1) by omega]

theorem run_inv {n : Nat} (A : Mx n n K) (k : Nat) (hk : k ≤ n)
    (hm : ∀ j (h : j ≤ n), j ≤ k → (lead A j h).det ≠ 0) :
    ∃ X I : Mx n n K, loop invStep k 0 (A, ident n K) = .ok (X, I) ∧ GJ A X I k := by
  induction k with
  | zero => exact ⟨A, ident n K, rfl, GJ.init A⟩
  | succ k ih =>
    obtain ⟨X, I, h1, g⟩ := ih (by omega) (fun j h hj => hm j h (by omega))
    have hp : X ⟨k, hk⟩ ⟨k, hk⟩ ≠ 0 := by
      intro h0
      have := pivot_minor ⟨k, hk⟩ g
      rw [h0, zero_mul] at this
      exact hm (k + 1) hk le_rfl this.symm
    obtain ⟨X', I', h2, g'⟩ := g.step ⟨k, hk⟩ hp
    refine ⟨X', I', ?_, g'⟩
    dsimp only at h2
    rw [loop_append, h1, Out.bind_ok, loop, Nat.zero_add, h2, Out.bind_ok]
    rfl

/-- **C53** (partial: no leading principal minor vanishes, see `C53_swap_false`) `inv()` returns the
inverse. -/
theorem C53_inverse_partial {n : Nat} (A : Mx n n K) (u v : Mx n n K)
    (hm : ∀ k (h : k ≤ n), ((of A).submatrix (Fin.castLE h) (Fin.castLE h)).det ≠ 0) :
    ∃ B : Mx n n K, inv u v A = .ok B ∧ of B * of A = 1 ∧ of A * of B = 1 := by
  obtain ⟨X, I, h1, g⟩ := run_inv A n le_rfl (fun j h _ => hm j h)
  have hX : of X = 1 := by
    funext a b
    rw [Matrix.of_apply, g.colX a b b.2, Matrix.one_apply]
  have hB : of I * of A = 1 := by rw [← g.prod, hX]
  refine ⟨I, ?_, hB, mul_eq_one_comm.mp hB⟩
  unfold inv
  have hid : special v .identity (lit 1) = .ok (ident n K) := by
    rw [(special_eq v _).1]
    congr 1
    funext i j
    simp [ident]
  rw [copy_eq, Out.bind_ok, hid, Out.bind_ok, h1, Out.bind_ok, Out.pure_eq]

/-- **C53, failure condition**: as long as the leading principal minors up to order `k` are nonzero, the
pivot by which iteration `k` divides is zero exactly when the next minor vanishes. -/
theorem C53_zero_pivot {n : Nat} (A : Mx n n K) (k : Fin n)
    (hm : ∀ j (h : j ≤ n), j ≤ k → ((of A).submatrix (Fin.castLE h) (Fin.castLE h)).det ≠ 0) :
    ∃ X I : Mx n n K, loop invStep k 0 (A, fun i j => if i = j then 1 else 0) = .ok (X, I) ∧
      (X k k = 0 ↔ ((of A).submatrix (Fin.castLE (show k.val + 1 ≤ n from k.2))
        (Fin.castLE (show k.val + 1 ≤ n from k.2))).det = 0) := by
  obtain ⟨X, I, h1, g⟩ := run_inv A k.val (by omega) hm
  refine ⟨X, I, h1, ?_⟩
  have h2 := pivot_minor k g
  unfold lead at h2
  rw [← h2]
  constructor
  · intro h; rw [h, zero_mul]
  · intro h
    exact (mul_eq_zero.mp h).resolve_right (hm k.val (by omega) le_rfl)

/-- **C53 is false of the code**: the permutation matrix of order two is nonsingular, its own inverse, and
`inv()` divides its first row by zero. -/
theorem C53_swap_false :
    (!![0, 1; 1, 0] : Matrix (Fin 2) (Fin 2) ℚ) * !![0, 1; 1, 0] = 1 ∧
    inv (R := ℚ) (n := 2) (fun _ _ => 0) (fun _ _ => 0) ![![0, 1], ![1, 0]] ≠ .ok ![![0, 1], ![1, 0]] := by
  refine ⟨?_, ?_⟩ <;> decide +kernel

/-! ## C66 -/

theorem rowSum_eq [IsStrictOrderedRing K] {n : Nat} (A : Mx n n K) (i : Fin n) :
    rowSum A i = .ok (∑ j, |A i j|) := by
  unfold rowSum
  obtain ⟨s, h1, h2⟩ := loop_inv (fun j (sum : K) => do
      let v ← get A i j
      pure (sum +. (if v <. lit 0 then -. v else v)))
    (fun j s => s = ∑ b : Fin n, if b.val < j then |A i b| else 0) n
    (by
      rintro j _ hj rfl
      have := get_ok A i ⟨j, hj⟩
      dsimp only at this
      refine ⟨_, by rw [this, Out.bind_ok, Out.pure_eq], ?_⟩
      have habs : (if (A i ⟨j, hj⟩ <. lit 0) = true then -. A i ⟨j, hj⟩ else A i ⟨j, hj⟩) = |A i ⟨j, hj⟩| := by
        simp only [fLt, fLit, Rat.cast_zero, decide_eq_true_eq, fNeg]
        split_ifs with h
        · rw [abs_of_neg h]
        · rw [abs_of_nonneg (not_lt.mp h)]
      rw [habs, fAdd]
      have : ∀ b : Fin n, (if b.val < j + 1 then |A i b| else 0) =
          (if b.val < j then |A i b| else 0) + (if b = ⟨j, hj⟩ then |A i b| else 0) := by
        intro b
        by_cases c : b = ⟨j, hj⟩
        · subst c; simp
        · have hne : b.val ≠ j := fun e => c (Fin.ext e)
          by_cases c1 : b.val < j
          · rw [if_pos (by omega), if_pos c1, if_neg c, add_zero]
          · rw [if_neg (by omega), if_neg c1, if_neg c, add_zero]
      rw [Finset.sum_congr rfl (fun b _ => this b), Finset.sum_add_distrib, Finset.sum_ite_eq']
      simp)
    n 0 (lit 0) (by omega) (by simp)
  rw [h1, h2]
  congr 1
  exact Finset.sum_congr rfl fun b _ => if_pos b.2

/-- **C66** (partial: square matrices, see `C66_nonsquare_false`) `normInf()` is the greatest absolute row
sum. -/
theorem C66_normInf_partial [IsStrictOrderedRing K] {n : Nat} (A : Mx n n K) (hn : 0 < n) :
    ∃ v, normInf A = .ok v ∧ (∀ i, ∑ j, |A i j| ≤ v) ∧ ∃ i, v = ∑ j, |A i j| := by
  unfold normInf
  obtain ⟨v, h1, h2, h3⟩ := loop_inv (fun i (maxM : K) => do
      let sum ← rowSum A i
      let maxM := if i = 0 then sum else maxM
      pure (if maxM <. sum then sum else maxM))
    (fun i v => (∀ a : Fin n, a.val < i → ∑ j, |A a j| ≤ v) ∧
      (0 < i → ∃ a : Fin n, v = ∑ j, |A a j|)) n
    (by
      rintro i v hi ⟨h1, h2⟩
      have := rowSum_eq A ⟨i, hi⟩
      dsimp only at this
      refine ⟨_, by rw [this, Out.bind_ok, Out.pure_eq], ?_, fun _ => ?_⟩
      · intro a ha
        simp only [fLt, decide_eq_true_eq]
        by_cases e : a = ⟨i, hi⟩
        · subst e
          split_ifs with c1 c2 c2 <;> first | exact le_rfl | exact not_lt.mp c2
        · have hlt : a.val < i := by
            have : a.val ≠ i := fun h => e (Fin.ext h)
            omega
          rw [if_neg (show ¬i = 0 by omega)]
          have h4 := h1 a hlt
          split_ifs with c
          · exact h4.trans c.le
          · exact h4
      · simp only [fLt, decide_eq_true_eq]
        by_cases e : i = 0
        · rw [if_pos e]
          exact ⟨⟨i, hi⟩, by split_ifs <;> rfl⟩
        · rw [if_neg e]
          split_ifs
          · exact ⟨⟨i, hi⟩, rfl⟩
          · exact h2 (by omega))
    n 0 (lit 0) (by omega) ⟨by intro a h; omega, by omega⟩
  exact ⟨v, h1, fun i => h2 i i.2, h3 hn⟩

/-- **C66 is false of the code for every matrix that is not square**: the loop bounds are exchanged and the
code reads outside the array. -/
theorem C66_nonsquare_false {R : Type} [Arith R] {r c : Nat} (A : Mx r c R) (hr : 0 < r) (hc : 0 < c)
    (h : r ≠ c) : normInf A = .ub := by
  -- a loop whose body has undefined behaviour at index `m`, and is fine before it
  have key : ∀ {S : Type} (f : Nat → S → Out S) (m : Nat) (hok : ∀ i s, i < m → ∃ s', f i s = .ok s')
      (hub : ∀ s, f m s = .ub) (k i : Nat) (s : S), i ≤ m → m < i + k → loop f k i s = .ub := by
    intro S f m hok hub k
    induction k with
    | zero => intro i s _ _; omega
    | succ k ih =>
      intro i s h1 h2
      rw [loop]
      by_cases e : i = m
      · subst e; rw [hub]; rfl
      · obtain ⟨s', hs⟩ := hok i s (by omega)
        rw [hs, Out.bind_ok]
        exact ih (i + 1) s' (by omega) (by omega)
  have hget : ∀ i j, i < r → j < c → ∃ v, get A i j = .ok v := fun i j hi hj => ⟨_, get_ok A ⟨i, hi⟩ ⟨j, hj⟩⟩
  have hgub : ∀ i j, ¬(i < r ∧ j < c) → get A i j = .ub := by
    intro i j h; unfold get; rw [dif_neg h]
  unfold normInf
  rcases Nat.lt_or_gt_of_ne h with hlt | hgt
  · -- fewer rows than columns: row `r` does not exist
    refine key _ r ?_ ?_ c 0 _ (by omega) (by omega)
    · intro i s hi
      have : ∃ v, rowSum A i = .ok v := by
        obtain ⟨s', h1, _⟩ := loop_inv (fun j (sum : R) => do
          let v ← get A i j
          pure (sum +. (if v <. lit 0 then -. v else v))) (fun _ _ => True) r
          (by
            intro j s hj _
            obtain ⟨v, hv⟩ := hget i j hi (by omega)
            exact ⟨_, by rw [hv, Out.bind_ok, Out.pure_eq], trivial⟩) r 0 (lit 0) (by omega) trivial
        exact ⟨s', h1⟩
      obtain ⟨v, hv⟩ := this
      exact ⟨_, by rw [hv, Out.bind_ok, Out.pure_eq]⟩
    · intro s
      have : rowSum A r = .ub := by
        unfold rowSum
        refine key _ 0 (by intro i s h; omega) ?_ r 0 _ le_rfl (by omega)
        intro s
        rw [hgub r 0 (by omega)]; rfl
      rw [this]; rfl
  · -- fewer columns than rows: column `c` of row 0 does not exist
    refine key _ 0 (by intro i s h; omega) ?_ c 0 _ le_rfl (by omega)
    intro s
    have : rowSum A 0 = .ub := by
      unfold rowSum
      refine key _ c ?_ ?_ r 0 _ (by omega) (by omega)
      · intro j s hj
        obtain ⟨v, hv⟩ := hget 0 j hr hj
        exact ⟨_, by rw [hv, Out.bind_ok, Out.pure_eq]⟩
      · intro s
        rw [hgub 0 c (by omega)]; rfl
    rw [this]; rfl

-- C52, C53, C66: concrete matrices
example : (fun M => (M 0 0, M 0 1, M 1 0, M 1 1)) <$>
    inv (R := ℚ) (n := 2) (fun _ _ => 7) (fun _ _ => 7) ![![2, 1], ![1, 1]] = .ok (1, -1, -1, 2) := by decide +kernel
example : ∀ k (h : k ≤ 2), ((of ![![2, 1], ![1, 1]] : Matrix (Fin 2) (Fin 2) ℚ).submatrix
    (Fin.castLE h) (Fin.castLE h)).det ≠ 0 := by
  intro k h
  have : k = 0 ∨ k = 1 ∨ k = 2 := by omega
  rcases this with rfl | rfl | rfl
  · simp
  · rw [Matrix.det_fin_one]; decide +revert +kernel
  · rw [Matrix.det_fin_two]; decide +revert +kernel
example : normInf (R := ℚ) (r := 2) (c := 2) ![![1, -4], ![2, 2]] = .ok 5 := by decide +kernel
example : normInf (R := ℚ) (r := 2) (c := 3) ![![1, -4, 0], ![2, 2, 0]] = .ub := by decide +kernel
example : (fun M => M 0 0) <$> mul (R := ℚ) (r := 1) (c := 2) (n := 1) (fun _ _ => 9) ![![1, 2]] ![![3], ![4]] =
    .ok 11 := by
  decide +kernel

end Verif.Mat
