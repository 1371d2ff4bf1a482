import Verif.Ffmath.Legendre
import Mathlib.Algebra.Polynomial.Derivative
import Mathlib.Data.Nat.Factorial.DoubleFactorial

/-!
# Associated Legendre polynomials (C105)

The reference is the definition of the C++ standard, `P_n^m(x) = (1 - x^2)^(m/2) d^m/dx^m P_n(x)`.
-/

namespace Verif.Ffmath

open Verif Polynomial

variable {K : Type u} [Field K] [LinearOrder K] [IsStrictOrderedRing K]

/-- The Legendre polynomial `P_n`, from Mathlib's shifted one (not a definition of the repository). -/
noncomputable def legendrePoly (K : Type u) [Field K] (n : ℕ) : K[X] := aeval (C (1 / 2 : K) * (1 - X)) (shiftedLegendre n)

theorem legendrePoly_eval (n : ℕ) (x : K) : eval x (legendrePoly K n) = aeval ((1 - x) / 2) (shiftedLegendre n) := by
  have : eval x (legendrePoly K n) = aeval (eval x (C (1 / 2 : K) * (1 - X))) (shiftedLegendre n) := by
    unfold legendrePoly
    rw [aeval_def, aeval_def, ← coe_evalRingHom, hom_eval₂]
    congr 1
    exact RingHom.ext_int _ _
  rw [this]
  congr 2
  simp
  ring

theorem legendrePoly_zero : legendrePoly K 0 = 1 := by
  simp [legendrePoly, shiftedLegendre]

theorem legendrePoly_one : legendrePoly K 1 = X := by
  have h2 : (C (1 / 2 : K)) * 2 = 1 := by
    rw [show (2 : K[X]) = C 2 from (map_ofNat C 2).symm, ← C_mul]; norm_num
  rw [one_div] at h2
  simp only [legendrePoly, shiftedLegendre, Finset.sum_range_succ]
  simp [map_ofNat]
  linear_combination (X - 1) * h2

theorem legendrePoly_rec (n : ℕ) : ((n : K[X]) + 2) * legendrePoly K (n + 2) =
    (2 * (n : K[X]) + 3) * (X * legendrePoly K (n + 1)) - ((n : K[X]) + 1) * legendrePoly K n := by
  have h := congrArg (aeval (C (1 / 2 : K) * (1 - X))) (bonnet n)
  simp only [map_mul, map_sub, map_add, map_natCast, map_ofNat, map_one, aeval_X] at h
  have h2 : (C (1 / 2 : K)) * 2 = 1 := by
    rw [show (2 : K[X]) = C 2 from (map_ofNat C 2).symm, ← C_mul]; norm_num
  have e : (1 : K[X]) - 2 * (C (1 / 2) * (1 - X)) = X := by linear_combination (X - 1) * h2
  rw [e] at h
  exact h

theorem natCast_cancel {n : ℕ} {p q : K[X]} (h : ((n : K[X]) + 1) * p = ((n : K[X]) + 1) * q) : p = q := by
  have : ((n : K[X]) + 1) ≠ 0 := by exact_mod_cast Nat.succ_ne_zero n
  exact mul_left_cancel₀ this h

/-- `x P'_(n+1) - P'_n = (n+1) P_(n+1)` and `P'_(n+1) - x P'_n = (n+1) P_n`. -/
theorem legendrePoly_deriv (n : ℕ) :
    X * derivative (legendrePoly K (n + 1)) - derivative (legendrePoly K n) = ((n : K[X]) + 1) * legendrePoly K (n + 1) ∧
    derivative (legendrePoly K (n + 1)) - X * derivative (legendrePoly K n) = ((n : K[X]) + 1) * legendrePoly K n ∧
    derivative (legendrePoly K (n + 2)) - derivative (legendrePoly K n) = (2 * (n : K[X]) + 3) * legendrePoly K (n + 1) := by
  -- the third identity from the first
  have third : ∀ n : ℕ, X * derivative (legendrePoly K (n + 1)) - derivative (legendrePoly K n) = ((n : K[X]) + 1) * legendrePoly K (n + 1) →
      derivative (legendrePoly K (n + 2)) - derivative (legendrePoly K n) = (2 * (n : K[X]) + 3) * legendrePoly K (n + 1) := by
    intro n hB
    have h := congrArg derivative (legendrePoly_rec (K := K) n)
    simp only [derivative_mul, derivative_sub, derivative_add, derivative_natCast, derivative_ofNat, derivative_one, derivative_X] at h
    apply natCast_cancel (n := n + 1)
    push_cast
    linear_combination h + (2 * (n : K[X]) + 3) * hB
  induction n with
  | zero =>
    have h1 : X * derivative (legendrePoly K (0 + 1)) - derivative (legendrePoly K 0) = (((0 : ℕ) : K[X]) + 1) * legendrePoly K (0 + 1) := by
      rw [legendrePoly_zero, legendrePoly_one]; simp
    refine ⟨h1, ?_, third 0 h1⟩
    rw [legendrePoly_zero, legendrePoly_one]; simp
  | succ n ih =>
    obtain ⟨hB, hD, hA⟩ := ih
    have hr := legendrePoly_rec (K := K) n
    have h1 : X * derivative (legendrePoly K (n + 1 + 1)) - derivative (legendrePoly K (n + 1)) =
        (((n + 1 : ℕ) : K[X]) + 1) * legendrePoly K (n + 1 + 1) := by
      push_cast
      linear_combination X * hA - hD - hr
    refine ⟨h1, ?_, third (n + 1) h1⟩
    push_cast
    linear_combination hA - hB

theorem iter_const (m : ℕ) (c : K) (p : K[X]) : derivative^[m] (C c * p) = C c * derivative^[m] p :=
  iterate_derivative_C_mul ..

theorem iter_X (m : ℕ) (p : K[X]) : derivative^[m] (X * derivative p) = X * derivative^[m + 1] p + (m : K[X]) * derivative^[m] p := by
  induction m with
  | zero => simp
  | succ m ih =>
    rw [Function.iterate_succ_apply', ih]
    simp only [derivative_add, derivative_mul, derivative_X, derivative_natCast, ← Function.iterate_succ_apply' derivative]
    push_cast
    ring

/-- The derivatives of the second identity. -/
theorem legendre_iterA (n m : ℕ) : derivative^[m + 1] (legendrePoly K (n + 2)) - derivative^[m + 1] (legendrePoly K n) =
    (2 * (n : K[X]) + 3) * derivative^[m] (legendrePoly K (n + 1)) := by
  have h := congrArg (derivative^[m]) (legendrePoly_deriv (K := K) n).2.2
  have c : (2 * (n : K[X]) + 3) = C (2 * (n : K) + 3) := by simp [map_ofNat]
  rw [c, iter_const, iterate_derivative_sub, ← Function.iterate_succ_apply derivative, ← Function.iterate_succ_apply derivative, ← c] at h
  exact h

theorem legendre_iterB (n m : ℕ) : X * derivative^[m + 1] (legendrePoly K (n + 1)) + (m : K[X]) * derivative^[m] (legendrePoly K (n + 1))
    - derivative^[m + 1] (legendrePoly K n) = ((n : K[X]) + 1) * derivative^[m] (legendrePoly K (n + 1)) := by
  have h := congrArg (derivative^[m]) (legendrePoly_deriv (K := K) n).1
  have c : ((n : K[X]) + 1) = C ((n : K) + 1) := by simp
  rw [c, iter_const, iterate_derivative_sub, iter_X, ← Function.iterate_succ_apply derivative, ← c] at h
  exact h

/-- The recurrence of the associated Legendre functions, without the factor `(1 - x^2)^(m/2)`. -/
theorem legendre_iter_rec (n m : ℕ) : ((n : K[X]) + 1 - (m : K[X])) * derivative^[m + 1] (legendrePoly K (n + 2)) =
    (2 * (n : K[X]) + 3) * (X * derivative^[m + 1] (legendrePoly K (n + 1))) - ((n : K[X]) + (m : K[X]) + 2) * derivative^[m + 1] (legendrePoly K n) := by
  linear_combination ((n : K[X]) + 1 - m) * legendre_iterA (K := K) n m - (2 * (n : K[X]) + 3) * legendre_iterB (K := K) n m

theorem legendre_iter_zero (n : ℕ) : ∀ m, n < m → derivative^[m] (legendrePoly K n) = 0 := by
  induction n using Nat.strong_induction_on with
  | _ n ih =>
    intro m hm
    obtain ⟨m, rfl⟩ : ∃ k, m = k + 1 := ⟨m - 1, by omega⟩
    match n, ih, hm with
    | 0, _, _ => rw [legendrePoly_zero, Function.iterate_succ_apply, derivative_one]; simp
    | 1, _, hm =>
      obtain ⟨m, rfl⟩ : ∃ k, m = k + 1 := ⟨m - 1, by omega⟩
      rw [legendrePoly_one, Function.iterate_succ_apply, Function.iterate_succ_apply, derivative_X, derivative_one]; simp
    | n + 2, ih, hm =>
      have h := legendre_iterA (K := K) n m
      rw [ih n (by omega) (m + 1) (by omega), ih (n + 1) (by omega) m (by omega)] at h
      simpa using h

/-- The product of the odd numbers below `2 m`, that is `(2m - 1)!!`. -/
theorem legendre_iter_diag (m : ℕ) : derivative^[m] (legendrePoly K m) = C ((∏ i ∈ Finset.range m, (2 * i + 1) : ℕ) : K) := by
  induction m with
  | zero => simp [legendrePoly_zero]
  | succ m ih =>
    cases m with
    | zero => simp [legendrePoly_one]
    | succ m =>
      have h := legendre_iterA (K := K) m (m + 1)
      rw [legendre_iter_zero m _ (by omega), ih, sub_zero] at h
      rw [h, Finset.prod_range_succ (n := m + 1)]
      generalize (∏ i ∈ Finset.range (m + 1), (2 * i + 1)) = d
      push_cast
      simp [map_ofNat]
      ring

theorem legendre_iter_next (m : ℕ) : derivative^[m] (legendrePoly K (m + 1)) =
    C (2 * (m : K) + 1) * (X * C ((∏ i ∈ Finset.range m, (2 * i + 1) : ℕ) : K)) := by
  cases m with
  | zero => simp [legendrePoly_one]
  | succ m =>
    have h := legendre_iter_rec (K := K) m m
    rw [legendre_iter_zero m (m + 1) (by omega), legendre_iter_diag] at h
    have e : (((m : K[X]) + 1 - m)) = 1 := by ring
    rw [e, one_mul, mul_zero, sub_zero] at h
    rw [h]
    generalize (∏ i ∈ Finset.range (m + 1), (2 * i + 1)) = d
    push_cast
    simp only [C_add, C_mul, map_natCast, map_ofNat, C_1]
    ring

/-! ### The code -/

theorem assocStart_eq (root : K) (k : ℕ) :
    assocStart root k = (((∏ i ∈ Finset.range k, (2 * i + 1) : ℕ) : K) * root ^ k, 2 * (k : K) + 1) := by
  induction k with
  | zero => simp [assocStart]
  | succ k ih =>
    rw [assocStart, ih, Finset.prod_range_succ]
    simp only [fAdd, fMul, fLit, Prod.mk.injEq]
    push_cast
    constructor <;> ring

theorem root_eq [FF K] [ExactFF K] {x r : K} (h1 : -1 ≤ x) (h2 : x ≤ 1) (hr : 0 ≤ r) (hr2 : r * r = 1 - x * x) :
    FF.sqrt (1 - x) * FF.sqrt (1 + x) = r := by
  obtain ⟨a1, a2⟩ := ExactFF.sqrt_sq (1 - x) (by linarith)
  obtain ⟨b1, b2⟩ := ExactFF.sqrt_sq (1 + x) (by linarith)
  have : (FF.sqrt (1 - x) * FF.sqrt (1 + x)) * (FF.sqrt (1 - x) * FF.sqrt (1 + x)) = r * r := by
    rw [hr2]
    linear_combination (FF.sqrt (1 + x) * FF.sqrt (1 + x)) * a2 + (1 - x) * b2
  nlinarith [mul_nonneg a1 b1, mul_self_eq_mul_self_iff.1 this]

/-- **C105** (exact arithmetic) For `m = 0` and every `n`, and for every `m` and `n <= m + 1`, `assoc_legendre(n, m, x)` is
`(1 - x^2)^(m/2)` times the derivative of order `m` of the Legendre polynomial of degree `n`; `r` is the square root of `1 - x^2`. -/
theorem C105_assoc_partial [FF K] [ExactFF K] (n m : ℕ) (x r : K) (h1 : -1 ≤ x) (h2 : x ≤ 1) (hr : 0 ≤ r) (hr2 : r * r = 1 - x * x)
    (h : m = 0 ∨ n ≤ m + 1) : assocLegendre n m x = r ^ m * eval x (derivative^[m] (legendrePoly K n)) := by
  rcases Nat.eq_zero_or_pos m with rfl | hm
  · have := C103_assoc n ((1 - x) / 2)
    rw [show 1 - 2 * ((1 - x) / 2) = x by ring] at this
    rw [this, ← legendrePoly_eval]; simp
  · unfold assocLegendre
    simp only [fNan, fSub, fAdd, fMul, fLit, Bool.false_eq_true, if_false]
    rw [if_neg (by omega : ¬ 0 = m)]
    split
    · rename_i hmn
      rw [legendre_iter_zero n m hmn]; simp
    have hroot : FF.sqrt (((1 : ℚ) : K) - x) * FF.sqrt (((1 : ℚ) : K) + x) = r := by
      push_cast; exact root_eq h1 h2 hr hr2
    rw [hroot, assocStart_eq]
    split
    · rename_i hnm
      rw [hnm, legendre_iter_diag, eval_C]; ring
    · rename_i hnm hmn
      have : n = m + 1 := by omega
      rw [if_pos this, this, legendre_iter_next]
      simp only [eval_mul, eval_C, eval_X]
      push_cast
      ring

/-- **C105, negation.** For every `m >= 1` and `n = m + 2`, at every `x` with `0 < |x| < 1`, the result is too large: in the recurrence
only the second summand is divided by `n - m`. -/
theorem C105_false [FF K] [ExactFF K] (m : ℕ) (hm : 1 ≤ m) (x r : K) (h0 : x ≠ 0) (h1 : -1 < x) (h2 : x < 1) (hr : 0 ≤ r)
    (hr2 : r * r = 1 - x * x) :
    r ^ m * eval x (derivative^[m] (legendrePoly K (m + 2))) < assocLegendre (m + 2) m x := by
  have hrp : 0 < r := by
    rcases hr.lt_or_eq with h | h
    · exact h
    · rw [← h] at hr2; nlinarith
  have hroot : FF.sqrt (((1 : ℚ) : K) - x) * FF.sqrt (((1 : ℚ) : K) + x) = r := by
    push_cast; exact root_eq h1.le h2.le hr hr2
  obtain ⟨k, rfl⟩ : ∃ k, m = k + 1 := ⟨m - 1, by omega⟩
  have ht := congrArg (eval x) (legendre_iter_rec (K := K) (k + 1) k)
  rw [show k + 1 + 2 = k + 1 + 2 from rfl, show k + 1 + 1 = (k + 1) + 1 from rfl, legendre_iter_next, legendre_iter_diag] at ht
  simp only [eval_mul, eval_sub, eval_add, eval_natCast, eval_ofNat, eval_one, eval_C, eval_X] at ht
  unfold assocLegendre
  simp only [fNan, fSub, fAdd, fMul, fLit, Bool.false_eq_true, if_false]
  rw [if_neg (by omega), if_neg (by omega), if_neg (by omega), if_neg (by omega), hroot, assocStart_eq, show k + 1 + 2 - (k + 1) - 1 = 0 + 1 by omega]
  simp only [assocLoop, fSub, fAdd, fMul, fDiv, fLit]
  have hd : (0 : K) < ((∏ i ∈ Finset.range (k + 1), (2 * i + 1) : ℕ) : K) := by
    have : 0 < ∏ i ∈ Finset.range (k + 1), (2 * i + 1) := Finset.prod_pos (fun i _ => by omega)
    exact_mod_cast this
  generalize ((∏ i ∈ Finset.range (k + 1), (2 * i + 1) : ℕ) : K) = d at *
  generalize eval x (derivative^[k + 1] (legendrePoly K (k + 1 + 2))) = T at *
  push_cast at ht ⊢
  have hT : T = ((2 * ((k : K) + 1) + 3) * (x * ((2 * ((k : K) + 1) + 1) * (x * d))) - ((k : K) + 1 + k + 2) * d) / 2 := by
    rw [eq_div_iff (by norm_num)]; linear_combination ht
  rw [hT]
  have hp : 0 < r ^ (k + 1) := pow_pos hrp _
  have hx : 0 < x * x := mul_self_pos.2 h0
  have hk : (0 : K) ≤ k := Nat.cast_nonneg k
  have e : ((k : K) + 1 + 2 + 0 - (k + 1)) = 2 := by ring
  rw [e, ← sub_pos]
  have : 0 < r ^ (k + 1) * d * (x * x) * (2 * ((k : K) + 1) + 3) * (2 * ((k : K) + 1) + 1) / 2 := by positivity
  refine lt_of_lt_of_eq this ?_
  field_simp
  ring

/-- A case of the theorems above: `x = 3/5`, `r = 4/5`, over the reals. -/
example : (-1 : ℝ) < 3 / 5 ∧ (3 / 5 : ℝ) < 1 ∧ (3 / 5 : ℝ) ≠ 0 ∧ (0 : ℝ) ≤ 4 / 5 ∧ (4 / 5 : ℝ) * (4 / 5) = 1 - 3 / 5 * (3 / 5) := by norm_num

end Verif.Ffmath
