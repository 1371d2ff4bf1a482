import Mathlib.Algebra.Order.Field.Basic
import Mathlib.Algebra.Order.Field.Rat
import Mathlib.Algebra.Order.Group.Abs
import Mathlib.Data.Rat.Cast.Order
import Mathlib.Tactic.Ring
import Mathlib.Tactic.Linarith
import Mathlib.Tactic.NormNum
import Mathlib.Tactic.FieldSimp
import Mathlib.Tactic.Positivity

/-!
# Arithmetic of `real_t`

The numerical modules are written once, over an arbitrary arithmetic `Arith R`; a theorem may
then be stated

* for every arithmetic (nothing is known about `+ - * /`, so any rounding is covered), with
  `LawfulOrd R` giving the laws of IEEE comparisons with NaN;
* for the exact arithmetic of any linearly ordered field (`fieldArith`).
-/

namespace Verif

/-- The operations on `real_t` (`/repo/src/include/qlibs_types.hpp` line 43) used by the library:
operators, comparisons (`false` on NaN), literals `x_re` (lines 47-54), `ffmath::absf`,
`ffmath::isNan`, `ffmath::isInf`. Not a definition of the repository. -/
class Arith (R : Type u) where
  add : R → R → R
  sub : R → R → R
  mul : R → R → R
  div : R → R → R
  neg : R → R
  absf : R → R
  lt : R → R → Bool
  le : R → R → Bool
  lit : ℚ → R
  isNan : R → Bool
  isInf : R → Bool

/-- The functions of `ffmath` that the numerical modules call, left uninterpreted.
Not a definition of the repository. -/
class Trans (R : Type u) where
  exp : R → R
  log : R → R
  sqrt : R → R
  sin : R → R
  cos : R → R
  tanh : R → R
  pow : R → R → R

namespace Arith
scoped infixl:65 " +. " => Arith.add
scoped infixl:65 " -. " => Arith.sub
scoped infixl:70 " *. " => Arith.mul
scoped infixl:70 " /. " => Arith.div
scoped prefix:75 "-. " => Arith.neg
scoped infix:50 " <. " => Arith.lt
scoped infix:50 " ≤. " => Arith.le
end Arith

/-- Laws of the comparisons: total order on the values that are not NaN, every comparison with a
NaN is false; literals that are small integers are exact. Not a definition of the repository. -/
class LawfulOrd (R : Type u) [Arith R] : Prop where
  lt_nan : ∀ {a b : R}, Arith.lt a b = true → Arith.isNan a = false ∧ Arith.isNan b = false
  le_nan : ∀ {a b : R}, Arith.le a b = true → Arith.isNan a = false ∧ Arith.isNan b = false
  le_of_not_lt : ∀ {a b : R}, Arith.isNan a = false → Arith.isNan b = false →
    Arith.lt a b = false → Arith.le b a = true
  not_lt_of_le : ∀ {a b : R}, Arith.le a b = true → Arith.lt b a = false
  le_of_lt : ∀ {a b : R}, Arith.lt a b = true → Arith.le a b = true
  le_refl : ∀ {a : R}, Arith.isNan a = false → Arith.le a a = true
  le_trans : ∀ {a b c : R}, Arith.le a b = true → Arith.le b c = true → Arith.le a c = true
  lit_lt : ∀ {m n : ℤ}, -16777216 ≤ m → n ≤ 16777216 → m < n →
    Arith.lt (Arith.lit (m : ℚ) : R) (Arith.lit (n : ℚ)) = true

/-- Exact arithmetic of a linearly ordered field: no NaN, no infinity.
Not a definition of the repository. -/
instance fieldArith (K : Type u) [Field K] [LinearOrder K] : Arith K where
  add := (· + ·)
  sub := (· - ·)
  mul := (· * ·)
  div := (· / ·)
  neg := (- ·)
  absf := fun x => |x|
  lt := fun a b => decide (a < b)
  le := fun a b => decide (a ≤ b)
  lit := fun q => (q : K)
  isNan := fun _ => false
  isInf := fun _ => false

section
variable {K : Type u} [Field K] [LinearOrder K]
@[simp] theorem fAdd (a b : K) : Arith.add a b = a + b := rfl
@[simp] theorem fSub (a b : K) : Arith.sub a b = a - b := rfl
@[simp] theorem fMul (a b : K) : Arith.mul a b = a * b := rfl
@[simp] theorem fDiv (a b : K) : Arith.div a b = a / b := rfl
@[simp] theorem fNeg (a : K) : Arith.neg a = -a := rfl
@[simp] theorem fAbs (a : K) : Arith.absf a = |a| := rfl
@[simp] theorem fLit (q : ℚ) : (Arith.lit q : K) = (q : K) := rfl
@[simp] theorem fLt (a b : K) : Arith.lt a b = decide (a < b) := rfl
@[simp] theorem fLe (a b : K) : Arith.le a b = decide (a ≤ b) := rfl
@[simp] theorem fNan (a : K) : Arith.isNan a = false := rfl
@[simp] theorem fInf (a : K) : Arith.isInf a = false := rfl
end

instance fieldLawful (K : Type u) [Field K] [LinearOrder K] [IsStrictOrderedRing K] :
    LawfulOrd K where
  lt_nan := fun _ => ⟨rfl, rfl⟩
  le_nan := fun _ => ⟨rfl, rfl⟩
  le_of_not_lt := by intro a b _ _ h; simpa using h
  not_lt_of_le := by intro a b h; simpa using h
  le_of_lt := by intro a b h; simp only [fLt, fLe, decide_eq_true_eq] at *; exact h.le
  le_refl := by intro a _; simp
  le_trans := by intro a b c h1 h2; simp only [fLe, decide_eq_true_eq] at *; exact h1.trans h2
  lit_lt := by
    intro m n _ _ h
    simp only [fLt, fLit, decide_eq_true_eq, Rat.cast_lt, Int.cast_lt]
    exact_mod_cast h

end Verif
