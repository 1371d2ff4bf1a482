import Verif.Base
import Verif.Arith

/-!
# Model of `/repo/src/fis.cpp`, `/repo/src/fisCore.cpp` and `/repo/src/include/fis.hpp`: operators and objects

The instance is modelled after a successful `setup`, which makes every pointer except `wi` and
`ruleWeight` non-null. An array is read and written through `rdArr`/`wrArr`, which are undefined
behaviour outside of it; rule items (`int8_t`) and tags are integers. A null `points` pointer is the
empty array. A pointer to `ioBase` is a function from offsets; stepping from one `fis::input` to the next through a
pointer to its base class (`LinearMF`) is taken to work, both classes having the same layout.
The library functions `exp`, `log`, `pow`, `sqrt`, `cos` of `ffmath` are the uninterpreted ones of
`Trans`. Arithmetic on `size_t` indices does not wrap because the arrays are smaller than memory.
-/

namespace Verif.Fis

open Arith

variable {R : Type} [Arith R]

/-! ## Operators -/

/-- `ffmath::isEqual` with its default tolerance. `/repo/src/ffmath.cpp` lines 113-118 and
`/repo/src/include/ffmath.hpp` lines 50-52. -/
def isEqual (a b : R) : Bool := absf (a -. b) ≤. absf (lit (1 / 2 ^ 126) : R)

/-- `fis::core::bound`, `/repo/src/fisCore.cpp` lines 491-498, that is `ffmath::inRangeCoerce`,
`/repo/src/ffmath.cpp` lines 755-777. -/
def bound (y minValue maxValue : R) : R :=
  if isNan y then minValue
  else if y <. minValue then minValue
  else if maxValue <. y then maxValue
  else y

/-- `bound` with its default limits, `/repo/src/include/fis.hpp` lines 217-219. -/
def bound01 (y : R) : R := bound y (lit 0) (lit 1)

/-- `fis::core::Min`, `/repo/src/fisCore.cpp` lines 500-504. -/
def Min (a b : R) : R := bound01 (if a <. b then a else b)

/-- `fis::core::Prod`, `/repo/src/fisCore.cpp` lines 506-510. -/
def Prod (a b : R) : R := bound01 (a *. b)

/-- `fis::core::Max`, `/repo/src/fisCore.cpp` lines 512-516. -/
def Max (a b : R) : R := bound01 (if b <. a then a else b)

/-- `fis::core::ProbOr`, `/repo/src/fisCore.cpp` lines 518-522. -/
def ProbOr (a b : R) : R := bound01 (a +. b -. (a *. b))

/-- `fis::core::Sum`, `/repo/src/fisCore.cpp` lines 524-528. -/
def Sum (a b : R) : R := bound01 (a +. b)

/-- A pointer to one of the five operators, `/repo/src/include/fis.hpp` line 501. -/
inductive Op where
  | min | prod | max | probOr | sum
  deriving DecidableEq, Repr

/-- Calling through the pointer. `/repo/src/include/fis.hpp` line 501. -/
def Op.app (o : Op) (a b : R) : R :=
  match o with
  | .min => Min a b
  | .prod => Prod a b
  | .max => Max a b
  | .probOr => ProbOr a b
  | .sum => Sum a b

/-! ## Objects -/

/-- `class ioBase`, `/repo/src/include/fis.hpp` lines 129-143; also `class input`, lines 149-157. -/
structure IO (R : Type) where
  min : R
  max : R
  value : R
  deriving DecidableEq, Repr

/-- `class output`, `/repo/src/include/fis.hpp` lines 163-192. The array `v[ 4 ]` is `v0` (`yMax`,
`sum_xy`, `sum_wz`), `v1` (`xSmallest`, `sum_y`, `sum_w`), `v2` (`xLargest`, `halfArea`), `v3` (`sp`,
`currentArea`), see lines 203-214. `xag`, `yag` are null together. `owner` is the instance. -/
structure Output (R : Type) where
  io : IO R
  res : R
  x : R
  y : R
  v0 : R
  v1 : R
  v2 : R
  v3 : R
  ag : Option (Array R × Array R)
  deriving DecidableEq, Repr

/-- `output::getNextX`; `static_cast<real_t>( i )` is exact for the indices below 2^24.
`/repo/src/include/fis.hpp` lines 172-175. -/
def Output.getNextX (o : Output R) (i : Nat) : Output R :=
  { o with x := o.io.min +. ((lit (i : ℚ) +. lit (1 / 2)) *. o.res) }

/-- `mfFunction`: the arguments are the pointers `in` and `p` (as functions of the offset) and `n`.
`/repo/src/include/fis.hpp` lines 195-197. -/
abbrev Shape (R : Type) := (Nat → Out (IO R)) → (Nat → Out R) → Nat → Out R

/-- `class mf`, `/repo/src/include/fis.hpp` lines 335-356. -/
structure MF (R : Type) where
  shape : Option (Shape R)
  points : Array R
  fx : R
  h : R
  index : Nat

/-- `mf::membership`, returning the new object and the result.
`/repo/src/include/fis.hpp` lines 346-351. -/
def MF.membership (m : MF R) (io : Nat → Out (IO R)) (n : Nat) : Out (MF R × R) := do
  let fx ← (match m.shape with
    | some f => do
      let y ← f io (rdArr m.points) n
      pure (m.h *. y)
    | none => pure (lit 0))
  pure ({ m with fx := fx }, fx)

end Verif.Fis
