import Verif.Base
import Verif.F32.Basic

/-!
# Model of the bit-level functions of `/repo/src/ffmath.cpp`

`float`, `uint32_t` and `int32_t` values are `BitVec 32`; `bit_cast` is the identity. `>>` on a
signed operand is arithmetic; a signed addition that overflows is `Out.ub`. The operators `<`
and `>` on `float` are the IEEE comparisons `F32.lt`.
-/

namespace Verif.Ffmath

open Verif

/-- Signed 32-bit addition, undefined on overflow. Used by `/repo/src/ffmath.cpp` lines 301,
336, 372, 870. -/
def addI (a b : BitVec 32) : Out (BitVec 32) :=
  if -2147483648 ≤ a.toInt + b.toInt ∧ a.toInt + b.toInt < 2147483648 then .ok (a + b) else .ub

/-- `F32_NO_SIGN_MASK`, `/repo/src/ffmath.cpp` line 22. -/
def noSignMask : BitVec 32 := 0x7FFFFFFF#32
/-- `F32_SIGN_MASK`, `/repo/src/ffmath.cpp` line 23. -/
def signMask : BitVec 32 := 0x80000000#32
/-- `limits::infinity()`, `/repo/src/ffmath.cpp` line 18. -/
def inf : BitVec 32 := 0x7F800000#32
/-- `limits::nan()`, `/repo/src/ffmath.cpp` line 19. -/
def nan : BitVec 32 := 0x7FBFFFFF#32

/-- `absolute`, `/repo/src/ffmath.cpp` lines 108-111. -/
def absolute (x : BitVec 32) : BitVec 32 := noSignMask &&& x

/-- `ffmath::absf`, `/repo/src/ffmath.cpp` lines 185-188. -/
def absf (x : BitVec 32) : BitVec 32 := absolute x

/-- `ffmath::classification`, `/repo/src/include/ffmath.hpp` lines 33-39. -/
inductive Class where
  | zero | subnormal | normal | infinite | nan
  deriving DecidableEq, Repr

/-- The numeric value of the enumerator (for `<`), `/repo/src/include/ffmath.hpp` lines 33-39. -/
def Class.toNat : Class → Nat
  | .zero => 0 | .subnormal => 1 | .normal => 2 | .infinite => 3 | .nan => 4

/-- `ffmath::classify`, `/repo/src/ffmath.cpp` lines 130-152. -/
def classify (f : BitVec 32) : Class :=
  let u := f &&& noSignMask
  if 0#32 = u then .zero
  else if u < 0x00800000#32 then .subnormal
  else if u < 0x7F800000#32 then .normal
  else if 0x7F800000#32 = u then .infinite
  else .nan

/-- `ffmath::isNan`, `/repo/src/include/ffmath.hpp` lines 134-137. -/
def isNan (x : BitVec 32) : Bool := decide (Class.nan = classify x)
/-- `ffmath::isInf`, `/repo/src/include/ffmath.hpp` lines 144-147. -/
def isInf (x : BitVec 32) : Bool := decide (Class.infinite = classify x)
/-- `ffmath::isFinite`, `/repo/src/include/ffmath.hpp` lines 155-158. -/
def isFinite (x : BitVec 32) : Bool := decide ((classify x).toNat < Class.infinite.toNat)
/-- `ffmath::isNormal`, `/repo/src/include/ffmath.hpp` lines 166-169. -/
def isNormal (x : BitVec 32) : Bool := decide (Class.normal = classify x)

/-- `ffmath::copysign`, `/repo/src/ffmath.cpp` lines 154-163. -/
def copysign (mag sgn : BitVec 32) : BitVec 32 :=
  let u := mag &&& noSignMask
  u ||| (sgn &&& signMask)

/-- `ffmath::sign`, `/repo/src/ffmath.cpp` lines 165-183 (`1.0F` is `0x3F800000`). -/
def sign (x : BitVec 32) : BitVec 32 :=
  if F32.lt 0#32 x then 0x3F800000#32
  else if F32.lt x 0#32 then 0xBF800000#32
  else if Class.zero = classify x then 0#32
  else nan

/-- `( ( i0 >> 23 ) & 0xFF ) - 0x7F`, `/repo/src/ffmath.cpp` lines 288, 318, 354, 390. -/
def unbiased (i0 : BitVec 32) : Int := ((i0.sshiftRight 23) &&& 0xFF#32).toInt - 0x7F

/-- `ffmath::rounding`, `/repo/src/ffmath.cpp` lines 281-309. -/
def rounding (x : BitVec 32) : Out (BitVec 32) :=
  let i0 := x
  let j0 := unbiased i0
  if j0 < 23 then
    if j0 < 0 then
      let i0 := i0 &&& signMask
      let i0 := if -1 = j0 then i0 ||| 0x3F800000#32 else i0
      pure i0
    else
      let i := (0x007FFFFF#32).sshiftRight j0.toNat
      if 0#32 ≠ i0 &&& i then do
        let i0 ← addI i0 ((0x00400000#32).sshiftRight j0.toNat)
        pure (i0 &&& ~~~i)
      else pure x
  else pure x

/-- `ffmath::floor`, `/repo/src/ffmath.cpp` lines 311-345. -/
def floor (x : BitVec 32) : Out (BitVec 32) :=
  let i0 := x
  let j0 := unbiased i0
  if j0 < 23 then
    if j0 < 0 then
      if i0.toInt ≥ 0 then pure 0#32
      else if 0#32 ≠ i0 &&& noSignMask then pure 0xBF800000#32
      else pure i0
    else
      let i := (0x007FFFFF#32).sshiftRight j0.toNat
      if 0#32 ≠ i0 &&& i then do
        let i0 ← (if i0.toInt < 0 then addI i0 ((0x00800000#32).sshiftRight j0.toNat)
          else pure i0)
        pure (i0 &&& ~~~i)
      else pure x
  else pure x

/-- `ffmath::ceil`, `/repo/src/ffmath.cpp` lines 347-381. -/
def ceil (x : BitVec 32) : Out (BitVec 32) :=
  let i0 := x
  let j0 := unbiased i0
  if j0 < 23 then
    if j0 < 0 then
      if i0.toInt < 0 then pure signMask
      else if 0#32 ≠ i0 then pure 0x3F800000#32
      else pure i0
    else
      let i := (0x007FFFFF#32).sshiftRight j0.toNat
      if 0#32 ≠ i0 &&& i then do
        let i0 ← (if i0.toInt > 0 then addI i0 ((0x00800000#32).sshiftRight j0.toNat)
          else pure i0)
        pure (i0 &&& ~~~i)
      else pure x
  else pure x

/-- `ffmath::trunc`, `/repo/src/ffmath.cpp` lines 383-397. -/
def trunc (x : BitVec 32) : BitVec 32 :=
  let i0 := x
  let sx := i0 &&& signMask
  let j0 := unbiased i0
  if j0 < 23 then
    if j0 < 0 then sx else sx ||| (i0 &&& ~~~((0x007FFFFF#32).sshiftRight j0.toNat))
  else x

/-- `ffmath::inRangeCoerce`, returning the new `x` and the result.
`/repo/src/ffmath.cpp` lines 755-777. -/
def inRangeCoerce (x lowerL upperL : BitVec 32) : BitVec 32 × Bool :=
  if isNan x then (lowerL, false)
  else if F32.lt x lowerL then (lowerL, false)
  else if F32.lt upperL x then (upperL, false)
  else (x, true)

/-- `ffmath::rexp`, returning the mantissa and `pw2[ 0 ]`. `/repo/src/ffmath.cpp` lines 844-859. -/
def rexp (x : BitVec 32) : BitVec 32 × Int :=
  let lu := x
  let iu := (lu >>> 23) &&& 0x000000FF#32
  let i := iu.toInt - 0x7E
  let lu := lu &&& 0x807FFFFF#32
  let lu := lu ||| 0x3F000000#32
  (lu, i)

/-- `ffmath::ldexp`; `pw2` is an `int32_t`. `/repo/src/ffmath.cpp` lines 861-875. -/
def ldexp (x pw2 : BitVec 32) : Out (BitVec 32) := do
  let lu := x
  let eu := (lu >>> 23) &&& 0x000000FF#32
  let e ← addI eu pw2
  pure (((e &&& 0xFF#32) <<< 23) ||| (lu &&& 0x807FFFFF#32))

/-- `ffmath::nextAfter`, `/repo/src/ffmath.cpp` lines 911-941. -/
def nextAfter (x y : BitVec 32) : BitVec 32 :=
  let uxi := x
  let uyi := y
  if isNan x || isNan y then nan
  else if uxi = uyi then y
  else
    let ax := uxi &&& noSignMask
    let ay := uyi &&& noSignMask
    if 0#32 = ax then
      if 0#32 = ay then uyi else (uyi &&& signMask) ||| 1#32
    else if ay < ax ∨ 0#32 ≠ (uxi ^^^ uyi) &&& signMask then uxi - 1#32
    else uxi + 1#32

end Verif.Ffmath
