import Verif.Base

/-!
# Model of `/repo/src/fp16.cpp` and `/repo/src/include/fp16.hpp`

`fp16Raw_t`/`int32_t`/`int` values are `Int`s in `[-2^31, 2^31)`; signed arithmetic that leaves
the range is `Out.ub`. `uint32_t` values are `Nat`s below `2^32`; unsigned arithmetic wraps.
Bit operations on `int` are done on the two's complement pattern (`toU`, `toI`); a signed left
shift wraps (C++20; a conversion in C++14) and a signed right shift is arithmetic. The
configuration variables `flag_rounding`, `saturation`, `Min`, `Max` are private and no function
of the library writes them, so they are constants here.
-/

namespace Verif.Fp16

/-- `static_cast<uint32_t>` of an `int` (reduction modulo `2^32`), used throughout
`/repo/src/fp16.cpp` lines 39-811. -/
def toU (z : Int) : Nat := (z % 4294967296).toNat

/-- `static_cast<fp16Raw_t>` of a `uint32_t` (two's complement), used throughout
`/repo/src/fp16.cpp` lines 39-811. -/
def toI (n : Nat) : Int :=
  if n % 4294967296 < 2147483648 then ((n % 4294967296 : Nat) : Int)
  else ((n % 4294967296 : Nat) : Int) - 4294967296

/-- Result of a signed 32-bit operation: undefined behaviour when out of range. Used throughout
`/repo/src/fp16.cpp` lines 39-811. -/
def chk (z : Int) : Out Int :=
  if -2147483648 ≤ z ∧ z < 2147483648 then .ok z else .ub

/-- Wrap of an unsigned 32-bit operation. Used throughout `/repo/src/fp16.cpp` lines 39-811. -/
def w32 (n : Nat) : Nat := n % 4294967296

/-- `fp16::Min`, `/repo/src/fp16.cpp` line 23. -/
def Min : Int := -2147483647
/-- `fp16::Max`, `/repo/src/fp16.cpp` line 24. -/
def Max : Int := 2147483647
/-- `fp16::flag_rounding`, `/repo/src/fp16.cpp` line 25 (never written by the library). -/
def flagRounding : Bool := true
/-- `fp16::saturation`, `/repo/src/fp16.cpp` line 26 (never written by the library). -/
def saturation : Bool := false
/-- `fp16::exp_max`, `/repo/src/fp16.cpp` line 27. -/
def expMax : Int := 681391
/-- `fp16::f2`, `/repo/src/fp16.cpp` line 28. -/
def f2 : Int := 131072
/-- `fp16::overflow_mask`, `/repo/src/fp16.cpp` line 29. -/
def overflowMask : Nat := 0x80000000
/-- `fp16::fraction_mask`, `/repo/src/fp16.cpp` line 30. -/
def fractionMask : Nat := 0x0000FFFF
/-- `fp16::integer_mask`, `/repo/src/fp16.cpp` line 31. -/
def integerMask : Nat := 0xFFFF0000
/-- `fp16::f_pi_2`, `/repo/src/fp16.cpp` line 32. -/
def fPi2 : Int := 102944
/-- `fp16::overflow`, `/repo/src/fp16.cpp` line 33. -/
def overflow : Int := -2147483647 - 1
/-- `fp16::one`, `/repo/src/fp16.cpp` line 34. -/
def one : Int := 65536
/-- `fp16::one_half`, `/repo/src/fp16.cpp` line 35. -/
def oneHalf : Int := 32768

/-- `fp16::toInt`, `/repo/src/fp16.cpp` lines 39-56 (`/` truncates toward zero). -/
def toInt (x : Int) : Out Int :=
  if flagRounding then
    if x ≥ 0 then do
      let t ← chk (x + one / 2)
      pure (t.tdiv one)
    else do
      let t ← chk (x - one / 2)
      pure (t.tdiv one)
  else
    pure ((toU x >>> 16 : Nat) : Int)

/-- `fp16::fromInt`, `/repo/src/fp16.cpp` lines 72-75. -/
def fromInt (x : Int) : Int := toI (w32 (toU x <<< 16))

/-- `fp16::saturate`, `/repo/src/fp16.cpp` lines 101-114. -/
def saturate (nsInput x y : Int) : Int :=
  if saturation then
    if overflow = nsInput then
      if decide (x ≥ 0) = decide (y ≥ 0) then Max else Min
    else nsInput
  else nsInput

/-- `fp16::add`, `/repo/src/fp16.cpp` lines 116-129. -/
def add (X Y : Int) : Int :=
  let x := toU X
  let y := toU Y
  let r := w32 (x + y)
  let r := if 0 = (x ^^^ y) &&& overflowMask ∧ 0 ≠ (x ^^^ r) &&& overflowMask
    then toU overflow else r
  saturate (toI r) X X

/-- `fp16::sub`, `/repo/src/fp16.cpp` lines 131-144. -/
def sub (X Y : Int) : Int :=
  let x := toU X
  let y := toU Y
  let r := w32 (x + 4294967296 - y)
  let r := if 0 ≠ (x ^^^ y) &&& overflowMask ∧ 0 ≠ (x ^^^ r) &&& overflowMask
    then toU overflow else r
  saturate (toI r) X X

/-- `fp16::mul`, `/repo/src/fp16.cpp` lines 146-188. -/
def mul (x y : Int) : Out Int := do
  let a := x / 65536
  let c := y / 65536
  let b := toU x &&& 0xFFFF
  let d := toU y &&& 0xFFFF
  let ac ← chk (a * c)
  let adcb := toI (w32 (w32 (toU a * d) + w32 (toU c * b)))
  let bd := w32 (b * d)
  let mulH ← chk (ac + adcb / 65536)
  let tmp := w32 (toU adcb <<< 16)
  let mulL := w32 (bd + tmp)
  let mulH ← (if mulL < bd then chk (mulH + 1) else pure mulH)
  let a := if mulH < 0 then (-1 : Int) else 0
  if a = mulH / 32768 then
    if flagRounding then do
      let tmp2 := mulL
      let mulL := w32 (mulL + 4294967296 - toU oneHalf)
      let mulL := w32 (mulL + 4294967296 - (toU mulH >>> 31))
      let mulH ← (if mulL > tmp2 then chk (mulH - 1) else pure mulH)
      let r := toI (toU (mulH * 65536) ||| (mulL >>> 16))
      let r ← chk (r + 1)
      pure (saturate r x y)
    else
      pure (saturate (toI (toU (mulH * 65536) ||| (mulL >>> 16))) x y)
  else
    pure (saturate overflow x y)

/-- The normalisation loop of `div`, returning `xDiv` and `bit`.
`/repo/src/fp16.cpp` lines 201-204; the first argument is fuel. -/
def divShift (xRem : Nat) : Nat → Nat → Nat → Out (Nat × Nat)
  | 0, _, _ => .diverge
  | fuel + 1, xDiv, bit =>
    if xDiv < xRem then divShift xRem fuel (w32 (xDiv <<< 1)) (w32 (bit <<< 1))
    else .ok (xDiv, bit)

/-- The quotient loop of `div`, returning `quotient` and `xRem`.
`/repo/src/fp16.cpp` lines 220-227; the first argument is fuel. -/
def divLoop (xDiv : Nat) : Nat → Nat → Nat → Nat → Out (Nat × Nat)
  | 0, _, _, _ => .diverge
  | fuel + 1, bit, quotient, xRem =>
    if 0 ≠ bit ∧ 0 ≠ xRem then
      let (quotient, xRem) :=
        if xRem ≥ xDiv then (quotient ||| bit, xRem - xDiv) else (quotient, xRem)
      divLoop xDiv fuel (bit >>> 1) quotient (w32 (xRem <<< 1))
    else .ok (quotient, xRem)

/-- `fp16::div`, `/repo/src/fp16.cpp` lines 190-247. -/
def div (x y : Int) : Out Int :=
  if 0 ≠ y then do
    let nx ← (if x ≥ 0 then pure x else chk (-x))
    let ny ← (if y ≥ 0 then pure y else chk (-y))
    let xRem := toU nx
    let (xDiv, bit) ← divShift xRem 64 (toU ny) 0x10000
    if 0 ≠ bit then do
      let (xDiv, bit, quotient, xRem) :=
        if 0 ≠ xDiv &&& 0x80000000 then
          let (quotient, xRem) :=
            if xRem ≥ xDiv then (0 ||| bit, xRem - xDiv) else (0, xRem)
          (xDiv >>> 1, bit >>> 1, quotient, xRem)
        else (xDiv, bit, 0, xRem)
      let (quotient, xRem) ← divLoop xDiv 64 bit quotient xRem
      let quotient := if flagRounding then
        if xRem ≥ xDiv then w32 (quotient + 1) else quotient
        else quotient
      let r := toI quotient
      let r ← (if 0 ≠ (toU x ^^^ toU y) &&& overflowMask then
          if quotient = toU Min then pure overflow else chk (-r)
        else pure r)
      pure (saturate r x y)
    else pure (saturate overflow x y)
  else pure (saturate Min x y)

/-- `fp16::absolute`, `/repo/src/fp16.cpp` lines 249-261. -/
def absolute (x : Int) : Out Int :=
  if x = Min then pure overflow
  else if x ≥ 0 then pure x else chk (-x)

/-- `fp16::floor`, `/repo/src/include/fp16.hpp` lines 306-311. -/
def floor (x : Int) : Int := toI (toU x &&& integerMask)

/-- `fp16::ceil`, `/repo/src/fp16.cpp` lines 263-269. -/
def ceil (x : Int) : Out Int :=
  let i := toI (toU x &&& integerMask)
  let f := toI (toU x &&& fractionMask)
  if 0 ≠ f then chk (i + one) else pure i

/-- `fp16::rounding`, `/repo/src/include/fp16.hpp` lines 323-326. -/
def rounding (x : Int) : Out Int := chk (x + one)

/-- `fp16::operator-()`, `/repo/src/include/fp16.hpp` lines 150-153. -/
def neg (x : Int) : Out Int := chk (-x)

/-- `fp16::operator>`, `/repo/src/include/fp16.hpp` lines 203-206. -/
def gt (x y : Int) : Bool := decide (x > y)
/-- `fp16::operator>=`, `/repo/src/include/fp16.hpp` lines 207-210. -/
def ge (x y : Int) : Bool := decide (x ≥ y)
/-- `fp16::operator<`, `/repo/src/include/fp16.hpp` lines 211-214. -/
def lt (x y : Int) : Bool := decide (x < y)
/-- `fp16::operator<=`, `/repo/src/include/fp16.hpp` lines 215-218. -/
def le (x y : Int) : Bool := decide (x ≤ y)
/-- `fp16::operator==`, `/repo/src/include/fp16.hpp` lines 219-222. -/
def eq (x y : Int) : Bool := decide (x = y)
/-- `fp16::operator!=`, `/repo/src/include/fp16.hpp` lines 223-226. -/
def ne (x y : Int) : Bool := decide (x ≠ y)

/-- `while ( bit > x ) bit >>= 2` of `sqrt`, `/repo/src/fp16.cpp` lines 283-285 (fuel). -/
def sqrtBit (x : Nat) : Nat → Nat → Out Nat
  | 0, _ => .diverge
  | fuel + 1, bit => if bit > x then sqrtBit x fuel (bit >>> 2) else .ok bit

/-- The digit loop of `sqrt`, returning `x` and `retValue`.
`/repo/src/fp16.cpp` lines 288-297 (fuel). -/
def sqrtLoop : Nat → Nat → Int → Int → Out (Int × Int)
  | 0, _, _, _ => .diverge
  | fuel + 1, bit, x, r =>
    if 0 ≠ bit then do
      let t := toI (w32 (toU r + bit))
      if x ≥ t then do
        let x ← chk (x - t)
        sqrtLoop fuel (bit >>> 2) x (toI (w32 ((toU r >>> 1) + bit)))
      else sqrtLoop fuel (bit >>> 2) x (r / 2)
    else .ok (x, r)

/-- `fp16::sqrt`, `/repo/src/fp16.cpp` lines 271-320. -/
def sqrt (x : Int) : Out Int := do
  let (x, r) ← (if x > 0 then do
      let bit := if 0 ≠ toU x &&& 4293918720 then 1073741824 else 262144
      let bit ← sqrtBit (toU x) 32 bit
      let (x, r) ← sqrtLoop 32 bit x 0
      let (x, r) ← (if x > 65535 then do
          let x ← chk (x - r)
          let x ← chk (toI (toU (x * 65536)) - oneHalf)
          let r ← chk (toI (toU (r * 65536)) + oneHalf)
          pure (x, r)
        else pure (toI (toU (x * 65536)), toI (toU (r * 65536))))
      sqrtLoop 32 (1 <<< 14) x r
    else pure (x, overflow))
  if flagRounding ∧ x > r then chk (r + 1) else pure r

/-- The series loop of `exp`: `n` iterations left, `i` the counter, returning `retValue`.
`/repo/src/fp16.cpp` lines 348-355. -/
def expLoop (x : Int) : Nat → Int → Int → Int → Out Int
  | 0, _, _, r => .ok r
  | n + 1, i, term, r => do
    let q ← div x (fromInt i)
    let term ← mul term q
    let r ← chk (r + term)
    if term < 500 ∧ (i > 15 ∨ term < 20) then .ok r
    else expLoop x n (i + 1) term r

/-- `fp16::exp`, `/repo/src/fp16.cpp` lines 322-365. -/
def exp (x : Int) : Out Int :=
  if 0 = x then pure one
  else if x = one then pure 178145
  else if x ≥ expMax then pure Max
  else if x ≤ -expMax then pure 0
  else do
    let isNegative := decide (x < 0)
    let x ← (if isNegative then chk (-x) else pure x)
    let r ← chk (x + one)
    let r ← expLoop x 28 2 x r
    if isNegative then div one r else pure r

/-- `while ( x > f100 )` of `log`, returning `x` and `scaling`.
`/repo/src/fp16.cpp` lines 378-381 (fuel). -/
def logDown : Nat → Int → Int → Out (Int × Int)
  | 0, _, _ => .diverge
  | fuel + 1, x, s =>
    if x > 6553600 then do
      let x ← div x 3578144
      logDown fuel x (s + 4)
    else .ok (x, s)

/-- `while ( x < one )` of `log`, returning `x` and `scaling`.
`/repo/src/fp16.cpp` lines 383-386 (fuel). -/
def logUp : Nat → Int → Int → Out (Int × Int)
  | 0, _, _ => .diverge
  | fuel + 1, x, s =>
    if x < one then do
      let x ← mul x 3578144
      logUp fuel x (s - 4)
    else .ok (x, s)

/-- The Newton loop of `log` (at most 11 iterations), returning `guess`.
`/repo/src/fp16.cpp` lines 388-397; `n + 1` iterations left. -/
def logNewton (x : Int) : Nat → Int → Out Int
  | n, guess => do
    let e ← exp guess
    let t ← chk (x - e)
    let delta ← div t e
    let delta := if delta > 196608 then 196608 else delta
    let guess ← chk (guess + delta)
    match n with
    | 0 => pure guess
    | n + 1 => if delta > 1 ∨ delta < -1 then logNewton x n guess else pure guess

/-- `fp16::log`, `/repo/src/fp16.cpp` lines 367-403. -/
def log (x : Int) : Out Int :=
  if x > 0 then do
    let (x, s) ← logDown 64 x 0
    let (x, s) ← logUp 64 x s
    let g ← logNewton x 10 f2
    chk (g + fromInt s)
  else pure overflow

/-- `fp16::rs`, `/repo/src/fp16.cpp` lines 405-417. -/
def rs (x : Int) : Out Int :=
  if flagRounding then chk (x / 2 + toI (toU x &&& 1)) else pure (x / 2)

/-- `while ( x >= f2 )` of `log2i`, returning `retValue` and `x`.
`/repo/src/fp16.cpp` lines 423-426 (fuel). -/
def log2iNorm : Nat → Int → Int → Out (Int × Int)
  | 0, _, _ => .diverge
  | fuel + 1, r, x =>
    if x ≥ f2 then do
      let x ← rs x
      log2iNorm fuel (r + 1) x
    else .ok (r, x)

/-- The bit loop of `log2i`, `n` iterations left. `/repo/src/fp16.cpp` lines 433-440. -/
def log2iLoop : Nat → Int → Int → Out (Int × Int)
  | 0, r, x => .ok (r, x)
  | n + 1, r, x => do
    let x ← mul x x
    let r := toI (toU (r * 2))
    if x ≥ f2 then do
      let r := toI (toU r ||| 1)
      let x ← rs x
      log2iLoop n r x
    else log2iLoop n r x

/-- `fp16::log2i`, `/repo/src/fp16.cpp` lines 419-450. -/
def log2i (x : Int) : Out Int := do
  let (r, x) ← log2iNorm 64 0 x
  if 0 = x then pure (toI (toU (r * 65536)))
  else do
    let (r, x) ← log2iLoop 16 r x
    if flagRounding then do
      let x ← mul x x
      if x ≥ f2 then chk (r + 1) else pure r
    else pure r

/-- `fp16::log2`, `/repo/src/fp16.cpp` lines 452-479. -/
def log2 (x : Int) : Out Int := do
  let r ← (if x > 0 then
      if x < one then
        if 1 = x then pure (-1048576)
        else do
          let inv ← div one x
          let l ← log2i inv
          chk (-l)
      else log2i x
    else pure overflow)
  if saturation then
    if overflow = r then pure Min else pure r
  else pure r

/-- `while ( x > lim ) x -= per`. `/repo/src/fp16.cpp` lines 499-501 and 517-519 (fuel). -/
def wrapDown (lim per : Int) : Nat → Int → Out Int
  | 0, _ => .diverge
  | fuel + 1, x => if x > lim then do
      let x ← chk (x - per)
      wrapDown lim per fuel x
    else .ok x

/-- `while ( x <= -lim ) x += per`. `/repo/src/fp16.cpp` lines 502-504 and 520-522 (fuel). -/
def wrapUp (lim per : Int) : Nat → Int → Out Int
  | 0, _ => .diverge
  | fuel + 1, x => if x ≤ -lim then do
      let x ← chk (x + per)
      wrapUp lim per fuel x
    else .ok x

/-- `fp16::wrapToPi`, `/repo/src/fp16.cpp` lines 493-508. -/
def wrapToPi (x : Int) : Out Int :=
  if x < -205887 ∨ x > 205887 then do
    let x ← wrapDown 205887 411775 6000 x
    wrapUp 205887 411775 6000 x
  else pure x

/-- `fp16::wrapTo180`, `/repo/src/fp16.cpp` lines 510-526. -/
def wrapTo180 (x : Int) : Out Int :=
  if x < -11796480 ∨ x > 11796480 then do
    let x ← wrapDown 11796480 23592960 200 x
    wrapUp 11796480 23592960 200 x
  else pure x

/-- `fp16::radToDeg`, `/repo/src/fp16.cpp` lines 481-485. -/
def radToDeg (x : Int) : Out Int := do
  let w ← wrapToPi x
  mul w 3754936

/-- `fp16::degToRad`, `/repo/src/fp16.cpp` lines 487-491. -/
def degToRad (x : Int) : Out Int := do
  let w ← wrapTo180 x
  mul w 1144

/-- `fp16::sin`, `/repo/src/fp16.cpp` lines 528-547 (`/` truncates toward zero). -/
def sin (x : Int) : Out Int := do
  let x ← wrapToPi x
  let x2 ← mul x x
  let r := x
  let x ← mul x x2
  let r ← chk (r - x.tdiv 6)
  let x ← mul x x2
  let r ← chk (r + x.tdiv 120)
  let x ← mul x x2
  let r ← chk (r - x.tdiv 5040)
  let x ← mul x x2
  let r ← chk (r + x.tdiv 362880)
  let x ← mul x x2
  chk (r - x.tdiv 39916800)

/-- `fp16::cos`, `/repo/src/fp16.cpp` lines 549-552. -/
def cos (x : Int) : Out Int := do
  let t ← chk (x + fPi2)
  sin t

/-- `fp16::tan`, `/repo/src/fp16.cpp` lines 554-562. -/
def tan (x : Int) : Out Int := do
  let a ← sin x
  let b ← cos x
  div a b

/-- `fp16::atan2`, `/repo/src/fp16.cpp` lines 564-591; `mask = y >> 28`,
`absY = ( y + mask ) ^ mask`. -/
def atan2 (y x : Int) : Out Int := do
  let mask := y / 268435456
  let ym ← chk (y + mask)
  let absY := toI (toU ym ^^^ toU mask)
  let (r, angle) ← (if x ≥ 0 then do
      let n ← chk (x - absY)
      let d ← chk (x + absY)
      let r ← div n d
      pure (r, (51471 : Int))
    else do
      let n ← chk (x + absY)
      let d ← chk (absY - x)
      let r ← div n d
      pure (r, (154415 : Int)))
  let rr ← mul r r
  let r3 ← mul rr r
  let p ← mul 0x3240 r3
  let q ← mul 0xFB50 r
  let t ← chk (p - q)
  let angle ← chk (angle + t)
  if y < 0 then chk (-angle) else pure angle

/-- `fp16::atan`, `/repo/src/fp16.cpp` lines 593-596. -/
def atan (x : Int) : Out Int := atan2 x one

/-- `fp16::asin`, `/repo/src/fp16.cpp` lines 598-609. -/
def asin (x : Int) : Out Int :=
  if x ≤ one ∧ x ≥ -one then do
    let m ← mul x x
    let r ← chk (one - m)
    let s ← sqrt r
    let r ← div x s
    atan r
  else pure 0

/-- `fp16::acos`, `/repo/src/fp16.cpp` lines 611-614. -/
def acos (x : Int) : Out Int := do
  let a ← asin x
  chk (fPi2 - a)

/-- `fp16::cosh`, `/repo/src/fp16.cpp` lines 616-637. -/
def cosh (x : Int) : Out Int :=
  if 0 = x then pure one
  else if x ≥ expMax ∨ x ≤ -expMax then pure Max
  else do
    let epx ← exp x
    let enx ← exp (-x)
    if overflow ≠ epx ∧ overflow ≠ enx then do
      let r ← chk (epx + enx)
      pure (r / 2)
    else pure overflow

/-- `fp16::sinh`, `/repo/src/fp16.cpp` lines 639-663. -/
def sinh (x : Int) : Out Int :=
  if 0 = x then pure one
  else if x ≥ expMax then pure Max
  else if x ≤ -expMax then chk (-Max)
  else do
    let epx ← exp x
    let enx ← exp (-x)
    if overflow ≠ epx ∧ overflow ≠ enx then do
      let r ← chk (epx - enx)
      pure (r / 2)
    else pure overflow

/-- `fp16::tanh`, `/repo/src/fp16.cpp` lines 665-688. -/
def tanh (x : Int) : Out Int :=
  if 0 = x then pure 0
  else if x > 425984 then pure one
  else if x < -425984 then pure (-one)
  else do
    let r ← absolute x
    let epx ← exp r
    let enx ← exp (-r)
    let n ← chk (epx - enx)
    let d ← chk (epx + enx)
    let r ← div n d
    if x > 0 then pure r else chk (-r)

/-- The loop of `powi`, `n` iterations left. `/repo/src/fp16.cpp` lines 706-711. -/
def powiLoop (x : Int) : Nat → Int → Out Int
  | 0, r => .ok r
  | n + 1, r => do
    let r ← mul x r
    if overflow = r then .ok r else powiLoop x n r

/-- `fp16::powi`, `/repo/src/fp16.cpp` lines 690-715 (`one == n` compares with 65536). -/
def powi (x y : Int) : Out Int :=
  let n := y / 65536
  if 0 = n then pure one
  else if one = n then pure x
  else powiLoop x n.toNat one

/-- `fp16::pow`, `/repo/src/fp16.cpp` lines 717-737. -/
def pow (x y : Int) : Out Int :=
  if 0 = toU y &&& fractionMask ∧ y > 0 then powi x y
  else do
    let a ← absolute x
    let l ← log a
    let tmp ← mul y l
    if overflow ≠ tmp then do
      let r ← exp tmp
      if x < 0 then chk (-r) else pure r
    else pure overflow

/-- `fp16::itoa`, `/repo/src/fp16.cpp` lines 739-757, as the list of characters appended to
the buffer (fuel). A digit above 9 would yield a character after `'9'`. -/
def itoa : Nat → Nat → Nat → Bool → Out (List Char)
  | 0, _, _, _ => .diverge
  | fuel + 1, scale, val, skip =>
    if 0 ≠ scale then
      let digit := val / scale
      if skip = false ∨ 0 ≠ digit ∨ 1 = scale then do
        let rest ← itoa fuel (scale / 10) (val % scale) false
        pure (Char.ofNat ('0'.toNat + digit) :: rest)
      else itoa fuel (scale / 10) val skip
    else .ok []

/-- `iScales`, `/repo/src/fp16.cpp` line 777. -/
def iScales : Array Nat := #[1, 10, 100, 1000, 10000, 100000]

/-- `fp16::toASCII`, `/repo/src/fp16.cpp` lines 759-811, as the list of characters written
before the terminating NUL. -/
def toASCII (num decimals : Int) : Out (List Char) :=
  if overflow = num then pure ['o', 'v', 'e', 'r', 'f', 'l', 'o', 'w']
  else do
    let m ← (if num ≥ 0 then pure num else chk (-num))
    let uValue := toU m
    let sgn := if num < 0 then ['-'] else []
    let iPart := toI (uValue >>> 16)
    let fPart := uValue &&& fractionMask
    let decimals := if decimals > 5 then 5 else decimals
    let decimals := if decimals < 0 then 0 else decimals
    let scale ← rdArr iScales decimals.toNat
    let f ← mul (toI fPart) (toI scale)
    let fPart := toU f
    let (iPart, fPart) ← (if fPart ≥ scale then do
        let i ← chk (iPart + 1)
        pure (i, fPart - scale)
      else pure (iPart, fPart))
    let ip ← itoa 8 10000 (toU iPart) true
    if 1 ≠ scale then do
      let fp ← itoa 8 (scale / 10) fPart false
      pure (sgn ++ ip ++ '.' :: fp)
    else pure (sgn ++ ip)

end Verif.Fp16
