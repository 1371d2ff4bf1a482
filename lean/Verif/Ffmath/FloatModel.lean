import Verif.Ffmath.Model
import Verif.F32.Ops

/-!
# Model of the arithmetic functions of `/repo/src/ffmath.cpp` (lines 113-909)

`float` values are bit patterns and every operator rounds (`Verif.F32.Ops`). Decimal literals are
`lit`. A conversion to `int32_t` that is out of range (or of a NaN) is `Out.ub`.
-/

namespace Verif.Ffmath

open Verif F32

local infixl:65 " +ᶠ " => F32.add
local infixl:65 " -ᶠ " => F32.sub
local infixl:70 " *ᶠ " => F32.mul
local infixl:70 " /ᶠ " => F32.div
local notation:50 a:51 " <ᶠ " b:51 => F32.lt a b
local notation:50 a:51 " ≤ᶠ " b:51 => F32.le a b

/-- `limits::Min()` (`FLT_MIN`), `/repo/src/ffmath.cpp` line 15. -/
def fltMin : BitVec 32 := 0x00800000#32
/-- `limits::Max()` (`FLT_MAX`), `/repo/src/ffmath.cpp` line 16. -/
def fltMax : BitVec 32 := 0x7F7FFFFF#32
/-- `limits::epsilon()` (`FLT_EPSILON`), `/repo/src/ffmath.cpp` line 17. -/
def epsilon : BitVec 32 := 0x34000000#32

/-- `FFP_LOG2E`, `/repo/src/include/ffmath.hpp` line 1059. -/
def FFP_LOG2E : BitVec 32 := lit 1.442695040888963407359924681001892137
/-- `FFP_LN2`, `/repo/src/include/ffmath.hpp` line 1063. -/
def FFP_LN2 : BitVec 32 := lit 0.693147180559945309417232121458176568
/-- `FFP_PI`, `/repo/src/include/ffmath.hpp` line 1067. -/
def FFP_PI : BitVec 32 := lit 3.141592653589793238462643383279502884
/-- `FFP_2PI`, `/repo/src/include/ffmath.hpp` line 1069. -/
def FFP_2PI : BitVec 32 := lit 6.283185307179586231995926937088370323
/-- `FFP_PI_2`, `/repo/src/include/ffmath.hpp` line 1071. -/
def FFP_PI_2 : BitVec 32 := lit 1.570796326794896557998981734272092580
/-- `FFP_1_PI`, `/repo/src/include/ffmath.hpp` line 1075. -/
def FFP_1_PI : BitVec 32 := lit 0.318309886183790671537767526745028724
/-- `FFP_SQRT2`, `/repo/src/include/ffmath.hpp` line 1083. -/
def FFP_SQRT2 : BitVec 32 := lit 1.414213562373095048801688724209698079
/-- `FFP_LOG10_2`, `/repo/src/include/ffmath.hpp` line 1099. -/
def FFP_LOG10_2 : BitVec 32 := lit 0.301029995663981198017467022509663366

/-- `ffmath::isEqual` with an explicit tolerance, `/repo/src/ffmath.cpp` lines 113-118. -/
def isEqualTol (a b tol : BitVec 32) : Bool := absolute (a -ᶠ b) ≤ᶠ absolute tol

/-- `ffmath::isEqual` with the default tolerance, `/repo/src/ffmath.cpp` lines 113-118,
`/repo/src/include/ffmath.hpp` lines 50-52. -/
def isEqual (a b : BitVec 32) : Bool := isEqualTol a b (lit 1.175494351e-38)

/-- `static_cast<int32_t>( x )`: truncation, undefined when the result does not fit or `x` is not
finite. Used by `/repo/src/ffmath.cpp` lines 537, 1001. -/
def toI32 (x : BitVec 32) : Out ℤ :=
  let t : ℤ := if neg x then -⌊-val x⌋ else ⌊val x⌋
  if Finite x ∧ -2147483648 ≤ t ∧ t < 2147483648 then .ok t else .ub

/-- `ffmath::recip`, `/repo/src/ffmath.cpp` lines 190-199. -/
def recip (x : BitVec 32) : BitVec 32 :=
  let y := 0x7EF311C7#32 - x
  let z := y
  z *ᶠ (lit 2 -ᶠ (x *ᶠ z))

/-- `ffmath::sqrt`, `/repo/src/ffmath.cpp` lines 201-222. -/
def sqrt (x : BitVec 32) : BitVec 32 :=
  if x <ᶠ lit 0 then nan
  else if Class.zero = classify x then lit 0
  else
    let y := ((x - 0x00800000#32) >>> 1) + 0x20000000#32
    let z := y
    let z := lit 0.5 *ᶠ ((x /ᶠ z) +ᶠ z)
    lit 0.5 *ᶠ ((x /ᶠ z) +ᶠ z)

/-- `ffmath::rSqrt`, `/repo/src/ffmath.cpp` lines 224-244. -/
def rSqrt (x : BitVec 32) : BitVec 32 :=
  if x <ᶠ lit 0 then nan
  else if Class.zero = classify x then inf
  else
    let y := x
    let z := lit 0.5 *ᶠ x
    let y := 0x5F375A86#32 - (y >>> 1)
    let x := y
    x *ᶠ (lit 1.5 -ᶠ (z *ᶠ x *ᶠ x))

/-- `compute_cbrt`, `/repo/src/ffmath.cpp` lines 246-268. -/
def compute_cbrt (x : BitVec 32) (r : Bool) : BitVec 32 :=
  let k0 := lit 1.752319676
  let k1 := lit 1.2509524245
  let k2 := lit 0.5093818292
  let c13 := lit 1 /ᶠ lit 3
  let i := x
  let ng := x <ᶠ lit 0
  let x := if ng then negate x else x
  let i := 0x548C2B4B#32 - (i / 3#32)
  let y := i
  let c := x *ᶠ y *ᶠ y *ᶠ y
  let y := y *ᶠ (k0 -ᶠ (c *ᶠ (k1 -ᶠ (k2 *ᶠ c))))
  let d := x *ᶠ y *ᶠ y
  let c := lit 1 -ᶠ (d *ᶠ y)
  let retVal := lit 1 +ᶠ (c13 *ᶠ c)
  let retVal := retVal *ᶠ (if r then y else d)
  if ng then negate retVal else retVal

/-- `ffmath::cbrt`, `/repo/src/ffmath.cpp` lines 270-273. -/
def cbrt (x : BitVec 32) : BitVec 32 := compute_cbrt x false

/-- `ffmath::rCbrt`, `/repo/src/ffmath.cpp` lines 275-279. -/
def rCbrt (x : BitVec 32) : BitVec 32 := if Class.zero = classify x then inf else compute_cbrt x true

/-- `ffmath::frac`, `/repo/src/ffmath.cpp` lines 399-402. -/
def ffrac (x : BitVec 32) : BitVec 32 := x -ᶠ trunc x

/-- `ffmath::rem`, `/repo/src/ffmath.cpp` lines 404-409. -/
def rem (x y : BitVec 32) : BitVec 32 :=
  if Class.zero = classify x then nan else x -ᶠ (y *ᶠ trunc (x /ᶠ y))

/-- `ffmath::mod`, `/repo/src/ffmath.cpp` lines 411-448. -/
def mod (x y : BitVec 32) : Out (BitVec 32) :=
  if Class.zero = classify y then pure x
  else do
    let f ← floor (x /ᶠ y)
    let m := x -ᶠ (y *ᶠ f)
    if lit 0 <ᶠ y then
      if y ≤ᶠ m then pure (lit 0)
      else if m <ᶠ lit 0 then
        let tmp := y +ᶠ m
        pure (if absolute (tmp -ᶠ y) ≤ᶠ fltMin then lit 0 else tmp)
      else pure m
    else
      if m ≤ᶠ y then pure (lit 0)
      else if lit 0 <ᶠ m then
        let tmp := y +ᶠ m
        pure (if absolute (tmp -ᶠ y) ≤ᶠ fltMin then lit 0 else tmp)
      else pure m

/-- `ffmath::sin`, `/repo/src/ffmath.cpp` lines 450-465. -/
def sin (x : BitVec 32) : BitVec 32 :=
  if absolute x ≤ᶠ lit 0.0066 then x
  else
    let x := x *ᶠ negate FFP_1_PI
    let y := x +ᶠ lit 25165824
    let x := x -ᶠ (y -ᶠ lit 25165824)
    let x := x *ᶠ (absolute x -ᶠ lit 1)
    x *ᶠ ((lit 3.5841304553896 *ᶠ absolute x) +ᶠ lit 3.1039673861526)

/-- `ffmath::cos`, `/repo/src/ffmath.cpp` lines 467-480. -/
def cos (x : BitVec 32) : BitVec 32 :=
  let abs_x := absolute x
  if isEqual abs_x FFP_PI_2 then lit 1.0e-12 else sin (x +ᶠ FFP_PI_2)

/-- `ffmath::tan`, `/repo/src/ffmath.cpp` lines 482-485. -/
def tan (x : BitVec 32) : BitVec 32 := sin x /ᶠ cos x

/-- `ffmath::asin`, `/repo/src/ffmath.cpp` lines 487-491. -/
def asin (x : BitVec 32) : BitVec 32 :=
  let x := sqrt (lit 1 +ᶠ x) -ᶠ sqrt (lit 1 -ᶠ x)
  x *ᶠ ((lit 0.131754508171 *ᶠ absolute x) +ᶠ lit 0.924391722181)

/-- `ffmath::acos`, `/repo/src/ffmath.cpp` lines 493-496. -/
def acos (x : BitVec 32) : BitVec 32 := FFP_PI_2 -ᶠ asin x

/-- `ffmath::atan`, `/repo/src/ffmath.cpp` lines 498-506. -/
def atan (x : BitVec 32) : BitVec 32 :=
  let x := x /ᶠ (absolute x +ᶠ lit 1)
  let abs_x := absolute x
  x *ᶠ ((abs_x *ᶠ ((negate (lit 1.45667498914) *ᶠ abs_x) +ᶠ lit 2.18501248371)) +ᶠ
    lit 0.842458832225)

/-- `ffmath::atan2`, `/repo/src/ffmath.cpp` lines 508-518. -/
def atan2 (y x : BitVec 32) : BitVec 32 :=
  let t := FFP_PI -ᶠ (if y <ᶠ lit 0 then FFP_2PI else lit 0)
  let f := if absolute x ≤ᶠ fltMin then lit 1 else lit 0
  let y := atan (y /ᶠ (x +ᶠ f)) +ᶠ (if x <ᶠ lit 0 then t else lit 0)
  y +ᶠ (f *ᶠ ((lit 0.5 *ᶠ t) -ᶠ y))

/-- `ffmath::exp2`, `/repo/src/ffmath.cpp` lines 520-550. The shift of a negative `int32_t`, or one
that leaves 31 bits, is undefined behaviour. -/
def exp2 (x : BitVec 32) : Out (BitVec 32) :=
  if x ≤ᶠ negate (lit 126) then pure (lit 0)
  else if lit 128 <ᶠ x then pure inf
  else do
    let ip ← floor (x +ᶠ lit 0.5)
    let fp := x -ᶠ ip
    let n ← toI32 ip
    if 0 ≤ n + 127 ∧ (n + 127) * 8388608 < 2147483648 then
      let ep_i := BitVec.ofInt 32 ((n + 127) * 8388608)
      let x := lit 1.535336188319500e-4
      let x := (x *ᶠ fp) +ᶠ lit 1.339887440266574e-3
      let x := (x *ᶠ fp) +ᶠ lit 9.618437357674640e-3
      let x := (x *ᶠ fp) +ᶠ lit 5.550332471162809e-2
      let x := (x *ᶠ fp) +ᶠ lit 2.402264791363012e-1
      let x := (x *ᶠ fp) +ᶠ lit 6.931472028550421e-1
      let x := (x *ᶠ fp) +ᶠ lit 1
      pure (x *ᶠ ep_i)
    else .ub

/-- `ffmath::log2`, `/repo/src/ffmath.cpp` lines 552-597 (2139095040 is `0x7F800000`, 8388607 is
`0x007FFFFF`, 1065353216 is `0x3F800000`; the sign bit of `ip` is clear, so `>>` is a division). -/
def log2 (x : BitVec 32) : BitVec 32 :=
  if x <ᶠ lit 0 then nan
  else if Class.zero = classify x then negate inf
  else
    let val_i := x
    let fp := val_i &&& 8388607#32
    let ip := val_i &&& 2139095040#32
    let fp := fp ||| 1065353216#32
    let x := fp
    let ip : ℤ := (ip >>> 23).toInt - 127
    let (x, ip) := if FFP_SQRT2 <ᶠ x then (x *ᶠ lit 0.5, ip + 1) else (x, ip)
    let x := x -ᶠ lit 1
    let px := lit 7.0376836292e-2
    let px := (px *ᶠ x) -ᶠ lit 1.1514610310e-1
    let px := (px *ᶠ x) +ᶠ lit 1.1676998740e-1
    let px := (px *ᶠ x) -ᶠ lit 1.2420140846e-1
    let px := (px *ᶠ x) +ᶠ lit 1.4249322787e-1
    let px := (px *ᶠ x) -ᶠ lit 1.6668057665e-1
    let px := (px *ᶠ x) +ᶠ lit 2.0000714765e-1
    let px := (px *ᶠ x) -ᶠ lit 2.4999993993e-1
    let px := (px *ᶠ x) +ᶠ lit 3.3333331174e-1
    let z := x *ᶠ x
    let z := (x *ᶠ z *ᶠ px) -ᶠ (lit 0.5 *ᶠ z) +ᶠ x
    let z := z *ᶠ FFP_LOG2E
    rnd false (ip : ℚ) +ᶠ z

/-- `ffmath::exp`, `/repo/src/ffmath.cpp` lines 599-602. -/
def exp (x : BitVec 32) : Out (BitVec 32) := exp2 (FFP_LOG2E *ᶠ x)

/-- `ffmath::expm1`, `/repo/src/ffmath.cpp` lines 604-607. -/
def expm1 (x : BitVec 32) : Out (BitVec 32) := do pure ((← exp2 (FFP_LOG2E *ᶠ x)) -ᶠ lit 1)

/-- `ffmath::exp10`, `/repo/src/ffmath.cpp` lines 609-612. -/
def exp10 (x : BitVec 32) : Out (BitVec 32) := exp2 (lit 3.32192809 *ᶠ x)

/-- `ffmath::log`, `/repo/src/ffmath.cpp` lines 614-617. -/
def log (x : BitVec 32) : BitVec 32 := FFP_LN2 *ᶠ log2 x

/-- `ffmath::log1p`, `/repo/src/ffmath.cpp` lines 619-622. -/
def log1p (x : BitVec 32) : BitVec 32 := FFP_LN2 *ᶠ log2 (lit 1 +ᶠ x)

/-- `ffmath::log10`, `/repo/src/ffmath.cpp` lines 624-627. -/
def log10 (x : BitVec 32) : BitVec 32 := FFP_LOG10_2 *ᶠ log2 x

/-- `ffmath::pow`, `/repo/src/ffmath.cpp` lines 629-633. -/
def pow (b e : BitVec 32) : Out (BitVec 32) := exp2 (e *ᶠ log2 b)

/-- `ffmath::sinh`, `/repo/src/ffmath.cpp` lines 635-641. -/
def sinh (x : BitVec 32) : Out (BitVec 32) := do
  let epx ← exp x
  let enx := lit 1 /ᶠ epx
  pure (lit 0.5 *ᶠ (epx -ᶠ enx))

/-- `ffmath::cosh`, `/repo/src/ffmath.cpp` lines 643-649. -/
def cosh (x : BitVec 32) : Out (BitVec 32) := do
  let epx ← exp x
  let enx := lit 1 /ᶠ epx
  pure (lit 0.5 *ᶠ (epx +ᶠ enx))

/-- `ffmath::tanh`, `/repo/src/ffmath.cpp` lines 651-655. -/
def tanh (x : BitVec 32) : Out (BitVec 32) := do
  let x ← exp (negate (lit 2) *ᶠ x)
  pure ((lit 1 -ᶠ x) /ᶠ (lit 1 +ᶠ x))

/-- `ffmath::asinh`, `/repo/src/ffmath.cpp` lines 657-660. -/
def asinh (x : BitVec 32) : BitVec 32 := log (x +ᶠ sqrt ((x *ᶠ x) +ᶠ lit 1))

/-- `ffmath::acosh`, `/repo/src/ffmath.cpp` lines 662-666. -/
def acosh (x : BitVec 32) : BitVec 32 :=
  if x <ᶠ lit 1 then nan else log (x +ᶠ sqrt ((x *ᶠ x) -ᶠ lit 1))

/-- `ffmath::atanh`, `/repo/src/ffmath.cpp` lines 668-671. -/
def atanh (x : BitVec 32) : BitVec 32 := log ((lit 1 +ᶠ x) /ᶠ (lit 1 -ᶠ x)) *ᶠ lit 0.5

/-- `ffmath::wrapToPi`, `/repo/src/ffmath.cpp` lines 673-676. -/
def wrapToPi (x : BitVec 32) : Out (BitVec 32) := do pure ((← mod (x +ᶠ FFP_PI) FFP_2PI) -ᶠ FFP_PI)

/-- `ffmath::wrapTo2Pi`, `/repo/src/ffmath.cpp` lines 678-681. -/
def wrapTo2Pi (x : BitVec 32) : Out (BitVec 32) := mod x FFP_2PI

/-- `ffmath::wrapTo180`, `/repo/src/ffmath.cpp` lines 683-686. -/
def wrapTo180 (x : BitVec 32) : Out (BitVec 32) := do
  pure ((← mod (x +ᶠ lit 180) (lit 360)) -ᶠ lit 180)

/-- `ffmath::wrapTo360`, `/repo/src/ffmath.cpp` lines 688-691. -/
def wrapTo360 (x : BitVec 32) : Out (BitVec 32) := mod x (lit 360)

/-- `ffmath::midpoint`, `/repo/src/ffmath.cpp` lines 693-716. -/
def midpoint (a b : BitVec 32) : BitVec 32 :=
  let lo := lit 2 *ᶠ fltMin
  let hi := lit 0.5 *ᶠ fltMax
  let abs_a := absolute a
  let abs_b := absolute b
  if abs_a ≤ᶠ hi && abs_b ≤ᶠ hi then lit 0.5 *ᶠ (a +ᶠ b)
  else if abs_a <ᶠ lo then a +ᶠ (lit 0.5 *ᶠ b)
  else if abs_b <ᶠ lo then (lit 0.5 *ᶠ a) +ᶠ b
  else (lit 0.5 *ᶠ a) +ᶠ (lit 0.5 *ᶠ b)

/-- `ffmath::lerp`, `/repo/src/ffmath.cpp` lines 718-737. -/
def lerp (a b t : BitVec 32) : BitVec 32 :=
  if (a ≤ᶠ lit 0 && lit 0 ≤ᶠ b) || (lit 0 ≤ᶠ a && b ≤ᶠ lit 0) then
    (t *ᶠ b) +ᶠ (a *ᶠ (lit 1 -ᶠ t))
  else if isEqual t (lit 1) then b
  else
    let x := a +ᶠ t *ᶠ (b -ᶠ a)
    if (lit 1 <ᶠ t) == (a <ᶠ b) then (if b <ᶠ x then x else b) else (if x <ᶠ b then x else b)

/-- `ffmath::normalize`, `/repo/src/ffmath.cpp` lines 739-744. -/
def normalize (x xMin xMax : BitVec 32) : BitVec 32 := (x -ᶠ xMin) /ᶠ (xMax -ᶠ xMin)

/-- `ffmath::map`, `/repo/src/ffmath.cpp` lines 746-753. -/
def map (x xMin xMax yMin yMax : BitVec 32) : BitVec 32 :=
  ((yMax -ᶠ yMin) *ᶠ normalize x xMin xMax) +ᶠ yMin

/-- `ffmath::inCircle`, `/repo/src/ffmath.cpp` lines 814-822. -/
def inCircle (x y cx cy r : BitVec 32) : Bool :=
  let d := ((x -ᶠ cx) *ᶠ (x -ᶠ cx)) +ᶠ ((y -ᶠ cy) *ᶠ (y -ᶠ cy))
  d ≤ᶠ (r *ᶠ r)

/-- `ffmath::erf`, `/repo/src/ffmath.cpp` lines 824-837. -/
def erf (x : BitVec 32) : Out (BitVec 32) :=
  if lit 6.912 ≤ᶠ x then pure (lit 1)
  else do
    let x ← exp (lit 3.472034176 *ᶠ x)
    pure ((x /ᶠ ((absolute x +ᶠ lit 1) *ᶠ lit 2)) -ᶠ lit 1)

/-- `ffmath::erfc`, `/repo/src/ffmath.cpp` lines 839-842. -/
def erfc (x : BitVec 32) : Out (BitVec 32) := do pure (lit 1 -ᶠ (← erf x))

/-- `ffmath::hypot`, `/repo/src/ffmath.cpp` lines 877-909. -/
def hypot (x y : BitVec 32) : Out (BitVec 32) :=
  let xClass := classify x
  let yClass := classify y
  if xClass.toNat < Class.infinite.toNat ∧ yClass.toNat < Class.infinite.toNat then do
    let (a, b) := if y ≤ᶠ x then (x, y) else (y, x)
    let (an, e) := rexp a
    let bn ← ldexp b (BitVec.ofInt 32 (-e))
    let retVal := sqrt ((an *ᶠ an) +ᶠ (bn *ᶠ bn))
    ldexp retVal (BitVec.ofInt 32 e)
  else pure (if Class.infinite = xClass ∨ Class.infinite = yClass then inf else nan)

end Verif.Ffmath
