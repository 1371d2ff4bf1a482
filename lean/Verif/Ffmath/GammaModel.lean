import Verif.Ffmath.FloatModel

/-!
# Model of the gamma functions and the factorial of `/repo/src/ffmath.cpp` (lines 943-1284, 1522-1536)

IEEE binary32 arithmetic, as in `FloatModel.lean`.
-/

namespace Verif.Ffmath

open Verif F32

local infixl:65 " +ᶠ " => F32.add
local infixl:65 " -ᶠ " => F32.sub
local infixl:70 " *ᶠ " => F32.mul
local infixl:70 " /ᶠ " => F32.div
local notation:50 a:51 " <ᶠ " b:51 => F32.lt a b
local notation:50 a:51 " ≤ᶠ " b:51 => F32.le a b

/-- `FFP_LN_SQRT_2PI`, `/repo/src/include/ffmath.hpp` line 1091. -/
def FFP_LN_SQRT_2PI : BitVec 32 := lit 0.918938533204672669540968854562379419

/-- A sequence of assignments `den = ( den*z ) + c`, as in `/repo/src/ffmath.cpp` lines 1009-1023 and 1100-1115; a subtraction of
`c` is the addition of `-c`, which is the same operation. -/
def hornerAdd (z : BitVec 32) (cs : List ℚ) (start : BitVec 32) : BitVec 32 :=
  cs.foldl (fun den c => (den *ᶠ z) +ᶠ lit c) start

/-- A sequence of assignments `num = z*( num + c )`, as in `/repo/src/ffmath.cpp` lines 1008-1022. -/
def hornerMul (z : BitVec 32) (cs : List ℚ) (start : BitVec 32) : BitVec 32 :=
  cs.foldl (fun num c => z *ᶠ (num +ᶠ lit c)) start

/-- A sequence of assignments `sum = ( sum/yy ) + c`, as in `/repo/src/ffmath.cpp` lines 1041-1046 and 1190-1195. -/
def hornerDiv (yy : BitVec 32) (cs : List ℚ) (start : BitVec 32) : BitVec 32 :=
  cs.foldl (fun sum c => (sum /ᶠ yy) +ᶠ lit c) start

/-- The coefficients of the numerator, `/repo/src/ffmath.cpp` lines 1008-1022 (even lines). -/
def gammaP : List ℚ := [-1.71618513886549492533811e+0, 2.47656508055759199108314e+1, -3.79804256470945635097577e+2,
  6.29331155312818442661052e+2, 8.66966202790413211295064e+2, -3.14512729688483675254357e+4, -3.61444134186911729807069e+4,
  6.64561438202405440627855e+4]

/-- The coefficients of the denominator, `/repo/src/ffmath.cpp` lines 1009-1023 (odd lines). -/
def gammaQ : List ℚ := [-3.08402300119738975254353e+1, 3.15350626979604161529144e+2, -1.01515636749021914166146e+3,
  -3.10777167157231109440444e+3, 2.25381184209801510330112e+4, 4.75584627752788110767815e+3, -1.34659959864969306392456e+5,
  -1.15132259675553483497211e+5]

/-- The coefficients of the asymptotic series, `/repo/src/ffmath.cpp` lines 1041-1046 and 1190-1195. -/
def stirlingC : List ℚ := [-1.910444077728e-03, 8.4171387781295e-04, -5.952379913043012e-04, 7.93650793500350248e-04,
  -2.777777777777681622553e-03, 8.333333333333333331554247e-02]

/-- The loop of `/repo/src/ffmath.cpp` lines 1030-1033; the state is `(result, y)`. -/
def gammaLoop : Nat → BitVec 32 × BitVec 32 → BitVec 32 × BitVec 32
  | 0, s => s
  | n + 1, s => gammaLoop n (s.1 *ᶠ s.2, s.2 +ᶠ lit 1)

/-- The branch `y < 12` of `ffmath::tgamma`, `/repo/src/ffmath.cpp` lines 991-1035. -/
def gammaMid (y : BitVec 32) : Out (BitVec 32) := do
  let y1 := y
  let (n, y, z) ← (if y <ᶠ lit 1 then pure (0, y +ᶠ lit 1, y)
    else do
      let n := (← toI32 y) - 1
      let y := y -ᶠ lit n
      pure (n, y, y -ᶠ lit 1))
  let num := hornerMul z gammaP (lit 0)
  let den := hornerAdd z gammaQ (lit 1)
  let result := (num /ᶠ den) +ᶠ lit 1
  pure (if y1 <ᶠ y then result /ᶠ y1
    else if y <ᶠ y1 then (gammaLoop n.toNat (result, y)).1
    else result)

/-- The branch `12 <= y` of `ffmath::tgamma`, `/repo/src/ffmath.cpp` lines 1036-1054. -/
def gammaLarge (x y : BitVec 32) : Out (BitVec 32) :=
  if x ≤ᶠ lit 171.624 then
    let yy := y *ᶠ y
    let sum := hornerDiv yy stirlingC (lit 5.7083835261e-03)
    let sum := (sum /ᶠ y) -ᶠ y +ᶠ FFP_LN_SQRT_2PI
    let sum := sum +ᶠ ((y -ᶠ lit 0.5) *ᶠ log y)
    exp sum
  else pure inf

/-- The three ranges of `y` of `ffmath::tgamma`, `/repo/src/ffmath.cpp` lines 983-1054. -/
def gammaPos (x y : BitVec 32) : Out (BitVec 32) :=
  if y <ᶠ epsilon then pure (if fltMin ≤ᶠ y then lit 1 /ᶠ y else inf)
  else if y <ᶠ lit 12 then gammaMid y
  else gammaLarge x y

/-- `ffmath::tgamma`, `/repo/src/ffmath.cpp` lines 943-1066. -/
def tgamma (x : BitVec 32) : Out (BitVec 32) :=
  let fClass := classify x
  if Class.nan = fClass then pure nan
  else if Class.zero = fClass then pure inf
  else if Class.infinite = fClass then pure (if lit 0 <ᶠ x then inf else nan)
  else if x ≤ᶠ lit 0 then
    let y := negate x
    let y1 := trunc y
    let isItAnInt := y -ᶠ y1
    if !isEqual (lit 0) isItAnInt then do
      let tmp := lit 2 *ᶠ trunc (y1 *ᶠ lit 0.5)
      let parity := !isEqual y1 tmp
      let fact := negate FFP_PI /ᶠ sin (FFP_PI *ᶠ isItAnInt)
      let result ← gammaPos x (y +ᶠ lit 1)
      let result := if parity then negate result else result
      pure (if !isEqual fact (lit 1) then fact /ᶠ result else result)
    else pure nan
  else gammaPos x x

/-- The numerator of `/repo/src/ffmath.cpp` lines 1100-1107. -/
def lgP1 : List ℚ := [4.945235359296727046734888e+0, 2.018112620856775083915565e+2, 2.290838373831346393026739e+3,
  1.131967205903380828685045e+4, 2.855724635671635335736389e+4, 3.848496228443793359990269e+4, 2.637748787624195437963534e+4,
  7.225813979700288197698961e+3]
/-- The denominator of `/repo/src/ffmath.cpp` lines 1108-1115. -/
def lgQ1 : List ℚ := [6.748212550303777196073036e+1, 1.113332393857199323513008e+3, 7.738757056935398733233834e+3,
  2.763987074403340708898585e+4, 5.499310206226157329794414e+4, 6.161122180066002127833352e+4, 3.635127591501940507276287e+4,
  8.785536302431013170870835e+3]
/-- The numerator of `/repo/src/ffmath.cpp` lines 1122-1129 and 1145-1152. -/
def lgP2 : List ℚ := [4.974607845568932035012064e+0, 5.424138599891070494101986e+2, 1.550693864978364947665077e+4,
  1.847932904445632425417223e+5, 1.088204769468828767498470e+6, 3.338152967987029735917223e+6, 5.106661678927352456275255e+6,
  3.074109054850539556250927e+6]
/-- The denominator of `/repo/src/ffmath.cpp` lines 1130-1137 and 1153-1160. -/
def lgQ2 : List ℚ := [1.830328399370592604055942e+2, 7.765049321445005871323047e+3, 1.331903827966074194402448e+5,
  1.136705821321969608938755e+6, 5.267964117437946917577538e+6, 1.346701454311101692290052e+7, 1.782736530353274213975932e+7,
  9.533095591844353613395747e+6]
/-- The numerator of `/repo/src/ffmath.cpp` lines 1167-1174. -/
def lgP4 : List ℚ := [1.474502166059939948905062e+04, 2.426813369486704502836312e+06, 1.214755574045093227939592e+08,
  2.663432449630976949898078e+09, 2.940378956634553899906876e+10, 1.702665737765398868392998e+11, 4.926125793377430887588120e+11,
  5.606251856223951465078242e+11]
/-- The denominator of `/repo/src/ffmath.cpp` lines 1175-1182. -/
def lgQ4 : List ℚ := [2.690530175870899333379843e+03, 6.393885654300092398984238e+05, 4.135599930241388052042842e+07,
  1.120872109616147941376570e+09, 1.488613728678813811542398e+10, 1.016803586272438228077304e+11, 3.417476345507377132798597e+11,
  4.463158187419713286462081e+11]

/-- `lgamma_positive`, `/repo/src/ffmath.cpp` lines 1068-1205. -/
def lgammaPositive (x : BitVec 32) : BitVec 32 :=
  let d1 := lit (-5.772156649015328605195174e-1)
  let d2 := lit 4.227843350984671393993777e-1
  let d4 := lit 1.791759469228055000094023e+0
  let pnt68 := lit 0.6796875
  if lit 171.624 <ᶠ x then inf
  else
    let y := x
    if y ≤ᶠ epsilon then negate (log y)
    else if y ≤ᶠ lit 1.5 then
      let (corrector, xMinus) := if y <ᶠ pnt68 then (negate (log y), y) else (lit 0, (y -ᶠ lit 0.5) -ᶠ lit 0.5)
      if (y ≤ᶠ lit 0.5) || (pnt68 ≤ᶠ y) then
        let num := hornerAdd xMinus lgP1 (lit 0)
        let den := hornerAdd xMinus lgQ1 (lit 1)
        corrector +ᶠ (xMinus *ᶠ (d1 +ᶠ (xMinus *ᶠ (num /ᶠ den))))
      else
        let xMinus := (y -ᶠ lit 0.5) -ᶠ lit 0.5
        let num := hornerAdd xMinus lgP2 (lit 0)
        let den := hornerAdd xMinus lgQ2 (lit 1)
        corrector +ᶠ (xMinus *ᶠ (d2 +ᶠ (xMinus *ᶠ (num /ᶠ den))))
    else if y ≤ᶠ lit 4 then
      let xMinus := y -ᶠ lit 2
      let num := hornerAdd xMinus lgP2 (lit 0)
      let den := hornerAdd xMinus lgQ2 (lit 1)
      xMinus *ᶠ (d2 +ᶠ (xMinus *ᶠ (num /ᶠ den)))
    else if y ≤ᶠ lit 12 then
      let xMinus := y -ᶠ lit 4
      let num := hornerAdd xMinus lgP4 (lit 0)
      let den := hornerAdd xMinus lgQ4 (negate (lit 1))
      d4 +ᶠ (xMinus *ᶠ (num /ᶠ den))
    else
      let result := if y ≤ᶠ lit 4294967296.87842273712158203125 then hornerDiv (y *ᶠ y) stirlingC (lit 5.7083835261e-03) else lit 0
      let result := result /ᶠ y
      let corrector := log y
      let result := result +ᶠ (FFP_LN_SQRT_2PI -ᶠ (lit 0.5 *ᶠ corrector))
      result +ᶠ (y *ᶠ (corrector -ᶠ lit 1))

/-- `ffmath::lgamma`, `/repo/src/ffmath.cpp` lines 1207-1246. -/
def lgamma (x : BitVec 32) : BitVec 32 :=
  let fClass := classify x
  if Class.nan = fClass then nan
  else if Class.zero = fClass ∨ Class.infinite = fClass then inf
  else if x <ᶠ lit 0 then
    if x ≤ᶠ lit (-4503599627370496) then inf
    else
      let y := negate x
      let y1 := trunc y
      let isItAnInt := y -ᶠ y1
      if isEqual (lit 0) isItAnInt then inf
      else
        let a := sin (FFP_PI *ᶠ isItAnInt)
        log (FFP_PI /ᶠ absolute (a *ᶠ x)) -ᶠ lgammaPositive (negate x)
  else lgammaPositive x

/-- The table of `ffmath::factorial`, `/repo/src/ffmath.cpp` lines 1250-1271. -/
def factTable : Array (BitVec 32) := #[lit 1, lit 1, lit 2, lit 6, lit 24, lit 120, lit 720, lit 5040, lit 40320, lit 362880, lit 3628800,
  lit 39916800, lit 479001600, lit 6227020800, lit 87178291200, lit 1307674368000, lit 20922789888000, lit 355687428096000,
  lit 6402373705728001, lit 121645100408832000, lit 2432902008176640000, lit 51090942171709440000, lit 1124000727777607680000,
  lit 25852016738884978212864, lit 620448401733239544217600, lit 15511210043330988202786816, lit 403291461126605719042260992,
  lit 10888869450418351940239884288, lit 304888344611713836734530715648, lit 8841761993739700772720181510144,
  lit 265252859812191104246398737973248, lit 8222838654177921277277005322125312, lit 263130836933693591553328612565319680,
  lit 8683317618811885938715673895318323200, lit 295232799039604119555149671006000381952]

/-- `static_cast<size_t>( x )`: truncation, undefined when the result does not fit (`size_t` has 64 bits) or `x` is not finite. Used by
`/repo/src/ffmath.cpp` line 1277. -/
def toSize (x : BitVec 32) : Out Nat :=
  let t : ℤ := if neg x then -⌊-val x⌋ else ⌊val x⌋
  if Finite x ∧ 0 ≤ t ∧ t < 18446744073709551616 then .ok t.toNat else .ub

/-- `ffmath::factorial`, `/repo/src/ffmath.cpp` lines 1248-1284. -/
def factorial (x : BitVec 32) : Out (BitVec 32) :=
  if lit 34 <ᶠ x then pure inf
  else if lit 0 ≤ᶠ x then do rdArr factTable (← toSize x)
  else pure nan

/-- `ffmath::beta`, `/repo/src/ffmath.cpp` lines 1522-1536. -/
def beta (x y : BitVec 32) : Out (BitVec 32) :=
  if Class.nan = classify x ∨ Class.nan = classify y then pure nan
  else
    let bet := lgamma x +ᶠ lgamma y -ᶠ lgamma (x +ᶠ y)
    exp bet

end Verif.Ffmath
