import Verif.Ffmath.GammaModel

/-!
# Model of the exponential integral of `/repo/src/ffmath.cpp` (lines 1934-2086)

IEEE binary32 arithmetic, as in `FloatModel.lean`. Every loop carries the number of iterations that are left.
-/

namespace Verif.Ffmath

open Verif F32

local infixl:65 " +ᶠ " => F32.add
local infixl:65 " -ᶠ " => F32.sub
local infixl:70 " *ᶠ " => F32.mul
local infixl:70 " /ᶠ " => F32.div
local notation:50 a:51 " <ᶠ " b:51 => F32.lt a b
local notation:50 a:51 " ≤ᶠ " b:51 => F32.le a b

/-- `FFP_GAMMA_E`, `/repo/src/include/ffmath.hpp` line 1093. -/
def FFP_GAMMA_E : BitVec 32 := lit 0.577215664901532860606512090082402431

/-- The loop of `expint_E1_series`, `/repo/src/ffmath.cpp` lines 1941-1955: `fuel` iterations are left, the counter is `i`. -/
def e1SeriesLoop (x : BitVec 32) : (fuel i : ℕ) → (term eSum oSum : BitVec 32) → BitVec 32 × BitVec 32
  | 0, _, _, eSum, oSum => (eSum, oSum)
  | fuel + 1, i, term, eSum, oSum =>
    let j := lit (i : ℚ)
    let term := term *ᶠ (negate x /ᶠ j)
    if absolute term <ᶠ epsilon then (eSum, oSum)
    else if lit 0 ≤ᶠ term then e1SeriesLoop x fuel (i + 1) term (eSum +ᶠ (term /ᶠ j)) oSum
    else e1SeriesLoop x fuel (i + 1) term eSum (oSum +ᶠ (term /ᶠ j))

/-- `expint_E1_series`, `/repo/src/ffmath.cpp` lines 1934-1957. -/
def expintE1Series (x : BitVec 32) : BitVec 32 :=
  let (eSum, oSum) := e1SeriesLoop x 999 1 (lit 1) (lit 0) (lit 0)
  ((negate eSum -ᶠ oSum) -ᶠ FFP_GAMMA_E) -ᶠ log x

/-- The loop of `expint_E1_asymp`, `/repo/src/ffmath.cpp` lines 1966-1980. -/
def e1AsympLoop (x : BitVec 32) : (fuel i : ℕ) → (term eSum oSum : BitVec 32) → BitVec 32 × BitVec 32
  | 0, _, _, eSum, oSum => (eSum, oSum)
  | fuel + 1, i, prev, eSum, oSum =>
    let term := prev *ᶠ (negate (lit (i : ℚ)) /ᶠ x)
    if absolute prev <ᶠ absolute term then (eSum, oSum)
    else if lit 0 ≤ᶠ term then e1AsympLoop x fuel (i + 1) term (eSum +ᶠ term) oSum
    else e1AsympLoop x fuel (i + 1) term eSum (oSum +ᶠ term)

/-- `expint_E1_asymp`, `/repo/src/ffmath.cpp` lines 1959-1982. -/
def expintE1Asymp (x : BitVec 32) : Out (BitVec 32) := do
  let (eSum, oSum) := e1AsympLoop x 999 1 (lit 1) (lit 1) (lit 0)
  pure (((← exp (negate x)) *ᶠ (eSum +ᶠ oSum)) /ᶠ x)

/-- The loop of `expint_Ei_asymp`, `/repo/src/ffmath.cpp` lines 1990-1999. -/
def eiAsympLoop (x : BitVec 32) : (fuel i : ℕ) → (term sum : BitVec 32) → BitVec 32
  | 0, _, _, sum => sum
  | fuel + 1, i, prev, sum =>
    let term := prev *ᶠ (negate (lit (i : ℚ)) /ᶠ x)
    if (term <ᶠ epsilon) || (prev ≤ᶠ term) then sum
    else eiAsympLoop x fuel (i + 1) term (sum +ᶠ term)

/-- `expint_Ei_asymp`, `/repo/src/ffmath.cpp` lines 1984-2002. -/
def expintEiAsymp (x : BitVec 32) : Out (BitVec 32) := do
  pure (((← exp x) *ᶠ eiAsympLoop x 999 1 (lit 1) (lit 1)) /ᶠ x)

/-- The loop of `expint_En_cont_frac`, `/repo/src/ffmath.cpp` lines 2017-2030, with the argument `n = 1` of its only call: `nm1` is 0
and `i*( nm1 + i )` at most `10^6`, which an `int` holds. The result is the value of `h` at the break, none without a break. -/
def enLoop : (fuel i : ℕ) → (b c d h : BitVec 32) → Option (BitVec 32)
  | 0, _, _, _, _, _ => none
  | fuel + 1, i, b, c, d, h =>
    let a := negate (lit ((i * i : ℕ) : ℚ))
    let b := b +ᶠ lit 2
    let d := lit 1 /ᶠ ((a *ᶠ d) +ᶠ b)
    let c := b +ᶠ (a /ᶠ c)
    let del := c *ᶠ d
    let h := h *ᶠ del
    if absolute (del -ᶠ lit 1) <ᶠ epsilon then some h else enLoop fuel (i + 1) b c d h

/-- `expint_En_cont_frac`, `/repo/src/ffmath.cpp` lines 2004-2033, for `n = 1`. -/
def expintE1ContFrac (x : BitVec 32) : Out (BitVec 32) := do
  let b := x +ᶠ lit 1
  match enLoop 1000 1 b (lit 1 /ᶠ fltMin) (lit 1 /ᶠ b) (lit 1 /ᶠ b) with
  | some h => pure (h *ᶠ (← exp (negate x)))
  | none => pure nan

/-- The loop of `expint_Ei_series`, `/repo/src/ffmath.cpp` lines 2041-2050. -/
def eiSeriesLoop (x : BitVec 32) : (fuel i : ℕ) → (term sum : BitVec 32) → BitVec 32
  | 0, _, _, sum => sum
  | fuel + 1, i, term, sum =>
    let j := lit (i : ℚ)
    let term := term *ᶠ (x /ᶠ j)
    let sum := sum +ᶠ (term /ᶠ j)
    if term <ᶠ (epsilon *ᶠ sum) then sum else eiSeriesLoop x fuel (i + 1) term sum

/-- `expint_Ei_series`, `/repo/src/ffmath.cpp` lines 2035-2052. -/
def expintEiSeries (x : BitVec 32) : BitVec 32 :=
  (FFP_GAMMA_E +ᶠ eiSeriesLoop x 999 1 (lit 1) (lit 0)) +ᶠ log x

/-- `expint_Ei`, `/repo/src/ffmath.cpp` lines 2054-2081. -/
def expintEi (x : BitVec 32) : Out (BitVec 32) :=
  if x <ᶠ lit 0 then
    let x := negate x
    if x <ᶠ lit 1 then pure (expintE1Series x)
    else if x <ᶠ lit 100 then do pure (negate (← expintE1ContFrac x))
    else do pure (negate (← expintE1Asymp x))
  else if x <ᶠ lit 36.044 then pure (expintEiSeries x)
  else expintEiAsymp x

/-- `ffmath::expint`, `/repo/src/ffmath.cpp` lines 2083-2086. -/
def expint (num : BitVec 32) : Out (BitVec 32) := if IsNaN num then pure nan else expintEi num

end Verif.Ffmath
