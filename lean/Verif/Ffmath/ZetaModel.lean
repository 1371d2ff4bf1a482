import Verif.Ffmath.GammaModel

/-!
# Model of the Riemann zeta function of `/repo/src/ffmath.cpp` (lines 2175-2277)

IEEE binary32 arithmetic, as in `FloatModel.lean`. Integers are converted to `float` by `lit`, the nearest float.
-/

namespace Verif.Ffmath

open Verif F32

local infixl:65 " +ᶠ " => F32.add
local infixl:65 " -ᶠ " => F32.sub
local infixl:70 " *ᶠ " => F32.mul
local infixl:70 " /ᶠ " => F32.div
local notation:50 a:51 " <ᶠ " b:51 => F32.lt a b

/-- The inner loop of `riemann_zeta_glob` from index `j` on, `/repo/src/ffmath.cpp` lines 2192-2210; `none` when it sets `punt`.
`fuel` is the number of iterations left, `i + 1 - j`. -/
def globInner (s : BitVec 32) (i : ℕ) : (fuel j : ℕ) → (sgn term : BitVec 32) → Out (Option (BitVec 32))
  | 0, _, _, term => pure (some term)
  | fuel + 1, j, sgn, term => do
    let ii := lit (i : ℚ)
    let jj := lit (j : ℚ)
    let bin_coeff := (lgamma (lit 1 +ᶠ ii) -ᶠ lgamma (lit 1 +ᶠ jj)) -ᶠ lgamma ((lit 1 +ᶠ ii) -ᶠ jj)
    if lit 86.4982335337 <ᶠ bin_coeff then pure none
    else
      let bin_coeff ← exp bin_coeff
      let p ← pow (lit 1 +ᶠ jj) (negate s)
      globInner s i fuel (j + 1) (sgn *ᶠ lit (-1)) (term +ᶠ ((sgn *ᶠ bin_coeff) *ᶠ p))

/-- The outer loop of `riemann_zeta_glob` from index `i` on, `/repo/src/ffmath.cpp` lines 2188-2220. -/
def globLoop (s : BitVec 32) : (fuel i : ℕ) → (num zeta : BitVec 32) → Out (BitVec 32)
  | 0, _, _, zeta => pure zeta
  | fuel + 1, i, num, zeta => do
    match ← globInner s i (i + 1) 0 (lit 1) (lit 0) with
    | none => pure zeta
    | some term =>
      let term := term *ᶠ num
      let zeta := zeta +ᶠ term
      if absolute (term /ᶠ zeta) <ᶠ epsilon then pure zeta
      else globLoop s fuel (i + 1) (num *ᶠ lit 0.5) zeta

/-- The factor of the reflection formula, `/repo/src/ffmath.cpp` lines 2225-2227 (`a = s`) and 2264-2267 (`a = 1 - s`). -/
def zetaReflect (ss a : BitVec 32) : Out (BitVec 32) := do
  let p ← pow (lit 2 *ᶠ FFP_PI) ss
  let e ← exp (lgamma a)
  pure (((p *ᶠ sin (FFP_PI_2 *ᶠ ss)) *ᶠ e) /ᶠ FFP_PI)

/-- `riemann_zeta_glob`, `/repo/src/ffmath.cpp` lines 2175-2230. -/
def riemannZetaGlob (ss : BitVec 32) : Out (BitVec 32) := do
  let isNeg := ss <ᶠ lit 0
  let s := if isNeg then lit 1 -ᶠ ss else ss
  let zeta ← globLoop s 10000 0 (lit 0.5) (lit 0)
  let p ← pow (lit 2) (lit 1 -ᶠ s)
  let zeta := zeta /ᶠ (lit 1 -ᶠ p)
  if isNeg then do
    let r ← zetaReflect ss s
    pure (zeta *ᶠ r)
  else pure zeta

/-- The table `prime`, `/repo/src/ffmath.cpp` lines 2233-2236. -/
def zetaPrimes : List ℕ := [2, 3, 5, 7, 11, 13, 17, 19, 23, 29, 31, 37, 41, 43, 47, 53, 59, 61, 67, 71, 73, 79, 83, 89, 97, 101, 103, 107, 109]

/-- The loop of `riemann_zeta_product` over the remaining primes, `/repo/src/ffmath.cpp` lines 2239-2246. -/
def productLoop (s : BitVec 32) : List ℕ → BitVec 32 → Out (BitVec 32)
  | [], zeta => pure zeta
  | q :: qs, zeta => do
    let p ← pow (lit (q : ℚ)) (negate s)
    let f := lit 1 -ᶠ p
    let zeta := zeta *ᶠ f
    if (lit 1 -ᶠ f) <ᶠ epsilon then pure zeta else productLoop s qs zeta

/-- `riemann_zeta_product`, `/repo/src/ffmath.cpp` lines 2231-2250. -/
def riemannZetaProduct (s : BitVec 32) : Out (BitVec 32) := do
  let zeta ← productLoop s zetaPrimes (lit 1)
  pure (lit 1 /ᶠ zeta)

/-- `ffmath::riemann_zeta`, `/repo/src/ffmath.cpp` lines 2252-2277. -/
def riemann_zeta (s : BitVec 32) : Out (BitVec 32) :=
  if IsNaN s then pure nan
  else if isEqual (lit 1) s then pure inf
  else if s <ᶠ lit (-19) then do
    let z ← riemannZetaProduct (lit 1 -ᶠ s)
    let r ← zetaReflect s (lit 1 -ᶠ s)
    pure (z *ᶠ r)
  else if s <ᶠ lit 20 then riemannZetaGlob s
  else riemannZetaProduct s

end Verif.Ffmath
