import Verif.Ffmath.GammaModel
import Verif.Arith

/-!
# Model of the orthogonal polynomials of `/repo/src/ffmath.cpp` (lines 1286-1520, 2088-2173)

Written over an arbitrary arithmetic. The loops run to `n` included, in a `size_t`; they do not end for `n = SIZE_MAX`, which the
documentation excludes (`n < 128`), and the model has no bound on `n`.
-/

namespace Verif.Ffmath

open Verif Arith

/-- The values and functions of `ffmath` that the special functions use (not a definition of the repository): `limits::nan()`,
`limits::infinity()`, `ffmath::isEqual`, `ffmath::sqrt`. -/
class FF (R : Type u) where
  nan : R
  inf : R
  isEqual : R → R → Bool
  sqrt : R → R

/-- In exact arithmetic `isEqual` is equality and `sqrt` the square root (not a definition of the repository). Nothing is assumed
about `nan` and `inf`. -/
class ExactFF (K : Type u) [Field K] [LinearOrder K] [FF K] : Prop where
  isEqual_iff : ∀ a b : K, FF.isEqual a b = true ↔ a = b
  sqrt_sq : ∀ a : K, 0 ≤ a → 0 ≤ FF.sqrt a ∧ FF.sqrt a * FF.sqrt a = a

/-- The binary32 functions. -/
instance ieeeFF : FF (BitVec 32) where
  nan := Ffmath.nan
  inf := Ffmath.inf
  isEqual := Ffmath.isEqual
  sqrt := Ffmath.sqrt

variable {R : Type u} [Arith R] [FF R]

/-! ### Legendre -/

/-- The pair `( p_lm2, p_lm1 )` after `k` iterations of the loop of `ffmath::legendre`, `/repo/src/ffmath.cpp` lines 2160-2167; the
loop of `poly_legendre_p` (lines 1449-1456) is the same. The variable `ll` is `k + 2` in iteration `k`. -/
def legendreLoop (x : R) : Nat → R × R
  | 0 => (lit 1, x)
  | k + 1 =>
    let (p_lm2, p_lm1) := legendreLoop x k
    (p_lm1, ((lit 2 *. x *. p_lm1) -. p_lm2) -. (((x *. p_lm1) -. p_lm2) /. lit ((k + 2 : ℕ) : ℚ)))

/-- `ffmath::legendre`, `/repo/src/ffmath.cpp` lines 2133-2173. -/
def legendre (n : Nat) (x : R) : R :=
  if Arith.isNan x then FF.nan
  else if FF.isEqual (lit 1) x then lit 1
  else if FF.isEqual (lit (-1)) x then (if n % 2 = 1 then lit (-1) else lit 1)
  else if 0 = n then lit 1
  else if 1 = n then x
  else (legendreLoop x (n - 1)).2

/-- `poly_legendre_p`, `/repo/src/ffmath.cpp` lines 1423-1463. -/
def polyLegendreP (l : Nat) (x : R) : R :=
  if Arith.isNan x then FF.nan
  else if FF.isEqual (lit (-1)) x then (if 1 = l % 2 then lit (-1) else lit 1)
  else if 0 = l then lit 1
  else if 1 = l then x
  else (legendreLoop x (l - 1)).2

/-- The pair `( p_mm, fact )` after `k` iterations of the loop of `/repo/src/ffmath.cpp` lines 1486-1489. -/
def assocStart (root : R) : Nat → R × R
  | 0 => (lit 1, lit 1)
  | k + 1 =>
    let (p_mm, fact) := assocStart root k
    (p_mm *. ((lit 1 *. fact) *. root), fact +. lit 2)

/-- The pair `( p_lm2m, p_lm1m )` after `k` iterations of the loop of `/repo/src/ffmath.cpp` lines 1507-1513, from the pair `s`; the
variable `i` is `m + 2 + k` in iteration `k`. -/
def assocLoop (x : R) (m : Nat) (s : R × R) : Nat → R × R
  | 0 => s
  | k + 1 =>
    let (p_lm2m, p_lm1m) := assocLoop x m s k
    let j : R := lit ((m + 2 + k : ℕ) : ℚ)
    let M : R := lit (m : ℚ)
    (p_lm1m, (((lit 2 *. j) -. lit 1) *. x *. p_lm1m) -. (((j +. M) -. lit 1) *. p_lm2m /. (j -. M)))

/-- `ffmath::assoc_legendre`, `/repo/src/ffmath.cpp` lines 1465-1520. -/
def assocLegendre (n m : Nat) (x : R) : R :=
  if m > n then lit 0
  else if Arith.isNan x then FF.nan
  else if 0 = m then polyLegendreP n x
  else
    let root := FF.sqrt (lit 1 -. x) *. FF.sqrt (lit 1 +. x)
    let p_mm := (assocStart root m).1
    if n = m then p_mm
    else
      let p_mp1m := ((lit 2 *. lit (m : ℚ)) +. lit 1) *. x *. p_mm
      if n = m + 1 then p_mp1m
      else (assocLoop x m (p_mm, p_mp1m) (n - m - 1)).2

/-! ### Hermite -/

/-- The pair `( H_nm2, H_nm1 )` after `k` iterations of the loop of `/repo/src/ffmath.cpp` lines 2112-2119; the variable `j` is
`k + 1` in iteration `k`. -/
def hermiteLoop (x : R) : Nat → R × R
  | 0 => (lit 1, lit 2 *. x)
  | k + 1 =>
    let (H_nm2, H_nm1) := hermiteLoop x k
    (H_nm1, lit 2 *. ((x *. H_nm1) -. (lit ((k + 1 : ℕ) : ℚ) *. H_nm2)))

/-- `ffmath::hermite`, `/repo/src/ffmath.cpp` lines 2088-2125. -/
def hermite (n : Nat) (x : R) : R :=
  if Arith.isNan x then FF.nan
  else if 0 = n then lit 1
  else if 1 = n then lit 2 *. x
  else (hermiteLoop x (n - 1)).2

/-! ### Laguerre -/

/-- The pair `( ln2, ln1 )` after `k` iterations of the loop of `/repo/src/ffmath.cpp` lines 1305-1313; the variable `nn` is `k + 2`
in iteration `k`. -/
def laguerreLoop (alpha x : R) : Nat → R × R
  | 0 => (lit 1, ((-. x) +. lit 1) +. alpha)
  | k + 1 =>
    let (ln2, ln1) := laguerreLoop alpha x k
    let nn : R := lit ((k + 2 : ℕ) : ℚ)
    (ln1, (((((lit 2 *. nn) -. lit 1) +. alpha) -. x) *. (ln1 /. nn)) -. (((nn -. lit 1) +. alpha) *. (ln2 /. nn)))

/-- `poly_laguerre_recursion`, `/repo/src/ffmath.cpp` lines 1286-1319. -/
def polyLaguerreRecursion (n : Nat) (alpha x : R) : R :=
  if 0 = n then lit 1
  else if 1 = n then ((-. x) +. lit 1) +. alpha
  else (laguerreLoop alpha x (n - 1)).2

/-- The product of the loop of `/repo/src/ffmath.cpp` lines 1361-1366: `tc` after `k` iterations. -/
def hypergStart (ax : R) : Nat → R
  | 0 => lit 1
  | k + 1 => hypergStart ax k *. (ax /. lit ((k + 1 : ℕ) : ℚ))

/-- The pair `( term, sum )` after `k` iterations of the loop of `/repo/src/ffmath.cpp` lines 1371-1377; the variable `i` is
`n - 1 - k` in iteration `k`. -/
def hypergLoop (n : Nat) (b mx t : R) : Nat → R × R
  | 0 => (t, t)
  | k + 1 =>
    let (term, sum) := hypergLoop n b mx t k
    let kk : R := lit ((n - 1 - k : ℕ) : ℚ)
    let term := term *. ((((b +. kk) /. lit ((k + 1 : ℕ) : ℚ)) *. (kk +. lit 1)) /. mx)
    (term, sum +. term)

/-- `poly_laguerre_hyperg`, `/repo/src/ffmath.cpp` lines 1349-1380. -/
def polyLaguerreHyperg (n : Nat) (alpha x : R) : R :=
  let b := alpha +. lit 1
  let mx := -. x
  let tc_sgn : R := if x <. lit 0 then lit 1 else if 1 = n % 2 then lit (-1) else lit 1
  let ax := Arith.absf x
  let tc := hypergStart ax n
  (hypergLoop n b mx (tc *. tc_sgn) n).2

/-- The product of the loop of `/repo/src/ffmath.cpp` lines 1401-1407: `prod` after `k` iterations; the variable `i` is `k + 2` in
iteration `k`. -/
def laguerreZero (alpha : R) : Nat → R
  | 0 => alpha +. lit 1
  | k + 1 => laguerreZero alpha k *. ((alpha +. lit ((k + 2 : ℕ) : ℚ)) /. lit ((k + 2 : ℕ) : ℚ))

/-- `ffmath::assoc_laguerre`, `/repo/src/ffmath.cpp` lines 1382-1421. The parameter `largeN` is `poly_laguerre_large_n`; its IEEE
instance is `polyLaguerreLargeN`. -/
def assocLaguerre (largeN : Nat → R → R → Out R) (n m : Nat) (x : R) : Out R :=
  let alpha : R := lit (m : ℚ)
  let N : R := lit (n : ℚ)
  if (x <. lit 0) || Arith.isNan x then pure FF.nan
  else if 0 = n then pure (lit 1)
  else if 1 = n then pure ((lit 1 +. alpha) -. x)
  else if FF.isEqual (lit 0) x then pure (laguerreZero alpha (n - 2))
  else if (lit (-1) <. alpha) && (x <. ((lit 2 *. (alpha +. lit 1)) +. (lit 4 *. N))) then largeN n alpha x
  else if (lit 0 <. x) && (alpha <. (-. (N +. lit 1))) then pure (polyLaguerreRecursion n alpha x)
  else pure (polyLaguerreHyperg n alpha x)

local infixl:65 " +ᶠ " => F32.add
local infixl:65 " -ᶠ " => F32.sub
local infixl:70 " *ᶠ " => F32.mul
local infixl:70 " /ᶠ " => F32.div

/-- `FFP_PI_4`, `/repo/src/include/ffmath.hpp` line 1073. -/
def FFP_PI_4 : BitVec 32 := F32.lit 0.785398163397448278999490867136046290

/-- `poly_laguerre_large_n`, `/repo/src/ffmath.cpp` lines 1321-1347, in binary32. The conversion of `n` to `float` rounds. -/
def polyLaguerreLargeN (n : Nat) (alpha x : BitVec 32) : Out (BitVec 32) := do
  let pi2sq := F32.lit 2.467401100272339498076235031476244330406188964
  let m := F32.lit (n : ℚ)
  let a := F32.negate m
  let b := alpha +ᶠ F32.lit 1
  let eta := (F32.lit 2 *ᶠ b) -ᶠ (F32.lit 4 *ᶠ a)
  let cos2th := x /ᶠ eta
  let sin2th := F32.lit 1 -ᶠ cos2th
  let th := acos (Ffmath.sqrt cos2th)
  let pre_h := pi2sq *ᶠ eta *ᶠ eta *ᶠ cos2th *ᶠ sin2th
  let lg_b := lgamma (b +ᶠ m)
  let ln_fact := lgamma (m +ᶠ F32.lit 1)
  let preTerm1 := F32.lit 0.5 *ᶠ (F32.lit 1 -ᶠ b) *ᶠ log (F32.lit 0.25 *ᶠ x *ᶠ eta)
  let preTerm2 := F32.lit 0.25 *ᶠ log pre_h
  let lnPre := lg_b -ᶠ ln_fact +ᶠ (F32.lit 0.5 *ᶠ x) +ᶠ preTerm1 -ᶠ preTerm2
  let serTerm1 := sin (FFP_PI *ᶠ a)
  let th2 := F32.lit 2 *ᶠ th
  let serTerm2 := sin ((F32.lit 0.25 *ᶠ eta *ᶠ (th2 -ᶠ sin th2)) +ᶠ FFP_PI_4)
  pure ((← exp lnPre) *ᶠ (serTerm1 +ᶠ serTerm2))

/-- `ffmath::laguerre`, `/repo/src/ffmath.cpp` lines 2127-2131. -/
def laguerre (largeN : Nat → R → R → Out R) (n : Nat) (x : R) : Out R := assocLaguerre largeN n 0 x

end Verif.Ffmath
