import Verif.Ffmath.PolyModel

/-!
# Model of `ffmath::sph_legendre` (`/repo/src/ffmath.cpp` lines 2885-2957)

Written over an arbitrary arithmetic, with the elementary functions as parameters.
-/

namespace Verif.Ffmath

open Verif Arith

/-- The constants and functions of `ffmath` that `sph_legendre` uses (not a definition of the repository). The exponential may be
undefined, see `Ffmath.exp`. -/
structure SphFns (R : Type u) where
  pi : R
  lnPi : R
  cos : R → R
  log : R → R
  lgamma : R → R
  exp : R → Out R

/-- `FFP_LN_PI`, `/repo/src/include/ffmath.hpp` line 1101. -/
def FFP_LN_PI : BitVec 32 := F32.lit 1.144729885849400163877476188645232468

/-- The binary32 functions. -/
def ieeeSph : SphFns (BitVec 32) where
  pi := FFP_PI
  lnPi := FFP_LN_PI
  cos := Ffmath.cos
  log := Ffmath.log
  lgamma := Ffmath.lgamma
  exp := Ffmath.exp

variable {R : Type u} [Arith R] [FF R]

/-- The pair `( y_mm, y_mp1m )` after `k` iterations of the loop of `ffmath::sph_legendre`, `/repo/src/ffmath.cpp` lines 2930-2948, from
the pair `s`; the variable `ll` is `m + 2 + k` in iteration `k`. After an iteration `y_lm` is `y_mp1m`. -/
def sphLegendreLoop (x : R) (m : ℕ) (s : R × R) : ℕ → R × R
  | 0 => s
  | k + 1 =>
    let (y_mm, y_mp1m) := sphLegendreLoop x m s k
    let ll := m + 2 + k
    let ll_m_m : R := lit ((ll - m : ℕ) : ℚ)
    let ll_p_m : R := lit ((ll + m : ℕ) : ℚ)
    let ll2_p_1 : R := lit ((2 * ll + 1 : ℕ) : ℚ)
    let ll2_m_1 : R := lit ((2 * ll - 1 : ℕ) : ℚ)
    let ll_pm_m1 : R := lit ((ll + m - 1 : ℕ) : ℚ)
    let ll_mm_m1 : R := lit ((ll - m - 1 : ℕ) : ℚ)
    let rat1 := ll_m_m /. ll_p_m
    let fact1 := FF.sqrt ((rat1 *. ll2_p_1) *. ll2_m_1)
    let fact2 := FF.sqrt (((rat1 *. (ll_mm_m1 /. ll_pm_m1)) *. ll2_p_1) /. lit ((2 * ll - 3 : ℕ) : ℚ))
    (y_mp1m, (((x *. y_mp1m) *. fact1) -. ((ll_pm_m1 *. y_mm) *. fact2)) /. ll_m_m)

/-- `ffmath::sph_legendre`, `/repo/src/ffmath.cpp` lines 2885-2957. -/
def sphLegendre (F : SphFns R) (l m : ℕ) (theta : R) : Out R :=
  if Arith.isNan theta then pure FF.nan
  else
    let x := F.cos theta
    let pi4 := lit 4 *. F.pi
    if m > l then pure (lit 0)
    else if 0 = m then pure (legendre l x *. FF.sqrt (lit ((2 * l + 1 : ℕ) : ℚ) /. pi4))
    else if FF.isEqual (lit 1) x || FF.isEqual (lit (-1)) x then pure (lit 0)
    else do
      let mf : R := lit (m : ℚ)
      let y_mp1m_factor := x *. FF.sqrt (lit ((2 * m + 3 : ℕ) : ℚ))
      let sgn : R := if 1 = m % 2 then lit (-1) else lit 1
      let ln_circ := F.log (lit 1 -. (x *. x))
      let ln_poc_h := F.lgamma (mf +. lit 0.5) -. F.lgamma mf
      let ln_pre_val := (lit (-0.25) *. F.lnPi) +. (lit 0.5 *. (ln_poc_h +. (mf *. ln_circ)))
      let sr := FF.sqrt ((lit 2 +. (lit 1 /. mf)) /. pi4)
      let y_mm := (sgn *. sr) *. (← F.exp ln_pre_val)
      let y_mp1m := y_mp1m_factor *. y_mm
      if l = m then pure y_mm
      else if l = m + 1 then pure y_mp1m
      else pure (sphLegendreLoop x m (y_mm, y_mp1m) (l - m - 1)).2

/-- `ffmath::sph_legendre` in binary32, `/repo/src/ffmath.cpp` lines 2885-2957. -/
def sph_legendre (l m : ℕ) (theta : BitVec 32) : Out (BitVec 32) := sphLegendre ieeeSph l m theta

end Verif.Ffmath
