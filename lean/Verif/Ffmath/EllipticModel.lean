import Verif.Ffmath.GammaModel

/-!
# Model of the elliptic integrals of `/repo/src/ffmath.cpp` (lines 1538-1932)

IEEE binary32 arithmetic, as in `FloatModel.lean`. In each loop the argument `fuel` is the number of iterations that may follow the
present one; the last iteration of a loop without `break` changes `xn`, `yn`, ... once more, but these are not read afterwards.
-/

namespace Verif.Ffmath

open Verif F32

local infixl:65 " +ᶠ " => F32.add
local infixl:65 " -ᶠ " => F32.sub
local infixl:70 " *ᶠ " => F32.mul
local infixl:70 " /ᶠ " => F32.div
local notation:50 a:51 " <ᶠ " b:51 => F32.lt a b

/-- The larger of two floats as the loops compute it, `( a > b ) ? a : b`, `/repo/src/ffmath.cpp` lines 1578-1579. -/
def fmaxE (a b : BitVec 32) : BitVec 32 := if b <ᶠ a then a else b

/-- `lambda`, `/repo/src/ffmath.cpp` lines 1583-1586 (and 1643-1646, 1756-1759). -/
def lambdaE (xn yn zn : BitVec 32) : BitVec 32 :=
  let xRoot := sqrt xn
  let yRoot := sqrt yn
  let zRoot := sqrt zn
  (xRoot *ᶠ (yRoot +ᶠ zRoot)) +ᶠ (yRoot *ᶠ zRoot)

/-- `c0*( xn + lambda )`, `/repo/src/ffmath.cpp` lines 1587-1589; `c0` is 0.25. -/
def quarterE (xn lambda : BitVec 32) : BitVec 32 := (lit 1 /ᶠ lit 4) *ᶠ (xn +ᶠ lambda)

/-- `mu` and the deviation of a number from it in `ellint_rf`, `/repo/src/ffmath.cpp` lines 1571-1574. -/
def rfMu (xn yn zn : BitVec 32) : BitVec 32 := ((xn +ᶠ yn) +ᶠ zn) *ᶠ (lit 1 /ᶠ lit 3)

/-- See `rfMu`: `2.0F - ( mu + xn )/mu`, `/repo/src/ffmath.cpp` lines 1572-1574. -/
def rfDev (mu xn : BitVec 32) : BitVec 32 := lit 2 -ᶠ ((mu +ᶠ xn) /ᶠ mu)

/-- The loop of `ellint_rf`, `/repo/src/ffmath.cpp` lines 1567-1590: the final `( xn, yn, zn )`, from which `mu` and the deviations
are computed. -/
def rfLoop : ℕ → BitVec 32 → BitVec 32 → BitVec 32 → BitVec 32 × BitVec 32 × BitVec 32
  | 0, xn, yn, zn => (xn, yn, zn)
  | fuel + 1, xn, yn, zn =>
    let mu := rfMu xn yn zn
    let eps := fmaxE (absolute (rfDev mu zn)) (fmaxE (absolute (rfDev mu xn)) (absolute (rfDev mu yn)))
    if eps <ᶠ lit 0.0024607833005759250678823324 then (xn, yn, zn)
    else
      let lambda := lambdaE xn yn zn
      rfLoop fuel (quarterE xn lambda) (quarterE yn lambda) (quarterE zn lambda)

/-- The series at the end of `ellint_rf`, `/repo/src/ffmath.cpp` lines 1591-1594. -/
def rfSeries (xnDev ynDev znDev : BitVec 32) : BitVec 32 :=
  let c1 := lit 1 /ᶠ lit 24
  let c2 := lit 1 /ᶠ lit 10
  let c3 := lit 3 /ᶠ lit 44
  let c4 := lit 1 /ᶠ lit 14
  let e2 := xnDev *ᶠ ynDev
  let e3 := e2 *ᶠ znDev
  let e2 := e2 -ᶠ (znDev *ᶠ znDev)
  (lit 1 +ᶠ ((((c1 *ᶠ e2) -ᶠ c2) -ᶠ (c3 *ᶠ e3)) *ᶠ e2)) +ᶠ (c4 *ᶠ e3)

/-- `ellint_rf`, `/repo/src/ffmath.cpp` lines 1538-1599. -/
def ellintRf (x y z : BitVec 32) : BitVec 32 :=
  let loLim := lit 5 *ᶠ fltMin
  if x <ᶠ lit 0 ∨ y <ᶠ lit 0 ∨ z <ᶠ lit 0 ∨ (x +ᶠ y) <ᶠ loLim ∨ (x +ᶠ z) <ᶠ loLim ∨ (y +ᶠ z) <ᶠ loLim then nan
  else
    let (xn, yn, zn) := rfLoop 99 x y z
    let mu := rfMu xn yn zn
    rfSeries (rfDev mu xn) (rfDev mu yn) (rfDev mu zn) /ᶠ sqrt mu

/-- The loop of `ellint_rd`, `/repo/src/ffmath.cpp` lines 1627-1652: the final `( xn, yn, zn, sigma, power4 )`. -/
def rdLoop : ℕ → BitVec 32 → BitVec 32 → BitVec 32 → BitVec 32 → BitVec 32 → BitVec 32 × BitVec 32 × BitVec 32 × BitVec 32 × BitVec 32
  | fuel, xn, yn, zn, sigma, power4 =>
    let mu := ((xn +ᶠ yn) +ᶠ (lit 3 *ᶠ zn)) *ᶠ lit 0.2
    let eps := fmaxE (absolute ((mu -ᶠ zn) /ᶠ mu)) (fmaxE (absolute ((mu -ᶠ xn) /ᶠ mu)) (absolute ((mu -ᶠ yn) /ᶠ mu)))
    if eps <ᶠ lit 0.0017400365588678507952624663346341549 then (xn, yn, zn, sigma, power4)
    else
      let lambda := lambdaE xn yn zn
      let sigma := sigma +ᶠ (power4 /ᶠ (sqrt zn *ᶠ (zn +ᶠ lambda)))
      let power4 := power4 *ᶠ (lit 1 /ᶠ lit 4)
      match fuel with
      | 0 => (xn, yn, zn, sigma, power4)
      | fuel + 1 => rdLoop fuel (quarterE xn lambda) (quarterE yn lambda) (quarterE zn lambda) sigma power4

/-- The series at the end of `ellint_rd`, `/repo/src/ffmath.cpp` lines 1653-1660: `1.0F + s1 + s2`. -/
def rdSeries (xnDev ynDev znDev : BitVec 32) : BitVec 32 :=
  let c1 := lit 3 /ᶠ lit 14
  let c2 := lit 1 /ᶠ lit 6
  let c3 := lit 9 /ᶠ lit 22
  let c4 := lit 3 /ᶠ lit 26
  let ea := xnDev *ᶠ ynDev
  let eb := znDev *ᶠ znDev
  let ec := ea -ᶠ eb
  let ed := ea -ᶠ (lit 6 *ᶠ eb)
  let ef := (ed +ᶠ ec) +ᶠ ec
  let s1 := ed *ᶠ ((negate c1 +ᶠ ((c3 *ᶠ ed) /ᶠ lit 3)) -ᶠ (((lit 1.5 *ᶠ c4) *ᶠ znDev) *ᶠ ef))
  let s2 := znDev *ᶠ ((c2 *ᶠ ef) +ᶠ (znDev *ᶠ ((negate (c3 *ᶠ ec) -ᶠ (znDev *ᶠ c4)) -ᶠ ea)))
  (lit 1 +ᶠ s1) +ᶠ s2

/-- `ellint_rd`, `/repo/src/ffmath.cpp` lines 1601-1664. -/
def ellintRd (x y z : BitVec 32) : BitVec 32 :=
  let loLim := lit 4.103335708781587555782386855921935e-26
  if x <ᶠ lit 0 ∨ y <ᶠ lit 0 ∨ (x +ᶠ y) <ᶠ loLim ∨ z <ᶠ loLim then nan
  else
    let (xn, yn, zn, sigma, power4) := rdLoop 99 x y z (lit 0) (lit 1)
    let mu := ((xn +ᶠ yn) +ᶠ (lit 3 *ᶠ zn)) *ᶠ lit 0.2
    let s := rdSeries ((mu -ᶠ xn) /ᶠ mu) ((mu -ᶠ yn) /ᶠ mu) ((mu -ᶠ zn) /ᶠ mu)
    (lit 3 *ᶠ sigma) +ᶠ (((power4 *ᶠ rSqrt mu) *ᶠ s) /ᶠ mu)

/-- The loop of `ellint_rc`, `/repo/src/ffmath.cpp` lines 1688-1700. -/
def rcLoop : ℕ → BitVec 32 → BitVec 32 → BitVec 32 × BitVec 32
  | 0, xn, yn => (xn, yn)
  | fuel + 1, xn, yn =>
    let mu := (xn +ᶠ (lit 2 *ᶠ yn)) *ᶠ (lit 1 /ᶠ lit 3)
    let sn := ((yn +ᶠ mu) /ᶠ mu) -ᶠ lit 2
    if absolute sn <ᶠ lit 0.049606282877419791144113503378321 then (xn, yn)
    else
      let lambda := ((lit 2 *ᶠ sqrt xn) *ᶠ sqrt yn) +ᶠ yn
      rcLoop fuel (quarterE xn lambda) (quarterE yn lambda)

/-- `ellint_rc`, `/repo/src/ffmath.cpp` lines 1666-1706. -/
def ellintRc (x y : BitVec 32) : BitVec 32 :=
  let loLim := lit 5.8774717550000002558112628881984982848919e-38
  if x <ᶠ lit 0 ∨ y <ᶠ lit 0 ∨ y <ᶠ loLim then nan
  else
    let (xn, yn) := rcLoop 99 x y
    let mu := (xn +ᶠ (lit 2 *ᶠ yn)) *ᶠ (lit 1 /ᶠ lit 3)
    let sn := ((yn +ᶠ mu) /ᶠ mu) -ᶠ lit 2
    let c1 := lit 1 /ᶠ lit 7
    let c2 := lit 9 /ᶠ lit 22
    let c3 := lit 3 /ᶠ lit 10
    let c4 := lit 3 /ᶠ lit 8
    let s := (sn *ᶠ sn) *ᶠ (c3 +ᶠ (sn *ᶠ (c1 +ᶠ (sn *ᶠ (c4 +ᶠ (sn *ᶠ c2))))))
    (lit 1 +ᶠ s) *ᶠ rSqrt mu

/-- The loop of `ellint_rj`, `/repo/src/ffmath.cpp` lines 1737-1769: the final `( xn, yn, zn, pn, sigma, power4 )`. -/
def rjLoop : ℕ → BitVec 32 → BitVec 32 → BitVec 32 → BitVec 32 → BitVec 32 → BitVec 32 →
    BitVec 32 × BitVec 32 × BitVec 32 × BitVec 32 × BitVec 32 × BitVec 32
  | fuel, xn, yn, zn, pn, sigma, power4 =>
    let mu := lit 0.2 *ᶠ (((xn +ᶠ yn) +ᶠ zn) +ᶠ (lit 2 *ᶠ pn))
    let dev := fun a => absolute ((mu -ᶠ a) /ᶠ mu)
    let eps := fmaxE (dev pn) (fmaxE (dev zn) (fmaxE (dev xn) (dev yn)))
    if eps <ᶠ lit 0.049606282877419791144113503378321 then (xn, yn, zn, pn, sigma, power4)
    else
      let xRoot := sqrt xn
      let yRoot := sqrt yn
      let zRoot := sqrt zn
      let lambda := lambdaE xn yn zn
      let alpha1 := (pn *ᶠ ((xRoot +ᶠ yRoot) +ᶠ zRoot)) +ᶠ ((xRoot *ᶠ yRoot) *ᶠ zRoot)
      let alpha2 := alpha1 *ᶠ alpha1
      let beta := (pn *ᶠ (pn +ᶠ lambda)) *ᶠ (pn +ᶠ lambda)
      let sigma := sigma +ᶠ (power4 *ᶠ ellintRc alpha2 beta)
      let power4 := power4 *ᶠ (lit 1 /ᶠ lit 4)
      match fuel with
      | 0 => (xn, yn, zn, pn, sigma, power4)
      | fuel + 1 => rjLoop fuel (quarterE xn lambda) (quarterE yn lambda) (quarterE zn lambda) (quarterE pn lambda) sigma power4

/-- `ellint_rj`, `/repo/src/ffmath.cpp` lines 1708-1782. -/
def ellintRj (x y z p : BitVec 32) : BitVec 32 :=
  let loLim := lit 4.103335708781587555782386855921935e-26
  if x <ᶠ lit 0 ∨ y <ᶠ lit 0 ∨ z <ᶠ lit 0 ∨ (x +ᶠ y) <ᶠ loLim ∨ (x +ᶠ z) <ᶠ loLim ∨ (y +ᶠ z) <ᶠ loLim ∨ p <ᶠ loLim then nan
  else
    let (xn, yn, zn, pn, sigma, power4) := rjLoop 99 x y z p (lit 0) (lit 1)
    let mu := lit 0.2 *ᶠ (((xn +ᶠ yn) +ᶠ zn) +ᶠ (lit 2 *ᶠ pn))
    let xnDev := (mu -ᶠ xn) /ᶠ mu
    let ynDev := (mu -ᶠ yn) /ᶠ mu
    let znDev := (mu -ᶠ zn) /ᶠ mu
    let pnDev := (mu -ᶠ pn) /ᶠ mu
    let c1 := lit 3 /ᶠ lit 14
    let c2 := lit 1 /ᶠ lit 3
    let c3 := lit 3 /ᶠ lit 22
    let c4 := lit 3 /ᶠ lit 26
    let ea := (xnDev *ᶠ (ynDev +ᶠ znDev)) +ᶠ (ynDev *ᶠ znDev)
    let eb := (xnDev *ᶠ ynDev) *ᶠ znDev
    let ec := pnDev *ᶠ pnDev
    let e2 := ea -ᶠ (lit 3 *ᶠ ec)
    let e3 := eb +ᶠ ((lit 2 *ᶠ pnDev) *ᶠ (ea -ᶠ ec))
    let s1 := lit 1 +ᶠ (e2 *ᶠ ((negate c1 +ᶠ ((lit 0.75 *ᶠ c3) *ᶠ e2)) -ᶠ ((lit 1.5 *ᶠ c4) *ᶠ e3)))
    let s2 := eb *ᶠ ((lit 0.5 *ᶠ c2) +ᶠ (pnDev *ᶠ ((negate c3 -ᶠ c3) +ᶠ (pnDev *ᶠ c4))))
    let s3 := ((pnDev *ᶠ ea) *ᶠ (c2 -ᶠ (pnDev *ᶠ c3))) -ᶠ ((c2 *ᶠ pnDev) *ᶠ ec)
    (lit 3 *ᶠ sigma) +ᶠ ((power4 *ᶠ ((s1 +ᶠ s2) +ᶠ s3)) /ᶠ (mu *ᶠ sqrt mu))

/-- `ffmath::comp_ellint_1`, `/repo/src/ffmath.cpp` lines 1784-1796. -/
def comp_ellint_1 (k : BitVec 32) : BitVec 32 :=
  if IsNaN k ∨ F32.le (lit 1) (absolute k) then nan
  else ellintRf (lit 0) (lit 1 -ᶠ (k *ᶠ k)) (lit 1)

/-- `ffmath::comp_ellint_2`, `/repo/src/ffmath.cpp` lines 1798-1818. -/
def comp_ellint_2 (k : BitVec 32) : BitVec 32 :=
  if IsNaN k ∨ lit 1 <ᶠ absolute k then nan
  else if isEqual (lit 1) (absolute k) then lit 1
  else
    let kk := k *ᶠ k
    let one_m_kk := lit 1 -ᶠ kk
    ellintRf (lit 0) one_m_kk (lit 1) -ᶠ (((lit 1 /ᶠ lit 3) *ᶠ kk) *ᶠ ellintRd (lit 0) one_m_kk (lit 1))

/-- `ffmath::comp_ellint_3`, `/repo/src/ffmath.cpp` lines 1820-1841. -/
def comp_ellint_3 (k nu : BitVec 32) : BitVec 32 :=
  if IsNaN k ∨ IsNaN nu ∨ lit 1 <ᶠ absolute k then nan
  else if isEqual (lit 1) nu then inf
  else
    let kk := k *ᶠ k
    let one_m_kk := lit 1 -ᶠ kk
    ellintRf (lit 0) one_m_kk (lit 1) +ᶠ (((lit 1 /ᶠ lit 3) *ᶠ nu) *ᶠ ellintRj (lit 0) one_m_kk (lit 1) (lit 1 -ᶠ nu))

/-- The number of half periods, `n`, and the reduced amplitude, `/repo/src/ffmath.cpp` lines 1852-1853 (and 1878-1879, 1911-1912). -/
def ellintReduce (phi : BitVec 32) : Out (BitVec 32 × BitVec 32) := do
  let n ← floor ((phi /ᶠ FFP_PI) +ᶠ lit 0.5)
  pure (n, phi -ᶠ (n *ᶠ FFP_PI))

/-- `ffmath::ellint_1`, `/repo/src/ffmath.cpp` lines 1843-1866. -/
def ellint_1 (k phi : BitVec 32) : Out (BitVec 32) :=
  if IsNaN k ∨ IsNaN phi ∨ lit 1 <ᶠ absolute k then pure nan
  else do
    let (n, phi_red) ← ellintReduce phi
    let s := sin phi_red
    let c := cos phi_red
    let f := s *ᶠ ellintRf (c *ᶠ c) (lit 1 -ᶠ (((k *ᶠ k) *ᶠ s) *ᶠ s)) (lit 1)
    if Class.zero = classify n then pure f else pure (f +ᶠ ((lit 2 *ᶠ n) *ᶠ comp_ellint_1 k))

/-- `ffmath::ellint_2`, `/repo/src/ffmath.cpp` lines 1868-1899. -/
def ellint_2 (k phi : BitVec 32) : Out (BitVec 32) :=
  if IsNaN k ∨ IsNaN phi ∨ lit 1 <ᶠ absolute k then pure nan
  else do
    let (n, phi_red) ← ellintReduce phi
    let kk := k *ᶠ k
    let s := sin phi_red
    let ss := s *ᶠ s
    let sss := ss *ᶠ s
    let c := cos phi_red
    let cc := c *ᶠ c
    let tmp := lit 1 -ᶠ (kk *ᶠ ss)
    let e := (s *ᶠ ellintRf cc tmp (lit 1)) -ᶠ ((((lit 1 /ᶠ lit 3) *ᶠ kk) *ᶠ sss) *ᶠ ellintRd cc tmp (lit 1))
    if Class.zero = classify n then pure e else pure (e +ᶠ ((lit 2 *ᶠ n) *ᶠ comp_ellint_2 k))

/-- `ffmath::ellint_3`, `/repo/src/ffmath.cpp` lines 1901-1932. -/
def ellint_3 (k nu phi : BitVec 32) : Out (BitVec 32) :=
  if IsNaN k ∨ IsNaN nu ∨ IsNaN phi ∨ lit 1 <ᶠ absolute k then pure nan
  else do
    let (n, phi_red) ← ellintReduce phi
    let kk := k *ᶠ k
    let s := sin phi_red
    let ss := s *ᶠ s
    let sss := ss *ᶠ s
    let c := cos phi_red
    let cc := c *ᶠ c
    let tmp := lit 1 -ᶠ (kk *ᶠ ss)
    let pi := (s *ᶠ ellintRf cc tmp (lit 1)) +ᶠ
      ((((lit 1 /ᶠ lit 3) *ᶠ nu) *ᶠ sss) *ᶠ ellintRj cc tmp (lit 1) (lit 1 -ᶠ (nu *ᶠ ss)))
    if Class.zero = classify n then pure pi else pure (pi +ᶠ ((lit 2 *ᶠ n) *ᶠ comp_ellint_3 k nu))

end Verif.Ffmath
