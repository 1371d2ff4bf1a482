import Verif.Ffmath.ExpintModel
import Verif.Ffmath.PolyModel

/-!
# Model of the Bessel functions of `/repo/src/ffmath.cpp` (lines 2279-2883)

IEEE binary32 arithmetic, as in `FloatModel.lean`. Integers are converted to `float` by `lit`, the nearest float. The order of a spherical
function is a natural number; sums such as `2U*l + 1U` are taken without the wrap-around of `size_t`, which the documentation excludes
(orders of 128 and more are implementation-defined). In each loop the argument `fuel` is the number of iterations left.
-/

namespace Verif.Ffmath

open Verif F32

local infixl:65 " +ᶠ " => F32.add
local infixl:65 " -ᶠ " => F32.sub
local infixl:70 " *ᶠ " => F32.mul
local infixl:70 " /ᶠ " => F32.div
local notation:50 a:51 " <ᶠ " b:51 => F32.lt a b

/-- The four results of `gamma_temme` (not a definition of the repository). -/
structure Temme where
  gam1 : BitVec 32
  gam2 : BitVec 32
  gamPl : BitVec 32
  gamMi : BitVec 32

/-- `gamma_temme`, `/repo/src/ffmath.cpp` lines 2279-2296. -/
def gammaTemme (mu : BitVec 32) : Out Temme := do
  let gam_pl := lit 1 /ᶠ (← tgamma (lit 1 +ᶠ mu))
  let gam_mi := lit 1 /ᶠ (← tgamma (lit 1 -ᶠ mu))
  let gam1 := if absolute mu <ᶠ epsilon then negate FFP_GAMMA_E else (gam_mi -ᶠ gam_pl) /ᶠ (lit 2 *ᶠ mu)
  pure ⟨gam1, lit 0.5 *ᶠ (gam_mi +ᶠ gam_pl), gam_pl, gam_mi⟩

/-- A function value and its companion, with the derivatives: the output parameters of `bessel_jn` and `bessel_ik` (not a definition of the
repository). -/
structure Bessel where
  j : BitVec 32
  n : BitVec 32
  jp : BitVec 32
  np : BitVec 32

/-- `fp_min` of `bessel_jn`, `/repo/src/ffmath.cpp` line 2322. -/
def jnMin : BitVec 32 := lit 1.08420217256745973463717809e-19

/-- The first loop of `bessel_jn`, `/repo/src/ffmath.cpp` lines 2343-2364: the final `( h, iSign )`. -/
def jnLoop1 (xi2 : BitVec 32) : (fuel : ℕ) → (b d c h iSign : BitVec 32) → BitVec 32 × BitVec 32
  | 0, _, _, _, h, iSign => (h, iSign)
  | fuel + 1, b, d, c, h, iSign =>
    let b := b +ᶠ xi2
    let d := b -ᶠ d
    let d := if absolute d <ᶠ jnMin then jnMin else d
    let c := b -ᶠ (lit 1 /ᶠ c)
    let c := if absolute c <ᶠ jnMin then jnMin else c
    let d := lit 1 /ᶠ d
    let del := c *ᶠ d
    let h := h *ᶠ del
    let iSign := if d <ᶠ lit 0 then negate iSign else iSign
    if absolute (del -ᶠ lit 1) <ᶠ epsilon then (h, iSign) else jnLoop1 xi2 fuel b d c h iSign

/-- The downward recurrence of `bessel_jn`, `/repo/src/ffmath.cpp` lines 2371-2377: the final `( j_nul, j_pnu_l )`. -/
def jnDown (xi : BitVec 32) : (fuel : ℕ) → (fact jnul jpnul : BitVec 32) → BitVec 32 × BitVec 32
  | 0, _, jnul, jpnul => (jnul, jpnul)
  | fuel + 1, fact, jnul, jpnul =>
    let temp := (fact *ᶠ jnul) +ᶠ jpnul
    let fact := fact -ᶠ xi
    jnDown xi fuel fact temp ((fact *ᶠ temp) -ᶠ jnul)

/-- The series of `bessel_jn` for small arguments, `/repo/src/ffmath.cpp` lines 2403-2419: the final `( sum, sum1 )`. -/
def jnSeries (mu mu2 r d : BitVec 32) : (fuel i : ℕ) → (ff c p q sum sum1 : BitVec 32) → BitVec 32 × BitVec 32
  | 0, _, _, _, _, _, sum, sum1 => (sum, sum1)
  | fuel + 1, i, ff, c, p, q, sum, sum1 =>
    let j := lit (i : ℚ)
    let ff := (((j *ᶠ ff) +ᶠ p) +ᶠ q) /ᶠ ((j *ᶠ j) -ᶠ mu2)
    let c := c *ᶠ (d /ᶠ j)
    let p := p /ᶠ (j -ᶠ mu)
    let q := q /ᶠ (j +ᶠ mu)
    let del := c *ᶠ (ff +ᶠ (r *ᶠ q))
    let sum := sum +ᶠ del
    let del1 := (c *ᶠ p) -ᶠ (j *ᶠ del)
    let sum1 := sum1 +ᶠ del1
    if absolute del <ᶠ (epsilon *ᶠ (lit 1 +ᶠ absolute sum)) then (sum, sum1) else jnSeries mu mu2 r d fuel (i + 1) ff c p q sum sum1

/-- The state of the continued fraction of `bessel_jn` for large arguments (not a definition of the repository). -/
structure JnState where
  a : BitVec 32
  bi : BitVec 32
  cr : BitVec 32
  ci : BitVec 32
  dr : BitVec 32
  di : BitVec 32
  p : BitVec 32
  q : BitVec 32

/-- The continued fraction of `bessel_jn` for large arguments, `/repo/src/ffmath.cpp` lines 2443-2470: the final `( p, q )`. -/
def jnFrac (br : BitVec 32) : (fuel i : ℕ) → JnState → BitVec 32 × BitVec 32
  | 0, _, s => (s.p, s.q)
  | fuel + 1, i, s =>
    let a := s.a +ᶠ lit ((2 * (i - 1) : ℕ) : ℚ)
    let bi := s.bi +ᶠ lit 2
    let dr := (a *ᶠ s.dr) +ᶠ br
    let di := (a *ᶠ s.di) +ᶠ bi
    let dr := if (absolute dr +ᶠ absolute di) <ᶠ jnMin then jnMin else dr
    let fact_g := a /ᶠ ((s.cr *ᶠ s.cr) +ᶠ (s.ci *ᶠ s.ci))
    let cr := br +ᶠ (s.cr *ᶠ fact_g)
    let ci := bi -ᶠ (s.ci *ᶠ fact_g)
    let cr := if (absolute cr +ᶠ absolute ci) <ᶠ jnMin then jnMin else cr
    let den := (dr *ᶠ dr) +ᶠ (di *ᶠ di)
    let dr := dr /ᶠ den
    let di := di /ᶠ negate den
    let dlr := (cr *ᶠ dr) -ᶠ (ci *ᶠ di)
    let dli := (cr *ᶠ di) +ᶠ (ci *ᶠ dr)
    let temp := (s.p *ᶠ dlr) -ᶠ (s.q *ᶠ dli)
    let q := (s.p *ᶠ dli) +ᶠ (s.q *ᶠ dlr)
    if (absolute (dlr -ᶠ lit 1) +ᶠ absolute dli) <ᶠ epsilon then (temp, q) else jnFrac br fuel (i + 1) ⟨a, bi, cr, ci, dr, di, temp, q⟩

/-- The upward recurrence of `bessel_jn`, `/repo/src/ffmath.cpp` lines 2484-2490: the final `( n_mu, n_nu1 )`. -/
def jnUp (mu xi2 : BitVec 32) : (fuel i : ℕ) → (nmu nnu1 : BitVec 32) → BitVec 32 × BitVec 32
  | 0, _, nmu, nnu1 => (nmu, nnu1)
  | fuel + 1, i, nmu, nnu1 => jnUp mu xi2 fuel (i + 1) nnu1 ((((mu +ᶠ lit (i : ℚ)) *ᶠ xi2) *ᶠ nnu1) -ᶠ nmu)

/-- The branch of `bessel_jn` for `x < 2`, `/repo/src/ffmath.cpp` lines 2384-2424: `( n_mu, n_nu1, Jmu )`. -/
def jnSmall (x mu xi xi2 w f : BitVec 32) : Out (BitVec 32 × BitVec 32 × BitVec 32) := do
  let mu2 := mu *ᶠ mu
  let x2 := lit 0.5 *ᶠ x
  let pi_mu := FFP_PI *ᶠ mu
  let fact_l := if absolute pi_mu <ᶠ epsilon then lit 1 else pi_mu /ᶠ sin pi_mu
  let d := negate (log x2)
  let e := mu *ᶠ d
  let fact2 ← if absolute e <ᶠ epsilon then pure (lit 1) else do pure ((← sinh e) /ᶠ e)
  let g ← gammaTemme mu
  let ff := ((lit 2 /ᶠ FFP_PI) *ᶠ fact_l) *ᶠ ((g.gam1 *ᶠ (← cosh e)) +ᶠ ((g.gam2 *ᶠ fact2) *ᶠ d))
  let e ← exp e
  let p := e /ᶠ (FFP_PI *ᶠ g.gamPl)
  let q := lit 1 /ᶠ ((e *ᶠ FFP_PI) *ᶠ g.gamMi)
  let pi_mu2 := pi_mu /ᶠ lit 2
  let fact3 := if absolute pi_mu2 <ᶠ epsilon then lit 1 else sin pi_mu2 /ᶠ pi_mu2
  let r := ((FFP_PI *ᶠ pi_mu2) *ᶠ fact3) *ᶠ fact3
  let (sum, sum1) := jnSeries mu mu2 r (negate x2 *ᶠ x2) 15000 1 ff (lit 1) p q (ff +ᶠ (r *ᶠ q)) p
  let n_mu := negate sum
  let n_nu1 := negate sum1 *ᶠ xi2
  let n_pmu := ((mu *ᶠ xi) *ᶠ n_mu) -ᶠ n_nu1
  pure (n_mu, n_nu1, w /ᶠ (n_pmu -ᶠ (f *ᶠ n_mu)))

/-- The branch of `bessel_jn` for `x >= 2`, `/repo/src/ffmath.cpp` lines 2426-2480: `( n_mu, n_nu1, Jmu )`. -/
def jnLarge (x mu xi w f jnul : BitVec 32) : BitVec 32 × BitVec 32 × BitVec 32 :=
  let mu2 := mu *ᶠ mu
  let a := lit 0.25 -ᶠ mu2
  let q := lit 1
  let p := negate xi *ᶠ lit 0.5
  let br := lit 2 *ᶠ x
  let bi := lit 2
  let fact_g := (a *ᶠ xi) /ᶠ ((p *ᶠ p) +ᶠ (q *ᶠ q))
  let cr := br +ᶠ (q *ᶠ fact_g)
  let ci := bi +ᶠ (p *ᶠ fact_g)
  let den := (br *ᶠ br) +ᶠ (bi *ᶠ bi)
  let dr := br /ᶠ den
  let di := negate bi /ᶠ den
  let dlr := (cr *ᶠ dr) -ᶠ (ci *ᶠ di)
  let dli := (cr *ᶠ di) +ᶠ (ci *ᶠ dr)
  let temp := (p *ᶠ dlr) -ᶠ (q *ᶠ dli)
  let q := (p *ᶠ dli) +ᶠ (q *ᶠ dlr)
  let (p, q) := jnFrac br 14999 2 ⟨a, bi, cr, ci, dr, di, temp, q⟩
  let gam := (p -ᶠ f) /ᶠ q
  let jmu := sqrt (w /ᶠ (((p -ᶠ f) *ᶠ gam) +ᶠ q))
  let jmu := if (jmu *ᶠ jnul) <ᶠ lit 0 then negate jmu else jmu
  let n_mu := gam *ᶠ jmu
  let n_pmu := (p +ᶠ (q /ᶠ gam)) *ᶠ n_mu
  (n_mu, ((mu *ᶠ xi) *ᶠ n_mu) -ᶠ n_pmu, jmu)

/-- `bessel_jn`, `/repo/src/ffmath.cpp` lines 2298-2495. -/
def besselJn (nu x : BitVec 32) : Out Bessel :=
  if isEqual (lit 0) x then
    (if isEqual (lit 0) nu then pure ⟨lit 1, negate inf, lit 0, inf⟩
    else if isEqual (lit 1) nu then pure ⟨lit 0, negate inf, lit 0.5, inf⟩
    else pure ⟨lit 0, negate inf, lit 0, inf⟩)
  else do
    let nl ← if x <ᶠ lit 2 then toI32 (nu +ᶠ lit 0.5) else do pure (max 0 (← toI32 ((nu -ᶠ x) +ᶠ lit 1.5)))
    let mu := nu -ᶠ lit (nl : ℚ)
    let xi := lit 1 /ᶠ x
    let xi2 := lit 2 *ᶠ xi
    let w := xi2 /ᶠ FFP_PI
    let h := nu *ᶠ xi
    let h := if h <ᶠ jnMin then jnMin else h
    let (h, iSign) := jnLoop1 xi2 15000 (xi2 *ᶠ nu) (lit 0) h h (lit 1)
    let jnul1 := iSign *ᶠ jnMin
    let jpnu1 := h *ᶠ jnul1
    let (jnul, jpnul) := jnDown xi nl.toNat (nu *ᶠ xi) jnul1 jpnu1
    let jnul := if isEqual (lit 0) jnul then epsilon else jnul
    let f := jpnul /ᶠ jnul
    let (n_mu, n_nu1, jmu) ← if x <ᶠ lit 2 then jnSmall x mu xi xi2 w f else pure (jnLarge x mu xi w f jnul)
    let fact := jmu /ᶠ jnul
    let (n_mu, n_nu1) := jnUp mu xi2 nl.toNat 1 n_mu n_nu1
    pure ⟨fact *ᶠ jnul1, n_mu, fact *ᶠ jpnu1, ((nu *ᶠ xi) *ᶠ n_mu) -ᶠ n_nu1⟩

/-- `sph_bessel_jn`, `/repo/src/ffmath.cpp` lines 2497-2517. -/
def sphBesselJn (n : ℕ) (x : BitVec 32) : Out Bessel := do
  let nu := lit (n : ℚ) +ᶠ lit 0.5
  let factor := lit 1.25331413731550012080617761967005208134651184 *ᶠ rSqrt x
  let inv_2x := lit 1 /ᶠ (lit 2 *ᶠ x)
  let b ← besselJn nu x
  let j := factor *ᶠ b.j
  let n := factor *ᶠ b.n
  pure ⟨j, n, (factor *ᶠ b.jp) -ᶠ (j *ᶠ inv_2x), (factor *ᶠ b.np) -ᶠ (n *ᶠ inv_2x)⟩

/-- `ffmath::sph_bessel`, `/repo/src/ffmath.cpp` lines 2519-2538. -/
def sph_bessel (n : ℕ) (x : BitVec 32) : Out (BitVec 32) :=
  if x <ᶠ lit 0 ∨ IsNaN x then pure nan
  else if isEqual (lit 0) x then pure (if 0 = n then lit 1 else lit 0)
  else do pure (← sphBesselJn n x).j

/-- `ffmath::sph_neumann`, `/repo/src/ffmath.cpp` lines 2540-2558. -/
def sph_neumann (n : ℕ) (x : BitVec 32) : Out (BitVec 32) :=
  if x <ᶠ lit 0 ∨ IsNaN x then pure nan
  else if isEqual (lit 0) x then pure (negate inf)
  else do pure (← sphBesselJn n x).n

/-- `fp_min` of `bessel_ik`, `/repo/src/ffmath.cpp` line 2585. -/
def ikMin : BitVec 32 := lit 10 *ᶠ epsilon

/-- The first loop of `bessel_ik`, `/repo/src/ffmath.cpp` lines 2604-2613: the final `( d, h )`. -/
def ikLoop1 (xi2 : BitVec 32) : (fuel : ℕ) → (b d c h : BitVec 32) → BitVec 32 × BitVec 32
  | 0, _, d, _, h => (d, h)
  | fuel + 1, b, d, c, h =>
    let b := b +ᶠ xi2
    let d := lit 1 /ᶠ (b +ᶠ d)
    let c := b +ᶠ (lit 1 /ᶠ c)
    let del := c *ᶠ d
    let h := h *ᶠ del
    if absolute (del -ᶠ lit 1) <ᶠ epsilon then (d, h) else ikLoop1 xi2 fuel b d c h

/-- The downward recurrence of `bessel_ik`, `/repo/src/ffmath.cpp` lines 2621-2627. -/
def ikDown (xi : BitVec 32) : (fuel : ℕ) → (fact inul ipnul : BitVec 32) → BitVec 32 × BitVec 32
  | 0, _, inul, ipnul => (inul, ipnul)
  | fuel + 1, fact, inul, ipnul =>
    let temp := (fact *ᶠ inul) +ᶠ ipnul
    let fact := fact -ᶠ xi
    ikDown xi fuel fact temp ((fact *ᶠ temp) +ᶠ inul)

/-- The series of `bessel_ik` for small arguments, `/repo/src/ffmath.cpp` lines 2649-2663: the final `( sum, sum1 )`. -/
def ikSeries (mu mu2 d : BitVec 32) : (fuel i : ℕ) → (ff c p q sum sum1 : BitVec 32) → BitVec 32 × BitVec 32
  | 0, _, _, _, _, _, sum, sum1 => (sum, sum1)
  | fuel + 1, i, ff, c, p, q, sum, sum1 =>
    let j := lit (i : ℚ)
    let ff := (((j *ᶠ ff) +ᶠ p) +ᶠ q) /ᶠ ((j *ᶠ j) -ᶠ mu2)
    let c := c *ᶠ (d /ᶠ j)
    let p := p /ᶠ (j -ᶠ mu)
    let q := q /ᶠ (j +ᶠ mu)
    let del := c *ᶠ ff
    let sum := sum +ᶠ del
    let sum1 := sum1 +ᶠ (c *ᶠ (p -ᶠ (j *ᶠ ff)))
    if absolute del <ᶠ (epsilon *ᶠ absolute sum) then (sum, sum1) else ikSeries mu mu2 d fuel (i + 1) ff c p q sum sum1

/-- The state of the continued fraction of `bessel_ik` for large arguments (not a definition of the repository). -/
structure IkState where
  a : BitVec 32
  b : BitVec 32
  c : BitVec 32
  d : BitVec 32
  q1 : BitVec 32
  q2 : BitVec 32
  q : BitVec 32
  h : BitVec 32
  delH : BitVec 32
  s : BitVec 32

/-- The continued fraction of `bessel_ik` for large arguments, `/repo/src/ffmath.cpp` lines 2681-2700: the final `( h, s )`. -/
def ikFrac : (fuel i : ℕ) → IkState → BitVec 32 × BitVec 32
  | 0, _, t => (t.h, t.s)
  | fuel + 1, i, t =>
    let a := t.a -ᶠ lit ((2 * (i - 1) : ℕ) : ℚ)
    let c := (negate a *ᶠ t.c) /ᶠ lit (i : ℚ)
    let q_new := (t.q1 -ᶠ (t.b *ᶠ t.q2)) /ᶠ a
    let q := t.q +ᶠ (c *ᶠ q_new)
    let b := t.b +ᶠ lit 2
    let d := lit 1 /ᶠ (b +ᶠ (a *ᶠ t.d))
    let del_h := ((b *ᶠ d) -ᶠ lit 1) *ᶠ t.delH
    let h := t.h +ᶠ del_h
    let del_s := q *ᶠ del_h
    let s := t.s +ᶠ del_s
    if absolute (del_s /ᶠ s) <ᶠ epsilon then (h, s) else ikFrac fuel (i + 1) ⟨a, b, c, d, t.q2, q_new, q, h, del_h, s⟩

/-- The upward recurrence of `bessel_ik`, `/repo/src/ffmath.cpp` lines 2710-2716: the final `( Kmu, k_nu1 )`. -/
def ikUp (mu xi2 : BitVec 32) : (fuel i : ℕ) → (kmu knu1 : BitVec 32) → BitVec 32 × BitVec 32
  | 0, _, kmu, knu1 => (kmu, knu1)
  | fuel + 1, i, kmu, knu1 => ikUp mu xi2 fuel (i + 1) knu1 ((((mu +ᶠ lit (i : ℚ)) *ᶠ xi2) *ᶠ knu1) +ᶠ kmu)

/-- The branch of `bessel_ik` for `x < 2`, `/repo/src/ffmath.cpp` lines 2631-2667: `( Kmu, k_nu1 )`. -/
def ikSmall (x mu xi2 : BitVec 32) : Out (BitVec 32 × BitVec 32) := do
  let mu2 := mu *ᶠ mu
  let x2 := lit 0.5 *ᶠ x
  let pi_mu := FFP_PI *ᶠ mu
  let fact := if absolute pi_mu <ᶠ epsilon then lit 1 else pi_mu /ᶠ sin pi_mu
  let d := negate (log x2)
  let e := mu *ᶠ d
  let fact2 ← if absolute e <ᶠ epsilon then pure (lit 1) else do pure ((← sinh e) /ᶠ e)
  let g ← gammaTemme mu
  let ff := fact *ᶠ ((g.gam1 *ᶠ (← cosh e)) +ᶠ ((g.gam2 *ᶠ fact2) *ᶠ d))
  let e ← exp e
  let p := e /ᶠ (lit 2 *ᶠ g.gamPl)
  let q := lit 1 /ᶠ ((lit 2 *ᶠ e) *ᶠ g.gamMi)
  let (sum, sum1) := ikSeries mu mu2 (x2 *ᶠ x2) 15000 1 ff (lit 1) p q ff p
  pure (sum, sum1 *ᶠ xi2)

/-- The branch of `bessel_ik` for `x >= 2`, `/repo/src/ffmath.cpp` lines 2668-2704: `( Kmu, k_nu1 )`. The variable `del_h` starts with the
value `d` has after the first loop, as in the code. -/
def ikLarge (x mu xi dLoop : BitVec 32) : Out (BitVec 32 × BitVec 32) := do
  let mu2 := mu *ᶠ mu
  let del_h := dLoop
  let a1 := lit 0.25 -ᶠ mu2
  let q := a1
  let s := lit 1 +ᶠ (q *ᶠ del_h)
  let b := lit 2 *ᶠ (lit 1 +ᶠ x)
  let d := lit 1 /ᶠ b
  let (h, s) := ikFrac 14999 2 ⟨negate a1, b, a1, d, lit 0, lit 1, q, d, del_h, s⟩
  let h := a1 *ᶠ h
  let kmu := (sqrt (FFP_PI /ᶠ (lit 2 *ᶠ x)) *ᶠ (← exp (negate x))) /ᶠ s
  pure (kmu, (kmu *ᶠ (((mu +ᶠ x) +ᶠ lit 0.5) -ᶠ h)) *ᶠ xi)

/-- `bessel_ik`, `/repo/src/ffmath.cpp` lines 2560-2719; `j`, `n`, `jp`, `np` stand for `i_nu`, `k_nu`, `i_pnu`, `k_pnu`. -/
def besselIk (nu x : BitVec 32) : Out Bessel :=
  if isEqual (lit 0) x then
    (if isEqual (lit 0) nu then pure ⟨lit 1, inf, lit 0, negate inf⟩
    else if isEqual (lit 1) x then pure ⟨lit 0, inf, lit 0.5, negate inf⟩
    else pure ⟨lit 0, inf, lit 0, negate inf⟩)
  else do
    let nl ← toI32 (nu +ᶠ lit 0.5)
    let mu := nu -ᶠ lit (nl : ℚ)
    let xi := lit 1 /ᶠ x
    let xi2 := lit 2 *ᶠ xi
    let h := nu *ᶠ xi
    let h := if h <ᶠ ikMin then ikMin else h
    let (d, h) := ikLoop1 xi2 15000 (xi2 *ᶠ nu) (lit 0) h h
    let inul1 := ikMin
    let ipnu1 := h *ᶠ inul1
    let (inul, ipnul) := ikDown xi nl.toNat (nu *ᶠ xi) inul1 ipnu1
    let f := ipnul /ᶠ inul
    let (kmu, knu1) ← if x <ᶠ lit 2 then ikSmall x mu xi2 else ikLarge x mu xi d
    let k_pmu := ((mu *ᶠ xi) *ᶠ kmu) -ᶠ knu1
    let i_num_u := xi /ᶠ ((f *ᶠ kmu) -ᶠ k_pmu)
    let (kmu, knu1) := ikUp mu xi2 nl.toNat 1 kmu knu1
    pure ⟨(i_num_u *ᶠ inul1) /ᶠ inul, kmu, (i_num_u *ᶠ ipnu1) /ᶠ inul, ((nu *ᶠ xi) *ᶠ kmu) -ᶠ knu1⟩

/-- The loop of `cyl_bessel_ij_series`, `/repo/src/ffmath.cpp` lines 2741-2750: the final `Jn`. -/
def ijLoop (nu xx4 : BitVec 32) : (fuel i : ℕ) → (term jn : BitVec 32) → BitVec 32
  | 0, _, _, jn => jn
  | fuel + 1, i, term, jn =>
    let j := lit (i : ℚ)
    let term := term *ᶠ (xx4 /ᶠ (j *ᶠ (nu +ᶠ j)))
    let jn := jn +ᶠ term
    if absolute (term /ᶠ jn) <ᶠ epsilon then jn else ijLoop nu xx4 fuel (i + 1) term jn

/-- `cyl_bessel_ij_series`, `/repo/src/ffmath.cpp` lines 2721-2755; `max_iter` is 200 in both calls. -/
def cylBesselIjSeries (nu x sgn : BitVec 32) : Out (BitVec 32) :=
  if isEqual (lit 0) x then pure (if isEqual (lit 0) nu then lit 1 else lit 0)
  else do
    let x2 := lit 0.5 *ᶠ x
    let fact := nu *ᶠ log x2
    let xx4 := (sgn *ᶠ x2) *ᶠ x2
    let fact := fact -ᶠ lgamma (nu +ᶠ lit 1)
    let fact ← exp fact
    pure (fact *ᶠ ijLoop nu xx4 199 1 (lit 1) (lit 1))

/-- The condition `( x*x ) < ( 10.0F*( nu + 1.0F ) )`, `/repo/src/ffmath.cpp` lines 2764, 2828. -/
def besselSmallArg (nu x : BitVec 32) : Bool := (x *ᶠ x) <ᶠ (lit 10 *ᶠ (nu +ᶠ lit 1))

/-- The domain test `( nu < 0.0F ) || ( x < 0.0F ) || isNan( nu ) || isNan( x )`, `/repo/src/ffmath.cpp` lines 2761, 2825, 2851, 2868. -/
def besselOutside (nu x : BitVec 32) : Prop := (nu <ᶠ lit 0) = true ∨ (x <ᶠ lit 0) = true ∨ IsNaN nu ∨ IsNaN x

instance (nu x : BitVec 32) : Decidable (besselOutside nu x) := by unfold besselOutside; infer_instance

/-- `ffmath::cyl_bessel_i`, `/repo/src/ffmath.cpp` lines 2756-2774. -/
def cyl_bessel_i (nu x : BitVec 32) : Out (BitVec 32) :=
  if besselOutside nu x then pure nan
  else if besselSmallArg nu x then cylBesselIjSeries nu x (lit 1)
  else do pure (← besselIk nu x).j

/-- The loop of `cyl_bessel_jn_asymp`, `/repo/src/ffmath.cpp` lines 2790-2812; `i` is the value of the counter at the top, the final
`( P, Q )`. -/
def asympLoop (nu mu x8 : BitVec 32) : (fuel i : ℕ) → (term P Q : BitVec 32) → BitVec 32 × BitVec 32
  | 0, _, _, P, Q => (P, Q)
  | fuel + 1, i, term, P, Q =>
    let k := lit (i : ℚ)
    let k2_1 := (lit 2 *ᶠ k) -ᶠ lit 1
    let term := term *ᶠ (if i = 0 then lit 1 else negate (mu -ᶠ (k2_1 *ᶠ k2_1)) /ᶠ (k *ᶠ x8))
    let epsP := absolute term <ᶠ (epsilon *ᶠ absolute P)
    let P := P +ᶠ term
    let k := lit ((i + 1 : ℕ) : ℚ)
    let k2_1 := (lit 2 *ᶠ k) -ᶠ lit 1
    let term := term *ᶠ ((mu -ᶠ (k2_1 *ᶠ k2_1)) /ᶠ (k *ᶠ x8))
    let epsQ := absolute term <ᶠ (epsilon *ᶠ absolute Q)
    let Q := Q +ᶠ term
    if epsP && epsQ && ((lit 0.5 *ᶠ nu) <ᶠ k) then (P, Q) else asympLoop nu mu x8 fuel (i + 2) term P Q

/-- `cyl_bessel_jn_asymp`, `/repo/src/ffmath.cpp` lines 2776-2818: `( Jnu, Nnu )`. -/
def cylBesselJnAsymp (nu x : BitVec 32) : BitVec 32 × BitVec 32 :=
  let mu := (lit 4 *ᶠ nu) *ᶠ nu
  let x8 := lit 8 *ᶠ x
  let (P, Q) := asympLoop nu mu x8 500 0 (lit 1) (lit 0) (lit 0)
  let chi := x -ᶠ ((nu +ᶠ lit 0.5) *ᶠ FFP_PI_2)
  let c := cos chi
  let s := sin chi
  let coeff := sqrt (lit 2 /ᶠ (FFP_PI *ᶠ x))
  (coeff *ᶠ ((c *ᶠ P) -ᶠ (s *ᶠ Q)), coeff *ᶠ ((s *ᶠ P) +ᶠ (c *ᶠ Q)))

/-- `ffmath::cyl_bessel_j`, `/repo/src/ffmath.cpp` lines 2820-2844. -/
def cyl_bessel_j (nu x : BitVec 32) : Out (BitVec 32) :=
  if besselOutside nu x then pure nan
  else if besselSmallArg nu x then cylBesselIjSeries nu x (lit (-1))
  else if lit 1000 <ᶠ x then pure (cylBesselJnAsymp nu x).1
  else do pure (← besselJn nu x).j

/-- `ffmath::cyl_bessel_k`, `/repo/src/ffmath.cpp` lines 2846-2861. -/
def cyl_bessel_k (nu x : BitVec 32) : Out (BitVec 32) :=
  if besselOutside nu x then pure nan
  else do pure (← besselIk nu x).n

/-- `ffmath::cyl_neumann`, `/repo/src/ffmath.cpp` lines 2863-2883. -/
def cyl_neumann (nu x : BitVec 32) : Out (BitVec 32) :=
  if besselOutside nu x then pure nan
  else if lit 1000 <ᶠ x then pure (cylBesselJnAsymp nu x).2
  else do pure (← besselJn nu x).n

end Verif.Ffmath
