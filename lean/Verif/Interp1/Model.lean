import Verif.Base
import Verif.Arith

/-!
# Model of `/repo/src/interp1.cpp` and `/repo/src/include/interp1.hpp`

A pointer to a table is an `Option (Array R)` (`none` is `nullptr`). `nan` is the value of
`ffmath::getNan()`. Table sizes are assumed to be below `INT_MAX` (`linear` counts with an `int`).
-/

namespace Verif.Interp1

open Arith

variable {R : Type} [Arith R] [Trans R]

/-- `ffmath::isEqual` with its default tolerance. `/repo/src/ffmath.cpp` lines 113-118 and
`/repo/src/include/ffmath.hpp` lines 50-52. -/
def isEqual (a b : R) : Bool := absf (a -. b) ≤. absf (lit (1 / 2 ^ 126) : R)

/-- The common test of the arguments: `if ( ( tableSize >= m ) && ... )`, otherwise NaN; for example
`/repo/src/interp1.cpp` lines 36-38. -/
def guarded (nan : R) (m : Nat) (tx ty : Option (Array R)) (n : Nat)
    (f : Array R → Array R → Out R) : Out R :=
  match tx, ty with
  | some tx, some ty => if n ≥ m then f tx ty else .ok nan
  | _, _ => .ok nan

/-- Loop of `interp1::next` with `k` iterations left at index `i`: the index found or the default.
`/repo/src/interp1.cpp` lines 41-46. -/
def nextLoop (x : R) (tx : Array R) (dflt : Nat) : Nat → Nat → Out Nat
  | 0, _ => .ok dflt
  | k + 1, i => do
    let v ← rdArr tx (i + 1)
    if x <. v then pure i else nextLoop x tx dflt k (i + 1)

/-- `interp1::next`, `/repo/src/interp1.cpp` lines 31-57. -/
def next (nan x : R) (tx ty : Option (Array R)) (n : Nat) : Out R :=
  guarded nan 2 tx ty n fun tx ty => do
    let idx ← nextLoop x tx (n - 1) (n - 1) 0
    let last ← rdArr tx (n - 1)
    if last ≤. x then rdArr ty (n - 1) else rdArr ty (idx + 1)

/-- Loop of `interp1::previous` with `k` iterations left at index `i`.
`/repo/src/interp1.cpp` lines 73-78. -/
def prevLoop (x : R) (tx : Array R) : Nat → Nat → Nat → Out Nat
  | 0, _, near => .ok near
  | k + 1, i, near => do
    let v ← rdArr tx i
    if x <. v then pure near else prevLoop x tx k (i + 1) i

/-- `interp1::previous`, `/repo/src/interp1.cpp` lines 59-83. -/
def previous (nan x : R) (tx ty : Option (Array R)) (n : Nat) : Out R :=
  guarded nan 2 tx ty n fun tx ty => do
    let first ← rdArr tx 0
    if x ≤. first then rdArr ty 0
    else do
      let idx ← prevLoop x tx (n - 1) 1 0
      rdArr ty idx

/-- Loop of `interp1::nearest` with `k` iterations left at index `i`.
`/repo/src/interp1.cpp` lines 96-103. -/
def nearLoop (x : R) (tx : Array R) : Nat → Nat → R → Nat → Out Nat
  | 0, _, _, near => .ok near
  | k + 1, i, minD, near => do
    let v ← rdArr tx i
    let d := absf (x -. v)
    if d ≤. minD then nearLoop x tx k (i + 1) d i else nearLoop x tx k (i + 1) minD near

/-- `interp1::nearest`, `/repo/src/interp1.cpp` lines 85-107. -/
def nearest (nan x : R) (tx ty : Option (Array R)) (n : Nat) : Out R :=
  guarded nan 2 tx ty n fun tx ty => do
    let first ← rdArr tx 0
    let idx ← nearLoop x tx (n - 1) 1 (absf (x -. first)) 0
    rdArr ty idx

/-- `y0 + ( ( y1 - y0 )/( x1 - x0 ) )*( x - x0 )`, `/repo/src/interp1.cpp` lines 122 and 139. -/
def line (x x0 x1 y0 y1 : R) : R := y0 +. ((y1 -. y0) /. (x1 -. x0)) *. (x -. x0)

/-- Loop of `interp1::linear` with `k` iterations left at index `i`.
`/repo/src/interp1.cpp` lines 133-142. -/
def linLoop (nan x : R) (tx ty : Array R) : Nat → Nat → Out R
  | 0, _ => .ok nan
  | k + 1, i => do
    let a ← rdArr tx i
    let b ← rdArr tx (i + 1)
    if (a ≤. x) && (x ≤. b) then do
      let y0 ← rdArr ty i
      let y1 ← rdArr ty (i + 1)
      pure (line x a b y0 y1)
    else linLoop nan x tx ty k (i + 1)

/-- The two extrapolation branches shared by `interp1::linear` and `interp1::hermite`, and the branch
inside the table. `/repo/src/interp1.cpp` lines 117-130 and 255-268. -/
def withLines (x : R) (tx ty : Array R) (n : Nat) (inside : Out R) : Out R := do
  let first ← rdArr tx 0
  if x <. first then do
    let x1 ← rdArr tx 1
    let y0 ← rdArr ty 0
    let y1 ← rdArr ty 1
    pure (line x first x1 y0 y1)
  else do
    let last ← rdArr tx (n - 1)
    if last <. x then do
      let x0 ← rdArr tx (n - 2)
      let y0 ← rdArr ty (n - 2)
      let y1 ← rdArr ty (n - 1)
      pure (line x last x0 y1 y0)
    else inside

/-- `interp1::linear`, `/repo/src/interp1.cpp` lines 109-146. -/
def linear (nan x : R) (tx ty : Option (Array R)) (n : Nat) : Out R :=
  guarded nan 2 tx ty n fun tx ty => withLines x tx ty n (linLoop nan x tx ty (n - 1) 0)

/-- `FFP_PI` (the nearest `float`), `/repo/src/include/ffmath.hpp` line 1067. -/
def pi : R := lit (13176795 / 2 ^ 22)

/-- `y0 + w*( y1 - y0 )` with `w = 0.5 - 0.5*cos( pi*( x - x0 )/( x1 - x0 ) )`.
`/repo/src/interp1.cpp` lines 160-161 and 178-179. -/
def sineSeg (x x0 x1 y0 y1 : R) : R :=
  let w := lit (1 / 2) -. lit (1 / 2) *. Trans.cos (pi *. (x -. x0) /. (x1 -. x0))
  y0 +. w *. (y1 -. y0)

/-- Loop of `interp1::sine` (it does not stop at the first segment found) with `k` iterations left at
index `i`. `/repo/src/interp1.cpp` lines 172-181. -/
def sineLoop (x : R) (tx ty : Array R) : Nat → Nat → R → Out R
  | 0, _, y => .ok y
  | k + 1, i, y => do
    let b ← rdArr tx i
    if x ≤. b then do
      let a ← rdArr tx (i - 1)
      let y0 ← rdArr ty (i - 1)
      let y1 ← rdArr ty i
      sineLoop x tx ty k (i + 1) (sineSeg x a b y0 y1)
    else sineLoop x tx ty k (i + 1) y

/-- `interp1::sine`, `/repo/src/interp1.cpp` lines 148-185. -/
def sine (nan x : R) (tx ty : Option (Array R)) (n : Nat) : Out R :=
  guarded nan 2 tx ty n fun tx ty => do
    let first ← rdArr tx 0
    if x <. first then do
      let x1 ← rdArr tx 1
      let y0 ← rdArr ty 0
      let y1 ← rdArr ty 1
      pure (sineSeg x first x1 y0 y1)
    else do
      let last ← rdArr tx (n - 1)
      if last <. x then do
        let x0 ← rdArr tx (n - 2)
        let y0 ← rdArr ty (n - 2)
        let y1 ← rdArr ty (n - 1)
        pure (sineSeg x last x0 y1 y0)
      else sineLoop x tx ty (n - 1) 1 nan

/-- The cubic with values `y0`, `y1` and differences `d0`, `d1`, at `t = ( x - xr )/h`.
`/repo/src/interp1.cpp` lines 199-207, 214-222 and 231-238. -/
def cubicSeg (x xr h y0 y1 d0 d1 : R) : R :=
  let t := (x -. xr) /. h
  let t2 := t *. t
  let t3 := t2 *. t
  (lit 2 *. t3 -. lit 3 *. t2 +. lit 1) *. y0 +. (t3 -. lit 2 *. t2 +. t) *. h *. d0 +.
    (lit (-2) *. t3 +. lit 3 *. t2) *. y1 +. (t3 -. t2) *. h *. d1

/-- Loop of `interp1::cubic` with `k` iterations left at index `i`; for `i = 1` the index `i - 2U` is
`SIZE_MAX`, outside the table. `/repo/src/interp1.cpp` lines 225-241. -/
def cubicLoop (nan x : R) (tx ty : Array R) : Nat → Nat → Out R
  | 0, _ => .ok nan
  | k + 1, i => do
    let b ← rdArr tx i
    if x ≤. b then do
      let a ← rdArr tx (i - 1)
      let y0 ← rdArr ty (i - 1)
      let y1 ← rdArr ty i
      let ym ← (if i < 2 then .ub else rdArr ty (i - 2))
      pure (cubicSeg x a (b -. a) y0 y1 (y0 -. ym) (y1 -. y0))
    else cubicLoop nan x tx ty k (i + 1)

/-- `interp1::cubic`, `/repo/src/interp1.cpp` lines 187-245. -/
def cubic (nan x : R) (tx ty : Option (Array R)) (n : Nat) : Out R :=
  guarded nan 4 tx ty n fun tx ty => do
    let first ← rdArr tx 0
    if x <. first then do
      let x1 ← rdArr tx 1
      let y0 ← rdArr ty 0
      let y1 ← rdArr ty 1
      pure (cubicSeg x first (x1 -. first) y0 y1 (y0 -. y1) (y1 -. y0))
    else do
      let last ← rdArr tx (n - 1)
      if last <. x then do
        let x0 ← rdArr tx (n - 2)
        let y0 ← rdArr ty (n - 2)
        let y1 ← rdArr ty (n - 1)
        let ym ← rdArr ty (n - 3)
        pure (cubicSeg x last (last -. x0) y1 y0 (y0 -. ym) (y1 -. y0))
      else cubicLoop nan x tx ty (n - 1) 1

/-- Inner loop of `interp1::hermite` with `k` iterations left at index `j`.
`/repo/src/interp1.cpp` lines 274-278. -/
def termLoop (x : R) (tx : Array R) (i : Nat) : Nat → Nat → R → Out R
  | 0, _, term => .ok term
  | k + 1, j, term =>
    if i ≠ j then do
      let xj ← rdArr tx j
      let xi ← rdArr tx i
      termLoop x tx i k (j + 1) (term *. ((x -. xj) /. (xi -. xj)))
    else termLoop x tx i k (j + 1) term

/-- Outer loop of `interp1::hermite` with `k` iterations left at index `i`.
`/repo/src/interp1.cpp` lines 271-281. -/
def hermiteLoop (x : R) (tx ty : Array R) (n : Nat) : Nat → Nat → R → Out R
  | 0, _, y => .ok y
  | k + 1, i, y => do
    let yi ← rdArr ty i
    let term ← termLoop x tx i n 0 yi
    hermiteLoop x tx ty n k (i + 1) (y +. term)

/-- `interp1::hermite`, `/repo/src/interp1.cpp` lines 247-285. -/
def hermite (nan x : R) (tx ty : Option (Array R)) (n : Nat) : Out R :=
  guarded nan 2 tx ty n fun tx ty => withLines x tx ty n (hermiteLoop x tx ty n n 0 (lit 0))

/-- `while ( x >= tx[ i + 1U ] ) i++`, with fuel (reading outside the table is undefined behaviour, so
`tx.size` iterations are enough). `/repo/src/interp1.cpp` lines 304-306 and 363-365. -/
def segLoop (x : R) (tx : Array R) : Nat → Nat → Out Nat
  | 0, _ => .diverge
  | k + 1, i => do
    let v ← rdArr tx (i + 1)
    if v ≤. x then segLoop x tx k (i + 1) else pure i

/-- Search of the segment in `interp1::spline` and `interp1::cSpline`.
`/repo/src/interp1.cpp` lines 295-307 and 354-366. -/
def segment (x : R) (tx : Array R) (n : Nat) : Out Nat := do
  let first ← rdArr tx 0
  if x ≤. first then pure 0
  else do
    let last ← rdArr tx (n - 1)
    if last ≤. x then pure (n - 2) else segLoop x tx (tx.size + 1) 0

/-- `interp1::slope`, called with `i ≥ 1`. `/repo/src/interp1.cpp` lines 395-409. -/
def slope (tx ty : Array R) (i : Nat) : Out R := do
  let xp ← rdArr tx (i + 1)
  let xm ← rdArr tx (i - 1)
  if isEqual xp xm then pure (lit 0)
  else do
    let yp ← rdArr ty (i + 1)
    let ym ← rdArr ty (i - 1)
    pure ((yp -. ym) /. (xp -. xm))

/-- `( ty[ j ] - ty[ i ] )/( tx[ j ] - tx[ i ] )`, `/repo/src/interp1.cpp` lines 328-333. -/
def chord (tx ty : Array R) (j i : Nat) : Out R := do
  let yj ← rdArr ty j
  let yi ← rdArr ty i
  let xj ← rdArr tx j
  let xi ← rdArr tx i
  pure ((yj -. yi) /. (xj -. xi))

/-- The Hermite form of `interp1::spline`, `/repo/src/interp1.cpp` lines 313-324 and 339. -/
def splineSeg (x x0 x1 y0 y1 m0 m1 : R) : R :=
  let t := (x -. x0) /. (x1 -. x0)
  let t2 := t *. t
  let t3 := t2 *. t
  let tt3 := lit 2 *. t3
  let tt2 := lit 3 *. t2
  let h01 := tt2 -. tt3
  let h00 := lit 1 -. h01
  let h10 := t3 -. lit 2 *. t2 +. t
  let h11 := t3 -. t2
  let x1_x0 := x1 -. x0
  h00 *. y0 +. h01 *. y1 +. h10 *. x1_x0 *. m0 +. h11 *. x1_x0 *. m1

/-- `interp1::spline`, `/repo/src/interp1.cpp` lines 287-344. -/
def spline (nan x : R) (tx ty : Option (Array R)) (n : Nat) : Out R :=
  guarded nan 4 tx ty n fun tx ty => do
    let i ← segment x tx n
    let x1 ← rdArr tx (i + 1)
    if isEqual x x1 then rdArr ty (i + 1)
    else do
      let x0 ← rdArr tx i
      let y0 ← rdArr ty i
      let y1 ← rdArr ty (i + 1)
      let (m0, m1) ←
        (if i = 0 then do
          let m0 ← chord tx ty 1 0
          let m1 ← chord tx ty 2 0
          pure (m0, m1)
        else if n - 2 = i then do
          let m0 ← chord tx ty (n - 1) (n - 3)
          let m1 ← chord tx ty (n - 1) (n - 2)
          pure (m0, m1)
        else do
          let m0 ← slope tx ty i
          let m1 ← slope tx ty (i + 1)
          pure (m0, m1))
      pure (splineSeg x x0 x1 y0 y1 m0 m1)

/-- `interp1::firstDerivate`, called with `2 ≤ n`. `/repo/src/interp1.cpp` lines 411-442. -/
def firstDerivate (tx ty : Array R) (n i : Nat) : Out R :=
  if i = 0 then do
    let x0 ← rdArr tx 0
    let x1 ← rdArr tx 1
    let x2 ← rdArr tx 2
    let y0 ← rdArr ty 0
    let y1 ← rdArr ty 1
    let y2 ← rdArr ty 2
    let dx := x1 -. x0
    let dy := y1 -. y0
    pure (lit (3 / 2) *. (dy /. dx) -. lit 1 /. ((x2 -. x0) /. (y2 -. y0) +. dx /. dy))
  else if n = i then do
    let xn ← rdArr tx n
    let xm ← rdArr tx (n - 1)
    let xk ← rdArr tx (n - 2)
    let yn ← rdArr ty n
    let ym ← rdArr ty (n - 1)
    let yk ← rdArr ty (n - 2)
    let dx := xn -. xm
    let dy := yn -. ym
    pure (lit (3 / 2) *. (dy /. dx) -. lit 1 /. ((xn -. xk) /. (yn -. yk) +. dx /. dy))
  else do
    let xp ← rdArr tx (i + 1)
    let xi ← rdArr tx i
    let xm ← rdArr tx (i - 1)
    let yp ← rdArr ty (i + 1)
    let yi ← rdArr ty i
    let ym ← rdArr ty (i - 1)
    let tmp1 := (xp -. xi) /. (yp -. yi)
    let tmp2 := (xi -. xm) /. (yi -. ym)
    if tmp1 *. tmp2 <. lit 0 then pure (lit 0) else pure (lit 2 /. (tmp1 +. tmp2))

/-- `interp1::leftSecondDerivate`, called with `i ≥ 1`. `/repo/src/interp1.cpp` lines 444-456. -/
def leftSecondDerivate (tx ty : Array R) (n i : Nat) : Out R := do
  let fdi ← firstDerivate tx ty n i
  let fdl ← firstDerivate tx ty n (i - 1)
  let xi ← rdArr tx i
  let xm ← rdArr tx (i - 1)
  let d := xi -. xm
  let yi ← rdArr ty i
  let ym ← rdArr ty (i - 1)
  pure (lit (-2) *. (fdi +. lit 2 *. fdl) /. d +. lit 6 *. (yi -. ym) /. (d *. d))

/-- `interp1::rightSecondDerivate`, called with `i ≥ 1`. `/repo/src/interp1.cpp` lines 458-470. -/
def rightSecondDerivate (tx ty : Array R) (n i : Nat) : Out R := do
  let fdi ← firstDerivate tx ty n i
  let fdl ← firstDerivate tx ty n (i - 1)
  let xi ← rdArr tx i
  let xm ← rdArr tx (i - 1)
  let d := xi -. xm
  let yi ← rdArr ty i
  let ym ← rdArr ty (i - 1)
  pure (lit 2 *. (lit 2 *. fdi +. fdl) /. d -. lit 6 *. (yi -. ym) /. (d *. d))

/-- The cubic of `interp1::cSpline` with second derivatives `f0`, `f1` at the ends. The literal
`0.166666667_re` is the nearest `float`, 11184811 / 2^26. `/repo/src/interp1.cpp` lines 378-388. -/
def cSplineSeg (x x0 x1 y0 y1 f0 f1 : R) : R :=
  let x0_x1 := x0 -. x1
  let x1_2 := x1 *. x1
  let x1_3 := x1_2 *. x1
  let x0_2 := x0 *. x0
  let x0_3 := x0_2 *. x0
  let inv := lit 1 /. x0_x1
  let d := (f1 -. f0) *. (lit (11184811 / 2 ^ 26) *. inv)
  let c := (x0 *. f0 -. x1 *. f1) *. (lit (1 / 2) *. inv)
  let b := (y0 -. y1 -. c *. (x0_2 -. x1_2) -. d *. (x0_3 -. x1_3)) *. inv
  let a := y1 -. b *. x1 -. c *. x1_2 -. d *. x1_3
  a +. x *. (b +. x *. (c +. x *. d))

/-- `interp1::cSpline`, `/repo/src/interp1.cpp` lines 346-393. -/
def cSpline (nan x : R) (tx ty : Option (Array R)) (n : Nat) : Out R :=
  guarded nan 4 tx ty n fun tx ty => do
    let i ← segment x tx n
    let x1 ← rdArr tx (i + 1)
    if isEqual x x1 then rdArr ty (i + 1)
    else do
      let x0 ← rdArr tx i
      let y0 ← rdArr ty i
      let y1 ← rdArr ty (i + 1)
      let f0 ← leftSecondDerivate tx ty (n - 1) (i + 1)
      let f1 ← rightSecondDerivate tx ty (n - 1) (i + 1)
      pure (cSplineSeg x x0 x1 y0 y1 f0 f1)

/-- `interp1Method`, `/repo/src/include/interp1.hpp` lines 26-39. -/
inductive Method where
  | next | previous | nearest | linear | sine | cubic | hermite | spline | cSpline
  deriving DecidableEq, Repr

/-- The table of `interp1::setMethod`, `/repo/src/interp1.cpp` lines 11-21. -/
def methodTable : List Method :=
  [.next, .previous, .nearest, .linear, .sine, .cubic, .hermite, .spline, .cSpline]

/-- The function a method stands for, `/repo/src/interp1.cpp` lines 11-21. -/
def Method.fn : Method → R → R → Option (Array R) → Option (Array R) → Nat → Out R
  | .next => Interp1.next
  | .previous => Interp1.previous
  | .nearest => Interp1.nearest
  | .linear => Interp1.linear
  | .sine => Interp1.sine
  | .cubic => Interp1.cubic
  | .hermite => Interp1.hermite
  | .spline => Interp1.spline
  | .cSpline => Interp1.cSpline

/-- `interp1`, `/repo/src/include/interp1.hpp` lines 50-53. -/
structure Interp (R : Type) where
  xData : Option (Array R)
  yData : Option (Array R)
  dataSize : Nat
  method : Method
  deriving DecidableEq, Repr

/-- Constructor, `/repo/src/include/interp1.hpp` lines 113-115. -/
def Interp.new (x y : Option (Array R)) (n : Nat) : Interp R := ⟨x, y, n, .linear⟩

/-- `interp1::setData`, `/repo/src/include/interp1.hpp` lines 132-145. -/
def Interp.setData (s : Interp R) (x y : Option (Array R)) (n : Nat) : Interp R × Bool :=
  if x.isSome && y.isSome && decide (n ≥ 4) then
    ({ s with xData := x, yData := y, dataSize := n }, true)
  else (s, false)

/-- `interp1::setMethod`, `m` the value of the enumerator. `/repo/src/interp1.cpp` lines 8-29. -/
def Interp.setMethod (s : Interp R) (m : Nat) : Interp R × Bool :=
  match methodTable[m]? with
  | some f => ({ s with method := f }, true)
  | none => (s, false)

/-- `interp1::get`, `/repo/src/include/interp1.hpp` lines 174-177. -/
def Interp.get (s : Interp R) (nan x : R) : Out R := s.method.fn nan x s.xData s.yData s.dataSize

end Verif.Interp1
