import Verif.Ltisys.Fir
import Verif.Tdl.Model

/-!
# Model of `/repo/src/smoother.cpp` and `/repo/src/include/smoother.hpp`

A pointer to a user array is an `Option (Array R)` (`none` is `nullptr`) kept in the object: the
array is assumed not to be touched by anybody else. `static_cast<real_t>( n )` is the literal `n`.
`smoother::reset` (`/repo/src/include/smoother.hpp` lines 57-61) sets `init` and returns `true`.
-/

namespace Verif.Smoother

open Arith Ltisys

variable {R : Type} [Arith R] [Trans R]

/-- Reading through a pointer. Not a definition of the repository. -/
def deref (p : Option (Array R)) : Out (Array R) :=
  match p with
  | some a => .ok a
  | none => .ub

/-- Loop of `smoother::windowSet` with `k` iterations left, at index `i`.
`/repo/src/smoother.cpp` lines 12-14. -/
def windowSetLoop (x : R) : Nat → Nat → Array R → Out (Array R)
  | 0, _, w => .ok w
  | k + 1, i, w => do
    let w ← wrArr w i x
    windowSetLoop x k (i + 1) w

/-- `smoother::windowSet`, `/repo/src/smoother.cpp` lines 8-15. -/
def windowSet (w : Array R) (wsize : Nat) (x : R) : Out (Array R) := windowSetLoop x wsize 0 w

/-- `smootherLPF1`, `/repo/src/include/smoother.hpp` lines 67-71. -/
structure LPF1 (R : Type) where
  alpha : R
  y1 : R
  init : Bool
  deriving DecidableEq, Repr

/-- `smootherLPF1::setup`, `/repo/src/smoother.cpp` lines 18-28. -/
def LPF1.setup (s : LPF1 R) (a : R) : LPF1 R × Bool :=
  if (lit 0 <. a) && (a <. lit 1) then ({ s with alpha := a, init := true }, true) else (s, false)

/-- `smootherLPF1::smooth`, `/repo/src/smoother.cpp` lines 30-42. -/
def LPF1.smooth (s : LPF1 R) (x : R) : LPF1 R × R :=
  let s := if s.init then { s with y1 := x, init := false } else s
  let y := x +. s.alpha *. (s.y1 -. x)
  ({ s with y1 := y }, y)

/-- `smootherLPF2`, `/repo/src/include/smoother.hpp` lines 96-106. -/
structure LPF2 (R : Type) where
  y1 : R
  y2 : R
  x1 : R
  x2 : R
  k : R
  a1 : R
  a2 : R
  b1 : R
  init : Bool
  deriving DecidableEq, Repr

/-- `smootherLPF2::setup`, `/repo/src/smoother.cpp` lines 44-63. -/
def LPF2.setup (s : LPF2 R) (a : R) : LPF2 R × Bool :=
  if (lit 0 <. a) && (a <. lit 1) then
    let aa := a *. a
    let p1 := Trans.sqrt (lit 2 *. a)
    let r := lit 1 +. p1 +. aa
    let k := aa /. r
    ({ s with k := k, a1 := lit 2 *. (aa -. lit 1) /. r, a2 := (lit 1 -. p1 +. aa) /. r,
              b1 := lit 2 *. k, init := true }, true)
  else (s, false)

/-- `smootherLPF2::smooth`, `/repo/src/smoother.cpp` lines 65-83. -/
def LPF2.smooth (s : LPF2 R) (x : R) : LPF2 R × R :=
  let s := if s.init then { s with y1 := x, y2 := x, x1 := x, x2 := x, init := false } else s
  let y := s.k *. x +. s.b1 *. s.x1 +. s.k *. s.x2 -. s.a1 *. s.y1 -. s.a2 *. s.y2
  ({ s with x2 := s.x1, x1 := x, y2 := s.y1, y1 := y }, y)

/-- `smootherMWM1`, `/repo/src/include/smoother.hpp` lines 132-136. -/
structure MWM1 (R : Type) where
  w : Option (Array R)
  wsize : Nat
  init : Bool
  deriving DecidableEq, Repr

/-- `smootherMWM1::setup` (it tests the member `wsize`, not the argument).
`/repo/src/smoother.cpp` lines 85-97. -/
def MWM1.setup (s : MWM1 R) (window : Option (Array R)) (w_size : Nat) : MWM1 R × Bool :=
  if window.isSome && decide (s.wsize > 0) then
    ({ s with w := window, wsize := w_size, init := true }, true)
  else (s, false)

/-- `smootherMWM1::smooth`, `/repo/src/smoother.cpp` lines 99-108. -/
def MWM1.smooth (s : MWM1 R) (x : R) : Out (MWM1 R × R) := do
  let w ← deref s.w
  let w ← (if s.init then windowSet w s.wsize x else .ok w)
  let (w, y) ← updateFIR w s.wsize x none
  pure ({ s with w := some w, init := false }, y /. lit s.wsize)

/-- `smootherMWM2`, `/repo/src/include/smoother.hpp` lines 174-177; an object that was not set up has
a delay line without storage. -/
structure MWM2 (R : Type) where
  tdl : Tdl.Tdl R
  sum : R
  init : Bool
  deriving DecidableEq, Repr

/-- `smootherMWM2::setup`, `/repo/src/smoother.cpp` lines 110-121. -/
def MWM2.setup (s : MWM2 R) (window : Option (Array R)) (w_size : Nat) : Out (MWM2 R × Bool) :=
  match window with
  | some w =>
    if w_size > 0 then do
      let t ← Tdl.setup s.tdl.undef w w_size (lit 0)
      pure ({ s with tdl := t, init := true }, true)
    else pure (s, false)
  | none => pure (s, false)

/-- `smootherMWM2::smooth`, `/repo/src/smoother.cpp` lines 123-137. -/
def MWM2.smooth (s : MWM2 R) (x : R) : Out (MWM2 R × R) := do
  let wsize := lit s.tdl.n
  let s ← (if s.init then do
      let t ← Tdl.flush s.tdl x
      pure { s with tdl := t, sum := x *. wsize, init := false }
    else pure s)
  let old ← Tdl.getOldest s.tdl
  let sum := s.sum +. (x -. old)
  let t ← Tdl.insertSample s.tdl x
  pure ({ s with tdl := t, sum := sum }, sum /. wsize)

/-- `smootherMOR1`, `/repo/src/include/smoother.hpp` lines 215-221. -/
structure MOR1 (R : Type) where
  w : Option (Array R)
  m : R
  alpha : R
  wsize : Nat
  init : Bool
  deriving DecidableEq, Repr

/-- `smootherMOR1::setup`, `/repo/src/smoother.cpp` lines 139-153. -/
def MOR1.setup (s : MOR1 R) (window : Option (Array R)) (w_size : Nat) (a : R) : MOR1 R × Bool :=
  if window.isSome && decide (w_size > 0) && (lit 0 <. a) && (a <. lit 1) then
    ({ s with w := window, wsize := w_size, alpha := a, init := true }, true)
  else (s, false)

/-- `smootherMOR1::smooth`, `/repo/src/smoother.cpp` lines 155-174. -/
def MOR1.smooth (s : MOR1 R) (x : R) : Out (MOR1 R × R) := do
  let w ← deref s.w
  let w ← (if s.init then windowSet w s.wsize x else .ok w)
  let m := if s.init then x else s.m
  let (w, y) ← updateFIR w s.wsize x none
  let mc := y -. x
  let w ← (if s.alpha *. absf m <. absf (m -. x) then wrArr w 0 m else .ok w)
  let w0 ← rdArr w 0
  let m := (mc +. w0) /. lit s.wsize
  pure ({ s with w := some w, m := m, init := false }, w0)

/-- `smootherMOR2`, `/repo/src/include/smoother.hpp` lines 263-268. -/
structure MOR2 (R : Type) where
  tdl : Tdl.Tdl R
  sum : R
  m : R
  alpha : R
  init : Bool
  deriving DecidableEq, Repr

/-- `smootherMOR2::setup`, `/repo/src/smoother.cpp` lines 176-191. -/
def MOR2.setup (s : MOR2 R) (window : Option (Array R)) (w_size : Nat) (a : R) :
    Out (MOR2 R × Bool) :=
  match window with
  | some w =>
    if decide (w_size > 0) && (lit 0 <. a) && (a <. lit 1) then do
      let t ← Tdl.setup s.tdl.undef w w_size (lit 0)
      pure ({ s with tdl := t, alpha := a, sum := lit 0, m := lit 0, init := true }, true)
    else pure (s, false)
  | none => pure (s, false)

/-- `smootherMOR2::smooth`, `/repo/src/smoother.cpp` lines 193-214. -/
def MOR2.smooth (s : MOR2 R) (x : R) : Out (MOR2 R × R) := do
  let wsize := lit s.tdl.n
  let s ← (if s.init then do
      let t ← Tdl.flush s.tdl x
      pure { s with tdl := t, sum := wsize *. x, m := x, init := false }
    else pure s)
  let xx := if s.alpha *. absf s.m <. absf (s.m -. x) then s.m else x
  let old ← Tdl.getOldest s.tdl
  let sum := s.sum +. (xx -. old)
  let m := sum /. wsize
  let t ← Tdl.insertSample s.tdl xx
  pure ({ s with tdl := t, sum := sum, m := m }, x)

/-- `smootherGMWF`, `/repo/src/include/smoother.hpp` lines 309-314. -/
structure GMWF (R : Type) where
  w : Option (Array R)
  k : Option (Array R)
  wsize : Nat
  init : Bool
  deriving DecidableEq, Repr

/-- First kernel loop of `smootherGMWF::setup`, `n` iterations left at index `i`.
`/repo/src/smoother.cpp` lines 234-243. -/
def gaussLoop (l center r : R) : Nat → Nat → Array R → R → Out (Array R × R)
  | 0, _, kernel, sum => .ok (kernel, sum)
  | n + 1, i, kernel, sum => do
    let d := lit i -. l
    let d := d -. center
    let v := Trans.exp (Arith.neg (d *. d) /. r)
    let kernel ← wrArr kernel i v
    gaussLoop l center r n (i + 1) kernel (sum +. v)

/-- Second kernel loop of `smootherGMWF::setup`. `/repo/src/smoother.cpp` lines 244-246. -/
def normLoop (sum : R) : Nat → Nat → Array R → Out (Array R)
  | 0, _, kernel => .ok kernel
  | n + 1, i, kernel => do
    let v ← rdArr kernel i
    let kernel ← wrArr kernel i (v /. sum)
    normLoop sum n (i + 1) kernel

/-- `smootherGMWF::setup`, `/repo/src/smoother.cpp` lines 216-254. -/
def GMWF.setup (s : GMWF R) (sg c : R) (window kernel : Option (Array R)) (wk_size : Nat) :
    Out (GMWF R × Bool) :=
  if window.isSome && decide (wk_size > 0) && (c <. lit wk_size) && (lit 0 <. sg) then do
    let l := lit ((wk_size - 1 : Nat) : ℚ)
    let center := c -. l
    let r := lit 2 *. sg *. sg
    let k ← deref kernel
    let (k, sum) ← gaussLoop l center r wk_size 0 k (lit 0)
    let k ← normLoop sum wk_size 0 k
    pure ({ s with w := window, k := some k, wsize := wk_size, init := true }, true)
  else pure (s, false)

/-- `smootherGMWF::smooth`, `/repo/src/smoother.cpp` lines 256-263. -/
def GMWF.smooth (s : GMWF R) (x : R) : Out (GMWF R × R) := do
  let w ← deref s.w
  let w ← (if s.init then windowSet w s.wsize x else .ok w)
  let (w, y) ← updateFIR w s.wsize x s.k
  pure ({ s with w := some w, init := false }, y)

/-- `smootherEXPW`, `/repo/src/include/smoother.hpp` lines 365-370. -/
structure EXPW (R : Type) where
  lambda : R
  m : R
  w : R
  init : Bool
  deriving DecidableEq, Repr

/-- `smootherEXPW::setup`, `/repo/src/smoother.cpp` lines 265-277. -/
def EXPW.setup (s : EXPW R) (lam : R) : EXPW R × Bool :=
  if (lit 0 <. lam) && (lam <. lit 1) then
    ({ s with lambda := lam, m := lit 0, w := lit 1, init := true }, true)
  else (s, false)

/-- `smootherEXPW::smooth`, `/repo/src/smoother.cpp` lines 279-293. -/
def EXPW.smooth (s : EXPW R) (x : R) : EXPW R × R :=
  let s := if s.init then { s with m := x, w := lit 1, init := false } else s
  let w := s.lambda *. s.w +. lit 1
  let iw := lit 1 /. w
  let m := s.m *. (lit 1 -. iw) +. iw *. x
  ({ s with w := w, m := m }, m)

/-- `smootherKLMN`, `/repo/src/include/smoother.hpp` lines 394-403. -/
structure KLMN (R : Type) where
  xS : R
  A : R
  H : R
  q : R
  r : R
  p : R
  gain : R
  init : Bool
  deriving DecidableEq, Repr

/-- `smootherKLMN::setup`, `/repo/src/smoother.cpp` lines 295-311. -/
def KLMN.setup (s : KLMN R) (processNoiseCov measureNoiseCov estErrorCov : R) : KLMN R × Bool :=
  if (lit 0 <. processNoiseCov) && (lit 0 <. measureNoiseCov) && (lit 0 <. estErrorCov) then
    ({ s with p := estErrorCov, q := processNoiseCov, r := measureNoiseCov, A := lit 1, H := lit 1,
              init := true }, true)
  else (s, false)

/-- `smootherKLMN::smooth`, `/repo/src/smoother.cpp` lines 313-331. -/
def KLMN.smooth (s : KLMN R) (x : R) : KLMN R × R :=
  let s := if s.init then { s with xS := x, init := false } else s
  let xS := s.A *. s.xS
  let p := s.A *. s.A *. s.p +. s.q
  let pH := p *. s.H
  let gain := pH /. (s.r +. s.H *. pH)
  let xS := xS +. gain *. (x -. s.H *. xS)
  let p := (lit 1 -. gain *. s.H) *. p
  ({ s with xS := xS, p := p, gain := gain }, xS)

/-- `smootherDESF`, `/repo/src/include/smoother.hpp` lines 431-438. -/
structure DESF (R : Type) where
  alpha : R
  beta : R
  lt : R
  bt : R
  n : R
  init : Bool
  deriving DecidableEq, Repr

/-- `smootherDESF::setup`, `/repo/src/smoother.cpp` lines 333-349. -/
def DESF.setup (s : DESF R) (a b : R) (nS : Nat) : DESF R × Bool :=
  if (lit 0 <. a) && (a <. lit 1) && (lit 0 <. b) && (b <. lit 1) then
    ({ s with alpha := a, beta := b, n := lit nS, init := true }, true)
  else (s, false)

/-- `smootherDESF::smooth`, `/repo/src/smoother.cpp` lines 351-365. -/
def DESF.smooth (s : DESF R) (x : R) : DESF R × R :=
  let s := if s.init then { s with lt := x, bt := x, init := false } else s
  let lt_1 := s.lt
  let lt := (lit 1 -. s.alpha) *. lt_1 +. s.alpha *. x
  let bt := (lit 1 -. s.beta) *. s.bt +. s.beta *. (lt -. lt_1)
  ({ s with lt := lt, bt := bt }, lt +. s.n *. bt)

/-- `smootherALNF`, `/repo/src/include/smoother.hpp` lines 466-474. -/
structure ALNF (R : Type) where
  alpha : R
  mu : R
  w : Option (Array R)
  w_1 : Option (Array R)
  xx : Option (Array R)
  n : Nat
  init : Bool
  deriving DecidableEq, Repr

/-- `smootherALNF::setup`, `/repo/src/smoother.cpp` lines 367-387. -/
def ALNF.setup (s : ALNF R) (a m : R) (wsize : Nat) (window weights w1 : Option (Array R)) :
    ALNF R × Bool :=
  if window.isSome && decide (wsize > 0) && (lit 0 <. a) && (a <. lit 1) && (lit 0 <. m) &&
      (m <. lit 1) then
    ({ s with alpha := a, mu := m, xx := window, w := weights,
              w_1 := if lit 0 <. m then w1 else none, n := wsize, init := true }, true)
  else (s, false)

/-- `smootherALNF::setup` without momentum, `/repo/src/include/smoother.hpp` lines 523-529. -/
def ALNF.setupNoMomentum (s : ALNF R) (a : R) (wsize : Nat) (window weights : Array R) :
    ALNF R × Bool :=
  s.setup a (lit 0) wsize (some window) (some weights) none

/-- Weight update with momentum, `k` iterations left at index `i`; `&w[ n ]` is read, not `w_1`.
`/repo/src/smoother.cpp` lines 406-414. -/
def momentumLoop (alpha mu x xe : R) (n : Nat) (xx : Array R) :
    Nat → Nat → Array R → Array R → Out (Array R × Array R)
  | 0, _, w, w_1 => .ok (w, w_1)
  | k + 1, i, w, w_1 => do
    let w0 ← rdArr w i
    let w1 ← rdArr w (n + i)
    let xi ← rdArr xx i
    let w ← wrArr w i (w0 +. (alpha *. (x -. xe) *. xi +. mu *. (w0 -. w1)))
    let w_1 ← wrArr w_1 i w0
    momentumLoop alpha mu x xe n xx k (i + 1) w w_1

/-- Weight update without momentum. `/repo/src/smoother.cpp` lines 417-419. -/
def lmsLoop (alpha x xe : R) (xx : Array R) : Nat → Nat → Array R → Out (Array R)
  | 0, _, w => .ok w
  | k + 1, i, w => do
    let w0 ← rdArr w i
    let xi ← rdArr xx i
    let w ← wrArr w i (w0 +. alpha *. (x -. xe) *. xi)
    lmsLoop alpha x xe xx k (i + 1) w

/-- `smootherALNF::smooth`, `/repo/src/smoother.cpp` lines 389-423. -/
def ALNF.smooth (s : ALNF R) (x : R) : Out (ALNF R × R) := do
  let xx ← deref s.xx
  let w ← deref s.w
  let np := lit 1 /. lit s.n
  let xx ← (if s.init then windowSet xx s.n x else .ok xx)
  let w ← (if s.init then windowSet w s.n np else .ok w)
  let w_1 ← (match s.w_1 with
    | some v => if s.init then do
        let v ← windowSet v s.n np
        pure (some v)
      else pure (some v)
    | none => pure none)
  let (xx, xe) ← updateFIR xx s.n x (some w)
  match w_1 with
  | some v => do
    let (w, v) ← momentumLoop s.alpha s.mu x xe s.n xx s.n 0 w v
    pure ({ s with xx := some xx, w := some w, w_1 := some v, init := false }, xe)
  | none => do
    let w ← lmsLoop s.alpha x xe xx s.n 0 w
    pure ({ s with xx := some xx, w := some w, w_1 := none, init := false }, xe)

end Verif.Smoother
