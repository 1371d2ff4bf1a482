import Verif.Ltisys.Fir
import Verif.Tdl.Model
import Verif.Numa.Model
import Verif.F32.Ops

/-!
# Model of `/repo/src/ltisys.cpp` and `/repo/src/include/ltisys.hpp`

`ltisys` is the abstract base of `discreteSystem` and `continuousSystem`; its members are repeated in
the two structures `DSys` and `CSys`. Arrays supplied by the user are kept in the object (nobody else
touches them, and they do not overlap). The pointers `a = &den[ 1 ]` and (continuous systems)
`b = &num[ 1 ]` are index shifts. The base class `tdl` (the input delay) is `none` until `setDelay`
(`tdl::isInitialized`, `/repo/src/include/tdl.hpp` lines 154-156, tests the pointer `head`).
-/

namespace Verif.Ltisys

open Arith

variable {R : Type} [Arith R]

/-- `REAL_MIN` (`FLT_MIN`), `/repo/src/include/qlibs_types.hpp` line 59. -/
def realMin : R := lit (1 / 2 ^ 126)

/-- `REAL_MAX` (`FLT_MAX`), `/repo/src/include/qlibs_types.hpp` line 58. -/
def realMax : R := lit ((2 ^ 24 - 1) * 2 ^ 104)

/-- Loop `v[ i ] /= a0`, `k` iterations left at index `i`. `/repo/src/ltisys.cpp` lines 14-19. -/
def divLoop (a0 : R) : Nat → Nat → Array R → Out (Array R)
  | 0, _, v => .ok v
  | k + 1, i, v => do
    let x ← rdArr v i
    let v ← wrArr v i (x /. a0)
    divLoop a0 k (i + 1) v

/-- `ltisys::normalizeTransferFunction`, returning the two arrays and `b0`.
`/repo/src/ltisys.cpp` lines 6-21. -/
def normalize (num den : Array R) (n_num n_den : Nat) : Out (Array R × Array R × R) := do
  let a0 ← rdArr den 0
  let num ← divLoop a0 n_num 0 num
  let den ← divLoop a0 n_den 0 den
  let b0 ← rdArr num 0
  pure (num, den, b0)

/-- `ltisys::saturate`, `/repo/src/ltisys.cpp` lines 23-35. -/
def saturate (y min max : R) : R := if y <. min then min else if max <. y then max else y

/-- `insertSample( u ); u = getOldest();` when the input delay is set.
`/repo/src/ltisys.cpp` lines 70-73. -/
def delayInput (t : Option (Tdl.Tdl R)) (u : R) : Out (Option (Tdl.Tdl R) × R) :=
  match t with
  | some t => do
    let t ← Tdl.insertSample t u
    let v ← Tdl.getOldest t
    pure (some t, v)
  | none => pure (none, u)

/-- `discreteSystem` with the members of `ltisys`. `/repo/src/include/ltisys.hpp` lines 184-199 and
271-274. `num` and `den` are the arrays `b` and `a - 1` point to. -/
structure DSys (R : Type) where
  num : Array R
  den : Array R
  xd : Option (Array R)
  n : Nat
  na : Nat
  nb : Nat
  b0 : R
  min : R
  max : R
  discrete : Bool
  delay : Option (Tdl.Tdl R)
  deriving DecidableEq, Repr

/-- Member initialisers, `/repo/src/include/ltisys.hpp` lines 187-199 and 273. -/
def DSys.new : DSys R :=
  { num := #[], den := #[], xd := none, n := 0, na := 0, nb := 0, b0 := lit 0, min := realMin,
    max := realMax, discrete := false, delay := none }

/-- `discreteSystem::isInitialized`, `/repo/src/include/ltisys.hpp` lines 425-428. -/
def DSys.isInitialized (s : DSys R) : Bool := s.xd.isSome && s.discrete

/-- Loop of `discreteSystem::setInitStates` with `xi` a null pointer.
`/repo/src/ltisys.cpp` lines 118-120. -/
def zeroLoop : Nat → Nat → Array R → Out (Array R)
  | 0, _, x => .ok x
  | k + 1, i, x => do
    let x ← wrArr x i (lit 0)
    zeroLoop k (i + 1) x

/-- Loop of `discreteSystem::setInitStates` with initial states.
`/repo/src/ltisys.cpp` lines 113-115. -/
def copyLoop (xi : Array R) : Nat → Nat → Array R → Out (Array R)
  | 0, _, x => .ok x
  | k + 1, i, x => do
    let v ← rdArr xi i
    let x ← wrArr x i v
    copyLoop xi k (i + 1) x

/-- `discreteSystem::setInitStates`, `/repo/src/ltisys.cpp` lines 107-126. -/
def DSys.setInitStates (s : DSys R) (xi : Option (Array R)) : Out (DSys R × Bool) :=
  match s.xd, s.discrete with
  | some x, true => do
    let x ← (match xi with
      | some xi => copyLoop xi s.n 0 x
      | none => zeroLoop s.n 0 x)
    pure ({ s with xd := some x }, true)
  | _, _ => pure (s, false)

/-- `discreteSystem::setup`. For `n_a = 0` the member `na` wraps to `SIZE_MAX` and `setInitStates`
writes outside the array, so that case is undefined behaviour. The arguments of
`normalizeTransferFunction` are passed as in the code: `n_a` for the numerator, `n_b` for the
denominator. `/repo/src/ltisys.cpp` lines 128-150. -/
def DSys.setup (s : DSys R) (num den x : Option (Array R)) (n_b n_a : Nat) : Out (DSys R × Bool) :=
  match num, den, x with
  | some num, some den, some x =>
    if n_b > 0 then
      if n_a = 0 then .ub
      else do
        let na := n_a - 1
        let nb := n_b
        let n := if na > nb then na else nb
        let (num, den, b0) ← normalize num den n_a n_b
        let s := { s with num := num, den := den, xd := some x, n := n, na := na, nb := nb, b0 := b0,
                          discrete := true }
        let (s, _) ← s.setInitStates none
        pure (s, true)
    else pure (s, false)
  | _, _, _ => pure (s, false)

/-- Loop `v -= a[ i ]*xd[ i ]`, `k` iterations left at index `i`.
`/repo/src/ltisys.cpp` lines 157-159. -/
def feedbackLoop (den xd : Array R) : Nat → Nat → R → Out R
  | 0, _, v => .ok v
  | k + 1, i, v => do
    let a ← rdArr den (i + 1)
    let x ← rdArr xd i
    feedbackLoop den xd k (i + 1) (v -. a *. x)

/-- `discreteSystem::update` (called only on initialised systems: a null `xd` is undefined
behaviour). `/repo/src/ltisys.cpp` lines 152-161. -/
def DSys.update (s : DSys R) (u : R) : Out (DSys R × R) :=
  match s.xd with
  | some xd => do
    let v ← feedbackLoop s.den xd s.na 0 u
    let (xd, y) ← updateFIR xd s.n v (some s.num)
    pure ({ s with xd := some xd }, y)
  | none => .ub

/-- `ltisys::excite` of a discrete system, `/repo/src/ltisys.cpp` lines 65-78. -/
def DSys.excite (s : DSys R) (u : R) : Out (DSys R × R) :=
  if s.isInitialized then do
    let (t, u) ← delayInput s.delay u
    let (s, y) ← { s with delay := t }.update u
    pure (s, saturate y s.min s.max)
  else pure (s, lit 0)

/-- `ltisys::setDelay` of a discrete system; `undef` is the NaN member of `tdl`.
`/repo/src/ltisys.cpp` lines 37-49. -/
def DSys.setDelay (s : DSys R) (undef : R) (w : Array R) (nD : Nat) (initVal : R) :
    Out (DSys R × Bool) :=
  if s.isInitialized then do
    let t ← Tdl.setup undef w nD initVal
    pure ({ s with delay := some t }, true)
  else pure (s, false)

/-- `ltisys::setSaturation` of a discrete system, `/repo/src/ltisys.cpp` lines 51-63. -/
def DSys.setSaturation (s : DSys R) (minV maxV : R) : DSys R × Bool :=
  if s.isInitialized && (minV <. maxV) then ({ s with min := minV, max := maxV }, true)
  else (s, false)

/-- `continuousSystem` with the members of `ltisys`. `/repo/src/include/ltisys.hpp` lines 184-199 and
466-470. `num` and `den` are the arrays `b - 1` and `a - 1` point to. -/
structure CSys (R : Type) where
  num : Array R
  den : Array R
  xc : Option (Array (Numa.NState R))
  n : Nat
  dt : R
  b0 : R
  min : R
  max : R
  continuous : Bool
  delay : Option (Tdl.Tdl R)
  deriving DecidableEq, Repr

/-- Member initialisers, `/repo/src/include/ltisys.hpp` lines 187-199 and 468-469. -/
def CSys.new : CSys R :=
  { num := #[], den := #[], xc := none, n := 0, dt := lit 1, b0 := lit 0, min := realMin,
    max := realMax, continuous := false, delay := none }

/-- `continuousSystem::isInitialized`, `/repo/src/include/ltisys.hpp` lines 625-628. -/
def CSys.isInitialized (s : CSys R) : Bool := s.xc.isSome && s.continuous

/-- Loops of `continuousSystem::setInitStates`; every state gets the same three values.
`/repo/src/ltisys.cpp` lines 194-201. -/
def initLoop (v : R) : Nat → Nat → Array (Numa.NState R) → Out (Array (Numa.NState R))
  | 0, _, x => .ok x
  | k + 1, i, x => do
    let st ← rdArr x i
    let x ← wrArr x i (st.init v v v)
    initLoop v k (i + 1) x

/-- `continuousSystem::setInitStates` (it reads only `xi[ 0 ]`).
`/repo/src/ltisys.cpp` lines 188-207. -/
def CSys.setInitStates (s : CSys R) (xi : Option (Array R)) : Out (CSys R × Bool) :=
  match s.xc, s.continuous with
  | some x, true => do
    let v ← (match xi with
      | some xi => rdArr xi 0
      | none => .ok (lit 0))
    let x ← initLoop v s.n 0 x
    pure ({ s with xc := some x }, true)
  | _, _ => pure (s, false)

/-- `continuousSystem::setup`, `/repo/src/ltisys.cpp` lines 163-186. -/
def CSys.setup (s : CSys R) (num den : Option (Array R)) (x : Option (Array (Numa.NState R)))
    (nD : Nat) (dT : R) : Out (CSys R × Bool) :=
  match num, den, x with
  | some num, some den, some x =>
    if nD ≥ 1 then do
      let (num, den, b0) ← normalize num den (nD + 1) (nD + 1)
      let s := { s with num := num, den := den, xc := some x, n := nD, dt := dT, b0 := b0,
                        continuous := true }
      let (s, _) ← s.setInitStates none
      pure (s, true)
    else pure (s, false)
  | _, _, _ => pure (s, false)

/-- Loop of `continuousSystem::update` (controllable form) for the indices `i, ..., 1`.
`/repo/src/ltisys.cpp` lines 221-227. -/
def stateLoop (num den : Array R) (b0 dt : R) : Nat → R → R → Array (Numa.NState R) →
    Out (R × R × Array (Numa.NState R))
  | 0, dx0, y, xc => .ok (dx0, y, xc)
  | i + 1, dx0, y, xc => do
    let a ← rdArr den (i + 2)
    let st ← rdArr xc (i + 1)
    let dx0 := dx0 +. a *. st.x0
    let prev ← rdArr xc i
    let st := (st.integrate prev.x0 dt).1
    let xc ← wrArr xc (i + 1) st
    let b ← rdArr num (i + 2)
    let y := y +. (b -. a *. b0) *. st.x0
    stateLoop num den b0 dt i dx0 y xc

/-- `continuousSystem::update` in the controllable form, the one that
`/repo/src/include/ltisys.hpp` lines 29-31 select (the macro for the observable form has no effect
unless both are defined). `/repo/src/ltisys.cpp` lines 210-237. -/
def CSys.update (s : CSys R) (u : R) : Out (CSys R × R) :=
  match s.xc with
  | some xc => do
    let (dx0, y, xc) ←
      (if s.n = 1 then do
        let x ← rdArr xc 0
        let a ← rdArr s.den 1
        pure (u -. x.x0 *. a, lit 0, xc)
      else if s.n = 0 then .ub
      else do
        let (dx0, y, xc) ← stateLoop s.num s.den s.b0 s.dt (s.n - 1) (lit 0) (lit 0) xc
        let x ← rdArr xc 0
        let a ← rdArr s.den 1
        pure (u -. (dx0 +. a *. x.x0), y, xc))
    let x ← rdArr xc 0
    let st := (x.integrate dx0 s.dt).1
    let xc ← wrArr xc 0 st
    let b ← rdArr s.num 1
    let a ← rdArr s.den 1
    pure ({ s with xc := some xc }, y +. (b -. a *. s.b0) *. st.x0)
  | none => .ub

/-- `ltisys::excite` of a continuous system, `/repo/src/ltisys.cpp` lines 65-78. -/
def CSys.excite (s : CSys R) (u : R) : Out (CSys R × R) :=
  if s.isInitialized then do
    let (t, u) ← delayInput s.delay u
    let (s, y) ← { s with delay := t }.update u
    pure (s, saturate y s.min s.max)
  else pure (s, lit 0)

/-- `ltisys::setDelay` of a continuous system; `undef` is the NaN member of `tdl`.
`/repo/src/ltisys.cpp` lines 37-49. -/
def CSys.setDelay (s : CSys R) (undef : R) (w : Array R) (nD : Nat) (initVal : R) :
    Out (CSys R × Bool) :=
  if s.isInitialized then do
    let t ← Tdl.setup undef w nD initVal
    pure ({ s with delay := some t }, true)
  else pure (s, false)

/-- `ltisys::setSaturation` of a continuous system, `/repo/src/ltisys.cpp` lines 51-63. -/
def CSys.setSaturation (s : CSys R) (minV maxV : R) : CSys R × Bool :=
  if s.isInitialized && (minV <. maxV) then ({ s with min := minV, max := maxV }, true)
  else (s, false)

/-- Loop of `continuousSystem::setIntegrationMethod`, `/repo/src/ltisys.cpp` lines 277-279. -/
def methodLoop (m : Numa.IMethod) : Nat → Nat → Array (Numa.NState R) → Out (Array (Numa.NState R))
  | 0, _, x => .ok x
  | k + 1, i, x => do
    let st ← rdArr x i
    let x ← wrArr x i { st with iMethod := m }
    methodLoop m k (i + 1) x

/-- `continuousSystem::setIntegrationMethod` (it does not accept the quadratic rule).
`/repo/src/ltisys.cpp` lines 269-285. -/
def CSys.setIntegrationMethod (s : CSys R) (m : Numa.IMethod) : Out (CSys R × Bool) :=
  match s.xc, s.continuous with
  | some x, true =>
    if m = .rectangular ∨ m = .trapezoidal ∨ m = .simpson then do
      let x ← methodLoop m s.n 0 x
      pure ({ s with xc := some x }, true)
    else pure (s, false)
  | _, _ => pure (s, false)

/-- `transportDelay< N >`, `/repo/src/include/ltisys.hpp` lines 111-124: the constructor, with `buf` the
uninitialised array member of `N + 1` cells. -/
def transportDelayNew (undef : R) (buf : Array R) (N : Nat) (initValue : R) : Out (Tdl.Tdl R) :=
  Tdl.setup undef buf (N + 1) initValue

/-- `transportDelay::operator()`, `/repo/src/include/ltisys.hpp` lines 130-134. -/
def transportDelayCall (t : Tdl.Tdl R) (xInput : R) : Out (Tdl.Tdl R × R) := do
  let t ← Tdl.insertSample t xInput
  let v ← Tdl.getOldest t
  pure (t, v)

/-- `delayFromTime`, in binary32, with `W` the number of values of `size_t`. The conversion truncates; it is undefined behaviour when the
truncated value is not representable. `/repo/src/include/ltisys.hpp` lines 94-97. -/
def delayFromTime (W : Nat) (Time dt : BitVec 32) : Out Nat :=
  let q := F32.add (F32.div Time dt) (F32.lit (1 / 2))
  if F32.Finite q ∧ -1 < F32.val q ∧ F32.val q < W then .ok (F32.val q).floor.toNat else .ub

end Verif.Ltisys
