import Verif.Numa.Model

/-!
# Model of `/repo/src/pid.cpp` and `/repo/src/include/pid.hpp`

Over an arbitrary arithmetic. The auto-tuning object bound to a controller is kept inside the
controller state (it has no public mutator; binding the same object to two controllers is not
modelled). The model-reference variable is only pointed to by the controller: its current value is
an argument of `control`.
-/

namespace Verif.Pid

open Arith Numa

/-- `pidMode`, `/repo/src/include/pid.hpp` lines 28-31. -/
inductive Mode where
  | automatic | manual
  deriving DecidableEq, Repr

/-- `pidType`, `/repo/src/include/pid.hpp` lines 36-41; `other`: no enumerator (`default`). -/
inductive Kind where
  | p | pi | pd | pid | other
  deriving DecidableEq, Repr

/-- `pidDirection`, `/repo/src/include/pid.hpp` lines 46-49. -/
inductive Direction where
  | forward | backward
  deriving DecidableEq, Repr

/-- `pidGains`, `/repo/src/include/pid.hpp` lines 58-62. -/
structure Gains (R : Type u) where
  Kc : R
  Ki : R
  Kd : R
  deriving DecidableEq, Repr

/-- `pidAutoTuning`, `/repo/src/include/pid.hpp` lines 69-92. `it` is a `uint32_t`. -/
structure AutoTuning (R : Type u) where
  p00 : R
  p01 : R
  p10 : R
  p11 : R
  b1 : R
  a1 : R
  uk : R
  yk : R
  l : R
  k : R
  tao : R
  mu : R
  speed : R
  it : BitVec 32
  type : Kind
  deriving DecidableEq, Repr

/-- `pidAutoTuning::UNDEFINED`, `/repo/src/pid.cpp` line 7. -/
def UNDEFINED : BitVec 32 := 0xFFFFFFFE#32

/-- `pidController`, `/repo/src/include/pid.hpp` lines 137-156. `yr` tells if the model-reference
pointer is set. -/
structure Ctl (R : Type u) where
  Kc : R
  Ki : R
  Kd : R
  st : NState R
  b : R
  c : R
  satMin : R
  satMax : R
  epsilon : R
  kw : R
  kt : R
  D : R
  u1 : R
  beta : R
  uSat : R
  dt : R
  m : R
  mInput : R
  yr : Bool
  alpha : R
  gamma : R
  mState : NState R
  bState : NState R
  adapt : Option (AutoTuning R)
  mode : Mode
  dir : Direction
  isInitialized : Bool
  deriving DecidableEq, Repr

variable {R : Type u} [Arith R] [Trans R]

/-- `pidController::saturate`, `/repo/src/pid.cpp` lines 507-522. -/
def saturate (x vMin vMax : R) : R :=
  if vMax <. x then vMax else if x <. vMin then vMin else x

/-- `pidAutoTuning::isValidValue`, `/repo/src/pid.cpp` lines 500-505. -/
def isValidValue (x : R) : Bool := !isNan x && (lit 0 <. x) && !isInf x

/-- `pidAutoTuning::isValidParam`, `/repo/src/include/pid.hpp` lines 120-123. -/
def isValidParam (p : R) : Bool := (lit 0 <. p) && (p ≤. lit 1)

/-- `pidAutoTuning::enable`, `/repo/src/include/pid.hpp` lines 96-99. -/
def AutoTuning.enable (at_ : AutoTuning R) (tEnable : BitVec 32) : AutoTuning R :=
  { at_ with it := if 0#32 = tEnable then UNDEFINED else tEnable }

/-- `pidAutoTuning::isComplete`, `/repo/src/include/pid.hpp` lines 100-103. -/
def AutoTuning.isComplete (at_ : AutoTuning R) : Bool :=
  decide (0#32 = at_.it) && decide (at_.it ≠ UNDEFINED)

/-- First part of `pidAutoTuning::step`: one recursive least-squares update of the parameters of
`y[k] = b1 u[k-1] - a1 y[k-1]` and storage of `u`, `y`. The code stores `yk`, `uk` after computing
the gain and time constant, which do not read them. `/repo/src/pid.cpp` lines 321-346 and 350-351. -/
def AutoTuning.identify (a : AutoTuning R) (u y : R) : AutoTuning R :=
  let il := lit 1 /. a.l
  let tmp1 := a.p00 *. a.uk
  let tmp2 := a.p11 *. a.yk
  let r := a.l +. a.uk *. (tmp1 -. a.p10 *. a.yk) -. a.yk *. (a.p01 *. a.uk -. tmp2)
  let l0 := (tmp1 -. a.p01 *. a.yk) /. r
  let l1 := (a.p10 *. a.uk -. tmp2) /. r
  let error := y -. (a.b1 *. a.uk -. a.a1 *. a.yk)
  let b1 := a.b1 +. l0 *. error
  let a1 := a.a1 +. l1 *. error
  let lp00 := il *. a.p00
  let lp01 := il *. a.p01
  let lp10 := il *. a.p10
  let lp11 := il *. a.p11
  let tmp1 := l0 *. a.uk -. lit 1
  let tmp2 := l1 *. a.yk +. lit 1
  let p00 := l0 *. lp10 *. a.yk -. lp00 *. tmp1 +. lit (1 / 10 ^ 10)
  let p01 := l0 *. lp11 *. a.yk -. lp01 *. tmp1
  let p10 := lp10 *. tmp2 -. l1 *. lp00 *. a.uk
  let p11 := lp11 *. tmp2 -. l1 *. lp01 *. a.uk +. lit (1 / 10 ^ 10)
  { a with p00 := p00, p01 := p01, p10 := p10, p11 := p11, b1 := b1, a1 := a1, yk := y, uk := u }

/-- `pidAutoTuning::step`, returning the new object and `ready`. `/repo/src/pid.cpp` lines 317-365. -/
def AutoTuning.step (a : AutoTuning R) (u y dt : R) : AutoTuning R × Bool :=
  let a := a.identify u y
  let gain := a.b1 /. (lit 1 +. a.a1)
  let timeConstant := Arith.neg dt /. Trans.log (absf a.a1)
  if isValidValue timeConstant && isValidValue gain && decide (0#32 < a.it) then
    let k := gain +. a.mu *. (a.k -. gain)
    let tao := timeConstant +. a.mu *. (a.tao -. timeConstant)
    let it := a.it - 1#32
    ({ a with k := k, tao := tao, it := it }, decide (0#32 = it) && decide (UNDEFINED ≠ it))
  else (a, false)

/-- `pidAutoTuning::getEstimates`, `/repo/src/pid.cpp` lines 367-394. -/
def AutoTuning.getEstimates (a : AutoTuning R) : Gains R :=
  let td := a.tao *. lit (1 / 10)
  match a.type with
  | .p => ⟨a.speed *. (lit (103 / 100) /. a.k) *. (a.tao /. td +. lit (34 / 100)), lit 0, lit 0⟩
  | .pd =>
    let Kc := a.speed *. (lit (124 / 100) /. a.k) *. (a.tao /. td +. lit (129 / 1000))
    ⟨Kc, lit 0, Kc *. (lit (27 / 100) *. td) *. (a.tao -. lit (324 / 1000) *. td) /.
      (a.tao +. lit (129 / 1000) *. td)⟩
  | .pi =>
    let Kc := a.speed *. (lit (9 / 10) /. a.k) *. (a.tao /. td +. lit (92 / 1000))
    ⟨Kc, Kc *. (a.tao +. lit (222 / 100) *. td) /.
      (lit (333 / 100) *. td *. (a.tao +. lit (92 / 1000) *. td)), lit 0⟩
  | .pid =>
    let Kc := a.speed *. (lit (135 / 100) /. a.k) *. (a.tao /. td +. lit (185 / 1000))
    ⟨Kc, Kc *. (a.tao +. lit (611 / 1000) *. td) /.
      (lit (25 / 10) *. td *. (a.tao +. lit (185 / 1000) *. td)),
      lit (37 / 100) *. Kc *. td *. a.tao /. (a.tao +. lit (185 / 1000) *. td)⟩
  | .other => ⟨lit 0, lit 0, lit 0⟩

/-- `pidAutoTuning::initialize`, `/repo/src/pid.cpp` lines 396-420. -/
def AutoTuning.initialize (a : AutoTuning R) (cur : Gains R) (dt : R) : AutoTuning R :=
  let k_i := cur.Kc /. lit (9 / 10)
  let T_i := lit (27 / 100) *. k_i /. cur.Ki
  let a1 := Arith.neg (Trans.exp (Arith.neg dt /. T_i))
  { a with
    l := lit (9898 / 10000), p00 := lit 1000, p11 := lit 1000, p01 := lit 0, p10 := lit 0,
    uk := lit 0, yk := lit 0, k := lit 0, tao := lit 0, mu := lit (95 / 100),
    a1 := a1, b1 := k_i *. (lit 1 +. a1), speed := lit (1 / 4), it := UNDEFINED }

/-- `pidController::reset`, `/repo/src/pid.cpp` lines 214-230. -/
def Ctl.reset (s : Ctl R) : Ctl R × Bool :=
  if s.isInitialized then
    ({ s with st := s.st.init0, mState := s.mState.init0, bState := s.bState.init0,
              D := lit 0, u1 := lit 0, m := lit 0, uSat := lit 0 }, true)
  else (s, false)

/-- `pidController::setDirection`, `/repo/src/pid.cpp` lines 35-45. -/
def Ctl.setDirection (s : Ctl R) (d : Direction) : Ctl R × Bool :=
  if s.isInitialized then ({ s with dir := d }, true) else (s, false)

/-- `pidController::setParams`, `/repo/src/pid.cpp` lines 47-61. -/
def Ctl.setParams (s : Ctl R) (kc ti td : R) : Ctl R × Bool :=
  if s.isInitialized then ({ s with Kc := kc, Ki := kc /. ti, Kd := kc *. td }, true) else (s, false)

/-- `pidController::setGains`, `/repo/src/pid.cpp` lines 63-77 and 79-91. -/
def Ctl.setGains (s : Ctl R) (kc ki kd : R) : Ctl R × Bool :=
  if s.isInitialized then ({ s with Kc := kc, Ki := ki, Kd := kd }, true) else (s, false)

/-- `pidController::setExtraGains`, `/repo/src/pid.cpp` lines 93-105. -/
def Ctl.setExtraGains (s : Ctl R) (Kw Kt : R) : Ctl R × Bool :=
  if s.isInitialized then ({ s with kw := Kw, kt := Kt }, true) else (s, false)

/-- `pidController::setSaturation`, `/repo/src/pid.cpp` lines 107-119. -/
def Ctl.setSaturation (s : Ctl R) (Min Max : R) : Ctl R × Bool :=
  if s.isInitialized && (Min <. Max) then ({ s with satMin := Min, satMax := Max }, true)
  else (s, false)

/-- `pidController::setSeries`, `/repo/src/pid.cpp` lines 121-138. -/
def Ctl.setSeries (s : Ctl R) : Ctl R × Bool :=
  if s.isInitialized then
    let ti := s.Kc /. s.Ki
    let td := s.Kd /. s.Kc
    let tmp := lit 1 +. td /. ti
    let Kc := s.Kc *. tmp
    let Ki := Kc /. (ti *. tmp)
    let Kd := Kc *. (td /. tmp)
    ({ s with Kc := Kc, Ki := Ki, Kd := Kd }, true)
  else (s, false)

/-- `pidController::setEpsilon`, `/repo/src/pid.cpp` lines 140-150. -/
def Ctl.setEpsilon (s : Ctl R) (eps : R) : Ctl R × Bool :=
  if s.isInitialized then ({ s with epsilon := eps }, true) else (s, false)

/-- `pidController::setDerivativeFilter`, `/repo/src/pid.cpp` lines 152-162. -/
def Ctl.setDerivativeFilter (s : Ctl R) (Beta : R) : Ctl R × Bool :=
  if s.isInitialized && (lit 0 ≤. Beta) && (Beta <. lit 1) then ({ s with beta := Beta }, true)
  else (s, false)

/-- `pidController::setDerivativeFilterTimeConstant`, `/repo/src/pid.cpp` lines 164-174. -/
def Ctl.setDerivativeFilterTimeConstant (s : Ctl R) (Tf : R) : Ctl R × Bool :=
  if s.isInitialized && (lit 0 ≤. Tf) then
    ({ s with beta := Trans.exp (Arith.neg s.dt /. Tf) }, true)
  else (s, false)

/-- `pidController::setMode`, `/repo/src/pid.cpp` lines 176-186. -/
def Ctl.setMode (s : Ctl R) (md : Mode) : Ctl R × Bool :=
  if s.isInitialized then ({ s with mode := md }, true) else (s, false)

/-- `pidController::setReferenceWeighting`, `/repo/src/pid.cpp` lines 188-200. -/
def Ctl.setReferenceWeighting (s : Ctl R) (gb gc : R) : Ctl R × Bool :=
  if s.isInitialized then
    ({ s with b := saturate gb (lit 0) (lit 1), c := saturate gc (lit 0) (lit 1) }, true)
  else (s, false)

/-- `pidController::setManualInput`, `/repo/src/pid.cpp` lines 202-212. -/
def Ctl.setManualInput (s : Ctl R) (v : R) : Ctl R × Bool :=
  if s.isInitialized then ({ s with mInput := v }, true) else (s, false)

/-- `pidController::setModelReferenceControl`, `/repo/src/pid.cpp` lines 232-247. -/
def Ctl.setModelReferenceControl (s : Ctl R) (Gamma Alpha : R) : Ctl R × Bool :=
  if s.isInitialized && (lit 0 <. Gamma) && (lit 0 <. Alpha) then
    ({ s with mState := s.mState.init0, alpha := Alpha, gamma := Gamma, yr := true }, true)
  else (s, false)

/-- `pidController::removeModelReferenceControl`, `/repo/src/pid.cpp` lines 249-259. -/
def Ctl.removeModelReferenceControl (s : Ctl R) : Ctl R × Bool :=
  if s.isInitialized then ({ s with yr := false }, true) else (s, false)

/-- `pidController::setup`; `REAL_MIN` is `2^-126`. `/repo/src/pid.cpp` lines 10-33. -/
def Ctl.setup (s : Ctl R) (kc ki kd dT : R) : Ctl R × Bool :=
  if lit 0 <. s.dt then
    let s := { s with dt := dT, isInitialized := true }
    let s := (s.setDerivativeFilter (lit (98 / 100))).1
    let s := (s.setEpsilon (lit (1 / 2 ^ 126))).1
    let s := (s.setGains kc ki kd).1
    let s := (s.setSaturation (lit 0) (lit 100)).1
    let s := (s.setMode .automatic).1
    let s := (s.setManualInput (lit 0)).1
    let s := (s.setExtraGains (lit 1) (lit 1)).1
    let s := (s.setDirection .forward).1
    let s := (s.setReferenceWeighting (lit 1) (lit 0)).1
    s.reset
  else (s, false)

/-- `pidController::error`, `/repo/src/pid.cpp` lines 261-270. -/
def Ctl.error (s : Ctl R) (w y k : R) : R :=
  let e := k *. w -. y
  if absf e ≤. s.epsilon then lit 0 else e

/-- `pidController::adaptGains` (called with `adapt` set), `/repo/src/pid.cpp` lines 422-431. -/
def Ctl.adaptGains (s : Ctl R) (a : AutoTuning R) (u y : R) : Ctl R :=
  let (a, ready) := a.step u y s.dt
  let s := { s with adapt := some a }
  if ready then
    let g := a.getEstimates
    { s with Kc := g.Kc, Ki := g.Ki, Kd := g.Kd }
  else s

/-- The gains used by `control` (reversed in backward direction), `/repo/src/pid.cpp`
lines 279-286. -/
def Ctl.effective (s : Ctl R) : Gains R :=
  match s.dir with
  | .backward =>
    ⟨if lit 0 <. s.Kc then Arith.neg s.Kc else s.Kc, if lit 0 <. s.Ki then Arith.neg s.Ki else s.Ki,
      if lit 0 <. s.Kd then Arith.neg s.Kd else s.Kd⟩
  | .forward => ⟨s.Kc, s.Ki, s.Kd⟩

/-- The model-reference term `w*theta` added to the control action, with the new `m_state`;
`yr0` is the value pointed to by `yr`. `/repo/src/pid.cpp` lines 292-301. -/
def Ctl.mrac (s : Ctl R) (v w y yr0 : R) : NState R × R :=
  if s.yr then
    if absf s.u1 ≤. s.epsilon then
      let em := y -. yr0
      let delta := Arith.neg s.gamma *. em *. yr0 /. (s.alpha +. yr0 *. yr0)
      let (ms, theta) := s.mState.integrate delta s.dt
      (ms, v +. w *. theta)
    else (s.mState, v +. w *. lit 0)
  else (s.mState, v)

/-- `pidController::control`, returning the new state and the output; `yr0` is the current value
of the model reference (unused when none is set). `/repo/src/pid.cpp` lines 272-315. -/
def Ctl.control (s : Ctl R) (w y yr0 : R) : Ctl R × R :=
  if s.isInitialized then
    let g := s.effective
    let e := s.error w y (lit 1)
    let (st, de) := s.st.derive (s.error w y s.c) s.dt false
    let (st, ie) := st.integrate (e +. s.u1) s.dt
    let D := de +. s.beta *. (s.D -. de)
    let v := g.Kc *. s.error w y s.b +. g.Ki *. ie +. g.Kd *. D
    let (ms, v) := s.mrac v w y yr0
    let bt := s.kt *. s.mInput +. s.kw *. (s.uSat -. s.m)
    let (bs, m) := s.bState.integrate bt s.dt
    let sw := match s.mode with
      | .automatic => v
      | .manual => m
    let uSat := saturate sw s.satMin s.satMax
    let u := uSat
    let u1 := s.kw *. (u -. v)
    let s := { s with st := st, D := D, mState := ms, m := m, bState := bs, uSat := uSat, u1 := u1 }
    match s.adapt with
    | some a => (s.adaptGains a u y, u)
    | none => (s, u)
  else (s, w)

/-- `pidController::bindAutoTuning`, `/repo/src/pid.cpp` lines 433-444. -/
def Ctl.bindAutoTuning (s : Ctl R) (a : AutoTuning R) : Ctl R × Bool :=
  if s.isInitialized then
    ({ s with adapt := some (a.initialize ⟨s.Kc, s.Ki, s.Kd⟩ s.dt) }, true)
  else (s, false)

/-- `pidController::unbindAutoTuning`, `/repo/src/include/pid.hpp` lines 348-353. -/
def Ctl.unbindAutoTuning (s : Ctl R) : Ctl R × Bool := ({ s with adapt := none }, s.adapt.isSome)

/-- `pidController::enableAutoTuning`, `/repo/src/pid.cpp` lines 446-456. -/
def Ctl.enableAutoTuning (s : Ctl R) (tEnable : BitVec 32) : Ctl R × Bool :=
  match s.adapt with
  | some a => ({ s with adapt := some (a.enable tEnable) }, true)
  | none => (s, false)

/-- `pidController::isAutoTuningComplete`, `/repo/src/pid.cpp` lines 458-467. -/
def Ctl.isAutoTuningComplete (s : Ctl R) : Bool :=
  match s.adapt with
  | some a => a.isComplete
  | none => false

/-- `pidController::setAutoTuningParameters`, `/repo/src/pid.cpp` lines 469-485. -/
def Ctl.setAutoTuningParameters (s : Ctl R) (Mu Alpha lambda : R) : Ctl R × Bool :=
  match s.adapt with
  | some a =>
    if isValidParam Mu && isValidParam Alpha && isValidParam lambda then
      ({ s with adapt := some { a with l := lambda, mu := Mu, speed := Alpha } }, true)
    else (s, false)
  | none => (s, false)

/-- `pidController::setAutoTuningControllerType`, `/repo/src/pid.cpp` lines 487-498. -/
def Ctl.setAutoTuningControllerType (s : Ctl R) (t : Kind) : Ctl R × Bool :=
  match s.adapt with
  | some a => ({ s with adapt := some { a with type := t } }, true)
  | none => (s, false)

end Verif.Pid
