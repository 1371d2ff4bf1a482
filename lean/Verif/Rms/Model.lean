import Verif.Smoother.Model

/-!
# Model of `src/rms.cpp` (RMS estimator)
-/

namespace Verif.Rms

open Arith Smoother

variable {R : Type} [Arith R]

/-- `rms`, `/repo/src/include/rms.hpp` line 29: an object with three base classes. Each base inherits its
own `smoother`, so there are three independent flags `init`. -/
structure Rms (R : Type) where
  expw : EXPW R
  mwm2 : MWM2 R
  lpf1 : LPF1 R
  deriving DecidableEq, Repr

/-- `rms() = default`, `/repo/src/include/rms.hpp` line 32, with the member initialisers of
`/repo/src/include/smoother.hpp` (lines 30-75 `alpha`, `y1`, `init`; 174-178 `sum`; 365-370 `lambda`,
`m`, `w`) and a delay line without storage. `undef` is the NaN member of the delay line. -/
def Rms.new (undef : R) : Rms R where
  expw := ⟨lit (8 / 10), lit 0, lit 1, true⟩
  mwm2 := ⟨⟨#[], 0, 0, 0, undef⟩, lit 0, true⟩
  lpf1 := ⟨lit (9 / 10), lit 0, true⟩

/-- `rms::setup`, `/repo/src/rms.cpp` lines 7-21. -/
def Rms.setup (s : Rms R) (window : Option (Array R)) (wsize : Nat) : Out (Rms R × Bool) :=
  match window with
  | some w =>
    if wsize > 0 then do
      let e := (s.expw.setup (lit (99 / 100))).1
      let m ← s.mwm2.setup (some w) wsize
      let l := (s.lpf1.setup (lit (75 / 100))).1
      pure (⟨e, m.1, l⟩, true)
    else pure (s, false)
  | none => pure (s, false)

/-- `rms::update`, `/repo/src/rms.cpp` lines 23-32. -/
def Rms.update [Trans R] (s : Rms R) (x : R) : Out (Rms R × R) := do
  let e := s.expw.smooth (x *. x)
  let m ← s.mwm2.smooth (Trans.sqrt e.2)
  let l := s.lpf1.smooth m.2
  pure (⟨e.1, m.1, l.1⟩, l.2)

/-- `rms::setParams`, `/repo/src/rms.cpp` lines 34-45. -/
def Rms.setParams (s : Rms R) (l a : R) : Rms R × Bool :=
  if (lit 0 <. l) && (l ≤. lit 1) && (lit 0 <. a) && (a ≤. lit 1) then
    ({ s with expw := { s.expw with lambda := l }, lpf1 := { s.lpf1 with alpha := a } }, true)
  else (s, false)

/-- A sequence of calls `update( x )` and its outputs. Not a definition of the repository. -/
def Rms.run [Trans R] (s : Rms R) : List R → Out (Rms R × List R)
  | [] => .ok (s, [])
  | x :: xs => do
    let r ← s.update x
    let q ← Rms.run r.1 xs
    pure (q.1, r.2 :: q.2)

/-- What a program does with an `rms` object: the public methods and the inherited `reset` of each base
(`/repo/src/include/smoother.hpp` lines 52-61). Not a definition of the repository. -/
inductive Ev (R : Type) where
  | setup (window : Option (Array R)) (wsize : Nat)
  | setParams (l a : R)
  | resetEXPW
  | resetMWM2
  | resetLPF1
  | update (x : R)

end Verif.Rms
