import Verif.Arith

/-!
# Model of `/repo/src/numa.cpp` and `/repo/src/include/numa.hpp`
-/

namespace Verif.Numa

open Arith

/-- `integrationMethod`, `/repo/src/include/numa.hpp` lines 28-33; `other` stands for any value
outside the enumerators (the `default` label). -/
inductive IMethod where
  | rectangular | trapezoidal | simpson | quadratic | other
  deriving DecidableEq, Repr

/-- `derivationMethod`, `/repo/src/include/numa.hpp` lines 38-42; `other` as for `IMethod`. -/
inductive DMethod where
  | twoPoints | backward | forward | other
  deriving DecidableEq, Repr

/-- `nState`: `x[ 3 ]`, `iMethod`, `dMethod`. `/repo/src/include/numa.hpp` lines 50-59. -/
structure NState (R : Type u) where
  x0 : R
  x1 : R
  x2 : R
  iMethod : IMethod
  dMethod : DMethod
  deriving DecidableEq, Repr

variable {R : Type u} [Arith R]

/-- Default-constructed `nState`. `/repo/src/include/numa.hpp` lines 52-76. -/
def NState.new : NState R := ⟨lit 0, lit 0, lit 0, .trapezoidal, .twoPoints⟩

/-- `nState::init`, `/repo/src/numa.cpp` lines 6-13. -/
def NState.init (st : NState R) (x0 sn_1 sn_2 : R) : NState R :=
  { st with x0 := x0, x1 := sn_1, x2 := sn_2 }

/-- `nState::init()` with its default arguments (zero). `/repo/src/include/numa.hpp` lines 84-86. -/
def NState.init0 (st : NState R) : NState R := st.init (lit 0) (lit 0) (lit 0)

/-- `nState::update`, `/repo/src/include/numa.hpp` lines 53-57. -/
def NState.update (st : NState R) (s : R) : NState R := { st with x2 := st.x1, x1 := s }

/-- `nState::integrate`, returning the new state and the result. `/repo/src/numa.cpp` lines 15-40. -/
def NState.integrate (st : NState R) (s dt : R) (bUpdate : Bool := true) : NState R × R :=
  let st := match st.iMethod with
    | .rectangular => { st with x0 := st.x0 +. s *. dt }
    | .trapezoidal => { st with x0 := st.x0 +. lit (1 / 2) *. (s +. st.x1) *. dt }
    | .simpson =>
      { st with x0 := st.x0 +. (lit 1 /. lit 6) *. (s +. lit 4 *. st.x1 +. st.x2) *. dt }
    | .quadratic =>
      { st with x0 := st.x0 +.
          (lit 1 /. lit 12) *. (lit 5 *. s +. lit 8 *. st.x1 -. st.x2) *. dt }
    | .other => st
  let st := if bUpdate then st.update s else st
  (st, st.x0)

/-- `nState::derive`, returning the new state and the result. `/repo/src/numa.cpp` lines 42-66. -/
def NState.derive (st : NState R) (s dt : R) (bUpdate : Bool := true) : NState R × R :=
  let ds := match st.dMethod with
    | .twoPoints => (s -. st.x1) /. dt
    | .backward => (lit 3 *. s -. lit 4 *. st.x1 +. st.x2) /. (lit 2 *. dt)
    | .forward => (lit 4 *. st.x1 -. lit 3 *. st.x2 -. s) /. (lit 2 *. dt)
    | .other => lit 0
  let st := if bUpdate then st.update s else st
  (st, ds)

end Verif.Numa
