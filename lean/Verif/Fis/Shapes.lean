import Verif.Fis.Core

/-!
# Model of `/repo/src/fisCore.cpp`: the membership functions

`inp` and `p` are the pointers `in` and `p` as functions of the offset, `n` the third argument.
-/

namespace Verif.Fis

open Arith

variable {R : Type} [Arith R]

/-- `TriMF`, `/repo/src/fisCore.cpp` lines 10-24. -/
def TriMF : Shape R := fun inp p _ => do
  let x := (← inp 0).value
  let a ← p 0
  let b ← p 1
  let c ← p 2
  let tmp := Min ((x -. a) /. (b -. a)) ((c -. x) /. (c -. b))
  pure (Max tmp (lit 0))

/-- `TrapMF`, `/repo/src/fisCore.cpp` lines 26-42. -/
def TrapMF : Shape R := fun inp p _ => do
  let x := (← inp 0).value
  let a ← p 0
  let b ← p 1
  let c ← p 2
  let d ← p 3
  let tmp := Min ((x -. a) /. (b -. a)) (lit 1)
  let tmp := Min tmp ((d -. x) /. (d -. c))
  pure (Max tmp (lit 0))

/-- `SMF`, `/repo/src/fisCore.cpp` lines 152-183. -/
def SMF : Shape R := fun inp p _ => do
  let x := (← inp 0).value
  let a ← p 0
  let b ← p 1
  if x ≤. a then pure (lit 0)
  else if b ≤. x then pure (lit 1)
  else if (a ≤. x) && (x ≤. ((a +. b) *. lit (1 / 2))) then
    let tmp := (x -. a) /. (b -. a)
    pure (lit 2 *. tmp *. tmp)
  else if (x ≤. b) && (((a +. b) *. lit (1 / 2)) ≤. x) then
    let tmp := (x -. b) /. (b -. a)
    pure (lit 1 -. (lit 2 *. tmp *. tmp))
  else pure (lit 0)

/-- `ZMF`, `/repo/src/fisCore.cpp` lines 207-238. -/
def ZMF : Shape R := fun inp p _ => do
  let x := (← inp 0).value
  let a ← p 0
  let b ← p 1
  if x ≤. a then pure (lit 1)
  else if b ≤. x then pure (lit 0)
  else if (a ≤. x) && (x ≤. ((a +. b) *. lit (1 / 2))) then
    let tmp := (x -. a) /. (b -. a)
    pure (lit 1 -. (lit 2 *. tmp *. tmp))
  else if (x ≤. b) && (((a +. b) *. lit (1 / 2)) ≤. x) then
    let tmp := (x -. b) /. (b -. a)
    pure (lit 2 *. tmp *. tmp)
  else pure (lit 0)

/-- `LinSMF`, `/repo/src/fisCore.cpp` lines 240-269. -/
def LinSMF : Shape R := fun inp p _ => do
  let x := (← inp 0).value
  let a ← p 0
  let b ← p 1
  if a <. b then
    if x <. a then pure (lit 0)
    else if b <. x then pure (lit 1)
    else pure ((x -. a) /. (b -. a))
  else if isEqual a b then pure (if x <. a then lit 0 else lit 1)
  else pure (lit 0)

/-- `LinZMF`, `/repo/src/fisCore.cpp` lines 271-300. -/
def LinZMF : Shape R := fun inp p _ => do
  let x := (← inp 0).value
  let a ← p 0
  let b ← p 1
  if a <. b then
    if x <. a then pure (lit 1)
    else if b <. x then pure (lit 0)
    else pure ((a -. x) /. (a -. b))
  else if isEqual a b then pure (if x <. a then lit 1 else lit 0)
  else pure (lit 0)

/-- `PiMF`, `/repo/src/fisCore.cpp` lines 324-329. -/
def PiMF : Shape R := fun inp p n => do
  let s ← SMF inp p n
  let z ← ZMF inp (fun k => p (2 + k)) n
  pure (absf (s *. z))

/-- `SingletonMF`, `/repo/src/fisCore.cpp` lines 331-339. -/
def SingletonMF : Shape R := fun inp p _ => do
  let x := (← inp 0).value
  let a ← p 0
  pure (if isEqual x a then lit 1 else lit 0)

/-- `ConcaveMF`, `/repo/src/fisCore.cpp` lines 341-362. -/
def ConcaveMF : Shape R := fun inp p _ => do
  let x := (← inp 0).value
  let i ← p 0
  let e ← p 1
  if (i ≤. e) && (x <. e) then pure ((e -. i) /. ((lit 2 *. e) -. i -. x))
  else if (e <. i) && (e <. x) then pure ((i -. e) /. ((-. (lit 2 *. e)) +. i +. x))
  else pure (lit 1)

/-- `TConcaveMF`, `/repo/src/fisCore.cpp` lines 364-374. -/
def TConcaveMF : Shape R := fun inp p n => do
  let i ← p 0
  let e ← p 1
  let y ← ConcaveMF inp p n
  pure (((i -. e) /. y) +. (lit 2 *. e) -. i)

/-- `TLinSMF`, `/repo/src/fisCore.cpp` lines 390-402; also `TRampMF`, lines 418-430. -/
def TLinSMF : Shape R := fun inp p _ => do
  let x := (← inp 0).value
  let a ← p 0
  let b ← p 1
  pure (((b -. a) *. x) +. a)

/-- `TLinZMF`, `/repo/src/fisCore.cpp` lines 404-416. -/
def TLinZMF : Shape R := fun inp p _ => do
  let x := (← inp 0).value
  let a ← p 0
  let b ← p 1
  pure (a -. ((a -. b) *. x))

/-- `RectangleMF`, `/repo/src/fisCore.cpp` lines 432-444. -/
def RectangleMF : Shape R := fun inp p _ => do
  let x := (← inp 0).value
  let s ← p 0
  let e ← p 1
  pure (if (s ≤. x) && (x ≤. e) then lit 1 else lit 0)

/-- `ConstantMF`, `/repo/src/fisCore.cpp` lines 467-474. -/
def ConstantMF : Shape R := fun _ p _ => p 0

/-- The loop of `LinearMF` from index `i` with `k` iterations left. `/repo/src/fisCore.cpp` lines 483-485. -/
def linearLoop (inp : Nat → Out (IO R)) (p : Nat → Out R) : Nat → Nat → R → Out R
  | 0, _, px => .ok px
  | k + 1, i, px => do
    let x := (← inp i).value
    let c ← p i
    linearLoop inp p k (i + 1) (px +. (x *. c))

/-- `LinearMF`, `/repo/src/fisCore.cpp` lines 476-489. -/
def LinearMF : Shape R := fun inp p n => do
  let px ← linearLoop inp p n 0 (lit 0)
  let c ← p n
  pure (px +. c)

section
variable [Trans R]

/-- `GBellMF`, `/repo/src/fisCore.cpp` lines 44-57. -/
def GBellMF : Shape R := fun inp p _ => do
  let x := (← inp 0).value
  let a ← p 0
  let b ← p 1
  let c ← p 2
  pure (lit 1 /. (lit 1 +. Trans.pow (absf ((x -. c) /. a)) (lit 2 *. b)))

/-- `GaussMF`, `/repo/src/fisCore.cpp` lines 59-72. -/
def GaussMF : Shape R := fun inp p _ => do
  let x := (← inp 0).value
  let a ← p 0
  let c ← p 1
  let tmp := (x -. c) /. a
  pure (Trans.exp (lit (-1 / 2) *. tmp *. tmp))

/-- `Gauss2MF`, `/repo/src/fisCore.cpp` lines 74-87. -/
def Gauss2MF : Shape R := fun inp p n => do
  let x := (← inp 0).value
  let c1 ← p 1
  let c2 ← p 3
  let f1 ← (if x ≤. c1 then GaussMF inp p n else pure (lit 1))
  let f2 ← (if x ≤. c2 then GaussMF inp (fun k => p (2 + k)) n else pure (lit 1))
  pure (f1 *. f2)

/-- `SigMF`, `/repo/src/fisCore.cpp` lines 89-101. -/
def SigMF : Shape R := fun inp p _ => do
  let x := (← inp 0).value
  let a ← p 0
  let b ← p 1
  pure (lit 1 /. (lit 1 +. Trans.exp ((-. a) *. (x -. b))))

/-- `TSigMF`, `/repo/src/fisCore.cpp` lines 103-136. -/
def TSigMF : Shape R := fun inp p _ => do
  let io ← inp 0
  let x := io.value
  let a ← p 0
  let b ← p 1
  if isEqual x (lit 1) then pure (if lit 0 ≤. a then io.max else io.min)
  else if isEqual x (lit 0) then pure (if lit 0 ≤. a then io.min else io.max)
  else pure (b -. (Trans.log ((lit 1 /. x) -. lit 1) /. a))

/-- `DSigMF`, `/repo/src/fisCore.cpp` lines 138-143. -/
def DSigMF : Shape R := fun inp p n => do
  let s ← SigMF inp p n
  let t ← SigMF inp (fun k => p (2 + k)) n
  pure (absf (s -. t))

/-- `PSigMF`, `/repo/src/fisCore.cpp` lines 145-150. -/
def PSigMF : Shape R := fun inp p n => do
  let s ← SigMF inp p n
  let t ← SigMF inp (fun k => p (2 + k)) n
  pure (absf (s *. t))

/-- The local `fis::ioBase tmp` of `TSMF` and `TZMF` with its value set; `min` and `max` are the defaults
(`/repo/src/include/fis.hpp` lines 132-133). `/repo/src/fisCore.cpp` lines 192, 199, 309, 316. -/
def tmpPtr (v : R) : Nat → Out (IO R) :=
  fun j => if j = 0 then .ok { min := lit (-1), max := lit 1, value := v } else .ub

/-- `TSMF`, `/repo/src/fisCore.cpp` lines 185-205. -/
def TSMF : Shape R := fun inp p n => do
  let x := (← inp 0).value
  let a ← p 0
  let b ← p 1
  let diff := b -. a
  let diff := lit (1 / 2) *. diff *. diff
  let ta := a +. Trans.sqrt (x *. diff)
  let ma ← SMF (tmpPtr ta) p n
  let tb := b +. Trans.sqrt ((-. (x -. lit 1)) *. diff)
  let mb ← SMF (tmpPtr tb) p n
  pure (if absf (x -. ma) <. absf (x -. mb) then ta else tb)

/-- `TZMF`, `/repo/src/fisCore.cpp` lines 302-322. -/
def TZMF : Shape R := fun inp p n => do
  let x := (← inp 0).value
  let a ← p 0
  let b ← p 1
  let diff := b -. a
  let diff := lit (1 / 2) *. diff *. diff
  let ta := a +. Trans.sqrt ((-. (x -. lit 1)) *. diff)
  let ma ← SMF (tmpPtr ta) p n
  let tb := b +. Trans.sqrt (x *. diff)
  let mb ← SMF (tmpPtr tb) p n
  pure (if absf (x -. ma) <. absf (x -. mb) then ta else tb)

/-- `SpikeMF`, `/repo/src/fisCore.cpp` lines 376-388. -/
def SpikeMF : Shape R := fun inp p _ => do
  let x := (← inp 0).value
  let w ← p 0
  let c ← p 1
  pure (Trans.exp (-. (absf ((lit 10 *. (x -. c)) /. w))))

/-- The constant `pi` of `CosineMF` (the nearest `float`). `/repo/src/fisCore.cpp` line 452. -/
def pi : R := lit (13176795 / 2 ^ 22)

/-- `CosineMF`, `/repo/src/fisCore.cpp` lines 446-465. -/
def CosineMF : Shape R := fun inp p _ => do
  let x := (← inp 0).value
  let c ← p 0
  let w ← p 1
  if (x <. (c -. (lit (1 / 2) *. w))) || ((c +. (lit (1 / 2) *. w)) <. x) then pure (lit 0)
  else pure (lit (1 / 2) *. (lit 1 +. Trans.cos (((lit 2 /. w) *. pi) *. (x -. c))))

/-- The table `fShape` of `setMF`, indexed by the enumerators of `shapeMF`.
`/repo/src/fis.cpp` lines 209-218 and `/repo/src/include/fis.hpp` lines 33-65. -/
def fShape (s : Nat) : Out (Shape R) :=
  rdArr #[ConstantMF, TriMF, TrapMF, GBellMF, GaussMF, Gauss2MF, SigMF, DSigMF, PSigMF, PiMF, SMF, ZMF,
    SingletonMF, ConcaveMF, SpikeMF, LinSMF, LinZMF, RectangleMF, CosineMF, ConstantMF, LinearMF, TLinSMF,
    TLinZMF, TConcaveMF, TSigMF, TSMF, TZMF, TLinSMF] s

end

end Verif.Fis
