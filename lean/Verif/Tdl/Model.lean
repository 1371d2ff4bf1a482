import Verif.Base

/-!
# Model of `src/tdl.cpp` (tapped delay line)

No arithmetic on samples is performed, so the model is polymorphic in the sample
type `α`. Pointers into the user area are offsets from `head`; every dereference is
checked against the real size of the user memory.
-/

namespace Verif.Tdl

/-- `tdl` object, `src/include/tdl.hpp:32-46`. `mem` is the user memory `head` points
to; `tail` is always `head + n`. `undef` is the member `undefined` (a NaN). Pointers
`rd`, `wr` are offsets from `head`. -/
structure Tdl (α : Type) where
  mem : Array α
  n : Nat
  rd : Nat
  wr : Nat
  undef : α
  deriving DecidableEq, Repr

variable {α : Type}

/-- `tdl::insertNewest`, `src/tdl.cpp:28-35`. -/
def insertNewest (t : Tdl α) (sample : α) : Out (Tdl α) := do
  let mem ← wrArr t.mem t.wr sample
  let wr := t.wr + 1
  let wr := if wr ≥ t.n then 0 else wr
  pure { t with mem := mem, wr := wr }

/-- `tdl::removeOldest`, `src/tdl.cpp:37-42`. -/
def removeOldest (t : Tdl α) : Tdl α :=
  let rd := t.rd + 1
  { t with rd := if rd ≥ t.n then 0 else rd }

/-- The loop of `tdl::flush`, `src/tdl.cpp:23-25`, with `k` iterations left. -/
def flushLoop (initVal : α) : Nat → Tdl α → Out (Tdl α)
  | 0, t => .ok t
  | k + 1, t => do
    let t ← insertNewest t initVal
    flushLoop initVal k t

/-- `tdl::flush`, `src/tdl.cpp:16-26`. For `itemCount = 0` the address
`&head[itemCount - 1]` is outside the array: undefined behaviour. -/
def flush (t : Tdl α) (initVal : α) : Out (Tdl α) :=
  if t.n = 0 then .ub
  else flushLoop initVal t.n { t with wr := 0, rd := t.n - 1 }

/-- `tdl::setup`, `src/tdl.cpp:7-14`. `undef` models the constant member
`undefined` (`src/include/tdl.hpp:40`). -/
def setup (undef : α) (area : Array α) (n : Nat) (initVal : α) : Out (Tdl α) :=
  flush { mem := area, n := n, rd := 0, wr := 0, undef := undef } initVal

/-- `tdl::getOldest`, `src/tdl.cpp:44-47`. -/
def getOldest (t : Tdl α) : Out α :=
  if t.rd + 1 ≥ t.n then rdArr t.mem 0 else rdArr t.mem (t.rd + 1)

/-- `tdl::getRecent`, `src/tdl.cpp:49-52`. -/
def getRecent (t : Tdl α) : Out α := rdArr t.mem t.rd

/-- `tdl::getAtIndex`, `src/tdl.cpp:54-60`. `i > itemCount` makes `itemCount - i`
wrap around (out of bounds) and `i > rd` makes `rd - i` point before `head`: both
are undefined behaviour. -/
def getAtIndex (t : Tdl α) (i : Nat) : Out α :=
  if t.wr ≥ t.rd ∧ i ≥ t.wr then
    (if i ≤ t.n then rdArr t.mem (t.rd + (t.n - i)) else .ub)
  else
    (if i ≤ t.rd then rdArr t.mem (t.rd - i) else .ub)

/-- `tdl::insertSample`, `src/tdl.cpp:62-66`; also `tdl::operator()`,
`src/include/tdl.hpp:150-153`. -/
def insertSample (t : Tdl α) (sample : α) : Out (Tdl α) :=
  insertNewest (removeOldest t) sample

/-- `tdl::operator[]`, `src/tdl.cpp:68-85` (the returned reference is read). -/
def subscript (t : Tdl α) (index : Int) : Out α :=
  let i := index.toNat
  if 0 ≤ index ∧ i < t.n then
    (if t.wr ≥ t.rd ∧ i ≥ t.wr then
      (if i ≤ t.n then rdArr t.mem (t.rd + (t.n - i)) else .ub)
    else
      (if i ≤ t.rd then rdArr t.mem (t.rd - i) else .ub))
  else if index = -1 then
    (if t.rd + 1 ≥ t.n then rdArr t.mem 0 else rdArr t.mem (t.rd + 1))
  else .ok t.undef

/-- Public mutating operations of a delay line (`src/include/tdl.hpp:105-153`). -/
inductive Op (α : Type) where
  | insert (x : α)
  | flush (v : α)

/-- One public mutating call. -/
def step (t : Tdl α) : Op α → Out (Tdl α)
  | .insert x => insertSample t x
  | .flush v => flush t v

/-- A sequence of public mutating calls. -/
def run (t : Tdl α) : List (Op α) → Out (Tdl α)
  | [] => .ok t
  | op :: ops => do
    let t ← step t op
    run t ops

end Verif.Tdl
