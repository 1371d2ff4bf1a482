import Verif.Fis.Shapes

/-!
# Model of `/repo/src/fis.cpp` and `/repo/src/include/fis.hpp`: the instance

See `Verif.Fis.Core` for the conventions.
-/

namespace Verif.Fis

open Arith

variable {R : Type} [Arith R]

/-- `fis::type`, `/repo/src/include/fis.hpp` lines 108-112. -/
inductive Kind where
  | mamdani | sugeno | tsukamoto
  deriving DecidableEq, Repr

/-- The de-fuzzification functions, `/repo/src/include/fis.hpp` lines 70-81. -/
inductive Method where
  | centroid | bisector | mom | lom | som | wtaver | wtsum
  deriving DecidableEq, Repr

/-- The values of `inferenceState`, `/repo/src/include/fis.hpp` line 515. -/
inductive InfState where
  | antecedent | reachEnd
  deriving DecidableEq, Repr

/-- The values of `aggregationState`, `/repo/src/include/fis.hpp` line 516. -/
inductive AggState where
  | find | consequent
  deriving DecidableEq, Repr

/-- `class instance`, `/repo/src/include/fis.hpp` lines 500-548. -/
structure Inst (R : Type) where
  kind : Kind
  xInput : Array (IO R)
  xOutput : Array (Output R)
  inMF : Array (MF R)
  outMF : Array (MF R)
  nInputs : Nat
  nOutputs : Nat
  nMFInputs : Nat
  nMFOutputs : Nat
  nPoints : Nat
  nRules : Nat
  xRules : Array Int
  andOp : Op
  orOp : Op
  implicate : Op
  aggregate : Op
  deFuzz : Method
  ruleWeight : Option (Array R)
  wi : Option (Array R)
  infState : InfState
  aggState : AggState
  ruleCount : Nat
  rStrength : R
  lastConnector : Int
  lastTag : Int

/-! ## Rule items -/

/-- `Q_FIS_RULES_BEGIN`, `/repo/src/include/fis.hpp` lines 384, 424. -/
def RULES_BEGIN : Int := -128
/-- `Q_FIS_RULES_END`, `/repo/src/include/fis.hpp` line 425. -/
def RULES_END : Int := -127
/-- `Q_FIS_AND`, `/repo/src/include/fis.hpp` line 426. -/
def AND : Int := -126
/-- `Q_FIS_OR`, `/repo/src/include/fis.hpp` line 427. -/
def OR : Int := -125
/-- `Q_FIS_THEN`, `/repo/src/include/fis.hpp` line 428. -/
def THEN : Int := -124

/-- Conversion of an `int` to `rules`, that is `int8_t` (`/repo/src/include/fis.hpp` line 382), as done
by the compilers in use (modulo 256). -/
def toRules (z : Int) : Int := Int.bmod z 256

/-- Use of a signed value as an array index. -/
def index (z : Int) : Out Nat := if 0 ≤ z then .ok z.toNat else .ub

/-! ## Configuration -/

/-- `fis::parameter`, `/repo/src/include/fis.hpp` lines 97-103; `other` stands for a value that is not
an enumerator. -/
inductive Parameter where
  | implication | aggregation | and | or | evalPoints | other
  deriving DecidableEq, Repr

/-- The table `method` of `setParameter`, `/repo/src/fis.cpp` lines 11-13. -/
def methodTable (x : Nat) : Out Op := rdArr #[Op.min, .prod, .max, .probOr, .sum] x

/-- `instance::setParameter`; `x` is the value of the enumerator, `FIS_MIN` = 0, `FIS_PROD` = 1,
`FIS_MAX` = 2, `FIS_PROBOR` = 3, `FIS_SUM` = 4. `/repo/src/fis.cpp` lines 7-44. -/
def setParameter (s : Inst R) (p : Parameter) (x : Nat) : Out (Inst R × Bool) :=
  match p with
  | .aggregation =>
    if 2 ≤ x ∧ x ≤ 4 then do
      let f ← methodTable x
      pure ({ s with aggregate := f }, true)
    else pure (s, false)
  | .implication =>
    if x ≤ 3 then do
      let f ← methodTable x
      pure ({ s with implicate := f }, true)
    else pure (s, false)
  | .and =>
    if x ≤ 1 then do
      let f ← methodTable x
      pure ({ s with andOp := f }, true)
    else pure (s, false)
  | .or =>
    if 2 ≤ x ∧ x ≤ 3 then do
      let f ← methodTable x
      pure ({ s with orOp := f }, true)
    else pure (s, false)
  | _ => pure (s, false)

/-- The table `method` of `setDeFuzzMethod`, `/repo/src/fis.cpp` lines 50-57. -/
def deFuzzTable (m : Nat) : Out Method :=
  rdArr #[Method.centroid, .bisector, .mom, .lom, .som, .wtaver, .wtsum] m

/-- `instance::setDeFuzzMethod`; `m` is the value of the enumerator, `centroid` = 0, `bisector` = 1,
`mom` = 2, `lom` = 3, `som` = 4, `wtaver` = 5, `wtsum` = 6, `FIS_NUM_DEFUZZ` = 7.
`/repo/src/fis.cpp` lines 46-69. -/
def setDeFuzzMethod (s : Inst R) (m : Nat) : Out (Inst R × Bool) :=
  if m < 7 then
    if (s.kind = .mamdani ∧ m ≤ 4) ∨ (s.kind = .sugeno ∧ 5 ≤ m ∧ m ≤ 6) ∨ (s.kind = .tsukamoto ∧ m = 5) then do
      let f ← deFuzzTable m
      pure ({ s with deFuzz := f }, true)
    else pure (s, false)
  else pure (s, false)

/-- `instance::setup` on valid arguments: the non-null arrays with their sizes. The remaining members
keep the values they have in `s`; the `owner` of the outputs is not modelled.
`/repo/src/fis.cpp` lines 71-117. -/
def setup (s : Inst R) (t : Kind) (inputs : Array (IO R)) (ni : Nat) (outputs : Array (Output R)) (no : Nat)
    (mfInputs : Array (MF R)) (nmi : Nat) (mfOutputs : Array (MF R)) (nmo : Nat) (r : Array Int) (n : Nat)
    (rWeights : Option (Array R)) : Out (Inst R × Bool) :=
  if 0 < ni ∧ 0 < no ∧ 0 < nmi ∧ 0 < nmo ∧ 0 < n then do
    let s := { s with
      kind := t, xInput := inputs, xOutput := outputs, nInputs := ni, nOutputs := no, inMF := mfInputs,
      nMFInputs := nmi, outMF := mfOutputs, nMFOutputs := nmo, xRules := r, wi := rWeights, nRules := n,
      deFuzz := if t = .mamdani then .centroid else .wtaver }
    let (s, _) ← setParameter s .and 0
    let (s, _) ← setParameter s .or 2
    let (s, _) ← setParameter s .implication 0
    let (s, _) ← setParameter s .aggregation 2
    pure (s, true)
  else pure (s, false)

/-- `instance::setupInput`, `/repo/src/fis.cpp` lines 119-134. -/
def setupInput (s : Inst R) (t : Int) (min max : R) : Out (Inst R × Bool) :=
  if 0 ≤ t then do
    let i ← rdArr s.xInput t.toNat
    let a ← wrArr s.xInput t.toNat { i with min := min, max := max }
    pure ({ s with xInput := a }, true)
  else pure (s, false)

/-- `instance::setupOutput`, `/repo/src/fis.cpp` lines 136-153. -/
def setupOutput (s : Inst R) (t : Int) (min max : R) : Out (Inst R × Bool) :=
  if 0 ≤ t then do
    let o ← rdArr s.xOutput t.toNat
    let a ← wrArr s.xOutput t.toNat
      { o with io := { o.io with min := min, max := max }, res := (max -. min) /. lit (s.nPoints : ℚ) }
    pure ({ s with xOutput := a }, true)
  else pure (s, false)

/-- `output::storeAggregatedRegion` for an output with an owner; `n` is the size given by the caller.
`/repo/src/fis.cpp` lines 155-168. -/
def storeAggregatedRegion (s : Inst R) (o : Output R) (xData yData : Option (Array R)) (n : Nat) :
    Output R × Bool :=
  match xData, yData with
  | some x, some y => if s.nPoints ≤ n then ({ o with ag := some (x, y) }, true) else (o, false)
  | _, _ => (o, false)

/-- `instance::setInput`, `/repo/src/fis.cpp` lines 170-183. -/
def setInput (s : Inst R) (t : Int) (value : R) : Out (Inst R × Bool) :=
  if 0 ≤ t then do
    let i ← rdArr s.xInput t.toNat
    let a ← wrArr s.xInput t.toNat { i with value := value }
    pure ({ s with xInput := a }, true)
  else pure (s, false)

/-- `instance::getOutput`; `none` when it returns `false`. `/repo/src/fis.cpp` lines 185-198. -/
def getOutput (s : Inst R) (t : Int) : Out (Option R) :=
  if 0 ≤ t then do
    let o ← rdArr s.xOutput t.toNat
    pure (some o.io.value)
  else pure none

/-- `instance::setMF` for the array `m`; `sh` is the value of the enumerator of `shapeMF` and `customMf`
is `none` for a null pointer. `/repo/src/fis.cpp` lines 200-232. -/
def setMF [Trans R] (m : Array (MF R)) (io mf : Int) (sh : Nat) (customMf : Option (Shape R)) (cp : Array R)
    (h : R) : Out (Array (MF R) × Bool) :=
  if 0 ≤ io ∧ 0 ≤ mf ∧ sh < 28 then do
    let f ← (match customMf with
      | some f => pure f
      | none => fShape sh)
    let a ← wrArr m mf.toNat
      { shape := some f, points := cp, fx := lit 0, h := bound01 h, index := io.toNat }
    pure (a, true)
  else pure (m, false)

/-- `instance::setupInputMF`: the overload with a shape passes no custom function, the overload with a custom
function passes the shape 0. `/repo/src/include/fis.hpp` lines 659-687. -/
def setupInputMF [Trans R] (s : Inst R) (io mf : Int) (sh : Nat) (customMf : Option (Shape R))
    (cp : Array R) (h : R) : Out (Inst R × Bool) := do
  let (a, b) ← setMF s.inMF io mf sh customMf cp h
  pure ({ s with inMF := a }, b)

/-- `instance::setupOutputMF`, both overloads. `/repo/src/include/fis.hpp` lines 710-738. -/
def setupOutputMF [Trans R] (s : Inst R) (io mf : Int) (sh : Nat) (customMf : Option (Shape R))
    (cp : Array R) (h : R) : Out (Inst R × Bool) := do
  let (a, b) ← setMF s.outMF io mf sh customMf cp (if s.kind = .mamdani then h else lit 1)
  pure ({ s with outMF := a }, b)

/-- `instance::setRuleWeights`, `/repo/src/fis.cpp` lines 467-476. -/
def setRuleWeights (s : Inst R) (rWeights : Option (Array R)) : Inst R × Bool :=
  match rWeights with
  | some w => ({ s with ruleWeight := some w }, true)
  | none => (s, false)

/-- `operator[]`; `static_cast<size_t>( outTag )` of a negative tag is larger than any count.
`/repo/src/include/fis.hpp` lines 833-838 and 1168-1173. -/
def getAt (s : Inst R) (outTag : Int) : Out R :=
  if 0 ≤ outTag ∧ outTag < s.nOutputs then do
    let o ← rdArr s.xOutput outTag.toNat
    pure o.io.value
  else do
    let k ← index ((s.nOutputs : Int) - 1)
    let i ← rdArr s.xInput k
    pure i.value

/-- `operator<<( const tag& )`, `/repo/src/include/fis.hpp` lines 845-850 and 1180-1185. -/
def selectInput (s : Inst R) (t : Int) : Inst R :=
  if 0 ≤ t ∧ t < s.nInputs then { s with lastTag := t } else s

/-- `operator<<( const real_t& )`, `/repo/src/include/fis.hpp` lines 869-874 and 1204-1209; and
`operator<<( const int& )`, lines 857-862 and 1192-1197, after the conversion of its argument. -/
def pushValue (s : Inst R) (value : R) : Out (Inst R) :=
  if 0 ≤ s.lastTag then do
    let i ← rdArr s.xInput s.lastTag.toNat
    let a ← wrArr s.xInput s.lastTag.toNat { i with value := value }
    pure { s with xInput := a }
  else pure s

/-! ## Fuzzification -/

/-- `for ( i = 0; i < n; ++i ) { f }` from index `i` with `k` iterations left. -/
def loop {S : Type} (f : Nat → S → Out S) : Nat → Nat → S → Out S
  | 0, _, s => .ok s
  | k + 1, i, s => do
    let s ← f i s
    loop f k (i + 1) s

/-- The pointer `&xInput[ k ]`. -/
def inputPtr (a : Array (IO R)) (k : Nat) : Nat → Out (IO R) := fun j => rdArr a (k + j)

/-- `instance::fuzzify`; it returns `true`. `/repo/src/fis.cpp` lines 234-252. -/
def fuzzify (s : Inst R) : Out (Inst R) := do
  let s ← loop (fun i s => do
    let x ← rdArr s.xInput i
    let a ← wrArr s.xInput i { x with value := bound x.value x.min x.max }
    pure { s with xInput := a }) s.nInputs 0 s
  loop (fun i s => do
    let m ← rdArr s.inMF i
    let _ ← rdArr s.xInput m.index
    let (m', _) ← m.membership (inputPtr s.xInput m.index) 1
    let a ← wrArr s.inMF i m'
    pure { s with inMF := a }) s.nMFInputs 0 s

/-! ## Inference -/

/-- `instance::parseFuzzValue`, `/repo/src/fis.cpp` lines 254-269. -/
def parseFuzzValue (mfIO : Array (MF R)) (idx : Int) : Out R := do
  let neg := decide (idx < 0)
  let idx := if neg then toRules (-idx) else idx
  let k ← index (idx - 1)
  let m ← rdArr mfIO k
  let y := bound01 m.fx
  pure (if neg then lit 1 -. y else y)

/-- `instance::getFuzzOperator`, `/repo/src/fis.cpp` lines 271-288. -/
def getFuzzOperator (s : Inst R) : Op :=
  if s.lastConnector = AND then s.andOp
  else if s.lastConnector = OR then s.orOp
  else .sum

/-- `instance::inferenceAntecedent`, `/repo/src/fis.cpp` lines 290-322. -/
def inferenceAntecedent (s : Inst R) (i : Nat) : Out (Inst R × Nat) := do
  let inIndex ← rdArr s.xRules i
  let MFInIndex ← rdArr s.xRules (i + 1)
  let connector ← rdArr s.xRules (i + 2)
  let op := getFuzzOperator s
  let v ← parseFuzzValue s.inMF MFInIndex
  let s := { s with rStrength := op.app s.rStrength v }
  if inIndex < 0 ∨ (s.nInputs : Int) < inIndex then pure (s, 0)
  else if connector = AND ∨ connector = OR then
    pure ({ s with lastConnector := connector, infState := .antecedent }, i + 2)
  else if connector = THEN then
    pure ({ s with infState := .reachEnd }, i + 2)
  else pure (s, 0)

/-- `instance::inferenceReachEnd`; a null `wi` is undefined behaviour. `/repo/src/fis.cpp` lines 324-344. -/
def inferenceReachEnd (s : Inst R) (i : Nat) : Out (Inst R × Nat) := do
  let connector ← (if 1 < s.nOutputs then rdArr s.xRules (i + 2) else pure (-1))
  let i := i + 2
  if connector ≠ AND then
    match s.wi with
    | none => .ub
    | some w => do
      let w ← wrArr w s.ruleCount s.rStrength
      let w ← (match s.ruleWeight with
        | none => pure w
        | some rw => do
          let a ← rdArr w s.ruleCount
          let b ← rdArr rw s.ruleCount
          wrArr w s.ruleCount (a *. bound01 b))
      pure ({ s with infState := .antecedent, lastConnector := -1, wi := some w, rStrength := lit 0,
                     ruleCount := s.ruleCount + 1 }, i - 1)
  else pure (s, i)

/-- The loop of `instance::inference`; `( s, i )` when it ends. Every iteration reads `xRules[ i ]` and increases `i` or ends,
so `fuel` larger than the size of the array is never used up. `/repo/src/fis.cpp` lines 491-497. -/
def inferenceLoop : Nat → Inst R → Nat → Out (Inst R × Nat)
  | 0, _, _ => .diverge
  | fuel + 1, s, i => do
    let c ← rdArr s.xRules i
    if c ≠ RULES_END ∧ s.ruleCount < s.nRules then do
      let (s, i) ← (match s.infState with
        | .antecedent => inferenceAntecedent s i
        | .reachEnd => inferenceReachEnd s i)
      if i = 0 then pure (s, i) else inferenceLoop fuel s (i + 1)
    else pure (s, i)

/-- `instance::inference`, `/repo/src/fis.cpp` lines 478-505. -/
def inference (s : Inst R) : Out (Inst R × Bool) := do
  let c0 ← rdArr s.xRules 0
  let (s, i) ← (if c0 = RULES_BEGIN then
    inferenceLoop (s.xRules.size + 1)
      { s with infState := .antecedent, rStrength := lit 0, lastConnector := -1, ruleCount := 0 } 1
    else pure (s, 0))
  let c ← rdArr s.xRules i
  pure (s, decide (c = RULES_END ∧ s.ruleCount = s.nRules))

/-! ## Aggregation -/

/-- The loop of `instance::aggregationFindConsequent`; the value of `i` when it ends.
`/repo/src/fis.cpp` line 348. -/
def findThen (xRules : Array Int) : Nat → Nat → Out Nat
  | 0, _ => .diverge
  | fuel + 1, i => do
    let c ← rdArr xRules i
    if c ≠ THEN then findThen xRules fuel (i + 1) else pure (i + 1)

/-- `instance::aggregationFindConsequent`, `/repo/src/fis.cpp` lines 346-353. -/
def aggregationFindConsequent (s : Inst R) (i : Nat) : Out (Inst R × Nat) := do
  let i ← findThen s.xRules (s.xRules.size + 1) i
  pure ({ s with aggState := .consequent }, i - 1)

/-- The pointer `&o` to an output. -/
def outputPtr (o : Output R) : Nat → Out (IO R) := fun j => if j = 0 then .ok o.io else .ub

/-- The body of `instance::inferenceConsequent` for a rule of strength `w > 0`: the new arrays `xOutput`
and `outMF`. `/repo/src/fis.cpp` lines 371-389. -/
def applyConsequent (s : Inst R) (outIndex MFOutIndex : Int) (neg : Bool) (w : R) :
    Out (Array (Output R) × Array (MF R)) := do
  let a ← index outIndex
  let o ← rdArr s.xOutput a
  let b ← index MFOutIndex
  let m ← rdArr s.outMF b
  if s.kind = .mamdani then do
    let (m, v) ← m.membership (outputPtr o) 1
    let v := if neg then lit 1 -. v else v
    let o := { o with y := s.aggregate.app o.y (s.implicate.app w v) }
    let xo ← wrArr s.xOutput a o
    let mo ← wrArr s.outMF b m
    pure (xo, mo)
  else do
    let (m, zi) ← m.membership (inputPtr s.xInput 0) s.nInputs
    let o := { o with v0 := o.v0 +. (zi *. w), v1 := o.v1 +. w }
    let xo ← wrArr s.xOutput a o
    let mo ← wrArr s.outMF b m
    pure (xo, mo)

/-- `instance::inferenceConsequent`, `/repo/src/fis.cpp` lines 355-399. -/
def inferenceConsequent (s : Inst R) (i : Nat) : Out (Inst R × Nat) := do
  let outIndex ← rdArr s.xRules i
  let MFOutIndex ← rdArr s.xRules (i + 1)
  let connector ← (if 1 < s.nOutputs then rdArr s.xRules (i + 2) else pure (-1))
  let neg := decide (MFOutIndex < 0)
  let MFOutIndex := if neg then toRules (-MFOutIndex) else MFOutIndex
  let MFOutIndex := toRules (MFOutIndex - 1)
  match s.wi with
  | none => .ub
  | some wi => do
    let w ← rdArr wi s.ruleCount
    let (xo, mo) ← (if lit 0 <. w then applyConsequent s outIndex MFOutIndex neg w
      else pure (s.xOutput, s.outMF))
    let s := { s with xOutput := xo, outMF := mo }
    let i := i + 2
    if connector ≠ AND then
      pure ({ s with aggState := .find, ruleCount := s.ruleCount + 1 }, i - 1)
    else pure (s, i)

/-- The loop of `instance::fuzzyAggregate`; see `inferenceLoop` about `fuel`.
`/repo/src/fis.cpp` lines 408-414. -/
def aggregateLoop : Nat → Inst R → Nat → Out (Inst R)
  | 0, _, _ => .diverge
  | fuel + 1, s, i => do
    let c ← rdArr s.xRules i
    if c ≠ RULES_END ∧ s.ruleCount < s.nRules then do
      let (s, i) ← (match s.aggState with
        | .find => aggregationFindConsequent s i
        | .consequent => inferenceConsequent s i)
      if i = 0 then pure s else aggregateLoop fuel s (i + 1)
    else pure s

/-- `instance::fuzzyAggregate`, `/repo/src/fis.cpp` lines 401-416. -/
def fuzzyAggregate (s : Inst R) : Out (Inst R) := do
  let c0 ← rdArr s.xRules 0
  if c0 = RULES_BEGIN then
    aggregateLoop (s.xRules.size + 1) { s with aggState := .find, ruleCount := 0 } 1
  else pure s

/-! ## De-fuzzification -/

/-- The `FIS_DEFUZZ_INIT` stage of the de-fuzzification functions.
`/repo/src/fisCore.cpp` lines 540-543, 565-567, 603-606, 629-632, 666-671, 682-704. -/
def Method.init (m : Method) (o : Output R) : Output R :=
  match m with
  | .centroid => { o with v0 := lit 0, v1 := lit 0 }
  | .bisector => { o with v1 := lit 0 }
  | .lom => { o with v0 := lit (-1), v2 := o.io.max }
  | .som => { o with v0 := lit (-1), v2 := o.io.min }
  | .mom => { o with v0 := lit (-1), v1 := o.io.min, v2 := o.io.max, v3 := lit (-1) }
  | .wtaver | .wtsum => o

/-- The `FIS_DEFUZZ_COMPUTE` stage of the de-fuzzification functions.
`/repo/src/fisCore.cpp` lines 536-539, 562-564, 597-602, 623-628, 649-665, 682-704. -/
def Method.compute (m : Method) (o : Output R) : Output R :=
  match m with
  | .centroid => { o with v0 := o.v0 +. (o.x *. o.y), v1 := o.v1 +. o.y }
  | .bisector => { o with v1 := o.v1 +. o.y }
  | .lom => if o.v0 ≤. o.y then { o with v0 := o.y, v2 := o.x } else o
  | .som => if o.v0 ≤. o.y then { o with v0 := o.y, v2 := o.x } else o
  | .mom =>
    if o.v0 <. o.y then { o with v0 := o.y, v1 := o.x, v2 := o.x, v3 := lit 1 }
    else if isEqual o.y o.v0 && (lit 0 <. o.v3) then { o with v2 := o.x }
    else if o.y <. o.v0 then { o with v3 := lit (-1) }
    else o
  | .wtaver | .wtsum => o

/-- The loop of `deFuzzBisector`, from index `k` with `n` iterations left, on output `j`.
`/repo/src/fisCore.cpp` lines 572-581. -/
def bisectorLoop (j : Nat) : Nat → Nat → Inst R → Out (Inst R)
  | 0, _, s => .ok s
  | n + 1, k, s => do
    let o ← rdArr s.xOutput j
    let o := Output.getNextX { o with y := lit 0 } k
    let a ← wrArr s.xOutput j { o with io := { o.io with value := o.x } }
    let s ← fuzzyAggregate { s with xOutput := a }
    let o ← rdArr s.xOutput j
    let o := { o with v3 := o.v3 +. o.y }
    let a ← wrArr s.xOutput j o
    let s := { s with xOutput := a }
    if o.v2 ≤. o.v3 then .ok s else bisectorLoop j n (k + 1) s

/-- The `FIS_DEFUZZ_END` stage of the de-fuzzification functions on output `j`: the new instance and
the result. `/repo/src/fisCore.cpp` lines 544-546, 568-583, 607-609, 633-635, 672-674, 682-704. -/
def deFuzzEnd (s : Inst R) (j : Nat) : Out (Inst R × R) := do
  let o ← rdArr s.xOutput j
  match s.deFuzz with
  | .centroid => pure (s, o.v0 /. o.v1)
  | .bisector => do
    let a ← wrArr s.xOutput j { o with v3 := lit 0, v2 := lit (1 / 2) *. o.v1 }
    let s ← bisectorLoop j s.nPoints 0 { s with xOutput := a }
    let o ← rdArr s.xOutput j
    pure (s, o.x)
  | .lom => pure (s, o.v2)
  | .som => pure (s, o.v2)
  | .mom => pure (s, lit (1 / 2) *. (o.v1 +. o.v2))
  | .wtaver => pure (s, o.v0 /. o.v1)
  | .wtsum => pure (s, o.v0)

/-- A loop over the outputs that changes each of them, used in `deFuzzify`,
`/repo/src/fis.cpp` lines 425-427, 432-436, 438-444, 448-451, 453-455. -/
def overOutputs (f : Output R → Out (Output R)) (s : Inst R) : Out (Inst R) :=
  loop (fun i s => do
    let o ← rdArr s.xOutput i
    let o ← f o
    let a ← wrArr s.xOutput i o
    pure { s with xOutput := a }) s.nOutputs 0 s

/-- The compute step of one output in the loop over the points of a Mamdani system.
`/repo/src/fis.cpp` lines 439-443. -/
def computePoint (m : Method) (k : Nat) (o : Output R) : Out (Output R) :=
  let o := m.compute o
  match o.ag with
  | none => pure o
  | some (xa, ya) => do
    let xa ← wrArr xa k o.x
    let ya ← wrArr ya k o.y
    pure { o with ag := some (xa, ya) }

/-- One iteration of the loop over the points of a Mamdani system. `/repo/src/fis.cpp` lines 431-445. -/
def mamdaniPoint (k : Nat) (s : Inst R) : Out (Inst R) := do
  let s ← overOutputs (fun o =>
    let o := Output.getNextX { o with y := lit 0 } k
    pure { o with io := { o.io with value := o.x } }) s
  let s ← fuzzyAggregate s
  overOutputs (computePoint s.deFuzz k) s

/-- The final step on output `i`. `/repo/src/fis.cpp` lines 458-459. -/
def finish (i : Nat) (s : Inst R) : Out (Inst R) := do
  let (s, d) ← deFuzzEnd s i
  let o ← rdArr s.xOutput i
  let a ← wrArr s.xOutput i { o with io := { o.io with value := bound d o.io.min o.io.max } }
  pure { s with xOutput := a }

/-- `instance::deFuzzify`; it returns `true`. `/repo/src/fis.cpp` lines 418-465. -/
def deFuzzify (s : Inst R) : Out (Inst R) := do
  let s ← overOutputs (fun o => pure (s.deFuzz.init o)) s
  let s ← (if s.kind = .mamdani then loop mamdaniPoint s.nPoints 0 s
    else do
      let s ← overOutputs (fun o => pure { o with v0 := lit 0, v1 := lit 0 }) s
      let s ← fuzzyAggregate s
      overOutputs (fun o => pure (s.deFuzz.compute o)) s)
  loop finish s.nOutputs 0 s

end Verif.Fis
