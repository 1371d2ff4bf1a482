import Verif.Fis.Config
import Verif.Fis.ShapesProps
import Verif.Fis.Pipeline

/-!
# Sequences of configuration calls (C164)
-/

namespace Verif.Fis

open Arith

variable {K : Type} [Field K] [LinearOrder K] [IsStrictOrderedRing K]

/-- The enumerators of `shapeMF` other than `custommf`, `/repo/src/include/fis.hpp` lines 33-65. -/
inductive ShapeName where
  | trimf | trapmf | gbellmf | gaussmf | gauss2mf | sigmf | dsigmf | psigmf | pimf | smf | zmf | singletonmf | concavemf | spikemf
  | linsmf | linzmf | rectmf | cosmf | constantmf | linearmf | tlinsmf | tlinzmf | tconcavemf | tsigmf | tsmf | tzmf | trampmf
  deriving DecidableEq, Repr

/-- The value of the enumerator. `/repo/src/include/fis.hpp` lines 33-65. -/
def ShapeName.code (n : ShapeName) : Nat := n.ctorIdx + 1

/-- The function a shape is documented to be. Specification side; `/repo/src/include/fis.hpp` lines 33-65. -/
def ShapeName.fn [Trans K] : ShapeName → Shape K
  | .trimf => TriMF | .trapmf => TrapMF | .gbellmf => GBellMF | .gaussmf => GaussMF | .gauss2mf => Gauss2MF | .sigmf => SigMF
  | .dsigmf => DSigMF | .psigmf => PSigMF | .pimf => PiMF | .smf => SMF | .zmf => ZMF | .singletonmf => SingletonMF
  | .concavemf => ConcaveMF | .spikemf => SpikeMF | .linsmf => LinSMF | .linzmf => LinZMF | .rectmf => RectangleMF
  | .cosmf => CosineMF | .constantmf => ConstantMF | .linearmf => LinearMF | .tlinsmf => TLinSMF | .tlinzmf => TLinZMF
  | .tconcavemf => TConcaveMF | .tsigmf => TSigMF | .tsmf => TSMF | .tzmf => TZMF | .trampmf => TLinSMF

/-- A call that configures a system or sets an input, with its arguments. Membership functions are given by a documented shape or by a
function of the user. Not a definition of the repository. -/
inductive Cfg (K : Type) where
  | setupInput (t : Int) (min max : K)
  | setupOutput (t : Int) (min max : K)
  | setInput (t : Int) (v : K)
  | inputMF (io mf : Int) (sh : ShapeName ⊕ Shape K) (cp : Array K) (h : K)
  | outputMF (io mf : Int) (sh : ShapeName ⊕ Shape K) (cp : Array K) (h : K)
  | ruleWeights (w : Array K)

/-- The shape passed by the overloads of `setupInputMF` and `setupOutputMF`: the named one, or `custommf`.
`/repo/src/include/fis.hpp` lines 659-687. -/
def shapeArg : ShapeName ⊕ Shape K → Nat × Option (Shape K)
  | .inl n => (n.code, none)
  | .inr f => (0, some f)

/-- Execute a call on the model. Not a definition of the repository. -/
def Cfg.exec [Trans K] (s : Inst K) : Cfg K → Out (Inst K × Bool)
  | .setupInput t a b => Fis.setupInput s t a b
  | .setupOutput t a b => Fis.setupOutput s t a b
  | .setInput t v => Fis.setInput s t v
  | .inputMF io mf sh cp h => setupInputMF s io mf (shapeArg sh).1 (shapeArg sh).2 cp h
  | .outputMF io mf sh cp h => setupOutputMF s io mf (shapeArg sh).1 (shapeArg sh).2 cp h
  | .ruleWeights w => .ok (setRuleWeights s (some w))

/-- Execute a sequence of calls; the results are collected. Not a definition of the repository. -/
def execs [Trans K] (s : Inst K) : List (Cfg K) → Out (Inst K × List Bool)
  | [] => .ok (s, [])
  | c :: l => do
    let (s, b) ← c.exec s
    let (s, bs) ← execs s l
    pure (s, b :: bs)

/-- The tags of a call exist, or are negative. Not a definition of the repository. -/
def Cfg.Safe (s : Inst K) : Cfg K → Prop
  | .setupInput t _ _ | .setInput t _ => t < s.xInput.size
  | .setupOutput t _ _ => t < s.xOutput.size
  | .inputMF _ mf _ _ _ => mf < s.inMF.size
  | .outputMF _ mf _ _ _ => mf < s.outMF.size
  | .ruleWeights _ => True

/-- No tag is negative. Not a definition of the repository. -/
def Cfg.tags : Cfg K → Bool
  | .setupInput t _ _ | .setInput t _ | .setupOutput t _ _ => decide (0 ≤ t)
  | .inputMF io mf _ _ _ | .outputMF io mf _ _ _ => decide (0 ≤ io) && decide (0 ≤ mf)
  | .ruleWeights _ => true

/-- What a call does to input `k`. Specification side. -/
def onInput (k : Nat) (i : IO K) : Cfg K → IO K
  | .setupInput t a b => if t = k then ⟨a, b, i.value⟩ else i
  | .setInput t v => if t = k then ⟨i.min, i.max, v⟩ else i
  | _ => i

/-- What a call does to output `k` of a system that de-fuzzifies at `n` points. Specification side. -/
def onOutput (n k : Nat) (o : Output K) : Cfg K → Output K
  | .setupOutput t a b => if t = k then { o with io := ⟨a, b, o.io.value⟩, res := (b - a) / n } else o
  | _ => o

/-- The membership function described by the arguments, its height limited to 0..1. Specification side. -/
def mfOf [Trans K] (io : Int) (sh : ShapeName ⊕ Shape K) (cp : Array K) (h : K) : MF K :=
  ⟨some (sh.elim ShapeName.fn id), cp, 0, max 0 (min 1 h), io.toNat⟩

/-- What a call does to the membership function `k` of the inputs. Specification side. -/
def onInMF [Trans K] (k : Nat) (m : MF K) : Cfg K → MF K
  | .inputMF io mf sh cp h => if 0 ≤ io ∧ mf = k then mfOf io sh cp h else m
  | _ => m

/-- What a call does to the membership function `k` of the outputs; the height only matters to Mamdani systems. Specification side. -/
def onOutMF [Trans K] (kind : Kind) (k : Nat) (m : MF K) : Cfg K → MF K
  | .outputMF io mf sh cp h => if 0 ≤ io ∧ mf = k then mfOf io sh cp (if kind = .mamdani then h else 1) else m
  | _ => m

/-- What a call does to the weights of the rules. Specification side. -/
def onWeights (w : Option (Array K)) : Cfg K → Option (Array K)
  | .ruleWeights v => some v
  | _ => w

/-- The effect of a sequence of calls on every part of the system. Specification side. -/
structure Effect [Trans K] (s s' : Inst K) (l : List (Cfg K)) : Prop where
  input : ∀ k, s'.xInput[k]? = s.xInput[k]?.map (l.foldl (onInput k))
  output : ∀ k, s'.xOutput[k]? = s.xOutput[k]?.map (l.foldl (onOutput s.nPoints k))
  inMF : ∀ k, s'.inMF[k]? = s.inMF[k]?.map (l.foldl (onInMF k))
  outMF : ∀ k, s'.outMF[k]? = s.outMF[k]?.map (l.foldl (onOutMF s.kind k))
  weights : s'.ruleWeight = l.foldl onWeights s.ruleWeight
  rest : s' = { s with xInput := s'.xInput, xOutput := s'.xOutput, inMF := s'.inMF, outMF := s'.outMF, ruleWeight := s'.ruleWeight }

omit [IsStrictOrderedRing K] in
/-- **C164** (shapes) Every named shape selects the function of its name. -/
theorem C164_shapes [Trans K] (n : ShapeName) : fShape n.code = .ok (n.fn (K := K)) := by
  cases n <;> rfl

theorem bound01_max (h : K) : bound01 h = max 0 (min 1 h) := by
  unfold bound01 bound
  simp only [isNan, fLt, fLit]
  rw [if_neg (by simp)]
  push_cast
  split
  · rename_i h1; simp at h1; rw [min_eq_right (by linarith), max_eq_left h1.le]
  · rename_i h1; simp at h1
    split
    · rename_i h2; simp at h2; rw [min_eq_left h2.le, max_eq_right (by norm_num)]
    · rename_i h2; simp at h2; rw [min_eq_right h2, max_eq_right h1]

theorem set_get {α : Type} (a : Array α) (t : Int) (h0 : 0 ≤ t) (h : t.toNat < a.size) (v : α) (f : α → α) (hf : f a[t.toNat] = v) (k : Nat) :
    (a.set t.toNat v)[k]? = a[k]?.map (fun x => if t = k then f x else x) := by
  rw [Array.getElem?_set]
  by_cases hk : t.toNat = k
  · subst hk
    rw [if_pos rfl, Array.getElem?_eq_getElem h, Option.map_some, if_pos (by omega), hf]
  · rw [if_neg hk]
    have : ¬t = (k : Int) := by omega
    simp [this]

omit [IsStrictOrderedRing K] in
theorem setMF_eq [Trans K] (m : Array (MF K)) (io mf : Int) (sh : ShapeName ⊕ Shape K) (cp : Array K) (h : K) (c : 0 ≤ io ∧ 0 ≤ mf) :
    setMF m io mf (shapeArg sh).1 (shapeArg sh).2 cp h =
      (do let a ← wrArr m mf.toNat ⟨some (sh.elim ShapeName.fn id), cp, lit 0, bound01 h, io.toNat⟩; pure (a, true)) := by
  cases sh with
  | inl n =>
    have : n.code < 28 := by cases n <;> decide
    change setMF m io mf n.code none cp h = _
    unfold setMF
    rw [if_pos ⟨c.1, c.2, this⟩, C164_shapes n, Out.bind_ok]; rfl
  | inr f =>
    change setMF m io mf 0 (some f) cp h = _
    unfold setMF
    rw [if_pos ⟨c.1, c.2, by decide⟩]; rfl

theorem setMF_ok [Trans K] (m : Array (MF K)) (io mf : Int) (sh : ShapeName ⊕ Shape K) (cp : Array K) (h : K) (hs : mf < m.size) :
    ∃ m', setMF m io mf (shapeArg sh).1 (shapeArg sh).2 cp h = .ok (m', decide (0 ≤ io) && decide (0 ≤ mf)) ∧
      m'.size = m.size ∧ ∀ k : Nat, m'[k]? = m[k]?.map fun x => if 0 ≤ io ∧ mf = k then mfOf io sh cp h else x := by
  by_cases c : 0 ≤ io ∧ 0 ≤ mf
  · have hl : mf.toNat < m.size := by omega
    rw [setMF_eq m io mf sh cp h c, wrArr_ok hl, Out.bind_ok]
    refine ⟨_, by rw [decide_eq_true c.1, decide_eq_true c.2]; rfl, by simp, fun k => ?_⟩
    rw [set_get m mf c.2 hl _ (fun _ => mfOf io sh cp h) (by simp [mfOf, bound01_max]) k]
    simp [c.1]
  · unfold setMF
    rw [if_neg (by tauto)]
    refine ⟨m, by rw [Out.pure_eq]; congr 2; by_cases c1 : 0 ≤ io <;> by_cases c2 : 0 ≤ mf <;> simp_all, rfl, fun k => ?_⟩
    have : ¬(0 ≤ io ∧ mf = (k : Int)) := fun ⟨a, b⟩ => c ⟨a, by omega⟩
    simp [this]

theorem exec_ok [Trans K] (s : Inst K) (c : Cfg K) (hc : c.Safe s) :
    ∃ s', c.exec s = .ok (s', c.tags) ∧ Effect s s' [c] := by
  cases c with
  | setupInput t a b =>
    simp only [Cfg.Safe] at hc
    simp only [Cfg.exec, setupInput, Cfg.tags]
    by_cases h : 0 ≤ t
    · have hl : t.toNat < s.xInput.size := by omega
      rw [if_pos h, rdArr_ok hl, Out.bind_ok, wrArr_ok hl, Out.bind_ok]
      refine ⟨_, by simp [h, Out.pure_eq]; rfl, ⟨fun k => ?_, by simp [onOutput], by simp [onInMF], by simp [onOutMF], by simp [onWeights], rfl⟩⟩
      exact set_get s.xInput t h hl _ (fun i => ⟨a, b, i.value⟩) rfl k
    · rw [if_neg h]
      refine ⟨s, by simp [h, Out.pure_eq], ⟨fun k => ?_, by simp [onOutput], by simp [onInMF], by simp [onOutMF], by simp [onWeights], rfl⟩⟩
      have : ¬t = (k : Int) := by omega
      simp [onInput, this]
  | setupOutput t a b =>
    simp only [Cfg.Safe] at hc
    simp only [Cfg.exec, setupOutput, Cfg.tags]
    by_cases h : 0 ≤ t
    · have hl : t.toNat < s.xOutput.size := by omega
      rw [if_pos h, rdArr_ok hl, Out.bind_ok, wrArr_ok hl, Out.bind_ok]
      refine ⟨_, by simp [h, Out.pure_eq]; rfl, ⟨by simp [onInput], fun k => ?_, by simp [onInMF], by simp [onOutMF], by simp [onWeights], rfl⟩⟩
      exact set_get s.xOutput t h hl _ (fun o => { o with io := ⟨a, b, o.io.value⟩, res := (b - a) / s.nPoints }) (by simp) k
    · rw [if_neg h]
      refine ⟨s, by simp [h, Out.pure_eq], ⟨by simp [onInput], fun k => ?_, by simp [onInMF], by simp [onOutMF], by simp [onWeights], rfl⟩⟩
      have : ¬t = (k : Int) := by omega
      simp [onOutput, this]
  | setInput t v =>
    simp only [Cfg.Safe] at hc
    simp only [Cfg.exec, setInput, Cfg.tags]
    by_cases h : 0 ≤ t
    · have hl : t.toNat < s.xInput.size := by omega
      rw [if_pos h, rdArr_ok hl, Out.bind_ok, wrArr_ok hl, Out.bind_ok]
      refine ⟨_, by simp [h, Out.pure_eq]; rfl, ⟨fun k => ?_, by simp [onOutput], by simp [onInMF], by simp [onOutMF], by simp [onWeights], rfl⟩⟩
      exact set_get s.xInput t h hl _ (fun i => ⟨i.min, i.max, v⟩) rfl k
    · rw [if_neg h]
      refine ⟨s, by simp [h, Out.pure_eq], ⟨fun k => ?_, by simp [onOutput], by simp [onInMF], by simp [onOutMF], by simp [onWeights], rfl⟩⟩
      have : ¬t = (k : Int) := by omega
      simp [onInput, this]
  | inputMF io mf sh cp h =>
    obtain ⟨m', e, -, hm⟩ := setMF_ok s.inMF io mf sh cp h hc
    refine ⟨{ s with inMF := m' }, by simp only [Cfg.exec, setupInputMF, e, Out.bind_ok, Out.pure_eq, Cfg.tags],
      ⟨by simp [onInput], by simp [onOutput], fun k => ?_, by simp [onOutMF], by simp [onWeights], rfl⟩⟩
    rw [hm k]; rfl
  | outputMF io mf sh cp h =>
    obtain ⟨m', e, -, hm⟩ := setMF_ok s.outMF io mf sh cp (if s.kind = .mamdani then h else 1) hc
    refine ⟨{ s with outMF := m' }, ?_,
      ⟨by simp [onInput], by simp [onOutput], by simp [onInMF], fun k => ?_, by simp [onWeights], rfl⟩⟩
    · have : (if s.kind = .mamdani then h else lit 1 : K) = if s.kind = .mamdani then h else 1 := by simp
      simp only [Cfg.exec, setupOutputMF, this, e, Out.bind_ok, Out.pure_eq, Cfg.tags]
    · rw [hm k]; rfl
  | ruleWeights w =>
    exact ⟨{ s with ruleWeight := some w }, rfl,
      ⟨by simp [onInput], by simp [onOutput], by simp [onInMF], by simp [onOutMF], by simp [onWeights], rfl⟩⟩

theorem size_of_get {α : Type} {a b : Array α} {f : Nat → α → α} (h : ∀ k : Nat, b[k]? = a[k]?.map (f k)) : b.size = a.size := by
  rcases lt_trichotomy b.size a.size with g | g | g
  · have := h b.size; rw [Array.getElem?_eq_getElem g] at this; simp at this
  · exact g
  · have := h a.size; rw [Array.getElem?_eq_getElem g] at this; simp at this

/-- **C164** For every sequence of configuration calls whose tags exist or are negative: nothing undefined happens; a call returns
`true` exactly when it has no negative tag; every input, output and membership function and the weights are what the last call for each
of their parts made of them; a refused call has no effect; nothing else changes. -/
theorem C164_config_partial [Trans K] (s : Inst K) (l : List (Cfg K)) (hl : ∀ c ∈ l, c.Safe s) :
    ∃ s', execs s l = .ok (s', l.map Cfg.tags) ∧ Effect s s' l := by
  induction l generalizing s with
  | nil => exact ⟨s, rfl, ⟨by simp, by simp, by simp, by simp, rfl, rfl⟩⟩
  | cons c l ih =>
    obtain ⟨s1, e1, f1⟩ := exec_ok s c (hl c (by simp))
    have z1 := size_of_get f1.input
    have z2 := size_of_get f1.output
    have z3 := size_of_get f1.inMF
    have z4 := size_of_get f1.outMF
    obtain ⟨s', e2, f2⟩ := ih s1 (fun d hd => by
      have := hl d (by simp [hd])
      cases d <;> simp only [Cfg.Safe, z1, z2, z3, z4] at * <;> exact this)
    have np : s1.nPoints = s.nPoints := by rw [f1.rest]
    have kd : s1.kind = s.kind := by rw [f1.rest]
    refine ⟨s', by simp only [execs, e1, e2, Out.bind_ok, Out.pure_eq, List.map_cons], ⟨fun k => ?_, fun k => ?_, fun k => ?_, fun k => ?_, ?_, ?_⟩⟩
    · rw [f2.input, f1.input]; simp [Function.comp_def]
    · rw [f2.output, f1.output, np]; simp [Function.comp_def]
    · rw [f2.inMF, f1.inMF]; simp [Function.comp_def]
    · rw [f2.outMF, f1.outMF, kd]; simp [Function.comp_def]
    · rw [f2.weights, f1.weights]; rfl
    · rw [f2.rest, f1.rest]

omit [IsStrictOrderedRing K] in
/-- **C164 is false of the code without the hypothesis**: the tags are not compared with the number of inputs, outputs or membership
functions, and a tag past the end writes outside the array. -/
theorem C164_tags_false [Trans K] (s : Inst K) (t : Int) (v a b h : K) (sh : ShapeName ⊕ Shape K) (cp : Array K)
    (ht : s.xInput.size ≤ t ∧ s.xOutput.size ≤ t ∧ s.inMF.size ≤ t ∧ s.outMF.size ≤ t) :
    setInput s t v = .ub ∧ setupInput s t a b = .ub ∧ setupOutput s t a b = .ub ∧ getOutput s t = .ub ∧
    (Cfg.inputMF 0 t sh cp h).exec s = .ub ∧ (Cfg.outputMF 0 t sh cp h).exec s = .ub := by
  obtain ⟨h1, h2, h3, h4⟩ := ht
  have t0 : 0 ≤ t := by omega
  have r1 : rdArr s.xInput t.toNat = .ub := by simp only [rdArr]; rw [dif_neg (by omega)]
  have r2 : rdArr s.xOutput t.toNat = .ub := by simp only [rdArr]; rw [dif_neg (by omega)]
  have r3 : ∀ v, wrArr s.inMF t.toNat v = .ub := by intro v; simp only [wrArr]; rw [dif_neg (by omega)]
  have r4 : ∀ v, wrArr s.outMF t.toNat v = .ub := by intro v; simp only [wrArr]; rw [dif_neg (by omega)]
  refine ⟨?_, ?_, ?_, ?_, ?_, ?_⟩
  · simp only [setInput]; rw [if_pos t0, r1]; rfl
  · simp only [setupInput]; rw [if_pos t0, r1]; rfl
  · simp only [setupOutput]; rw [if_pos t0, r2]; rfl
  · simp only [getOutput]; rw [if_pos t0, r2]; rfl
  · simp only [Cfg.exec, setupInputMF]; rw [setMF_eq _ _ _ _ _ _ ⟨le_refl _, t0⟩, r3]; rfl
  · simp only [Cfg.exec, setupOutputMF]; rw [setMF_eq _ _ _ _ _ _ ⟨le_refl _, t0⟩, r4]; rfl

omit [Field K] [LinearOrder K] [IsStrictOrderedRing K] in
/-- **C164** (reading) An output is read by its tag; a negative tag is refused. -/
theorem C164_getOutput (s : Inst K) (t : Int) (ht : t < s.xOutput.size) :
    ∃ r, getOutput s t = .ok r ∧ (t < 0 → r = none) ∧ ∀ k : Nat, t = k → r = s.xOutput[k]?.map (·.io.value) := by
  unfold getOutput
  by_cases h : 0 ≤ t
  · have hl : t.toNat < s.xOutput.size := by omega
    rw [if_pos h, rdArr_ok hl, Out.bind_ok]
    refine ⟨_, rfl, fun h' => by omega, fun k hk => ?_⟩
    subst hk
    simp only [Int.toNat_natCast] at hl ⊢
    rw [Array.getElem?_eq_getElem hl]; rfl
  · rw [if_neg h]
    exact ⟨none, rfl, fun _ => rfl, fun k hk => by omega⟩

omit [IsStrictOrderedRing K] in
/-- **C164** (shapes beyond the last) A shape that is no enumerator is refused and has no effect. -/
theorem C164_badShape [Trans K] (s : Inst K) (io mf : Int) (sh : Nat) (hs : 28 ≤ sh) (f : Option (Shape K)) (cp : Array K) (h : K) :
    setupInputMF s io mf sh f cp h = .ok (s, false) ∧ setupOutputMF s io mf sh f cp h = .ok (s, false) := by
  unfold setupInputMF setupOutputMF setMF
  constructor <;> rw [if_neg (by omega)] <;> rfl

omit [Field K] [LinearOrder K] [IsStrictOrderedRing K] in
/-- **C164** (regions) A region is stored, and `true` returned, exactly when both arrays are given and hold at least as many
values as there are points; otherwise nothing changes. -/
theorem C164_region (s : Inst K) (o : Output K) (x y : Option (Array K)) (n : Nat) :
    ((storeAggregatedRegion s o x y n).2 = true ↔ x.isSome ∧ y.isSome ∧ s.nPoints ≤ n) ∧
    ((storeAggregatedRegion s o x y n).2 = false → (storeAggregatedRegion s o x y n).1 = o) ∧
    (∀ a b, (storeAggregatedRegion s o x y n).2 = true → x = some a → y = some b →
      (storeAggregatedRegion s o x y n).1 = { o with ag := some (a, b) }) ∧
    setRuleWeights s none = (s, false) := by
  refine ⟨?_, ?_, ?_, rfl⟩ <;> unfold storeAggregatedRegion <;> cases x <;> cases y <;> by_cases h : s.nPoints ≤ n <;> simp [h]

/-- **C164** (grid) After `setupOutput` the points of de-fuzzification cover the range of the output exactly. -/
theorem C164_grid [Trans K] (s s' : Inst K) (t : Nat) (a b : K) (ht : t < s.xOutput.size) (hn : 0 < s.nPoints) (r : Bool)
    (h : setupOutput s t a b = .ok (s', r)) :
    ∃ o, s'.xOutput[t]? = some o ∧ o.io.min + s'.nPoints * o.res = o.io.max ∧ o.io.min = a ∧ o.io.max = b := by
  obtain ⟨s2, e, f⟩ := exec_ok s (.setupOutput t a b) (by simp only [Cfg.Safe]; omega)
  simp only [Cfg.exec] at e
  rw [h] at e
  obtain ⟨rfl, -⟩ := Prod.mk.inj (Out.ok.inj e)
  have np : s'.nPoints = s.nPoints := by rw [f.rest]
  have := f.output t
  rw [Array.getElem?_eq_getElem ht, Option.map_some] at this
  refine ⟨_, this, ?_⟩
  have n0 : (s.nPoints : K) ≠ 0 := by exact_mod_cast hn.ne'
  simp only [List.foldl_cons, List.foldl_nil, onOutput, if_true, np, and_self, and_true]
  field_simp
  ring

/-- Calls that meet the hypotheses, among them a refused one. -/
example : ∀ c ∈ ([.setupInput 0 0 10, .setInput 0 3, .setInput (-1) 4, .setupOutput 1 0 5, .inputMF 0 2 (.inl .trimf) #[0, 1, 2] 1,
    .outputMF 0 0 (.inr ConstantMF) #[1] 2, .ruleWeights #[1]] : List (Cfg ℚ)), c.Safe (demo 2 1 [] [0, 0, 0] none) := by
  intro c hc
  simp only [List.mem_cons, List.not_mem_nil, or_false] at hc
  rcases hc with rfl | rfl | rfl | rfl | rfl | rfl | rfl <;> simp [Cfg.Safe, demo]

end Verif.Fis
