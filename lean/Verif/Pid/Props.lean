import Verif.Pid.Model
import Mathlib.Algebra.BigOperators.Group.Finset.Basic
import Mathlib.Algebra.BigOperators.Ring.Finset

/-!
# Properties C41-C44 of the PID controller
-/

namespace Verif.Pid

open Arith Numa

section AnyArithmetic
variable {R : Type u} [Arith R] [Trans R]

/-- A freshly constructed controller: the members without initialiser are arbitrary.
`/repo/src/include/pid.hpp` lines 137-149. -/
def Fresh (s : Ctl R) : Prop :=
  s.isInitialized = false ∧ s.dt = lit 1 ∧ s.yr = false ∧ s.adapt = none ∧
  s.mode = .automatic ∧ s.dir = .forward

/-- Everything a program can do with a controller. `poke` is the direct access to the public bases
`pidGains` and `nState` (gains assigned, integrator state or method changed, ...). -/
inductive Op (R : Type u) where
  | setup (kc ki kd dT : R)
  | setDirection (d : Direction)
  | setParams (kc ti td : R)
  | setGains (kc ki kd : R)
  | setExtraGains (kw kt : R)
  | setSaturation (lo hi : R)
  | setSeries
  | setEpsilon (e : R)
  | setDerivativeFilter (b : R)
  | setDerivativeFilterTimeConstant (tf : R)
  | setMode (m : Mode)
  | setReferenceWeighting (gb gc : R)
  | setManualInput (v : R)
  | setModelReferenceControl (gamma alpha : R)
  | removeModelReferenceControl
  | reset
  | bindAutoTuning (a : AutoTuning R)
  | unbindAutoTuning
  | enableAutoTuning (n : BitVec 32)
  | setAutoTuningParameters (mu alpha lambda : R)
  | setAutoTuningControllerType (t : Kind)
  | poke (g : Gains R) (st : NState R)
  | control (w y yr0 : R)

/-- Execute one operation: new state, boolean result (`true` for `poke` and `control`) and the
output of `control`. -/
def Op.run (s : Ctl R) : Op R → Ctl R × Bool × Option R
  | .setup a b c d => let r := s.setup a b c d; (r.1, r.2, none)
  | .setDirection d => let r := s.setDirection d; (r.1, r.2, none)
  | .setParams a b c => let r := s.setParams a b c; (r.1, r.2, none)
  | .setGains a b c => let r := s.setGains a b c; (r.1, r.2, none)
  | .setExtraGains a b => let r := s.setExtraGains a b; (r.1, r.2, none)
  | .setSaturation a b => let r := s.setSaturation a b; (r.1, r.2, none)
  | .setSeries => let r := s.setSeries; (r.1, r.2, none)
  | .setEpsilon e => let r := s.setEpsilon e; (r.1, r.2, none)
  | .setDerivativeFilter b => let r := s.setDerivativeFilter b; (r.1, r.2, none)
  | .setDerivativeFilterTimeConstant t =>
    let r := s.setDerivativeFilterTimeConstant t; (r.1, r.2, none)
  | .setMode m => let r := s.setMode m; (r.1, r.2, none)
  | .setReferenceWeighting a b => let r := s.setReferenceWeighting a b; (r.1, r.2, none)
  | .setManualInput v => let r := s.setManualInput v; (r.1, r.2, none)
  | .setModelReferenceControl a b => let r := s.setModelReferenceControl a b; (r.1, r.2, none)
  | .removeModelReferenceControl => let r := s.removeModelReferenceControl; (r.1, r.2, none)
  | .reset => let r := s.reset; (r.1, r.2, none)
  | .bindAutoTuning a => let r := s.bindAutoTuning a; (r.1, r.2, none)
  | .unbindAutoTuning => let r := s.unbindAutoTuning; (r.1, r.2, none)
  | .enableAutoTuning n => let r := s.enableAutoTuning n; (r.1, r.2, none)
  | .setAutoTuningParameters a b c => let r := s.setAutoTuningParameters a b c; (r.1, r.2, none)
  | .setAutoTuningControllerType t => let r := s.setAutoTuningControllerType t; (r.1, r.2, none)
  | .poke g st => ({ s with Kc := g.Kc, Ki := g.Ki, Kd := g.Kd, st := st }, true, none)
  | .control w y yr0 => let r := s.control w y yr0; (r.1, true, some r.2)

/-- The limits in force as an observer of the calls and of their boolean results knows them:
none before the first successful `setup`, `0..100` after a successful `setup`, `lo..hi` after a
successful `setSaturation( lo, hi )`. -/
def Limits.next (lim : Option (R × R)) (op : Op R) (result : Bool) : Option (R × R) :=
  match op, result with
  | .setup _ _ _ _, true => some (lit 0, lit 100)
  | .setSaturation lo hi, true => some (lo, hi)
  | _, _ => lim

/-- What is claimed about one output of `control` called with set-point `w`. -/
def GoodOutput (lim : Option (R × R)) (w u : R) : Prop :=
  match lim with
  | none => u = w
  | some (lo, hi) => isNan u = false → (lo ≤. u) = true ∧ (u ≤. hi) = true

/-- Every output of a sequence of operations is good. -/
def AllGood : Ctl R → Option (R × R) → List (Op R) → Prop
  | _, _, [] => True
  | s, lim, op :: ops =>
    let r := op.run s
    (∀ w y yr0 u, op = .control w y yr0 → r.2.2 = some u → GoodOutput lim w u) ∧
    AllGood r.1 (Limits.next lim op r.2.1) ops

/-- Invariant behind C41. -/
def LimInv (s : Ctl R) (lim : Option (R × R)) : Prop :=
  match lim with
  | none => s.isInitialized = false
  | some (lo, hi) => s.isInitialized = true ∧ s.satMin = lo ∧ s.satMax = hi ∧ (lo <. hi) = true

omit [Trans R] in
theorem saturate_good [LawfulOrd R] {lo hi x : R} (h : (lo <. hi) = true)
    (hn : isNan (saturate x lo hi) = false) :
    (lo ≤. saturate x lo hi) = true ∧ (saturate x lo hi ≤. hi) = true := by
  have ⟨h1, h2⟩ := LawfulOrd.lt_nan h
  unfold saturate at *
  split_ifs at * with h3 h4
  · exact ⟨LawfulOrd.le_of_lt h, LawfulOrd.le_refl h2⟩
  · exact ⟨LawfulOrd.le_refl h1, LawfulOrd.le_of_lt h⟩
  · exact ⟨LawfulOrd.le_of_not_lt hn h1 (by simpa using h4),
      LawfulOrd.le_of_not_lt h2 hn (by simpa using h3)⟩

theorem adaptGains_keeps (s : Ctl R) (a : AutoTuning R) (u y : R) :
    (s.adaptGains a u y).isInitialized = s.isInitialized ∧
    (s.adaptGains a u y).satMin = s.satMin ∧ (s.adaptGains a u y).satMax = s.satMax := by
  unfold Ctl.adaptGains
  dsimp only
  split_ifs <;> exact ⟨rfl, rfl, rfl⟩

theorem control_keeps (s : Ctl R) (w y yr0 : R) :
    (s.control w y yr0).1.isInitialized = s.isInitialized ∧
    (s.control w y yr0).1.satMin = s.satMin ∧ (s.control w y yr0).1.satMax = s.satMax := by
  unfold Ctl.control
  dsimp only
  split_ifs
  · split
    · exact adaptGains_keeps _ _ _ _
    · exact ⟨rfl, rfl, rfl⟩
  · exact ⟨rfl, rfl, rfl⟩

theorem control_out (s : Ctl R) (w y yr0 : R) (h : s.isInitialized = true) :
    ∃ x, (s.control w y yr0).2 = saturate x s.satMin s.satMax := by
  unfold Ctl.control
  dsimp only
  rw [if_pos h]
  split <;> exact ⟨_, rfl⟩

/-- Facts about the state that the setters called by `setup` keep. -/
def Kept (dT a b : R) (s : Ctl R) : Prop :=
  s.isInitialized = true ∧ s.dt = dT ∧ s.satMin = a ∧ s.satMax = b

omit [Trans R] in
theorem setup_eq (s : Ctl R) (kc ki kd dT : R) (h : (lit 0 <. s.dt) = true) :
    ∃ t : Ctl R, s.setup kc ki kd dT = t.reset ∧ t.isInitialized = true ∧ t.dt = dT ∧
      (((lit 0 : R) <. lit 100) = true → t.satMin = lit 0 ∧ t.satMax = lit 100) := by
  unfold Ctl.setup
  rw [if_pos h]
  refine ⟨_, rfl, ?_⟩
  have h0 : Kept dT s.satMin s.satMax { s with dt := dT, isInitialized := true } :=
    ⟨rfl, rfl, rfl, rfl⟩
  generalize { s with dt := dT, isInitialized := true } = s0 at *
  have h1 : ∀ x, Kept dT s.satMin s.satMax (s0.setDerivativeFilter x).1 := by
    intro x; unfold Ctl.setDerivativeFilter; split_ifs
    · exact h0
    · exact h0
  replace h1 := h1 (lit (98 / 100))
  generalize (s0.setDerivativeFilter _).1 = s1 at *
  have h2 : ∀ x, Kept dT s.satMin s.satMax (s1.setEpsilon x).1 := by
    intro x; unfold Ctl.setEpsilon; split_ifs
    · exact h1
    · exact h1
  replace h2 := h2 (lit (1 / 2 ^ 126))
  generalize (s1.setEpsilon _).1 = s2 at *
  have h3 : Kept dT s.satMin s.satMax (s2.setGains kc ki kd).1 := by
    unfold Ctl.setGains; split_ifs
    · exact h2
    · exact h2
  generalize (s2.setGains _ _ _).1 = s3 at *
  have h4 : ∃ a b, Kept dT a b (s3.setSaturation (lit 0) (lit 100)).1 ∧
      (((lit 0 : R) <. lit 100) = true → a = lit 0 ∧ b = lit 100) := by
    unfold Ctl.setSaturation
    rw [h3.1]
    cases hl : ((lit 0 : R) <. lit 100)
    · exact ⟨_, _, h3, by simp⟩
    · exact ⟨_, _, ⟨rfl, h3.2.1, rfl, rfl⟩, fun _ => ⟨rfl, rfl⟩⟩
  obtain ⟨a, b, h4, hl⟩ := h4
  generalize (s3.setSaturation _ _).1 = s4 at *
  have h5 : ∀ x, Kept dT a b (s4.setMode x).1 := by
    intro x; unfold Ctl.setMode; split_ifs
    · exact h4
    · exact h4
  replace h5 := h5 .automatic
  generalize (s4.setMode _).1 = s5 at *
  have h6 : ∀ x, Kept dT a b (s5.setManualInput x).1 := by
    intro x; unfold Ctl.setManualInput; split_ifs
    · exact h5
    · exact h5
  replace h6 := h6 (lit 0)
  generalize (s5.setManualInput _).1 = s6 at *
  have h7 : ∀ x y, Kept dT a b (s6.setExtraGains x y).1 := by
    intro x y; unfold Ctl.setExtraGains; split_ifs
    · exact h6
    · exact h6
  replace h7 := h7 (lit 1) (lit 1)
  generalize (s6.setExtraGains _ _).1 = s7 at *
  have h8 : ∀ x, Kept dT a b (s7.setDirection x).1 := by
    intro x; unfold Ctl.setDirection; split_ifs
    · exact h7
    · exact h7
  replace h8 := h8 .forward
  generalize (s7.setDirection _).1 = s8 at *
  have h9 : ∀ x y, Kept dT a b (s8.setReferenceWeighting x y).1 := by
    intro x y; unfold Ctl.setReferenceWeighting; split_ifs
    · exact h8
    · exact h8
  replace h9 := h9 (lit 1) (lit 0)
  refine ⟨h9.1, h9.2.1, fun h => ⟨h9.2.2.1.trans (hl h).1, h9.2.2.2.trans (hl h).2⟩⟩

omit [Trans R] in
theorem setup_ok [LawfulOrd R] (s : Ctl R) (kc ki kd dT : R) (h : (lit 0 <. s.dt) = true) :
    (s.setup kc ki kd dT).2 = true ∧ (s.setup kc ki kd dT).1.isInitialized = true ∧
    (s.setup kc ki kd dT).1.satMin = lit 0 ∧ (s.setup kc ki kd dT).1.satMax = lit 100 ∧
    (s.setup kc ki kd dT).1.dt = dT := by
  have hl : ((lit 0 : R) <. lit 100) = true := by
    have := LawfulOrd.lit_lt (R := R) (m := 0) (n := 100) (by omega) (by omega) (by omega)
    simpa using this
  obtain ⟨t, he, h1, h2, h3⟩ := setup_eq s kc ki kd dT h
  rw [he]
  unfold Ctl.reset
  rw [if_pos h1]
  exact ⟨rfl, h1, (h3 hl).1, (h3 hl).2, h2⟩

omit [Trans R] in
theorem setup_fail (s : Ctl R) (kc ki kd dT : R) (h : (lit 0 <. s.dt) = false) :
    s.setup kc ki kd dT = (s, false) := by
  unfold Ctl.setup
  rw [if_neg (by simp [h])]

theorem limInv_step [LawfulOrd R] {s : Ctl R} {lim : Option (R × R)} (hs : LimInv s lim)
    (op : Op R) : LimInv (op.run s).1 (Limits.next lim op (op.run s).2.1) := by
  have key : ∀ s' : Ctl R, s'.isInitialized = s.isInitialized → s'.satMin = s.satMin →
      s'.satMax = s.satMax → LimInv s' lim := by
    intro s' h1 h2 h3
    unfold LimInv at *
    cases lim with
    | none => exact h1.trans hs
    | some p => exact ⟨h1.trans hs.1, h2.trans hs.2.1, h3.trans hs.2.2.1, hs.2.2.2⟩
  have keyif : ∀ (c : Prop) [Decidable c] (s' : Ctl R), s'.isInitialized = s.isInitialized →
      s'.satMin = s.satMin → s'.satMax = s.satMax → LimInv (if c then (s', true) else (s, false)).1 lim := by
    intro c _ s' h1 h2 h3
    split_ifs
    · exact key _ h1 h2 h3
    · exact hs
  cases op with
  | setup kc ki kd dT =>
    show LimInv (s.setup kc ki kd dT).1 (Limits.next lim _ (s.setup kc ki kd dT).2)
    cases h : (lit 0 <. s.dt) with
    | true =>
      have ⟨h1, h2, h3, h4, _⟩ := setup_ok s kc ki kd dT h
      rw [h1]
      have hl : ((lit 0 : R) <. lit 100) = true := by
        have := LawfulOrd.lit_lt (R := R) (m := 0) (n := 100) (by omega) (by omega) (by omega)
        simpa using this
      exact ⟨h2, h3, h4, hl⟩
    | false => rw [setup_fail s kc ki kd dT h]; exact hs
  | setSaturation lo hi =>
    show LimInv (s.setSaturation lo hi).1 (Limits.next lim _ (s.setSaturation lo hi).2)
    unfold Ctl.setSaturation
    split_ifs with h
    · simp only [Bool.and_eq_true] at h
      exact ⟨h.1, rfl, rfl, h.2⟩
    · exact hs
  | setDirection d => exact keyif _ _ rfl rfl rfl
  | setParams _ _ _ => exact keyif _ _ rfl rfl rfl
  | setGains _ _ _ => exact keyif _ _ rfl rfl rfl
  | setExtraGains _ _ => exact keyif _ _ rfl rfl rfl
  | setSeries => exact keyif _ _ rfl rfl rfl
  | setEpsilon _ => exact keyif _ _ rfl rfl rfl
  | setDerivativeFilter _ => exact keyif _ _ rfl rfl rfl
  | setDerivativeFilterTimeConstant _ => exact keyif _ _ rfl rfl rfl
  | setMode _ => exact keyif _ _ rfl rfl rfl
  | setReferenceWeighting _ _ => exact keyif _ _ rfl rfl rfl
  | setManualInput _ => exact keyif _ _ rfl rfl rfl
  | setModelReferenceControl _ _ => exact keyif _ _ rfl rfl rfl
  | removeModelReferenceControl => exact keyif _ _ rfl rfl rfl
  | reset => exact keyif _ _ rfl rfl rfl
  | bindAutoTuning _ => exact keyif _ _ rfl rfl rfl
  | unbindAutoTuning => exact key _ rfl rfl rfl
  | poke _ _ => exact key _ rfl rfl rfl
  | enableAutoTuning n =>
    show LimInv (s.enableAutoTuning n).1 lim
    unfold Ctl.enableAutoTuning; split
    · exact key _ rfl rfl rfl
    · exact hs
  | setAutoTuningControllerType n =>
    show LimInv (s.setAutoTuningControllerType n).1 lim
    unfold Ctl.setAutoTuningControllerType; split
    · exact key _ rfl rfl rfl
    · exact hs
  | setAutoTuningParameters a b c =>
    show LimInv (s.setAutoTuningParameters a b c).1 lim
    unfold Ctl.setAutoTuningParameters; split
    · exact keyif _ _ rfl rfl rfl
    · exact hs
  | control w y yr0 =>
    have ⟨h1, h2, h3⟩ := control_keeps s w y yr0
    exact key _ h1 h2 h3

theorem allGood_of_inv [LawfulOrd R] (ops : List (Op R)) (s : Ctl R) (lim : Option (R × R))
    (hs : LimInv s lim) : AllGood s lim ops := by
  induction ops generalizing s lim with
  | nil => trivial
  | cons op ops ih =>
    refine ⟨?_, ih _ _ (limInv_step hs op)⟩
    rintro w y yr0 u rfl hu
    simp only [Op.run, Option.some.injEq] at hu
    subst hu
    unfold GoodOutput
    unfold LimInv at hs
    cases lim with
    | none =>
      simp only at hs ⊢
      unfold Ctl.control
      rw [if_neg (by simp [hs])]
    | some p =>
      obtain ⟨lo, hi⟩ := p
      simp only at hs ⊢
      obtain ⟨x, hx⟩ := control_out s w y yr0 hs.1
      rw [hx, hs.2.1, hs.2.2.1]
      exact saturate_good hs.2.2.2

/-- **C41** for every arithmetic (any rounding) and every sequence of calls on a new controller,
each output of `control` lies within the limits set by the last successful `setSaturation`/`setup`
(unless it is NaN), and equals the set-point as long as no `setup` succeeded. -/
theorem C41_saturation [LawfulOrd R] (s : Ctl R) (hs : Fresh s) (ops : List (Op R)) :
    AllGood s none ops :=
  allGood_of_inv ops s none hs.1

omit [Trans R] in
/-- **C42** (partial: the claim has "iff the *given* time step is positive") the code tests the time
step that was stored before the call; on success the given one is stored unchecked, on failure
nothing changes. -/
theorem C42_setup_partial [LawfulOrd R] (s : Ctl R) (kc ki kd dT : R) :
    ((s.setup kc ki kd dT).2 = true ↔ (lit 0 <. s.dt) = true) ∧
    ((s.setup kc ki kd dT).2 = true → (s.setup kc ki kd dT).1.dt = dT ∧
      (s.setup kc ki kd dT).1.isInitialized = true) ∧
    ((s.setup kc ki kd dT).2 = false → (s.setup kc ki kd dT).1 = s) := by
  cases h : (lit 0 <. s.dt) with
  | true =>
    have ⟨h1, h2, _, _, h5⟩ := setup_ok s kc ki kd dT h
    simp [h1, h2, h5]
  | false => rw [setup_fail s kc ki kd dT h]; simp

omit [Trans R] in
/-- **C42 is false of the code**, in every arithmetic: on a new controller `setup` succeeds for
every time step, including negative ones; and after such a call the same `setup` with a positive
time step fails. -/
theorem C42_setup_false [LawfulOrd R] (s : Ctl R) (hs : Fresh s) (kc ki kd dT dT' : R) :
    (s.setup kc ki kd dT).2 = true ∧
    ((dT <. lit 0) = true → ((s.setup kc ki kd dT).1.setup kc ki kd dT').2 = false) := by
  have hl : ((lit 0 : R) <. lit 1) = true := by
    have := LawfulOrd.lit_lt (R := R) (m := 0) (n := 1) (by omega) (by omega) (by omega)
    simpa using this
  have ⟨h1, _, _, _, h5⟩ := setup_ok s kc ki kd dT (by rw [hs.2.1]; exact hl)
  refine ⟨h1, fun hneg => ?_⟩
  rw [setup_fail _ _ _ _ _]
  rw [h5]
  exact LawfulOrd.not_lt_of_le (LawfulOrd.le_of_lt hneg)

/-- Operations that configure the controller, other than `setup` itself. -/
def Op.isConfig : Op R → Bool
  | .setup _ _ _ _ => false
  | .poke _ _ => false
  | .control _ _ _ => false
  | _ => true

/-- **C42** (second half, as claimed) before `setup`, every configuration call fails and changes
nothing, and `control` changes nothing either. -/
theorem C42_setters_before_setup (s : Ctl R) (hs : Fresh s) (op : Op R) :
    (op.isConfig = true → (op.run s).1 = s ∧ (op.run s).2.1 = false) ∧
    (∀ w y yr0, (s.control w y yr0).1 = s) := by
  obtain ⟨h1, h2, h3, h4, h5, h6⟩ := hs
  constructor
  · intro hc
    obtain ⟨_, _, _, _, _, _, _, _, _, _, _, _, _, _, _, _, _, _, _, _, _, _, _, ad, _, _, ini⟩ := s
    subst h1 h4
    cases op <;> first | (exact ⟨rfl, rfl⟩) | (simp [Op.isConfig] at hc)
  · intro w y yr0
    unfold Ctl.control
    rw [if_neg (by simp [h1])]

/-! ## C43 -/

/-- The estimate of the time constant and of the gain that one estimation step produces: the newly
identified parameters `b1`, `a1` of `y[k] = b1 u[k-1] - a1 y[k-1]` have gain `b1/(1+a1)` and time
constant `-dt/log|a1|`. -/
def estimate (a : AutoTuning R) (u y dt : R) : R × R :=
  let a' := a.identify u y
  (Arith.neg dt /. Trans.log (absf a'.a1), a'.b1 /. (lit 1 +. a'.a1))

/-- Both estimates are positive, finite numbers. -/
def bothValid (e : R × R) : Bool :=
  (!isNan e.1 && (lit 0 <. e.1) && !isInf e.1) && (!isNan e.2 && (lit 0 <. e.2) && !isInf e.2)

/-- The estimation step is accepted: it gives positive, finite estimates. -/
def accepted (a : AutoTuning R) (u y dt : R) : Bool := bothValid (estimate a u y dt)

omit [Trans R] in
theorem bothValid_eq (e : R × R) : bothValid e = (isValidValue e.1 && isValidValue e.2) := rfl

theorem step_spec (a : AutoTuning R) (u y dt : R) :
    (a.step u y dt).1.it = (if accepted a u y dt && decide (0#32 < a.it) then a.it - 1#32 else a.it) ∧
    ((a.step u y dt).2 = true ↔ accepted a u y dt = true ∧ a.it = 1#32) := by
  unfold accepted
  rw [bothValid_eq]
  have h1 : ∀ b : BitVec 32, (decide (0#32 < b) = true ∧ (decide (0#32 = b - 1#32) &&
      decide (UNDEFINED ≠ b - 1#32)) = true) ↔ b = 1#32 := by
    intro b
    simp only [Bool.and_eq_true, decide_eq_true_eq, UNDEFINED]
    constructor
    · rintro ⟨_, h, _⟩
      have := BitVec.sub_add_cancel b 1#32
      rw [← h] at this; rw [← this]; rfl
    · rintro rfl; refine ⟨by decide, by decide, by decide⟩
  have hk := h1 a.it
  have h0 : a.it = 1#32 → 0#32 < a.it := by intro h; rw [h]; decide
  have hi : a.it = (a.identify u y).it := rfl
  rw [hi] at hk h0 ⊢
  unfold estimate AutoTuning.step
  generalize a.identify u y = a at *
  dsimp only
  generalize isValidValue (Arith.neg dt /. Trans.log (absf a.a1)) = bT
  generalize isValidValue (a.b1 /. (lit 1 +. a.a1)) = bG
  cases bT <;> cases bG <;> by_cases hc : 0#32 < a.it <;>
    simp only [hc, decide_true, decide_false, Bool.and_true, Bool.and_false, if_true,
      Bool.false_eq_true, if_false, true_and, false_and] at hk ⊢
  · exact hk
  · exact ⟨False.elim, fun h => hc (h0 h)⟩

/-- The gains of a controller. -/
def gains (s : Ctl R) : Gains R := ⟨s.Kc, s.Ki, s.Kd⟩

theorem adaptGains_adapt (s : Ctl R) (a : AutoTuning R) (u y : R) :
    (s.adaptGains a u y).adapt = some (a.step u y s.dt).1 ∧
    gains (s.adaptGains a u y) =
      (if (a.step u y s.dt).2 then (a.step u y s.dt).1.getEstimates else gains s) ∧
    (s.adaptGains a u y).dt = s.dt := by
  unfold Ctl.adaptGains gains
  dsimp only
  split_ifs <;> exact ⟨rfl, rfl, rfl⟩

theorem control_adapt (s : Ctl R) (w y yr0 : R) :
    (s.control w y yr0).1.dt = s.dt ∧
    (s.control w y yr0).1.isInitialized = s.isInitialized ∧
    (s.isInitialized = true → (s.control w y yr0).1.adapt
      = s.adapt.map (fun a => (a.step (s.control w y yr0).2 y s.dt).1)) ∧
    gains (s.control w y yr0).1 = (match s.adapt with
      | some a => if s.isInitialized && (a.step (s.control w y yr0).2 y s.dt).2 then
          (a.step (s.control w y yr0).2 y s.dt).1.getEstimates else gains s
      | none => gains s) := by
  refine ⟨?_, (control_keeps s w y yr0).1, ?_, ?_⟩
  · unfold Ctl.control; dsimp only; split_ifs
    · split
      · exact (adaptGains_adapt _ _ _ _).2.2
      · rfl
    · rfl
  · intro hi
    unfold Ctl.control; dsimp only; rw [if_pos hi]
    cases ha : s.adapt with
    | some a => exact (adaptGains_adapt _ _ _ _).1
    | none => simp
  · unfold Ctl.control; dsimp only
    cases ha : s.adapt with
    | some a =>
      by_cases hi : s.isInitialized = true
      · simp only [hi, if_true, Bool.true_and]
        exact (adaptGains_adapt _ _ _ _).2.1
      · simp [hi]
    | none => split_ifs <;> rfl

/-- **C43** one call of `control` leaves the gains unchanged, except when an auto-tuner is bound,
its countdown stands at 1 and the estimate of this step is accepted; the gains are then those
computed from the estimates, and the countdown is at zero. -/
theorem C43_gains (s : Ctl R) (w y yr0 : R) :
    gains (s.control w y yr0).1 = gains s ∨
    ∃ a, s.adapt = some a ∧ s.isInitialized = true ∧ a.it = 1#32 ∧
      accepted a (s.control w y yr0).2 y s.dt = true ∧
      ∃ a', (s.control w y yr0).1.adapt = some a' ∧ a'.it = 0#32 ∧
        gains (s.control w y yr0).1 = a'.getEstimates := by
  have ⟨_, _, h3, h4⟩ := control_adapt s w y yr0
  cases ha : s.adapt with
  | none => left; rw [h4, ha]
  | some a =>
    rw [ha] at h4
    dsimp only at h4
    by_cases hc : (s.isInitialized && (a.step (s.control w y yr0).2 y s.dt).2) = true
    · right
      have hc' := hc
      rw [Bool.and_eq_true] at hc'
      have ⟨hi, hr⟩ := hc'
      have hs := step_spec a (s.control w y yr0).2 y s.dt
      have ⟨hacc, hit⟩ := hs.2.mp hr
      refine ⟨a, rfl, hi, hit, hacc, (a.step (s.control w y yr0).2 y s.dt).1, ?_, ?_, ?_⟩
      · rw [h3 hi, ha]; rfl
      · rw [hs.1, hacc, hit]; rfl
      · rw [h4, if_pos hc]
    · left; rw [h4, if_neg hc]

/-- Run `control` on a list of `(w, y, yr0)`; also count the accepted estimation steps. -/
def drive (s : Ctl R) : List (R × R × R) → Ctl R × ℕ
  | [] => (s, 0)
  | (w, y, r) :: l =>
    let acc := match s.adapt with
      | some a => if accepted a (s.control w y r).2 y s.dt then 1 else 0
      | none => 0
    let t := drive (s.control w y r).1 l
    (t.1, acc + t.2)

/-- **C43** the countdown: after `enableAutoTuning( n )` with `n > 0` and any number of calls of
`control`, the tuner has `n` minus the number of accepted estimation steps left (never below 0),
tuning is reported complete exactly when at least `n` steps were accepted, and as long as fewer than
`n` were accepted the gains are untouched. -/
theorem C43_countdown (s : Ctl R) (hi : s.isInitialized = true) (a : AutoTuning R)
    (ha : s.adapt = some a) (n : BitVec 32) (hn : n ≠ 0#32) (l : List (R × R × R)) :
    let s0 := (s.enableAutoTuning n).1
    let t := drive s0 l
    (∃ a', t.1.adapt = some a' ∧ a'.it.toNat = n.toNat - t.2) ∧
    (t.1.isAutoTuningComplete = true ↔ n.toNat ≤ t.2) ∧
    (t.2 < n.toNat → gains t.1 = gains s) := by
  have main : ∀ (l : List (R × R × R)) (s : Ctl R) (a : AutoTuning R), s.isInitialized = true →
      s.adapt = some a →
      (∃ a', (drive s l).1.adapt = some a' ∧ a'.it.toNat = a.it.toNat - (drive s l).2) ∧
      ((drive s l).2 < a.it.toNat → gains (drive s l).1 = gains s) := by
    intro l
    induction l with
    | nil => intro s a _ ha; exact ⟨⟨a, ha, rfl⟩, fun _ => rfl⟩
    | cons x l ih =>
      obtain ⟨w, y, r⟩ := x
      intro s a hi ha
      have ⟨_, h2, h3, h4⟩ := control_adapt s w y r
      have h3' := h3 hi
      rw [ha] at h3' h4
      have ⟨hs1, hs2⟩ := step_spec a (s.control w y r).2 y s.dt
      have ⟨⟨a', i1, i2⟩, i3⟩ := ih (s.control w y r).1 (a.step (s.control w y r).2 y s.dt).1
        (by rw [h2, hi]) h3'
      have hpos : ¬ 0#32 < a.it ↔ a.it.toNat = 0 := by
        rw [BitVec.lt_def]; simp
      have hit : (a.step (s.control w y r).2 y s.dt).1.it.toNat
          = a.it.toNat - (if accepted a (s.control w y r).2 y s.dt then 1 else 0) := by
        rw [hs1]
        by_cases hacc : accepted a (s.control w y r).2 y s.dt = true
        · by_cases hz : 0#32 < a.it
          · simp only [hacc, hz, decide_true, Bool.and_true, if_true]
            rw [BitVec.lt_def] at hz
            have := a.it.isLt
            simp only [BitVec.toNat_ofNat] at hz
            rw [BitVec.toNat_sub]
            simp only [BitVec.toNat_ofNat]
            omega
          · have := hpos.mp hz
            simp only [hacc, hz, decide_false, Bool.and_false, if_true]
            simp [this]
        · simp [hacc]
      simp only [drive, ha]
      constructor
      · refine ⟨a', i1, ?_⟩
        rw [i2, hit]; omega
      · intro hlt
        rw [i3 (by rw [hit]; omega), h4]
        dsimp only
        have : (a.step (s.control w y r).2 y s.dt).2 = false := by
          rw [Bool.eq_false_iff]
          intro h
          have ⟨k1, k2⟩ := hs2.mp h
          rw [k2] at hlt
          simp [k1] at hlt
        rw [this]; simp
  have hen : (s.enableAutoTuning n).1 = { s with adapt := some { a with it := n } } := by
    unfold Ctl.enableAutoTuning AutoTuning.enable
    rw [ha]
    have : ¬ (0#32 = n) := fun h => hn h.symm
    simp [this]
  dsimp only
  rw [hen]
  have ⟨⟨a', h1, h2⟩, h3⟩ := main l { s with adapt := some { a with it := n } } { a with it := n }
    hi rfl
  refine ⟨⟨a', h1, h2⟩, ?_, h3⟩
  unfold Ctl.isAutoTuningComplete
  rw [h1]
  dsimp only at h2 ⊢
  unfold AutoTuning.isComplete UNDEFINED
  constructor
  · intro h
    simp only [Bool.and_eq_true, decide_eq_true_eq] at h
    rw [← h.1] at h2
    simp at h2; omega
  · intro h
    have : a'.it = 0#32 := BitVec.eq_of_toNat_eq (by rw [h2]; simp; omega)
    rw [this]; decide

/-- **C43 is false of the code** for `enableAutoTuning( 0 )`, which is documented to disable tuning:
it is the same as enabling "indefinitely" (`UNDEFINED`), tuning goes on (an accepted step still
counts down), and "indefinitely" itself ends after 2^32 - 2 accepted steps. -/
theorem C43_enable_zero_false (s : Ctl R) (hi : s.isInitialized = true) (a : AutoTuning R)
    (ha : s.adapt = some a) (l : List (R × R × R)) :
    s.enableAutoTuning 0#32 = s.enableAutoTuning UNDEFINED ∧
    ((drive (s.enableAutoTuning 0#32).1 l).1.isAutoTuningComplete = true ↔
      4294967294 ≤ (drive (s.enableAutoTuning 0#32).1 l).2) := by
  have h : s.enableAutoTuning 0#32 = s.enableAutoTuning UNDEFINED := by
    unfold Ctl.enableAutoTuning AutoTuning.enable; rw [ha]; rfl
  refine ⟨h, ?_⟩
  rw [h]
  have hu : UNDEFINED.toNat = 4294967294 := by unfold UNDEFINED; rw [BitVec.toNat_ofNat]
  have := (C43_countdown s hi a ha UNDEFINED (by decide) l).2.1
  rw [hu] at this
  exact this

end AnyArithmetic

/-! ## C44 -/

section Exact
variable {K : Type u} [Field K] [LinearOrder K] [IsStrictOrderedRing K] [Trans K]

/-- State after the first `n` calls of `control` on the signals `w`, `y` (model reference `r`). -/
def after {R : Type u} [Arith R] [Trans R] (s : Ctl R) (w y r : ℕ → R) : ℕ → Ctl R
  | 0 => s
  | n + 1 => ((after s w y r n).control (w n) (y n) (r n)).1

/-- Previous error `w - y` (zero before the first sample). -/
def ePrev (w y : ℕ → K) : ℕ → K
  | 0 => 0
  | n + 1 => w n - y n

/-- Trapezoidal integral of the error `w - y` up to sample `n`, starting from zero. -/
def integral (w y : ℕ → K) (dt : K) (n : ℕ) : K :=
  ∑ i ∈ Finset.range (n + 1), (w i - y i + ePrev w y i) / 2 * dt

/-- Output of the first-order filter `D_n = (1-β) d_n + β D_{n-1}` driven by `d` from rest. -/
def filtered (β : K) (d : ℕ → K) (n : ℕ) : K :=
  ∑ i ∈ Finset.range (n + 1), (1 - β) * β ^ (n - i) * d i

/-- The control law, with derivative input `d`. -/
def law (Kc Ki Kd b β dt : K) (w y d : ℕ → K) (n : ℕ) : K :=
  Kc * (b * w n - y n) + Ki * integral w y dt n + Kd * filtered β d n

omit [LinearOrder K] [IsStrictOrderedRing K] [Trans K] in
theorem filtered_succ (β : K) (d : ℕ → K) (n : ℕ) :
    filtered β d (n + 1) = d (n + 1) + β * (filtered β d n - d (n + 1)) := by
  unfold filtered
  rw [Finset.sum_range_succ, Nat.sub_self, mul_sub, Finset.mul_sum]
  have : ∀ i ∈ Finset.range (n + 1), (1 - β) * β ^ (n + 1 - i) * d i
      = β * ((1 - β) * β ^ (n - i) * d i) := by
    intro i hi
    rw [Finset.mem_range] at hi
    rw [show n + 1 - i = (n - i) + 1 by omega, pow_succ]; ring
  rw [Finset.sum_congr rfl this]
  ring

omit [LinearOrder K] [IsStrictOrderedRing K] [Trans K] in
theorem filtered_zero (β : K) (d : ℕ → K) :
    filtered β d 0 = d 0 + β * (0 - d 0) := by
  unfold filtered
  simp; ring

omit [LinearOrder K] [IsStrictOrderedRing K] [Trans K] in
theorem integral_succ (w y : ℕ → K) (dt : K) (n : ℕ) :
    integral w y dt (n + 1) = integral w y dt n + (w (n + 1) - y (n + 1) + (w n - y n)) / 2 * dt := by
  unfold integral
  rw [Finset.sum_range_succ]; rfl

/-- The controller is in automatic mode, forward direction, trapezoidal/two-point methods, without
model reference and adaptation, freshly reset. -/
structure Ready (s : Ctl K) : Prop where
  init : s.isInitialized = true
  mode : s.mode = .automatic
  dir : s.dir = .forward
  yr : s.yr = false
  adapt : s.adapt = none
  im : s.st.iMethod = .trapezoidal
  dm : s.st.dMethod = .twoPoints
  rest : s.st.x0 = 0 ∧ s.st.x1 = 0 ∧ s.D = 0 ∧ s.u1 = 0

omit [IsStrictOrderedRing K] [Trans K] in
theorem error_eq (s : Ctl K) (w y k : K) (h : |k * w - y| ≤ s.epsilon → k * w - y = 0) :
    s.error w y k = k * w - y := by
  simp only [Ctl.error, fSub, fMul, fAbs, fLe, fLit, decide_eq_true_eq]
  split_ifs with hc
  · rw [h hc]; simp
  · rfl

omit [IsStrictOrderedRing K] [Trans K] in
theorem saturate_id (x lo hi : K) (h : lo ≤ x ∧ x ≤ hi) : saturate x lo hi = x := by
  simp [saturate, not_lt.mpr h.1, not_lt.mpr h.2]

/-- The derivative input that the code uses: the reference-weighted error minus the *unweighted*
previous error. -/
def derivInput (c dt : K) (w y : ℕ → K) (n : ℕ) : K := (c * w n - y n - ePrev w y n) / dt

/-- **C44** (what the code computes, for every reference weighting `b`, `c`) in exact arithmetic, as
long as neither the dead zone nor the saturation acts, output `n` of a rested controller in
automatic mode is the law `Kc(b w - y) + Ki ∫e + Kd D`, where the derivative filter is driven by
`(c w_n - y_n - (w_{n-1} - y_{n-1})) / dt`. -/
theorem C44_actual (s : Ctl K) (hs : Ready s) (w y r : ℕ → K) (n : ℕ)
    (hdz : ∀ i, i ≤ n → ∀ k, (k = 1 ∨ k = s.b ∨ k = s.c) →
      |k * w i - y i| ≤ s.epsilon → k * w i - y i = 0)
    (hsat : ∀ i, i ≤ n →
      s.satMin ≤ law s.Kc s.Ki s.Kd s.b s.beta s.dt w y (derivInput s.c s.dt w y) i ∧
      law s.Kc s.Ki s.Kd s.b s.beta s.dt w y (derivInput s.c s.dt w y) i ≤ s.satMax) :
    ((after s w y r n).control (w n) (y n) (r n)).2 =
      law s.Kc s.Ki s.Kd s.b s.beta s.dt w y (derivInput s.c s.dt w y) n := by
  have one : ∀ t : Ctl K, ∀ wn yn rn ie de D v : K, t.isInitialized = true → t.mode = .automatic →
      t.dir = .forward → t.yr = false → t.adapt = none → t.st.iMethod = .trapezoidal →
      t.st.dMethod = .twoPoints → t.u1 = 0 →
      (∀ k, (k = 1 ∨ k = t.b ∨ k = t.c) → |k * wn - yn| ≤ t.epsilon → k * wn - yn = 0) →
      de = (t.c * wn - yn - t.st.x1) / t.dt → D = de + t.beta * (t.D - de) →
      ie = t.st.x0 + (wn - yn + t.st.x1) / 2 * t.dt →
      v = t.Kc * (t.b * wn - yn) + t.Ki * ie + t.Kd * D → t.satMin ≤ v ∧ v ≤ t.satMax →
      (t.control wn yn rn).2 = v ∧
      ∃ t', (t.control wn yn rn).1 = t' ∧ t'.Kc = t.Kc ∧ t'.Ki = t.Ki ∧ t'.Kd = t.Kd ∧ t'.b = t.b ∧
        t'.c = t.c ∧ t'.beta = t.beta ∧ t'.dt = t.dt ∧ t'.satMin = t.satMin ∧
        t'.satMax = t.satMax ∧ t'.epsilon = t.epsilon ∧ t'.isInitialized = true ∧
        t'.mode = .automatic ∧ t'.dir = .forward ∧ t'.yr = false ∧ t'.adapt = none ∧
        t'.st.iMethod = .trapezoidal ∧ t'.st.dMethod = .twoPoints ∧ t'.u1 = 0 ∧
        t'.st.x1 = wn - yn ∧ t'.st.x0 = ie ∧ t'.D = D := by
    intro t wn yn rn ie de D v h1 h2 h3 h4 h5 h6 h7 h8 hdz hde hD hie hv hsat
    have e1 : t.error wn yn (lit 1) = wn - yn := by
      have := error_eq t wn yn 1 (hdz 1 (Or.inl rfl))
      simpa using this
    have e2 := error_eq t wn yn t.b (hdz _ (Or.inr (Or.inl rfl)))
    have e3 := error_eq t wn yn t.c (hdz _ (Or.inr (Or.inr rfl)))
    have hm : ∀ v', t.mrac v' wn yn rn = (t.mState, v') := by
      intro v'; unfold Ctl.mrac; rw [if_neg (by simp [h4])]
    have hg : t.effective = ⟨t.Kc, t.Ki, t.Kd⟩ := by unfold Ctl.effective; rw [h3]
    have hder : t.st.derive (t.error wn yn t.c) t.dt false = (t.st, de) := by
      rw [e3]; simp only [NState.derive, h7, fSub, fDiv, ← hde]; rfl
    have hint : t.st.integrate (t.error wn yn (lit 1) +. t.u1) t.dt
        = (⟨ie, wn - yn, t.st.x1, .trapezoidal, .twoPoints⟩, ie) := by
      have : t.st.x0 + ((1 / 2 : ℚ) : K) * (wn - yn + t.st.x1) * t.dt = ie := by
        rw [hie]; push_cast; ring
      rw [e1, h8]
      simp only [NState.integrate, NState.update, h6, h7, fAdd, fMul, fLit, add_zero, if_true, this]
    have hv' : t.Kc *. (t.b * wn - yn) +. t.Ki *. ie +. t.Kd *. D = v := by
      simp only [fAdd, fMul]
      rw [hv]
    have hD' : de +. t.beta *. (t.D -. de) = D := by
      simp only [fAdd, fMul, fSub]; rw [hD]
    unfold Ctl.control
    rw [if_pos h1]
    simp only [hg, hder, hint, e2, hm, h2, h5, hv', hD', saturate_id v _ _ hsat]
    refine ⟨trivial, _, rfl, rfl, rfl, rfl, rfl, rfl, rfl, rfl, rfl, rfl, rfl, h1, rfl, h3, h4, rfl, rfl,
      rfl, ?_, rfl, rfl, rfl⟩
    simp

  have main : ∀ m, m ≤ n → ∃ t, after s w y r m = t ∧ t.Kc = s.Kc ∧ t.Ki = s.Ki ∧ t.Kd = s.Kd ∧
      t.b = s.b ∧ t.c = s.c ∧ t.beta = s.beta ∧ t.dt = s.dt ∧ t.satMin = s.satMin ∧
      t.satMax = s.satMax ∧ t.epsilon = s.epsilon ∧ t.isInitialized = true ∧
      t.mode = .automatic ∧ t.dir = .forward ∧ t.yr = false ∧ t.adapt = none ∧
      t.st.iMethod = .trapezoidal ∧ t.st.dMethod = .twoPoints ∧ t.u1 = 0 ∧
      t.st.x1 = ePrev w y m ∧
      t.st.x0 + (w m - y m + ePrev w y m) / 2 * s.dt = integral w y s.dt m ∧
      derivInput s.c s.dt w y m + s.beta * (t.D - derivInput s.c s.dt w y m) =
        filtered s.beta (derivInput s.c s.dt w y) m := by
    intro m
    induction m with
    | zero =>
      intro _
      refine ⟨s, rfl, rfl, rfl, rfl, rfl, rfl, rfl, rfl, rfl, rfl, rfl, hs.init, hs.mode, hs.dir,
        hs.yr, hs.adapt, hs.im, hs.dm, hs.rest.2.2.2, hs.rest.2.1, ?_, ?_⟩
      · simp [integral, hs.rest.1]
      · rw [filtered_zero, hs.rest.2.2.1]
    | succ m ih =>
      intro hm
      obtain ⟨t, ht, k1, k2, k3, k4, k5, k6, k7, k8, k9, k10, k11, k12, k13, k14, k15, k16, k17, k18,
        k19, k20, k21⟩ := ih (by omega)
      have ho := one t (w m) (y m) (r m) (integral w y s.dt m) (derivInput s.c s.dt w y m)
        (filtered s.beta (derivInput s.c s.dt w y) m)
        (law s.Kc s.Ki s.Kd s.b s.beta s.dt w y (derivInput s.c s.dt w y) m)
        k11 k12 k13 k14 k15 k16 k17 k18 (by rw [k4, k5, k10]; exact hdz m (by omega))
        (by rw [k5, k7, k19]; rfl) (by rw [k6]; exact k21.symm) (by rw [k19, k7]; exact k20.symm)
        (by rw [k1, k2, k3, k4]; rfl) (by rw [k8, k9]; exact hsat m (by omega))
      obtain ⟨_, t', ht', j1, j2, j3, j4, j5, j6, j7, j8, j9, j10, j11, j12, j13, j14, j15, j16, j17,
        j18, j19, j20, j21⟩ := ho
      refine ⟨t', by rw [after, ht, ht'], j1.trans k1, j2.trans k2, j3.trans k3, j4.trans k4,
        j5.trans k5, j6.trans k6, j7.trans k7, j8.trans k8, j9.trans k9, j10.trans k10, j11, j12, j13,
        j14, j15, j16, j17, j18, j19, ?_, ?_⟩
      · rw [j20, integral_succ]; rfl
      · rw [j21, filtered_succ]
  obtain ⟨t, ht, k1, k2, k3, k4, k5, k6, k7, k8, k9, k10, k11, k12, k13, k14, k15, k16, k17, k18,
    k19, k20, k21⟩ := main n le_rfl
  rw [ht]
  exact (one t (w n) (y n) (r n) (integral w y s.dt n) (derivInput s.c s.dt w y n)
    (filtered s.beta (derivInput s.c s.dt w y) n)
    (law s.Kc s.Ki s.Kd s.b s.beta s.dt w y (derivInput s.c s.dt w y) n)
    k11 k12 k13 k14 k15 k16 k17 k18 (by rw [k4, k5, k10]; exact hdz n le_rfl)
    (by rw [k5, k7, k19]; rfl) (by rw [k6]; exact k21.symm) (by rw [k19, k7]; exact k20.symm)
    (by rw [k1, k2, k3, k4]; rfl) (by rw [k8, k9]; exact hsat n le_rfl)).1

/-- The derivative input of the documented law: backward difference of the weighted error. -/
def derivSpec (c dt : K) (w y : ℕ → K) : ℕ → K
  | 0 => (c * w 0 - y 0) / dt
  | n + 1 => ((c * w (n + 1) - y (n + 1)) - (c * w n - y n)) / dt

/-- **C44** (partial: needs `c = 1`, while `setup` sets `c = 0`) the documented control law. -/
theorem C44_law_partial (s : Ctl K) (hs : Ready s) (hc : s.c = 1) (w y r : ℕ → K) (n : ℕ)
    (hdz : ∀ i, i ≤ n → ∀ k, (k = 1 ∨ k = s.b) →
      |k * w i - y i| ≤ s.epsilon → k * w i - y i = 0)
    (hsat : ∀ i, i ≤ n →
      s.satMin ≤ law s.Kc s.Ki s.Kd s.b s.beta s.dt w y (derivSpec s.c s.dt w y) i ∧
      law s.Kc s.Ki s.Kd s.b s.beta s.dt w y (derivSpec s.c s.dt w y) i ≤ s.satMax) :
    ((after s w y r n).control (w n) (y n) (r n)).2 =
      law s.Kc s.Ki s.Kd s.b s.beta s.dt w y (derivSpec s.c s.dt w y) n := by
  have hd : derivSpec s.c s.dt w y = derivInput s.c s.dt w y := by
    funext i
    cases i with
    | zero => simp [derivSpec, derivInput, ePrev]
    | succ i => simp [derivSpec, derivInput, ePrev, hc]
  rw [hd] at hsat ⊢
  refine C44_actual s hs w y r n ?_ hsat
  intro i hi k hk
  refine hdz i hi k ?_
  rcases hk with h | h | h
  · exact Or.inl h
  · exact Or.inr h
  · exact Or.inl (h.trans hc)

/-- **C44** (direction) in backward direction the controller acts as a forward controller whose gains
are `-|Kc|`, `-|Ki|`, `-|Kd|`. -/
theorem C44_backward (s : Ctl K) (h : s.dir = .backward) (w y r : K) :
    (s.control w y r).2 =
      (({ s with dir := .forward, Kc := -|s.Kc|, Ki := -|s.Ki|, Kd := -|s.Kd| } : Ctl K).control
        w y r).2 := by
  have hk : ∀ k : K, (if (lit 0 <. k) = true then Arith.neg k else k) = -|k| := by
    intro k
    simp only [fLit, fLt, fNeg, Rat.cast_zero, decide_eq_true_eq]
    split_ifs with h
    · rw [abs_of_pos h]
    · rw [abs_of_nonpos (not_lt.mp h), neg_neg]
  have hg : s.effective = ⟨-|s.Kc|, -|s.Ki|, -|s.Kd|⟩ := by
    unfold Ctl.effective; rw [h]; simp only [hk]
  have hm : ∀ v, s.mrac v w y r =
      ({ s with dir := .forward, Kc := -|s.Kc|, Ki := -|s.Ki|, Kd := -|s.Kd| } : Ctl K).mrac v w y r :=
    fun _ => rfl
  by_cases hi : s.isInitialized = true
  · unfold Ctl.control
    rw [if_pos hi, if_pos hi, hg]
    simp only [hm]
    cases s.adapt <;> rfl
  · unfold Ctl.control
    rw [if_neg hi, if_neg hi]

end Exact

/-- An instance of `Trans` used by the concrete examples only (none of them reaches a
transcendental function). -/
@[reducible] def noTrans : Trans ℚ where
  exp := id
  log := id
  sqrt := id
  sin := id
  cos := id
  tanh := id
  pow := fun a _ => a

section Witness
attribute [local instance] noTrans

/-- A new controller over the rationals, uninitialised members set to 7. -/
def fresh0 : Ctl ℚ :=
  { Kc := 7, Ki := 7, Kd := 7, st := NState.new, b := 7, c := 7, satMin := 7, satMax := 7,
    epsilon := 7, kw := 7, kt := 7, D := 7, u1 := 7, beta := 7, uSat := 7, dt := 1, m := 7,
    mInput := 7, yr := false, alpha := 7, gamma := 7, mState := NState.new, bState := NState.new,
    adapt := none, mode := .automatic, dir := .forward, isInitialized := false }

example : Fresh fresh0 := ⟨rfl, by simp [fresh0], rfl, rfl, rfl, rfl⟩

/-- A PD controller (`Kd = 1`, `Kc = Ki = 0`, no filter, limits ±1000) right after `setup`, with the
default weights `b = 1`, `c = 0`. -/
def pd0 : Ctl ℚ :=
  ((((fresh0.setup 0 0 1 1).1.setDerivativeFilter 0).1).setSaturation (-1000) 1000).1

/-- **C44 is false of the code** with the default weight `c = 0`: a constant process value 5 (equal
to a constant set-point) has derivative zero, but from the second call on the derivative action is
`-5` in each call instead of `0`. -/
theorem C44_default_weight_false :
    Ready pd0 ∧ pd0.c = 0 ∧
    ((after pd0 (fun _ => 5) (fun _ => 5) (fun _ => 0) 1).control 5 5 0).2 = -5 ∧
    law pd0.Kc pd0.Ki pd0.Kd pd0.b pd0.beta pd0.dt (fun _ => 5) (fun _ => 5)
      (derivSpec pd0.c pd0.dt (fun _ => 5) (fun _ => 5)) 1 = 0 := by
  refine ⟨⟨?_, ?_, ?_, ?_, ?_, ?_, ?_, ?_⟩, ?_, ?_, ?_⟩ <;> decide +kernel

-- the hypotheses of `C44_law_partial` hold for a PI controller over three samples
example : ((after ((pd0.setGains 2 (1 / 2) 0).1.setReferenceWeighting 1 1).1
    (fun _ => 10) (fun n => n) (fun _ => 0) 2).control 10 2 0).2 = 55 / 2 := by
  decide +kernel

-- C41: limits are respected by a controller with a gain of 1000
example : ((fresh0.setup 1000 0 0 1).1.control 3 1 0).2 = 100 := by decide +kernel
example : (((fresh0.setup 1000 0 0 1).1.setSaturation (-5) 5).1.control 1 3 0).2 = -5 := by
  decide +kernel

-- C42: a negative time step is accepted, and blocks the next setup
example : (fresh0.setup 1 1 1 (-1)).2 = true := by decide +kernel
example : ((fresh0.setup 1 1 1 (-1)).1.setup 1 1 1 1).2 = false := by decide +kernel

-- C44: backward direction
example : ((pd0.setGains 2 3 0).1.setDirection .backward).1.dir = .backward ∧
    (((pd0.setGains 2 3 0).1.setDirection .backward).1.control 10 2 0).2 = -28 := by
  decide +kernel

/-- Another instance of `Trans`, for the examples of C43. -/
@[reducible] def ratTrans : Trans ℚ where
  exp := fun x => 1 / (1 - x)
  log := fun x => x - 1
  sqrt := id
  sin := id
  cos := id
  tanh := id
  pow := fun a _ => a

/-- Any `pidAutoTuning` object. -/
def tuner0 : AutoTuning ℚ := ⟨1, 0, 0, 1, 0, 0, 0, 0, 1, 0, 0, 0, 0, UNDEFINED, .pi⟩

-- C43: a tuner enabled for two steps; the first is accepted and leaves the gains, the second one
-- completes the tuning and changes them
example :
    let s := ((@Ctl.bindAutoTuning ℚ _ ratTrans (pd0.setGains 1 1 0).1 tuner0).1)
    let t := @drive ℚ _ ratTrans (s.enableAutoTuning 2#32).1 [(10, 0, 0)]
    let t2 := @drive ℚ _ ratTrans (s.enableAutoTuning 2#32).1 [(10, 0, 0), (10, 3, 0)]
    t.2 = 1 ∧ t.1.isAutoTuningComplete = false ∧ gains t.1 = ⟨1, 1, 0⟩ ∧
    t2.2 = 2 ∧ t2.1.isAutoTuningComplete = true ∧ gains t2.1 ≠ ⟨1, 1, 0⟩ := by
  decide +kernel

end Witness

section Reset
variable {R : Type u} [Arith R] [Trans R]

theorem control_reset (s : Ctl R) (w y r : R) :
    (s.control w y r).1.reset = ({ s.reset.1 with
      Kc := (s.control w y r).1.Kc, Ki := (s.control w y r).1.Ki, Kd := (s.control w y r).1.Kd,
      adapt := (s.control w y r).1.adapt }, s.reset.2) := by
  have hint : ∀ (st : NState R) (x dt : R) (u : Bool), (st.integrate x dt u).1.init0 = st.init0 := by
    intro st x dt u
    unfold NState.integrate NState.init0 NState.init NState.update
    cases hst : st.iMethod <;> cases u <;> simp [hst]
  have hmr : ∀ v w y r, (s.mrac v w y r).1.init0 = s.mState.init0 := by
    intro v w y r
    unfold Ctl.mrac
    split_ifs
    · exact hint _ _ _ _
    · rfl
    · rfl
  by_cases hi : s.isInitialized = true
  · unfold Ctl.control
    rw [if_pos hi]
    cases ha : s.adapt with
    | none =>
      simp only [Ctl.reset, hi, if_true, hint, hmr, NState.derive, Bool.false_eq_true, if_false]
    | some a =>
      simp only [Ctl.adaptGains]
      split_ifs <;>
      simp only [Ctl.reset, hi, if_true, hint, hmr, NState.derive, Bool.false_eq_true, if_false]
  · have hc : (s.control w y r).1 = s := by unfold Ctl.control; rw [if_neg hi]
    rw [hc]
    unfold Ctl.reset
    rw [if_neg hi]

/-- **C44** `reset` undoes any number of `control` calls, in any arithmetic: apart from the gains
and the bound auto-tuner (which adaptation may have changed), the state is the one that `reset` gives
without those calls; and after `setup` it is the state that `setup` left. -/
theorem C44_reset (s : Ctl R) (w y r : ℕ → R) (n : ℕ) :
    (after s w y r n).reset.1 = { s.reset.1 with
      Kc := (after s w y r n).Kc, Ki := (after s w y r n).Ki, Kd := (after s w y r n).Kd,
      adapt := (after s w y r n).adapt } ∧
    (s.adapt = none → (after s w y r n).reset = s.reset) := by
  have h1 : (after s w y r n).reset = ({ s.reset.1 with
      Kc := (after s w y r n).Kc, Ki := (after s w y r n).Ki, Kd := (after s w y r n).Kd,
      adapt := (after s w y r n).adapt }, s.reset.2) := by
    induction n with
    | zero => simp only [after]; unfold Ctl.reset; split_ifs <;> rfl
    | succ n ih => simp only [after]; rw [control_reset, ih]
  refine ⟨by rw [h1], fun ha => ?_⟩
  have h2 : ∀ n, gains (after s w y r n) = gains s ∧ (after s w y r n).adapt = none := by
    intro n
    induction n with
    | zero => exact ⟨rfl, ha⟩
    | succ n ih =>
      have ⟨_, _, k3, k4⟩ := control_adapt (after s w y r n) (w n) (y n) (r n)
      simp only [after]
      refine ⟨by rw [k4, ih.2]; exact ih.1, ?_⟩
      by_cases hi : (after s w y r n).isInitialized = true
      · rw [k3 hi, ih.2]; rfl
      · unfold Ctl.control; rw [if_neg hi]; exact ih.2
  have ⟨g, h3⟩ := h2 n
  unfold gains at g
  injection g with g1 g2 g3
  rw [h1, h3, g1, g2, g3, ← ha]
  unfold Ctl.reset; split_ifs <;> rfl

omit [Trans R] in
/-- **C44** a `reset` right after `setup` changes nothing. -/
theorem C44_reset_after_setup (s : Ctl R) (kc ki kd dT : R) (h : (s.setup kc ki kd dT).2 = true) :
    (s.setup kc ki kd dT).1.reset = ((s.setup kc ki kd dT).1, true) := by
  cases h0 : (lit 0 <. s.dt) with
  | true =>
    obtain ⟨t, he, h1, _⟩ := setup_eq s kc ki kd dT h0
    rw [he]
    unfold Ctl.reset
    rw [if_pos h1]
    dsimp only
    rw [if_pos h1]
    rfl
  | false => rw [setup_fail s kc ki kd dT h0] at h; simp at h

end Reset

end Verif.Pid
