import Verif.Fis.Inference

/-!
# Configuration of a fuzzy system (C58)
-/

namespace Verif.Fis

open Arith

variable {R : Type}

/-- The value of the enumerator of an operator. `/repo/src/include/fis.hpp` lines 86-92. -/
def Op.code : Op → Nat
  | .min => 0 | .prod => 1 | .max => 2 | .probOr => 3 | .sum => 4

/-- The operators documented for a parameter. `/repo/src/include/fis.hpp` lines 97-103. -/
def documented : Parameter → List Op
  | .implication => [.min, .prod]
  | .aggregation => [.max, .probOr, .sum]
  | .and => [.min, .prod]
  | .or => [.max, .probOr]
  | .evalPoints | .other => []

/-- The operator a parameter of the system has. Not a definition of the repository. -/
def installed (s : Inst R) : Parameter → Option Op
  | .implication => some s.implicate
  | .aggregation => some s.aggregate
  | .and => some s.andOp
  | .or => some s.orOp
  | .evalPoints | .other => none

/-- The system but for its operators. Not a definition of the repository. -/
def noOps (s : Inst R) : Inst R := { s with andOp := .min, orOp := .min, implicate := .min, aggregate := .min }

/-- The system but for its de-fuzzification method. Not a definition of the repository. -/
def noMethod (s : Inst R) : Inst R := { s with deFuzz := .centroid }

/-- **C58** (parameters) `setParameter` never reads outside its table. It returns `true` for every documented
operator of the parameter, in which case that parameter has the operator, every other parameter has the one it
had, and nothing else changes. If it returns `false` nothing changes. For every parameter other
than the implication it returns `false` for everything that is not documented. -/
theorem C58_parameter_partial (s : Inst R) (p : Parameter) (x : Nat) :
    ∃ s' b, setParameter s p x = .ok (s', b) ∧
      (b = false → s' = s) ∧
      (b = true → ∃ o : Op, o.code = x ∧ installed s' p = some o ∧
        (∀ q, q ≠ p → installed s' q = installed s q) ∧ noOps s' = noOps s) ∧
      ((∃ o ∈ documented p, o.code = x) → b = true) ∧
      (p ≠ .implication → b = true → ∃ o ∈ documented p, o.code = x) := by
  have table : ∀ o : Op, methodTable o.code = .ok o := by intro o; cases o <;> rfl
  cases p <;> unfold setParameter <;> simp only []
  · by_cases h : x ≤ 3
    · rw [if_pos h]
      obtain ⟨o, ho⟩ : ∃ o : Op, o.code = x := by
        rcases (show x = 0 ∨ x = 1 ∨ x = 2 ∨ x = 3 by omega) with rfl | rfl | rfl | rfl
        exacts [⟨.min, rfl⟩, ⟨.prod, rfl⟩, ⟨.max, rfl⟩, ⟨.probOr, rfl⟩]
      rw [← ho, table o]
      refine ⟨_, true, rfl, by simp, fun _ => ⟨o, rfl, rfl, ?_, rfl⟩, fun _ => rfl, fun h => absurd rfl h⟩
      intro q hq; cases q <;> first | rfl | exact absurd rfl hq
    · rw [if_neg h]
      refine ⟨s, false, rfl, fun _ => rfl, by simp, ?_, by simp⟩
      rintro ⟨o, ho, rfl⟩
      simp [documented] at ho
      rcases ho with rfl | rfl <;> simp [Op.code] at h
  · by_cases h : 2 ≤ x ∧ x ≤ 4
    · rw [if_pos h]
      obtain ⟨o, hd, ho⟩ : ∃ o ∈ documented .aggregation, o.code = x := by
        rcases (show x = 2 ∨ x = 3 ∨ x = 4 by omega) with rfl | rfl | rfl
        exacts [⟨.max, by decide, rfl⟩, ⟨.probOr, by decide, rfl⟩, ⟨.sum, by decide, rfl⟩]
      rw [← ho, table o]
      refine ⟨_, true, rfl, by simp, fun _ => ⟨o, rfl, rfl, ?_, rfl⟩, fun _ => rfl, fun _ _ => ⟨o, hd, rfl⟩⟩
      intro q hq; cases q <;> first | rfl | exact absurd rfl hq
    · rw [if_neg h]
      refine ⟨s, false, rfl, fun _ => rfl, by simp, ?_, by simp⟩
      rintro ⟨o, ho, rfl⟩
      simp [documented] at ho
      rcases ho with rfl | rfl | rfl <;> simp [Op.code] at h
  · by_cases h : x ≤ 1
    · rw [if_pos h]
      obtain ⟨o, hd, ho⟩ : ∃ o ∈ documented .and, o.code = x := by
        rcases (show x = 0 ∨ x = 1 by omega) with rfl | rfl
        exacts [⟨.min, by decide, rfl⟩, ⟨.prod, by decide, rfl⟩]
      rw [← ho, table o]
      refine ⟨_, true, rfl, by simp, fun _ => ⟨o, rfl, rfl, ?_, rfl⟩, fun _ => rfl, fun _ _ => ⟨o, hd, rfl⟩⟩
      intro q hq; cases q <;> first | rfl | exact absurd rfl hq
    · rw [if_neg h]
      refine ⟨s, false, rfl, fun _ => rfl, by simp, ?_, by simp⟩
      rintro ⟨o, ho, rfl⟩
      simp [documented] at ho
      rcases ho with rfl | rfl <;> simp [Op.code] at h
  · by_cases h : 2 ≤ x ∧ x ≤ 3
    · rw [if_pos h]
      obtain ⟨o, hd, ho⟩ : ∃ o ∈ documented .or, o.code = x := by
        rcases (show x = 2 ∨ x = 3 by omega) with rfl | rfl
        exacts [⟨.max, by decide, rfl⟩, ⟨.probOr, by decide, rfl⟩]
      rw [← ho, table o]
      refine ⟨_, true, rfl, by simp, fun _ => ⟨o, rfl, rfl, ?_, rfl⟩, fun _ => rfl, fun _ _ => ⟨o, hd, rfl⟩⟩
      intro q hq; cases q <;> first | rfl | exact absurd rfl hq
    · rw [if_neg h]
      refine ⟨s, false, rfl, fun _ => rfl, by simp, ?_, by simp⟩
      rintro ⟨o, ho, rfl⟩
      simp [documented] at ho
      rcases ho with rfl | rfl <;> simp [Op.code] at h
  · exact ⟨s, false, rfl, fun _ => rfl, by simp, by simp [documented], by simp⟩
  · exact ⟨s, false, rfl, fun _ => rfl, by simp, by simp [documented], by simp⟩

/-- The documented restriction of the implication (only the minimum and the product) is not enforced: the maximum and the probabilistic OR are accepted. -/
theorem C58_implication_false : ∀ o ∈ [Op.max, Op.probOr], o ∉ documented .implication ∧
    (fun p => (p.1.implicate, p.2)) <$> setParameter (demo 1 1 [] [] none) .implication o.code = .ok (o, true) := by
  decide +kernel

/-- The number of points of de-fuzzification is a documented parameter that cannot be set to any value. -/
theorem C58_evalPoints_false : ∀ (s : Inst R) (x : Nat), setParameter s .evalPoints x = .ok (s, false) :=
  fun _ _ => rfl

/-- The value of the enumerator of a method. `/repo/src/include/fis.hpp` lines 70-82. -/
def Method.code : Method → Nat
  | .centroid => 0 | .bisector => 1 | .mom => 2 | .lom => 3 | .som => 4 | .wtaver => 5 | .wtsum => 6

/-- The methods documented for a kind of system. `/repo/src/include/fis.hpp` lines 70-82. -/
def suits : Kind → List Method
  | .mamdani => [.centroid, .bisector, .mom, .lom, .som]
  | .sugeno => [.wtaver, .wtsum]
  | .tsukamoto => [.wtaver]

/-- **C58** (methods) `setDeFuzzMethod` never reads outside its table; it returns `true` exactly for the methods
documented for the kind of system and then changes the method, and nothing else, to that method; otherwise
nothing changes. -/
theorem C58_method (s : Inst R) (m : Nat) :
    ∃ s' b, setDeFuzzMethod s m = .ok (s', b) ∧
      (b = true ↔ ∃ f ∈ suits s.kind, f.code = m) ∧ (b = false → s' = s) ∧
      (b = true → s'.deFuzz.code = m) ∧ noMethod s' = noMethod s := by
  have table : ∀ f : Method, deFuzzTable f.code = .ok f := by intro f; cases f <;> rfl
  have key : (m < 7 ∧ ((s.kind = .mamdani ∧ m ≤ 4) ∨ (s.kind = .sugeno ∧ 5 ≤ m ∧ m ≤ 6) ∨
      (s.kind = .tsukamoto ∧ m = 5))) ↔ ∃ f ∈ suits s.kind, f.code = m := by
    cases hk : s.kind <;> simp [suits, Method.code] <;> omega
  unfold setDeFuzzMethod
  by_cases h : ∃ f ∈ suits s.kind, f.code = m
  · have h' := key.mpr h
    rw [if_pos h'.1, if_pos h'.2]
    obtain ⟨f, hf, rfl⟩ := h
    rw [table f]
    exact ⟨_, true, rfl, by simp; exact ⟨f, hf, rfl⟩, by simp, fun _ => rfl, rfl⟩
  · refine ⟨s, false, ?_, by simp; simpa using h, fun _ => rfl, by simp, rfl⟩
    by_cases h1 : m < 7
    · rw [if_pos h1, if_neg (fun h2 => h (key.mp ⟨h1, h2⟩))]; rfl
    · rw [if_neg h1]; rfl

example : (fun p => (p.1.deFuzz, p.2)) <$> setDeFuzzMethod (demo 1 1 [] [] none) 4 = .ok (.som, true) ∧
    (fun p => (p.1.deFuzz, p.2)) <$> setDeFuzzMethod (demo 1 1 [] [] none) 5 = .ok (.centroid, false) ∧
    (fun p => (p.1.orOp, p.2)) <$> setParameter (demo 1 1 [] [] none) .or 3 = .ok (.probOr, true) ∧
    (fun p => (p.1.orOp, p.2)) <$> setParameter (demo 1 1 [] [] none) .or 1 = .ok (.max, false) := by
  decide +kernel

/-! ## Invariant of the configuration -/

/-- A call of one of the two configuration functions. Not a definition of the repository. -/
inductive Call where
  | param (p : Parameter) (x : Nat)
  | method (m : Nat)

/-- The calls, one after the other. Not a definition of the repository. -/
def calls (s : Inst R) : List Call → Out (Inst R)
  | [] => .ok s
  | .param p x :: l => do
    let (s, _) ← setParameter s p x
    calls s l
  | .method m :: l => do
    let (s, _) ← setDeFuzzMethod s m
    calls s l

/-- The operators and the method are among the documented ones, but for the implication, which is not the sum. -/
def Configured (s : Inst R) : Prop :=
  s.andOp ∈ documented .and ∧ s.orOp ∈ documented .or ∧ s.aggregate ∈ documented .aggregation ∧
  s.implicate ≠ .sum ∧ s.deFuzz ∈ suits s.kind

theorem Op.code_inj {a b : Op} (h : a.code = b.code) : a = b := by
  revert h; cases a <;> cases b <;> decide

theorem Method.code_inj {a b : Method} (h : a.code = b.code) : a = b := by
  revert h; cases a <;> cases b <;> decide

/-- **C58** (invariant) whatever the state before, after a successful `setup` the operators are the documented
defaults, and after any sequence of calls of `setParameter` and `setDeFuzzMethod`, accepted or not, every
installed operator is one documented for its parameter (the implication is at least not the sum) and the method is one documented for the kind of
the system; the kind is the one given to `setup`. -/
theorem C58_invariant (s : Inst R) (t : Kind) (inputs : Array (IO R)) (ni : Nat) (outputs : Array (Output R)) (no : Nat)
    (mfInputs : Array (MF R)) (nmi : Nat) (mfOutputs : Array (MF R)) (nmo : Nat) (r : Array Int) (n : Nat)
    (rWeights : Option (Array R)) (h : 0 < ni ∧ 0 < no ∧ 0 < nmi ∧ 0 < nmo ∧ 0 < n) (l : List Call) :
    ∃ s₀, setup s t inputs ni outputs no mfInputs nmi mfOutputs nmo r n rWeights = .ok (s₀, true) ∧
      s₀.andOp = .min ∧ s₀.orOp = .max ∧ s₀.implicate = .min ∧ s₀.aggregate = .max ∧
      (s₀.deFuzz = if t = .mamdani then .centroid else .wtaver) ∧
      ∃ s', calls s₀ l = .ok s' ∧ Configured s' ∧ s'.kind = t := by
  refine ⟨_, by unfold setup; rw [if_pos h]; rfl, rfl, rfl, rfl, rfl, rfl, ?_⟩
  have step : ∀ (l : List Call) (s : Inst R), Configured s → s.kind = t →
      ∃ s', calls s l = .ok s' ∧ Configured s' ∧ s'.kind = t := by
    intro l
    induction l with
    | nil => intro s h1 h2; exact ⟨s, rfl, h1, h2⟩
    | cons c l ih =>
      intro s h1 h2
      cases c with
      | param p x =>
        obtain ⟨s', b, e, hf, ht, _, hd⟩ := C58_parameter_partial s p x
        rw [calls, e]
        cases b
        · rw [hf rfl]; exact ih s h1 h2
        · obtain ⟨o, ho, hi, hoth, hno⟩ := ht rfl
          have hk : s'.kind = s.kind := by have := congrArg Inst.kind hno; exact this
          have hm : s'.deFuzz = s.deFuzz := by have := congrArg Inst.deFuzz hno; exact this
          refine ih s' ?_ (hk.trans h2)
          obtain ⟨c1, c2, c3, c4, c5⟩ := h1
          have same : ∀ q, q ≠ p → installed s' q = installed s q := hoth
          cases p with
          | implication =>
            have q1 := same .and (by simp); have q2 := same .or (by simp); have q3 := same .aggregation (by simp)
            simp only [installed, Option.some.injEq] at q1 q2 q3 hi
            refine ⟨by rw [q1]; exact c1, by rw [q2]; exact c2, by rw [q3]; exact c3, ?_, by rw [hm, hk]; exact c5⟩
            rw [hi]
            rintro rfl
            rw [← ho] at e
            simp [setParameter, Op.code] at e
          | aggregation =>
            have q1 := same .and (by simp); have q2 := same .or (by simp); have q3 := same .implication (by simp)
            simp only [installed, Option.some.injEq] at q1 q2 q3 hi
            obtain ⟨o', ho', hc'⟩ := hd (by simp) rfl
            have : o' = o := Op.code_inj (hc'.trans ho.symm)
            subst this
            exact ⟨by rw [q1]; exact c1, by rw [q2]; exact c2, by rw [hi]; exact ho', by rw [q3]; exact c4,
              by rw [hm, hk]; exact c5⟩
          | and =>
            have q1 := same .aggregation (by simp); have q2 := same .or (by simp); have q3 := same .implication (by simp)
            simp only [installed, Option.some.injEq] at q1 q2 q3 hi
            obtain ⟨o', ho', hc'⟩ := hd (by simp) rfl
            have : o' = o := Op.code_inj (hc'.trans ho.symm)
            subst this
            exact ⟨by rw [hi]; exact ho', by rw [q2]; exact c2, by rw [q1]; exact c3, by rw [q3]; exact c4,
              by rw [hm, hk]; exact c5⟩
          | or =>
            have q1 := same .aggregation (by simp); have q2 := same .and (by simp); have q3 := same .implication (by simp)
            simp only [installed, Option.some.injEq] at q1 q2 q3 hi
            obtain ⟨o', ho', hc'⟩ := hd (by simp) rfl
            have : o' = o := Op.code_inj (hc'.trans ho.symm)
            subst this
            exact ⟨by rw [q2]; exact c1, by rw [hi]; exact ho', by rw [q1]; exact c3, by rw [q3]; exact c4,
              by rw [hm, hk]; exact c5⟩
          | evalPoints => simp [installed] at hi
          | other => simp [installed] at hi
      | method m =>
        obtain ⟨s', b, e, hb, hf, ht, hno⟩ := C58_method s m
        rw [calls, e]
        have hk : s'.kind = s.kind := by have := congrArg Inst.kind hno; exact this
        refine ih s' ?_ (hk.trans h2)
        obtain ⟨c1, c2, c3, c4, c5⟩ := h1
        have a1 : s'.andOp = s.andOp := by have := congrArg Inst.andOp hno; exact this
        have a2 : s'.orOp = s.orOp := by have := congrArg Inst.orOp hno; exact this
        have a3 : s'.aggregate = s.aggregate := by have := congrArg Inst.aggregate hno; exact this
        have a4 : s'.implicate = s.implicate := by have := congrArg Inst.implicate hno; exact this
        refine ⟨by rw [a1]; exact c1, by rw [a2]; exact c2, by rw [a3]; exact c3, by rw [a4]; exact c4, ?_⟩
        cases b
        · rw [hf rfl]; exact c5
        · obtain ⟨f, hf', hc⟩ := hb.mp rfl
          have : f = s'.deFuzz := Method.code_inj (hc.trans (ht rfl).symm)
          rw [← this, hk]
          exact hf'
  refine step l _ ⟨by simp [documented], by simp [documented], by simp [documented], by simp, ?_⟩ rfl
  cases t <;> simp [suits]

end Verif.Fis
