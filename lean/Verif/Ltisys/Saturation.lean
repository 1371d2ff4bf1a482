import Verif.Ltisys.Discrete

/-!
# Properties C50 and C62 (continuous systems)
-/

namespace Verif.Ltisys

open Arith

/-! ## C50: saturation limits -/

section Spec
variable {R : Type} [Arith R]

/-- What a user may do with a system: excite it, set its limits, or anything else of its interface. -/
inductive Op (R X : Type) where
  | excite (u : R)
  | setSaturation (lo hi : R)
  | other (x : X)

/-- What the user gets back. -/
inductive Resp (R : Type) where
  | out (y : R)
  | flag (b : Bool)

/-- The limits in force after an operation: the last ones that were accepted. -/
def limits {X : Type} (cur : Option (R × R)) : Op R X → Resp R → Option (R × R)
  | .setSaturation lo hi, .flag true => some (lo, hi)
  | _, _ => cur

/-- In every run every value returned by `excite` is NaN or within the limits in force. -/
def Respects {S X : Type} (exec : S → Op R X → Out (S × Resp R)) :
    S → Option (R × R) → List (Op R X) → Prop
  | _, _, [] => True
  | s, cur, op :: ops => ∀ s' r, exec s op = .ok (s', r) →
    (∀ y lo hi, r = .out y → cur = some (lo, hi) → isNan y = false →
      (lo ≤. y) = true ∧ (y ≤. hi) = true) ∧ Respects exec s' (limits cur op r) ops

theorem saturate_within [LawfulOrd R] (y lo hi : R) (h : (lo <. hi) = true)
    (hn : isNan (saturate y lo hi) = false) :
    (lo ≤. saturate y lo hi) = true ∧ (saturate y lo hi ≤. hi) = true := by
  obtain ⟨h1, h2⟩ := LawfulOrd.lt_nan h
  unfold saturate at hn ⊢
  split_ifs at hn ⊢ with c1 c2
  · exact ⟨LawfulOrd.le_refl h1, LawfulOrd.le_of_lt h⟩
  · exact ⟨LawfulOrd.le_of_lt h, LawfulOrd.le_refl h2⟩
  · exact ⟨LawfulOrd.le_of_not_lt hn h1 (by simpa using c1),
      LawfulOrd.le_of_not_lt h2 hn (by simpa using c2)⟩

/-- The limits in force are those stored in the object. -/
def LimInv {S : Type} (lims : S → R × R) (initd : S → Bool) (s : S) (cur : Option (R × R)) : Prop :=
  ∀ lo hi, cur = some (lo, hi) → lims s = (lo, hi) ∧ (lo <. hi) = true ∧ initd s = true

theorem respects_of {S X : Type} [LawfulOrd R] (exec : S → Op R X → Out (S × Resp R))
    (lims : S → R × R) (initd : S → Bool)
    (hex : ∀ s u s' r, exec s (.excite u) = .ok (s', r) → lims s' = lims s ∧ initd s' = initd s ∧
      (initd s = true → ∃ y, r = .out (saturate y (lims s).1 (lims s).2)))
    (hset : ∀ s lo hi s' r, exec s (.setSaturation lo hi) = .ok (s', r) → initd s' = initd s ∧
      ((r = .flag true ∧ lims s' = (lo, hi) ∧ (lo <. hi) = true ∧ initd s = true) ∨
        (r = .flag false ∧ lims s' = lims s)))
    (hoth : ∀ s x s' r, exec s (.other x) = .ok (s', r) → (∃ b, r = .flag b) ∧ lims s' = lims s ∧
      (initd s = true → initd s' = true))
    (ops : List (Op R X)) (s : S) (cur : Option (R × R)) (h : LimInv lims initd s cur) :
    Respects exec s cur ops := by
  induction ops generalizing s cur with
  | nil => trivial
  | cons op ops ih =>
    intro s' r hr
    cases op with
    | excite u =>
      obtain ⟨k1, k2, k3⟩ := hex s u s' r hr
      refine ⟨?_, ih s' _ ?_⟩
      · intro y lo hi hy hc hn
        obtain ⟨e1, e2, e3⟩ := h lo hi hc
        obtain ⟨y', e4⟩ := k3 e3
        rw [e4] at hy
        cases hy
        rw [e1] at hn ⊢
        exact saturate_within _ _ _ e2 hn
      · intro lo hi hc
        obtain ⟨e1, e2, e3⟩ := h lo hi hc
        exact ⟨k1.trans e1, e2, k2.trans e3⟩
    | setSaturation lo hi =>
      obtain ⟨k1, k2⟩ := hset s lo hi s' r hr
      rcases k2 with ⟨rfl, k3, k4, k5⟩ | ⟨rfl, k3⟩
      · refine ⟨by intro _ _ _ hy; simp at hy, ih s' _ ?_⟩
        intro lo' hi' hc
        simp only [limits, Option.some.injEq, Prod.mk.injEq] at hc
        obtain ⟨rfl, rfl⟩ := hc
        exact ⟨k3, k4, k1.trans k5⟩
      · refine ⟨by intro _ _ _ hy; simp at hy, ih s' _ ?_⟩
        intro lo' hi' hc
        obtain ⟨e1, e2, e3⟩ := h lo' hi' hc
        exact ⟨k3.trans e1, e2, k1.trans e3⟩
    | other x =>
      obtain ⟨⟨b, rfl⟩, k2, k3⟩ := hoth s x s' _ hr
      refine ⟨by intro _ _ _ hy; simp at hy, ih s' _ ?_⟩
      intro lo' hi' hc
      obtain ⟨e1, e2, e3⟩ := h lo' hi' hc
      exact ⟨k2.trans e1, e2, k3 e3⟩

end Spec

section Discrete
variable {R : Type} [Arith R]

/-- The other operations of a discrete system. -/
inductive DOther (R : Type) where
  | setup (num den x : Option (Array R)) (nb na : Nat)
  | setInitStates (xi : Option (Array R))
  | setDelay (undef : R) (w : Array R) (nD : Nat) (v : R)

/-- Runs an operation of a discrete system. -/
def DSys.exec (s : DSys R) : Op R (DOther R) → Out (DSys R × Resp R)
  | .excite u => (fun r => (r.1, .out r.2)) <$> s.excite u
  | .setSaturation lo hi => .ok ((s.setSaturation lo hi).1, .flag (s.setSaturation lo hi).2)
  | .other (.setup num den x nb na) => (fun r => (r.1, .flag r.2)) <$> s.setup num den x nb na
  | .other (.setInitStates xi) => (fun r => (r.1, .flag r.2)) <$> s.setInitStates xi
  | .other (.setDelay undef w nD v) => (fun r => (r.1, .flag r.2)) <$> s.setDelay undef w nD v

omit [Arith R] in
theorem map_flag {S : Type} {x : Out (S × Bool)} {s' : S} {r : Resp R}
    (h : (fun r : S × Bool => (r.1, (Resp.flag r.2 : Resp R))) <$> x = .ok (s', r)) :
    ∃ b, x = .ok (s', b) ∧ r = .flag b := by
  cases x with
  | ub => cases h
  | diverge => cases h
  | ok p =>
    simp only [Out.map_ok, Out.ok.injEq, Prod.mk.injEq] at h
    exact ⟨p.2, by rw [← h.1], h.2.symm⟩

omit [Arith R] in
theorem map_out {S : Type} {x : Out (S × R)} {s' : S} {r : Resp R}
    (h : (fun r : S × R => (r.1, Resp.out r.2)) <$> x = .ok (s', r)) :
    ∃ b, x = .ok (s', b) ∧ r = .out b := by
  cases x with
  | ub => cases h
  | diverge => cases h
  | ok p =>
    simp only [Out.map_ok, Out.ok.injEq, Prod.mk.injEq] at h
    exact ⟨p.2, by rw [← h.1], h.2.symm⟩

theorem DSys.excite_kept {s s' : DSys R} {u y : R} (h : s.excite u = .ok (s', y)) :
    (s'.min = s.min ∧ s'.max = s.max) ∧ s'.isInitialized = s.isInitialized ∧
      (s.isInitialized = true → ∃ v, y = saturate v s.min s.max) := by
  unfold DSys.excite at h
  split_ifs at h with hi
  · obtain ⟨⟨t, v⟩, _, h⟩ := Out.bind_eq_ok.mp h
    obtain ⟨⟨s2, y2⟩, h3, h⟩ := Out.bind_eq_ok.mp h
    simp only [Out.pure_eq, Out.ok.injEq, Prod.mk.injEq] at h
    obtain ⟨rfl, rfl⟩ := h
    obtain ⟨e1, e2, e3, _⟩ := DSys.update_kept h3
    exact ⟨⟨e2, e3⟩, e1, fun _ => ⟨y2, by rw [e2, e3]⟩⟩
  · simp only [Out.pure_eq, Out.ok.injEq, Prod.mk.injEq] at h
    obtain ⟨rfl, rfl⟩ := h
    exact ⟨⟨rfl, rfl⟩, rfl, fun h => absurd h hi⟩

theorem DSys.setInitStates_kept {s s' : DSys R} {xi : Option (Array R)} {b : Bool}
    (h : s.setInitStates xi = .ok (s', b)) :
    s'.min = s.min ∧ s'.max = s.max ∧ s'.isInitialized = s.isInitialized := by
  unfold DSys.setInitStates at h
  split at h
  · rename_i hx hd
    obtain ⟨x', _, h⟩ := Out.bind_eq_ok.mp h
    simp only [Out.pure_eq, Out.ok.injEq, Prod.mk.injEq] at h
    rw [← h.1]
    simp [DSys.isInitialized, hx]
  · simp only [Out.pure_eq, Out.ok.injEq, Prod.mk.injEq] at h
    rw [← h.1]; simp

theorem DSys.setup_kept {s s' : DSys R} {num den x : Option (Array R)} {nb na : Nat} {b : Bool}
    (h : s.setup num den x nb na = .ok (s', b)) :
    s'.min = s.min ∧ s'.max = s.max ∧ (s.isInitialized = true → s'.isInitialized = true) := by
  unfold DSys.setup at h
  split at h
  · split_ifs at h with h1 h2
    · obtain ⟨⟨n', d', b'⟩, _, h⟩ := Out.bind_eq_ok.mp h
      obtain ⟨⟨s2, f⟩, h3, h⟩ := Out.bind_eq_ok.mp h
      simp only [Out.pure_eq, Out.ok.injEq, Prod.mk.injEq] at h
      obtain ⟨rfl, _⟩ := h
      obtain ⟨e1, e2, e3⟩ := DSys.setInitStates_kept h3
      exact ⟨e1, e2, fun _ => e3.trans (by simp [DSys.isInitialized])⟩
    · simp only [Out.pure_eq, Out.ok.injEq, Prod.mk.injEq] at h
      rw [← h.1]; simp
  · simp only [Out.pure_eq, Out.ok.injEq, Prod.mk.injEq] at h
    rw [← h.1]; simp

/-- **C50** (discrete systems) starting in any state, in every run of any operations, every value
returned by `excite` is NaN or within the limits last accepted by `setSaturation`. -/
theorem C50_discrete [LawfulOrd R] (s : DSys R) (ops : List (Op R (DOther R))) :
    Respects DSys.exec s none ops := by
  refine respects_of DSys.exec (fun s => (s.min, s.max)) DSys.isInitialized ?_ ?_ ?_ ops s none
    (by intro lo hi h; cases h)
  · intro s u s' r h
    obtain ⟨y, h1, rfl⟩ := map_out h
    obtain ⟨⟨e1, e2⟩, e3, e4⟩ := DSys.excite_kept h1
    exact ⟨by rw [e1, e2], e3, fun hi => by obtain ⟨v, rfl⟩ := e4 hi; exact ⟨v, rfl⟩⟩
  · intro s lo hi s' r h
    simp only [DSys.exec, DSys.setSaturation] at h
    split_ifs at h with hc
    · simp only [Out.ok.injEq, Prod.mk.injEq] at h
      obtain ⟨rfl, rfl⟩ := h
      rw [Bool.and_eq_true] at hc
      exact ⟨rfl, .inl ⟨rfl, rfl, hc.2, hc.1⟩⟩
    · simp only [Out.ok.injEq, Prod.mk.injEq] at h
      obtain ⟨rfl, rfl⟩ := h
      exact ⟨rfl, .inr ⟨rfl, rfl⟩⟩
  · intro s x s' r h
    cases x with
    | setup num den x nb na =>
      obtain ⟨b, h1, rfl⟩ := map_flag h
      obtain ⟨e1, e2, e3⟩ := DSys.setup_kept h1
      exact ⟨⟨b, rfl⟩, by rw [e1, e2], e3⟩
    | setInitStates xi =>
      obtain ⟨b, h1, rfl⟩ := map_flag h
      obtain ⟨e1, e2, e3⟩ := DSys.setInitStates_kept h1
      exact ⟨⟨b, rfl⟩, by rw [e1, e2], fun hi => e3.trans hi⟩
    | setDelay undef w nD v =>
      obtain ⟨b, h1, rfl⟩ := map_flag h
      unfold DSys.setDelay at h1
      split_ifs at h1 with hi
      · obtain ⟨t, _, h1⟩ := Out.bind_eq_ok.mp h1
        simp only [Out.pure_eq, Out.ok.injEq, Prod.mk.injEq] at h1
        rw [← h1.1]
        exact ⟨⟨b, rfl⟩, rfl, fun h => h⟩
      · simp only [Out.pure_eq, Out.ok.injEq, Prod.mk.injEq] at h1
        rw [← h1.1]
        exact ⟨⟨b, rfl⟩, rfl, fun h => h⟩

/-- **C50** (discrete systems) accepting limits: exactly the ordered pairs on an initialised system;
excitation of a system that is not initialised returns 0 and changes nothing. -/
theorem C50_discrete_accept (s : DSys R) (lo hi u : R) :
    ((s.setSaturation lo hi).2 = true ↔ s.isInitialized = true ∧ (lo <. hi) = true) ∧
    (s.isInitialized = false → s.excite u = .ok (s, lit 0)) := by
  constructor
  · unfold DSys.setSaturation
    split_ifs with h
    · simpa using h
    · simpa using h
  · intro h
    unfold DSys.excite
    rw [h]; rfl

end Discrete

section Continuous
variable {R : Type} [Arith R]

/-- The other operations of a continuous system. -/
inductive COther (R : Type) where
  | setup (num den : Option (Array R)) (x : Option (Array (Numa.NState R))) (nD : Nat) (dT : R)
  | setInitStates (xi : Option (Array R))
  | setDelay (undef : R) (w : Array R) (nD : Nat) (v : R)
  | setIntegrationMethod (m : Numa.IMethod)

/-- Runs an operation of a continuous system. -/
def CSys.exec (s : CSys R) : Op R (COther R) → Out (CSys R × Resp R)
  | .excite u => (fun r => (r.1, .out r.2)) <$> s.excite u
  | .setSaturation lo hi => .ok ((s.setSaturation lo hi).1, .flag (s.setSaturation lo hi).2)
  | .other (.setup num den x nD dT) => (fun r => (r.1, .flag r.2)) <$> s.setup num den x nD dT
  | .other (.setInitStates xi) => (fun r => (r.1, .flag r.2)) <$> s.setInitStates xi
  | .other (.setDelay undef w nD v) => (fun r => (r.1, .flag r.2)) <$> s.setDelay undef w nD v
  | .other (.setIntegrationMethod m) => (fun r => (r.1, .flag r.2)) <$> s.setIntegrationMethod m

theorem CSys.update_kept {s s' : CSys R} {u y : R} (h : s.update u = .ok (s', y)) :
    s'.isInitialized = s.isInitialized ∧ s'.min = s.min ∧ s'.max = s.max ∧ s'.delay = s.delay := by
  unfold CSys.update at h
  cases hx : s.xc with
  | none => rw [hx] at h; cases h
  | some xc =>
    rw [hx] at h
    obtain ⟨⟨d, y1, x1⟩, _, h⟩ := Out.bind_eq_ok.mp h
    obtain ⟨st, _, h⟩ := Out.bind_eq_ok.mp h
    obtain ⟨x2, _, h⟩ := Out.bind_eq_ok.mp h
    obtain ⟨b, _, h⟩ := Out.bind_eq_ok.mp h
    obtain ⟨a, _, h⟩ := Out.bind_eq_ok.mp h
    simp only [Out.pure_eq, Out.ok.injEq, Prod.mk.injEq] at h
    rw [← h.1]
    simp [CSys.isInitialized, hx]

theorem CSys.excite_kept {s s' : CSys R} {u y : R} (h : s.excite u = .ok (s', y)) :
    (s'.min = s.min ∧ s'.max = s.max) ∧ s'.isInitialized = s.isInitialized ∧
      (s.isInitialized = true → ∃ v, y = saturate v s.min s.max) := by
  unfold CSys.excite at h
  split_ifs at h with hi
  · obtain ⟨⟨t, v⟩, _, h⟩ := Out.bind_eq_ok.mp h
    obtain ⟨⟨s2, y2⟩, h3, h⟩ := Out.bind_eq_ok.mp h
    simp only [Out.pure_eq, Out.ok.injEq, Prod.mk.injEq] at h
    obtain ⟨rfl, rfl⟩ := h
    obtain ⟨e1, e2, e3, _⟩ := CSys.update_kept h3
    exact ⟨⟨e2, e3⟩, e1, fun _ => ⟨y2, by rw [e2, e3]⟩⟩
  · simp only [Out.pure_eq, Out.ok.injEq, Prod.mk.injEq] at h
    obtain ⟨rfl, rfl⟩ := h
    exact ⟨⟨rfl, rfl⟩, rfl, fun h => absurd h hi⟩

theorem CSys.setInitStates_kept {s s' : CSys R} {xi : Option (Array R)} {b : Bool}
    (h : s.setInitStates xi = .ok (s', b)) :
    s'.min = s.min ∧ s'.max = s.max ∧ s'.isInitialized = s.isInitialized := by
  unfold CSys.setInitStates at h
  split at h
  · rename_i hx hd
    obtain ⟨v, _, h⟩ := Out.bind_eq_ok.mp h
    obtain ⟨x', _, h⟩ := Out.bind_eq_ok.mp h
    simp only [Out.pure_eq, Out.ok.injEq, Prod.mk.injEq] at h
    rw [← h.1]
    simp [CSys.isInitialized, hx]
  · simp only [Out.pure_eq, Out.ok.injEq, Prod.mk.injEq] at h
    rw [← h.1]; simp

omit [Arith R] in
theorem CSys.setIntegrationMethod_kept {s s' : CSys R} {m : Numa.IMethod} {b : Bool}
    (h : s.setIntegrationMethod m = .ok (s', b)) :
    s'.min = s.min ∧ s'.max = s.max ∧ s'.isInitialized = s.isInitialized := by
  unfold CSys.setIntegrationMethod at h
  split at h
  · rename_i hx hd
    split_ifs at h with hm
    · obtain ⟨x', _, h⟩ := Out.bind_eq_ok.mp h
      simp only [Out.pure_eq, Out.ok.injEq, Prod.mk.injEq] at h
      rw [← h.1]
      simp [CSys.isInitialized, hx]
    · simp only [Out.pure_eq, Out.ok.injEq, Prod.mk.injEq] at h
      rw [← h.1]; simp
  · simp only [Out.pure_eq, Out.ok.injEq, Prod.mk.injEq] at h
    rw [← h.1]; simp

theorem CSys.setup_kept {s s' : CSys R} {num den : Option (Array R)}
    {x : Option (Array (Numa.NState R))} {nD : Nat} {dT : R} {b : Bool}
    (h : s.setup num den x nD dT = .ok (s', b)) :
    s'.min = s.min ∧ s'.max = s.max ∧ (s.isInitialized = true → s'.isInitialized = true) := by
  unfold CSys.setup at h
  split at h
  · split_ifs at h with h1
    · obtain ⟨⟨n', d', b'⟩, _, h⟩ := Out.bind_eq_ok.mp h
      obtain ⟨⟨s2, f⟩, h3, h⟩ := Out.bind_eq_ok.mp h
      simp only [Out.pure_eq, Out.ok.injEq, Prod.mk.injEq] at h
      obtain ⟨rfl, _⟩ := h
      obtain ⟨e1, e2, e3⟩ := CSys.setInitStates_kept h3
      exact ⟨e1, e2, fun _ => e3.trans (by simp [CSys.isInitialized])⟩
    · simp only [Out.pure_eq, Out.ok.injEq, Prod.mk.injEq] at h
      rw [← h.1]; simp
  · simp only [Out.pure_eq, Out.ok.injEq, Prod.mk.injEq] at h
    rw [← h.1]; simp

/-- **C50** (continuous systems) starting in any state, in every run of any operations, every value
returned by `excite` is NaN or within the limits last accepted by `setSaturation`. -/
theorem C50_continuous [LawfulOrd R] (s : CSys R) (ops : List (Op R (COther R))) :
    Respects CSys.exec s none ops := by
  refine respects_of CSys.exec (fun s => (s.min, s.max)) CSys.isInitialized ?_ ?_ ?_ ops s none
    (by intro lo hi h; cases h)
  · intro s u s' r h
    obtain ⟨y, h1, rfl⟩ := map_out h
    obtain ⟨⟨e1, e2⟩, e3, e4⟩ := CSys.excite_kept h1
    exact ⟨by rw [e1, e2], e3, fun hi => by obtain ⟨v, rfl⟩ := e4 hi; exact ⟨v, rfl⟩⟩
  · intro s lo hi s' r h
    simp only [CSys.exec, CSys.setSaturation] at h
    split_ifs at h with hc
    · simp only [Out.ok.injEq, Prod.mk.injEq] at h
      obtain ⟨rfl, rfl⟩ := h
      rw [Bool.and_eq_true] at hc
      exact ⟨rfl, .inl ⟨rfl, rfl, hc.2, hc.1⟩⟩
    · simp only [Out.ok.injEq, Prod.mk.injEq] at h
      obtain ⟨rfl, rfl⟩ := h
      exact ⟨rfl, .inr ⟨rfl, rfl⟩⟩
  · intro s x s' r h
    cases x with
    | setup num den x nD dT =>
      obtain ⟨b, h1, rfl⟩ := map_flag h
      obtain ⟨e1, e2, e3⟩ := CSys.setup_kept h1
      exact ⟨⟨b, rfl⟩, by rw [e1, e2], e3⟩
    | setInitStates xi =>
      obtain ⟨b, h1, rfl⟩ := map_flag h
      obtain ⟨e1, e2, e3⟩ := CSys.setInitStates_kept h1
      exact ⟨⟨b, rfl⟩, by rw [e1, e2], fun hi => e3.trans hi⟩
    | setDelay undef w nD v =>
      obtain ⟨b, h1, rfl⟩ := map_flag h
      unfold CSys.setDelay at h1
      split_ifs at h1 with hi
      · obtain ⟨t, _, h1⟩ := Out.bind_eq_ok.mp h1
        simp only [Out.pure_eq, Out.ok.injEq, Prod.mk.injEq] at h1
        rw [← h1.1]
        exact ⟨⟨b, rfl⟩, rfl, fun h => h⟩
      · simp only [Out.pure_eq, Out.ok.injEq, Prod.mk.injEq] at h1
        rw [← h1.1]
        exact ⟨⟨b, rfl⟩, rfl, fun h => h⟩
    | setIntegrationMethod m =>
      obtain ⟨b, h1, rfl⟩ := map_flag h
      obtain ⟨e1, e2, e3⟩ := CSys.setIntegrationMethod_kept h1
      exact ⟨⟨b, rfl⟩, by rw [e1, e2], fun hi => e3.trans hi⟩

/-- **C50** (continuous systems) accepting limits: exactly the ordered pairs on an initialised system;
excitation of a system that is not initialised returns 0 and changes nothing. -/
theorem C50_continuous_accept (s : CSys R) (lo hi u : R) :
    ((s.setSaturation lo hi).2 = true ↔ s.isInitialized = true ∧ (lo <. hi) = true) ∧
    (s.isInitialized = false → s.excite u = .ok (s, lit 0)) := by
  constructor
  · unfold CSys.setSaturation
    split_ifs with h
    · simpa using h
    · simpa using h
  · intro h
    unfold CSys.excite
    rw [h]; rfl

theorem CSys.update_delay (s : CSys R) (d : Option (Tdl.Tdl R)) (u : R) :
    { s with delay := d }.update u = (fun r => ({ r.1 with delay := d }, r.2)) <$> s.update u := by
  unfold CSys.update
  dsimp only
  cases s.xc with
  | none => rfl
  | some xc =>
    dsimp only
    generalize (if s.n = 1 then _ else _ : Out (R × R × Array (Numa.NState R))) = q
    cases q with
    | ub => rfl
    | diverge => rfl
    | ok r =>
      obtain ⟨d0, y, x⟩ := r
      simp only [Out.bind_ok]
      cases rdArr x 0 with
      | ub => rfl
      | diverge => rfl
      | ok st =>
        simp only [Out.bind_ok]
        cases wrArr x 0 (st.integrate d0 s.dt).1 with
        | ub => rfl
        | diverge => rfl
        | ok x =>
          simp only [Out.bind_ok]
          cases rdArr s.num 1 with
          | ub => rfl
          | diverge => rfl
          | ok b =>
            simp only [Out.bind_ok]
            cases rdArr s.den 1 <;> rfl

/-- **C62** (continuous systems) an input delay set with a window of `nD ≥ 1` cells delays the input by
`nD - 1` samples (the initial value first): the outputs are those of the system without delay on the
delayed inputs, undefined behaviour included. -/
theorem C62_continuous_delay (s : CSys R) (hi : s.isInitialized = true) (undef v : R) (w : Array R)
    (nD : Nat) (hn : 0 < nD) (hw : nD ≤ w.size) :
    ∃ s1, s.setDelay undef w nD v = .ok (s1, true) ∧ ∀ us : List R,
      Prod.snd <$> feedAll CSys.excite s1 us
        = Prod.snd <$> feedAll CSys.excite { s with delay := none }
            ((List.range us.length).map fun k => at' v us k (nD - 1)) := by
  obtain ⟨t, h1, _, h2⟩ := Tdl.inv_setup undef w nD v hn hw
  refine ⟨{ s with delay := some t }, ?_, fun us => ?_⟩
  · unfold CSys.setDelay
    rw [if_pos hi, h1]; rfl
  · have h0 : (fun i => at' v [] (([] : List R).length - 1) i) = fun _ => v := by
      funext i; simp [at']
    rw [← h0] at h2
    have hk := feed_delayed CSys.excite w nD v us [] { s with delay := none } t h2
    simp only [List.nil_append, List.length_nil, Nat.zero_add] at hk
    rw [← hk]
    refine feed_bisim CSys.excite (withDelay CSys.excite)
      (fun s => ({ s with delay := none }, s.delay)) (fun s => s.isInitialized = true) ?_ us
      { s with delay := some t } hi
    intro s u hs
    constructor
    · unfold withDelay CSys.excite
      rw [if_pos hs]
      cases delayInput s.delay u with
      | ub => rfl
      | diverge => rfl
      | ok r =>
        obtain ⟨t, u⟩ := r
        have hs' : ({ s with delay := none } : CSys R).isInitialized = true := hs
        simp only [Out.bind_ok, hs', if_true, delayInput, Out.pure_eq]
        rw [CSys.update_delay s t, CSys.update_delay s none]
        cases s.update u <;> rfl
    · intro s' y h
      exact (CSys.excite_kept h).2.1.trans hs

end Continuous

-- C50, C62: an integrator with limits, and a delayed identity
example : Prod.snd <$> feedAll CSys.excite (⟨#[0, 1], #[1, 0], some #[⟨0, 0, 0, .rectangular, .twoPoints⟩],
    1, 1 / 2, 0, -1, 1, true, none⟩ : CSys ℚ) [1, 2, 3, -20] = .ok [1 / 2, 1, 1, -1] := by
  decide +kernel

example : ∃ s1 : DSys ℚ, (⟨#[1], #[1], some #[0], 1, 0, 1, 1, -5, 5, true, none⟩ : DSys ℚ).setDelay
      0 #[7, 7, 7] 3 4 = .ok (s1, true) ∧
    Prod.snd <$> feedAll DSys.excite s1 [1, 2, 3] = .ok [4, 4, 1] := by
  refine ⟨⟨#[1], #[1], some #[0], 1, 0, 1, 1, -5, 5, true, ?_⟩, ?_⟩
  · exact (match Tdl.setup (0 : ℚ) #[7, 7, 7] 3 4 with | .ok t => some t | _ => none)
  · decide +kernel

end Verif.Ltisys
