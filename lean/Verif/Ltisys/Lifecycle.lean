import Verif.Ltisys.Model
import Verif.F32.Error
import Mathlib.Tactic.Linarith

/-!
# Life cycle of linear systems (C171) and the number of delays for a time (C172)
-/

namespace Verif.Ltisys

open Arith

section
variable {R : Type} [Arith R]

/-- **C171** (before setup) a new system is not initialised; every system that is not initialised refuses all configuration, keeps its
members, and answers every input with zero. -/
theorem C171_refused : (DSys.new : DSys R).isInitialized = false ∧ (CSys.new : CSys R).isInitialized = false ∧
    (∀ s : DSys R, s.isInitialized = false → (∀ undef w nD v, s.setDelay undef w nD v = .ok (s, false)) ∧
      (∀ lo hi, s.setSaturation lo hi = (s, false)) ∧ (∀ xi, s.setInitStates xi = .ok (s, false)) ∧
      ∀ u, s.excite u = .ok (s, lit 0)) ∧
    (∀ s : CSys R, s.isInitialized = false → (∀ undef w nD v, s.setDelay undef w nD v = .ok (s, false)) ∧
      (∀ lo hi, s.setSaturation lo hi = (s, false)) ∧ (∀ xi, s.setInitStates xi = .ok (s, false)) ∧
      (∀ m, s.setIntegrationMethod m = .ok (s, false)) ∧ ∀ u, s.excite u = .ok (s, lit 0)) := by
  refine ⟨rfl, rfl, fun s h => ?_, fun s h => ?_⟩
  · refine ⟨fun _ _ _ _ => ?_, fun _ _ => ?_, fun _ => ?_, fun _ => ?_⟩
    · rw [DSys.setDelay, h]; rfl
    · rw [DSys.setSaturation, h]; rfl
    · unfold DSys.isInitialized at h
      rw [DSys.setInitStates]
      split
      · rename_i h1 h2; rw [h1, h2] at h; simp at h
      · rfl
    · rw [DSys.excite, h]; rfl
  · refine ⟨fun _ _ _ _ => ?_, fun _ _ => ?_, fun _ => ?_, fun _ => ?_, fun _ => ?_⟩
    · rw [CSys.setDelay, h]; rfl
    · rw [CSys.setSaturation, h]; rfl
    · unfold CSys.isInitialized at h
      unfold CSys.setInitStates
      split
      · rename_i h1 h2; rw [h1, h2] at h; simp at h
      · rfl
    · unfold CSys.isInitialized at h
      rw [CSys.setIntegrationMethod]
      split
      · rename_i h1 h2; rw [h1, h2] at h; simp at h
      · rfl
    · rw [CSys.excite, h]; rfl

theorem dInit_kept {s s' : DSys R} {xi : Option (Array R)} {b : Bool} (h : s.setInitStates xi = .ok (s', b)) (hi : s.isInitialized = true) :
    b = true ∧ s'.isInitialized = true := by
  unfold DSys.isInitialized at hi ⊢
  unfold DSys.setInitStates at h
  split at h
  · rename_i h1 h2
    obtain ⟨x, _, h⟩ := Out.bind_eq_ok.mp h
    simp only [Out.pure_eq, Out.ok.injEq, Prod.mk.injEq] at h
    obtain ⟨rfl, rfl⟩ := h
    exact ⟨rfl, by simp [h2]⟩
  · rename_i h1
    cases hx : s.xd with
    | none => rw [hx] at hi; simp at hi
    | some x => rw [hx] at hi; exact absurd (by simpa using hi) (h1 x hx)

theorem cInit_kept {s s' : CSys R} {xi : Option (Array R)} {b : Bool} (h : s.setInitStates xi = .ok (s', b)) (hi : s.isInitialized = true) :
    b = true ∧ s'.isInitialized = true := by
  unfold CSys.isInitialized at hi ⊢
  unfold CSys.setInitStates at h
  split at h
  · rename_i h1 h2
    obtain ⟨v, _, h⟩ := Out.bind_eq_ok.mp h
    obtain ⟨x, _, h⟩ := Out.bind_eq_ok.mp h
    simp only [Out.pure_eq, Out.ok.injEq, Prod.mk.injEq] at h
    obtain ⟨rfl, rfl⟩ := h
    exact ⟨rfl, by simp [h2]⟩
  · rename_i h1
    cases hx : s.xc with
    | none => rw [hx] at hi; simp at hi
    | some x => rw [hx] at hi; exact absurd (by simpa using hi) (h1 x hx)

/-- **C171** (setup, discrete) `setup` accepts exactly when no pointer is null and there is a numerator; then the system is initialised;
otherwise nothing changes. -/
theorem C171_setup_discrete {s s' : DSys R} {num den x : Option (Array R)} {n_b n_a : Nat} {b : Bool}
    (h : s.setup num den x n_b n_a = .ok (s', b)) :
    (b = true ↔ num.isSome = true ∧ den.isSome = true ∧ x.isSome = true ∧ 0 < n_b) ∧ (b = true → s'.isInitialized = true) ∧
      (b = false → s' = s) := by
  unfold DSys.setup at h
  split at h
  · rename_i num den x
    split_ifs at h with h1 h2
    · obtain ⟨⟨p, q, r⟩, _, h⟩ := Out.bind_eq_ok.mp h
      obtain ⟨⟨s1, b1⟩, h3, h⟩ := Out.bind_eq_ok.mp h
      simp only [Out.pure_eq, Out.ok.injEq, Prod.mk.injEq] at h
      obtain ⟨rfl, rfl⟩ := h
      have := dInit_kept h3 rfl
      exact ⟨by simpa using h1, fun _ => this.2, by simp⟩
    · simp only [Out.pure_eq, Out.ok.injEq, Prod.mk.injEq] at h
      obtain ⟨rfl, rfl⟩ := h
      exact ⟨by simp; omega, by simp, by simp⟩
  · rename_i h1
    simp only [Out.pure_eq, Out.ok.injEq, Prod.mk.injEq] at h
    obtain ⟨rfl, rfl⟩ := h
    refine ⟨?_, by simp, by simp⟩
    simp only [Bool.false_eq_true, false_iff]
    rintro ⟨a1, a2, a3, _⟩
    obtain ⟨p, rfl⟩ := Option.isSome_iff_exists.mp a1
    obtain ⟨q, rfl⟩ := Option.isSome_iff_exists.mp a2
    obtain ⟨r, rfl⟩ := Option.isSome_iff_exists.mp a3
    exact h1 p q r rfl rfl rfl

/-- **C171** (setup, continuous) the same, with an order of at least one. -/
theorem C171_setup_continuous {s s' : CSys R} {num den : Option (Array R)} {x : Option (Array (Numa.NState R))} {nD : Nat} {dT : R}
    {b : Bool} (h : s.setup num den x nD dT = .ok (s', b)) :
    (b = true ↔ num.isSome = true ∧ den.isSome = true ∧ x.isSome = true ∧ 0 < nD) ∧ (b = true → s'.isInitialized = true) ∧
      (b = false → s' = s) := by
  unfold CSys.setup at h
  split at h
  · rename_i num den x
    split_ifs at h with h1
    · obtain ⟨⟨p, q, r⟩, _, h⟩ := Out.bind_eq_ok.mp h
      obtain ⟨⟨s1, b1⟩, h3, h⟩ := Out.bind_eq_ok.mp h
      simp only [Out.pure_eq, Out.ok.injEq, Prod.mk.injEq] at h
      obtain ⟨rfl, rfl⟩ := h
      have := cInit_kept h3 rfl
      exact ⟨by simp; omega, fun _ => this.2, by simp⟩
    · simp only [Out.pure_eq, Out.ok.injEq, Prod.mk.injEq] at h
      obtain ⟨rfl, rfl⟩ := h
      exact ⟨by simp; omega, by simp, by simp⟩
  · rename_i h1
    simp only [Out.pure_eq, Out.ok.injEq, Prod.mk.injEq] at h
    obtain ⟨rfl, rfl⟩ := h
    refine ⟨?_, by simp, by simp⟩
    simp only [Bool.false_eq_true, false_iff]
    rintro ⟨a1, a2, a3, _⟩
    obtain ⟨p, rfl⟩ := Option.isSome_iff_exists.mp a1
    obtain ⟨q, rfl⟩ := Option.isSome_iff_exists.mp a2
    obtain ⟨r, rfl⟩ := Option.isSome_iff_exists.mp a3
    exact h1 p q r rfl rfl rfl

omit [Arith R] in
theorem copyLoop_spec (xi : Array R) (k i : Nat) (x : Array R) (h1 : i + k ≤ x.size) (h2 : i + k ≤ xi.size) :
    ∃ x', copyLoop xi k i x = .ok x' ∧ x'.size = x.size ∧
      ∀ j, rdArr x' j = if i ≤ j ∧ j < i + k then rdArr xi j else rdArr x j := by
  induction k generalizing i x with
  | zero => exact ⟨x, rfl, rfl, fun j => by rw [if_neg (by omega)]⟩
  | succ k ih =>
    have hi : i < x.size := by omega
    obtain ⟨x', e1, e2, e3⟩ := ih (i + 1) (x.set i xi[i]) (by simp; omega) (by omega)
    refine ⟨x', ?_, by simpa using e2, fun j => ?_⟩
    · rw [copyLoop, rdArr_ok (by omega), Out.bind_ok, wrArr_ok hi, Out.bind_ok, e1]
    · rw [e3 j, rdArr_set hi]
      by_cases c : i = j
      · subst c
        rw [if_neg (by omega), if_pos rfl, if_pos (by omega), rdArr_ok]
      · rw [if_neg c]
        by_cases d : i + 1 ≤ j ∧ j < i + 1 + k
        · rw [if_pos d, if_pos (by omega)]
        · rw [if_neg d, if_neg (by omega)]

theorem zeroLoop_spec (k i : Nat) (x : Array R) (h1 : i + k ≤ x.size) :
    ∃ x', zeroLoop k i x = .ok x' ∧ x'.size = x.size ∧
      ∀ j, rdArr x' j = if i ≤ j ∧ j < i + k then .ok (lit 0) else rdArr x j := by
  induction k generalizing i x with
  | zero => exact ⟨x, rfl, rfl, fun j => by rw [if_neg (by omega)]⟩
  | succ k ih =>
    have hi : i < x.size := by omega
    obtain ⟨x', e1, e2, e3⟩ := ih (i + 1) (x.set i (lit 0)) (by simp; omega)
    refine ⟨x', ?_, by simpa using e2, fun j => ?_⟩
    · rw [zeroLoop, wrArr_ok hi, Out.bind_ok, e1]
    · rw [e3 j, rdArr_set hi]
      by_cases c : i = j
      · subst c
        rw [if_neg (by omega), if_pos rfl, if_pos (by omega)]
      · rw [if_neg c]
        by_cases d : i + 1 ≤ j ∧ j < i + 1 + k
        · rw [if_pos d, if_pos (by omega)]
        · rw [if_neg d, if_neg (by omega)]

/-- **C171** (initial states, discrete) the given values become the states, in order; a null pointer gives zeros; nothing else changes. -/
theorem C171_states_discrete (s : DSys R) (x : Array R) (hx : s.xd = some x) (hd : s.discrete = true) (hn : s.n ≤ x.size) :
    (∀ xi : Array R, s.n ≤ xi.size → ∃ x', s.setInitStates (some xi) = .ok ({ s with xd := some x' }, true) ∧ x'.size = x.size ∧
      ∀ j, rdArr x' j = if j < s.n then rdArr xi j else rdArr x j) ∧
    ∃ x', s.setInitStates none = .ok ({ s with xd := some x' }, true) ∧ x'.size = x.size ∧
      ∀ j, rdArr x' j = if j < s.n then .ok (lit 0) else rdArr x j := by
  constructor
  · intro xi hxi
    obtain ⟨x', e1, e2, e3⟩ := copyLoop_spec xi s.n 0 x (by omega) (by omega)
    refine ⟨x', ?_, e2, fun j => ?_⟩
    · simp only [DSys.setInitStates, hx, hd, e1, Out.bind_ok, Out.pure_eq]
    · rw [e3 j]; simp
  · obtain ⟨x', e1, e2, e3⟩ := zeroLoop_spec s.n 0 x (by omega)
    refine ⟨x', ?_, e2, fun j => ?_⟩
    · simp only [DSys.setInitStates, hx, hd, e1, Out.bind_ok, Out.pure_eq]
    · rw [e3 j]; simp

omit [Arith R] in
theorem initLoop_spec (v : R) (k i : Nat) (x : Array (Numa.NState R)) (h1 : i + k ≤ x.size) :
    ∃ x', initLoop v k i x = .ok x' ∧ x'.size = x.size ∧
      ∀ j, rdArr x' j = if i ≤ j ∧ j < i + k then (fun st => st.init v v v) <$> rdArr x j else rdArr x j := by
  induction k generalizing i x with
  | zero => exact ⟨x, rfl, rfl, fun j => by rw [if_neg (by omega)]⟩
  | succ k ih =>
    have hi : i < x.size := by omega
    obtain ⟨x', e1, e2, e3⟩ := ih (i + 1) (x.set i (x[i].init v v v)) (by simp; omega)
    refine ⟨x', ?_, by simpa using e2, fun j => ?_⟩
    · rw [initLoop, rdArr_ok hi, Out.bind_ok, wrArr_ok hi, Out.bind_ok, e1]
    · rw [e3 j, rdArr_set hi]
      by_cases c : i = j
      · subst c
        rw [if_neg (by omega), if_pos rfl, if_pos (by omega), rdArr_ok hi]; rfl
      · rw [if_neg c]
        by_cases d : i + 1 ≤ j ∧ j < i + 1 + k
        · rw [if_pos d, if_pos (by omega)]
        · rw [if_neg d, if_neg (by omega)]

/-- **C171** (initial states, continuous, part) every state gets the **first** of the given values (value and both past derivatives), a null
pointer gives zeros; the integration methods and everything else stay. Missing: state `j` gets the value `j` (`C171_states_continuous_false`);
the two agree for systems of the first order. -/
theorem C171_states_continuous_partial (s : CSys R) (x : Array (Numa.NState R)) (hx : s.xc = some x) (hc : s.continuous = true)
    (hn : s.n ≤ x.size) :
    (∀ (xi : Array R) (v : R), rdArr xi 0 = .ok v → ∃ x', s.setInitStates (some xi) = .ok ({ s with xc := some x' }, true) ∧
      x'.size = x.size ∧ ∀ j, rdArr x' j = if j < s.n then (fun st => { st with x0 := v, x1 := v, x2 := v }) <$> rdArr x j else rdArr x j) ∧
    ∃ x', s.setInitStates none = .ok ({ s with xc := some x' }, true) ∧ x'.size = x.size ∧
      ∀ j, rdArr x' j = if j < s.n then (fun st => { st with x0 := lit 0, x1 := lit 0, x2 := lit 0 }) <$> rdArr x j else rdArr x j := by
  constructor
  · intro xi v hv
    obtain ⟨x', e1, e2, e3⟩ := initLoop_spec v s.n 0 x (by omega)
    refine ⟨x', ?_, e2, fun j => ?_⟩
    · simp only [CSys.setInitStates, hx, hc, hv, e1, Out.bind_ok, Out.pure_eq]
    · rw [e3 j]; simp only [Nat.zero_le, true_and, Nat.zero_add]; rfl
  · obtain ⟨x', e1, e2, e3⟩ := initLoop_spec (lit 0) s.n 0 x (by omega)
    refine ⟨x', ?_, e2, fun j => ?_⟩
    · simp only [CSys.setInitStates, hx, hc, e1, Out.bind_ok, Out.pure_eq]
    · rw [e3 j]; simp only [Nat.zero_le, true_and, Nat.zero_add]; rfl

end

/-- A second order system with the states at zero, for the examples (not a definition of the repository). -/
def exampleC : CSys (BitVec 32) :=
  { CSys.new with xc := some #[Numa.NState.new, Numa.NState.new], n := 2, continuous := true }

/-- **C171** (negation) with the initial states 1 and 2 a continuous system of the second order starts with 1 in both states. -/
theorem C171_states_continuous_false : ∃ s', exampleC.setInitStates (some #[F32.lit 1, F32.lit 2]) = .ok (s', true) ∧
    (s'.xc.map fun x => x.map fun st => st.x0) = some #[F32.lit 1, F32.lit 1] := by
  refine ⟨{ exampleC with xc := some #[Numa.NState.new.init (F32.lit 1) (F32.lit 1) (F32.lit 1),
    Numa.NState.new.init (F32.lit 1) (F32.lit 1) (F32.lit 1)] }, ?_, ?_⟩ <;> decide +kernel

/-- **C171** (default limits) the limits of a new system are the smallest positive normal number and the largest finite one. -/
theorem C171_limits : (∀ v, F32.Finite v → F32.val v ≤ F32.val (DSys.new : DSys (BitVec 32)).max) ∧
    F32.Finite (DSys.new : DSys (BitVec 32)).max ∧ F32.val (DSys.new : DSys (BitVec 32)).min = 1 / 2 ^ 126 ∧
    (CSys.new : CSys (BitVec 32)).max = (DSys.new : DSys (BitVec 32)).max ∧
    (CSys.new : CSys (BitVec 32)).min = (DSys.new : DSys (BitVec 32)).min := by
  have hm : (DSys.new : DSys (BitVec 32)).max = 0x7F7FFFFF#32 := by decide +kernel
  refine ⟨fun v hv => ?_, by rw [hm]; decide +kernel, by decide +kernel, rfl, rfl⟩
  rw [hm, F32.val_eq, F32.val_eq (0x7F7FFFFF#32)]
  have e : F32.neg 0x7F7FFFFF#32 = false ∧ F32.mag 0x7F7FFFFF#32 = 2139095039 := by decide +kernel
  rw [e.1, e.2]
  simp only [Bool.false_eq_true, if_false]
  have h := (F32.finite_iff v).1 hv
  have h1 := F32.mval_le_iff.2 (show F32.mag v ≤ 2139095039 by omega)
  have h0 := F32.mval_nonneg (F32.mag v)
  split_ifs <;> linarith

/-- Example: a system before and after its setup. -/
example : (DSys.new : DSys (BitVec 32)).isInitialized = false ∧
    ∃ s', (DSys.new : DSys (BitVec 32)).setup (some #[F32.lit 1]) (some #[F32.lit 2]) (some #[F32.lit 5]) 1 1 = .ok (s', true) ∧
      s'.xd = some #[F32.lit 0] ∧ s'.discrete = true ∧ s'.n = 1 := by
  refine ⟨rfl, DSys.mk #[F32.lit (1 / 2)] #[F32.lit 1] (some #[F32.lit 0]) 1 0 1 (F32.lit (1 / 2)) (F32.lit (1 / 2 ^ 126))
    (F32.lit ((2 ^ 24 - 1) * 2 ^ 104)) true none, ?_⟩
  decide +kernel

example : exampleC.isInitialized = true ∧ exampleC.n ≤ 2 := by decide +kernel

/-! ## Number of delays for a time -/

/-- **C172** (part) for a time between zero and 2^23 steps the number of delays is within half a step and a relative error of 1.2e-7 of
the quotient. Missing: within half a step without any addition (`C172_half_false`, `C172_large_false`). -/
theorem C172_delays_partial {W : Nat} (hW : 16777216 ≤ W) {T dt : BitVec 32} (fT : F32.Finite T) (fd : F32.Finite dt)
    (h0 : 0 ≤ F32.val T) (hd : 0 < F32.val dt) (hr : F32.val T / F32.val dt ≤ 8388608) :
    ∃ N, delayFromTime W T dt = .ok N ∧
      |(N : ℝ) - F32.val T / F32.val dt| ≤ 1 / 2 + 6e-8 + 1.2e-7 * (F32.val T / F32.val dt) := by
  obtain ⟨r, hrd⟩ : ∃ r : ℝ, r = (F32.val T : ℝ) / F32.val dt := ⟨_, rfl⟩
  have r1 : r ≤ 8388608 := by rw [hrd]; exact_mod_cast hr
  have r0 : 0 ≤ r := by rw [hrd]; exact_mod_cast div_nonneg h0 hd.le
  rw [← hrd]
  have dr : (F32.val dt : ℝ) ≠ 0 := by exact_mod_cast hd.ne'
  have dp : (0 : ℝ) < F32.val dt := by exact_mod_cast hd
  have n1 : F32.Near (F32.div T dt) r (r / 16777216 + 1e-45) := by
    have := F32.Near.div (e' := r / 16777216 + 1e-45) r (F32.val dt : ℝ) 0 r (F32.Near.self fT) (F32.Near.self fd) dr dp
      (by rw [abs_of_pos dp]; linarith) (by rw [← hrd, abs_of_nonneg r0]) (by simp) (by linarith) (by norm_num; linarith) (by linarith)
    rwa [← hrd] at this
  have hf : F32.Finite (F32.lit (1 / 2)) ∧ F32.val (F32.lit (1 / 2)) = 1 / 2 := by decide +kernel
  have nh : F32.Near (F32.lit (1 / 2)) (1 / 2) 0 := ⟨hf.1, by rw [hf.2]; norm_num⟩
  have n2 : F32.Near (F32.add (F32.div T dt) (F32.lit (1 / 2))) (r + 1 / 2) (6e-8 + 1.2e-7 * r) :=
    F32.Near.add (1.001 * r + 0.501) n1 nh (by rw [abs_of_nonneg (by linarith)]; norm_num; linarith) (by norm_num; linarith)
      (by norm_num; linarith)
  unfold delayFromTime
  obtain ⟨q, hq⟩ : ∃ q, q = F32.add (F32.div T dt) (F32.lit (1 / 2)) := ⟨_, rfl⟩
  have b := abs_le.mp n2.err
  have fin := n2.fin
  rw [← hq] at b fin
  have q0 : (0 : ℝ) ≤ F32.val q := by norm_num at b; linarith
  have q0' : 0 ≤ F32.val q := by exact_mod_cast q0
  have q1 : (F32.val q : ℝ) < 16777216 := by norm_num at b; linarith
  have q1' : F32.val q < 16777216 := by exact_mod_cast q1
  refine ⟨(F32.val q).floor.toNat, ?_, ?_⟩
  · simp only [← hq]
    rw [if_pos]
    refine ⟨fin, by linarith, q1'.trans_le ?_⟩
    exact_mod_cast hW
  · have f0 : 0 ≤ (F32.val q).floor := Int.floor_nonneg.2 q0'
    have f1 : ((F32.val q).floor : ℚ) ≤ F32.val q := Int.floor_le _
    have f2 : F32.val q < ((F32.val q).floor : ℚ) + 1 := Int.lt_floor_add_one _
    have e : (((F32.val q).floor.toNat : ℕ) : ℝ) = (((F32.val q).floor : ℤ) : ℝ) := by
      exact_mod_cast congrArg (Int.cast (R := ℝ)) (Int.toNat_of_nonneg f0)
    have f1' : (((F32.val q).floor : ℤ) : ℝ) ≤ F32.val q := by exact_mod_cast f1
    have f2' : (F32.val q : ℝ) < (((F32.val q).floor : ℤ) : ℝ) + 1 := by exact_mod_cast f2
    rw [e, abs_le]
    constructor <;> linarith [b.1, b.2]

/-- **C172** (whole numbers of steps) when the time is within a quarter of a step of `k` steps, `k ≤ 10^6`, the number of delays is `k`. -/
theorem C172_delays_exact {W : Nat} (hW : 16777216 ≤ W) {T dt : BitVec 32} (fT : F32.Finite T) (fd : F32.Finite dt)
    (h0 : 0 ≤ F32.val T) (hd : 0 < F32.val dt) (k : Nat) (hk : k ≤ 1000000) (hT : |F32.val T - k * F32.val dt| ≤ F32.val dt / 4) :
    delayFromTime W T dt = .ok k := by
  have q : |F32.val T / F32.val dt - k| ≤ 1 / 4 := by
    rw [show F32.val T / F32.val dt - k = (F32.val T - k * F32.val dt) / F32.val dt by field_simp, abs_div, abs_of_pos hd, div_le_iff₀ hd]
    linarith
  have hk' : (k : ℚ) ≤ 1000000 := by exact_mod_cast hk
  have b := abs_le.mp q
  obtain ⟨N, h1, h2⟩ := C172_delays_partial hW fT fd h0 hd (by linarith)
  have q' : |(F32.val T : ℝ) / F32.val dt - k| ≤ 1 / 4 := by
    have : ((|F32.val T / F32.val dt - k| : ℚ) : ℝ) ≤ ((1 / 4 : ℚ) : ℝ) := by exact_mod_cast q
    push_cast at this; exact this
  have k' : (k : ℝ) ≤ 1000000 := by exact_mod_cast hk
  have b' := abs_le.mp q'
  have c := abs_le.mp h2
  have l1 : (N : ℝ) < k + 1 := by norm_num at c; linarith
  have l2 : (k : ℝ) < N + 1 := by norm_num at c; linarith
  have m1 : N < k + 1 := by exact_mod_cast l1
  have m2 : k < N + 1 := by exact_mod_cast l2
  rw [h1, show N = k by omega]

/-- **C172** (negation) the time just below half a step gives one delay instead of none: the sum with one half is rounded up to one. -/
theorem C172_half_false : delayFromTime (2 ^ 64) 0x3EFFFFFF#32 (F32.lit 1) = .ok 1 ∧ F32.val 0x3EFFFFFF#32 < 1 / 2 := by
  decide +kernel

/-- **C172** (negation) 8388609 steps give 8388610 delays. -/
theorem C172_large_false : delayFromTime (2 ^ 64) (F32.lit 8388609) (F32.lit 1) = .ok 8388610 ∧ F32.val (F32.lit 8388609) = 8388609 := by
  decide +kernel

/-- **C172** (undefined behaviour) a step of zero. -/
theorem C172_zero_false : delayFromTime (2 ^ 64) (F32.lit 1) (F32.lit 0) = .ub := by decide +kernel

/-- Example: two and a half seconds with a step of 10 ms are 250 steps. -/
example : F32.Finite (F32.lit (5 / 2)) ∧ F32.Finite (F32.lit (1 / 100)) ∧ 0 ≤ F32.val (F32.lit (5 / 2)) ∧ 0 < F32.val (F32.lit (1 / 100)) ∧
    |F32.val (F32.lit (5 / 2)) - (250 : ℕ) * F32.val (F32.lit (1 / 100))| ≤ F32.val (F32.lit (1 / 100)) / 4 := by decide +kernel

end Verif.Ltisys
