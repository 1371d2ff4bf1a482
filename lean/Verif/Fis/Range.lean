import Verif.Fis.Model

/-!
# Values stay in their ranges (C56 for the operators, C57)
-/

namespace Verif.Fis

open Arith

variable {R : Type} [Arith R]

/-! ## Loops -/

theorem loop_partial {S : Type} {f : Nat → S → Out S} (P : Nat → S → Prop)
    (step : ∀ i s s', P i s → f i s = .ok s' → P (i + 1) s') :
    ∀ (k i : Nat) (s s' : S), P i s → loop f k i s = .ok s' → P (i + k) s' := by
  intro k
  induction k with
  | zero => intro i s s' h e; cases e; exact h
  | succ k ih =>
    intro i s s' h e
    rw [loop] at e
    obtain ⟨s1, e1, e2⟩ := Out.bind_eq_ok.mp e
    have := ih (i + 1) s1 s' (step i s s1 h e1) e2
    rwa [show i + (k + 1) = i + 1 + k by omega]

theorem loop_total {S : Type} {f : Nat → S → Out S} (n : Nat) (P : Nat → S → Prop)
    (step : ∀ i s, i < n → P i s → ∃ s', f i s = .ok s' ∧ P (i + 1) s') :
    ∀ (k i : Nat) (s : S), i + k = n → P i s → ∃ s', loop f k i s = .ok s' ∧ P n s' := by
  intro k
  induction k with
  | zero => intro i s hi h; exact ⟨s, rfl, by rw [← hi]; simpa using h⟩
  | succ k ih =>
    intro i s hi h
    obtain ⟨s1, e1, h1⟩ := step i s (by omega) h
    obtain ⟨s2, e2, h2⟩ := ih (i + 1) s1 (by omega) h1
    exact ⟨s2, by rw [loop, e1]; exact e2, h2⟩

/-! ## `bound` and the operators -/

/-- The value is a number of the closed interval. -/
def InRange (lo hi x : R) : Prop := (lo ≤. x) = true ∧ (x ≤. hi) = true

theorem bound_range [LawfulOrd R] (y lo hi : R) (h : (lo ≤. hi) = true) : InRange lo hi (bound y lo hi) := by
  obtain ⟨n1, n2⟩ := LawfulOrd.le_nan h
  unfold bound InRange
  cases hn : isNan y
  · simp only [Bool.false_eq_true, if_false]
    cases h1 : (y <. lo)
    · cases h2 : (hi <. y)
      · simp only [Bool.false_eq_true, if_false]
        exact ⟨LawfulOrd.le_of_not_lt hn n1 h1, LawfulOrd.le_of_not_lt n2 hn h2⟩
      · simp only [Bool.false_eq_true, if_false, if_true]
        exact ⟨h, LawfulOrd.le_refl n2⟩
    · simp only [if_true]
      exact ⟨LawfulOrd.le_refl n1, h⟩
  · simp only [if_true]
    exact ⟨LawfulOrd.le_refl n1, h⟩

theorem le01 [LawfulOrd R] : ((lit 0 : R) ≤. lit 1) = true := by
  apply LawfulOrd.le_of_lt
  have := LawfulOrd.lit_lt (R := R) (m := 0) (n := 1) (by norm_num) (by norm_num) (by norm_num)
  simpa using this

/-- **C56** the five operators give a number in [0, 1] whatever their arguments (NaN and infinities included)
and whatever the rounding, and so does the height of a membership function and the degree read from a set. -/
theorem C56_operators [LawfulOrd R] (o : Op) (a b : R) :
    InRange (lit 0) (lit 1) (o.app a b) ∧ InRange (lit 0) (lit 1) (bound01 a) := by
  have h := fun x : R => bound_range x (lit 0) (lit 1) le01
  refine ⟨?_, h a⟩
  cases o <;> exact h _

example : Op.app .sum (3 / 4 : ℚ) (1 / 2) = 1 ∧ Op.app .probOr (3 / 4 : ℚ) (1 / 2) = 7 / 8 ∧
    Op.app .min (-3 : ℚ) 2 = 0 ∧ Op.app .max (-3 : ℚ) 2 = 1 ∧ Op.app .prod (1 / 2 : ℚ) (1 / 2) = 1 / 4 := by
  decide +kernel

/-! ## What aggregation preserves -/

/-- The ranges and values of the outputs. -/
def ios (s : Inst R) : Array (IO R) := s.xOutput.map (fun o => o.io)

/-- The members aggregation does not touch. -/
def Keeps (s s' : Inst R) : Prop :=
  ios s' = ios s ∧ s'.nOutputs = s.nOutputs ∧ s'.deFuzz = s.deFuzz ∧ s'.nPoints = s.nPoints

omit [Arith R] in
theorem wr_ios {a a' : Array (Output R)} {i : Nat} {v o : Output R} (hv : rdArr a i = .ok o) (he : v.io = o.io)
    (h : wrArr a i v = .ok a') : a'.map (fun o => o.io) = a.map (fun o => o.io) := by
  unfold wrArr at h
  unfold rdArr at hv
  split at h
  · rename_i hi
    rw [dif_pos hi] at hv
    cases h; cases hv
    apply Array.ext_getElem?
    intro j
    simp only [Array.getElem?_map, Array.getElem?_set]
    by_cases hj : i = j
    · subst hj; simp [hi, he]
    · simp [hj]
  · cases h

theorem apply_ios {s : Inst R} {a b : Int} {neg : Bool} {w : R} {xo : Array (Output R)} {mo : Array (MF R)}
    (h : applyConsequent s a b neg w = .ok (xo, mo)) :
    xo.map (fun o => o.io) = s.xOutput.map (fun o => o.io) := by
  unfold applyConsequent at h
  obtain ⟨ai, e1, h⟩ := Out.bind_eq_ok.mp h
  obtain ⟨o, e2, h⟩ := Out.bind_eq_ok.mp h
  obtain ⟨bi, e3, h⟩ := Out.bind_eq_ok.mp h
  obtain ⟨m, e4, h⟩ := Out.bind_eq_ok.mp h
  split at h
  · obtain ⟨⟨m', v⟩, e5, h⟩ := Out.bind_eq_ok.mp h
    obtain ⟨xo', e6, h⟩ := Out.bind_eq_ok.mp h
    obtain ⟨mo', e7, h⟩ := Out.bind_eq_ok.mp h
    cases h
    exact wr_ios e2 (by rfl) e6
  · obtain ⟨⟨m', v⟩, e5, h⟩ := Out.bind_eq_ok.mp h
    obtain ⟨xo', e6, h⟩ := Out.bind_eq_ok.mp h
    obtain ⟨mo', e7, h⟩ := Out.bind_eq_ok.mp h
    cases h
    exact wr_ios e2 (by rfl) e6

theorem consequent_keeps {s s' : Inst R} {i i' : Nat} (h : inferenceConsequent s i = .ok (s', i')) : Keeps s s' := by
  unfold inferenceConsequent at h
  obtain ⟨o, e1, h⟩ := Out.bind_eq_ok.mp h
  obtain ⟨mf, e2, h⟩ := Out.bind_eq_ok.mp h
  obtain ⟨c, e3, h⟩ := Out.bind_eq_ok.mp h
  dsimp only at h
  split at h
  · cases h
  · obtain ⟨w, e4, h⟩ := Out.bind_eq_ok.mp h
    obtain ⟨⟨xo, mo⟩, e5, h⟩ := Out.bind_eq_ok.mp h
    dsimp only at h
    have hio : xo.map (fun o => o.io) = s.xOutput.map (fun o => o.io) := by
      split at e5
      · exact apply_ios e5
      · cases e5; rfl
    split at h <;> cases h <;> exact ⟨hio, rfl, rfl, rfl⟩

omit [Arith R] in
theorem find_keeps {s s' : Inst R} {i i' : Nat} (h : aggregationFindConsequent s i = .ok (s', i')) : Keeps s s' := by
  unfold aggregationFindConsequent at h
  obtain ⟨j, _, h⟩ := Out.bind_eq_ok.mp h
  cases h
  exact ⟨rfl, rfl, rfl, rfl⟩

omit [Arith R] in
theorem Keeps.trans {s s' s'' : Inst R} (h : Keeps s s') (h' : Keeps s' s'') : Keeps s s'' :=
  ⟨h'.1.trans h.1, h'.2.1.trans h.2.1, h'.2.2.1.trans h.2.2.1, h'.2.2.2.trans h.2.2.2⟩

theorem aggregateLoop_keeps (fuel : Nat) : ∀ (s s' : Inst R) (i : Nat), aggregateLoop fuel s i = .ok s' →
    Keeps s s' := by
  induction fuel with
  | zero => intro s s' i h; cases h
  | succ f ih =>
    intro s s' i h
    rw [aggregateLoop] at h
    obtain ⟨c, _, h⟩ := Out.bind_eq_ok.mp h
    split at h
    · obtain ⟨⟨s1, i1⟩, e, h⟩ := Out.bind_eq_ok.mp h
      have hk : Keeps s s1 := by
        cases hst : s.aggState
        · rw [hst] at e; exact find_keeps e
        · rw [hst] at e; exact consequent_keeps e
      dsimp only at h
      split at h
      · cases h; exact hk
      · exact hk.trans (ih _ _ _ h)
    · cases h; exact ⟨rfl, rfl, rfl, rfl⟩

theorem aggregate_keeps {s s' : Inst R} (h : fuzzyAggregate s = .ok s') : Keeps s s' := by
  unfold fuzzyAggregate at h
  obtain ⟨c, _, h⟩ := Out.bind_eq_ok.mp h
  split at h
  · exact (aggregateLoop_keeps _ _ _ _ h : _)
  · cases h; exact ⟨rfl, rfl, rfl, rfl⟩

/-! ## De-fuzzification -/

/-- The same outputs with the same limits, and the same values outside of output `i`. -/
def Limits (s s' : Inst R) (P : Nat → Prop) : Prop :=
  s'.nOutputs = s.nOutputs ∧ s'.xOutput.size = s.xOutput.size ∧
  ∀ (j : Nat) (o o' : Output R), s.xOutput[j]? = some o → s'.xOutput[j]? = some o' →
    o'.io.min = o.io.min ∧ o'.io.max = o.io.max ∧ (¬ P j → o'.io.value = o.io.value)

omit [Arith R] in
theorem Limits.refl (s : Inst R) (P : Nat → Prop) : Limits s s P :=
  ⟨rfl, rfl, fun j o o' h h' => by rw [h] at h'; cases h'; exact ⟨rfl, rfl, fun _ => rfl⟩⟩

omit [Arith R] in
theorem Limits.trans {s s' s'' : Inst R} {P : Nat → Prop} (h : Limits s s' P) (h' : Limits s' s'' P) :
    Limits s s'' P := by
  refine ⟨h'.1.trans h.1, h'.2.1.trans h.2.1, fun j o o'' e e'' => ?_⟩
  have hj : j < s'.xOutput.size := by
    have := (Array.getElem?_eq_some_iff.mp e).1
    rw [h.2.1]; exact this
  have h1 := h.2.2 j o s'.xOutput[j] e (by simp [hj])
  have h2 := h'.2.2 j s'.xOutput[j] o'' (by simp [hj]) e''
  exact ⟨h2.1.trans h1.1, h2.2.1.trans h1.2.1, fun hp => (h2.2.2 hp).trans (h1.2.2 hp)⟩

omit [Arith R] in
theorem Limits.mono {s s' : Inst R} {P Q : Nat → Prop} (h : Limits s s' P) (hq : ∀ j, P j → Q j) : Limits s s' Q :=
  ⟨h.1, h.2.1, fun j o o' e e' => ⟨(h.2.2 j o o' e e').1, (h.2.2 j o o' e e').2.1,
    fun hn => (h.2.2 j o o' e e').2.2 (fun hp => hn (hq j hp))⟩⟩

omit [Arith R] in
theorem keeps_limits {s s' : Inst R} (h : Keeps s s') (P : Nat → Prop) : Limits s s' P := by
  have hs : s'.xOutput.size = s.xOutput.size := by
    have := congrArg Array.size h.1
    simpa [ios] using this
  refine ⟨h.2.1, hs, fun j o o' e e' => ?_⟩
  have := congrArg (fun a => a[j]?) h.1
  simp [ios, e, e'] at this
  rw [this]
  exact ⟨rfl, rfl, fun _ => rfl⟩

omit [Arith R] in
theorem write_limits {s : Inst R} {i : Nat} {v o : Output R} {a' : Array (Output R)} (hv : rdArr s.xOutput i = .ok o)
    (h1 : v.io.min = o.io.min) (h2 : v.io.max = o.io.max) (h : wrArr s.xOutput i v = .ok a') :
    Limits s { s with xOutput := a' } (fun j => j = i) := by
  unfold wrArr at h
  unfold rdArr at hv
  split at h
  · rename_i hi
    rw [dif_pos hi] at hv
    cases h; cases hv
    refine ⟨rfl, by simp, fun j u u' e e' => ?_⟩
    simp only [Array.getElem?_set] at e'
    by_cases hj : i = j
    · subst hj
      simp [hi] at e e'
      subst e e'
      exact ⟨h1, h2, fun h => absurd rfl h⟩
    · simp only [hj, if_false] at e'
      rw [e] at e'; cases e'
      exact ⟨rfl, rfl, fun _ => rfl⟩
  · cases h

omit [Arith R] in
theorem over_limits {f : Output R → Out (Output R)}
    (hf : ∀ o o', f o = .ok o' → o'.io.min = o.io.min ∧ o'.io.max = o.io.max) {s s' : Inst R}
    (h : overOutputs f s = .ok s') : Limits s s' (fun _ => True) := by
  unfold overOutputs at h
  refine loop_partial (fun _ t => Limits s t (fun _ => True)) ?_ _ 0 s s' (Limits.refl _ _) h
  intro i t t' ht e
  obtain ⟨o, e1, e⟩ := Out.bind_eq_ok.mp e
  obtain ⟨o', e2, e⟩ := Out.bind_eq_ok.mp e
  obtain ⟨a, e3, e⟩ := Out.bind_eq_ok.mp e
  cases e
  have := hf o o' e2
  exact ht.trans ((write_limits e1 this.1 this.2 e3).mono (fun _ _ => trivial))

theorem init_io (m : Method) (o : Output R) : (m.init o).io = o.io := by cases m <;> rfl

theorem compute_io (m : Method) (o : Output R) : (m.compute o).io = o.io := by
  cases m <;> simp only [Method.compute] <;> repeat' split
  all_goals rfl

theorem computePoint_io {m : Method} {k : Nat} {o o' : Output R} (h : computePoint m k o = .ok o') : o'.io = o.io := by
  unfold computePoint at h
  dsimp only at h
  split at h
  · cases h; exact compute_io m o
  · obtain ⟨a, _, h⟩ := Out.bind_eq_ok.mp h
    obtain ⟨b, _, h⟩ := Out.bind_eq_ok.mp h
    cases h
    exact compute_io m o

theorem mamdaniPoint_limits {k : Nat} {s s' : Inst R} (h : mamdaniPoint k s = .ok s') :
    Limits s s' (fun _ => True) := by
  unfold mamdaniPoint at h
  obtain ⟨s1, e1, h⟩ := Out.bind_eq_ok.mp h
  obtain ⟨s2, e2, h⟩ := Out.bind_eq_ok.mp h
  refine (over_limits ?_ e1).trans ((keeps_limits (aggregate_keeps e2) _).trans (over_limits ?_ h))
  · intro o o' e; cases e; exact ⟨rfl, rfl⟩
  · intro o o' e; rw [computePoint_io e]; exact ⟨rfl, rfl⟩

theorem bisector_limits (j : Nat) (n : Nat) : ∀ (k : Nat) (s s' : Inst R), bisectorLoop j n k s = .ok s' →
    Limits s s' (fun i => i = j) := by
  induction n with
  | zero => intro k s s' h; cases h; exact Limits.refl _ _
  | succ n ih =>
    intro k s s' h
    rw [bisectorLoop] at h
    obtain ⟨o, e1, h⟩ := Out.bind_eq_ok.mp h
    obtain ⟨a, e2, h⟩ := Out.bind_eq_ok.mp h
    obtain ⟨s1, e3, h⟩ := Out.bind_eq_ok.mp h
    obtain ⟨o1, e4, h⟩ := Out.bind_eq_ok.mp h
    obtain ⟨a1, e5, h⟩ := Out.bind_eq_ok.mp h
    have h1 : Limits s _ (fun i => i = j) := write_limits e1 (by rfl) (by rfl) e2
    have h2 := h1.trans (keeps_limits (aggregate_keeps e3) _)
    have h3 : Limits s _ (fun i => i = j) := h2.trans (write_limits e4 (by rfl) (by rfl) e5)
    dsimp only at h
    split at h
    · cases h; exact h3
    · exact h3.trans (ih _ _ _ h)

theorem end_limits {s s' : Inst R} {j : Nat} {d : R} (h : deFuzzEnd s j = .ok (s', d)) :
    Limits s s' (fun i => i = j) := by
  unfold deFuzzEnd at h
  obtain ⟨o, e1, h⟩ := Out.bind_eq_ok.mp h
  split at h
  case h_2 =>
    obtain ⟨a, e2, h⟩ := Out.bind_eq_ok.mp h
    obtain ⟨s1, e3, h⟩ := Out.bind_eq_ok.mp h
    obtain ⟨o1, e4, h⟩ := Out.bind_eq_ok.mp h
    cases h
    exact (write_limits e1 (by rfl) (by rfl) e2).trans (bisector_limits j _ _ _ _ e3)
  all_goals cases h; exact Limits.refl _ _

/-- Every output below `n` is in its range. -/
def AllIn (s : Inst R) (n : Nat) : Prop :=
  ∀ (j : Nat) (o : Output R), j < n → s.xOutput[j]? = some o → InRange o.io.min o.io.max o.io.value

/-- **C57** whatever the state, the rule array, the membership functions and the de-fuzzification method (even
when no rule fires and the quotient is NaN), if `deFuzzify()` has no undefined behaviour then afterwards
every output has the limits it had before and a value that is a number between them, provided the limits are
ordered numbers. For every arithmetic. -/
theorem C57_range [LawfulOrd R] (s s' : Inst R) (h : deFuzzify s = .ok s')
    (hl : ∀ (j : Nat) (o : Output R), s.xOutput[j]? = some o → (o.io.min ≤. o.io.max) = true) :
    ∀ j, j < s.nOutputs → ∃ o o', s.xOutput[j]? = some o ∧ s'.xOutput[j]? = some o' ∧
      o'.io.min = o.io.min ∧ o'.io.max = o.io.max ∧ InRange o'.io.min o'.io.max o'.io.value := by
  unfold deFuzzify at h
  obtain ⟨s1, e1, h⟩ := Out.bind_eq_ok.mp h
  obtain ⟨s2, e2, h⟩ := Out.bind_eq_ok.mp h
  have l1 : Limits s s1 (fun _ => True) := over_limits (fun o o' e => by
    cases e; rw [init_io]; exact ⟨rfl, rfl⟩) e1
  have l2 : Limits s s2 (fun _ => True) := by
    refine l1.trans ?_
    split at e2
    · exact loop_partial (fun _ t => Limits s1 t (fun _ => True))
        (fun i t t' ht e => ht.trans (mamdaniPoint_limits e)) _ 0 s1 s2 (Limits.refl _ _) e2
    · obtain ⟨s3, e3, e2⟩ := Out.bind_eq_ok.mp e2
      obtain ⟨s4, e4, e2⟩ := Out.bind_eq_ok.mp e2
      refine (over_limits ?_ e3).trans ((keeps_limits (aggregate_keeps e4) _).trans (over_limits ?_ e2))
      · intro o o' e; cases e; exact ⟨rfl, rfl⟩
      · intro o o' e; cases e; rw [compute_io]; exact ⟨rfl, rfl⟩
  have key := loop_partial (fun i t => Limits s t (fun _ => True) ∧ AllIn t i ∧ i ≤ t.xOutput.size) (f := finish)
    (by
      intro i t t' ⟨ht, hin, hsz⟩ e
      unfold finish at e
      obtain ⟨⟨t1, d⟩, f1, e⟩ := Out.bind_eq_ok.mp e
      obtain ⟨o, f2, e⟩ := Out.bind_eq_ok.mp e
      obtain ⟨a, f3, e⟩ := Out.bind_eq_ok.mp e
      cases e
      have g1 := end_limits f1
      have g2 : Limits t1 _ (fun j => j = i) := write_limits f2 (by rfl) (by rfl) f3
      have g : Limits t { t1 with xOutput := a } (fun j => j = i) := g1.trans g2
      have hall := ht.trans (g.mono (fun _ _ => trivial))
      refine ⟨hall, ?_, ?_⟩
      · intro j o' hj ho'
        have hjs : j < s.xOutput.size := by
          have := (Array.getElem?_eq_some_iff.mp ho').1
          rw [← hall.2.1]; exact this
        have hlim := hall.2.2 j s.xOutput[j] o' (by simp [hjs]) ho'
        have hord := hl j s.xOutput[j] (by simp [hjs])
        by_cases hji : j = i
        · subst hji
          have hi1 : j < t1.xOutput.size := by
            have := (Array.getElem?_eq_some_iff.mp (rdArr_eq_ok.mp f2)).1; exact this
          have : o' = { o with io := { o.io with value := bound d o.io.min o.io.max } } := by
            rw [wrArr_ok hi1] at f3
            cases f3
            simp at ho'
            exact ho'.symm
          subst this
          refine bound_range d o.io.min o.io.max ?_
          rw [← hlim.1, ← hlim.2.1] at hord
          exact hord
        · have hjt : j < t.xOutput.size := by rw [ht.2.1]; exact hjs
          have hold := hin j t.xOutput[j] (by omega) (by simp [hjt])
          have hsame := g.2.2 j t.xOutput[j] o' (by simp [hjt]) ho'
          rw [hsame.1, hsame.2.1, hsame.2.2 hji]
          exact hold
      · have hi1 : i < t1.xOutput.size := (Array.getElem?_eq_some_iff.mp (rdArr_eq_ok.mp f2)).1
        rw [g.2.1]
        rw [g1.2.1] at hi1
        omega)
    _ 0 s2 s' ⟨l2, fun j o hj => absurd hj (by omega), by omega⟩ h
  obtain ⟨k1, k2, k3⟩ := key
  rw [Nat.zero_add, l2.1] at k2 k3
  intro j hj
  have hj' : j < s'.xOutput.size := by omega
  have hjs : j < s.xOutput.size := by rw [← k1.2.1]; exact hj'
  have := k1.2.2 j s.xOutput[j] s'.xOutput[j] (by simp [hjs]) (by simp [hj'])
  exact ⟨s.xOutput[j], s'.xOutput[j], by simp [hjs], by simp [hj'], this.1, this.2.1,
    k2 j s'.xOutput[j] hj (by simp [hj'])⟩

end Verif.Fis
