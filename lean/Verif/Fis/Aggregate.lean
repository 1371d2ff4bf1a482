import Verif.Fis.Inference
import Mathlib.Algebra.BigOperators.Group.Finset.Basic

/-!
# Aggregation of the consequents of a rule base (C59)
-/

namespace Verif.Fis

open Arith

variable {R : Type} [Arith R]

/-! ## Specification -/

/-- The consequents of a rule. Not a definition of the repository. -/
def Rule.consequents (r : Rule) : List Term := r.first :: r.more

/-- Every consequent of every rule once, in order, with the number of its rule.
Not a definition of the repository. -/
def visits : List Rule → Nat → List (Nat × Term)
  | [], _ => []
  | r :: rs, k => r.consequents.map (fun c => (k, c)) ++ visits rs (k + 1)

/-- Value of a fuzzy set: its height times its shape, evaluated with the points of the set; a set without a
shape is empty. Not a definition of the repository (specification of `mf::membership`). -/
def MF.degreeAt (m : MF R) (io : Nat → Out (IO R)) (n : Nat) : Out R :=
  match m.shape with
  | some f => (fun y => m.h *. y) <$> f io (rdArr m.points) n
  | none => .ok (lit 0)

/-- Value of the membership function of a consequent: in a Mamdani system at the value of its output, in the
others at the inputs. Not a definition of the repository. -/
def consequentValue (s : Inst R) (t : Term) : Out R := do
  let m ← rdArr s.outMF t.mf
  if s.kind = .mamdani then do
    let o ← rdArr s.xOutput t.inp
    m.degreeAt (outputPtr o) 1
  else m.degreeAt (inputPtr s.xInput 0) s.nInputs

/-- What a consequent with membership value `z` of a rule of strength `w` does to its output.
Not a definition of the repository. -/
def effect (kind : Kind) (aggregate implicate : Op) (neg : Bool) (w z : R) (o : Output R) : Output R :=
  if kind = .mamdani then
    { o with y := aggregate.app o.y (implicate.app w (if neg then lit 1 -. z else z)) }
  else { o with v0 := o.v0 +. (z *. w), v1 := o.v1 +. w }

/-- What the visit of a consequent does to output `j`: nothing if the consequent is about another output or
the strength of its rule is not positive. Not a definition of the repository. -/
def visit (kind : Kind) (aggregate implicate : Op) (w : Nat → R) (Z : Term → R) (j : Nat) (o : Output R)
    (kc : Nat × Term) : Output R :=
  if kc.2.inp = j ∧ (lit 0 <. w kc.1) = true then effect kind aggregate implicate kc.2.neg (w kc.1) (Z kc.2) o
  else o

/-- The rule can be aggregated: its consequents name existing outputs and sets, and none of its items is
mistaken for `THEN` (the item of the negated set 123). -/
def Rule.AggOk (s : Inst R) (r : Rule) : Prop :=
  (∀ t ∈ r.head :: r.tail.map Prod.snd, setItem t.mf t.neg ≠ THEN) ∧
  (∀ c ∈ r.consequents, c.inp < s.xOutput.size ∧ c.mf < s.outMF.size ∧ c.mf < 127) ∧
  (1 < s.nOutputs ∨ r.more = [])

/-! ## Finding the consequents -/

theorem findThen_skip (a : Array Int) (l : List Int) : ∀ (i fuel : Nat), (∀ c ∈ l, c ≠ THEN) →
    At a i (l ++ [THEN]) → findThen a (fuel + l.length + 1) i = .ok (i + l.length + 1) := by
  induction l with
  | nil =>
    intro i fuel _ ha
    simp only [List.nil_append, At, and_true] at ha
    rw [findThen, ha]
    simp
  | cons c l ih =>
    intro i fuel hc ha
    obtain ⟨h0, h1⟩ := ha
    rw [findThen, h0]
    simp only [Out.bind_ok]
    rw [if_pos (hc c (by simp)), show fuel + (c :: l).length = fuel + l.length + 1 by simp; omega,
      ih (i + 1) fuel (fun d hd => hc d (by simp [hd])) h1]
    simp; omega

theorem tail_noThen (l : List (Conn × Term)) (h : ∀ t ∈ l.map Prod.snd, setItem t.mf t.neg ≠ THEN) :
    ∀ c ∈ tailItems l, c ≠ THEN := by
  induction l with
  | nil => simp [tailItems]
  | cons a l ih =>
    obtain ⟨c, t⟩ := a
    intro d hd
    simp only [tailItems, Term.items, List.mem_cons, List.cons_append, List.nil_append] at hd
    rcases hd with rfl | rfl | rfl | hd
    · cases c <;> simp [Conn.item, AND, OR, THEN]
    · unfold THEN; omega
    · exact h t (by simp)
    · exact ih (fun u hu => h u (by simp at hu ⊢; exact .inr hu)) d hd

/-! ## One consequent -/

/-- The arrays after the visit of a consequent. -/
def touch (s : Inst R) (Z : Term → R) (c : Term) (w : R) (st : Array (Output R) × Array (MF R)) :
    Array (Output R) × Array (MF R) :=
  if lit 0 <. w then
    (st.1.modify c.inp (effect s.kind s.aggregate s.implicate c.neg w (Z c)),
     st.2.modify c.mf (fun m => { m with fx := Z c }))
  else st

/-- The arrays differ from those of `s` only in what aggregation changes. -/
structure Same (s : Inst R) (st : Array (Output R) × Array (MF R)) : Prop where
  size1 : st.1.size = s.xOutput.size
  size2 : st.2.size = s.outMF.size
  io : ∀ (j : Nat) (o o' : Output R), s.xOutput[j]? = some o → st.1[j]? = some o' → o'.io = o.io
  mf : ∀ (j : Nat) (m m' : MF R), s.outMF[j]? = some m → st.2[j]? = some m' → ∃ x, m' = { m with fx := x }

theorem membership_snd {m : MF R} {io : Nat → Out (IO R)} {n : Nat} {z : R}
    (h : m.degreeAt io n = .ok z) (x : R) :
    ({ m with fx := x } : MF R).membership io n = .ok ({ m with fx := z }, z) := by
  obtain ⟨shape, points, fx, hh, idx⟩ := m
  unfold MF.membership
  unfold MF.degreeAt at h
  cases shape with
  | none => cases h; rfl
  | some f =>
    simp only at h ⊢
    cases e : f io (rdArr points) n with
    | ok y => rw [e] at h; cases h; rfl
    | ub => rw [e] at h; cases h
    | diverge => rw [e] at h; cases h

theorem effect_io (kind : Kind) (a i : Op) (neg : Bool) (w z : R) (o : Output R) :
    (effect kind a i neg w z o).io = o.io := by
  unfold effect; split <;> rfl

theorem touch_same {s : Inst R} {Z : Term → R} {c : Term} {w : R}
    {st : Array (Output R) × Array (MF R)} (h : Same s st) : Same s (touch s Z c w st) := by
  unfold touch
  split
  · refine ⟨by simpa using h.size1, by simpa using h.size2, ?_, ?_⟩
    · intro j o o' h1 h2
      simp only [Array.getElem?_modify] at h2
      split at h2
      · obtain ⟨o'', h3, h4⟩ := Option.map_eq_some_iff.mp h2
        rw [← h4, effect_io]
        exact h.io j o o'' h1 h3
      · exact h.io j o o' h1 h2
    · intro j m m' h1 h2
      simp only [Array.getElem?_modify] at h2
      split at h2
      · obtain ⟨m'', h3, h4⟩ := Option.map_eq_some_iff.mp h2
        obtain ⟨x, h5⟩ := h.mf j m m'' h1 h3
        exact ⟨Z c, by rw [← h4, h5]⟩
      · exact h.mf j m m' h1 h2
  · exact h

theorem modify_of_lt {α : Type} (a : Array α) (i : Nat) (f : α → α) (h : i < a.size) :
    a.set i (f a[i]) = a.modify i f := by
  apply Array.ext_getElem?
  intro j
  rw [Array.getElem?_modify, Array.getElem?_set]
  by_cases hj : i = j
  · subst hj; simp [h]
  · simp [hj]

theorem apply_ok (s : Inst R) (Z : Term → R) (st : Array (Output R) × Array (MF R)) (c : Term) (w : R) (s' : Inst R)
    (hs' : s'.xOutput = st.1 ∧ s'.outMF = st.2 ∧ s'.kind = s.kind ∧ s'.aggregate = s.aggregate ∧
      s'.implicate = s.implicate ∧ s'.xInput = s.xInput ∧ s'.nInputs = s.nInputs)
    (h : Same s st) (h1 : c.inp < s.xOutput.size) (h2 : c.mf < s.outMF.size)
    (hz : consequentValue s c = .ok (Z c)) (hw : (lit 0 <. w) = true) :
    applyConsequent s' c.inp c.mf c.neg w = .ok (touch s Z c w st) := by
  obtain ⟨e1, e2, e3, e4, e5, e6, e7⟩ := hs'
  have i1 : c.inp < st.1.size := by rw [h.size1]; exact h1
  have i2 : c.mf < st.2.size := by rw [h.size2]; exact h2
  have hi1 : index (c.inp : Int) = .ok c.inp := by simp [index]
  have hi2 : index (c.mf : Int) = .ok c.mf := by simp [index]
  obtain ⟨x, hx⟩ := h.mf c.mf s.outMF[c.mf] st.2[c.mf] (by simp [h2]) (by simp [i2])
  have hio := h.io c.inp s.xOutput[c.inp] st.1[c.inp] (by simp [h1]) (by simp [i1])
  unfold consequentValue at hz
  rw [rdArr_ok h2] at hz
  simp only [Out.bind_ok] at hz
  unfold applyConsequent touch
  rw [if_pos hw]
  simp only [hi1, hi2, e1, e2, e3, e4, e5, e6, e7, Out.bind_ok, rdArr_ok i1, rdArr_ok i2]
  by_cases hk : s.kind = .mamdani
  · rw [if_pos hk] at hz ⊢
    rw [rdArr_ok h1, Out.bind_ok] at hz
    have hptr : outputPtr st.1[c.inp] = outputPtr s.xOutput[c.inp] := by
      funext j; simp [outputPtr, hio]
    rw [hx, hptr, membership_snd hz x]
    simp only [Out.bind_ok, wrArr_ok i1, wrArr_ok i2, Out.pure_eq]
    rw [← modify_of_lt st.1 c.inp _ i1, ← modify_of_lt st.2 c.mf _ i2]
    simp [effect, hk, hx]
  · rw [if_neg hk] at hz ⊢
    rw [hx, membership_snd hz x]
    simp only [Out.bind_ok, wrArr_ok i1, wrArr_ok i2, Out.pure_eq]
    rw [← modify_of_lt st.1 c.inp _ i1, ← modify_of_lt st.2 c.mf _ i2]
    simp [effect, hk, hx]

theorem outItem (c : Term) (h : c.mf < 127) :
    toRules ((if decide (setItem c.mf c.neg < 0) then toRules (-setItem c.mf c.neg) else setItem c.mf c.neg) - 1) =
      c.mf := by
  rw [setItem_neg]
  have : (if c.neg = true then toRules (-setItem c.mf c.neg) else setItem c.mf c.neg) = (c.mf : Int) + 1 := by
    cases hn : c.neg
    · simp [setItem]
    · simp only [setItem, toRules, if_true, Int.neg_neg]
      rw [Int.bmod_eq_of_le (by omega) (by omega)]
  rw [this, toRules, Int.bmod_eq_of_le (by omega) (by omega)]
  omega

/-- The instance `s` while it aggregates rule `k`. -/
def agg (s : Inst R) (a : AggState) (k : Nat) (st : Array (Output R) × Array (MF R)) : Inst R :=
  { s with aggState := a, ruleCount := k, xOutput := st.1, outMF := st.2 }

theorem consequent_ok (s : Inst R) (Z : Term → R) (st : Array (Output R) × Array (MF R)) (c : Term) (w : Array R)
    (k i : Nat) (d : Int) (hw : s.wi = some w) (hk : k < w.size) (h : Same s st)
    (hc : c.inp < s.xOutput.size ∧ c.mf < s.outMF.size ∧ c.mf < 127) (hz : consequentValue s c = .ok (Z c))
    (ha : At s.xRules i (c.items ++ [d])) :
    inferenceConsequent (agg s .consequent k st) i =
      .ok (if 1 < s.nOutputs ∧ d = AND then (agg s .consequent k (touch s Z c w[k] st), i + 2)
        else (agg s .find (k + 1) (touch s Z c w[k] st), i + 1)) := by
  simp only [Term.items, List.cons_append, List.nil_append, At, and_true] at ha
  obtain ⟨h0, h1, h2⟩ := ha
  unfold inferenceConsequent
  have e1 : (agg s .consequent k st).xRules = s.xRules := rfl
  have e2 : (agg s .consequent k st).nOutputs = s.nOutputs := rfl
  have e3 : (agg s .consequent k st).wi = some w := hw
  have e4 : (agg s .consequent k st).ruleCount = k := rfl
  rw [e1, e2, e3, e4, h0, Out.bind_ok, h1, Out.bind_ok]
  have hcon : (if 1 < s.nOutputs then rdArr s.xRules (i + 2) else pure (-1) : Out Int) =
      .ok (if 1 < s.nOutputs then d else -1) := by
    split
    · exact h2
    · rfl
  rw [hcon]
  simp only [Out.bind_ok, outItem c hc.2.2, rdArr_ok hk]
  have happ : (if (lit 0 <. w[k]) = true then
        applyConsequent (agg s .consequent k st) c.inp c.mf (decide (setItem c.mf c.neg < 0)) w[k]
      else pure ((agg s .consequent k st).xOutput, (agg s .consequent k st).outMF)) =
      Out.ok (touch s Z c w[k] st) := by
    split
    · rename_i hp
      rw [setItem_neg]
      exact apply_ok s Z st c w[k] (agg s .consequent k st) ⟨rfl, rfl, rfl, rfl, rfl, rfl, rfl⟩ h hc.1 hc.2.1 hz hp
    · rename_i hp
      simp [touch, hp, agg]
  rw [happ]
  simp only [Out.bind_ok]
  by_cases hn : 1 < s.nOutputs
  · simp only [hn, if_true, true_and]
    by_cases hd : d = AND
    · simp [hd, agg, hw]
    · simp [hd, agg, hw]
  · simp [hn, agg, AND, hw]

/-- The arrays after the consequents `l` of rule `k`. -/
def touchAll (s : Inst R) (Z : Term → R) (w : R) (l : List Term) (st : Array (Output R) × Array (MF R)) :
    Array (Output R) × Array (MF R) := l.foldl (fun st c => touch s Z c w st) st

theorem run_consequents (s : Inst R) (Z : Term → R) (w : Array R) (k : Nat) (hw : s.wi = some w) (hk : k < w.size)
    (hkn : k < s.nRules) (l : List Term) :
    ∀ (i fuel : Nat) (c : Term) (d : Int) (st : Array (Output R) × Array (MF R)), Same s st →
      (∀ t ∈ c :: l, (t.inp < s.xOutput.size ∧ t.mf < s.outMF.size ∧ t.mf < 127) ∧ consequentValue s t = .ok (Z t)) →
      (1 < s.nOutputs ∨ l = []) → d ≠ AND → At s.xRules i (c.items ++ moreItems l ++ [d]) →
      aggregateLoop (fuel + (l.length + 1)) (agg s .consequent k st) i =
        aggregateLoop fuel (agg s .find (k + 1) (touchAll s Z w[k] (c :: l) st)) (i + 2 + (moreItems l).length) := by
  induction l with
  | nil =>
    intro i fuel c d st h hc _ hd ha
    obtain ⟨h1, h2⟩ := hc c (by simp)
    have ha' : At s.xRules i (c.items ++ [d]) := by simpa [moreItems] using ha
    have h0 : rdArr s.xRules i = .ok (c.inp : Int) := ha'.1
    rw [List.length_nil, Nat.zero_add, aggregateLoop]
    have e : (agg s .consequent k st).xRules = s.xRules := rfl
    rw [e, h0]
    simp only [Out.bind_ok]
    rw [if_pos ⟨by unfold RULES_END; omega, hkn⟩]
    simp only [agg, touchAll] at *
    rw [show (AggState.consequent) = (agg s .consequent k st).aggState from rfl]
    have := consequent_ok s Z st c w k i d hw hk h h1 h2 ha'
    simp only [agg] at this
    simp only [agg, this, hd, and_false, if_false, Out.bind_ok]
    simp [moreItems]
  | cons u l ih =>
    intro i fuel c d st h hc hn hd ha
    have hn : 1 < s.nOutputs := by simpa using hn
    obtain ⟨h1, h2⟩ := hc c (by simp)
    have ha' : At s.xRules i (c.items ++ [AND] ++ (u.items ++ moreItems l ++ [d])) := by simpa [moreItems] using ha
    rw [at_append] at ha'
    have h0 : rdArr s.xRules i = .ok (c.inp : Int) := ha'.1.1
    rw [show fuel + ((u :: l).length + 1) = (fuel + (l.length + 1)) + 1 by simp; omega, aggregateLoop]
    have e : (agg s .consequent k st).xRules = s.xRules := rfl
    rw [e, h0]
    simp only [Out.bind_ok]
    rw [if_pos ⟨by unfold RULES_END; omega, hkn⟩]
    have := consequent_ok s Z st c w k i AND hw hk h h1 h2 ha'.1
    have e2 : (agg s .consequent k st).aggState = .consequent := rfl
    simp only [e2, this, hn, and_self, if_true, Out.bind_ok]
    rw [if_neg (by omega), ih (i + 2 + 1) fuel u d _ (touch_same h) (fun t ht => hc t (List.mem_cons_of_mem _ ht))
      (.inl hn) hd (by have := ha'.2; simpa [Term.items] using this)]
    simp only [touchAll, List.foldl_cons]
    congr 1
    simp [moreItems, Term.items]; omega

theorem touchAll_same {s : Inst R} {Z : Term → R} {w : R} {l : List Term}
    {st : Array (Output R) × Array (MF R)} (h : Same s st) : Same s (touchAll s Z w l st) := by
  induction l generalizing st with
  | nil => exact h
  | cons c l ih => exact ih (touch_same h)

theorem aggRule (s : Inst R) (Z : Term → R) (w : Array R) (r : Rule) (k i fuel : Nat) (d : Int)
    (st : Array (Output R) × Array (MF R)) (hw : s.wi = some w) (hk : k < w.size) (hkn : k < s.nRules)
    (hr : r.AggOk s) (hz : ∀ c ∈ r.consequents, consequentValue s c = .ok (Z c)) (h : Same s st) (hd : d ≠ AND)
    (ha : At s.xRules i (r.items ++ [d])) :
    aggregateLoop (fuel + (r.more.length + 2)) (agg s .find k st) i =
      aggregateLoop fuel (agg s .find (k + 1) (touchAll s Z w[k] r.consequents st)) (i + r.items.length) := by
  have ha' : At s.xRules i (((r.head.items ++ tailItems r.tail) ++ [THEN]) ++
      (r.first.items ++ moreItems r.more ++ [d])) := by simpa [Rule.items] using ha
  rw [at_append] at ha'
  have h0 : rdArr s.xRules i = .ok (r.head.inp : Int) := by
    have := ha'.1
    simp only [Term.items, List.cons_append, At] at this
    exact this.1
  have hno : ∀ c ∈ r.head.items ++ tailItems r.tail, c ≠ THEN := by
    intro c hc
    rw [List.mem_append] at hc
    rcases hc with hc | hc
    · simp only [Term.items, List.mem_cons, List.not_mem_nil, or_false] at hc
      rcases hc with rfl | rfl
      · unfold THEN; omega
      · exact hr.1 r.head (by simp)
    · exact tail_noThen r.tail (fun t ht => hr.1 t (List.mem_cons_of_mem _ ht)) c hc
  have hsz : (r.head.items ++ tailItems r.tail).length ≤ s.xRules.size := by
    have hlast := (at_append.mp ha'.1).2
    simp only [At, and_true] at hlast
    unfold rdArr at hlast
    split at hlast
    · omega
    · cases hlast
  obtain ⟨f, hf⟩ : ∃ f, s.xRules.size + 1 = f + (r.head.items ++ tailItems r.tail).length + 1 :=
    ⟨s.xRules.size - (r.head.items ++ tailItems r.tail).length, by omega⟩
  rw [show fuel + (r.more.length + 2) = (fuel + (r.more.length + 1)) + 1 by omega, aggregateLoop]
  have e : (agg s .find k st).xRules = s.xRules := rfl
  have e2 : (agg s .find k st).aggState = .find := rfl
  rw [e, h0]
  simp only [Out.bind_ok]
  rw [if_pos ⟨by unfold RULES_END; omega, hkn⟩]
  simp only [e2, aggregationFindConsequent, e, hf, findThen_skip s.xRules _ i f hno ha'.1, Out.bind_ok, Out.pure_eq]
  rw [if_neg (by simp [Term.items])]
  change aggregateLoop _ (agg s .consequent k st) _ = _
  rw [run_consequents s Z w k hw hk hkn r.more _ fuel r.first d st h
    (fun t ht => ⟨hr.2.1 t ht, hz t ht⟩) hr.2.2 hd (by
      have := ha'.2
      rw [show i + (r.head.items ++ tailItems r.tail).length + 1 - 1 + 1 =
        i + (r.head.items ++ tailItems r.tail ++ [THEN]).length by simp; omega]
      exact this)]
  congr 1
  simp [Rule.items, Term.items]; omega

/-- The arrays after the rules `rs`, the first of which has number `k`. -/
def touchRules (s : Inst R) (Z : Term → R) (w : Nat → R) : List Rule → Nat →
    Array (Output R) × Array (MF R) → Array (Output R) × Array (MF R)
  | [], _, st => st
  | r :: rs, k, st => touchRules s Z w rs (k + 1) (touchAll s Z (w k) r.consequents st)

/-- Number of iterations for the rules `rs`. -/
def aggCost : List Rule → Nat
  | [] => 0
  | r :: rs => r.more.length + 2 + aggCost rs

theorem aggCost_le (rs : List Rule) : aggCost rs ≤ cost rs := by
  induction rs with
  | nil => simp [aggCost]
  | cons r rs ih => simp [aggCost, cost]; omega

theorem aggRules (s : Inst R) (Z : Term → R) (w : Array R) (W : Nat → R) (hw : s.wi = some w)
    (hW : ∀ k (h : k < w.size), W k = w[k]) (rs : List Rule) :
    ∀ (k i fuel : Nat) (st : Array (Output R) × Array (MF R)), k + rs.length ≤ w.size → k + rs.length ≤ s.nRules →
      (∀ r ∈ rs, r.AggOk s ∧ ∀ c ∈ r.consequents, consequentValue s c = .ok (Z c)) → Same s st →
      At s.xRules i (ruleItems rs ++ [RULES_END]) →
      aggregateLoop (fuel + aggCost rs) (agg s .find k st) i =
        aggregateLoop fuel (agg s .find (k + rs.length) (touchRules s Z W rs k st)) (i + (ruleItems rs).length) := by
  induction rs with
  | nil => intro k i fuel st _ _ _ _ _; simp [aggCost, touchRules, ruleItems]
  | cons r rs ih =>
    intro k i fuel st h1 h2 hr h ha
    simp only [List.length_cons] at h1 h2
    obtain ⟨d, l, e, hd, _⟩ := first_item rs
    have ha1 : At s.xRules i (r.items ++ (ruleItems rs ++ [RULES_END])) := by simpa [ruleItems] using ha
    have ha2 : At s.xRules i (r.items ++ [d]) := by
      rw [e] at ha1
      rw [show r.items ++ d :: l = r.items ++ [d] ++ l by simp, at_append] at ha1
      exact ha1.1
    rw [at_append] at ha1
    have hk : k < w.size := by omega
    rw [aggCost, show fuel + (r.more.length + 2 + aggCost rs) = fuel + aggCost rs + (r.more.length + 2) by omega,
      aggRule s Z w r k i _ d st hw hk (by omega) (hr r (by simp)).1 (hr r (by simp)).2 h hd ha2,
      ih (k + 1) _ fuel _ (by omega) (by omega) (fun r' h' => hr r' (by simp [h'])) (touchAll_same h) ha1.2]
    rw [touchRules, hW k hk, show k + 1 + rs.length = k + (r :: rs).length by simp; omega]
    congr 1
    simp [ruleItems]; omega

/-! ## Effect on each output -/

theorem touch_get (s : Inst R) (Z : Term → R) (k : Nat) (c : Term) (w : Nat → R)
    (st : Array (Output R) × Array (MF R)) (j : Nat) :
    (touch s Z c (w k) st).1[j]? =
      st.1[j]?.map (fun o => visit s.kind s.aggregate s.implicate w Z j o (k, c)) := by
  unfold touch visit
  dsimp only
  by_cases hp : (lit 0 <. w k) = true
  · simp only [hp, if_true, and_true, Array.getElem?_modify]
    by_cases hj : c.inp = j
    · simp [hj]
    · simp [hj]
  · simp [hp]

theorem touchAll_get (s : Inst R) (Z : Term → R) (k : Nat) (w : Nat → R) (l : List Term) (j : Nat) :
    ∀ st : Array (Output R) × Array (MF R), (touchAll s Z (w k) l st).1[j]? =
      st.1[j]?.map (fun o => (l.map (fun c => (k, c))).foldl (visit s.kind s.aggregate s.implicate w Z j) o) := by
  induction l with
  | nil => intro st; simp [touchAll]
  | cons c l ih =>
    intro st
    have : touchAll s Z (w k) (c :: l) st = touchAll s Z (w k) l (touch s Z c (w k) st) := rfl
    rw [this, ih, touch_get, Option.map_map]
    rfl

theorem touchRules_get (s : Inst R) (Z : Term → R) (w : Nat → R) (rs : List Rule) (j : Nat) :
    ∀ (k : Nat) (st : Array (Output R) × Array (MF R)), (touchRules s Z w rs k st).1[j]? =
      st.1[j]?.map (fun o => (visits rs k).foldl (visit s.kind s.aggregate s.implicate w Z j) o) := by
  induction rs with
  | nil => intro k st; simp [touchRules, visits]
  | cons r rs ih =>
    intro k st
    rw [touchRules, ih, touchAll_get, Option.map_map]
    simp only [visits, List.foldl_append]
    rfl

theorem touchRules_same {s : Inst R} {Z : Term → R} {w : Nat → R} {rs : List Rule} :
    ∀ {k : Nat} {st : Array (Output R) × Array (MF R)}, Same s st → Same s (touchRules s Z w rs k st) := by
  induction rs with
  | nil => intro k st h; exact h
  | cons r rs ih => intro k st h; exact ih (touchAll_same h)

/-! ## C59 -/

/-- **C59** (visits) for every rule base encoded with the macros whose rules can be aggregated,
`fuzzyAggregate()` stays inside the arrays and terminates, and the effect on every output is that of visiting
every consequent of every rule exactly once, in order, with the strength of its rule, skipping the rules
whose strength is not positive; of the membership functions only the cached value may change, and
everything else is unchanged. -/
theorem C59_visits_partial (s : Inst R) (rs : List Rule) (w : Array R) (W : Nat → R) (Z : Term → R)
    (hp : program rs <+: s.xRules.toList) (hn : s.nRules = rs.length) (hw : s.wi = some w)
    (hwn : rs.length ≤ w.size) (hW : ∀ k (h : k < w.size), W k = w[k])
    (hr : ∀ r ∈ rs, r.AggOk s ∧ ∀ c ∈ r.consequents, consequentValue s c = .ok (Z c)) :
    ∃ (xo : Array (Output R)) (mo : Array (MF R)),
      fuzzyAggregate s = .ok { s with xOutput := xo, outMF := mo, aggState := .find, ruleCount := rs.length } ∧
      (∀ j, xo[j]? = s.xOutput[j]?.map (fun o =>
        (visits rs 0).foldl (visit s.kind s.aggregate s.implicate W Z j) o)) ∧
      (mo.size = s.outMF.size ∧
        ∀ (j : Nat) (m m' : MF R), s.outMF[j]? = some m → mo[j]? = some m' → ∃ x, m' = { m with fx := x }) := by
  have ha := at_program hp
  unfold program at ha
  obtain ⟨h0, ha⟩ := ha
  have hsame : Same s (s.xOutput, s.outMF) :=
    ⟨rfl, rfl, fun j o o' h1 h2 => by rw [h1] at h2; cases h2; rfl,
      fun j m m' h1 h2 => by rw [h1] at h2; cases h2; exact ⟨m.fx, rfl⟩⟩
  have hsize : aggCost rs + 1 ≤ s.xRules.size + 1 := by
    have h1 := cost_le rs
    have h2 := aggCost_le rs
    have h3 := hp.length_le
    simp only [program, List.length_cons, List.length_append, Array.length_toList] at h3
    omega
  obtain ⟨f, hf⟩ : ∃ f, s.xRules.size + 1 = f + 1 + aggCost rs := ⟨s.xRules.size - aggCost rs, by omega⟩
  have hrun := aggRules s Z w W hw hW rs 0 1 (f + 1) (s.xOutput, s.outMF) (by omega) (by omega) hr hsame ha
  have hres := touchRules_same (Z := Z) (w := W) (rs := rs) (k := 0) hsame
  refine ⟨(touchRules s Z W rs 0 (s.xOutput, s.outMF)).1, (touchRules s Z W rs 0 (s.xOutput, s.outMF)).2, ?_,
    fun j => touchRules_get s Z W rs j 0 _, hres.size2, hres.mf⟩
  unfold fuzzyAggregate
  rw [h0]
  simp only [Out.bind_ok, if_true]
  have hb : ({ s with aggState := .find, ruleCount := 0 } : Inst R) = agg s .find 0 (s.xOutput, s.outMF) := rfl
  rw [hb, hf, hrun, aggregateLoop]
  have hx : ∀ st, (agg s .find (0 + rs.length) st).xRules = s.xRules := fun _ => rfl
  have hat : rdArr s.xRules (1 + (ruleItems rs).length) = .ok RULES_END := by
    have := (at_append.mp ha).2
    exact this.1
  rw [hx, hat]
  simp [agg]

end Verif.Fis
