import Verif.Fis.Spec

/-!
# Inference of a rule base (C55)
-/

namespace Verif.Fis

open Arith

variable {R : Type} [Arith R]

/-! ## Positions in the rule array -/

/-- The items `l` stand at position `i` of `a`. -/
def At (a : Array Int) : Nat → List Int → Prop
  | _, [] => True
  | i, c :: l => rdArr a i = .ok c ∧ At a (i + 1) l

theorem at_append {a : Array Int} {l₁ l₂ : List Int} :
    ∀ {i : Nat}, At a i (l₁ ++ l₂) ↔ At a i l₁ ∧ At a (i + l₁.length) l₂ := by
  induction l₁ with
  | nil => intro i; simp [At]
  | cons c l ih =>
    intro i
    simp only [List.cons_append, At, ih, List.length_cons, and_assoc]
    rw [show i + 1 + l.length = i + (l.length + 1) by omega]

theorem at_of_prefix {a : Array Int} {l : List Int} : ∀ {i : Nat},
    (∀ k (h : k < l.length), a[i + k]? = some l[k]) → At a i l := by
  induction l with
  | nil => intro i _; trivial
  | cons c l ih =>
    intro i h
    refine ⟨rdArr_eq_ok.mpr (h 0 (by simp)), ih ?_⟩
    intro k hk
    have := h (k + 1) (by simp; omega)
    simpa [show i + 1 + k = i + (k + 1) by omega] using this

theorem at_program {a : Array Int} {l : List Int} (h : l <+: a.toList) : At a 0 l := by
  apply at_of_prefix
  intro k hk
  obtain ⟨t, ht⟩ := h
  have : a = (l ++ t).toArray := by rw [ht]
  subst this
  simp [List.getElem?_append_left hk]

/-! ## Items -/

theorem setItem_neg (mf : Nat) (neg : Bool) : decide (setItem mf neg < 0) = neg := by
  cases neg <;> simp [setItem] <;> omega

theorem parse_item {ms : Array (MF R)} {t : Term} (h : t.mf < ms.size) (h8 : t.mf < 127) :
    parseFuzzValue ms (setItem t.mf t.neg) = .ok (degree ms t) := by
  unfold parseFuzzValue
  rw [setItem_neg]
  have hk : index ((if t.neg = true then toRules (-setItem t.mf t.neg) else setItem t.mf t.neg) - 1) = .ok t.mf := by
    have : (if t.neg = true then toRules (-setItem t.mf t.neg) else setItem t.mf t.neg) = (t.mf : Int) + 1 := by
      cases hn : t.neg
      · simp [setItem]
      · simp only [setItem, toRules, if_true, Int.neg_neg]
        rw [Int.bmod_eq_of_le (by omega) (by omega)]
    rw [this]; simp [index]
  simp only [hk, Out.bind_ok, rdArr_ok h, Out.pure_eq, degree, Array.getElem?_eq_getElem h]

theorem conn_item (c : Conn) : c.item = AND ∨ c.item = OR := by cases c <;> simp [Conn.item]

omit [Arith R] in
/-- The operator used after the connector `c`. -/
theorem fuzzOperator_conn (s : Inst R) (c : Conn) (h : s.lastConnector = c.item) :
    getFuzzOperator s = connOp s.andOp s.orOp c := by
  unfold getFuzzOperator
  rw [h]
  cases c <;> simp [Conn.item, AND, OR, connOp]

omit [Arith R] in
theorem fuzzOperator_start (s : Inst R) (h : s.lastConnector = -1) : getFuzzOperator s = .sum := by
  unfold getFuzzOperator
  rw [h]; simp [AND, OR]

/-! ## One term -/

theorem antecedent_conn (s : Inst R) (i fuel : Nat) (t : Term) (c : Conn) (hs : s.infState = .antecedent)
    (hc : s.ruleCount < s.nRules) (hi : t.inp ≤ s.nInputs) (hm : t.mf < s.inMF.size) (h8 : t.mf < 127)
    (ha : At s.xRules i (t.items ++ [c.item])) :
    inferenceLoop (fuel + 1) s i =
      inferenceLoop fuel { s with rStrength := (getFuzzOperator s).app s.rStrength (degree s.inMF t),
                                  lastConnector := c.item, infState := .antecedent } (i + 3) := by
  simp only [Term.items, List.cons_append, List.nil_append, At, and_true] at ha
  obtain ⟨h0, h1, h2⟩ := ha
  rw [inferenceLoop]
  simp only [h0, Out.bind_ok, hs]
  rw [if_pos ⟨by unfold RULES_END; omega, hc⟩]
  unfold inferenceAntecedent
  simp only [h0, h1, h2, Out.bind_ok, parse_item hm h8, Out.pure_eq]
  rw [if_neg (by omega), if_pos (conn_item c)]
  simp

theorem antecedent_then (s : Inst R) (i fuel : Nat) (t : Term) (hs : s.infState = .antecedent)
    (hc : s.ruleCount < s.nRules) (hi : t.inp ≤ s.nInputs) (hm : t.mf < s.inMF.size) (h8 : t.mf < 127)
    (ha : At s.xRules i (t.items ++ [THEN])) :
    inferenceLoop (fuel + 1) s i =
      inferenceLoop fuel { s with rStrength := (getFuzzOperator s).app s.rStrength (degree s.inMF t),
                                  infState := .reachEnd } (i + 3) := by
  simp only [Term.items, List.cons_append, List.nil_append, At, and_true] at ha
  obtain ⟨h0, h1, h2⟩ := ha
  rw [inferenceLoop]
  simp only [h0, Out.bind_ok, hs]
  rw [if_pos ⟨by unfold RULES_END; omega, hc⟩]
  unfold inferenceAntecedent
  simp only [h0, h1, h2, Out.bind_ok, parse_item hm h8, Out.pure_eq]
  rw [if_neg (by omega), if_neg (by simp [THEN, AND, OR])]
  simp

/-- The terms after the first one, the last connector being `c`. -/
theorem antecedent_tail (ms : Array (MF R)) (andOp orOp : Op) (l : List (Conn × Term)) :
    ∀ (s : Inst R) (i fuel : Nat) (t : Term), s.infState = .antecedent → s.ruleCount < s.nRules →
      s.inMF = ms → s.andOp = andOp → s.orOp = orOp →
      (∀ u ∈ t :: l.map Prod.snd, u.inp ≤ s.nInputs ∧ u.mf < ms.size ∧ u.mf < 127) →
      At s.xRules i (t.items ++ tailItems l ++ [THEN]) →
      ∃ lc, inferenceLoop (fuel + (l.length + 1)) s i =
        inferenceLoop fuel { s with
          rStrength := l.foldl (fun acc ct => (connOp andOp orOp ct.1).app acc (degree ms ct.2))
            ((getFuzzOperator s).app s.rStrength (degree ms t)),
          lastConnector := lc, infState := .reachEnd } (i + 3 * (l.length + 1)) := by
  induction l with
  | nil =>
    intro s i fuel t hs hc hms _ _ hw ha
    obtain ⟨h1, h2, h3⟩ := hw t (by simp)
    refine ⟨s.lastConnector, ?_⟩
    subst hms
    rw [List.length_nil, Nat.zero_add, antecedent_then s i fuel t hs hc h1 h2 h3 (by simpa [tailItems] using ha)]
    simp
  | cons ct l ih =>
    intro s i fuel t hs hc hms hand hor hw ha
    obtain ⟨c, u⟩ := ct
    obtain ⟨h1, h2, h3⟩ := hw t (by simp)
    subst hms
    have ha' : At s.xRules i (t.items ++ [c.item] ++ (u.items ++ tailItems l ++ [THEN])) := by
      simpa [tailItems] using ha
    rw [at_append] at ha'
    rw [show fuel + ((⟨c, u⟩ :: l : List (Conn × Term)).length + 1) = (fuel + (l.length + 1)) + 1 by simp; omega,
      antecedent_conn s i _ t c hs hc h1 h2 h3 ha'.1]
    obtain ⟨lc, e⟩ := ih { s with rStrength := (getFuzzOperator s).app s.rStrength (degree s.inMF t),
                                  lastConnector := c.item, infState := .antecedent } (i + 3) fuel u rfl hc rfl
      hand hor (fun w hw' => hw w (List.mem_cons_of_mem _ (by simpa using hw')))
      (by have := ha'.2; simpa [Term.items] using this)
    refine ⟨lc, ?_⟩
    have hf := fuzzOperator_conn ({ s with
      rStrength := (getFuzzOperator s).app s.rStrength (degree s.inMF t),
      lastConnector := c.item, infState := .antecedent } : Inst R) c rfl
    rw [e, hf]
    simp only [hand, hor, List.foldl_cons, List.length_cons]
    congr 1
    omega

/-! ## The consequents -/

theorem reachEnd_and (s : Inst R) (i fuel : Nat) (t : Term) (hs : s.infState = .reachEnd)
    (hc : s.ruleCount < s.nRules) (hn : 1 < s.nOutputs) (ha : At s.xRules i (t.items ++ [AND])) :
    inferenceLoop (fuel + 1) s i = inferenceLoop fuel s (i + 3) := by
  simp only [Term.items, List.cons_append, List.nil_append, At, and_true] at ha
  obtain ⟨h0, h1, h2⟩ := ha
  rw [inferenceLoop]
  simp only [h0, Out.bind_ok, hs]
  rw [if_pos ⟨by unfold RULES_END; omega, hc⟩]
  unfold inferenceReachEnd
  simp only [if_pos hn, h2, Out.bind_ok, ne_eq, not_true_eq_false, if_false, Out.pure_eq]
  simp

/-- The strengths after a rule has been completed. -/
theorem reachEnd_done (s : Inst R) (i fuel : Nat) (t : Term) (d : Int) (w : Array R) (hs : s.infState = .reachEnd)
    (hc : s.ruleCount < s.nRules) (hd : d ≠ AND) (hw : s.wi = some w) (hwn : s.ruleCount < w.size)
    (hrw : ∀ rw, s.ruleWeight = some rw → s.ruleCount < rw.size) (ha : At s.xRules i (t.items ++ [d])) :
    inferenceLoop (fuel + 1) s i = inferenceLoop fuel
      { s with infState := .antecedent, lastConnector := -1, rStrength := lit 0, ruleCount := s.ruleCount + 1,
               wi := some (w.set s.ruleCount (weighted s.ruleWeight s.ruleCount s.rStrength)) } (i + 2) := by
  simp only [Term.items, List.cons_append, List.nil_append, At, and_true] at ha
  obtain ⟨h0, h1, h2⟩ := ha
  rw [inferenceLoop]
  simp only [h0, Out.bind_ok, hs]
  rw [if_pos ⟨by unfold RULES_END; omega, hc⟩]
  have hcon : ∃ e, (if 1 < s.nOutputs then rdArr s.xRules (i + 2) else pure (-1) : Out Int) = .ok e ∧ e ≠ AND := by
    by_cases hn : 1 < s.nOutputs
    · exact ⟨d, by rw [if_pos hn, show i + 2 = i + 1 + 1 by omega, h2], hd⟩
    · exact ⟨-1, by rw [if_neg hn]; rfl, by simp [AND]⟩
  obtain ⟨e, he, hne⟩ := hcon
  unfold inferenceReachEnd
  rw [he]
  simp only [Out.bind_ok, ne_eq, hne, not_false_eq_true, if_true, hw, wrArr_ok hwn]
  cases hr : s.ruleWeight with
  | none => simp [weighted]
  | some rw =>
    have hk := hrw rw hr
    have hk2 : s.ruleCount < (w.set s.ruleCount s.rStrength).size := by simpa using hwn
    simp [weighted, rdArr_ok hk2, rdArr_ok hk, wrArr_ok hk2, hk]

theorem consequents (l : List Term) :
    ∀ (s : Inst R) (i fuel : Nat) (t : Term) (d : Int) (w : Array R), s.infState = .reachEnd →
      s.ruleCount < s.nRules → (1 < s.nOutputs ∨ l = []) → d ≠ AND → s.wi = some w → s.ruleCount < w.size →
      (∀ rw, s.ruleWeight = some rw → s.ruleCount < rw.size) →
      At s.xRules i (t.items ++ moreItems l ++ [d]) →
      inferenceLoop (fuel + (l.length + 1)) s i = inferenceLoop fuel
        { s with infState := .antecedent, lastConnector := -1, rStrength := lit 0, ruleCount := s.ruleCount + 1,
                 wi := some (w.setIfInBounds s.ruleCount (weighted s.ruleWeight s.ruleCount s.rStrength)) }
        (i + 2 + (moreItems l).length) := by
  induction l with
  | nil =>
    intro s i fuel t d w hs hc _ hd hw hwn hrw ha
    rw [List.length_nil, Nat.zero_add,
      reachEnd_done s i fuel t d w hs hc hd hw hwn hrw (by simpa [moreItems] using ha)]
    simp [moreItems, Array.setIfInBounds, hwn]
  | cons u l ih =>
    intro s i fuel t d w hs hc hn hd hw hwn hrw ha
    have hn : 1 < s.nOutputs := by simpa using hn
    have ha' : At s.xRules i (t.items ++ [AND] ++ (u.items ++ moreItems l ++ [d])) := by
      simpa [moreItems] using ha
    rw [at_append] at ha'
    rw [show fuel + ((u :: l).length + 1) = (fuel + (l.length + 1)) + 1 by simp; omega,
      reachEnd_and s i _ t hs hc hn ha'.1,
      ih s (i + 3) fuel u d w hs hc (.inl hn) hd hw hwn hrw (by have := ha'.2; simpa [Term.items] using this)]
    congr 1
    simp [moreItems, Term.items]; omega

/-! ## A rule and a rule base -/

/-- The sets named by a rule exist and its consequents fit the number of outputs. -/
def Rule.Ok (s : Inst R) (r : Rule) : Prop :=
  (∀ t ∈ r.head :: r.tail.map Prod.snd, t.inp < s.nInputs ∧ t.mf < s.inMF.size ∧ t.mf < 127) ∧
  (1 < s.nOutputs ∨ r.more = [])

/-- The instance `s` about to read the rule number `k`, the strengths being `w`. -/
def before (s : Inst R) (k : Nat) (w : Array R) : Inst R :=
  { s with infState := .antecedent, lastConnector := -1, rStrength := lit 0, ruleCount := k, wi := some w }

theorem run_rule (s : Inst R) (r : Rule) (k i fuel : Nat) (d : Int) (w : Array R) (hr : r.Ok s)
    (hk : k < s.nRules) (hw : k < w.size) (hrw : ∀ rw, s.ruleWeight = some rw → k < rw.size) (hd : d ≠ AND)
    (ha : At s.xRules i (r.items ++ [d])) :
    inferenceLoop (fuel + (r.tail.length + r.more.length + 2)) (before s k w) i =
      inferenceLoop fuel (before s (k + 1) (w.setIfInBounds k
        (weighted s.ruleWeight k (strength s.inMF s.andOp s.orOp r)))) (i + r.items.length) := by
  have ha' : At s.xRules i ((r.head.items ++ tailItems r.tail ++ [THEN]) ++
      (r.first.items ++ moreItems r.more ++ [d])) := by simpa [Rule.items] using ha
  rw [at_append] at ha'
  have hlen : (r.head.items ++ tailItems r.tail ++ [THEN]).length = 3 * (r.tail.length + 1) := by
    have : ∀ l : List (Conn × Term), (tailItems l).length = 3 * l.length := by
      intro l
      induction l with
      | nil => rfl
      | cons a l ih => simp [tailItems, Term.items, ih]; omega
    simp [Term.items, this]; omega
  obtain ⟨lc, e⟩ := antecedent_tail s.inMF s.andOp s.orOp r.tail (before s k w) i
    (fuel + (r.more.length + 1)) r.head rfl hk rfl rfl rfl
    (fun t ht => ⟨le_of_lt (hr.1 t ht).1, (hr.1 t ht).2⟩) ha'.1
  rw [show fuel + (r.tail.length + r.more.length + 2) = fuel + (r.more.length + 1) + (r.tail.length + 1) by omega,
    e, consequents r.more _ _ fuel r.first d w rfl (by exact hk) (by exact hr.2) hd rfl (by exact hw) (by exact hrw)
      (by rw [← hlen]; exact ha'.2), fuzzOperator_start _ rfl]
  congr 1
  simp only [Rule.items, List.length_append] at hlen ⊢
  simp [Term.items] at hlen ⊢
  omega

/-- The strengths after the rules `rs`, the first of which has number `k`. -/
def fill (s : Inst R) : List Rule → Nat → Array R → Array R
  | [], _, w => w
  | r :: rs, k, w =>
    fill s rs (k + 1) (w.setIfInBounds k (weighted s.ruleWeight k (strength s.inMF s.andOp s.orOp r)))

/-- Number of iterations for the rules `rs`. -/
def cost : List Rule → Nat
  | [] => 0
  | r :: rs => r.tail.length + r.more.length + 2 + cost rs

theorem cost_le (rs : List Rule) : cost rs ≤ (ruleItems rs).length := by
  induction rs with
  | nil => simp [cost]
  | cons r rs ih =>
    have h1 : ∀ l : List (Conn × Term), l.length ≤ (tailItems l).length := by
      intro l
      induction l with
      | nil => simp
      | cons a l ih => simp [tailItems, Term.items]; omega
    have h2 : ∀ l : List Term, l.length ≤ (moreItems l).length := by
      intro l
      induction l with
      | nil => simp
      | cons a l ih => simp [moreItems, Term.items]; omega
    have := h1 r.tail
    have := h2 r.more
    simp [cost, ruleItems, Rule.items, Term.items]
    omega

theorem first_item (rs : List Rule) : ∃ d l, ruleItems rs ++ [RULES_END] = d :: l ∧ d ≠ AND ∧
    (d = RULES_END ↔ rs = []) := by
  cases rs with
  | nil => exact ⟨RULES_END, [], rfl, by simp [RULES_END, AND], by simp⟩
  | cons r rs =>
    refine ⟨r.head.inp, _, by simp [ruleItems, Rule.items, Term.items]; rfl, by unfold AND; omega, ?_⟩
    simp [RULES_END]

theorem run_rules (s : Inst R) (rs : List Rule) : ∀ (k i fuel : Nat) (w : Array R) (rest : List Int),
    (∃ d l, rest = d :: l ∧ d ≠ AND) →
    (∀ r ∈ rs, r.Ok s) → k + rs.length ≤ s.nRules → k + rs.length ≤ w.size →
    (∀ rw, s.ruleWeight = some rw → k + rs.length ≤ rw.size) →
    At s.xRules i (ruleItems rs ++ rest) →
    inferenceLoop (fuel + cost rs) (before s k w) i =
      inferenceLoop fuel (before s (k + rs.length) (fill s rs k w)) (i + (ruleItems rs).length) := by
  induction rs with
  | nil => intro k i fuel w rest _ _ _ _ _ _; simp [cost, fill, ruleItems]
  | cons r rs ih =>
    intro k i fuel w rest hrest hr hk hw hrw ha
    have hd : ∃ d l, ruleItems rs ++ rest = d :: l ∧ d ≠ AND := by
      cases rs with
      | nil => simpa [ruleItems] using hrest
      | cons r' rs' =>
        exact ⟨r'.head.inp, _, by simp [ruleItems, Rule.items, Term.items]; rfl, by unfold AND; omega⟩
    obtain ⟨d, l, e, hd⟩ := hd
    have ha1 : At s.xRules i (r.items ++ (ruleItems rs ++ rest)) := by simpa [ruleItems] using ha
    have ha2 : At s.xRules i (r.items ++ [d]) := by
      rw [e] at ha1
      rw [show r.items ++ d :: l = r.items ++ [d] ++ l by simp, at_append] at ha1
      exact ha1.1
    rw [at_append] at ha1
    simp only [List.length_cons] at hk hw hrw
    rw [cost, show fuel + (r.tail.length + r.more.length + 2 + cost rs) =
        fuel + cost rs + (r.tail.length + r.more.length + 2) by omega,
      run_rule s r k i _ d w (hr r (by simp)) (by omega) (by omega)
        (fun rw h => by have := hrw rw h; omega) hd ha2,
      ih (k + 1) _ fuel _ rest hrest (fun r' h => hr r' (by simp [h])) (by omega) (by simpa using by omega)
        (fun rw h => by have := hrw rw h; omega) ha1.2]
    rw [fill, show k + 1 + rs.length = k + (r :: rs).length by simp; omega]
    congr 1
    simp [ruleItems]; omega

theorem fill_get (s : Inst R) (rs : List Rule) : ∀ (k : Nat) (w : Array R), k + rs.length ≤ w.size →
    (fill s rs k w).size = w.size ∧
    (∀ j (h : j < rs.length), (fill s rs k w)[k + j]? =
      some (weighted s.ruleWeight (k + j) (strength s.inMF s.andOp s.orOp rs[j]))) ∧
    (∀ j, j < k ∨ k + rs.length ≤ j → (fill s rs k w)[j]? = w[j]?) := by
  induction rs with
  | nil => intro k w _; simp [fill]
  | cons r rs ih =>
    intro k w hw
    simp only [List.length_cons] at hw
    obtain ⟨e1, e2, e3⟩ := ih (k + 1) (w.setIfInBounds k (weighted s.ruleWeight k
      (strength s.inMF s.andOp s.orOp r))) (by simpa using by omega)
    refine ⟨by rw [fill, e1]; simp, ?_, ?_⟩
    · intro j hj
      rw [fill]
      cases j with
      | zero =>
        simp only [Nat.add_zero]
        rw [e3 k (.inl (by omega))]
        simp [show k < w.size by omega]
      | succ j =>
        have := e2 j (by simpa using hj)
        rw [show k + 1 + j = k + (j + 1) by omega] at this
        simpa using this
    · intro j hj
      rw [fill, e3 j (by simp at hj; omega)]
      have : k ≠ j := by simp at hj; omega
      simp [this]

theorem ruleItems_append (l₁ l₂ : List Rule) : ruleItems (l₁ ++ l₂) = ruleItems l₁ ++ ruleItems l₂ := by
  induction l₁ with
  | nil => rfl
  | cons r l ih => simp [ruleItems, ih]

/-! ## C55 -/

/-- **C55** for every rule base encoded with the macros whose sets exist, `inference()` neither reads nor
writes outside the arrays and terminates; it returns `true` exactly when the configured number of rules is
the number of rules; the strength stored for every rule is the combination, from left to right, of the
degrees of its terms with the configured operators, times the rule weight limited to [0, 1] if there are
weights; the other strengths and the rest of the system are unchanged. -/
theorem C55_inference (s : Inst R) (rs : List Rule) (w : Array R) (hp : program rs <+: s.xRules.toList)
    (hr : ∀ r ∈ rs, r.Ok s) (hw : s.wi = some w) (hn : min s.nRules rs.length ≤ w.size)
    (hrw : ∀ rw, s.ruleWeight = some rw → min s.nRules rs.length ≤ rw.size) :
    ∃ w' : Array R,
      inference s = .ok ({ s with wi := some w', infState := .antecedent, lastConnector := -1,
                                  rStrength := lit 0, ruleCount := min s.nRules rs.length },
                         decide (s.nRules = rs.length)) ∧
      w'.size = w.size ∧
      (∀ k (h : k < rs.length), k < s.nRules →
        w'[k]? = some (weighted s.ruleWeight k (strength s.inMF s.andOp s.orOp rs[k]))) ∧
      (∀ k, min s.nRules rs.length ≤ k → w'[k]? = w[k]?) := by
  have ha := at_program hp
  unfold program at ha
  obtain ⟨h0, ha⟩ := ha
  set m := min s.nRules rs.length with hm
  have hmr : (rs.take m).length = m := by simp [m]
  have hsplit : ruleItems rs ++ [RULES_END] = ruleItems (rs.take m) ++ (ruleItems (rs.drop m) ++ [RULES_END]) := by
    rw [← List.append_assoc, ← ruleItems_append, List.take_append_drop]
  rw [hsplit] at ha
  obtain ⟨d, l, e, hd, hend⟩ := first_item (rs.drop m)
  have hsize : cost (rs.take m) + 1 ≤ s.xRules.size + 1 := by
    have h1 := cost_le (rs.take m)
    have h2 := hp.length_le
    simp only [program, hsplit, List.length_cons, List.length_append, Array.length_toList] at h2
    omega
  obtain ⟨f, hf⟩ : ∃ f, s.xRules.size + 1 = f + 1 + cost (rs.take m) := ⟨s.xRules.size - cost (rs.take m), by omega⟩
  have hrun := run_rules s (rs.take m) 0 1 (f + 1) w _ ⟨d, l, e, hd⟩ (fun r h => hr r (List.mem_of_mem_take h))
    (by omega) (by omega) (fun rw h => by have := hrw rw h; omega) ha
  obtain ⟨g1, g2, g3⟩ := fill_get s (rs.take m) 0 w (by omega)
  rw [hmr, Nat.zero_add] at hrun
  have hat : rdArr s.xRules (1 + (ruleItems (rs.take m)).length) = .ok d := by
    have := (at_append.mp ha).2
    rw [e] at this
    exact this.1
  refine ⟨fill s (rs.take m) 0 w, ?_, g1, ?_, ?_⟩
  · unfold inference
    rw [h0]
    simp only [Out.bind_ok, if_true]
    have hb : ({ s with infState := .antecedent, rStrength := lit 0, lastConnector := -1, ruleCount := 0 } : Inst R) =
        before s 0 w := by simp [before, hw]
    rw [hb, hf, hrun, inferenceLoop]
    have hx : (before s m (fill s (rs.take m) 0 w)).xRules = s.xRules := rfl
    rw [hx, hat]
    simp only [Out.bind_ok]
    have hstop : ¬ (d ≠ RULES_END ∧ (before s m (fill s (rs.take m) 0 w)).ruleCount <
        (before s m (fill s (rs.take m) 0 w)).nRules) := by
      rintro ⟨h1, h2⟩
      have h3 : m < s.nRules := h2
      have : rs.drop m ≠ [] := fun h => h1 (hend.mpr h)
      simp at this
      omega
    rw [if_neg hstop]
    simp only [Out.pure_eq, Out.bind_ok, hx, hat]
    congr 2
    have : (d = RULES_END ∧ m = s.nRules) ↔ s.nRules = rs.length := by
      rw [hend]
      simp
      omega
    exact decide_eq_decide.mpr this
  · intro k hk hk2
    have := g2 k (by omega)
    simpa using this
  · intro k hk
    exact g3 k (.inr (by omega))

/-- A system with one input, one output and constant memberships. -/
def demo (nOut nRules : Nat) (rules : List Int) (fx : List ℚ) (weights : Option (Array ℚ)) : Inst ℚ :=
  { kind := .mamdani
    xInput := #[⟨0, 1, 0⟩]
    xOutput := Array.replicate nOut ⟨⟨0, 1, 0⟩, 1 / 100, 0, 0, 0, 0, 0, 0, none⟩
    inMF := (fx.map (fun v => (⟨none, #[], v, 1, 0⟩ : MF ℚ))).toArray
    outMF := #[⟨some ConstantMF, #[1], 0, 1, 0⟩]
    nInputs := 1, nOutputs := nOut, nMFInputs := fx.length, nMFOutputs := 1, nPoints := 100
    nRules := nRules, xRules := rules.toArray
    andOp := .min, orOp := .max, implicate := .min, aggregate := .max, deFuzz := .centroid
    ruleWeight := weights, wi := some (Array.replicate nRules 7)
    infState := .antecedent, aggState := .find, ruleCount := 0, rStrength := 0, lastConnector := 0
    lastTag := -1 }

/-- Rules used in the examples:
`IF 0 IS 0 AND 0 IS_NOT 1 OR 0 IS 2 THEN 0 IS 0 AND 1 IS_NOT 0 END` and `IF 0 IS_NOT 2 THEN 1 IS 0 END`. -/
def demoRules : List Rule :=
  [⟨⟨0, 0, false⟩, [(.and, ⟨0, 1, true⟩), (.or, ⟨0, 2, false⟩)], ⟨0, 0, false⟩, [⟨1, 0, true⟩]⟩,
   ⟨⟨0, 2, true⟩, [], ⟨1, 0, false⟩, []⟩]

example : program demoRules = [-128, 0, 1, -126, 0, -2, -125, 0, 3, -124, 0, 1, -126, 1, -1, 0, -3, -124, 1, 1, -127] := by
  decide

/-- The hypotheses of `C55_inference` hold for a system with two rules, one of which has three terms and
two consequents. -/
example : (let s := demo 2 2 (program demoRules) [1 / 2, 1 / 4, 3] (some #[1, 1 / 2])
    program demoRules <+: s.xRules.toList ∧ (∀ r ∈ demoRules, r.Ok s) ∧ s.wi = some #[7, 7] ∧
    min s.nRules demoRules.length ≤ 2) ∧
    ((fun p => (p.1.wi, p.2)) <$> inference (demo 2 2 (program demoRules) [1 / 2, 1 / 4, 1 / 8] (some #[1, 1 / 2]))) =
      .ok (some #[1 / 2, 7 / 16], true) := by
  refine ⟨⟨?_, ?_, rfl, by decide⟩, by decide +kernel⟩
  · simp [demo]
  · intro r hr
    simp only [demoRules, List.mem_cons, List.not_mem_nil, or_false] at hr
    rcases hr with rfl | rfl <;> simp [Rule.Ok, demo]

/-- In a system with one output a rule with two consequents (both for that output) is not read as the
rule base means it: the second consequent is taken for the next rule, and the item `0` of its output makes
the code read before the array of membership functions. -/
theorem C55_single_output_false :
    inference (demo 1 2 (program [⟨⟨0, 0, false⟩, [], ⟨0, 0, false⟩, [⟨0, 0, true⟩]⟩,
      ⟨⟨0, 0, false⟩, [], ⟨0, 0, false⟩, []⟩]) [1 / 2] none) = .ub := by
  have : ∀ o : Out (Inst ℚ × Bool), ((fun _ => ()) <$> o) = Out.ub → o = Out.ub := by
    intro o h; cases o <;> simp_all
    cases h
  exact this _ (by decide +kernel)

/-- A null `wi` (the default argument of `setup`) is written by `inference()`. -/
theorem C55_null_wi_false :
    inference { demo 1 1 (program [⟨⟨0, 0, false⟩, [], ⟨0, 0, false⟩, []⟩]) [1 / 2] none with wi := none } = .ub := by
  have : ∀ o : Out (Inst ℚ × Bool), ((fun _ => ()) <$> o) = Out.ub → o = Out.ub := by
    intro o h; cases o <;> simp_all
    cases h
  exact this _ (by decide +kernel)

end Verif.Fis
