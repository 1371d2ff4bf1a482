import Verif.Fis.Sets

/-!
# Fuzzification and the whole pipeline (C71)
-/

namespace Verif.Fis

open Arith

section any
variable {R : Type} [Arith R]

/-- The inputs limited to their ranges. Not a definition of the repository. -/
def limited (s : Inst R) : Array (IO R) := s.xInput.map (fun x => { x with value := bound x.value x.min x.max })

/-- Degree of a term when the membership of set `k` is `G k`. Not a definition of the repository. -/
def termDegree (G : Nat → R) (t : Term) : R := if t.neg then lit 1 -. bound01 (G t.mf) else bound01 (G t.mf)

/-- Strength of a rule when the membership of set `k` is `G k`. Not a definition of the repository. -/
def ruleStrength (G : Nat → R) (andOp orOp : Op) (r : Rule) : R :=
  r.tail.foldl (fun acc ct => (connOp andOp orOp ct.1).app acc (termDegree G ct.2)) (Sum (lit 0) (termDegree G r.head))

theorem limit_loop (s : Inst R) (hi : s.nInputs = s.xInput.size) :
    loop (fun i (s : Inst R) => do
      let x ← rdArr s.xInput i
      let a ← wrArr s.xInput i { x with value := bound x.value x.min x.max }
      pure { s with xInput := a }) s.nInputs 0 s = .ok { s with xInput := limited s } := by
  obtain ⟨t, e, a, ht, hs, hg⟩ := loop_total (f := fun i (s : Inst R) => do
      let x ← rdArr s.xInput i
      let a ← wrArr s.xInput i { x with value := bound x.value x.min x.max }
      pure { s with xInput := a }) s.nInputs
    (fun i t => ∃ a : Array (IO R), t = { s with xInput := a } ∧ a.size = s.xInput.size ∧
      ∀ j, a[j]? = if j < i then (limited s)[j]? else s.xInput[j]?)
    (by
      rintro i t hi' ⟨a, rfl, hs, hg⟩
      have hia : i < a.size := by omega
      have hsi : i < s.xInput.size := by omega
      have hai : a[i] = s.xInput[i] := by
        have := hg i
        rw [if_neg (by omega)] at this
        simpa [hia, hsi] using this
      refine ⟨{ s with xInput := a.set i { a[i] with value := bound a[i].value a[i].min a[i].max } },
        by simp only [rdArr_ok hia, Out.bind_ok, wrArr_ok hia, Out.pure_eq], _, rfl, by simpa using hs, ?_⟩
      intro j
      rw [Array.getElem?_set]
      by_cases hij : i = j
      · subst hij
        rw [if_pos rfl, if_pos (by omega), hai]
        simp [limited, hsi]
      · rw [if_neg hij, hg j]
        by_cases hlt : j < i
        · rw [if_pos hlt, if_pos (by omega)]
        · rw [if_neg hlt, if_neg (by omega)])
    s.nInputs 0 s (by omega) ⟨s.xInput, rfl, rfl, by intro j; rw [if_neg (by omega)]⟩
  rw [e, ht]
  have : a = limited s := by
    apply Array.ext_getElem?
    intro j
    rw [hg j]
    split
    · rfl
    · have h1 : s.xInput.size ≤ j := by omega
      rw [Array.getElem?_eq_none h1, Array.getElem?_eq_none (by simpa [limited] using h1)]
  rw [this]

theorem membership_eq {m : MF R} {p : Nat → Out (IO R)} {n : Nat} {v : R}
    (h : m.degreeAt p n = .ok v) : m.membership p n = .ok ({ m with fx := v }, v) :=
  membership_snd h m.fx

/-- **C71** (fuzzification) `fuzzify()` limits every input to its range and stores in every input set the membership of the
limited input, times the height of the set; nothing else changes. For every arithmetic. -/
theorem C71_fuzzify (s : Inst R) (G : Nat → R) (hi : s.nInputs = s.xInput.size) (hm : s.nMFInputs = s.inMF.size)
    (hG : ∀ (k : Nat) (m : MF R), s.inMF[k]? = some m → m.index < s.xInput.size ∧
      m.degreeAt (inputPtr (limited s) m.index) 1 = .ok (G k)) :
    ∃ a : Array (MF R), fuzzify s = .ok { s with xInput := limited s, inMF := a } ∧
      ∀ k, a[k]? = s.inMF[k]?.map (fun m : MF R => { m with fx := G k }) := by
  unfold fuzzify
  rw [limit_loop s hi]
  simp only [Out.bind_ok]
  obtain ⟨t, e, a, ht, hs, hg⟩ := loop_total (f := fun i (s : Inst R) => do
    let m ← rdArr s.inMF i
    let _ ← rdArr s.xInput m.index
    let (m', _) ← m.membership (inputPtr s.xInput m.index) 1
    let a ← wrArr s.inMF i m'
    pure { s with inMF := a }) s.nMFInputs
    (fun i t => ∃ a : Array (MF R), t = { s with xInput := limited s, inMF := a } ∧ a.size = s.inMF.size ∧
      ∀ j, a[j]? = if j < i then s.inMF[j]?.map (fun m : MF R => { m with fx := G j }) else s.inMF[j]?)
    (by
      rintro i t hi' ⟨a, rfl, hs, hg⟩
      have hia : i < a.size := by omega
      have hsi : i < s.inMF.size := by omega
      have hai : a[i] = s.inMF[i] := by
        have := hg i
        rw [if_neg (by omega)] at this
        simpa [hia, hsi] using this
      obtain ⟨h1, h2⟩ := hG i a[i] (by rw [hai]; simp [hsi])
      have hix : a[i].index < (limited s).size := by simpa [limited] using h1
      have hmem := membership_eq h2
      refine ⟨{ s with xInput := limited s, inMF := a.set i { a[i] with fx := G i } }, ?_, _, rfl, by simpa using hs, ?_⟩
      · simp only [rdArr_ok hia, rdArr_ok hix, Out.bind_ok, hmem, wrArr_ok hia, Out.pure_eq]
      intro j
      rw [Array.getElem?_set]
      by_cases hij : i = j
      · subst hij
        rw [if_pos rfl, if_pos (by omega), hai]
        simp [hsi]
      · rw [if_neg hij, hg j]
        by_cases hlt : j < i
        · rw [if_pos hlt, if_pos (by omega)]
        · rw [if_neg hlt, if_neg (by omega)])
    s.nMFInputs 0 { s with xInput := limited s } (by omega)
    ⟨s.inMF, rfl, rfl, by intro j; rw [if_neg (by omega)]⟩
  refine ⟨a, by rw [e, ht], fun k => ?_⟩
  rw [hg k]
  split
  · rfl
  · have h1 : s.inMF.size ≤ k := by omega
    rw [Array.getElem?_eq_none h1]; rfl

theorem degree_fuzzified {s : Inst R} {G : Nat → R} {a : Array (MF R)}
    (ha : ∀ k, a[k]? = s.inMF[k]?.map (fun m : MF R => { m with fx := G k })) {t : Term} (ht : t.mf < s.inMF.size) :
    degree a t = termDegree G t := by
  unfold degree termDegree
  rw [ha t.mf, Array.getElem?_eq_getElem ht]
  rfl

theorem strength_fuzzified {s : Inst R} {G : Nat → R} {a : Array (MF R)}
    (ha : ∀ k, a[k]? = s.inMF[k]?.map (fun m : MF R => { m with fx := G k })) {r : Rule} (hr : r.Ok s) (o1 o2 : Op) :
    strength a o1 o2 r = ruleStrength G o1 o2 r := by
  have h1 : degree a r.head = termDegree G r.head := degree_fuzzified ha (hr.1 _ (by simp)).2.1
  have h2 : ∀ ct ∈ r.tail, degree a ct.2 = termDegree G ct.2 := fun ct hct =>
    degree_fuzzified ha (hr.1 _ (by simp only [List.mem_cons, List.mem_map]; exact .inr ⟨ct, hct, rfl⟩)).2.1
  unfold strength ruleStrength
  rw [h1]
  generalize Sum (lit 0) (termDegree G r.head) = z
  clear h1
  revert h2
  generalize r.tail = l
  intro h2
  induction l generalizing z with
  | nil => rfl
  | cons ct l ih =>
    simp only [List.foldl_cons]
    rw [h2 ct (by simp)]
    exact ih _ (fun u hu => h2 u (by simp [hu]))

/-- The strengths after `fuzzify()` and `inference()`. -/
theorem fuzzify_inference (s : Inst R) (rs : List Rule) (w : Array R) (G : Nat → R)
    (hi : s.nInputs = s.xInput.size) (hm : s.nMFInputs = s.inMF.size)
    (hG : ∀ (k : Nat) (m : MF R), s.inMF[k]? = some m → m.index < s.xInput.size ∧
      m.degreeAt (inputPtr (limited s) m.index) 1 = .ok (G k))
    (hp : program rs <+: s.xRules.toList) (hn : s.nRules = rs.length) (hr : ∀ r ∈ rs, r.Ok s) (hw : s.wi = some w)
    (hwn : rs.length ≤ w.size) (hrw : ∀ rw, s.ruleWeight = some rw → rs.length ≤ rw.size) :
    ∃ (s1 : Inst R) (a : Array (MF R)) (w' : Array R), fuzzify s = .ok s1 ∧
      inference s1 = .ok ({ s with xInput := limited s, inMF := a, wi := some w', infState := .antecedent,
                                   lastConnector := -1, rStrength := lit 0, ruleCount := rs.length }, true) ∧ w'.size = w.size ∧
      ∀ k (h : k < rs.length), w'[k]? = some (weighted s.ruleWeight k (ruleStrength G s.andOp s.orOp rs[k])) := by
  obtain ⟨a, e1, ha⟩ := C71_fuzzify s G hi hm hG
  have hsize : a.size = s.inMF.size := by
    have h1 := ha a.size
    have h2 := ha s.inMF.size
    rw [Array.getElem?_eq_none (le_refl _)] at h1
    rw [Array.getElem?_eq_none (le_refl s.inMF.size)] at h2
    have h1 := h1.symm
    rw [Option.map_eq_none_iff, Array.getElem?_eq_none_iff] at h1
    rw [Option.map_none, Array.getElem?_eq_none_iff] at h2
    omega
  have hmin : min s.nRules rs.length = rs.length := by omega
  obtain ⟨w', e2, hs', hk, _⟩ := C55_inference { s with xInput := limited s, inMF := a } rs w hp
    (fun r h => by
      obtain ⟨q1, q2⟩ := hr r h
      refine ⟨fun t ht => ?_, q2⟩
      have := q1 t ht
      exact ⟨this.1, by show t.mf < a.size; omega, this.2.2⟩) hw
    (by show min s.nRules rs.length ≤ _; omega) (fun rw h => by show min s.nRules rs.length ≤ _; have := hrw rw h; omega)
  refine ⟨_, a, w', e1, ?_, hs', fun k h => ?_⟩
  · rw [e2]
    simp only [hn, min_self, decide_true]
  · rw [hk k h (by show k < s.nRules; omega)]
    rw [strength_fuzzified ha (hr _ (List.getElem_mem h))]

theorem visits_lt (rs : List Rule) : ∀ (k : Nat), ∀ kc ∈ visits rs k, k ≤ kc.1 ∧ kc.1 < k + rs.length := by
  induction rs with
  | nil => intro k kc h; simp [visits] at h
  | cons r rs ih =>
    intro k kc h
    simp only [visits, List.mem_append, List.mem_map] at h
    rcases h with ⟨c, _, rfl⟩ | h
    · simp
    · have := ih (k + 1) kc h
      simp only [List.length_cons]
      omega

/-- Strength of rule `k` times its weight. Not a definition of the repository. -/
def pipeStrength (s : Inst R) (G : Nat → R) (rs : List Rule) (k : Nat) : R :=
  match rs[k]? with
  | some r => weighted s.ruleWeight k (ruleStrength G s.andOp s.orOp r)
  | none => lit 0

theorem pipeStrength_eq {s : Inst R} {G : Nat → R} {rs : List Rule} {w' : Array R}
    (hw' : ∀ k (h : k < rs.length), w'[k]? = some (weighted s.ruleWeight k (ruleStrength G s.andOp s.orOp rs[k])))
    {k : Nat} (hk : k < rs.length) : (w'[k]?).getD (lit 0) = pipeStrength s G rs k := by
  rw [hw' k hk]
  simp [pipeStrength, hk]

end any

section field
variable {K : Type} [Field K] [LinearOrder K] [IsStrictOrderedRing K]

omit [IsStrictOrderedRing K] in
/-- **C71** (pipeline) in exact arithmetic, after `fuzzify()`, `inference()` and `deFuzzify()` every output of a Sugeno system
is the average (or the sum) of the consequents evaluated at the inputs limited to their ranges, weighted with
the strengths of their rules: the left to right combination of the memberships of the limited inputs, times the
rule weights. The outputs are limited to their ranges and the previous strengths, memberships and outputs do not
matter. The rules are restricted as in `C59_visits_partial`. -/
theorem C71_sugeno_partial (s : Inst K) (rs : List Rule) (w : Array K) (G : Nat → K) (Z : Term → K)
    (hk : s.kind ≠ .mamdani) (hd : s.deFuzz = .wtaver ∨ s.deFuzz = .wtsum)
    (hi : s.nInputs = s.xInput.size) (hno : s.nOutputs = s.xOutput.size) (hm : s.nMFInputs = s.inMF.size)
    (hG : ∀ (k : Nat) (m : MF K), s.inMF[k]? = some m → m.index < s.xInput.size ∧
      m.degreeAt (inputPtr (limited s) m.index) 1 = .ok (G k))
    (hp : program rs <+: s.xRules.toList) (hn : s.nRules = rs.length) (hw : s.wi = some w) (hwn : rs.length ≤ w.size)
    (hrw : ∀ rw, s.ruleWeight = some rw → rs.length ≤ rw.size)
    (hr : ∀ r ∈ rs, r.Ok s ∧ r.AggOk s ∧ ∀ c ∈ r.consequents,
      consequentValue { s with xInput := limited s } c = .ok (Z c)) :
    ∃ s1 s2 s3, fuzzify s = .ok s1 ∧ inference s1 = .ok (s2, true) ∧ deFuzzify s2 = .ok s3 ∧
      ∀ (j : Nat) (o : Output K), s.xOutput[j]? = some o → ∃ o', s3.xOutput[j]? = some o' ∧
        o'.io.value =
          let W := pipeStrength s G rs
          let sum := ((active W rs j).map (fun kc => W kc.1 * Z kc.2)).sum
          bound (if s.deFuzz = .wtaver then sum / ((active W rs j).map (fun kc => W kc.1)).sum else sum)
            o.io.min o.io.max := by
  obtain ⟨s1, a, w', e1, e2, hsz, hw'⟩ := fuzzify_inference s rs w G hi hm hG hp hn (fun r h => (hr r h).1) hw hwn hrw
  obtain ⟨s3, e3, h3⟩ := C59_output_partial
    ({ s with xInput := limited s, inMF := a, wi := some w', infState := .antecedent,
              lastConnector := -1, rStrength := lit 0, ruleCount := rs.length } : Inst K) rs w'
    (fun k => (w'[k]?).getD (lit 0)) Z hk hd hno hp hn rfl (by omega) (fun k h => by simp [h])
    (fun r h => ⟨(hr r h).2.1, fun c hc => (hr r h).2.2 c hc⟩)
  refine ⟨_, _, s3, e1, e2, e3, fun j o ho => ?_⟩
  obtain ⟨o', ho', _, _, hv⟩ := h3 j o ho
  refine ⟨o', ho', ?_⟩
  have hact : active (fun k => (w'[k]?).getD (lit 0)) rs j = active (pipeStrength s G rs) rs j := by
    unfold active
    apply List.filter_congr
    intro kc hkc
    have := pipeStrength_eq hw' (show kc.1 < rs.length by have := visits_lt rs 0 kc hkc; omega)
    simp only [this]
  have hmem : ∀ kc ∈ active (pipeStrength s G rs) rs j, (w'[kc.1]?).getD (lit 0) = pipeStrength s G rs kc.1 := by
    intro kc hkc
    exact pipeStrength_eq hw' (by have := visits_lt rs 0 kc (List.mem_of_mem_filter hkc); omega)
  rw [hv, hact]
  simp only
  rw [List.map_congr_left (fun kc h => by rw [hmem kc h]), List.map_congr_left (fun kc h => hmem kc h)]

/-- **C71** (pipeline, Mamdani) in exact arithmetic, after `fuzzify()`, `inference()` and `deFuzzify()` with the default method every
output of a Mamdani system is the centre of gravity, limited to the range of the output, of the region
sampled at the centres of `nPoints` intervals: the consequents cut by the strengths of their rules and aggregated. The
rules are restricted as in `C59_visits_partial`. -/
theorem C71_mamdani_partial (s : Inst K) (rs : List Rule) (w : Array K) (G : Nat → K) (Z : Nat → Term → K)
    (hk : s.kind = .mamdani) (hd : s.deFuzz = .centroid)
    (hi : s.nInputs = s.xInput.size) (hno : s.nOutputs = s.xOutput.size) (hm : s.nMFInputs = s.inMF.size)
    (hG : ∀ (k : Nat) (m : MF K), s.inMF[k]? = some m → m.index < s.xInput.size ∧
      m.degreeAt (inputPtr (limited s) m.index) 1 = .ok (G k))
    (hp : program rs <+: s.xRules.toList) (hn : s.nRules = rs.length) (hw : s.wi = some w) (hwn : rs.length ≤ w.size)
    (hrw : ∀ rw, s.ruleWeight = some rw → rs.length ≤ rw.size)
    (hag : ∀ (j : Nat) (o : Output K) (xa ya : Array K), s.xOutput[j]? = some o → o.ag = some (xa, ya) →
      s.nPoints ≤ xa.size ∧ s.nPoints ≤ ya.size)
    (hr : ∀ r ∈ rs, r.Ok s ∧ r.AggOk s ∧ ∀ c ∈ r.consequents, ∀ k < s.nPoints,
      consequentValue (atPoint s k) c = .ok (Z k c)) :
    ∃ s1 s2 s3, fuzzify s = .ok s1 ∧ inference s1 = .ok (s2, true) ∧ deFuzzify s2 = .ok s3 ∧
      ∀ (j : Nat) (o : Output K), s.xOutput[j]? = some o → ∃ o', s3.xOutput[j]? = some o' ∧
        let Y := fun k => region s.aggregate s.implicate (pipeStrength s G rs) (Z k) rs j
        o'.io.value = bound ((∑ k ∈ Finset.range s.nPoints, (o.io.min + (k + 1 / 2) * o.res) * Y k) /
          ∑ k ∈ Finset.range s.nPoints, Y k) o.io.min o.io.max := by
  obtain ⟨s1, a, w', e1, e2, hsz, hw'⟩ := fuzzify_inference s rs w G hi hm hG hp hn (fun r h => (hr r h).1) hw hwn hrw
  obtain ⟨s3, e3, h3⟩ := C67_centroid_partial
    ({ s with xInput := limited s, inMF := a, wi := some w', infState := .antecedent,
              lastConnector := -1, rStrength := lit 0, ruleCount := rs.length } : Inst K) rs w'
    (fun k => (w'[k]?).getD (lit 0)) Z hk hd hno hp hn rfl (by omega) (fun k h => by simp [h]) hag
    (fun r h => ⟨(hr r h).2.1, fun c hc k hk' => by
      have := (hr r h).2.2 c hc k hk'
      simp only [consequentValue, atPoint, hk, if_true] at this ⊢
      exact this⟩)
  refine ⟨_, _, s3, e1, e2, e3, fun j o ho => ?_⟩
  obtain ⟨o', ho', hv⟩ := h3 j o ho
  refine ⟨o', ho', ?_⟩
  have hY : ∀ k, region s.aggregate s.implicate (fun k => (w'[k]?).getD (lit 0)) (Z k) rs j =
      region s.aggregate s.implicate (pipeStrength s G rs) (Z k) rs j := by
    intro k
    have hact : (visits rs 0).filter (fun kc => decide (kc.2.inp = j) && (lit 0 <. (w'[kc.1]?).getD (lit 0))) =
        (visits rs 0).filter (fun kc => decide (kc.2.inp = j) && (lit 0 <. pipeStrength s G rs kc.1)) := by
      apply List.filter_congr
      intro kc hkc
      rw [pipeStrength_eq hw' (by have := visits_lt rs 0 kc hkc; omega)]
    unfold region
    rw [hact]
    apply List.foldl_ext
    intro y kc hkc
    have := pipeStrength_eq hw' (show kc.1 < rs.length by
      have := visits_lt rs 0 kc (List.mem_of_mem_filter hkc); omega)
    simp only [this]
  rw [hv]
  simp only [hY]

end field

/-- A Sugeno system with one input, two triangular sets and two rules, `IF 0 IS 0 THEN 0 IS 0 END` and
`IF 0 IS_NOT 0 AND 0 IS 1 THEN 0 IS 1 END`, the second one with the weight 1 / 2. -/
def pipe (x : ℚ) : Inst ℚ :=
  { demo 1 2 (program pipeRules) [] (some #[1, 1 / 2]) with
    kind := .sugeno, deFuzz := .wtaver, xInput := #[⟨0, 8, x⟩]
    inMF := #[⟨some TriMF, #[-4, 0, 4], 0, 1, 0⟩, ⟨some TriMF, #[0, 4, 8], 0, 1, 0⟩], nMFInputs := 2
    xOutput := #[⟨⟨-50, 50, 0⟩, 1, 0, 0, 0, 0, 0, 0, none⟩]
    outMF := #[⟨some LinearMF, #[1, 2], 0, 1, 0⟩, ⟨some ConstantMF, #[-4], 0, 1, 0⟩], nMFOutputs := 2 }
where
  /-- The rules of the example. -/
  pipeRules : List Rule := [⟨⟨0, 0, false⟩, [], ⟨0, 0, false⟩, []⟩, ⟨⟨0, 0, true⟩, [(.and, ⟨0, 1, false⟩)], ⟨0, 1, false⟩, []⟩]

/-- The hypotheses of `C71_sugeno_partial` hold for that system. -/
example : (∀ (k : Nat) (m : MF ℚ), (pipe 1).inMF[k]? = some m → m.index < (pipe 1).xInput.size ∧
      m.degreeAt (inputPtr (limited (pipe 1)) m.index) 1 = .ok (if k = 0 then 3 / 4 else 1 / 4)) ∧
    (program pipe.pipeRules <+: (pipe 1).xRules.toList) ∧
    (∀ r ∈ pipe.pipeRules, r.Ok (pipe 1) ∧ r.AggOk (pipe 1) ∧ ∀ c ∈ r.consequents,
      consequentValue { pipe 1 with xInput := limited (pipe 1) } c = .ok (if c.mf = 0 then 3 else -4)) ∧
    (do let s ← fuzzify (pipe 1)
        let (s, _) ← inference s
        let s ← deFuzzify s
        pure (s.xOutput.toList.map (fun o : Output ℚ => o.io.value))) = .ok [(3 / 4 * 3 + 1 / 8 * -4) / (3 / 4 + 1 / 8)] := by
  refine ⟨?_, by simp [pipe, demo], ?_, by decide +kernel⟩
  · intro k m h
    match k, h with
    | 0, h => cases h; exact ⟨by decide, by decide +kernel⟩
    | 1, h => cases h; exact ⟨by decide, by decide +kernel⟩
    | k + 2, h => cases h
  · intro r hr
    simp only [pipe.pipeRules, List.mem_cons, List.not_mem_nil, or_false] at hr
    rcases hr with rfl | rfl
    · refine ⟨by simp [Rule.Ok, pipe, demo], by simp [Rule.AggOk, Rule.consequents, pipe, demo, setItem, THEN], ?_⟩
      intro c hc
      simp only [Rule.consequents, List.mem_cons, List.not_mem_nil, or_false] at hc
      rcases hc with rfl; decide +kernel
    · refine ⟨by simp [Rule.Ok, pipe, demo], by simp [Rule.AggOk, Rule.consequents, pipe, demo, setItem, THEN], ?_⟩
      intro c hc
      simp only [Rule.consequents, List.mem_cons, List.not_mem_nil, or_false] at hc
      rcases hc with rfl; decide +kernel

/-- A Mamdani system run from its input to its output: the input 9 is limited to 8, where the set has the
membership 2 / 3. -/
example : (do let s ← fuzzify { plateau .centroid 1 2 3 7 with
                xInput := #[⟨0, 8, 9⟩], inMF := #[⟨some TriMF, #[4, 10, 11], 0, 1, 0⟩], nMFInputs := 1 }
              let (s, b) ← inference s
              let s ← deFuzzify s
              pure (b, s.xInput.toList, s.wi, s.xOutput.toList.map (fun o : Output ℚ => o.io.value))) =
    .ok (true, [⟨0, 8, 8⟩], some #[2 / 3], [501 / 142]) := by decide +kernel

/-- With two plateaus of the same height `mom` is not the middle of the maxima: it sees the first one only. Two rules of
strength 1 / 2 with the sets [0, 2] and [6, 8] give 1 instead of 4. -/
theorem C68_mom_false :
    (fun s => s.xOutput.toList.map (fun o => (o.io.value, o.ag.map Prod.snd))) <$>
      deFuzzify { plateau .mom 0 0 0 0 with
        nRules := 2, wi := some #[1 / 2, 1 / 2]
        xRules := (program [⟨⟨0, 0, false⟩, [], ⟨0, 0, false⟩, []⟩, ⟨⟨0, 0, false⟩, [], ⟨0, 1, false⟩, []⟩]).toArray
        outMF := #[⟨some RectangleMF, #[0, 2], 0, 1, 0⟩, ⟨some RectangleMF, #[6, 8], 0, 1, 0⟩] } =
      .ok [(1, some #[1 / 2, 1 / 2, 0, 0, 0, 0, 1 / 2, 1 / 2])] := by
  decide +kernel

/-! ## C72 -/

section any
variable {R : Type}

/-- **C72** `sys << t << v` with an existing tag sets input `t` to `v` and changes nothing else (apart from the selection), and
`sys[ t ]` with an existing tag is the value of output `t`. -/
theorem C72_access_partial (s : Inst R) (t : Int) (v : R) :
    (0 ≤ t → t < s.nInputs → s.nInputs = s.xInput.size → ∃ s', pushValue (selectInput s t) v = .ok s' ∧
      (∀ j : Nat, s'.xInput[j]? = if (j : Int) = t then s.xInput[j]?.map (fun x => { x with value := v }) else s.xInput[j]?) ∧
      s' = { s with xInput := s'.xInput, lastTag := t }) ∧
    (0 ≤ t → t < s.nOutputs → s.nOutputs = s.xOutput.size →
      ∃ o, s.xOutput[t.toNat]? = some o ∧ getAt s t = .ok o.io.value) := by
  constructor
  · intro h0 h1 h2
    have ht : t.toNat < s.xInput.size := by omega
    refine ⟨{ s with lastTag := t, xInput := s.xInput.set t.toNat { s.xInput[t.toNat] with value := v } }, ?_, ?_, rfl⟩
    · simp only [pushValue, selectInput, h0, h1, and_self, if_true, rdArr_ok ht, Out.bind_ok, wrArr_ok ht, Out.pure_eq]
    · intro j
      show (s.xInput.set t.toNat _)[j]? = _
      rw [Array.getElem?_set]
      by_cases hj : t.toNat = j
      · subst hj
        rw [if_pos rfl, if_pos (by omega)]
        simp [ht]
      · rw [if_neg hj, if_neg (by omega)]
  · intro h0 h1 h2
    have ht : t.toNat < s.xOutput.size := by omega
    exact ⟨s.xOutput[t.toNat], by simp [ht], by simp only [getAt, h0, h1, and_self, if_true, rdArr_ok ht, Out.bind_ok, Out.pure_eq]⟩

/-- With a tag that does not exist `sys << t << v` overwrites the input that was selected before. -/
theorem C72_select_false (s : Inst R) (t : Int) (v : R) (h : t < 0 ∨ s.nInputs ≤ t) :
    pushValue (selectInput s t) v = pushValue s v := by
  rw [selectInput, if_neg (by omega)]

/-- With a tag that does not exist `sys[ t ]` is the value of an input. -/
theorem C72_index_false (s : Inst R) (t : Int) (h : t < 0 ∨ s.nOutputs ≤ t) (h1 : 0 < s.nOutputs) :
    getAt s t = (fun x => x.value) <$> rdArr s.xInput (s.nOutputs - 1) := by
  rw [getAt, if_neg (by omega)]
  have : index ((s.nOutputs : Int) - 1) = .ok (s.nOutputs - 1) := by
    unfold index
    rw [if_pos (by omega)]
    congr 1
    omega
  rw [this]
  simp only [Out.bind_ok]
  cases rdArr s.xInput (s.nOutputs - 1) <;> rfl

end any

/-- Witness: in a system with one input and two outputs the value of a missing output is read outside the inputs. -/
theorem C72_index_ub_false : getAt (demo 2 1 [] [] none) 2 = .ub := by decide +kernel

example : (do let s ← pushValue (selectInput (sugeno [] 0 [] .wtaver) 1) 7; pure (s.xInput.toList.map (fun x : IO ℚ => x.value))) = .ok [2, 7] ∧
    (do let s ← pushValue (selectInput (sugeno [] 0 [] .wtaver) 1) 7
        let s ← pushValue (selectInput s 2) 8
        pure (s.xInput.toList.map (fun x : IO ℚ => x.value))) = .ok [2, 8] := by decide +kernel

end Verif.Fis
