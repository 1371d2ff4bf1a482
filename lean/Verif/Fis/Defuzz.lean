import Verif.Fis.Aggregate
import Verif.Fis.Range

/-!
# De-fuzzification (C59, C67)
-/

namespace Verif.Fis

open Arith

variable {R : Type} [Arith R]

/-! ## Loops over the outputs -/

omit [Arith R] in
/-- A loop that replaces every output by a function of it. -/
theorem loop_map (F : Nat → Inst R → Out (Inst R)) (g : Output R → Output R) (s : Inst R)
    (hn : s.nOutputs = s.xOutput.size)
    (hF : ∀ (i : Nat) (a : Array (Output R)) (h : i < a.size), s.xOutput[i]? = some a[i] → a.size = s.xOutput.size →
      F i { s with xOutput := a } = .ok { s with xOutput := a.set i (g a[i]) }) :
    loop F s.nOutputs 0 s = .ok { s with xOutput := s.xOutput.map g } := by
  obtain ⟨t, e, a, ht, hs, hg⟩ := loop_total (f := F) s.nOutputs
    (fun i t => ∃ a : Array (Output R), t = { s with xOutput := a } ∧ a.size = s.xOutput.size ∧
      ∀ j, a[j]? = if j < i then s.xOutput[j]?.map g else s.xOutput[j]?)
    (by
      rintro i t hi ⟨a, rfl, hs, hg⟩
      have hia : i < a.size := by omega
      have hai : s.xOutput[i]? = some a[i] := by
        have := hg i
        rw [if_neg (by omega)] at this
        rw [← this]; simp [hia]
      refine ⟨_, hF i a hia hai hs, a.set i (g a[i]), rfl, by simpa using hs, fun j => ?_⟩
      rw [Array.getElem?_set]
      by_cases hj : i = j
      · subst hj
        rw [if_pos rfl, if_pos (by omega), hai]; rfl
      · rw [if_neg hj, hg j]
        by_cases h1 : j < i
        · rw [if_pos h1, if_pos (by omega)]
        · rw [if_neg h1, if_neg (by omega)])
    s.nOutputs 0 s (by omega) ⟨s.xOutput, rfl, rfl, fun j => by simp⟩
  rw [e, ht]
  congr 2
  apply Array.ext_getElem?
  intro j
  rw [hg j, Array.getElem?_map]
  split
  · rfl
  · rename_i h
    have : s.xOutput[j]? = none := by simp; omega
    simp [this]

omit [Arith R] in
theorem over_map (f : Output R → Out (Output R)) (g : Output R → Output R) (s : Inst R)
    (hn : s.nOutputs = s.xOutput.size)
    (hf : ∀ (i : Nat) (o : Output R), s.xOutput[i]? = some o → f o = .ok (g o)) :
    overOutputs f s = .ok { s with xOutput := s.xOutput.map g } := by
  unfold overOutputs
  apply loop_map _ g s hn
  intro i a hi hai _
  simp only [rdArr_ok hi, Out.bind_ok, hf i a[i] hai, wrArr_ok hi, Out.pure_eq]

/-- The value a method other than the bisector computes from an output at its end. -/
def result (m : Method) (o : Output R) : R :=
  match m with
  | .centroid | .wtaver => o.v0 /. o.v1
  | .bisector => o.x
  | .lom | .som => o.v2
  | .mom => lit (1 / 2) *. (o.v1 +. o.v2)
  | .wtsum => o.v0

/-- The output with the value limited to its range. -/
def settle (m : Method) (o : Output R) : Output R :=
  { o with io := { o.io with value := bound (result m o) o.io.min o.io.max } }

theorem finish_map (s : Inst R) (hn : s.nOutputs = s.xOutput.size) (hm : s.deFuzz ≠ .bisector) :
    loop finish s.nOutputs 0 s = .ok { s with xOutput := s.xOutput.map (settle s.deFuzz) } := by
  apply loop_map _ _ s hn
  intro i a hi hai _
  unfold finish deFuzzEnd
  simp only [rdArr_ok hi, Out.bind_ok]
  cases hd : s.deFuzz
  case bisector => exact absurd hd hm
  all_goals simp only [Out.pure_eq, Out.bind_ok, rdArr_ok hi, wrArr_ok hi, settle, result]

/-! ## What a consequent evaluates to -/

theorem degreeAt_fx (m : MF R) (x : R) (io : Nat → Out (IO R)) (n : Nat) :
    ({ m with fx := x } : MF R).degreeAt io n = m.degreeAt io n := rfl

/-- The sets are those of `s` but for their cached values. -/
def SameMF (s : Inst R) (mo : Array (MF R)) : Prop :=
  mo.size = s.outMF.size ∧
    ∀ (j : Nat) (m m' : MF R), s.outMF[j]? = some m → mo[j]? = some m' → ∃ x, m' = { m with fx := x }

omit [Arith R] in
theorem SameMF.refl (s : Inst R) : SameMF s s.outMF :=
  ⟨rfl, fun j m m' h1 h2 => by rw [h1] at h2; cases h2; exact ⟨m.fx, rfl⟩⟩

omit [Arith R] in
theorem SameMF.trans {s t : Inst R} {mo : Array (MF R)} (h1 : SameMF s t.outMF) (h2 : SameMF t mo) : SameMF s mo := by
  refine ⟨h2.1.trans h1.1, fun j m m' e e' => ?_⟩
  have hj : j < t.outMF.size := by
    have := (Array.getElem?_eq_some_iff.mp e).1
    rw [h1.1]; exact this
  obtain ⟨x, hx⟩ := h1.2 j m t.outMF[j] e (by simp [hj])
  obtain ⟨y, hy⟩ := h2.2 j t.outMF[j] m' (by simp [hj]) e'
  exact ⟨y, by rw [hy, hx]⟩

/-- The value of a consequent depends on the shapes of the sets and, in a Mamdani system, on the values and
ranges of the outputs, in the others on the inputs. -/
theorem consequentValue_congr (s t : Inst R) (c : Term) (hk : t.kind = s.kind) (hmf : SameMF s t.outMF)
    (hi : t.xInput = s.xInput) (hni : t.nInputs = s.nInputs) (hm : c.mf < s.outMF.size)
    (ho : s.kind = .mamdani → (t.xOutput[c.inp]?).map (fun o => o.io) = (s.xOutput[c.inp]?).map (fun o => o.io)) :
    consequentValue t c = consequentValue s c := by
  have hm' : c.mf < t.outMF.size := by rw [hmf.1]; exact hm
  obtain ⟨x, hx⟩ := hmf.2 c.mf s.outMF[c.mf] t.outMF[c.mf] (by simp [hm]) (by simp [hm'])
  unfold consequentValue
  rw [rdArr_ok hm, rdArr_ok hm', hk, hi, hni]
  simp only [Out.bind_ok]
  by_cases hkind : s.kind = .mamdani
  · simp only [hkind, if_true]
    have := ho hkind
    by_cases h1 : c.inp < s.xOutput.size
    · have h2 : c.inp < t.xOutput.size := by
        by_contra h2
        simp [h1, h2] at this
      simp [h1, h2] at this
      have hptr : outputPtr t.xOutput[c.inp] = outputPtr s.xOutput[c.inp] := by
        funext j; simp [outputPtr, this]
      rw [rdArr_ok h1, rdArr_ok h2]
      simp only [Out.bind_ok]
      rw [hptr, hx, degreeAt_fx]
    · have h2 : ¬ c.inp < t.xOutput.size := by
        intro h2
        simp [h1, h2] at this
      simp [rdArr, h1, h2]
  · simp only [hkind, if_false]
    rw [hx, degreeAt_fx]

/-! ## Sugeno and Tsukamoto systems -/

omit [Arith R] in
theorem size_of_map {xo a : Array (Output R)} {f : Nat → Output R → Output R} (h : ∀ j : Nat, xo[j]? = a[j]?.map (f j)) :
    xo.size = a.size := by
  have hmap : ∀ j : Nat, xo.size ≤ j ↔ a.size ≤ j := by
    intro j
    rw [← Array.getElem?_eq_none_iff, ← Array.getElem?_eq_none_iff, h j, Option.map_eq_none_iff]
  have h1 := hmap xo.size
  have h2 := hmap a.size
  omega

/-- The output with its sums cleared. -/
def clear (o : Output R) : Output R := { o with v0 := lit 0, v1 := lit 0 }

/-- The result of `deFuzzify` on a system that is not a Mamdani one, for every arithmetic. -/
theorem weighted_run (s : Inst R) (rs : List Rule) (w : Array R) (W : Nat → R) (Z : Term → R)
    (hk : s.kind ≠ .mamdani) (hd : s.deFuzz = .wtaver ∨ s.deFuzz = .wtsum) (hno : s.nOutputs = s.xOutput.size)
    (hp : program rs <+: s.xRules.toList) (hn : s.nRules = rs.length) (hw : s.wi = some w)
    (hwn : rs.length ≤ w.size) (hW : ∀ k (h : k < w.size), W k = w[k])
    (hr : ∀ r ∈ rs, r.AggOk s ∧ ∀ c ∈ r.consequents, consequentValue s c = .ok (Z c)) :
    ∃ s', deFuzzify s = .ok s' ∧ ∀ j, s'.xOutput[j]? = s.xOutput[j]?.map (fun o =>
      settle s.deFuzz ((visits rs 0).foldl (visit s.kind s.aggregate s.implicate W Z j) (clear o))) := by
  have hinit : ∀ o : Output R, s.deFuzz.init o = o := by rcases hd with h | h <;> intro o <;> rw [h] <;> rfl
  have hcomp : ∀ o : Output R, s.deFuzz.compute o = o := by rcases hd with h | h <;> intro o <;> rw [h] <;> rfl
  have hbi : s.deFuzz ≠ .bisector := by rcases hd with h | h <;> rw [h] <;> simp
  let s1 : Inst R := { s with xOutput := s.xOutput.map clear }
  obtain ⟨xo, mo, e, h1, h2, h3⟩ := C59_visits_partial s1 rs w W Z hp hn hw hwn hW (by
    intro r hr'
    obtain ⟨g1, g2⟩ := hr r hr'
    refine ⟨⟨g1.1, fun c hc => ?_, g1.2.2⟩, fun c hc => ?_⟩
    · have := g1.2.1 c hc
      simpa [s1] using this
    · rw [← g2 c hc]
      exact consequentValue_congr s s1 c rfl (SameMF.refl s) rfl rfl (g1.2.1 c hc).2.1 (fun h => absurd h hk))
  have hxo : xo.size = s.xOutput.size := by
    have := size_of_map h1
    simpa [s1] using this
  have step1 : overOutputs (fun o => pure (s.deFuzz.init o)) s = .ok s := by
    rw [over_map _ id s hno (fun i o _ => by rw [hinit]; rfl)]; simp
  have step2 : overOutputs (fun o => pure { o with v0 := lit 0, v1 := lit 0 }) s = .ok s1 :=
    over_map _ clear s hno (fun i o _ => rfl)
  let t : Inst R := { s1 with xOutput := xo, outMF := mo, aggState := .find, ruleCount := rs.length }
  have step3 : fuzzyAggregate s1 = .ok t := e
  have step4 : overOutputs (fun o => pure (t.deFuzz.compute o)) t = .ok t := by
    rw [over_map _ id t (by exact hno.trans hxo.symm) (fun i o _ => by
      show Out.ok (s.deFuzz.compute o) = _
      rw [hcomp]; rfl)]
    simp
  have step5 := finish_map t (by exact hno.trans hxo.symm) (by exact hbi)
  unfold deFuzzify
  simp only [step1, Out.bind_ok, if_neg hk, step2, step3, step4, step5]
  refine ⟨_, rfl, fun j => ?_⟩
  simp only [Array.getElem?_map, t, h1 j, s1, Option.map_map]
  rfl

/-! ## Mamdani systems -/

/-- The abscissa number `k` at which an output is sampled. Not a definition of the repository. -/
def abscissa (o : Output R) (k : Nat) : R := o.io.min +. ((lit (k : ℚ) +. lit (1 / 2)) *. o.res)

/-- The system with every output at its abscissa number `k`. Not a definition of the repository. -/
def atPoint (s : Inst R) (k : Nat) : Inst R :=
  { s with xOutput := s.xOutput.map (fun o => { o with io := { o.io with value := abscissa o k } }) }

/-- Membership of the aggregated region of output `j` at a point where the consequents have the membership
values `Z`: starting from 0, the consequents about that output of the rules with positive strength, in order,
are implicated by the strength and aggregated. Not a definition of the repository. -/
def region (aggregate implicate : Op) (W : Nat → R) (Z : Term → R) (rs : List Rule) (j : Nat) : R :=
  ((visits rs 0).filter (fun kc => decide (kc.2.inp = j) && (lit 0 <. W kc.1))).foldl
    (fun y kc => aggregate.app y (implicate.app (W kc.1) (if kc.2.neg then lit 1 -. Z kc.2 else Z kc.2))) (lit 0)

/-- One sample taken by a method. -/
def sample (m : Method) (o : Output R) (p : R × R) : Output R := m.compute { o with x := p.1, y := p.2 }

/-- The output after the samples. -/
def scan (m : Method) (o : Output R) (l : List (R × R)) : Output R := l.foldl (sample m) (m.init o)

/-- The samples of output `o`, number `j`. Not a definition of the repository. -/
def samples (s : Inst R) (W : Nat → R) (Z : Nat → Term → R) (rs : List Rule) (j : Nat) (o : Output R) (n : Nat) :
    List (R × R) :=
  (List.range n).map (fun k => (abscissa o k, region s.aggregate s.implicate W (Z k) rs j))

theorem foldl_visit_mamdani (a i : Op) (W : Nat → R) (Z : Term → R) (j : Nat) (l : List (Nat × Term)) :
    ∀ o : Output R, l.foldl (visit .mamdani a i W Z j) o =
      { o with
        y := (l.filter (fun kc => decide (kc.2.inp = j) && (lit 0 <. W kc.1))).foldl
          (fun y kc => a.app y (i.app (W kc.1) (if kc.2.neg then lit 1 -. Z kc.2 else Z kc.2))) o.y } := by
  induction l with
  | nil => intro o; rfl
  | cons kc l ih =>
    intro o
    rw [List.foldl_cons, ih, visit]
    by_cases h : kc.2.inp = j ∧ (lit 0 <. W kc.1) = true
    · rw [if_pos h, List.filter_cons_of_pos (by simpa using h)]
      simp [effect]
    · rw [if_neg h, List.filter_cons_of_neg (by simpa using h)]

/-- Writing a sample in the arrays given to `storeAggregatedRegion`. -/
def store (k : Nat) (x y : R) (ag : Option (Array R × Array R)) : Option (Array R × Array R) :=
  ag.map (fun p => (p.1.setIfInBounds k x, p.2.setIfInBounds k y))

/-- The output number `j` after `k` samples. -/
def after (s : Inst R) (W : Nat → R) (Z : Nat → Term → R) (rs : List Rule) (j : Nat) (o : Output R) : Nat → Output R
  | 0 => s.deFuzz.init o
  | k + 1 =>
    let o := after s W Z rs j o k
    let x := abscissa o k
    let y := region s.aggregate s.implicate W (Z k) rs j
    { s.deFuzz.compute { o with io := { o.io with value := x }, x := x, y := y } with ag := store k x y o.ag }

theorem compute_ag (m : Method) (o : Output R) : (m.compute o).ag = o.ag := by
  cases m <;> simp only [Method.compute] <;> repeat' split
  all_goals rfl

theorem compute_x (m : Method) (o : Output R) : (m.compute o).x = o.x := by
  cases m <;> simp only [Method.compute] <;> repeat' split
  all_goals rfl

theorem compute_y (m : Method) (o : Output R) : (m.compute o).y = o.y := by
  cases m <;> simp only [Method.compute] <;> repeat' split
  all_goals rfl

theorem compute_res (m : Method) (o : Output R) : (m.compute o).res = o.res := by
  cases m <;> simp only [Method.compute] <;> repeat' split
  all_goals rfl

theorem init_ag (m : Method) (o : Output R) : (m.init o).ag = o.ag := by cases m <;> rfl
theorem init_res (m : Method) (o : Output R) : (m.init o).res = o.res := by cases m <;> rfl

theorem after_frame (s : Inst R) (W : Nat → R) (Z : Nat → Term → R) (rs : List Rule) (j : Nat) (o : Output R) (k : Nat) :
    (after s W Z rs j o k).io.min = o.io.min ∧ (after s W Z rs j o k).io.max = o.io.max ∧
      (after s W Z rs j o k).res = o.res := by
  induction k with
  | zero => simp [after, init_io, init_res]
  | succ k ih =>
    simp only [after, compute_io, compute_res]
    exact ih

theorem after_abscissa (s : Inst R) (W : Nat → R) (Z : Nat → Term → R) (rs : List Rule) (j : Nat) (o : Output R)
    (k i : Nat) : abscissa (after s W Z rs j o k) i = abscissa o i := by
  obtain ⟨h1, _, h3⟩ := after_frame s W Z rs j o k
  unfold abscissa
  rw [h1, h3]

/-- Sizes of the arrays of the aggregated region. -/
theorem after_ag (s : Inst R) (W : Nat → R) (Z : Nat → Term → R) (rs : List Rule) (j : Nat) (o : Output R) (k : Nat)
    (xa ya : Array R) (h : (after s W Z rs j o k).ag = some (xa, ya)) :
    ∃ xa0 ya0, o.ag = some (xa0, ya0) ∧ xa.size = xa0.size ∧ ya.size = ya0.size := by
  induction k generalizing xa ya with
  | zero => exact ⟨xa, ya, by simpa [after, init_ag] using h, rfl, rfl⟩
  | succ k ih =>
    simp only [after, store] at h
    obtain ⟨⟨xa1, ya1⟩, h1, h2⟩ := Option.map_eq_some_iff.mp h
    obtain ⟨xa0, ya0, h3, h4, h5⟩ := ih xa1 ya1 h1
    simp only [Prod.mk.injEq] at h2
    exact ⟨xa0, ya0, h3, by rw [← h2.1]; simpa using h4, by rw [← h2.2]; simpa using h5⟩

/-- The loop over the points of a Mamdani system, for every arithmetic, in terms of `after`. -/
theorem mamdani_points (s : Inst R) (rs : List Rule) (w : Array R) (W : Nat → R) (Z : Nat → Term → R)
    (hk : s.kind = .mamdani) (hno : s.nOutputs = s.xOutput.size)
    (hp : program rs <+: s.xRules.toList) (hn : s.nRules = rs.length) (hw : s.wi = some w)
    (hwn : rs.length ≤ w.size) (hW : ∀ k (h : k < w.size), W k = w[k])
    (hag : ∀ (j : Nat) (o : Output R) (xa ya : Array R), s.xOutput[j]? = some o → o.ag = some (xa, ya) →
      s.nPoints ≤ xa.size ∧ s.nPoints ≤ ya.size)
    (hr : ∀ r ∈ rs, r.AggOk s ∧ ∀ c ∈ r.consequents, ∀ k < s.nPoints,
      consequentValue (atPoint s k) c = .ok (Z k c)) :
    ∃ (xo : Array (Output R)) (mo : Array (MF R)) (a : AggState) (rc : Nat),
      loop mamdaniPoint s.nPoints 0 { s with xOutput := s.xOutput.map s.deFuzz.init } =
        .ok { s with xOutput := xo, outMF := mo, aggState := a, ruleCount := rc } ∧ SameMF s mo ∧
      ∀ j, xo[j]? = s.xOutput[j]?.map (fun o => after s W Z rs j o s.nPoints) := by
  -- the loop over the points
  let Inv : Nat → Inst R → Prop := fun k t => ∃ (xo : Array (Output R)) (mo : Array (MF R)) (a : AggState) (rc : Nat),
    t = { s with xOutput := xo, outMF := mo, aggState := a, ruleCount := rc } ∧ SameMF s mo ∧
    ∀ j, xo[j]? = s.xOutput[j]?.map (fun o => after s W Z rs j o k)
  obtain ⟨t, e, xo, mo, a, rc, rfl, hmf, hxo⟩ := loop_total (f := mamdaniPoint) s.nPoints Inv
    (by
      rintro k t hkn ⟨xo, mo, a, rc, rfl, hmf, hxo⟩
      have hsz : xo.size = s.xOutput.size := size_of_map hxo
      let t : Inst R := { s with xOutput := xo, outMF := mo, aggState := a, ruleCount := rc }
      let g : Output R → Output R := fun o =>
        { Output.getNextX { o with y := lit 0 } k with io := { o.io with value := abscissa o k } }
      have p1 : overOutputs (fun o =>
          let o := Output.getNextX { o with y := lit 0 } k
          pure { o with io := { o.io with value := o.x } }) t = .ok { t with xOutput := xo.map g } :=
        over_map _ g t (by exact hno.trans hsz.symm) (fun i o _ => rfl)
      let u : Inst R := { t with xOutput := xo.map g }
      have hu : ∀ j, u.xOutput[j]? = s.xOutput[j]?.map (fun o => g (after s W Z rs j o k)) := by
        intro j
        show (xo.map g)[j]? = _
        rw [Array.getElem?_map, hxo j, Option.map_map]
        rfl
      have husz : u.xOutput.size = s.xOutput.size := size_of_map hu
      obtain ⟨xo2, mo2, p2, h1, h2, h3⟩ := C59_visits_partial u rs w W (Z k) hp hn hw hwn hW (by
        intro r hr'
        obtain ⟨g1, g2⟩ := hr r hr'
        refine ⟨⟨g1.1, fun c hc => ?_, g1.2.2⟩, fun c hc => ?_⟩
        · obtain ⟨q1, q2, q3⟩ := g1.2.1 c hc
          exact ⟨by rw [husz]; exact q1, by show c.mf < mo.size; rw [hmf.1]; exact q2, q3⟩
        · rw [← g2 c hc k hkn]
          refine consequentValue_congr (atPoint s k) u c rfl hmf rfl rfl (g1.2.1 c hc).2.1 (fun _ => ?_)
          rw [hu]
          simp only [atPoint, Array.getElem?_map, Option.map_map]
          cases s.xOutput[c.inp]? with
          | none => rfl
          | some o =>
            obtain ⟨f1, f2, f3⟩ := after_frame s W Z rs c.inp o k
            simp [g, f1, f2, after_abscissa])
      have hsz2 : xo2.size = s.xOutput.size := (size_of_map h1).trans husz
      let v : Inst R := { u with xOutput := xo2, outMF := mo2, aggState := .find, ruleCount := rs.length }
      -- the third loop
      let f : Output R → Output R := fun o => { s.deFuzz.compute o with ag := store k o.x o.y o.ag }
      have hv : ∀ j, xo2[j]? = s.xOutput[j]?.map (fun o =>
          { after s W Z rs j o k with
            io := { (after s W Z rs j o k).io with value := abscissa (after s W Z rs j o k) k },
            x := abscissa (after s W Z rs j o k) k, y := region s.aggregate s.implicate W (Z k) rs j }) := by
        intro j
        rw [h1 j, hu j, Option.map_map]
        congr 1
        funext o
        have hkm : u.kind = .mamdani := hk
        simp only [Function.comp, hkm, foldl_visit_mamdani]
        rfl
      have p3 : overOutputs (computePoint v.deFuzz k) v = .ok { v with xOutput := xo2.map f } := by
        refine over_map _ f v (by exact hno.trans hsz2.symm) (fun i o hio => ?_)
        unfold computePoint
        have hio' : xo2[i]? = some o := hio
        rw [hv i] at hio'
        obtain ⟨o0, ho0, ho⟩ := Option.map_eq_some_iff.mp hio'
        dsimp only
        rw [compute_ag]
        cases hag' : o.ag with
        | none => simp [f, store, hag', show v.deFuzz = s.deFuzz from rfl]; rw [← hag', ← compute_ag s.deFuzz o]
        | some p =>
          obtain ⟨xa, ya⟩ := p
          have hag2 : (after s W Z rs i o0 k).ag = some (xa, ya) := by rw [← hag', ← ho]
          obtain ⟨xa0, ya0, b1, b2, b3⟩ := after_ag s W Z rs i o0 k xa ya hag2
          obtain ⟨c1, c2⟩ := hag i o0 xa0 ya0 ho0 b1
          have d1 : k < xa.size := by omega
          have d2 : k < ya.size := by omega
          simp only [wrArr_ok d1, wrArr_ok d2, Out.bind_ok, Out.pure_eq, compute_x, compute_y]
          simp [f, store, hag', Array.setIfInBounds, d1, d2, compute_x, compute_y, show v.deFuzz = s.deFuzz from rfl]
      refine ⟨{ v with xOutput := xo2.map f }, ?_, xo2.map f, mo2, .find, rs.length, rfl, ?_, ?_⟩
      · unfold mamdaniPoint
        have p2' : fuzzyAggregate { t with xOutput := xo.map g } = .ok v := p2
        have p1' := p1
        simp only [t] at p1' p2'
        rw [p1']
        simp only [Out.bind_ok]
        rw [p2']
        simp only [Out.bind_ok]
        exact p3
      · exact SameMF.trans (t := u) hmf ⟨h2, h3⟩
      · intro j
        rw [Array.getElem?_map, hv j, Option.map_map]
        congr 1)
    s.nPoints 0 { s with xOutput := s.xOutput.map s.deFuzz.init } (by omega)
    ⟨_, s.outMF, s.aggState, s.ruleCount, rfl, SameMF.refl s, fun j => by simp [after]⟩
  exact ⟨xo, mo, a, rc, e, hmf, hxo⟩

/-- The result of `deFuzzify` on a Mamdani system, for every arithmetic, in terms of `after`. -/
theorem mamdani_run (s : Inst R) (rs : List Rule) (w : Array R) (W : Nat → R) (Z : Nat → Term → R)
    (hk : s.kind = .mamdani) (hd : s.deFuzz ≠ .bisector) (hno : s.nOutputs = s.xOutput.size)
    (hp : program rs <+: s.xRules.toList) (hn : s.nRules = rs.length) (hw : s.wi = some w)
    (hwn : rs.length ≤ w.size) (hW : ∀ k (h : k < w.size), W k = w[k])
    (hag : ∀ (j : Nat) (o : Output R) (xa ya : Array R), s.xOutput[j]? = some o → o.ag = some (xa, ya) →
      s.nPoints ≤ xa.size ∧ s.nPoints ≤ ya.size)
    (hr : ∀ r ∈ rs, r.AggOk s ∧ ∀ c ∈ r.consequents, ∀ k < s.nPoints,
      consequentValue (atPoint s k) c = .ok (Z k c)) :
    ∃ s', deFuzzify s = .ok s' ∧ ∀ j, s'.xOutput[j]? = s.xOutput[j]?.map (fun o =>
      settle s.deFuzz (after s W Z rs j o s.nPoints)) := by
  have step1 : overOutputs (fun o => pure (s.deFuzz.init o)) s =
      .ok { s with xOutput := s.xOutput.map s.deFuzz.init } := over_map _ _ s hno (fun i o _ => rfl)
  obtain ⟨xo, mo, a, rc, e, hmf, hxo⟩ := mamdani_points s rs w W Z hk hno hp hn hw hwn hW hag hr
  have hsz : xo.size = s.xOutput.size := size_of_map hxo
  have step5 := finish_map { s with xOutput := xo, outMF := mo, aggState := a, ruleCount := rc }
    (by exact hno.trans hsz.symm) hd
  unfold deFuzzify
  simp only [step1, Out.bind_ok, hk, if_true] at e ⊢
  rw [e]
  simp only [Out.bind_ok]
  rw [← hk, step5]
  refine ⟨_, rfl, fun j => ?_⟩
  simp only [Array.getElem?_map, hxo j, Option.map_map]
  rfl

/-- The fields of an output the methods read. -/
def Alike (o o' : Output R) : Prop :=
  o'.io.min = o.io.min ∧ o'.io.max = o.io.max ∧ o'.res = o.res ∧ o'.v0 = o.v0 ∧ o'.v1 = o.v1 ∧ o'.v2 = o.v2 ∧
    o'.v3 = o.v3

theorem compute_alike (m : Method) (o o' : Output R) (h : Alike o o') (hx : o'.x = o.x) (hy : o'.y = o.y) :
    Alike (m.compute o) (m.compute o') := by
  obtain ⟨h1, h2, h3, h4, h5, h6, h7⟩ := h
  cases m <;> simp only [Method.compute, h4, h5, h6, h7, hx, hy]
  all_goals repeat' split
  all_goals exact ⟨h1, h2, h3, by first | rfl | exact h4, by first | rfl | exact h5, by first | rfl | exact h6,
    by first | rfl | exact h7⟩

theorem after_scan (s : Inst R) (W : Nat → R) (Z : Nat → Term → R) (rs : List Rule) (j : Nat) (o : Output R) (n : Nat) :
    Alike (scan s.deFuzz o (samples s W Z rs j o n)) (after s W Z rs j o n) := by
  induction n with
  | zero => exact ⟨rfl, rfl, rfl, rfl, rfl, rfl, rfl⟩
  | succ n ih =>
    have e : samples s W Z rs j o (n + 1) = samples s W Z rs j o n ++
        [(abscissa o n, region s.aggregate s.implicate W (Z n) rs j)] := by simp [samples, List.range_succ]
    unfold scan at ih ⊢
    rw [e, List.foldl_append]
    simp only [List.foldl_cons, List.foldl_nil, after, after_abscissa]
    obtain ⟨h1, h2, h3, h4, h5, h6, h7⟩ := compute_alike s.deFuzz
      { List.foldl (sample s.deFuzz) (s.deFuzz.init o) (samples s W Z rs j o n) with
        x := abscissa o n, y := region s.aggregate s.implicate W (Z n) rs j }
      { after s W Z rs j o n with
        io := { (after s W Z rs j o n).io with value := abscissa o n }, x := abscissa o n,
        y := region s.aggregate s.implicate W (Z n) rs j } ih rfl rfl
    exact ⟨h1, h2, h3, h4, h5, h6, h7⟩

theorem after_ag_get (s : Inst R) (W : Nat → R) (Z : Nat → Term → R) (rs : List Rule) (j : Nat) (o : Output R)
    (xa ya : Array R) (h : o.ag = some (xa, ya)) (n : Nat) (hx : n ≤ xa.size) (hy : n ≤ ya.size) :
    ∃ xa' ya', (after s W Z rs j o n).ag = some (xa', ya') ∧ xa'.size = xa.size ∧ ya'.size = ya.size ∧
      ∀ k < n, xa'[k]? = some (abscissa o k) ∧ ya'[k]? = some (region s.aggregate s.implicate W (Z k) rs j) := by
  induction n with
  | zero => exact ⟨xa, ya, by simpa [after, init_ag] using h, rfl, rfl, fun k hk => absurd hk (by omega)⟩
  | succ n ih =>
    obtain ⟨xa1, ya1, h1, h2, h3, h4⟩ := ih (by omega) (by omega)
    refine ⟨xa1.setIfInBounds n (abscissa o n),
      ya1.setIfInBounds n (region s.aggregate s.implicate W (Z n) rs j), ?_, by simpa using h2, by simpa using h3, ?_⟩
    · simp only [after, store, h1, after_abscissa]; rfl
    · intro k hk
      rw [Array.getElem?_setIfInBounds, Array.getElem?_setIfInBounds]
      by_cases hkn : n = k
      · subst hkn
        rw [if_pos rfl, if_pos rfl, if_pos (by omega), if_pos (by omega)]
        exact ⟨rfl, rfl⟩
      · rw [if_neg hkn, if_neg hkn]
        exact h4 k (by omega)

/-- **C67** for every rule base that can be aggregated and every method but the bisector, `deFuzzify()` of a
Mamdani system stays inside the arrays, and every output gets, limited to its range, the value the method
computes from the aggregated region sampled at the centres of `nPoints` intervals of its range. If the output has arrays for
the aggregated region, they hold exactly these samples. For every arithmetic. -/
theorem C67_mamdani_partial (s : Inst R) (rs : List Rule) (w : Array R) (W : Nat → R) (Z : Nat → Term → R)
    (hk : s.kind = .mamdani) (hd : s.deFuzz ≠ .bisector) (hno : s.nOutputs = s.xOutput.size)
    (hp : program rs <+: s.xRules.toList) (hn : s.nRules = rs.length) (hw : s.wi = some w)
    (hwn : rs.length ≤ w.size) (hW : ∀ k (h : k < w.size), W k = w[k])
    (hag : ∀ (j : Nat) (o : Output R) (xa ya : Array R), s.xOutput[j]? = some o → o.ag = some (xa, ya) →
      s.nPoints ≤ xa.size ∧ s.nPoints ≤ ya.size)
    (hr : ∀ r ∈ rs, r.AggOk s ∧ ∀ c ∈ r.consequents, ∀ k < s.nPoints,
      consequentValue (atPoint s k) c = .ok (Z k c)) :
    ∃ s', deFuzzify s = .ok s' ∧ ∀ (j : Nat) (o : Output R), s.xOutput[j]? = some o →
      ∃ o', s'.xOutput[j]? = some o' ∧ o'.io.min = o.io.min ∧ o'.io.max = o.io.max ∧
        o'.io.value = bound (result s.deFuzz (scan s.deFuzz o (samples s W Z rs j o s.nPoints))) o.io.min o.io.max ∧
        (∀ xa ya, o.ag = some (xa, ya) → ∃ xa' ya', o'.ag = some (xa', ya') ∧ ∀ k < s.nPoints,
          xa'[k]? = some (abscissa o k) ∧ ya'[k]? = some (region s.aggregate s.implicate W (Z k) rs j)) := by
  obtain ⟨s', e, h⟩ := mamdani_run s rs w W Z hk hd hno hp hn hw hwn hW hag hr
  refine ⟨s', e, fun j o ho => ⟨settle s.deFuzz (after s W Z rs j o s.nPoints), by rw [h j, ho]; rfl, ?_⟩⟩
  obtain ⟨f1, f2, _⟩ := after_frame s W Z rs j o s.nPoints
  obtain ⟨_, _, _, a4, a5, a6, _⟩ := after_scan s W Z rs j o s.nPoints
  refine ⟨f1, f2, ?_, fun xa ya hxy => ?_⟩
  · simp only [settle, f1, f2]
    congr 1
    cases hm : s.deFuzz
    case bisector => exact absurd hm hd
    all_goals rw [hm] at a4 a5 a6; simp only [result, a4, a5, a6]
  · obtain ⟨c1, c2⟩ := hag j o xa ya ho hxy
    obtain ⟨xa', ya', g1, _, _, g4⟩ := after_ag_get s W Z rs j o xa ya hxy s.nPoints c1 c2
    exact ⟨xa', ya', g1, g4⟩

end Verif.Fis
