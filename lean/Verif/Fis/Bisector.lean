import Verif.Fis.Outputs
import Mathlib.Algebra.BigOperators.Group.Finset.Basic
import Mathlib.Algebra.Order.BigOperators.Group.Finset

/-!
# The bisector (C67)
-/

namespace Verif.Fis

open Arith

variable {R : Type} [Arith R]

/-- The abscissa of the first sample at which the area accumulated from `A` reaches `H`; the last abscissa if
there is none, `x` without samples. Not a definition of the repository. -/
def bisect (H : R) : R → R → List (R × R) → R
  | _, x, [] => x
  | A, _, p :: l => if H ≤. (A +. p.2) then p.1 else bisect H (A +. p.2) p.1 l

/-- The sum of the memberships, in order. Not a definition of the repository. -/
def area (l : List (R × R)) : R := l.foldl (fun a p => a +. p.2) (lit 0)

theorem bisect_start (H A x x' : R) (l : List (R × R)) (h : l ≠ []) : bisect H A x l = bisect H A x' l := by
  cases l with
  | nil => exact absurd rfl h
  | cons p l => rfl

/-- The system with every output at `v`. Not a definition of the repository. -/
def allAt (s : Inst R) (v : R) : Inst R :=
  { s with xOutput := s.xOutput.map (fun o => { o with io := { o.io with value := v } }) }

/-- The samples from number `k` on, `n` of them. -/
def samplesFrom (s : Inst R) (W : Nat → R) (Z : Nat → Term → R) (rs : List Rule) (j : Nat) (o : Output R) (k n : Nat) :
    List (R × R) :=
  (List.range' k n).map (fun k => (abscissa o k, region s.aggregate s.implicate W (Z k) rs j))

theorem region_congr (a i : Op) (W : Nat → R) (Z Z' : Term → R) (rs : List Rule) (j : Nat)
    (h : ∀ r ∈ rs, ∀ c ∈ r.consequents, c.inp = j → Z' c = Z c) : region a i W Z' rs j = region a i W Z rs j := by
  have hv : ∀ (rs : List Rule) (k : Nat) (kc : Nat × Term), kc ∈ visits rs k → ∃ r ∈ rs, kc.2 ∈ r.consequents := by
    intro rs
    induction rs with
    | nil => intro k kc h; simp [visits] at h
    | cons r rs ih =>
      intro k kc h
      rw [visits, List.mem_append] at h
      rcases h with h | h
      · obtain ⟨c, hc, rfl⟩ := List.mem_map.mp h
        exact ⟨r, by simp, hc⟩
      · obtain ⟨r', h1, h2⟩ := ih _ _ h
        exact ⟨r', by simp [h1], h2⟩
  unfold region
  refine List.foldl_ext _ _ _ fun y kc hkc => ?_
  obtain ⟨h1, h2⟩ := List.mem_filter.mp hkc
  obtain ⟨r, hr, hc⟩ := hv rs 0 kc h1
  rw [h r hr kc.2 hc (by simp at h2; exact h2.1)]

/-- The outputs of `yo` have the ranges and resolutions of those of `s`. -/
def SameRange (s : Inst R) (yo : Array (Output R)) : Prop :=
  yo.size = s.xOutput.size ∧ ∀ (i : Nat) (o o' : Output R), s.xOutput[i]? = some o → yo[i]? = some o' →
    o'.io.min = o.io.min ∧ o'.io.max = o.io.max ∧ o'.res = o.res

omit [Arith R] in
theorem SameRange.of_map {s : Inst R} {yo yo' : Array (Output R)} (h : SameRange s yo) (f : Nat → Output R → Output R)
    (hf : ∀ i o, (f i o).io.min = o.io.min ∧ (f i o).io.max = o.io.max ∧ (f i o).res = o.res)
    (hy : ∀ i : Nat, yo'[i]? = yo[i]?.map (f i)) : SameRange s yo' := by
  refine ⟨(size_of_map hy).trans h.1, fun i o o' h1 h2 => ?_⟩
  rw [hy i] at h2
  obtain ⟨o1, h3, rfl⟩ := Option.map_eq_some_iff.mp h2
  obtain ⟨g1, g2, g3⟩ := h.2 i o o1 h1 h3
  obtain ⟨f1, f2, f3⟩ := hf i o1
  exact ⟨f1.trans g1, f2.trans g2, f3.trans g3⟩

/-- One aggregation with output `j` at abscissa number `k` and the others anywhere. -/
theorem aggregate_at (s : Inst R) (rs : List Rule) (w : Array R) (W : Nat → R) (Z : Nat → Term → R)
    (hk : s.kind = .mamdani)
    (hp : program rs <+: s.xRules.toList) (hn : s.nRules = rs.length) (hw : s.wi = some w)
    (hwn : rs.length ≤ w.size) (hW : ∀ k (h : k < w.size), W k = w[k])
    (hr : ∀ r ∈ rs, r.AggOk s ∧ ∀ c ∈ r.consequents, ∀ k < s.nPoints,
      consequentValue (atPoint s k) c = .ok (Z k c))
    (hd : ∀ r ∈ rs, ∀ c ∈ r.consequents, ∀ v, ∃ z, consequentValue (allAt s v) c = .ok z)
    (yo : Array (Output R)) (mo : Array (MF R)) (a : AggState) (rc : Nat) (hmf : SameMF s mo)
    (hyo : SameRange s yo) (j k : Nat) (hkn : k < s.nPoints) (oj o0 : Output R) (hj : yo[j]? = some oj)
    (h0 : s.xOutput[j]? = some o0) (hval : oj.io.value = abscissa o0 k) (hy : oj.y = lit 0) :
    ∃ (mo' : Array (MF R)) (Y : Nat → Output R → R) (yo' : Array (Output R)),
      fuzzyAggregate { s with xOutput := yo, outMF := mo, aggState := a, ruleCount := rc } =
        .ok { s with xOutput := yo', outMF := mo', aggState := .find, ruleCount := rs.length } ∧ SameMF s mo' ∧
      (∀ i : Nat, yo'[i]? = yo[i]?.map (fun o : Output R => { o with y := Y i o })) ∧
      Y j oj = region s.aggregate s.implicate W (Z k) rs j := by
  classical
  let u : Inst R := { s with xOutput := yo, outMF := mo, aggState := a, ruleCount := rc }
  have hcv : ∀ r ∈ rs, ∀ c ∈ r.consequents, ∃ z, consequentValue u c = .ok z ∧ (c.inp = j → z = Z k c) := by
    intro r hr' c hc
    obtain ⟨g1, g2⟩ := hr r hr'
    obtain ⟨q1, q2, q3⟩ := g1.2.1 c hc
    have q1' : c.inp < yo.size := by rw [hyo.1]; exact q1
    obtain ⟨f1, f2, f3⟩ := hyo.2 c.inp s.xOutput[c.inp] yo[c.inp] (by simp [q1]) (by simp [q1'])
    by_cases hcj : c.inp = j
    · refine ⟨Z k c, ?_, fun _ => rfl⟩
      rw [← g2 c hc k hkn]
      refine consequentValue_congr (atPoint s k) u c rfl hmf rfl rfl q2 (fun _ => ?_)
      have e1 : s.xOutput[c.inp] = o0 := by rw [← hcj] at h0; simpa [q1] using h0
      have e2 : yo[c.inp] = oj := by rw [← hcj] at hj; simpa [q1'] using hj
      simp only [u, atPoint, Array.getElem?_map, Array.getElem?_eq_getElem q1,
        Array.getElem?_eq_getElem q1', Option.map_some]
      rw [e1, e2] at f1 f2
      rw [e1, e2, ← hval, ← f1, ← f2]
    · obtain ⟨z, hz⟩ := hd r hr' c hc yo[c.inp].io.value
      refine ⟨z, ?_, fun h => absurd h hcj⟩
      rw [← hz]
      refine consequentValue_congr (allAt s yo[c.inp].io.value) u c rfl hmf rfl rfl q2 (fun _ => ?_)
      simp only [u, allAt, Array.getElem?_map, Array.getElem?_eq_getElem q1,
        Array.getElem?_eq_getElem q1', Option.map_some]
      rw [← f1, ← f2]
  let Zu : Term → R := fun c => match consequentValue u c with | .ok z => z | _ => lit 0
  obtain ⟨xo2, mo2, p2, h1, h2, h3⟩ := C59_visits_partial u rs w W Zu hp hn hw hwn hW (by
    intro r hr'
    obtain ⟨g1, g2⟩ := hr r hr'
    refine ⟨⟨g1.1, fun c hc => ?_, g1.2.2⟩, fun c hc => ?_⟩
    · obtain ⟨q1, q2, q3⟩ := g1.2.1 c hc
      exact ⟨by show c.inp < yo.size; rw [hyo.1]; exact q1, by show c.mf < mo.size; rw [hmf.1]; exact q2, q3⟩
    · obtain ⟨z, hz, _⟩ := hcv r hr' c hc
      simp only [Zu, hz])
  have hkm : u.kind = .mamdani := hk
  refine ⟨mo2, fun i o => ((visits rs 0).filter (fun kc => decide (kc.2.inp = i) && (lit 0 <. W kc.1))).foldl
          (fun y kc => s.aggregate.app y (s.implicate.app (W kc.1)
            (if kc.2.neg then lit 1 -. Zu kc.2 else Zu kc.2))) o.y, xo2, p2, SameMF.trans (t := u) hmf ⟨h2, h3⟩, ?_, ?_⟩
  · intro i
    rw [h1 i]
    simp only [hkm, foldl_visit_mamdani]
    rfl
  · simp only [hy]
    refine region_congr s.aggregate s.implicate W (Z k) Zu rs j fun r hr' c hc hcj => ?_
    obtain ⟨z, hz, hz'⟩ := hcv r hr' c hc
    simp only [Zu, hz]
    exact hz' hcj

/-- The loop of `deFuzzBisector`. -/
theorem bisectorLoop_run (s : Inst R) (rs : List Rule) (w : Array R) (W : Nat → R) (Z : Nat → Term → R)
    (hk : s.kind = .mamdani)
    (hp : program rs <+: s.xRules.toList) (hn : s.nRules = rs.length) (hw : s.wi = some w)
    (hwn : rs.length ≤ w.size) (hW : ∀ k (h : k < w.size), W k = w[k])
    (hr : ∀ r ∈ rs, r.AggOk s ∧ ∀ c ∈ r.consequents, ∀ k < s.nPoints,
      consequentValue (atPoint s k) c = .ok (Z k c))
    (hd : ∀ r ∈ rs, ∀ c ∈ r.consequents, ∀ v, ∃ z, consequentValue (allAt s v) c = .ok z)
    (j : Nat) (o0 : Output R) (h0 : s.xOutput[j]? = some o0) (n : Nat) :
    ∀ (k : Nat) (yo : Array (Output R)) (mo : Array (MF R)) (a : AggState) (rc : Nat) (oj : Output R),
      k + n = s.nPoints → SameMF s mo → SameRange s yo → yo[j]? = some oj →
      ∃ (yo' : Array (Output R)) (mo' : Array (MF R)) (a' : AggState) (rc' : Nat) (oj' : Output R),
        bisectorLoop j n k { s with xOutput := yo, outMF := mo, aggState := a, ruleCount := rc } =
          .ok { s with xOutput := yo', outMF := mo', aggState := a', ruleCount := rc' } ∧ SameMF s mo' ∧
        SameRange s yo' ∧ (∀ i o, i ≠ j → yo[i]? = some o → ∃ y, yo'[i]? = some { o with y := y }) ∧
        yo'[j]? = some oj' ∧ oj'.ag = oj.ag ∧
        oj'.x = bisect oj.v2 oj.v3 oj.x (samplesFrom s W Z rs j o0 k n) := by
  induction n with
  | zero =>
    intro k yo mo a rc oj _ hmf hyo hj
    exact ⟨yo, mo, a, rc, oj, rfl, hmf, hyo, fun i o _ h => ⟨o.y, h⟩, hj, rfl, rfl⟩
  | succ n ih =>
    intro k yo mo a rc oj hkn hmf hyo hj
    have hjs : j < yo.size := (Array.getElem?_eq_some_iff.mp hj).1
    have hje : yo[j] = oj := (Array.getElem?_eq_some_iff.mp hj).2
    obtain ⟨r1, r2, r3⟩ := hyo.2 j o0 oj h0 hj
    have habs : abscissa oj k = abscissa o0 k := by unfold abscissa; rw [r1, r3]
    let o1 : Output R := { oj with y := lit 0, x := abscissa o0 k, io := { oj.io with value := abscissa o0 k } }
    let y1 := yo.set j o1
    have hy1 : ∀ i, y1[i]? = yo[i]?.map (fun o => if i = j then o1 else o) := by
      intro i
      simp only [y1, Array.getElem?_set]
      by_cases h : j = i
      · subst h; simp [hj]
      · rw [if_neg h]
        simp [show ¬ i = j from fun h' => h h'.symm]
    have hyo1 : SameRange s y1 := by
      refine ⟨by simpa [y1] using hyo.1, fun i o o' g1 g2 => ?_⟩
      rw [hy1 i] at g2
      obtain ⟨o2, g3, g4⟩ := Option.map_eq_some_iff.mp g2
      by_cases h : i = j
      · subst h
        rw [if_pos rfl] at g4
        subst g4
        exact hyo.2 i o oj g1 hj
      · rw [if_neg h] at g4; subst g4; exact hyo.2 i o o2 g1 g3
    have hj1 : y1[j]? = some o1 := by rw [hy1 j, hj]; simp
    obtain ⟨mo2, Y, y2, p2, hmf2, hy2, hYj⟩ := aggregate_at s rs w W Z hk hp hn hw hwn hW hr hd y1 mo a rc hmf hyo1 j k
      (by omega) o1 o0 hj1 h0 rfl rfl
    have hj2 : y2[j]? = some { o1 with y := region s.aggregate s.implicate W (Z k) rs j } := by
      rw [hy2 j, hj1]; simp [hYj]
    have hjs2 : j < y2.size := (Array.getElem?_eq_some_iff.mp hj2).1
    have hje2 := (Array.getElem?_eq_some_iff.mp hj2).2
    let o3 : Output R := { o1 with y := region s.aggregate s.implicate W (Z k) rs j,
                                   v3 := oj.v3 +. region s.aggregate s.implicate W (Z k) rs j }
    let y3 := y2.set j o3
    have hy3 : ∀ i, y3[i]? = y2[i]?.map (fun o => if i = j then o3 else o) := by
      intro i
      simp only [y3, Array.getElem?_set]
      by_cases h : j = i
      · subst h; simp [hj2]
      · rw [if_neg h]
        simp [show ¬ i = j from fun h' => h h'.symm]
    have hyo2 : SameRange s y2 := hyo1.of_map (fun i o => { o with y := Y i o }) (fun i o => ⟨rfl, rfl, rfl⟩) hy2
    have hyo3 : SameRange s y3 := by
      refine ⟨by simpa [y3] using hyo2.1, fun i o o' g1 g2 => ?_⟩
      rw [hy3 i] at g2
      obtain ⟨o2, g3, g4⟩ := Option.map_eq_some_iff.mp g2
      by_cases h : i = j
      · subst h
        rw [if_pos rfl] at g4
        subst g4
        exact hyo.2 i o oj g1 hj
      · rw [if_neg h] at g4; subst g4; exact hyo2.2 i o o2 g1 g3
    have hj3 : y3[j]? = some o3 := by rw [hy3 j, hj2]; simp
    have hoth : ∀ i o, i ≠ j → yo[i]? = some o → ∃ y, y3[i]? = some { o with y := y } := by
      intro i o hi ho
      rw [hy3 i, hy2 i, hy1 i, ho]
      simp only [Option.map_some, if_neg hi]
      exact ⟨_, rfl⟩
    have e : samplesFrom s W Z rs j o0 k (n + 1) =
        (abscissa o0 k, region s.aggregate s.implicate W (Z k) rs j) :: samplesFrom s W Z rs j o0 (k + 1) n := by
      simp [samplesFrom, List.range'_succ]
    have run : bisectorLoop j (n + 1) k { s with xOutput := yo, outMF := mo, aggState := a, ruleCount := rc } =
        (if oj.v2 ≤. o3.v3 then .ok { s with xOutput := y3, outMF := mo2, aggState := .find, ruleCount := rs.length }
          else bisectorLoop j n (k + 1)
            { s with xOutput := y3, outMF := mo2, aggState := .find, ruleCount := rs.length }) := by
      rw [bisectorLoop]
      simp only [rdArr_ok hjs, Out.bind_ok, wrArr_ok hjs, hje, Output.getNextX]
      have h' : (oj.io.min +. ((lit (k : ℚ) +. lit (1 / 2)) *. oj.res)) = abscissa o0 k := habs
      rw [h']
      change (do
        let s ← fuzzyAggregate { s with xOutput := y1, outMF := mo, aggState := a, ruleCount := rc }
        _) = _
      rw [p2]
      simp only [Out.bind_ok, rdArr_ok hjs2, wrArr_ok hjs2, hje2]
      rfl
    rw [run, e, bisect]
    by_cases hc : (oj.v2 ≤. o3.v3) = true
    · rw [if_pos hc]
      refine ⟨y3, mo2, _, _, o3, rfl, hmf2, hyo3, hoth, hj3, rfl, ?_⟩
      rw [if_pos (by exact hc)]
    · rw [if_neg hc]
      obtain ⟨y4, mo4, a4, rc4, o4, p4, q1, q2, q3, q4, q5, q6⟩ := ih (k + 1) y3 mo2 .find rs.length o3 (by omega) hmf2 hyo3 hj3
      refine ⟨y4, mo4, a4, rc4, o4, p4, q1, q2, ?_, q4, q5, ?_⟩
      · intro i o hi ho
        obtain ⟨y, hy⟩ := hoth i o hi ho
        obtain ⟨y', hy'⟩ := q3 i _ hi hy
        exact ⟨y', hy'⟩
      · rw [q6, if_neg (by exact hc)]

theorem after_area (s : Inst R) (W : Nat → R) (Z : Nat → Term → R) (rs : List Rule) (j : Nat) (o : Output R) (n : Nat)
    (hd : s.deFuzz = .bisector) : (after s W Z rs j o n).v1 = area (samples s W Z rs j o n) := by
  obtain ⟨_, _, _, _, h5, _, _⟩ := after_scan s W Z rs j o n
  rw [h5, hd]
  have h : ∀ (l : List (R × R)) (o : Output R), (l.foldl (sample .bisector) o).v1 = l.foldl (fun a p => a +. p.2) o.v1 := by
    intro l
    induction l with
    | nil => intro o; rfl
    | cons p l ih => intro o; rw [List.foldl_cons, List.foldl_cons, ih]; rfl
  exact h _ _

/-- **C141** (any arithmetic) for every rule base that can be aggregated, `deFuzzify()` of a Mamdani system with the
bisector stays inside the arrays, and every output gets, limited to its range, the first of its sampled abscissae at
which the memberships summed from the left reach one half of their total; the arrays for the aggregated region hold
the samples, and what the search does to the other outputs does not show. -/
theorem C141_bisector (s : Inst R) (rs : List Rule) (w : Array R) (W : Nat → R) (Z : Nat → Term → R)
    (hk : s.kind = .mamdani) (hd : s.deFuzz = .bisector) (hno : s.nOutputs = s.xOutput.size)
    (hp : program rs <+: s.xRules.toList) (hn : s.nRules = rs.length) (hw : s.wi = some w)
    (hwn : rs.length ≤ w.size) (hW : ∀ k (h : k < w.size), W k = w[k]) (hpt : 0 < s.nPoints)
    (hag : ∀ (j : Nat) (o : Output R) (xa ya : Array R), s.xOutput[j]? = some o → o.ag = some (xa, ya) →
      s.nPoints ≤ xa.size ∧ s.nPoints ≤ ya.size)
    (hr : ∀ r ∈ rs, r.AggOk s ∧ ∀ c ∈ r.consequents, ∀ k < s.nPoints,
      consequentValue (atPoint s k) c = .ok (Z k c))
    (hv : ∀ r ∈ rs, ∀ c ∈ r.consequents, ∀ v, ∃ z, consequentValue (allAt s v) c = .ok z) :
    ∃ s', deFuzzify s = .ok s' ∧ ∀ (j : Nat) (o : Output R), s.xOutput[j]? = some o →
      ∃ o', s'.xOutput[j]? = some o' ∧ o'.io.min = o.io.min ∧ o'.io.max = o.io.max ∧
        o'.io.value = bound (bisect (lit (1 / 2) *. area (samples s W Z rs j o s.nPoints)) (lit 0) o.io.min
          (samples s W Z rs j o s.nPoints)) o.io.min o.io.max ∧
        (∀ xa ya, o.ag = some (xa, ya) → ∃ xa' ya', o'.ag = some (xa', ya') ∧ ∀ k < s.nPoints,
          xa'[k]? = some (abscissa o k) ∧ ya'[k]? = some (region s.aggregate s.implicate W (Z k) rs j)) := by
  obtain ⟨xo, mo, a, rc, e, hmf, hxo⟩ := mamdani_points s rs w W Z hk hno hp hn hw hwn hW hag hr
  have hsz : xo.size = s.xOutput.size := size_of_map hxo
  have step1 : overOutputs (fun o => pure (s.deFuzz.init o)) s =
      .ok { s with xOutput := s.xOutput.map s.deFuzz.init } := over_map _ _ s hno (fun i o _ => rfl)
  let Val : Nat → Output R → R := fun j o =>
    bound (bisect (lit (1 / 2) *. area (samples s W Z rs j o s.nPoints)) (lit 0) o.io.min
          (samples s W Z rs j o s.nPoints)) o.io.min o.io.max
  obtain ⟨t, ef, yo, mo', a', rc', rfl, hmf', hyo, hfin⟩ := loop_total (f := finish) s.nOutputs
    (fun i t => ∃ (yo : Array (Output R)) (mo : Array (MF R)) (a : AggState) (rc : Nat),
      t = { s with xOutput := yo, outMF := mo, aggState := a, ruleCount := rc } ∧ SameMF s mo ∧ SameRange s yo ∧
      ∀ (l : Nat) (o : Output R), s.xOutput[l]? = some o → ∃ o', yo[l]? = some o' ∧
        o'.ag = (after s W Z rs l o s.nPoints).ag ∧ (l < i → o'.io.value = Val l o) ∧
        (i ≤ l → o'.v1 = (after s W Z rs l o s.nPoints).v1))
    (by
      rintro i t hi ⟨yo, mo, a, rc, rfl, hmf, hyo, hinv⟩
      have his : i < s.xOutput.size := by omega
      obtain ⟨o0, h0⟩ : ∃ o0, s.xOutput[i]? = some o0 := ⟨s.xOutput[i], by simp [his]⟩
      obtain ⟨oi, g1, g2, _, g4⟩ := hinv i o0 h0
      have hv1 := g4 (le_refl i)
      have hiy : i < yo.size := (Array.getElem?_eq_some_iff.mp g1).1
      have hie : yo[i] = oi := (Array.getElem?_eq_some_iff.mp g1).2
      let o1 : Output R := { oi with v3 := lit 0, v2 := lit (1 / 2) *. oi.v1 }
      let y1 := yo.set i o1
      have hy1 : ∀ l, y1[l]? = yo[l]?.map (fun o => if l = i then o1 else o) := by
        intro l
        simp only [y1, Array.getElem?_set]
        by_cases h : i = l
        · subst h; simp [g1]
        · rw [if_neg h]
          simp [show ¬ l = i from fun h' => h h'.symm]
      have hyo1 : SameRange s y1 := by
        refine ⟨by simpa [y1] using hyo.1, fun l o o' q1 q2 => ?_⟩
        rw [hy1 l] at q2
        obtain ⟨o2, q3, q4⟩ := Option.map_eq_some_iff.mp q2
        by_cases h : l = i
        · subst h
          rw [if_pos rfl] at q4
          subst q4
          exact hyo.2 l o oi q1 g1
        · rw [if_neg h] at q4; subst q4; exact hyo.2 l o o2 q1 q3
      have hi1 : y1[i]? = some o1 := by rw [hy1 i, g1]; simp
      obtain ⟨y2, mo2, a2, rc2, o2, p2, q1, q2, q3, q4, q5, q6⟩ := bisectorLoop_run s rs w W Z hk hp hn hw hwn hW hr hv i o0
        h0 s.nPoints 0 y1 mo a rc o1 (by omega) hmf hyo1 hi1
      have hi2 : i < y2.size := (Array.getElem?_eq_some_iff.mp q4).1
      have hie2 : y2[i] = o2 := (Array.getElem?_eq_some_iff.mp q4).2
      obtain ⟨r1, r2, r3⟩ := q2.2 i o0 o2 h0 q4
      have hx : bound o2.x o2.io.min o2.io.max = Val i o0 := by
        have e1 : samplesFrom s W Z rs i o0 0 s.nPoints = samples s W Z rs i o0 s.nPoints := by
          simp [samplesFrom, samples, List.range_eq_range']
        have e2 : samples s W Z rs i o0 s.nPoints ≠ [] := by
          intro h
          have := congrArg List.length h
          simp [samples] at this
          omega
        simp only [Val]
        rw [q6, e1, r1, r2]
        simp only [o1]
        rw [hv1, after_area s W Z rs i o0 s.nPoints hd, bisect_start _ _ _ o0.io.min _ e2]
      let o3 : Output R := { o2 with io := { o2.io with value := Val i o0 } }
      let y3 := y2.set i o3
      have hy3 : ∀ l, y3[l]? = y2[l]?.map (fun o => if l = i then o3 else o) := by
        intro l
        simp only [y3, Array.getElem?_set]
        by_cases h : i = l
        · subst h; simp [q4]
        · rw [if_neg h]
          simp [show ¬ l = i from fun h' => h h'.symm]
      refine ⟨{ s with xOutput := y3, outMF := mo2, aggState := a2, ruleCount := rc2 }, ?_, y3, mo2, a2, rc2, rfl, q1, ?_, ?_⟩
      · have hE : deFuzzEnd { s with xOutput := yo, outMF := mo, aggState := a, ruleCount := rc } i =
            .ok ({ s with xOutput := y2, outMF := mo2, aggState := a2, ruleCount := rc2 }, o2.x) := by
          unfold deFuzzEnd
          rw [rdArr_ok hiy]
          simp only [Out.bind_ok]
          split
          case h_2 =>
            rw [wrArr_ok hiy]
            simp only [Out.bind_ok, hie]
            rw [p2]
            simp only [Out.bind_ok, rdArr_ok hi2, hie2, Out.pure_eq]
          all_goals rename_i h; rw [hd] at h; cases h
        unfold finish
        rw [hE]
        simp only [Out.bind_ok, rdArr_ok hi2, hie2, wrArr_ok hi2, Out.pure_eq, hx]
        rfl
      · refine ⟨by simpa [y3] using q2.1, fun l o o' f1 f2 => ?_⟩
        rw [hy3 l] at f2
        obtain ⟨o4, f3, f4⟩ := Option.map_eq_some_iff.mp f2
        by_cases h : l = i
        · subst h
          rw [if_pos rfl] at f4
          subst f4
          exact q2.2 l o o2 f1 q4
        · rw [if_neg h] at f4; subst f4; exact q2.2 l o o4 f1 f3
      · intro l o ho
        by_cases h : l = i
        · subst h
          rw [h0] at ho
          cases ho
          refine ⟨o3, by rw [hy3, q4]; simp, ?_, fun _ => rfl, fun h => absurd h (by omega)⟩
          exact q5.trans g2
        · obtain ⟨o', b1, b2, b3, b4⟩ := hinv l o ho
          have b1' : y1[l]? = some o' := by rw [hy1, b1]; simp [h]
          obtain ⟨y, hy⟩ := q3 l o' h b1'
          refine ⟨{ o' with y := y }, by rw [hy3, hy]; simp [h], b2, fun hl => b3 (by omega), fun hl => b4 (by omega)⟩)
    s.nOutputs 0 { s with xOutput := xo, outMF := mo, aggState := a, ruleCount := rc } (by omega)
    ⟨xo, mo, a, rc, rfl, hmf, ⟨hsz, fun i o o' h1 h2 => by
        rw [hxo i, h1] at h2
        cases h2
        exact after_frame s W Z rs i o s.nPoints⟩, fun l o ho => ⟨_, by rw [hxo l, ho]; rfl, rfl, fun h => absurd h (by omega), fun _ => rfl⟩⟩
  unfold deFuzzify
  simp only [step1, Out.bind_ok, hk, if_true] at e ⊢
  rw [e]
  simp only [Out.bind_ok]
  rw [hk] at ef
  rw [ef]
  refine ⟨_, rfl, fun j o ho => ?_⟩
  obtain ⟨o', b1, b2, b3, _⟩ := hfin j o ho
  obtain ⟨r1, r2, _⟩ := hyo.2 j o o' ho b1
  refine ⟨o', b1, r1, r2, b3 ?_, fun xa ya hxy => ?_⟩
  · have := (Array.getElem?_eq_some_iff.mp ho).1
    omega
  · obtain ⟨c1, c2⟩ := hag j o xa ya ho hxy
    obtain ⟨xa', ya', f1, _, _, f4⟩ := after_ag_get s W Z rs j o xa ya hxy s.nPoints c1 c2
    exact ⟨xa', ya', b2.trans f1, f4⟩

section field

variable {K : Type} [Field K] [LinearOrder K] [IsStrictOrderedRing K]

omit [IsStrictOrderedRing K] in
theorem area_sum (f : Nat → K × K) (n : Nat) : area ((List.range n).map f) = ∑ i ∈ Finset.range n, (f i).2 := by
  induction n with
  | zero => simp [area]
  | succ n ih =>
    rw [Finset.sum_range_succ, ← ih]
    simp [area, List.range_succ]

theorem bisect_first (f : Nat → K × K) (H : K) (n : Nat) : ∀ (k : Nat) (A x : K), 0 < n →
    H ≤ A + ∑ i ∈ Finset.range n, (f (k + i)).2 →
    ∃ m < n, bisect H A x ((List.range' k n).map f) = (f (k + m)).1 ∧
      H ≤ A + ∑ i ∈ Finset.range (m + 1), (f (k + i)).2 ∧
      ∀ l < m, A + ∑ i ∈ Finset.range (l + 1), (f (k + i)).2 < H := by
  induction n with
  | zero => intro k A x h; exact absurd h (by omega)
  | succ n ih =>
    intro k A x _ h
    rw [List.range'_succ, List.map_cons, bisect]
    by_cases hc : H ≤ A + (f k).2
    · refine ⟨0, by omega, ?_, by simpa using hc, fun l hl => absurd hl (by omega)⟩
      rw [if_pos (by simpa using hc)]; rfl
    · rw [if_neg (by simpa using hc)]
      have hs : ∀ m, ∑ i ∈ Finset.range (m + 1), (f (k + i)).2 =
          (f k).2 + ∑ i ∈ Finset.range m, (f (k + 1 + i)).2 := by
        intro m
        rw [Finset.sum_range_succ', add_comm]
        congr 1
        exact Finset.sum_congr rfl fun i _ => by rw [show k + (i + 1) = k + 1 + i by omega]
      rw [hs n] at h
      rcases Nat.eq_zero_or_pos n with h0 | h0
      · subst h0; simp at h; exact absurd h hc
      · obtain ⟨m, m1, m2, m3, m4⟩ := ih (k + 1) (A + (f k).2) (f k).1 h0 (by rw [add_assoc]; exact h)
        refine ⟨m + 1, by omega, ?_, ?_, fun l hl => ?_⟩
        · rw [show k + (m + 1) = k + 1 + m by omega]; exact m2
        · rw [hs (m + 1), ← add_assoc]; exact m3
        · rw [hs l, ← add_assoc]
          rcases Nat.eq_zero_or_pos l with hl0 | hl0
          · subst hl0; simpa using hc
          · have := m4 (l - 1) (by omega)
            rwa [show l - 1 + 1 = l by omega] at this

/-- **C141** (exact arithmetic) with the bisector every output of a Mamdani system gets, limited to its range, the
sampled abscissa that splits its aggregated region in two halves: up to it the samples have at least, before it
less than one half of the total area (or it is the first abscissa). -/
theorem C141_halves (s : Inst K) (rs : List Rule) (w : Array K) (W : Nat → K) (Z : Nat → Term → K)
    (hk : s.kind = .mamdani) (hd : s.deFuzz = .bisector) (hno : s.nOutputs = s.xOutput.size)
    (hp : program rs <+: s.xRules.toList) (hn : s.nRules = rs.length) (hw : s.wi = some w)
    (hwn : rs.length ≤ w.size) (hW : ∀ k (h : k < w.size), W k = w[k]) (hpt : 0 < s.nPoints)
    (hag : ∀ (j : Nat) (o : Output K) (xa ya : Array K), s.xOutput[j]? = some o → o.ag = some (xa, ya) →
      s.nPoints ≤ xa.size ∧ s.nPoints ≤ ya.size)
    (hr : ∀ r ∈ rs, r.AggOk s ∧ ∀ c ∈ r.consequents, ∀ k < s.nPoints,
      consequentValue (atPoint s k) c = .ok (Z k c))
    (hv : ∀ r ∈ rs, ∀ c ∈ r.consequents, ∀ v, ∃ z, consequentValue (allAt s v) c = .ok z) :
    ∃ s', deFuzzify s = .ok s' ∧ ∀ (j : Nat) (o : Output K), s.xOutput[j]? = some o →
      ∃ o', s'.xOutput[j]? = some o' ∧
        let Y := fun k => region s.aggregate s.implicate W (Z k) rs j
        ∃ k < s.nPoints, o'.io.value = bound (o.io.min + (k + 1 / 2) * o.res) o.io.min o.io.max ∧
          (∑ i ∈ Finset.range s.nPoints, Y i) / 2 ≤ ∑ i ∈ Finset.range (k + 1), Y i ∧
          (0 < k → ∑ i ∈ Finset.range k, Y i < (∑ i ∈ Finset.range s.nPoints, Y i) / 2) := by
  obtain ⟨s', e, h⟩ := C141_bisector s rs w W Z hk hd hno hp hn hw hwn hW hpt hag hr hv
  refine ⟨s', e, fun j o ho => ?_⟩
  obtain ⟨o', h1, _, _, h4, _⟩ := h j o ho
  refine ⟨o', h1, ?_⟩
  let f : Nat → K × K := fun k => (abscissa o k, region s.aggregate s.implicate W (Z k) rs j)
  have hpos : 0 ≤ ∑ i ∈ Finset.range s.nPoints, (f i).2 :=
    Finset.sum_nonneg fun i _ => by simpa using (region_range s.aggregate s.implicate W (Z i) rs j).1
  have ha : area (samples s W Z rs j o s.nPoints) = ∑ i ∈ Finset.range s.nPoints, (f i).2 := area_sum f s.nPoints
  obtain ⟨m, m1, m2, m3, m4⟩ := bisect_first f ((∑ i ∈ Finset.range s.nPoints, (f i).2) / 2) s.nPoints 0 0 o.io.min hpt
    (by simp only [Nat.zero_add, zero_add]; linarith)
  have es : samples s W Z rs j o s.nPoints = (List.range' 0 s.nPoints).map f := by
    simp [samples, List.range_eq_range', f]
  have eh : (lit (1 / 2) *. area (samples s W Z rs j o s.nPoints) : K) = (∑ i ∈ Finset.range s.nPoints, (f i).2) / 2 := by
    rw [ha]; simp; ring
  simp only [Nat.zero_add, zero_add] at m2 m3 m4
  refine ⟨m, m1, ?_, m3, fun h0 => ?_⟩
  · rw [h4, eh, es, show (lit 0 : K) = 0 by simp, m2]
    simp [f, abscissa]
  · have := m4 (m - 1) (by omega)
    rwa [show m - 1 + 1 = m by omega] at this

end field

/-- The hypotheses of the theorems above hold for a system with one rule. -/
example : (let r : Rule := ⟨⟨0, 0, false⟩, [], ⟨0, 0, false⟩, []⟩
    let s := plateau .bisector 1 3 5 7
    (program [r] <+: s.xRules.toList) ∧ r.AggOk s ∧ (∀ k < s.nPoints,
      consequentValue (atPoint s k) ⟨0, 0, false⟩ = .ok (#[0, 1 / 4, 3 / 4, 1, 1, 3 / 4, 1 / 4, 0][k]!)) ∧
    ∀ v, ∃ z, consequentValue (allAt s v) ⟨0, 0, false⟩ = .ok z) ∧
    (fun s => s.xOutput.toList.map (fun o => o.io.value)) <$> deFuzzify (plateau .bisector 1 3 5 7) = .ok [7 / 2] ∧
    (fun s => s.xOutput.toList.map (fun o => o.io.value)) <$> deFuzzify (plateau .bisector 1 2 3 4) = .ok [5 / 2] := by
  refine ⟨⟨by decide +kernel, by unfold Rule.AggOk; decide +kernel, by decide +kernel, fun v => ?_⟩,
    by decide +kernel, by decide +kernel⟩
  simp [consequentValue, allAt, plateau, demo, rdArr, MF.degreeAt, TrapMF, outputPtr]

end Verif.Fis
