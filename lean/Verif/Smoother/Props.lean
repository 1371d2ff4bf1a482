import Verif.Smoother.Lemmas
import Verif.Tdl.Lemmas

/-!
# Properties C36-C40 of the smoothers
-/

namespace Verif.Smoother

open Arith Ltisys

/-! ## C36: hull of the inputs -/

section Hull
variable {K : Type} [Field K] [LinearOrder K] [IsStrictOrderedRing K]

/-- What a program does with a smoother whose configuration has type `P`. -/
inductive Ev (P K : Type) where
  | setup (p : P)
  | reset
  | smooth (x : K)

/-- `y` lies between the minimum and the maximum of the samples `l`. -/
def InHull (l : List K) (y : K) : Prop := (∃ a ∈ l, a ≤ y) ∧ (∃ b ∈ l, y ≤ b)

/-- Every output of a sequence of calls lies in the hull of the samples received since the last
successful `setup` or `reset` (`seen`, newest first). -/
def AllInHull {S P : Type} (setup : S → P → S × Bool) (reset : S → S) (smooth : S → K → S × K) :
    S → List K → List (Ev P K) → Prop
  | _, _, [] => True
  | s, seen, .setup p :: es =>
    AllInHull setup reset smooth (setup s p).1 (if (setup s p).2 then [] else seen) es
  | s, _, .reset :: es => AllInHull setup reset smooth (reset s) [] es
  | s, seen, .smooth x :: es =>
    InHull (x :: seen) (smooth s x).2 ∧
    AllInHull setup reset smooth (smooth s x).1 (x :: seen) es

omit [Field K] [IsStrictOrderedRing K] in
theorem inHull_between {l : List K} {u x y : K} (h : InHull l u) (h1 : min x u ≤ y)
    (h2 : y ≤ max x u) : InHull (x :: l) y := by
  obtain ⟨⟨a, ha, ha'⟩, ⟨b, hb, hb'⟩⟩ := h
  constructor
  · rcases le_total x u with h | h
    · exact ⟨x, by simp, by rwa [min_eq_left h] at h1⟩
    · exact ⟨a, by simp [ha], by rw [min_eq_right h] at h1; exact ha'.trans h1⟩
  · rcases le_total x u with h | h
    · exact ⟨b, by simp [hb], by rw [max_eq_right h] at h2; exact h2.trans hb'⟩
    · exact ⟨x, by simp, by rwa [max_eq_left h] at h2⟩

omit [Field K] [IsStrictOrderedRing K] in
theorem inHull_self (l : List K) (x : K) : InHull (x :: l) x :=
  ⟨⟨x, by simp, le_rfl⟩, ⟨x, by simp, le_rfl⟩⟩

/-- `x + t (u - x)` with `0 ≤ t ≤ 1` lies between `x` and `u`. -/
theorem between_of_convex {x u t : K} (h0 : 0 ≤ t) (h1 : t ≤ 1) :
    min x u ≤ x + t * (u - x) ∧ x + t * (u - x) ≤ max x u := by
  rcases le_total x u with h | h
  · rw [min_eq_left h, max_eq_right h]
    constructor
    · nlinarith [mul_nonneg h0 (sub_nonneg.mpr h)]
    · nlinarith [mul_nonneg (sub_nonneg.mpr h1) (sub_nonneg.mpr h)]
  · rw [min_eq_right h, max_eq_left h]
    constructor
    · nlinarith [mul_nonneg (sub_nonneg.mpr h1) (sub_nonneg.mpr h)]
    · nlinarith [mul_nonneg h0 (sub_nonneg.mpr h)]

omit [Field K] [IsStrictOrderedRing K] in
/-- Invariants prove hull containment. -/
theorem allInHull_of_inv {S P : Type} (setup : S → P → S × Bool) (reset : S → S)
    (smooth : S → K → S × K) (I : S → List K → Prop)
    (hsetup : ∀ s seen p, I s seen → I (setup s p).1 (if (setup s p).2 then [] else seen))
    (hreset : ∀ s seen, I s seen → I (reset s) [])
    (hsmooth : ∀ s seen x, I s seen →
      InHull (x :: seen) (smooth s x).2 ∧ I (smooth s x).1 (x :: seen))
    (es : List (Ev P K)) (s : S) (seen : List K) (h : I s seen) :
    AllInHull setup reset smooth s seen es := by
  induction es generalizing s seen with
  | nil => trivial
  | cons e es ih =>
    cases e with
    | setup p => exact ih _ _ (hsetup s seen p h)
    | reset => exact ih _ _ (hreset s seen h)
    | smooth x => exact ⟨(hsmooth s seen x h).1, ih _ _ (hsmooth s seen x h).2⟩

/-- **C36** (`smootherLPF1`) from a new object (`alpha = 0.9`, any `y1`), whatever the sequence of
calls. -/
theorem C36_lpf1 (y1 : K) (es : List (Ev K K)) :
    AllInHull LPF1.setup (fun s => { s with init := true }) LPF1.smooth
      (⟨lit (9 / 10), y1, true⟩ : LPF1 K) [] es := by
  refine allInHull_of_inv _ _ _ (fun s seen => (0 < s.alpha ∧ s.alpha < 1) ∧
    (s.init = false → InHull seen s.y1)) ?_ ?_ ?_ es _ _ ?_
  · intro s seen p ⟨h1, h2⟩
    unfold LPF1.setup
    split_ifs with hc
    · simp only [fLit, fLt, Rat.cast_zero, Rat.cast_one, Bool.and_eq_true, decide_eq_true_eq] at hc
      exact ⟨hc, by simp⟩
    · simp_all
    · simp_all
    · exact ⟨h1, h2⟩
  · intro s seen ⟨h1, h2⟩
    exact ⟨h1, by simp⟩
  · intro s seen x ⟨h1, h2⟩
    have key : InHull (x :: seen) (s.smooth x).2 := by
      unfold LPF1.smooth
      cases hi : s.init with
      | true => simpa using inHull_self seen x
      | false =>
        simp only [fAdd, fMul, fSub, Bool.false_eq_true, if_false]
        have := between_of_convex (x := x) (u := s.y1) h1.1.le h1.2.le
        exact inHull_between (h2 hi) this.1 this.2
    refine ⟨key, ?_, fun _ => key⟩
    unfold LPF1.smooth
    cases s.init <;> exact h1
  · constructor
    · simp only [fLit]; push_cast; norm_num
    · simp

/-- **C36** (`smootherEXPW`) from a new object (`lambda = 0.8`, `w = 1`). -/
theorem C36_expw (m : K) (es : List (Ev K K)) :
    AllInHull EXPW.setup (fun s => { s with init := true }) EXPW.smooth
      (⟨lit (8 / 10), m, lit 1, true⟩ : EXPW K) [] es := by
  refine allInHull_of_inv _ _ _ (fun s seen => (0 < s.lambda ∧ s.lambda < 1) ∧ 1 ≤ s.w ∧
    (s.init = false → InHull seen s.m)) ?_ ?_ ?_ es _ _ ?_
  · intro s seen p ⟨h1, h2, h3⟩
    unfold EXPW.setup
    split_ifs with hc
    · simp only [fLit, fLt, Rat.cast_zero, Rat.cast_one, Bool.and_eq_true, decide_eq_true_eq] at hc
      exact ⟨hc, by simp, by simp⟩
    · simp_all
    · simp_all
    · exact ⟨h1, h2, h3⟩
  · intro s seen ⟨h1, h2, h3⟩
    exact ⟨h1, h2, by simp⟩
  · intro s seen x ⟨h1, h2, h3⟩
    have conv : ∀ m w : K, 1 ≤ w → m * (1 - 1 / (s.lambda * w + 1)) + 1 / (s.lambda * w + 1) * x
        = x + (1 - 1 / (s.lambda * w + 1)) * (m - x) ∧ 0 ≤ 1 - 1 / (s.lambda * w + 1) ∧
          1 - 1 / (s.lambda * w + 1) ≤ 1 ∧ 1 ≤ s.lambda * w + 1 := by
      intro m w hw
      have hp : 0 < s.lambda * w := mul_pos h1.1 (by linarith)
      refine ⟨by ring, ?_, ?_, by linarith⟩
      · rw [sub_nonneg, div_le_one (by linarith)]; linarith
      · have : 0 ≤ 1 / (s.lambda * w + 1) := by positivity
        linarith
    have key : InHull (x :: seen) (s.smooth x).2 ∧ 1 ≤ (s.smooth x).1.w := by
      unfold EXPW.smooth
      cases hi : s.init with
      | true =>
        simp only [fAdd, fMul, fSub, fDiv, fLit, if_true, Rat.cast_one]
        obtain ⟨e, k1, k2, k3⟩ := conv x 1 le_rfl
        rw [e]
        refine ⟨?_, k3⟩
        have : x + (1 - 1 / (s.lambda * 1 + 1)) * (x - x) = x := by ring
        rw [this]
        exact inHull_self seen x
      | false =>
        simp only [fAdd, fMul, fSub, fDiv, fLit, Bool.false_eq_true, if_false, Rat.cast_one]
        obtain ⟨e, k1, k2, k3⟩ := conv s.m s.w h2
        rw [e]
        refine ⟨?_, k3⟩
        have := between_of_convex (x := x) (u := s.m) k1 k2
        exact inHull_between (h3 hi) this.1 this.2
    refine ⟨key.1, ?_, key.2, fun _ => key.1⟩
    unfold EXPW.smooth
    cases s.init <;> exact h1
  · refine ⟨?_, by simp, by simp⟩
    simp only [fLit]; push_cast; norm_num

/-- **C36** (`smootherKLMN`) from a new object (`q = 100`, `r = 0.9`, `p = 100`, `A = H = 1`). -/
theorem C36_klmn (xS gain : K) (es : List (Ev (K × K × K) K)) :
    AllInHull (fun s p => KLMN.setup s p.1 p.2.1 p.2.2) (fun s => { s with init := true }) KLMN.smooth
      (⟨xS, lit 1, lit 1, lit 100, lit (9 / 10), lit 100, gain, true⟩ : KLMN K) [] es := by
  refine allInHull_of_inv _ _ _ (fun s seen => (s.A = 1 ∧ s.H = 1 ∧ 0 < s.q ∧ 0 < s.r ∧ 0 < s.p) ∧
    (s.init = false → InHull seen s.xS)) ?_ ?_ ?_ es _ _ ?_
  · intro s seen p ⟨h1, h2⟩
    unfold KLMN.setup
    split_ifs with hc
    · simp only [fLit, fLt, Rat.cast_zero, Bool.and_eq_true, decide_eq_true_eq] at hc
      exact ⟨⟨by simp, by simp, hc.1.1, hc.1.2, hc.2⟩, by simp⟩
    · simp_all
    · simp_all
    · exact ⟨h1, h2⟩
  · intro s seen ⟨h1, h2⟩
    exact ⟨h1, by simp⟩
  · intro s seen x ⟨⟨hA, hH, hq, hr, hp⟩, h2⟩
    have hpq : 0 < s.p + s.q := by linarith
    have hd : 0 < s.r + (s.p + s.q) := by linarith
    have g1 : 0 ≤ (s.p + s.q) / (s.r + (s.p + s.q)) := by positivity
    have g2 : (s.p + s.q) / (s.r + (s.p + s.q)) < 1 := by
      rw [div_lt_one hd]; linarith
    have conv : ∀ m : K, m + (s.p + s.q) / (s.r + (s.p + s.q)) * (x - m)
        = x + (1 - (s.p + s.q) / (s.r + (s.p + s.q))) * (m - x) := by intro m; ring
    have key : InHull (x :: seen) (s.smooth x).2 ∧ 0 < (s.smooth x).1.p := by
      unfold KLMN.smooth
      cases hi : s.init with
      | true =>
        simp only [fAdd, fMul, fSub, fDiv, fLit, if_true, Rat.cast_one, hA, hH, one_mul, mul_one]
        refine ⟨?_, mul_pos (by linarith) hpq⟩
        simpa using inHull_self seen x
      | false =>
        simp only [fAdd, fMul, fSub, fDiv, fLit, Bool.false_eq_true, if_false, Rat.cast_one, hA, hH,
          one_mul, mul_one]
        refine ⟨?_, mul_pos (by linarith) hpq⟩
        rw [conv]
        have := between_of_convex (x := x) (u := s.xS)
          (t := 1 - (s.p + s.q) / (s.r + (s.p + s.q))) (by linarith) (by linarith)
        exact inHull_between (h2 hi) this.1 this.2
    refine ⟨key.1, ⟨?_, ?_, ?_, ?_, key.2⟩, fun _ => key.1⟩ <;> unfold KLMN.smooth <;>
      cases s.init <;> assumption
  · refine ⟨⟨by simp, by simp, ?_, ?_, ?_⟩, by simp⟩ <;> simp only [fLit] <;> push_cast <;> norm_num

end Hull

-- C36: outputs of a low-pass filter on 0, 10, 10
example :
    let s : LPF1 ℚ := ((⟨9 / 10, 0, true⟩ : LPF1 ℚ).setup (1 / 2)).1
    let a := s.smooth 0
    let b := a.1.smooth 10
    let c := b.1.smooth 10
    (a.2, b.2, c.2) = (0, 5, 15 / 2) := by decide +kernel

/-! ## C37: moving-window mean -/

section Window
variable {K : Type} [Field K] [LinearOrder K] [IsStrictOrderedRing K]

/-- A sequence of calls (`none`: `reset`, `some x`: `smooth( x )`) never has undefined behaviour and
every output is `F` of the history of the samples since the last reset, newest first, where the first
sample after the reset stands in for the samples before it. -/
def WindowRun {S : Type} (reset : S → S) (smooth : S → K → Out (S × K)) (F : (Nat → K) → K) :
    S → Option (Nat → K) → List (Option K) → Prop
  | _, _, [] => True
  | s, _, none :: es => WindowRun reset smooth F (reset s) none es
  | s, h, some x :: es =>
    ∃ s', smooth s x = .ok (s', F (push x (h.getD fun _ => x))) ∧
      WindowRun reset smooth F s' (some (push x (h.getD fun _ => x))) es

omit [Field K] [LinearOrder K] [IsStrictOrderedRing K] in
/-- Invariants prove window functions. -/
theorem windowRun_of_inv {S : Type} (reset : S → S) (smooth : S → K → Out (S × K))
    (F : (Nat → K) → K) (I : S → Option (Nat → K) → Prop)
    (hreset : ∀ s h, I s h → I (reset s) none)
    (hsmooth : ∀ s h x, I s h → ∃ s', smooth s x = .ok (s', F (push x (h.getD fun _ => x))) ∧
      I s' (some (push x (h.getD fun _ => x))))
    (es : List (Option K)) (s : S) (h : Option (Nat → K)) (hi : I s h) :
    WindowRun reset smooth F s h es := by
  induction es generalizing s h with
  | nil => trivial
  | cons e es ih =>
    cases e with
    | none => exact ih _ _ (hreset s h hi)
    | some x =>
      obtain ⟨s', h1, h2⟩ := hsmooth s h x hi
      exact ⟨s', h1, ih _ _ h2⟩

omit [IsStrictOrderedRing K] in
/-- **C37** (`smootherMWM2`) after `setup` with any window of `n ≥ 1` samples, every output is the mean
of the last `n` samples. -/
theorem C37_mwm2 (s : MWM2 K) (area : Array K) (n : Nat) (hn : 0 < n) (hs : n ≤ area.size) :
    ∃ s0, s.setup (some area) n = .ok (s0, true) ∧ ∀ es : List (Option K),
      WindowRun (fun s => { s with init := true }) MWM2.smooth (mean n) s0 none es := by
  obtain ⟨t, ht, _, hinv⟩ := Tdl.inv_setup s.tdl.undef area n (lit 0) hn hs
  refine ⟨{ s with tdl := t, init := true }, ?_, fun es => ?_⟩
  · unfold MWM2.setup
    simp only [if_pos hn, ht, Out.bind_ok, Out.pure_eq]
  · refine windowRun_of_inv _ _ _ (fun s h => (s.tdl.n = n ∧
        (∃ g, Tdl.Inv area n g s.tdl ∧ (s.init = false → s.sum = ∑ j ∈ Finset.range n, g j ∧
          h = some g))) ∧ (s.init = true → h = none)) ?_ ?_ es _ _ ?_
    · rintro s h ⟨⟨h1, g, h2, _⟩, _⟩
      exact ⟨⟨h1, g, h2, by simp⟩, by simp⟩
    · rintro s h x ⟨⟨h1, g, h2, h3⟩, h4⟩
      -- state and history after the optional flush
      have hf : ∃ t g', (if s.init then do
            let t ← Tdl.flush s.tdl x
            pure { s with tdl := t, sum := x *. lit s.tdl.n, init := false }
          else pure s : Out (MWM2 K)) = .ok t ∧ t.tdl.n = n ∧ t.init = false ∧
          Tdl.Inv area n g' t.tdl ∧ t.sum = ∑ j ∈ Finset.range n, g' j ∧
          g' = h.getD (fun _ => x) := by
        cases hi : s.init with
        | true =>
          obtain ⟨t, k1, _, k3⟩ := Tdl.inv_step h2 (.flush x)
          have k1' : Tdl.flush s.tdl x = .ok t := k1
          refine ⟨{ s with tdl := t, sum := x *. lit s.tdl.n, init := false }, _, ?_, k3.neq, rfl, k3,
            ?_, ?_⟩
          · simp only [if_true, k1', Out.bind_ok, Out.pure_eq]
          · simp only [fMul, fLit, h1, Tdl.Spec.step, sum_const]; push_cast; ring
          · rw [h4 hi]; rfl
        | false =>
          obtain ⟨k1, k2⟩ := h3 hi
          exact ⟨s, g, rfl, h1, hi, h2, k1, by rw [k2]; rfl⟩
      obtain ⟨t, g', e1, e2, e3, e4, e5, e6⟩ := hf
      obtain ⟨t', k1, _, k3⟩ := Tdl.inv_insert e4 x
      rw [tdl_step_eq, e6] at k3
      refine ⟨{ t with tdl := t', sum := ∑ j ∈ Finset.range n, push x (h.getD fun _ => x) j }, ?_, ?_⟩
      · unfold MWM2.smooth
        dsimp only
        rw [e1]
        simp only [Out.bind_ok, Tdl.oldest_of_inv e4, k1, Out.pure_eq, fAdd, fSub, fDiv, fLit, e5, e6,
          sum_push n hn, mean, h1, Rat.cast_natCast]
      · exact ⟨⟨k3.neq, _, k3, fun _ => ⟨rfl, rfl⟩⟩, by simp [e3]⟩
    · exact ⟨⟨hinv.neq, _, hinv, by simp⟩, by simp⟩

/-- Invariant of the array-window smoothers: window `w` of `n` cells with history `h`. -/
def WinInv (n : Nat) (w : Option (Array K)) (init : Bool) (h : Option (Nat → K)) : Prop :=
  (∃ a, w = some a ∧ n ≤ a.size ∧ (init = false → ∃ g, h = some g ∧ Holds a n g)) ∧
  (init = true → h = none)

omit [Field K] [LinearOrder K] [IsStrictOrderedRing K] in
theorem winInv_fill (n : Nat) (w : Option (Array K)) (init : Bool) (h : Option (Nat → K)) (x : K)
    (hi : WinInv n w init h) : ∃ a b, w = some a ∧
      (if init then windowSet a n x else .ok a) = .ok b ∧ n ≤ b.size ∧
      Holds b n (h.getD fun _ => x) := by
  obtain ⟨⟨a, rfl, hs, h1⟩, h2⟩ := hi
  cases init with
  | true =>
    obtain ⟨b, k1, k2, k3, _⟩ := windowSet_ok x a n hs
    exact ⟨a, b, rfl, k1, by omega, by rw [h2 rfl]; exact k3⟩
  | false =>
    obtain ⟨g, rfl, hg⟩ := h1 rfl
    exact ⟨a, a, rfl, rfl, hs, hg⟩

/-- **C37** (`smootherMWM1`; partial: `setup` cannot produce such an object, see `C40_mwm1_false`) an
object that holds a window of `n ≥ 1` cells outputs the mean of the last `n` samples, like
`smootherMWM2`. -/
theorem C37_mwm1_partial (area : Array K) (n : Nat) (hn : 0 < n) (hs : n ≤ area.size)
    (es : List (Option K)) :
    WindowRun (fun s => { s with init := true }) MWM1.smooth (mean n)
      (⟨some area, n, true⟩ : MWM1 K) none es := by
  refine windowRun_of_inv _ _ _ (fun s h => s.wsize = n ∧ WinInv n s.w s.init h) ?_ ?_ es _ _ ?_
  · rintro s h ⟨h1, ⟨a, h2, h3, _⟩, _⟩
    exact ⟨h1, ⟨a, h2, h3, by simp⟩, by simp⟩
  · rintro s h x ⟨h1, h2⟩
    obtain ⟨a, b, e1, e2, e3, e4⟩ := winInv_fill n s.w s.init h x h2
    obtain ⟨w', k1, k2, k3, _⟩ := updateFIR_sum b n x none (fun _ => 1) _ hn e4 (by simp) (by simp)
    refine ⟨{ s with w := some w', init := false }, ?_, h1, ⟨w', rfl, by omega, fun _ => ⟨_, rfl, k3⟩⟩,
      by simp⟩
    unfold MWM1.smooth
    simp only [e1, deref, Out.bind_ok, h1, e2, k1, Out.pure_eq, one_mul, fDiv, fLit, mean,
      Rat.cast_natCast]
  · exact ⟨rfl, ⟨area, rfl, hs, by simp⟩, by simp⟩

-- C37: window of 3 samples, inputs 3, 6, 9, 9
example : ∃ s0, (⟨⟨#[], 0, 0, 0, 0⟩, 0, true⟩ : MWM2 ℚ).setup (some #[7, 7, 7]) 3 = .ok (s0, true) ∧
    (do
      let (s, a) ← s0.smooth 3
      let (s, b) ← s.smooth 6
      let (s, c) ← s.smooth 9
      let (_, d) ← s.smooth 9
      pure (a, b, c, d) : Out (ℚ × ℚ × ℚ × ℚ)) = .ok (3, 4, 6, 8) :=
  ⟨⟨⟨#[0, 0, 0], 3, 2, 0, 0⟩, 0, true⟩, by decide +kernel, by decide +kernel⟩

/-! ## C39: outlier removal -/

/-- What C39 claims of one sample `x` when the values returned before are `h` (newest first). -/
def robust (alpha : K) (n : Nat) (h : Nat → K) (x : K) : K :=
  if |mean n h - x| ≤ alpha * |mean n h| then x else mean n h

/-- A sequence of calls as in `WindowRun`, for an outlier remover: the history consists of the values
returned, the first sample after a reset standing in for the missing ones. -/
def RobustRun {S : Type} (reset : S → S) (smooth : S → K → Out (S × K)) (alpha : K) (n : Nat) :
    S → Option (Nat → K) → List (Option K) → Prop
  | _, _, [] => True
  | s, _, none :: es => RobustRun reset smooth alpha n (reset s) none es
  | s, h, some x :: es =>
    ∃ s', smooth s x = .ok (s', robust alpha n (h.getD fun _ => x) x) ∧
      RobustRun reset smooth alpha n s'
        (some (push (robust alpha n (h.getD fun _ => x) x) (h.getD fun _ => x))) es

omit [Field K] [LinearOrder K] [IsStrictOrderedRing K] in
theorem holds_set0 {w : Array K} {n : Nat} {h : Nat → K} {x v : K}
    (hw : Holds w n (push x h)) (h0 : 0 < w.size) : Holds (w.set 0 v) n (push v h) := by
  refine ⟨by simpa using hw.1, fun i hi => ?_⟩
  rw [rdArr_set h0]
  cases i with
  | zero => rfl
  | succ i => rw [if_neg (by omega), hw.2 _ hi]; rfl

/-- **C39** (`smootherMOR1`) after an accepted `setup`, every call returns the sample if it deviates
from the mean of the last `n` returned values by at most `alpha * |mean|`, and that mean
otherwise. -/
theorem C39_mor1 (s : MOR1 K) (area : Array K) (n : Nat) (alpha : K)
    (hs : n ≤ area.size) (s0 : MOR1 K) (hset : s.setup (some area) n alpha = (s0, true))
    (es : List (Option K)) :
    RobustRun (fun s => { s with init := true }) MOR1.smooth alpha n s0 none es := by
  unfold MOR1.setup at hset
  split_ifs at hset with hc
  · simp only [Prod.mk.injEq, and_true] at hset
    have hn : 0 < n := by
      simp only [Bool.and_eq_true, decide_eq_true_eq] at hc; exact hc.1.1.2
    have hI : ∀ (es : List (Option K)) (s : MOR1 K) (h : Option (Nat → K)), s.wsize = n →
        s.alpha = alpha → WinInv n s.w s.init h →
        (s.init = false → ∃ g, h = some g ∧ s.m = mean n g) →
        RobustRun (fun s => { s with init := true }) MOR1.smooth alpha n s h es := by
      intro es
      induction es with
      | nil => intros; trivial
      | cons e es ih =>
        intro s h h1 h2 h3 h4
        cases e with
        | none =>
          obtain ⟨⟨a, k2, k3, _⟩, _⟩ := h3
          exact ih _ _ h1 h2 ⟨⟨a, k2, k3, by simp⟩, by simp⟩ (by simp)
        | some x =>
          obtain ⟨a, b, e1, e2, e3, e4⟩ := winInv_fill n s.w s.init h x h3
          obtain ⟨w', k1, k2, k3, _⟩ :=
            updateFIR_sum b n x none (fun _ => 1) _ hn e4 (by simp) (by simp)
          have hm : (if s.init = true then x else s.m) = mean n (h.getD fun _ => x) := by
            cases hi : s.init with
            | true => rw [h3.2 hi]; simp [mean_const n hn]
            | false =>
              obtain ⟨g, rfl, hg⟩ := h4 hi
              simp [hg]
          have h0 : 0 < w'.size := by have := k3.1; omega
          -- the window after the optional replacement
          have hrep : ∃ w2, (if (s.alpha *. absf (mean n (h.getD fun _ => x)) <.
                absf (mean n (h.getD fun _ => x) -. x)) = true
                then wrArr w' 0 (mean n (h.getD fun _ => x)) else .ok w' : Out (Array K)) = .ok w2 ∧
              Holds w2 n (push (robust alpha n (h.getD fun _ => x) x) (h.getD fun _ => x)) := by
            simp only [fMul, fAbs, fSub, fLt, decide_eq_true_eq, h2]
            unfold robust
            split_ifs with c1 c2 c2
            · exact absurd c2 (not_le.mpr c1)
            · exact ⟨_, wrArr_ok h0, holds_set0 k3 h0⟩
            · exact ⟨_, rfl, k3⟩
            · exact absurd (not_lt.mp c1) c2
          obtain ⟨w2, r1, r2⟩ := hrep
          have hsum : ((∑ j ∈ Finset.range n, push x (h.getD fun _ => x) j) - x +
              robust alpha n (h.getD fun _ => x) x) / n
              = mean n (push (robust alpha n (h.getD fun _ => x) x) (h.getD fun _ => x)) := by
            rw [mean, sum_push n hn, sum_push n hn]; congr 1; ring
          refine ⟨{ s with w := some w2,
                           m := mean n (push (robust alpha n (h.getD fun _ => x) x)
                             (h.getD fun _ => x)),
                           init := false }, ?_, ?_⟩
          · unfold MOR1.smooth
            simp only [e1, deref, Out.bind_ok, h1, e2, k1, hm, one_mul]
            rw [r1]
            simp only [Out.bind_ok, r2.2 0 hn, push_zero, Out.pure_eq, fAdd, fSub, fDiv, fLit,
              Rat.cast_natCast, hsum]
          · exact ih _ _ h1 h2 ⟨⟨w2, rfl, r2.1, fun _ => ⟨_, rfl, r2⟩⟩, by simp⟩
              (fun _ => ⟨_, rfl, rfl⟩)
    subst hset
    exact hI es _ _ rfl rfl ⟨⟨area, rfl, hs, by simp⟩, by simp⟩ (by simp)
  · simp at hset

end Window

-- C39: window of 2, alpha = 1/2, inputs 10, 12, 100, 11: the 100 is replaced by the mean 11
example :
    let s0 := ((⟨none, 0, 8 / 10, 0, true⟩ : MOR1 ℚ).setup (some #[0, 0]) 2 (1 / 2))
    s0.2 = true ∧ (do
      let (s, a) ← s0.1.smooth 10
      let (s, b) ← s.smooth 12
      let (s, c) ← s.smooth 100
      let (_, d) ← s.smooth 11
      pure (a, b, c, d) : Out (ℚ × ℚ × ℚ × ℚ)) = .ok (10, 12, 11, 11) := by
  decide +kernel

/-- **C39 is false of the code for `smootherMOR2`**: it returns every sample unchanged, outliers
included (in any arithmetic; here with the witness 10, 100: the mean is 10, the answer 100). -/
theorem C39_mor2_false :
    (∀ {R : Type} [Arith R] (s s' : MOR2 R) (x y : R), s.smooth x = .ok (s', y) → y = x) ∧
    (∃ s0 : MOR2 ℚ, (⟨⟨#[], 0, 0, 0, 0⟩, 0, 0, 8 / 10, true⟩ : MOR2 ℚ).setup (some #[0, 0]) 2 (1 / 2)
      = .ok (s0, true) ∧
      (do
        let (s, a) ← s0.smooth 10
        let (_, b) ← s.smooth 100
        pure (a, b) : Out (ℚ × ℚ)) = .ok (10, 100)) := by
  constructor
  · intro R _ s s' x y h
    unfold MOR2.smooth at h
    obtain ⟨a, _, h⟩ := Out.bind_eq_ok.mp h
    obtain ⟨b, _, h⟩ := Out.bind_eq_ok.mp h
    obtain ⟨c, _, h⟩ := Out.bind_eq_ok.mp h
    simp only [Out.pure_eq, Out.ok.injEq, Prod.mk.injEq] at h
    exact h.2.symm
  · exact ⟨⟨⟨#[0, 0], 2, 1, 0, 0⟩, 0, 0, 1 / 2, true⟩, by decide +kernel, by decide +kernel⟩

end Verif.Smoother
