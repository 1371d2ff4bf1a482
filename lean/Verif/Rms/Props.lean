import Verif.Rms.Model
import Verif.Smoother.Props
import Mathlib.Analysis.Real.Sqrt

/-!
# Properties C84 and C85: the RMS estimator (exact arithmetic)
-/

namespace Verif.Rms

open Arith Ltisys Smoother

section
variable {K : Type} [Field K] [LinearOrder K] [IsStrictOrderedRing K]

/-! ## Steps of the three stages -/

omit [IsStrictOrderedRing K] in
/-- The recursion of `smootherLPF1::smooth`. -/
theorem lpf1_smooth (s : LPF1 K) (x : K) : s.smooth x =
    (⟨s.alpha, x + s.alpha * ((if s.init then x else s.y1) - x), false⟩,
      x + s.alpha * ((if s.init then x else s.y1) - x)) := by
  cases h : s.init <;> simp [LPF1.smooth, h]

omit [IsStrictOrderedRing K] in
/-- The recursion of `smootherEXPW::smooth`. -/
theorem expw_smooth (s : EXPW K) (x : K) : s.smooth x =
    let w := s.lambda * (if s.init then 1 else s.w) + 1
    let m := (if s.init then x else s.m) * (1 - 1 / w) + 1 / w * x
    (⟨s.lambda, m, w, false⟩, m) := by
  cases h : s.init <;> simp [EXPW.smooth, h]

/-- The window stage: whatever happens next, the outputs are means over `n` samples with history `h`. -/
def WinOk (n : Nat) (s : MWM2 K) (h : Option (Nat → K)) : Prop :=
  ∀ es, WindowRun (fun s => { s with init := true }) MWM2.smooth (mean n) s h es

omit [IsStrictOrderedRing K] in
theorem winOk_smooth {n : Nat} {s : MWM2 K} {h : Option (Nat → K)} (hw : WinOk n s h) (x : K) :
    ∃ s', s.smooth x = .ok (s', mean n (push x (h.getD fun _ => x))) ∧
      WinOk n s' (some (push x (h.getD fun _ => x))) := by
  obtain ⟨s', h1, _⟩ := hw [some x]
  refine ⟨s', h1, fun es => ?_⟩
  obtain ⟨s'', h3, h4⟩ := hw (some x :: es)
  rw [h1] at h3
  cases h3
  exact h4

omit [IsStrictOrderedRing K] in
theorem winOk_reset {n : Nat} {s : MWM2 K} {h : Option (Nat → K)} (hw : WinOk n s h) :
    WinOk n { s with init := true } none := fun es => hw (none :: es)

/-! ## Hull of the magnitudes -/

theorem inHull_mean {n : Nat} (hn : 0 < n) {l : List K} {g : Nat → K} (h : ∀ j, InHull l (g j)) :
    InHull l (mean n g) := by
  have hn' : (0 : K) < n := by exact_mod_cast hn
  have hne : (Finset.range n).Nonempty := ⟨0, by simpa using hn⟩
  have hs : ∑ _j ∈ Finset.range n, mean n g = ∑ j ∈ Finset.range n, g j := by
    rw [Finset.sum_const, Finset.card_range, nsmul_eq_mul, mean]
    field_simp
  obtain ⟨i, _, hi⟩ := Finset.exists_le_of_sum_le hne hs.ge
  obtain ⟨j, _, hj⟩ := Finset.exists_le_of_sum_le hne hs.le
  obtain ⟨a, ha, ha'⟩ := (h i).1
  obtain ⟨b, hb, hb'⟩ := (h j).2
  exact ⟨⟨a, ha, ha'.trans hi⟩, ⟨b, hb, hj.trans hb'⟩⟩

omit [Field K] [IsStrictOrderedRing K] in
theorem inHull_mono {l l' : List K} (hl : ∀ a ∈ l, a ∈ l') {y : K} (h : InHull l y) : InHull l' y :=
  ⟨h.1.imp fun a ha => ⟨hl a ha.1, ha.2⟩, h.2.imp fun a ha => ⟨hl a ha.1, ha.2⟩⟩

omit [Field K] [IsStrictOrderedRing K] in
theorem inHull_two {l : List K} {x u y : K} (hx : InHull l x) (hu : InHull l u) (h1 : min x u ≤ y)
    (h2 : y ≤ max x u) : InHull l y := by
  obtain ⟨⟨a, ha, ha'⟩, ⟨b, hb, hb'⟩⟩ := hx
  obtain ⟨⟨c, hc, hc'⟩, ⟨d, hd, hd'⟩⟩ := hu
  constructor
  · rcases le_total x u with h | h
    · exact ⟨a, ha, by rw [min_eq_left h] at h1; exact ha'.trans h1⟩
    · exact ⟨c, hc, by rw [min_eq_right h] at h1; exact hc'.trans h1⟩
  · rcases le_total x u with h | h
    · exact ⟨d, hd, by rw [max_eq_right h] at h2; exact h2.trans hd'⟩
    · exact ⟨b, hb, by rw [max_eq_left h] at h2; exact h2.trans hb'⟩

/-- `sqrt` is the square root of the field. -/
def IsSqrt (sqrt : K → K) : Prop := ∀ x, 0 ≤ x → 0 ≤ sqrt x ∧ sqrt x * sqrt x = x

theorem sqrt_sq {sqrt : K → K} (hs : IsSqrt sqrt) (c : K) : sqrt (c * c) = |c| := by
  obtain ⟨h1, h2⟩ := hs (c * c) (mul_self_nonneg c)
  rw [← abs_of_nonneg h1]
  exact abs_eq_abs.mpr (mul_self_eq_mul_self_iff.mp h2)

theorem inHull_sqrt {sqrt : K → K} (hs : IsSqrt sqrt) {l : List K} {m : K}
    (h : InHull (l.map fun x => x * x) m) : InHull (l.map fun x => |x|) (sqrt m) := by
  obtain ⟨⟨a, ha, ha'⟩, ⟨b, hb, hb'⟩⟩ := h
  obtain ⟨x, hx, rfl⟩ := List.mem_map.mp ha
  obtain ⟨y, hy, rfl⟩ := List.mem_map.mp hb
  obtain ⟨h1, h2⟩ := hs m ((mul_self_nonneg x).trans ha')
  refine ⟨⟨|x|, List.mem_map.mpr ⟨x, hx, rfl⟩, ?_⟩, ⟨|y|, List.mem_map.mpr ⟨y, hy, rfl⟩, ?_⟩⟩
  · exact abs_le_of_sq_le_sq' (by nlinarith) h1 |> fun h => abs_le.mpr ⟨h.1, h.2⟩
  · rw [← abs_of_nonneg h1]
    exact sq_le_sq.mp (by nlinarith)

/-- The samples received since the last accepted `setup` stay what bounds every output: no call has
undefined behaviour, and each output lies between the smallest and the largest magnitude of these
samples. Windows passed to `setup` have `wsize` cells. -/
def MagInHull [Trans K] : Rms K → List K → List (Ev K) → Prop
  | _, _, [] => True
  | s, seen, .setup w n :: es =>
    (∀ area, w = some area → n ≤ area.size) →
      ∃ r, s.setup w n = .ok r ∧ MagInHull r.1 (if r.2 then [] else seen) es
  | s, seen, .setParams l a :: es => MagInHull (s.setParams l a).1 seen es
  | s, seen, .resetEXPW :: es => MagInHull { s with expw := { s.expw with init := true } } seen es
  | s, seen, .resetMWM2 :: es => MagInHull { s with mwm2 := { s.mwm2 with init := true } } seen es
  | s, seen, .resetLPF1 :: es => MagInHull { s with lpf1 := { s.lpf1 with init := true } } seen es
  | s, seen, .update x :: es =>
    ∃ r, s.update x = .ok r ∧ InHull ((x :: seen).map fun x => |x|) r.2 ∧ MagInHull r.1 (x :: seen) es

/-- Invariant of a set-up object that has received `seen`. -/
structure Inv (s : Rms K) (seen : List K) : Prop where
  lam : 0 < s.expw.lambda ∧ s.expw.lambda ≤ 1
  w : s.expw.init = false → 1 ≤ s.expw.w
  m : s.expw.init = false → InHull (seen.map fun x => x * x) s.expw.m
  win : ∃ n h, 0 < n ∧ WinOk n s.mwm2 h ∧
    ∀ g, h = some g → ∀ j, InHull (seen.map fun x => |x|) (g j)
  alpha : 0 < s.lpf1.alpha ∧ s.lpf1.alpha ≤ 1
  y1 : s.lpf1.init = false → InHull (seen.map fun x => |x|) s.lpf1.y1

theorem setup_eq [Trans K] (s : Rms K) (area : Array K) (n : Nat) (hn : 0 < n) (hs : n ≤ area.size) :
    ∃ m, s.setup (some area) n =
      .ok (⟨⟨99 / 100, 0, 1, true⟩, m, ⟨75 / 100, s.lpf1.y1, true⟩⟩, true) ∧ WinOk n m none := by
  obtain ⟨m, h1, h2⟩ := C37_mwm2 s.mwm2 area n hn hs
  refine ⟨m, ?_, h2⟩
  have e1 : (0 : K) < 99 / 100 ∧ (99 / 100 : K) < 1 := by norm_num
  have e2 : (0 : K) < 75 / 100 ∧ (75 / 100 : K) < 1 := by norm_num
  simp [Rms.setup, hn, h1, EXPW.setup, LPF1.setup, e1, e2]

theorem inv_setup [Trans K] (s : Rms K) (area : Array K) (n : Nat) (hn : 0 < n) (hs : n ≤ area.size) :
    ∃ s', s.setup (some area) n = .ok (s', true) ∧ Inv s' [] := by
  obtain ⟨m, h1, h2⟩ := setup_eq s area n hn hs
  refine ⟨_, h1, ⟨by norm_num, by simp, by simp, ⟨n, none, hn, h2, by simp⟩, by norm_num, by simp⟩⟩

theorem inv_update [Trans K] (hsq : IsSqrt (Trans.sqrt : K → K)) {s : Rms K} {seen : List K}
    (h : Inv s seen) (x : K) : ∃ r, s.update x = .ok r ∧
      InHull ((x :: seen).map fun x => |x|) r.2 ∧ Inv r.1 (x :: seen) := by
  obtain ⟨hl, hw, hm, ⟨n, g, hn, hwin, hg⟩, ha, hy⟩ := h
  have tail : ∀ f : K → K, ∀ a ∈ seen.map f, a ∈ (x :: seen).map f := by
    intro f a h; simp only [List.map_cons, List.mem_cons]; exact .inr h
  -- first stage
  have key : ∃ e : EXPW K, s.expw.smooth (x * x) = (e, e.m) ∧ e.lambda = s.expw.lambda ∧ 1 ≤ e.w ∧
      InHull ((x :: seen).map fun x => x * x) e.m := by
    rw [expw_smooth]
    refine ⟨_, rfl, rfl, ?_, ?_⟩
    · have : 0 ≤ s.expw.lambda * (if s.expw.init then 1 else s.expw.w) := by
        refine mul_nonneg hl.1.le ?_
        cases hi : s.expw.init with
        | true => simp
        | false => simpa using zero_le_one.trans (hw hi)
      dsimp only
      linarith
    · dsimp only
      have hp : 0 ≤ s.expw.lambda * (if s.expw.init then 1 else s.expw.w) := by
        refine mul_nonneg hl.1.le ?_
        cases hi : s.expw.init with
        | true => simp
        | false => simpa using zero_le_one.trans (hw hi)
      generalize s.expw.lambda * (if s.expw.init then 1 else s.expw.w) = p at *
      have hu : InHull ((x :: seen).map fun x => x * x) (if s.expw.init then x * x else s.expw.m) := by
        cases hi : s.expw.init with
        | true => simpa using inHull_self _ (x * x)
        | false => simpa using inHull_mono (tail _) (hm hi)
      have hx : InHull ((x :: seen).map fun x => x * x) (x * x) := by
        simpa using inHull_self _ (x * x)
      generalize (if s.expw.init then x * x else s.expw.m) = u at *
      have h1 : 0 < p + 1 := by linarith
      have c := between_of_convex (x := x * x) (u := u) (t := 1 - 1 / (p + 1))
        (by rw [sub_nonneg, div_le_one h1]; linarith)
        (by have : 0 ≤ 1 / (p + 1) := by positivity
            linarith)
      have e : u * (1 - 1 / (p + 1)) + 1 / (p + 1) * (x * x)
          = x * x + (1 - 1 / (p + 1)) * (u - x * x) := by ring
      rw [e]
      exact inHull_two hx hu c.1 c.2
  obtain ⟨e, e1, e2, e3, e4⟩ := key
  have hi : e.init = false := by
    have := congrArg (fun r => r.1.init) e1
    rw [expw_smooth] at this
    exact this.symm
  -- second stage
  have hr := inHull_sqrt hsq e4
  obtain ⟨m', k1, k2⟩ := winOk_smooth hwin (Trans.sqrt e.m)
  have hp : ∀ j, InHull ((x :: seen).map fun x => |x|)
      (push (Trans.sqrt e.m) (g.getD fun _ => Trans.sqrt e.m) j) := by
    intro j
    cases j with
    | zero => exact hr
    | succ j =>
      change InHull _ (g.getD (fun _ => Trans.sqrt e.m) j)
      cases g with
      | none => exact hr
      | some g => exact inHull_mono (tail _) (hg g rfl j)
  have hmean := inHull_mean hn hp
  -- third stage
  have hlast : InHull ((x :: seen).map fun x => |x|)
      (s.lpf1.smooth (mean n (push (Trans.sqrt e.m) (g.getD fun _ => Trans.sqrt e.m)))).2 := by
    rw [lpf1_smooth]
    dsimp only
    refine inHull_two hmean (u := if s.lpf1.init then _ else s.lpf1.y1) ?_
      (between_of_convex ha.1.le ha.2).1 (between_of_convex ha.1.le ha.2).2
    cases hi' : s.lpf1.init with
    | true => simpa using hmean
    | false => simpa using inHull_mono (tail _) (hy hi')
  refine ⟨(⟨e, m', (s.lpf1.smooth (mean n (push (Trans.sqrt e.m)
    (g.getD fun _ => Trans.sqrt e.m)))).1⟩, _), ?_, hlast, ?_⟩
  · simp only [Rms.update, fMul, e1, k1, Out.bind_ok, Out.pure_eq]
  · refine ⟨by rw [e2]; exact hl, fun _ => e3, fun _ => e4, ⟨n, _, hn, k2, ?_⟩, ?_, fun _ => ?_⟩
    · rintro g' ⟨rfl⟩
      exact hp
    · rw [lpf1_smooth]; exact ha
    · rw [lpf1_smooth] at hlast ⊢; exact hlast

/-- **C84** After an accepted `setup`, whatever the later calls (updates, parameter changes accepted or
not, further `setup` calls accepted or not, resets of any of the three stages): no call has undefined
behaviour and every output lies between the smallest and the largest magnitude of the samples received
since the last accepted `setup`; in particular it is not negative. -/
theorem C84_hull [Trans K] (hsq : IsSqrt (Trans.sqrt : K → K)) (s : Rms K) (area : Array K) (n : Nat)
    (hn : 0 < n) (hs : n ≤ area.size) (es : List (Ev K)) :
    ∃ s', s.setup (some area) n = .ok (s', true) ∧ MagInHull s' [] es := by
  obtain ⟨s', h1, h2⟩ := inv_setup s area n hn hs
  refine ⟨s', h1, ?_⟩
  clear h1
  generalize ([] : List K) = seen at *
  induction es generalizing s' seen with
  | nil => trivial
  | cons e es ih =>
    cases e with
    | setup w k =>
      intro hk
      cases w with
      | none => exact ⟨_, rfl, ih _ _ h2⟩
      | some area' =>
        by_cases hk0 : 0 < k
        · obtain ⟨s'', e1, e2⟩ := inv_setup s' area' k hk0 (hk _ rfl)
          exact ⟨_, e1, ih _ _ e2⟩
        · refine ⟨(s', false), ?_, ih _ _ h2⟩
          simp [Rms.setup, hk0]
    | setParams l a =>
      refine ih _ _ ?_
      unfold Rms.setParams
      split_ifs with hc
      · simp only [fLit, fLt, fLe, Rat.cast_zero, Rat.cast_one, Bool.and_eq_true,
          decide_eq_true_eq] at hc
        exact ⟨⟨hc.1.1.1, hc.1.1.2⟩, h2.w, h2.m, h2.win, ⟨hc.1.2, hc.2⟩, h2.y1⟩
      · exact h2
    | resetEXPW => exact ih _ _ ⟨h2.lam, by simp, by simp, h2.win, h2.alpha, h2.y1⟩
    | resetMWM2 =>
      obtain ⟨n, g, hn, hw, _⟩ := h2.win
      exact ih _ _ ⟨h2.lam, h2.w, h2.m, ⟨n, none, hn, winOk_reset hw, by simp⟩, h2.alpha, h2.y1⟩
    | resetLPF1 => exact ih _ _ ⟨h2.lam, h2.w, h2.m, h2.win, h2.alpha, by simp⟩
    | update x =>
      obtain ⟨r, e1, e2, e3⟩ := inv_update hsq h2 x
      exact ⟨r, e1, e2, ih _ _ e3⟩

/-! ## Closed form -/

/-- Exponentially weighted mean square of `x 0, ..., x k`; the first sample counts once more with weight
`l ^ (k + 1)` (specification). -/
def meanSquare (l : K) (x : Nat → K) (k : Nat) : K :=
  ((∑ i ∈ Finset.range (k + 1), l ^ (k - i) * x i ^ 2) + l ^ (k + 1) * x 0 ^ 2) /
    ∑ i ∈ Finset.range (k + 2), l ^ i

/-- Mean of the last `n` terms of `v` up to `v k`, the first term standing in for the terms before it
(specification). -/
def movingMean (n : Nat) (v : Nat → K) (k : Nat) : K :=
  (∑ j ∈ Finset.range n, v (k - j)) / n

/-- First-order low-pass filter of `v`, started at `v 0` (specification). -/
def lowPass (a : K) (v : Nat → K) (k : Nat) : K :=
  (1 - a) * (∑ i ∈ Finset.range (k + 1), a ^ (k - i) * v i) + a ^ (k + 1) * v 0

/-- The estimate for sample `k` (specification). -/
def estimate (sqrt : K → K) (l a : K) (n : Nat) (x : Nat → K) : Nat → K :=
  lowPass a (movingMean n fun k => sqrt (meanSquare l x k))

omit [LinearOrder K] [IsStrictOrderedRing K] in
theorem wpow_succ (q : K) (v : Nat → K) (k : Nat) :
    ∑ i ∈ Finset.range (k + 1 + 1), q ^ (k + 1 - i) * v i
      = q * (∑ i ∈ Finset.range (k + 1), q ^ (k - i) * v i) + v (k + 1) := by
  rw [Finset.sum_range_succ, Finset.mul_sum]
  congr 1
  · refine Finset.sum_congr rfl fun i hi => ?_
    rw [Finset.mem_range] at hi
    rw [← mul_assoc, ← pow_succ']
    congr 2; omega
  · simp

omit [LinearOrder K] [IsStrictOrderedRing K] in
theorem lowPass_succ (a : K) (v : Nat → K) (k : Nat) :
    lowPass a v (k + 1) = v (k + 1) + a * (lowPass a v k - v (k + 1)) := by
  unfold lowPass
  rw [wpow_succ, pow_succ' a (k + 1)]
  ring

/-- State after the samples `x 0, ..., x k`. -/
def At [Trans K] (l a : K) (n : Nat) (x : Nat → K) (k : Nat) (s : Rms K) : Prop :=
  s.expw = ⟨l, meanSquare l x k, ∑ i ∈ Finset.range (k + 2), l ^ i, false⟩ ∧
  WinOk n s.mwm2 (some fun j => Trans.sqrt (meanSquare l x (k - j))) ∧
  s.lpf1 = ⟨a, estimate Trans.sqrt l a n x k, false⟩

theorem at_zero [Trans K] (l a m0 w0 y0 : K) (hl : 0 < l) (n : Nat) (x : Nat → K) (m : MWM2 K)
    (hw : WinOk n m none) : ∃ s', (⟨⟨l, m0, w0, true⟩, m, ⟨a, y0, true⟩⟩ : Rms K).update (x 0)
      = .ok (s', estimate Trans.sqrt l a n x 0) ∧ At l a n x 0 s' := by
  obtain ⟨m', k1, k2⟩ := winOk_smooth hw (Trans.sqrt (meanSquare l x 0))
  have h1 : l + 1 ≠ 0 := by positivity
  have e0 : meanSquare l x 0 = x 0 * x 0 := by
    simp [meanSquare, Finset.sum_range_succ]
    field_simp
    try ring
  have e1 : (⟨l, m0, w0, true⟩ : EXPW K).smooth (x 0 * x 0)
      = (⟨l, meanSquare l x 0, ∑ i ∈ Finset.range (0 + 2), l ^ i, false⟩, meanSquare l x 0) := by
    rw [expw_smooth, e0]
    simp [Finset.sum_range_succ]
    constructor
    · constructor
      · ring
      · ring
    · ring
  have ep : (push (Trans.sqrt (meanSquare l x 0))
      ((none : Option (Nat → K)).getD fun _ => Trans.sqrt (meanSquare l x 0)))
      = fun j => Trans.sqrt (meanSquare l x (0 - j)) := by
    funext j
    cases j <;> simp [push]
  rw [ep] at k1 k2
  have em : mean n (fun j => Trans.sqrt (meanSquare l x (0 - j)))
      = movingMean n (fun k => Trans.sqrt (meanSquare l x k)) 0 := rfl
  refine ⟨⟨_, m', _⟩, ?_, ⟨rfl, k2, rfl⟩⟩
  simp only [Rms.update, fMul, e1, k1, Out.bind_ok, Out.pure_eq, lpf1_smooth, em, if_true]
  have : movingMean n (fun k => Trans.sqrt (meanSquare l x k)) 0 + a *
      (movingMean n (fun k => Trans.sqrt (meanSquare l x k)) 0 -
        movingMean n (fun k => Trans.sqrt (meanSquare l x k)) 0) = estimate Trans.sqrt l a n x 0 := by
    simp [estimate, lowPass]
    ring
  rw [this]

theorem at_succ [Trans K] {l a : K} (hl : 0 < l) {n : Nat} {x : Nat → K} {k : Nat} {s : Rms K}
    (h : At l a n x k s) : ∃ s', s.update (x (k + 1))
      = .ok (s', estimate Trans.sqrt l a n x (k + 1)) ∧ At l a n x (k + 1) s' := by
  obtain ⟨he, hw, hp⟩ := h
  obtain ⟨m', k1, k2⟩ := winOk_smooth hw (Trans.sqrt (meanSquare l x (k + 1)))
  have hW : ∀ k, 0 < ∑ i ∈ Finset.range (k + 2), l ^ i := fun k =>
    Finset.sum_pos (fun i _ => pow_pos hl i) ⟨0, by simp⟩
  have eW : ∑ i ∈ Finset.range (k + 1 + 2), l ^ i = l * (∑ i ∈ Finset.range (k + 2), l ^ i) + 1 := by
    rw [Finset.sum_range_succ' _ (k + 2), Finset.mul_sum]
    simp [pow_succ']
  have e1 : s.expw.smooth (x (k + 1) * x (k + 1))
      = (⟨l, meanSquare l x (k + 1), ∑ i ∈ Finset.range (k + 1 + 2), l ^ i, false⟩,
          meanSquare l x (k + 1)) := by
    have : meanSquare l x (k + 1) = meanSquare l x k *
        (1 - 1 / (l * (∑ i ∈ Finset.range (k + 2), l ^ i) + 1)) +
        1 / (l * (∑ i ∈ Finset.range (k + 2), l ^ i) + 1) * (x (k + 1) * x (k + 1)) := by
      unfold meanSquare
      rw [wpow_succ l (fun i => x i ^ 2), eW, pow_succ' l (k + 1)]
      have h1 := hW k
      have h2 : 0 < l * (∑ i ∈ Finset.range (k + 2), l ^ i) + 1 := by positivity
      generalize ∑ i ∈ Finset.range (k + 2), l ^ i = W at *
      generalize ∑ i ∈ Finset.range (k + 1), l ^ (k - i) * x i ^ 2 = N at *
      field_simp
      ring
    rw [expw_smooth, he]
    dsimp only
    rw [if_neg (by simp), if_neg (by simp), ← this, eW]
  have ep : (push (Trans.sqrt (meanSquare l x (k + 1)))
      ((some fun j => Trans.sqrt (meanSquare l x (k - j))).getD
        fun _ => Trans.sqrt (meanSquare l x (k + 1))))
      = fun j => Trans.sqrt (meanSquare l x (k + 1 - j)) := by
    funext j
    cases j with
    | zero => rfl
    | succ j => simp [push]
  rw [ep] at k1 k2
  have em : mean n (fun j => Trans.sqrt (meanSquare l x (k + 1 - j)))
      = movingMean n (fun k => Trans.sqrt (meanSquare l x k)) (k + 1) := rfl
  refine ⟨⟨_, m', _⟩, ?_, ⟨rfl, k2, rfl⟩⟩
  simp only [Rms.update, fMul, e1, k1, Out.bind_ok, Out.pure_eq, lpf1_smooth, em, hp]
  rw [if_neg (by simp), show estimate Trans.sqrt l a n x (k + 1) = _ from lowPass_succ _ _ _]
  rfl

omit [LinearOrder K] [Field K] [IsStrictOrderedRing K] in
theorem run_append [Arith K] [Trans K] (s : Rms K) (xs ys : List K) : s.run (xs ++ ys) = (do
    let r ← s.run xs
    let q ← r.1.run ys
    pure (q.1, r.2 ++ q.2)) := by
  induction xs generalizing s with
  | nil =>
    simp only [List.nil_append, Rms.run, Out.bind_ok]
    cases s.run ys <;> rfl
  | cons x xs ih =>
    simp only [List.cons_append, Rms.run]
    cases h : s.update x with
    | ok r =>
      simp only [Out.bind_ok, ih]
      cases r.1.run xs with
      | ok q =>
        simp only [Out.bind_ok, Out.pure_eq]
        cases q.1.run ys <;> rfl
      | ub => rfl
      | diverge => rfl
    | ub => rfl
    | diverge => rfl

theorem run_closed [Trans K] (l a m0 w0 y0 : K) (hl : 0 < l) (n : Nat) (x : Nat → K) (m : MWM2 K)
    (hw : WinOk n m none) (k : Nat) :
    ∃ s', (⟨⟨l, m0, w0, true⟩, m, ⟨a, y0, true⟩⟩ : Rms K).run ((List.range (k + 1)).map x)
      = .ok (s', (List.range (k + 1)).map (estimate Trans.sqrt l a n x)) ∧ At l a n x k s' := by
  induction k with
  | zero =>
    obtain ⟨s', h1, h2⟩ := at_zero l a m0 w0 y0 hl n x m hw
    exact ⟨s', by simp [List.range_succ, Rms.run, h1], h2⟩
  | succ k ih =>
    obtain ⟨s', h1, h2⟩ := ih
    obtain ⟨s'', h3, h4⟩ := at_succ hl h2
    refine ⟨s'', ?_, h4⟩
    rw [List.range_succ, List.map_append, List.map_append, run_append, h1]
    simp [Rms.run, h3]

/-- **C84** After an accepted `setup` with a window of `n` samples and an accepted `setParams( l, a )`,
the outputs for the samples `x 0, ..., x k` are the low-pass filtered moving means of the roots of the
exponentially weighted mean squares, for every sequence of samples; in particular there is no undefined
behaviour. -/
theorem C84_closed [Trans K] (s : Rms K) (area : Array K) (n : Nat) (hn : 0 < n) (hs : n ≤ area.size)
    (l a : K) (hl : 0 < l ∧ l ≤ 1) (ha : 0 < a ∧ a ≤ 1) (x : Nat → K) (k : Nat) :
    ∃ s0 s1 s2, s.setup (some area) n = .ok (s0, true) ∧ s0.setParams l a = (s1, true) ∧
      s1.run ((List.range (k + 1)).map x)
        = .ok (s2, (List.range (k + 1)).map (estimate Trans.sqrt l a n x)) := by
  obtain ⟨m, h1, h2⟩ := setup_eq s area n hn hs
  obtain ⟨s2, h3, _⟩ := run_closed l a 0 1 s.lpf1.y1 hl.1 n x m h2 k
  exact ⟨_, _, s2, h1, by simp [Rms.setParams, hl, ha], h3⟩

/-- **C84** The same without `setParams`: the weights are `0.99` and `0.75`. -/
theorem C84_default [Trans K] (s : Rms K) (area : Array K) (n : Nat) (hn : 0 < n) (hs : n ≤ area.size)
    (x : Nat → K) (k : Nat) :
    ∃ s0 s2, s.setup (some area) n = .ok (s0, true) ∧
      s0.run ((List.range (k + 1)).map x)
        = .ok (s2, (List.range (k + 1)).map (estimate Trans.sqrt (99 / 100) (75 / 100) n x)) := by
  obtain ⟨m, h1, h2⟩ := setup_eq s area n hn hs
  obtain ⟨s2, h3, _⟩ := run_closed (99 / 100) (75 / 100) 0 1 s.lpf1.y1 (by norm_num) n x m h2 k
  exact ⟨_, s2, h1, h3⟩

/-! ## Consequences -/

omit [LinearOrder K] [IsStrictOrderedRing K] in
theorem estimate_sign (sqrt : K → K) (l a : K) (n : Nat) (x y : Nat → K) (h : ∀ i, y i = x i ∨ y i = -x i)
    (k : Nat) : estimate sqrt l a n y k = estimate sqrt l a n x k := by
  have : ∀ i, y i ^ 2 = x i ^ 2 := fun i => by rcases h i with h | h <;> rw [h]; ring
  simp only [estimate, meanSquare, this]

theorem estimate_constant {sqrt : K → K} (hsq : IsSqrt sqrt) (l a : K) (hl : 0 < l) (n : Nat) (hn : 0 < n)
    (c : K) (x : Nat → K) (h : ∀ i, |x i| = |c|) (k : Nat) : estimate sqrt l a n x k = |c| := by
  have hx : ∀ i, x i ^ 2 = c * c := fun i => by rw [← sq_abs, h i, sq_abs]; ring
  have hms : ∀ k, meanSquare l x k = c * c := by
    intro k
    unfold meanSquare
    have hW : 0 < ∑ i ∈ Finset.range (k + 2), l ^ i :=
      Finset.sum_pos (fun i _ => pow_pos hl i) ⟨0, by simp⟩
    rw [div_eq_iff hW.ne', Finset.sum_range_succ _ (k + 1), ← Finset.sum_range_reflect _ (k + 1)]
    simp only [hx]
    rw [mul_add, Finset.mul_sum]
    congr 1
    · refine Finset.sum_congr rfl fun i hi => ?_
      rw [Finset.mem_range] at hi
      rw [_root_.mul_comm, show k - (k + 1 - 1 - i) = i by omega]
    · ring
  have hmm : ∀ k, movingMean n (fun k => sqrt (meanSquare l x k)) k = |c| := by
    intro k
    simp only [movingMean, hms, sqrt_sq hsq]
    have : (n : K) ≠ 0 := by exact_mod_cast hn.ne'
    rw [Finset.sum_const, Finset.card_range, nsmul_eq_mul]
    field_simp
  unfold estimate
  induction k with
  | zero =>
    simp only [lowPass, hmm]
    simp
    ring
  | succ k ih => rw [lowPass_succ, ih, hmm]; ring

theorem estimate_scale {sqrt : K → K} (hsq : IsSqrt sqrt) (l a : K) (hl : 0 < l) (n : Nat) (c : K)
    (x : Nat → K) (k : Nat) :
    estimate sqrt l a n (fun i => c * x i) k = |c| * estimate sqrt l a n x k := by
  have hms : ∀ k, sqrt (meanSquare l (fun i => c * x i) k) = |c| * sqrt (meanSquare l x k) := by
    intro k
    have e : meanSquare l (fun i => c * x i) k = c ^ 2 * meanSquare l x k := by
      unfold meanSquare
      rw [← mul_div_assoc, mul_add, Finset.mul_sum]
      congr 2
      · refine Finset.sum_congr rfl fun i _ => by ring
      · ring
    have h0 : 0 ≤ meanSquare l x k := by
      unfold meanSquare
      refine div_nonneg (add_nonneg (Finset.sum_nonneg fun i _ => ?_) ?_)
        (Finset.sum_nonneg fun i _ => ?_) <;> positivity
    have h1 : 0 ≤ c ^ 2 * meanSquare l x k := by positivity
    obtain ⟨p1, p2⟩ := hsq _ h0
    obtain ⟨q1, q2⟩ := hsq _ h1
    rw [e, ← abs_of_nonneg q1, ← abs_of_nonneg (mul_nonneg (abs_nonneg c) p1)]
    refine abs_eq_abs.mpr (mul_self_eq_mul_self_iff.mp ?_)
    rw [q2, mul_mul_mul_comm, p2, abs_mul_abs_self]
    ring
  have hmm : ∀ k, movingMean n (fun k => sqrt (meanSquare l (fun i => c * x i) k)) k
      = |c| * movingMean n (fun k => sqrt (meanSquare l x k)) k := by
    intro k
    simp only [movingMean, hms, ← Finset.mul_sum]
    ring
  unfold estimate
  induction k with
  | zero => simp only [lowPass, hmm]; simp; ring
  | succ k ih => rw [lowPass_succ, lowPass_succ, ih, hmm]; ring

/-- An object set up with a window of `n` samples and the accepted parameters `l`, `a`. -/
def Ready [Trans K] (n : Nat) (l a : K) (s1 : Rms K) : Prop :=
  ∃ (s s0 : Rms K) (area : Array K), 0 < n ∧ n ≤ area.size ∧ s.setup (some area) n = .ok (s0, true) ∧
    s0.setParams l a = (s1, true)

theorem ready_run [Trans K] {n : Nat} {l a : K} {s1 : Rms K} (h : Ready n l a s1) (x : Nat → K)
    (k : Nat) : (0 < n ∧ 0 < l) ∧ ∃ s2, s1.run ((List.range (k + 1)).map x)
        = .ok (s2, (List.range (k + 1)).map (estimate Trans.sqrt l a n x)) := by
  obtain ⟨s, s0, area, hn, hs, h1, h2⟩ := h
  obtain ⟨m, e1, e2⟩ := setup_eq s area n hn hs
  rw [e1] at h1
  cases h1
  unfold Rms.setParams at h2
  split_ifs at h2 with hc
  · simp only [fLit, fLt, fLe, Rat.cast_zero, Rat.cast_one, Bool.and_eq_true,
      decide_eq_true_eq] at hc
    simp only [Prod.mk.injEq, and_true] at h2
    obtain ⟨s2, h3, _⟩ := run_closed l a 0 1 s.lpf1.y1 hc.1.1.1 n x m e2 k
    exact ⟨⟨hn, hc.1.1.1⟩, s2, by rw [← h2]; exact h3⟩
  · simp at h2

/-- **C84** The sign of every sample is irrelevant: signals of the same magnitudes have the same
outputs. -/
theorem C84_sign [Trans K] (n : Nat) (l a : K) (s : Rms K) (hs : Ready n l a s) (x y : Nat → K)
    (h : ∀ i, |y i| = |x i|) (k : Nat) :
    ∃ s1 s2 out, s.run ((List.range (k + 1)).map x) = .ok (s1, out) ∧
      s.run ((List.range (k + 1)).map y) = .ok (s2, out) := by
  obtain ⟨_, s1, h1⟩ := ready_run hs x k
  obtain ⟨_, s2, h2⟩ := ready_run hs y k
  refine ⟨s1, s2, _, h1, ?_⟩
  rw [h2]
  congr 3
  funext k
  exact estimate_sign _ l a n x y (fun i => abs_eq_abs.mp (h i)) k

/-- **C84** The outputs for a signal of constant magnitude `c` (such as a constant or a square wave) are
`|c|` from the first sample on. -/
theorem C84_constant [Trans K] (hsq : IsSqrt (Trans.sqrt : K → K)) (n : Nat) (l a : K) (s : Rms K)
    (hs : Ready n l a s) (c : K) (x : Nat → K) (h : ∀ i, |x i| = |c|) (k : Nat) :
    ∃ s1, s.run ((List.range (k + 1)).map x) = .ok (s1, List.replicate (k + 1) |c|) := by
  obtain ⟨⟨hn, hl⟩, s1, h1⟩ := ready_run hs x k
  refine ⟨s1, ?_⟩
  rw [h1]
  congr 2
  rw [List.eq_replicate_iff]
  refine ⟨by simp, fun b hb => ?_⟩
  obtain ⟨i, _, rfl⟩ := List.mem_map.mp hb
  exact estimate_constant hsq l a hl n hn c x h i

/-- **C84** Scaling the signal by `c` scales the outputs by `|c|`. -/
theorem C84_scale [Trans K] (hsq : IsSqrt (Trans.sqrt : K → K)) (n : Nat) (l a : K) (s : Rms K)
    (hs : Ready n l a s) (c : K) (x : Nat → K) (k : Nat) :
    ∃ s1 s2 out, s.run ((List.range (k + 1)).map x) = .ok (s1, out) ∧
      s.run ((List.range (k + 1)).map fun i => c * x i) = .ok (s2, out.map fun y => |c| * y) := by
  obtain ⟨⟨hn, hl⟩, s1, h1⟩ := ready_run hs x k
  obtain ⟨_, s2, h2⟩ := ready_run hs (fun i => c * x i) k
  refine ⟨s1, s2, _, h1, ?_⟩
  rw [h2, List.map_map]
  congr 3
  funext k
  exact estimate_scale hsq l a hl n c x k

end

/-! ## Decision logic and defects -/

section Any
variable {R : Type} [Arith R]

/-- **C84** `setup` accepts exactly a window that is not null and has a positive size, and leaves the
object alone otherwise (any arithmetic; windows have `wsize` cells). -/
theorem C84_setup_accepts (s : Rms R) (w : Option (Array R)) (n : Nat)
    (hs : ∀ area, w = some area → n ≤ area.size) :
    ∃ s' b, s.setup w n = .ok (s', b) ∧ (b = true ↔ w.isSome ∧ 0 < n) ∧ (b = false → s' = s) := by
  cases w with
  | none => exact ⟨s, false, rfl, by simp, by simp⟩
  | some area =>
    by_cases hn : 0 < n
    · obtain ⟨t, ht, _, _⟩ := Tdl.inv_setup s.mwm2.tdl.undef area n (lit 0) hn (hs _ rfl)
      refine ⟨⟨(s.expw.setup (lit (99 / 100))).1, { s.mwm2 with tdl := t, init := true },
          (s.lpf1.setup (lit (75 / 100))).1⟩, true, ?_, by simp [hn], by simp⟩
      simp [Rms.setup, MWM2.setup, hn, ht]
    · exact ⟨s, false, by simp [Rms.setup, hn], by simp [hn], by simp⟩

/-- **C85** (partial: the documentation excludes `a = 1`) `setParams` accepts exactly `0 < l ≤ 1` and `0 < a ≤ 1`, a rejected call changes nothing and an
accepted one changes only the two parameters (any arithmetic). -/
theorem C85_setParams_partial (s : Rms R) (l a : R) :
    ((s.setParams l a).2 = true ↔ (lit 0 <. l) = true ∧ (l ≤. lit 1) = true ∧ (lit 0 <. a) = true ∧
      (a ≤. lit 1) = true) ∧
    ((s.setParams l a).2 = false → (s.setParams l a).1 = s) ∧
    ((s.setParams l a).2 = true → (s.setParams l a).1 =
      ⟨⟨l, s.expw.m, s.expw.w, s.expw.init⟩, s.mwm2, ⟨a, s.lpf1.y1, s.lpf1.init⟩⟩) := by
  unfold Rms.setParams
  split_ifs with h
  · simp only [Bool.and_eq_true] at h
    simp [h]
  · simp only [Bool.and_eq_true] at h
    refine ⟨?_, by simp, by simp⟩
    constructor
    · simp
    · rintro ⟨h1, h2, h3, h4⟩; exact absurd ⟨⟨⟨h1, h2⟩, h3⟩, h4⟩ h

/-- **C84** Without `setup` the first update has undefined behaviour (any arithmetic): the delay line has
no storage. -/
theorem C84_no_setup [Trans R] (undef x : R) : (Rms.new undef).update x = .ub := by
  simp [Rms.update, Rms.new, MWM2.smooth, Tdl.flush]

end Any

section Frozen
variable {K : Type} [Field K] [LinearOrder K] [IsStrictOrderedRing K]

omit [IsStrictOrderedRing K] in
/-- One update with `alpha = 1` after the first: the output is the previous one. -/
theorem frozen_update [Trans K] {s s' : Rms K} {y : K} {x : K} (ha : s.lpf1.alpha = 1)
    (hi : s.lpf1.init = false) (h : s.update x = .ok (s', y)) :
    y = s.lpf1.y1 ∧ s'.lpf1 = s.lpf1 := by
  unfold Rms.update at h
  dsimp only at h
  rw [Out.bind_eq_ok] at h
  obtain ⟨m, _, h⟩ := h
  rw [Out.pure_eq, Out.ok.injEq, Prod.mk.injEq, lpf1_smooth] at h
  obtain ⟨h1, h2⟩ := h
  rw [← h1, ← h2]
  obtain ⟨e, m', ⟨al, y1, i⟩⟩ := s
  dsimp only at ha hi ⊢
  subst ha hi
  simp

omit [IsStrictOrderedRing K] in
/-- **C85** (defect) `setParams( l, 1 )` is accepted and stops the estimator: after it, once the filter has
a value, every later output equals that value whatever the samples are. The documentation asks for
`a < 1`, the code tests `a <= 1`. -/
theorem C85_frozen_false [Trans K] (s s' s'' : Rms K) (l : K) (hl : s.setParams l 1 = (s', true))
    (hi : s.lpf1.init = false) (xs ys : List K) (h : s'.run xs = .ok (s'', ys)) :
    ∀ y ∈ ys, y = s.lpf1.y1 := by
  have h0 : s'.lpf1 = ⟨1, s.lpf1.y1, false⟩ := by
    have := (C85_setParams_partial s l 1).2.2
    rw [hl] at this
    have e : s' = _ := this rfl
    rw [e, hi]
  generalize s.lpf1.y1 = c at *
  clear hl
  induction xs generalizing s' ys with
  | nil => cases h; simp
  | cons x xs ih =>
    rw [Rms.run, Out.bind_eq_ok] at h
    obtain ⟨r, h1, h⟩ := h
    rw [Out.bind_eq_ok] at h
    obtain ⟨q, h2, h⟩ := h
    rw [Out.pure_eq, Out.ok.injEq, Prod.mk.injEq] at h
    obtain ⟨h3, h4⟩ := h
    obtain ⟨f1, f2⟩ := frozen_update (by rw [h0]) (by rw [h0]) h1
    rw [h0] at f1 f2
    rw [← h4]
    intro y hy
    rcases List.mem_cons.mp hy with rfl | hy
    · exact f1
    · exact ih r.1 q.2 (by rw [h2, ← h3]) f2 y hy

end Frozen

-- the hypothesis `IsSqrt` holds for the real square root
example : IsSqrt (Real.sqrt) := fun x h => ⟨Real.sqrt_nonneg x, Real.mul_self_sqrt h⟩

/-- A square root on a few rationals, for the examples. Not a definition of the repository. -/
local instance : Trans ℚ where
  exp := id
  log := id
  sqrt x := if x = 9 then 3 else if x = 16 then 4 else 0
  sin := id
  cos := id
  tanh := id
  pow x _ := x

-- a square wave of amplitude 3 with a window of 2 samples
example : (do
    let s ← (Rms.new (0 : ℚ)).setup (some #[0, 0]) 2
    let r ← s.1.run [3, -3, 3, 3]
    pure r.2) = .ok [3, 3, 3, 3] := by decide +kernel

-- frozen: after `setParams( 1, 1 )` a jump of the signal has no effect
example : (do
    let s ← (Rms.new (0 : ℚ)).setup (some #[0, 0]) 2
    let r ← s.1.run [3, -3]
    let q ← (r.1.setParams 1 1).1.run [100, 100, 100]
    pure q.2) = .ok [3, 3, 3] := by decide +kernel

end Verif.Rms
