import Verif.Ltisys.Model
import Verif.Tdl.Lemmas
import Mathlib.Algebra.BigOperators.Ring.Finset
import Mathlib.Data.List.GetD

/-!
# Properties C48, C49, C50, C62: discrete systems, transport delay, saturation
-/

namespace Verif.Ltisys

open Arith

/-! ## Sequences -/

section Seq
variable {α : Type}

/-- `at' d l k i`: the element `k - i` of `l`, and `d` before the first element. -/
def at' (d : α) (l : List α) (k i : Nat) : α := if i ≤ k then l.getD (k - i) d else d

theorem at'_snoc_lt (d : α) (l : List α) (a : α) (k i : Nat) (hk : k < l.length) :
    at' d (l ++ [a]) k i = at' d l k i := by
  unfold at'
  split_ifs with h
  · rw [List.getD_append _ _ _ _ (by omega)]
  · rfl

theorem at'_snoc (d : α) (l : List α) (a : α) :
    (fun i => at' d (l ++ [a]) l.length i) = push a (fun i => at' d l (l.length - 1) i) := by
  funext i
  cases i with
  | zero => simp [at', push]
  | succ i =>
    unfold at' push
    dsimp only
    by_cases h : i + 1 ≤ l.length
    · rw [if_pos h, if_pos (by omega), List.getD_append _ _ _ _ (by omega)]
      congr 1; omega
    · rw [if_neg h]
      split_ifs with h'
      · have : l = [] := by
          cases l with
          | nil => rfl
          | cons b l => simp at h h'; omega
        subst this; simp
      · rfl

/-- Feeds a list of inputs to a state machine and collects the outputs. -/
def feedAll {S : Type} (f : S → α → Out (S × α)) : S → List α → Out (S × List α)
  | s, [] => .ok (s, [])
  | s, u :: us => do
    let (s, y) ← f s u
    let (s, ys) ← feedAll f s us
    pure (s, y :: ys)

theorem feedAll_cons_ok {S : Type} {f : S → α → Out (S × α)} {s s' : S} {u y : α}
    (h : f s u = .ok (s', y)) (us : List α) : Prod.snd <$> feedAll f s (u :: us)
      = (y :: ·) <$> (Prod.snd <$> feedAll f s' us) := by
  rw [feedAll, h, Out.bind_ok]
  dsimp only
  cases feedAll f s' us <;> rfl

theorem feedAll_snoc {S : Type} (f : S → α → Out (S × α)) (us : List α) (u : α) (s s1 s2 : S)
    (ys : List α) (y : α) (h1 : feedAll f s us = .ok (s1, ys)) (h2 : f s1 u = .ok (s2, y)) :
    feedAll f s (us ++ [u]) = .ok (s2, ys ++ [y]) := by
  induction us generalizing s ys with
  | nil =>
    simp only [feedAll, Out.ok.injEq, Prod.mk.injEq] at h1
    obtain ⟨rfl, rfl⟩ := h1
    simp [feedAll, h2]
  | cons v us ih =>
    rw [feedAll] at h1
    obtain ⟨⟨s3, y3⟩, h3, h1⟩ := Out.bind_eq_ok.mp h1
    obtain ⟨⟨s4, ys4⟩, h4, h1⟩ := Out.bind_eq_ok.mp h1
    simp only [Out.pure_eq, Out.ok.injEq, Prod.mk.injEq] at h1
    obtain ⟨rfl, rfl⟩ := h1
    rw [List.cons_append, feedAll, h3, Out.bind_ok]
    dsimp only
    rw [ih s3 ys4 h4]
    rfl

end Seq

/-! ## C48: difference equation -/

section Diff
variable {K : Type} [Field K] [LinearOrder K]

theorem divLoop_ok (a0 : K) (k i : Nat) (v : Array K) (h : i + k ≤ v.size) :
    ∃ v', divLoop a0 k i v = .ok v' ∧ v'.size = v.size ∧
      (∀ j, i ≤ j → j < i + k → rdArr v' j = .ok (v.getD j 0 / a0)) ∧
      (∀ j, (j < i ∨ i + k ≤ j) → rdArr v' j = rdArr v j) := by
  induction k generalizing i v with
  | zero => exact ⟨v, rfl, rfl, by intros; omega, fun _ _ => rfl⟩
  | succ k ih =>
    have hi : i < v.size := by omega
    obtain ⟨v', h1, h2, h3, h4⟩ := ih (i + 1) (v.set i (v[i] / a0)) (by simp; omega)
    refine ⟨v', ?_, by simpa using h2, fun j hj hj' => ?_, fun j hj => ?_⟩
    · rw [divLoop, rdArr_ok hi, Out.bind_ok, fDiv, wrArr_ok hi, Out.bind_ok, h1]
    · by_cases e : i = j
      · subst e
        rw [h4 i (.inl (by omega)), rdArr_set hi, if_pos rfl]
        simp [Array.getD, hi]
      · rw [h3 j (by omega) (by omega)]
        have hj'' : j < v.size := by omega
        simp [Array.getD, hj'', e]
    · rw [h4 j (by omega), rdArr_set hi, if_neg (by omega)]

theorem divLoop_ub (a0 : K) (k i : Nat) (v : Array K) (h : v.size < i + k) (hi : i ≤ v.size) :
    divLoop a0 k i v = .ub := by
  induction k generalizing i v with
  | zero => omega
  | succ k ih =>
    rw [divLoop]
    by_cases hi' : i < v.size
    · rw [rdArr_ok hi', Out.bind_ok, wrArr_ok hi', Out.bind_ok]
      exact ih (i + 1) _ (by simp; omega) (by simp; omega)
    · have : rdArr v i = .ub := by unfold rdArr; rw [dif_neg hi']
      rw [this]; rfl

theorem zeroLoop_ok (k i : Nat) (x : Array K) (h : i + k ≤ x.size)
    (hp : ∀ j, j < i → rdArr x j = .ok 0) :
    ∃ x', zeroLoop k i x = .ok x' ∧ x'.size = x.size ∧ (∀ j, j < i + k → rdArr x' j = .ok 0) := by
  induction k generalizing i x with
  | zero => exact ⟨x, rfl, rfl, by simpa using hp⟩
  | succ k ih =>
    have hi : i < x.size := by omega
    obtain ⟨x', h1, h2, h3⟩ := ih (i + 1) (x.set i 0) (by simp; omega) (by
      intro j hj
      rw [rdArr_set hi]
      split_ifs with e
      · rfl
      · exact hp j (by omega))
    refine ⟨x', ?_, by simpa using h2, fun j hj => h3 j (by omega)⟩
    rw [zeroLoop, fLit, Rat.cast_zero, wrArr_ok hi, Out.bind_ok, h1]

theorem feedbackLoop_ok (den xd : Array K) (a h : Nat → K) (k i : Nat) (v : K)
    (ha : ∀ j, i ≤ j → j < i + k → rdArr den (j + 1) = .ok (a (j + 1)))
    (hx : ∀ j, i ≤ j → j < i + k → rdArr xd j = .ok (h j)) :
    feedbackLoop den xd k i v = .ok (v - ∑ j ∈ Finset.range k, a (i + j + 1) * h (i + j)) := by
  induction k generalizing i v with
  | zero => simp [feedbackLoop]
  | succ k ih =>
    rw [feedbackLoop, ha i le_rfl (by omega), Out.bind_ok, hx i le_rfl (by omega), Out.bind_ok,
      ih (i + 1) _ (fun j h1 h2 => ha j (by omega) (by omega))
        (fun j h1 h2 => hx j (by omega) (by omega)), Finset.sum_range_succ']
    simp only [fSub, fMul, Nat.add_zero]
    have : ∀ j, i + 1 + j = i + (j + 1) := by intro j; omega
    simp only [this]
    congr 1
    ring

/-- Invariant of a discrete system of `m` coefficients `a' = a / a0`, `b' = b / a0` with the past
inputs `U` and outputs `Y` (newest first): the internal history `V` satisfies both equations of the
direct form 2. -/
structure DInv (m : Nat) (a' b' : Nat → K) (lo hi : K) (U Y : Nat → K) (s : DSys K) : Prop where
  n_eq : s.n = m
  na_eq : s.na + 1 = m
  disc : s.discrete = true
  nodelay : s.delay = none
  lo_eq : s.min = lo
  hi_eq : s.max = hi
  num_ok : Holds s.num m b'
  den_ok : Holds s.den m a'
  ex : ∃ xd V, s.xd = some xd ∧ Holds xd m V ∧
    (∀ j, ∑ i ∈ Finset.range m, a' i * V (j + i) = U j) ∧
    (∀ j, Y j = ∑ i ∈ Finset.range m, b' i * V (j + i))

theorem DInv.step {m : Nat} {a' b' : Nat → K} {lo hi : K} {U Y : Nat → K} {s : DSys K}
    (ha0 : a' 0 = 1) (h : DInv m a' b' lo hi U Y s) (u : K) :
    ∃ s' y, s.excite u = .ok (s', saturate y lo hi) ∧ DInv m a' b' lo hi (push u U) (push y Y) s' := by
  obtain ⟨h1, h2, h3, h4, h5, h6, h7, h8, xd, V, e1, e2, e3, e4⟩ := h
  have hm : 0 < m := by omega
  have hf := feedbackLoop_ok s.den xd a' V s.na 0 u
    (fun j _ hj => h8.2 (j + 1) (by omega)) (fun j _ hj => e2.2 j (by omega))
  simp only [Nat.zero_add] at hf
  generalize hv : u - ∑ j ∈ Finset.range s.na, a' (j + 1) * V j = v at hf
  obtain ⟨xd', k1, k2, k3, _⟩ := updateFIR_sum xd m v (some s.num) b' V hm e2
    (by intro a ha; cases ha; exact h7) (by simp)
  refine ⟨{ s with delay := none, xd := some xd' }, ∑ j ∈ Finset.range m, b' j * push v V j, ?_,
    h1, h2, h3, rfl, h5, h6, h7, h8, xd', push v V, rfl, k3, fun j => ?_, fun j => ?_⟩
  · unfold DSys.excite DSys.isInitialized DSys.update
    simp only [e1, h3, Option.isSome_some, Bool.and_self, if_true, h4, delayInput, Out.pure_eq,
      Out.bind_ok, hf, h1, k1, h5, h6]
  · cases j with
    | zero =>
      rw [← h2, Finset.sum_range_succ']
      simp only [Nat.zero_add, Nat.add_zero]
      rw [show push v V 0 = v from rfl, show push u U 0 = u from rfl, ha0, one_mul, ← hv]
      simp only [push]
      ring
    | succ j =>
      rw [show push u U (j + 1) = U j from rfl, ← e3 j]
      refine Finset.sum_congr rfl fun i _ => ?_
      have : j + 1 + i = (j + i) + 1 := by omega
      rw [this]; rfl
  · cases j with
    | zero => simp [push]
    | succ j =>
      rw [show push (∑ j ∈ Finset.range m, b' j * push v V j) Y (j + 1) = Y j from rfl, e4 j]
      refine Finset.sum_congr rfl fun i _ => ?_
      have : j + 1 + i = (j + i) + 1 := by omega
      rw [this]; rfl

omit [LinearOrder K] in
theorem DInv.equation {m : Nat} {a' b' : Nat → K} {lo hi : K} {U Y : Nat → K} {s : DSys K}
    (h : DInv m a' b' lo hi U Y s) :
    ∑ i ∈ Finset.range m, a' i * Y i = ∑ i ∈ Finset.range m, b' i * U i := by
  obtain ⟨xd, V, _, _, e3, e4⟩ := h.ex
  calc ∑ i ∈ Finset.range m, a' i * Y i
      = ∑ i ∈ Finset.range m, ∑ j ∈ Finset.range m, a' i * (b' j * V (i + j)) := by
        refine Finset.sum_congr rfl fun i _ => ?_
        rw [e4 i, Finset.mul_sum]
    _ = ∑ j ∈ Finset.range m, ∑ i ∈ Finset.range m, a' i * (b' j * V (i + j)) := Finset.sum_comm
    _ = ∑ j ∈ Finset.range m, b' j * U j := by
        refine Finset.sum_congr rfl fun j _ => ?_
        rw [← e3 j, Finset.mul_sum]
        refine Finset.sum_congr rfl fun i _ => ?_
        rw [Nat.add_comm i j]; ring

theorem setup_ok (s : DSys K) (num den x : Array K) (m : Nat) (hm : 0 < m)
    (hnum : num.size = m) (hden : den.size = m) (hx : m ≤ x.size) (hd : s.delay = none) :
    ∃ s0, s.setup (some num) (some den) (some x) m m = .ok (s0, true) ∧
      DInv m (fun i => den.getD i 0 / den.getD 0 0) (fun i => num.getD i 0 / den.getD 0 0) s.min s.max
        (fun _ => 0) (fun _ => 0) s0 := by
  have hd0 : rdArr den 0 = .ok (den.getD 0 0) := by
    rw [rdArr_ok (by omega : 0 < den.size)]
    simp [Array.getD, show 0 < den.size by omega]
  obtain ⟨num', a1, a2, a3, _⟩ := divLoop_ok (den.getD 0 0) m 0 num (by omega)
  obtain ⟨den', b1, b2, b3, _⟩ := divLoop_ok (den.getD 0 0) m 0 den (by omega)
  obtain ⟨x', c1, c2, c3⟩ := zeroLoop_ok m 0 x (by omega) (by intros; omega)
  refine ⟨{ s with num := num', den := den', xd := some x', n := m, na := m - 1, nb := m,
                   b0 := num.getD 0 0 / den.getD 0 0, discrete := true }, ?_, ?_⟩
  · unfold DSys.setup normalize
    simp only [hm, gt_iff_lt, if_true, hm.ne', if_false, hd0, Out.bind_ok, a1, b1,
      a3 0 le_rfl (by omega), Out.pure_eq, DSys.setInitStates]
    rw [if_neg (by omega : ¬ m < m - 1), c1]
    rfl
  · refine ⟨rfl, by simp only []; omega, rfl, hd, rfl, rfl, ⟨by simp only []; omega, ?_⟩,
      ⟨by simp only []; omega, ?_⟩, x', fun _ => 0, rfl, ⟨by omega, ?_⟩, by simp, by simp⟩
    · intro i hi; exact a3 i (by omega) (by omega)
    · intro i hi; exact b3 i (by omega) (by omega)
    · intro i hi; exact c3 i (by omega)

/-- **C48** (partial: numerator and denominator of the same length, no input delay) for every input
sequence the outputs of `excite` are the saturated values of a sequence that satisfies the difference
equation with zero initial conditions. See `C48_unequal_false`, `C48_saturation_false`. -/
theorem C48_difference_partial (s : DSys K) (num den x : Array K) (m : Nat) (hm : 0 < m)
    (hnum : num.size = m) (hden : den.size = m) (hx : m ≤ x.size) (ha0 : den.getD 0 0 ≠ 0)
    (hd : s.delay = none) :
    ∃ s0, s.setup (some num) (some den) (some x) m m = .ok (s0, true) ∧ ∀ us : List K,
      ∃ s' ys, feedAll DSys.excite s0 us = .ok (s', ys.map (saturate · s.min s.max)) ∧
        ys.length = us.length ∧ ∀ k, k < us.length →
          ∑ i ∈ Finset.range m, den.getD i 0 * at' 0 ys k i
            = ∑ i ∈ Finset.range m, num.getD i 0 * at' 0 us k i := by
  obtain ⟨s0, h1, h2⟩ := setup_ok s num den x m hm hnum hden hx hd
  refine ⟨s0, h1, fun us => ?_⟩
  suffices ∃ s' ys, feedAll DSys.excite s0 us = .ok (s', ys.map (saturate · s.min s.max)) ∧
        ys.length = us.length ∧ (∀ k, k < us.length →
          ∑ i ∈ Finset.range m, den.getD i 0 * at' 0 ys k i
            = ∑ i ∈ Finset.range m, num.getD i 0 * at' 0 us k i) ∧
        DInv m (fun i => den.getD i 0 / den.getD 0 0) (fun i => num.getD i 0 / den.getD 0 0) s.min s.max
          (fun i => at' 0 us (us.length - 1) i) (fun i => at' 0 ys (us.length - 1) i) s' by
    obtain ⟨s', ys, k1, k2, k3, _⟩ := this
    exact ⟨s', ys, k1, k2, k3⟩
  induction us using List.reverseRecOn with
  | nil =>
    refine ⟨s0, [], rfl, rfl, by simp, ?_⟩
    have : (fun i => at' (0 : K) [] (([] : List K).length - 1) i) = fun _ => 0 := by
      funext i; simp [at']
    rw [this]; exact h2
  | append_singleton us u ih =>
    obtain ⟨s', ys, k1, k2, k3, k4⟩ := ih
    obtain ⟨s'', y, e1, e2⟩ := k4.step (div_self ha0) u
    rw [← at'_snoc] at e2
    rw [← k2, ← at'_snoc, k2] at e2
    refine ⟨s'', ys ++ [y], ?_, by simp [k2], ?_, ?_⟩
    · rw [List.map_append]
      exact feedAll_snoc _ us u s0 s' s'' _ _ k1 e1
    · intro k hk
      rw [List.length_append, List.length_singleton] at hk
      by_cases hk' : k < us.length
      · have := k3 k hk'
        simp only [at'_snoc_lt 0 us u k _ hk', at'_snoc_lt 0 ys y k _ (k2 ▸ hk')]
        exact this
      · obtain rfl : k = us.length := by omega
        have := e2.equation
        calc ∑ i ∈ Finset.range m, den.getD i 0 * at' 0 (ys ++ [y]) us.length i
            = den.getD 0 0 * ∑ i ∈ Finset.range m,
                den.getD i 0 / den.getD 0 0 * at' 0 (ys ++ [y]) us.length i := by
              rw [Finset.mul_sum]
              refine Finset.sum_congr rfl fun i _ => ?_
              field_simp
          _ = _ := by
              rw [this, Finset.mul_sum]
              refine Finset.sum_congr rfl fun i _ => ?_
              field_simp
    · simpa using e2

/-- **C48 is false of the code for numerators and denominators of different lengths**: `setup` reads
outside one of the arrays. -/
theorem C48_unequal_false (s : DSys K) (num den x : Array K) (hb : 0 < num.size) (ha : 0 < den.size)
    (hne : num.size ≠ den.size) :
    s.setup (some num) (some den) (some x) num.size den.size = .ub := by
  unfold DSys.setup normalize
  simp only [hb, gt_iff_lt, if_true, ha.ne', if_false, rdArr_ok ha, Out.bind_ok]
  by_cases h : num.size < den.size
  · rw [divLoop_ub _ _ 0 num (by omega) (by omega)]; rfl
  · obtain ⟨num', a1, a2, a3, _⟩ := divLoop_ok den[0] den.size 0 num (by omega)
    rw [a1, Out.bind_ok, divLoop_ub _ _ 0 den (by omega) (by omega)]; rfl

end Diff

/-- **C48 is false of the code with the default output limits**: a new system is limited to
`[FLT_MIN, FLT_MAX]`, so negative and zero outputs are clipped. Witness: the identity system answers
`FLT_MIN` to `-1`. -/
theorem C48_saturation_false :
    ∃ s0 : DSys ℚ, DSys.new.setup (some #[1]) (some #[1]) (some #[0]) 1 1 = .ok (s0, true) ∧
      Prod.snd <$> s0.excite (-1) = .ok (1 / 2 ^ 126) :=
  ⟨{ DSys.new with num := #[1], den := #[1], xd := some #[0], n := 1, na := 0, nb := 1, b0 := 1,
                   discrete := true }, by decide +kernel, by decide +kernel⟩

-- C48: y[k] = (u[k] + u[k-1] - y[k-1]) / 2 from new limits
example : ∃ s0 : DSys ℚ,
    ({ DSys.new with min := -100, max := 100 } : DSys ℚ).setup (some #[1, 1]) (some #[2, 1])
      (some #[9, 9]) 2 2 = .ok (s0, true) ∧
    Prod.snd <$> feedAll DSys.excite s0 [2, 4, -6] = .ok [1, 5 / 2, -9 / 4] :=
  ⟨{ DSys.new with num := #[1 / 2, 1 / 2], den := #[1, 1 / 2], xd := some #[0, 0], n := 2, na := 1,
                   nb := 2, b0 := 1 / 2, min := -100, max := 100, discrete := true },
    by decide +kernel, by decide +kernel⟩

/-! ## C49: transport delay -/

section Delay
variable {R : Type} [Arith R]

omit [Arith R] in
theorem tdl_feed (area : Array R) (n : Nat) (v : R) (t : Tdl.Tdl R) (us : List R)
    (h : Tdl.Inv area n (fun i => at' v us (us.length - 1) i) t) (u : R) :
    ∃ t', Tdl.insertSample t u = .ok t' ∧
      Tdl.Inv area n (fun i => at' v (us ++ [u]) ((us ++ [u]).length - 1) i) t' := by
  obtain ⟨t', k1, _, k3⟩ := Tdl.inv_insert h u
  have e : Tdl.Spec.step (fun i => at' v us (us.length - 1) i) (.insert u)
      = push u (fun i => at' v us (us.length - 1) i) := by
    funext i; cases i <;> rfl
  rw [e, ← at'_snoc] at k3
  exact ⟨t', k1, by simpa using k3⟩

omit [Arith R] in
/-- **C49** `transportDelay< N >` returns the input of `N` calls ago, and the initial value during the
first `N` calls, whatever its buffer contained. -/
theorem C49_transportDelay (undef v : R) (N : Nat) (buf : Array R) (hb : buf.size = N + 1) :
    ∃ t0, transportDelayNew undef buf N v = .ok t0 ∧ ∀ us : List R,
      ∃ t' ys, feedAll transportDelayCall t0 us = .ok (t', ys) ∧ ys.length = us.length ∧
        ∀ k, k < us.length → ys.getD k v = if k < N then v else us.getD (k - N) v := by
  obtain ⟨t0, h1, _, h2⟩ := Tdl.inv_setup undef buf (N + 1) v (by omega) (by omega)
  refine ⟨t0, h1, fun us => ?_⟩
  suffices ∃ t' ys, feedAll transportDelayCall t0 us = .ok (t', ys) ∧ ys.length = us.length ∧
        (∀ k, k < us.length → ys.getD k v = if k < N then v else us.getD (k - N) v) ∧
        Tdl.Inv buf (N + 1) (fun i => at' v us (us.length - 1) i) t' by
    obtain ⟨s', ys, k1, k2, k3, _⟩ := this
    exact ⟨s', ys, k1, k2, k3⟩
  induction us using List.reverseRecOn with
  | nil =>
    refine ⟨t0, [], rfl, rfl, by simp, ?_⟩
    have : (fun i => at' v [] (([] : List R).length - 1) i) = fun _ => v := by
      funext i; simp [at']
    rw [this]; exact h2
  | append_singleton us u ih =>
    obtain ⟨t', ys, k1, k2, k3, k4⟩ := ih
    obtain ⟨t'', e1, e2⟩ := tdl_feed buf (N + 1) v t' us k4 u
    have e3 := Tdl.oldest_of_inv e2
    refine ⟨t'', ys ++ [at' v (us ++ [u]) us.length N], ?_, by simp [k2], ?_, e2⟩
    · refine feedAll_snoc _ us u t0 t' t'' _ _ k1 ?_
      unfold transportDelayCall
      rw [e1, Out.bind_ok, e3]
      simp
    · intro k hk
      rw [List.length_append, List.length_singleton] at hk
      by_cases hk' : k < us.length
      · rw [List.getD_append _ _ _ _ (by omega), k3 k hk']
        split_ifs with h
        · rfl
        · rw [List.getD_append _ _ _ _ (by omega)]
      · obtain rfl : k = us.length := by omega
        rw [List.getD_append_right _ _ _ _ (by omega), k2]
        simp only [Nat.sub_self, List.getD_cons_zero, at']
        by_cases h : us.length < N
        · rw [if_neg (by omega), if_pos h]
        · rw [if_pos (by omega), if_neg h]

-- C49: a delay of 2
example : ∃ t0, transportDelayNew (0 : ℚ) #[9, 9, 9] 2 7 = .ok t0 ∧
    Prod.snd <$> feedAll transportDelayCall t0 [1, 2, 3, 4] = .ok [7, 7, 1, 2] :=
  ⟨⟨#[7, 7, 7], 3, 2, 0, 0⟩, by decide +kernel, by decide +kernel⟩

omit [Arith R] in
theorem at'_append (d : R) (l l' : List R) (k i : Nat) (hk : k < l.length) :
    at' d (l ++ l') k i = at' d l k i := by
  unfold at'
  split_ifs with h
  · rw [List.getD_append _ _ _ _ (by omega)]
  · rfl

/-- A machine with an input delay. -/
def withDelay {S : Type} (upd : S → R → Out (S × R)) (p : S × Option (Tdl.Tdl R)) (u : R) :
    Out ((S × Option (Tdl.Tdl R)) × R) := do
  let (t, u) ← delayInput p.2 u
  let (s, y) ← upd p.1 u
  pure ((s, t), y)

omit [Arith R] in
/-- A machine with an input delay, fed with `us` after `us0`, behaves like the machine without delay fed
with the delayed inputs. -/
theorem feed_delayed {S : Type} (upd : S → R → Out (S × R)) (w : Array R) (nD : Nat) (v : R)
    (us us0 : List R) (s : S) (t : Tdl.Tdl R)
    (ht : Tdl.Inv w nD (fun i => at' v us0 (us0.length - 1) i) t) :
    Prod.snd <$> feedAll (withDelay upd) (s, some t) us
      = Prod.snd <$> feedAll upd s ((List.range us.length).map fun k =>
          at' v (us0 ++ us) (us0.length + k) (nD - 1)) := by
  induction us generalizing us0 s t with
  | nil => rfl
  | cons u us ih =>
    obtain ⟨t', e1, e2⟩ := tdl_feed w nD v t us0 ht u
    have e3 := Tdl.oldest_of_inv e2
    have hu : at' v (us0 ++ [u]) ((us0 ++ [u]).length - 1) (nD - 1)
        = at' v (us0 ++ u :: us) (us0.length + 0) (nD - 1) := by
      have : us0 ++ u :: us = (us0 ++ [u]) ++ us := by simp
      rw [this, at'_append v _ us _ _ (by simp)]
      simp
    rw [hu] at e3
    rw [List.length_cons, List.range_succ_eq_map, List.map_cons]
    have e4 : withDelay upd (s, some t) u = (do
        let (s, y) ← upd s (at' v (us0 ++ u :: us) (us0.length + 0) (nD - 1))
        pure ((s, some t'), y)) := by
      simp only [withDelay, delayInput, e1, e3, Out.bind_ok, Out.pure_eq]
    cases hup : upd s (at' v (us0 ++ u :: us) (us0.length + 0) (nD - 1)) with
    | ub => rw [feedAll, feedAll, e4, hup]; rfl
    | diverge => rw [feedAll, feedAll, e4, hup]; rfl
    | ok r =>
      obtain ⟨s', y⟩ := r
      rw [hup, Out.bind_ok] at e4
      rw [feedAll_cons_ok e4, feedAll_cons_ok hup, ih (us0 ++ [u]) s' t' e2]
      congr 3
      rw [List.map_map]
      refine List.map_congr_left fun k _ => ?_
      simp only [Function.comp, Nat.succ_eq_add_one, List.append_assoc, List.singleton_append,
        List.length_append, List.length_singleton]
      congr 1; omega

omit [Arith R] in
/-- Machines related by a bisimulation have the same outputs. -/
theorem feed_bisim {S T : Type} (f : S → R → Out (S × R)) (g : T → R → Out (T × R)) (φ : S → T)
    (P : S → Prop)
    (h : ∀ s u, P s → g (φ s) u = (fun r => (φ r.1, r.2)) <$> f s u ∧
      ∀ s' y, f s u = .ok (s', y) → P s')
    (us : List R) (s : S) (hs : P s) : Prod.snd <$> feedAll f s us = Prod.snd <$> feedAll g (φ s) us := by
  induction us generalizing s with
  | nil => rfl
  | cons u us ih =>
    obtain ⟨h1, h2⟩ := h s u hs
    cases hf : f s u with
    | ub => rw [hf] at h1; rw [feedAll, feedAll, h1, hf]; rfl
    | diverge => rw [hf] at h1; rw [feedAll, feedAll, h1, hf]; rfl
    | ok r =>
      obtain ⟨s', y⟩ := r
      rw [hf] at h1
      rw [feedAll_cons_ok hf, feedAll_cons_ok h1, ih s' (h2 s' y hf)]

theorem DSys.update_delay (s : DSys R) (d : Option (Tdl.Tdl R)) (u : R) :
    { s with delay := d }.update u = (fun r => ({ r.1 with delay := d }, r.2)) <$> s.update u := by
  unfold DSys.update
  dsimp only
  cases s.xd with
  | none => rfl
  | some xd =>
    dsimp only
    cases feedbackLoop s.den xd s.na 0 u with
    | ub => rfl
    | diverge => rfl
    | ok v =>
      simp only [Out.bind_ok]
      cases updateFIR xd s.n v (some s.num) <;> rfl

theorem DSys.update_kept {s s' : DSys R} {u y : R} (h : s.update u = .ok (s', y)) :
    s'.isInitialized = s.isInitialized ∧ s'.min = s.min ∧ s'.max = s.max ∧ s'.delay = s.delay ∧
      s'.n = s.n := by
  unfold DSys.update at h
  cases hx : s.xd with
  | none => rw [hx] at h; cases h
  | some xd =>
    rw [hx] at h
    obtain ⟨v, _, h⟩ := Out.bind_eq_ok.mp h
    obtain ⟨r, _, h⟩ := Out.bind_eq_ok.mp h
    simp only [Out.pure_eq, Out.ok.injEq, Prod.mk.injEq] at h
    rw [← h.1]
    simp [DSys.isInitialized, hx]

/-- **C62** (discrete systems) an input delay set with a window of `nD ≥ 1` cells delays the input by
`nD - 1` samples (the initial value first): the outputs are those of the system without delay on the
delayed inputs, undefined behaviour included. -/
theorem C62_discrete_delay (s : DSys R) (hi : s.isInitialized = true) (undef v : R) (w : Array R)
    (nD : Nat) (hn : 0 < nD) (hw : nD ≤ w.size) :
    ∃ s1, s.setDelay undef w nD v = .ok (s1, true) ∧ ∀ us : List R,
      Prod.snd <$> feedAll DSys.excite s1 us
        = Prod.snd <$> feedAll DSys.excite { s with delay := none }
            ((List.range us.length).map fun k => at' v us k (nD - 1)) := by
  obtain ⟨t, h1, _, h2⟩ := Tdl.inv_setup undef w nD v hn hw
  refine ⟨{ s with delay := some t }, ?_, fun us => ?_⟩
  · unfold DSys.setDelay
    rw [if_pos hi, h1]; rfl
  · have h0 : (fun i => at' v [] (([] : List R).length - 1) i) = fun _ => v := by
      funext i; simp [at']
    rw [← h0] at h2
    have hk := feed_delayed DSys.excite w nD v us [] { s with delay := none } t h2
    simp only [List.nil_append, List.length_nil, Nat.zero_add] at hk
    rw [← hk]
    refine feed_bisim DSys.excite (withDelay DSys.excite)
      (fun s => ({ s with delay := none }, s.delay)) (fun s => s.isInitialized = true) ?_ us
      { s with delay := some t } hi
    intro s u hs
    constructor
    · unfold withDelay DSys.excite
      rw [if_pos hs]
      cases delayInput s.delay u with
      | ub => rfl
      | diverge => rfl
      | ok r =>
        obtain ⟨t, u⟩ := r
        have hs' : ({ s with delay := none } : DSys R).isInitialized = true := hs
        simp only [Out.bind_ok, hs', if_true, delayInput, Out.pure_eq]
        rw [DSys.update_delay s t, DSys.update_delay s none]
        cases s.update u <;> rfl
    · intro s' y h
      unfold DSys.excite at h
      rw [if_pos hs] at h
      obtain ⟨⟨t, v⟩, _, h⟩ := Out.bind_eq_ok.mp h
      obtain ⟨⟨s2, y2⟩, h3, h⟩ := Out.bind_eq_ok.mp h
      simp only [Out.pure_eq, Out.ok.injEq, Prod.mk.injEq] at h
      rw [← h.1, (DSys.update_kept h3).1]
      exact hs

end Delay

end Verif.Ltisys
