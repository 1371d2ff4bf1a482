import Verif.Smoother.Settle
import Verif.Smoother.Const

/-!
# Properties C158 and C159: the adaptive smoother is the LMS filter; when it is stable (exact arithmetic)
-/

namespace Verif.Smoother

open Arith Ltisys Filter Topology

/-- State after a history of samples (`some x`) and resets (`none`), with undefined behaviour (specification). -/
def driveO {K S : Type} (reset : S → S) (f : S → K → Out (S × K)) : S → List (Option K) → Out S
  | s, [] => .ok s
  | s, none :: es => driveO reset f (reset s) es
  | s, some x :: es => do
    let r ← f s x
    driveO reset f r.1 es

/-- Output of the `k`-th call when the samples are `x 0, x 1, ...` (specification). -/
def nthO {K S : Type} (f : S → K → Out (S × K)) : ℕ → (ℕ → K) → S → Out K
  | 0, x, s => do
    let r ← f s (x 0)
    pure r.2
  | k + 1, x, s => do
    let r ← f s (x 0)
    nthO f k (fun i => x (i + 1)) r.1

section
variable {K : Type} [Field K]

/-- The least-mean-squares filter of `n` taps and step `a`: history `h` (newest first) and weights `w` before
sample `k` of `x` (specification). The history starts filled with the first sample, the weights with `1 / n`. -/
def lms (a : K) (n : ℕ) (x : ℕ → K) : ℕ → (ℕ → K) × (ℕ → K)
  | 0 => (fun _ => x 0, fun _ => 1 / n)
  | k + 1 =>
    let (h, w) := lms a n x k
    (push (x k) h, fun j => w j + a * (x k - ∑ i ∈ Finset.range n, w i * push (x k) h i) * push (x k) h j)

/-- Prediction of the filter for sample `k` (specification). -/
def lmsOut (a : K) (n : ℕ) (x : ℕ → K) (k : ℕ) : K :=
  ∑ i ∈ Finset.range n, (lms a n x k).2 i * push (x k) (lms a n x k).1 i

end

variable {K : Type} [Field K] [LinearOrder K] [IsStrictOrderedRing K]

omit [IsStrictOrderedRing K] in
theorem lmsLoop_run (alpha x xe : K) (xx : Array K) (n : Nat) (g : ℕ → K) (hx : Holds xx n g) (k i : Nat)
    (w : Array K) (v : ℕ → K) (h : Holds w n v) (hi : i + k = n) :
    ∃ w', lmsLoop alpha x xe xx k i w = .ok w' ∧
      Holds w' n (fun j => if i ≤ j then v j + alpha * (x - xe) * g j else v j) := by
  induction k generalizing i w v with
  | zero => exact ⟨w, rfl, h.1, fun j hj => by dsimp only; rw [if_neg (by omega)]; exact h.2 j hj⟩
  | succ k ih =>
    have h1 : i < w.size := by have := h.1; omega
    obtain ⟨w', a1, a2, a3⟩ := ih (i + 1) (w.set i (v i +. alpha *. (x -. xe) *. g i))
      (fun j => if j = i then v i + alpha * (x - xe) * g i else v j) ⟨by simpa using h.1, fun j hj => by
        rw [rdArr_set h1]
        by_cases e : j = i
        · subst e; simp
        · dsimp only; rw [if_neg (fun h => e h.symm), if_neg e]; exact h.2 j hj⟩ (by omega)
    refine ⟨w', ?_, a2, fun j hj => ?_⟩
    · rw [lmsLoop, h.2 i (by omega), Out.bind_ok, hx.2 i (by omega), Out.bind_ok, wrArr_ok h1, Out.bind_ok, a1]
    · rw [a3 j hj]
      congr 1
      dsimp only
      by_cases e : j = i
      · subst e; simp
      · by_cases e' : i + 1 ≤ j
        · rw [if_pos e', if_neg e, if_pos (by omega)]
        · rw [if_neg e', if_neg e, if_neg (by omega)]

/-- An object of `n` taps without momentum and with buffers large enough. -/
def AlnfOk (a : K) (n : ℕ) (s : ALNF K) : Prop :=
  s.n = n ∧ s.alpha = a ∧ s.w_1 = none ∧ ∃ xx w, s.xx = some xx ∧ s.w = some w ∧ n ≤ xx.size ∧ n ≤ w.size

/-- ... that is running with history `h` and weights `w`. -/
def AlnfAt (a : K) (n : ℕ) (h v : ℕ → K) (s : ALNF K) : Prop :=
  s.n = n ∧ s.alpha = a ∧ s.w_1 = none ∧ s.init = false ∧ ∃ xx w, s.xx = some xx ∧ s.w = some w ∧ Holds xx n h ∧ Holds w n v

omit [Field K] [LinearOrder K] [IsStrictOrderedRing K] in
theorem AlnfAt.ok {a : K} {n : ℕ} {h v : ℕ → K} {s : ALNF K} (q : AlnfAt a n h v s) : AlnfOk a n s := by
  obtain ⟨q1, q2, q3, -, xx, w, q4, q5, q6, q7⟩ := q
  exact ⟨q1, q2, q3, xx, w, q4, q5, q6.1, q7.1⟩

omit [IsStrictOrderedRing K] in
theorem alnf_step {a : K} {n : ℕ} (hn : 0 < n) {h v : ℕ → K} {s : ALNF K} (x : K)
    (q : AlnfAt a n h v s ∨ AlnfOk a n s ∧ s.init = true ∧ h = (fun _ => x) ∧ v = fun _ => 1 / (n : K)) :
    ∃ s', s.smooth x = .ok (s', ∑ i ∈ Finset.range n, v i * push x h i) ∧
      AlnfAt a n (push x h) (fun j => v j + a * (x - ∑ i ∈ Finset.range n, v i * push x h i) * push x h j) s' := by
  have : s.n = n ∧ s.alpha = a ∧ s.w_1 = none ∧ ∃ xx w, s.xx = some xx ∧ s.w = some w ∧
      ∃ xx' w', (if s.init then windowSet xx n x else .ok xx) = .ok xx' ∧
        (if s.init then windowSet w n ((1 : K) / n) else .ok w) = .ok w' ∧ Holds xx' n h ∧ Holds w' n v := by
    rcases q with ⟨q1, q2, q3, q4, xx, w, q5, q6, q7, q8⟩ | ⟨⟨q1, q2, q3, xx, w, q5, q6, q7, q8⟩, q4, rfl, rfl⟩
    · exact ⟨q1, q2, q3, xx, w, q5, q6, xx, w, by rw [q4]; rfl, by rw [q4]; rfl, q7, q8⟩
    · obtain ⟨b, k1, k2, k3, _⟩ := windowSet_ok x xx n q7
      obtain ⟨b', k1', k2', k3', _⟩ := windowSet_ok ((1 : K) / n) w n q8
      exact ⟨q1, q2, q3, xx, w, q5, q6, b, b', by rw [q4]; exact k1, by rw [q4]; exact k1', k3, k3'⟩
  obtain ⟨q1, q2, q3, xx, w, q4, q5, xx', w', x1, w1, x3, w3⟩ := this
  obtain ⟨xx2, f1, f2, f3, _⟩ := updateFIR_sum xx' n x (some w') v h hn x3 (by intro a ha; cases ha; exact w3) (by simp)
  obtain ⟨w3', l1, l2⟩ := lmsLoop_run a x (∑ j ∈ Finset.range n, v j * push x h j) xx2 n _ f3 n 0 w' v w3 (by omega)
  refine ⟨{ s with xx := some xx2, w := some w3', w_1 := none, init := false }, ?_, q1, q2, rfl, rfl, xx2, w3', rfl, rfl, f3, ?_⟩
  · unfold ALNF.smooth
    simp only [q4, q5, q3, deref, Out.bind_ok, q1, q2, x1, fDiv, fLit, Rat.cast_one, Rat.cast_natCast,
      w1, Out.pure_eq, f1, l1]
  · simpa using l2

omit [IsStrictOrderedRing K] in
theorem alnf_any {a : K} {n : ℕ} (hn : 0 < n) {s : ALNF K} (q : AlnfOk a n s) (x : K) :
    ∃ s' y, s.smooth x = .ok (s', y) ∧ AlnfOk a n s' := by
  cases hi : s.init with
  | true =>
    obtain ⟨s', h1, h2⟩ := alnf_step hn x (.inr ⟨q, hi, rfl, rfl⟩)
    exact ⟨s', _, h1, h2.ok⟩
  | false =>
    obtain ⟨q1, q2, q3, xx, w, q5, q6, q7, q8⟩ := q
    have hold : ∀ b : Array K, n ≤ b.size → Holds b n (fun i => if h : i < b.size then b[i] else x) := fun b hb =>
      ⟨hb, fun i hi' => by rw [rdArr_ok (show i < _ by omega)]; exact congrArg Out.ok (dif_pos _).symm⟩
    obtain ⟨s', h1, h2⟩ := alnf_step hn x (.inl ⟨q1, q2, q3, hi, xx, w, q5, q6, hold xx q7, hold w q8⟩)
    exact ⟨s', _, h1, h2.ok⟩

omit [IsStrictOrderedRing K] in
theorem alnf_drive {a : K} {n : ℕ} (hn : 0 < n) (es : List (Option K)) (s : ALNF K) (q : AlnfOk a n s) :
    ∃ s1, driveO (fun s : ALNF K => { s with init := true }) ALNF.smooth s es = .ok s1 ∧ AlnfOk a n s1 := by
  induction es generalizing s with
  | nil => exact ⟨s, rfl, q⟩
  | cons e es ih =>
    cases e with
    | none => exact ih _ q
    | some x =>
      obtain ⟨s', y, h1, h2⟩ := alnf_any hn q x
      obtain ⟨s1, h3, h4⟩ := ih s' h2
      exact ⟨s1, by rw [driveO, h1]; exact h3, h4⟩

omit [IsStrictOrderedRing K] in
theorem alnf_setup {s0 s : ALNF K} {a m : K} {n : ℕ} {window weights : Array K}
    (hset : s0.setup a m n (some window) (some weights) none = (s, true)) (hw : n ≤ window.size) (hv : n ≤ weights.size) :
    0 < n ∧ 0 < a ∧ a < 1 ∧ AlnfOk a n s ∧ s.init = true := by
  unfold ALNF.setup at hset
  rw [ite_self] at hset
  split_ifs at hset with hc
  · simp only [Prod.mk.injEq, and_true] at hset
    simp only [Bool.and_eq_true, decide_eq_true_eq, fLit, fLt, Rat.cast_zero, Rat.cast_one] at hc
    refine ⟨hc.1.1.1.1.2, hc.1.1.1.2, hc.1.1.2, ?_⟩
    rw [← hset]
    exact ⟨⟨rfl, rfl, rfl, window, weights, rfl, rfl, hw, hv⟩, rfl⟩
  · simp at hset

omit [LinearOrder K] [IsStrictOrderedRing K] in
/-- The state of the filter started anywhere. -/
def lmsFrom (a : K) (n : ℕ) (h v : ℕ → K) (x : ℕ → K) : ℕ → (ℕ → K) × (ℕ → K)
  | 0 => (h, v)
  | k + 1 =>
    let (h, w) := lmsFrom a n h v x k
    (push (x k) h, fun j => w j + a * (x k - ∑ i ∈ Finset.range n, w i * push (x k) h i) * push (x k) h j)

omit [LinearOrder K] [IsStrictOrderedRing K] in
theorem lmsFrom_eq (a : K) (n : ℕ) (x : ℕ → K) (k : ℕ) : lmsFrom a n (fun _ => x 0) (fun _ => 1 / n) x k = lms a n x k := by
  induction k with
  | zero => rfl
  | succ k ih => rw [lmsFrom, ih, lms]

omit [LinearOrder K] [IsStrictOrderedRing K] in
theorem lmsFrom_shift (a : K) (n : ℕ) (h v : ℕ → K) (x : ℕ → K) (k : ℕ) :
    lmsFrom a n h v x (k + 1) = lmsFrom a n (lmsFrom a n h v x 1).1 (lmsFrom a n h v x 1).2 (fun i => x (i + 1)) k := by
  induction k with
  | zero => rfl
  | succ k ih => rw [lmsFrom, ih]; rfl

omit [IsStrictOrderedRing K] in
theorem alnf_nth {a : K} {n : ℕ} (hn : 0 < n) (k : ℕ) (x : ℕ → K) (h v : ℕ → K) (s : ALNF K)
    (q : AlnfAt a n h v s ∨ AlnfOk a n s ∧ s.init = true ∧ h = (fun _ => x 0) ∧ v = fun _ => 1 / (n : K)) :
    nthO ALNF.smooth k x s = .ok (∑ i ∈ Finset.range n, (lmsFrom a n h v x k).2 i * push (x k) (lmsFrom a n h v x k).1 i) := by
  induction k generalizing x h v s with
  | zero =>
    obtain ⟨s', h1, -⟩ := alnf_step hn (x 0) q
    rw [nthO, h1]; rfl
  | succ k ih =>
    obtain ⟨s', h1, h2⟩ := alnf_step hn (x 0) q
    rw [nthO, h1, Out.bind_ok, ih (fun i => x (i + 1)) _ _ s' (.inl h2), lmsFrom_shift]
    rfl

omit [IsStrictOrderedRing K] in
/-- **C158** (objects without momentum buffer) after an accepted `setup`, any history and a reset, the outputs of
`smootherALNF` are the predictions of the least-mean-squares filter, for any samples. -/
theorem C158_lms_partial (s0 s : ALNF K) (a m : K) (n : ℕ) (window weights : Array K)
    (hset : s0.setup a m n (some window) (some weights) none = (s, true)) (hw : n ≤ window.size) (hv : n ≤ weights.size)
    (es : List (Option K)) :
    ∃ s1, driveO (fun s : ALNF K => { s with init := true }) ALNF.smooth s es = .ok s1 ∧
      ∀ (x : ℕ → K) (k : ℕ), nthO ALNF.smooth k x { s1 with init := true } = .ok (lmsOut a n x k) := by
  obtain ⟨hn, -, -, h1, -⟩ := alnf_setup hset hw hv
  obtain ⟨s1, h2, h3⟩ := alnf_drive hn es s h1
  refine ⟨s1, h2, fun x k => ?_⟩
  have h3' : AlnfOk a n { s1 with init := true } := h3
  rw [alnf_nth hn k x _ _ _ (.inr ⟨h3', rfl, rfl, rfl⟩), lmsFrom_eq]
  rfl

/-- **C158 is false of the code with a momentum buffer** of the documented size: the first call is undefined. -/
theorem C158_false (s0 s : ALNF K) (a m : K) (n : ℕ) (window weights w1 : Array K)
    (hset : s0.setup a m n (some window) (some weights) (some w1) = (s, true))
    (hw : window.size = n) (hv : weights.size = n) (hv1 : w1.size = n) (x : ℕ → K) :
    nthO ALNF.smooth 0 x s = .ub := by
  rw [nthO, C38_alnf_momentum_false s0 s a m n window weights w1 hset hw hv hv1]; rfl

/-! ## C159: stability -/

theorem push_filled (c : ℝ) (h v x : ℕ → ℝ) (a : ℝ) (n : ℕ) (hx : ∀ k, x k = c) (k i : ℕ) (hi : i < k) :
    (lmsFrom a n h v x k).1 i = c := by
  induction k generalizing i with
  | zero => omega
  | succ k ih =>
    rw [lmsFrom]
    cases i with
    | zero => exact hx k
    | succ i => exact ih i (by omega)

theorem lms_const (c : ℝ) (h v x : ℕ → ℝ) (a : ℝ) (n : ℕ) (hx : ∀ k, x k = c) (k : ℕ) (hk : n ≤ k + 1) :
    (∑ i ∈ Finset.range n, (lmsFrom a n h v x k).2 i * push (x k) (lmsFrom a n h v x k).1 i = c * ∑ i ∈ Finset.range n, (lmsFrom a n h v x k).2 i) ∧
    (∑ i ∈ Finset.range n, (lmsFrom a n h v x (k + 1)).2 i) - 1 =
      (1 - n * a * c ^ 2) * ((∑ i ∈ Finset.range n, (lmsFrom a n h v x k).2 i) - 1) := by
  have p : ∀ i ∈ Finset.range n, push (x k) (lmsFrom a n h v x k).1 i = c := by
    intro i hi
    rw [Finset.mem_range] at hi
    cases i with
    | zero => exact hx k
    | succ i => exact push_filled c h v x a n hx k i (by omega)
  have e : ∑ i ∈ Finset.range n, (lmsFrom a n h v x k).2 i * push (x k) (lmsFrom a n h v x k).1 i = c * ∑ i ∈ Finset.range n, (lmsFrom a n h v x k).2 i := by
    rw [Finset.mul_sum]
    exact Finset.sum_congr rfl fun i hi => by rw [p i hi, mul_comm]
  refine ⟨e, ?_⟩
  have e2 : ∑ i ∈ Finset.range n, (lmsFrom a n h v x (k + 1)).2 i = ∑ i ∈ Finset.range n, ((lmsFrom a n h v x k).2 i +
      a * (c - c * ∑ i ∈ Finset.range n, (lmsFrom a n h v x k).2 i) * c) := by
    refine Finset.sum_congr rfl fun i hi => ?_
    rw [lmsFrom]
    dsimp only
    rw [e, p i hi, hx k]
  rw [e2, Finset.sum_add_distrib, Finset.sum_const, Finset.card_range, nsmul_eq_mul]
  ring

/-- **C159** (partial: signals with `n a c² < 2`, objects without momentum) after an accepted `setup` and any
history `smootherALNF` settles at a constant signal `c`; from the `n`-th sample on each call multiplies the error by
`1 - n a c²`. -/
theorem C159_settles_partial (s0 s : ALNF ℝ) (a m : ℝ) (n : ℕ) (window weights : Array ℝ)
    (hset : s0.setup a m n (some window) (some weights) none = (s, true)) (hw : n ≤ window.size) (hv : n ≤ weights.size)
    (es : List (Option ℝ)) (c : ℝ) :
    ∃ s1, driveO (fun s : ALNF ℝ => { s with init := true }) ALNF.smooth s es = .ok s1 ∧
      ∃ out : ℕ → ℝ, (∀ k, nthO ALNF.smooth k (fun _ => c) s1 = .ok (out k)) ∧
        (∀ k, n ≤ k + 1 → out (k + 1) - c = (1 - n * a * c ^ 2) * (out k - c)) ∧
        (n * a * c ^ 2 < 2 → Tendsto out atTop (𝓝 c)) := by
  obtain ⟨hn, a0, a1, h1, -⟩ := alnf_setup hset hw hv
  obtain ⟨s1, h2, h3⟩ := alnf_drive hn es s h1
  refine ⟨s1, h2, ?_⟩
  obtain ⟨h, v, q⟩ : ∃ h v, AlnfAt a n h v s1 ∨ AlnfOk a n s1 ∧ s1.init = true ∧ h = (fun _ => c) ∧ v = fun _ => 1 / (n : ℝ) := by
    cases hi : s1.init with
    | true => exact ⟨_, _, .inr ⟨h3, rfl, rfl, rfl⟩⟩
    | false =>
      obtain ⟨q1, q2, q3, xx, w, q5, q6, q7, q8⟩ := h3
      have hold : ∀ b : Array ℝ, n ≤ b.size → Holds b n (fun i => if h : i < b.size then b[i] else 0) := fun b hb =>
        ⟨hb, fun i hi' => by rw [rdArr_ok (show i < _ by omega)]; exact congrArg Out.ok (dif_pos _).symm⟩
      exact ⟨_, _, .inl ⟨q1, q2, q3, hi, xx, w, q5, q6, hold xx q7, hold w q8⟩⟩
  obtain ⟨W, hW⟩ : ∃ W : ℕ → ℝ, W = fun k => ∑ i ∈ Finset.range n, (lmsFrom a n h v (fun _ => c) k).2 i := ⟨_, rfl⟩
  obtain ⟨out, hout⟩ : ∃ out : ℕ → ℝ, out = fun k => ∑ i ∈ Finset.range n, (lmsFrom a n h v (fun _ => c) k).2 i *
    push c (lmsFrom a n h v (fun _ => c) k).1 i := ⟨_, rfl⟩
  have ho : ∀ k, n ≤ k + 1 → out k = c * W k := fun k hk => by
    rw [hout, hW]; exact (lms_const c h v (fun _ => c) a n (fun _ => rfl) k hk).1
  have hs : ∀ k, n ≤ k + 1 → W (k + 1) - 1 = (1 - n * a * c ^ 2) * (W k - 1) := fun k hk => by
    rw [hW]; exact (lms_const c h v (fun _ => c) a n (fun _ => rfl) k hk).2
  refine ⟨out, fun k => by rw [alnf_nth hn k _ h v s1 q, hout], fun k hk => ?_, fun hlt => ?_⟩
  · rw [ho k hk, ho (k + 1) (by omega)]
    linear_combination c * hs k hk
  · rw [← tendsto_add_atTop_iff_nat n]
    rcases eq_or_ne c 0 with rfl | hc
    · refine tendsto_const_nhds.congr fun k => ?_
      rw [ho (k + n) (by omega), zero_mul]
    · have np : (0 : ℝ) < n := by exact_mod_cast hn
      have cp : 0 < n * a * c ^ 2 := by positivity
      have := contract_zero (q := |1 - n * a * c ^ 2|) (abs_nonneg _) (by rw [abs_lt]; constructor <;> linarith)
        (e := fun k => W (k + n) - 1) (fun k => by
          rw [← abs_mul, show k + 1 + n = k + n + 1 by omega, hs (k + n) (by omega)])
      have t2 := (this.const_mul c).add_const c
      rw [mul_zero, zero_add] at t2
      refine t2.congr fun k => ?_
      rw [ho (k + n) (by omega)]; ring

/-- **C159 is false of the code in general** (the step is not normalised by the signal power): with two taps and
`a = 1/2` the outputs for the bounded signal `0, 2, 2, 2, ...` grow without bound. -/
theorem C159_false (s0 s : ALNF ℝ) (m : ℝ) (window weights : Array ℝ)
    (hset : s0.setup (1 / 2) m 2 (some window) (some weights) none = (s, true)) (hw : 2 ≤ window.size) (hv : 2 ≤ weights.size) :
    (∀ k, nthO ALNF.smooth (k + 2) (fun i => if i = 0 then 0 else 2) s = .ok (2 + 2 * (-3) ^ k)) ∧
    ∀ M : ℝ, ∃ k y, nthO ALNF.smooth k (fun i => if i = 0 then 0 else 2) s = .ok y ∧ M < y := by
  obtain ⟨hn, a0, a1, h1, h2⟩ := alnf_setup hset hw hv
  have key : ∀ k, (lmsFrom (1 / 2) 2 (fun _ => (0 : ℝ)) (fun _ => 1 / ((2 : ℕ) : ℝ)) (fun i => if i = 0 then 0 else 2) (k + 2)).1 0 = 2 ∧
      (lmsFrom (1 / 2) 2 (fun _ => (0 : ℝ)) (fun _ => 1 / ((2 : ℕ) : ℝ)) (fun i => if i = 0 then 0 else 2) (k + 2)).2 0 +
      (lmsFrom (1 / 2) 2 (fun _ => (0 : ℝ)) (fun _ => 1 / ((2 : ℕ) : ℝ)) (fun i => if i = 0 then 0 else 2) (k + 2)).2 1 = 1 + (-3) ^ k := by
    intro k
    induction k with
    | zero =>
      simp only [lmsFrom, push, Finset.sum_range_succ, Finset.sum_range_zero]
      norm_num
    | succ k ih =>
      obtain ⟨i1, i2⟩ := ih
      rw [show k + 1 + 2 = (k + 2) + 1 by omega, lmsFrom]
      generalize lmsFrom (1 / 2) 2 (fun _ => (0 : ℝ)) (fun _ => 1 / ((2 : ℕ) : ℝ)) (fun i => if i = 0 then 0 else 2) (k + 2) = st at *
      obtain ⟨h, w⟩ := st
      simp only [Finset.sum_range_succ, Finset.sum_range_zero, push] at i1 i2 ⊢
      rw [if_neg (by omega), i1, pow_succ]
      refine ⟨rfl, ?_⟩
      linear_combination (-3) * i2
  have out : ∀ k, nthO ALNF.smooth (k + 2) (fun i => if i = 0 then 0 else 2) s = .ok (2 + 2 * (-3) ^ k) := by
    intro k
    rw [alnf_nth hn (k + 2) _ (fun _ => 0) (fun _ => 1 / ((2 : ℕ) : ℝ)) s (.inr ⟨h1, h2, by simp, rfl⟩)]
    obtain ⟨i1, i2⟩ := key k
    congr 1
    simp only [Finset.sum_range_succ, Finset.sum_range_zero, push]
    rw [if_neg (by omega), i1]
    linear_combination 2 * i2
  refine ⟨out, fun M => ?_⟩
  obtain ⟨k, hk⟩ := pow_unbounded_of_one_lt M (show (1 : ℝ) < 9 by norm_num)
  refine ⟨2 * k + 2, _, out (2 * k), ?_⟩
  rw [pow_mul]
  norm_num
  have : (0 : ℝ) < 9 ^ k := by positivity
  linarith

-- hypotheses met: an accepted set-up with two taps
example : (⟨0, 0, none, none, none, 0, false⟩ : ALNF ℚ).setup (1 / 2) (1 / 2) 2 (some #[0, 0]) (some #[0, 0]) none =
    (⟨1 / 2, 1 / 2, some #[0, 0], none, some #[0, 0], 2, true⟩, true) := by decide +kernel

end Verif.Smoother
