import Verif.Smoother.Model
import Verif.Ltisys.Discrete
import Mathlib.Tactic.LinearCombination

/-!
# Property C63: the recursive smoothers compute their recursions over whole histories (exact arithmetic)
-/

namespace Verif.Smoother

open Arith Ltisys

variable {K : Type} [Field K] [LinearOrder K] [IsStrictOrderedRing K]

/-- State after a history of samples (`some x`) and resets (`none`). -/
def drive {S : Type} (reset : S → S) (f : S → K → S × K) : S → List (Option K) → S
  | s, [] => s
  | s, none :: es => drive reset f (reset s) es
  | s, some x :: es => drive reset f (f s x).1 es

omit [Field K] [LinearOrder K] [IsStrictOrderedRing K] in
theorem drive_inv {S : Type} (reset : S → S) (f : S → K → S × K) (P : S → Prop)
    (hr : ∀ s, P s → P (reset s)) (hf : ∀ s x, P s → P (f s x).1) (es : List (Option K)) (s : S)
    (h : P s) : P (drive reset f s es) := by
  induction es generalizing s with
  | nil => exact h
  | cons e es ih =>
    cases e with
    | none => exact ih _ (hr s h)
    | some x => exact ih _ (hf s x h)

/-- Outputs of a smoother, one for every sample. -/
def outputs {S : Type} (f : S → K → S × K) : S → List K → List K
  | _, [] => []
  | s, x :: xs => (f s x).2 :: outputs f (f s x).1 xs

omit [Field K] [LinearOrder K] [IsStrictOrderedRing K] in
theorem outputs_snoc {S : Type} (f : S → K → S × K) (xs : List K) (x : K) (s : S) :
    outputs f s (xs ++ [x]) = outputs f s xs ++ [(f (drive id f s (xs.map some)) x).2] := by
  induction xs generalizing s with
  | nil => rfl
  | cons y xs ih => simp [outputs, drive, ih]

omit [Field K] [LinearOrder K] [IsStrictOrderedRing K] in
theorem drive_snoc {S : Type} (f : S → K → S × K) (xs : List K) (x : K) (s : S) :
    drive id f s ((xs ++ [x]).map some) = (f (drive id f s (xs.map some)) x).1 := by
  induction xs generalizing s with
  | nil => rfl
  | cons y xs ih => simpa [drive] using ih _

omit [Field K] [LinearOrder K] [IsStrictOrderedRing K] in
theorem outputs_length {S : Type} (f : S → K → S × K) (xs : List K) (s : S) :
    (outputs f s xs).length = xs.length := by
  induction xs generalizing s with
  | nil => rfl
  | cons y xs ih => simp [outputs, ih]

/-! ## Second-order low-pass filter -/

omit [IsStrictOrderedRing K] in
theorem lpf2_run (s : LPF2 K) (hi : s.init = true) (x0 : K) (xs : List K) :
    (∀ k, k < xs.length + 1 →
      at' x0 (outputs LPF2.smooth s (x0 :: xs)) k 0 = s.k * at' x0 (x0 :: xs) k 0
        + s.b1 * at' x0 (x0 :: xs) k 1 + s.k * at' x0 (x0 :: xs) k 2
        - s.a1 * at' x0 (outputs LPF2.smooth s (x0 :: xs)) k 1
        - s.a2 * at' x0 (outputs LPF2.smooth s (x0 :: xs)) k 2) ∧
    drive id LPF2.smooth s ((x0 :: xs).map some) =
      { s with init := false,
               x1 := at' x0 (x0 :: xs) xs.length 0,
               x2 := at' x0 (x0 :: xs) xs.length 1,
               y1 := at' x0 (outputs LPF2.smooth s (x0 :: xs)) xs.length 0,
               y2 := at' x0 (outputs LPF2.smooth s (x0 :: xs)) xs.length 1 } := by
  induction xs using List.reverseRecOn with
  | nil =>
    refine ⟨fun k hk => ?_, ?_⟩
    · obtain rfl : k = 0 := by simpa using hk
      simp [at', outputs, LPF2.smooth, hi]
    · simp [at', outputs, LPF2.smooth, hi, drive]
  | append_singleton xs x ih =>
    obtain ⟨ih1, ih2⟩ := ih
    have e1 : x0 :: (xs ++ [x]) = (x0 :: xs) ++ [x] := rfl
    rw [e1, outputs_snoc, drive_snoc, ih2]
    have hl : (outputs LPF2.smooth s (x0 :: xs)).length = xs.length + 1 := by simp [outputs_length]
    have hl' : (x0 :: xs).length = xs.length + 1 := rfl
    generalize hys : outputs LPF2.smooth s (x0 :: xs) = ys at *
    generalize hxs : x0 :: xs = zs at *
    have f1 := fun b => at'_snoc x0 zs b
    have f2 := fun b => at'_snoc x0 ys b
    rw [hl'] at f1
    rw [hl] at f2
    simp only [Nat.add_sub_cancel] at f1 f2
    have g1 := fun b i => congrFun (f1 b) i
    have g2 := fun b i => congrFun (f2 b) i
    rw [List.length_append, List.length_singleton]
    refine ⟨fun k hk => ?_, ?_⟩
    · by_cases hk' : k < xs.length + 1
      · simp only [at'_snoc_lt x0 zs _ k _ (by omega), at'_snoc_lt x0 ys _ k _ (by omega)]
        exact ih1 k hk'
      · obtain rfl : k = xs.length + 1 := by omega
        simp only [g1, g2, push]
        simp [LPF2.smooth]
    · simp only [g1, g2, push]
      simp [LPF2.smooth]

/-- **C63** (`smootherLPF2`) after an accepted `setup( a )`, any history and a reset, the outputs satisfy
the difference equation of the second-order Butterworth filter
`r y[k] = a² (x[k] + 2 x[k-1] + x[k-2]) - 2 (a² - 1) y[k-1] - (1 - p + a²) y[k-2]`,
`p = sqrt( 2a )`, `r = 1 + p + a²`, the first sample standing for everything before it. -/
theorem C63_lpf2 [Trans K] (hsqrt : ∀ x : K, 0 ≤ x → 0 ≤ Trans.sqrt x) (s0 s : LPF2 K) (a : K)
    (hset : s0.setup a = (s, true)) (es : List (Option K)) (x0 : K) (xs : List K) (k : ℕ)
    (hk : k < xs.length + 1) :
    let s1 : LPF2 K := { drive (fun s => { s with init := true }) LPF2.smooth s es with init := true }
    let x := at' x0 (x0 :: xs) k
    let y := at' x0 (outputs LPF2.smooth s1 (x0 :: xs)) k
    (1 + Trans.sqrt (2 * a) + a ^ 2) * y 0 = a ^ 2 * (x 0 + 2 * x 1 + x 2)
      - 2 * (a ^ 2 - 1) * y 1 - (1 - Trans.sqrt (2 * a) + a ^ 2) * y 2 := by
  intro s1 x y
  have hc : s1.k = s.k ∧ s1.b1 = s.b1 ∧ s1.a1 = s.a1 ∧ s1.a2 = s.a2 := by
    refine drive_inv (fun s : LPF2 K => { s with init := true }) LPF2.smooth
      (fun t => t.k = s.k ∧ t.b1 = s.b1 ∧ t.a1 = s.a1 ∧ t.a2 = s.a2) (fun t h => h) (fun t x h => ?_) es s
      ⟨rfl, rfl, rfl, rfl⟩
    unfold LPF2.smooth
    cases t.init <;> exact h
  have h := (lpf2_run s1 rfl x0 xs).1 k hk
  obtain ⟨c1, c2, c3, c4⟩ := hc
  rw [c1, c2, c3, c4] at h
  unfold LPF2.setup at hset
  split_ifs at hset with hc
  · simp only [fLit, fLt, Rat.cast_zero, Rat.cast_one, Bool.and_eq_true, decide_eq_true_eq] at hc
    simp only [fLit, fMul, fAdd, fSub, fDiv, Rat.cast_one, Rat.cast_ofNat, Prod.mk.injEq,
      and_true] at hset
    rw [← hset] at h
    dsimp only at h
    have h1 := hsqrt (2 * a) (by linarith)
    have h2 : 1 + Trans.sqrt (2 * a) + a * a ≠ 0 := by nlinarith
    change y 0 = _ * x 0 + _ * x 1 + _ * x 2 - _ * y 1 - _ * y 2 at h
    rw [h]
    generalize Trans.sqrt (2 * a) = p at *
    generalize x 0 = X0, x 1 = X1, x 2 = X2, y 1 = Y1, y 2 = Y2
    field_simp
  · simp at hset

/-! ## First-order filter and exponential weights: closed forms -/

/-- `Σ q^(age) x`: the samples of the history `l` (oldest first) with exponentially decreasing weights. -/
def wsum (q : K) (l : List K) : K := ∑ i ∈ Finset.range l.length, q ^ (l.length - 1 - i) * l.getD i 0

omit [LinearOrder K] [IsStrictOrderedRing K] in
theorem wsum_snoc (q : K) (l : List K) (x : K) : wsum q (l ++ [x]) = q * wsum q l + x := by
  unfold wsum
  rw [List.length_append, List.length_singleton, Finset.sum_range_succ, Finset.mul_sum]
  have : ∀ i ∈ Finset.range l.length, q ^ (l.length + 1 - 1 - i) * (l ++ [x]).getD i 0
      = q * (q ^ (l.length - 1 - i) * l.getD i 0) := by
    intro i hi
    rw [Finset.mem_range] at hi
    rw [List.getD_append _ _ _ _ hi, ← mul_assoc, ← pow_succ']
    congr 2; omega
  rw [Finset.sum_congr rfl this]
  simp

omit [IsStrictOrderedRing K] in
theorem lpf1_run (s : LPF1 K) (hi : s.init = true) (x0 : K) (xs : List K) :
    drive id LPF1.smooth s ((x0 :: xs).map some) =
      { s with init := false,
               y1 := s.alpha ^ (xs.length + 1) * x0 + (1 - s.alpha) * wsum s.alpha (x0 :: xs) } := by
  induction xs using List.reverseRecOn with
  | nil =>
    simp [drive, LPF1.smooth, hi, wsum]
    ring
  | append_singleton xs x ih =>
    rw [show x0 :: (xs ++ [x]) = (x0 :: xs) ++ [x] from rfl, drive_snoc, ih, wsum_snoc]
    simp [LPF1.smooth]
    ring

omit [IsStrictOrderedRing K] in
/-- **C63** (`smootherLPF1`) after an accepted `setup( a )`, any history and a reset, the output for the
last of the samples `x_0, ..., x_k` is `(1 - a) Σ a^(k-i) x_i + a^(k+1) x_0`. -/
theorem C63_lpf1 (s0 s : LPF1 K) (a : K) (hset : s0.setup a = (s, true)) (es : List (Option K))
    (x0 : K) (xs : List K) :
    let s1 : LPF1 K := { drive (fun s => { s with init := true }) LPF1.smooth s es with init := true }
    (outputs LPF1.smooth s1 (x0 :: xs)).getLast? = some ((1 - a) *
        (∑ i ∈ Finset.range (xs.length + 1), a ^ (xs.length - i) * (x0 :: xs).getD i 0)
      + a ^ (xs.length + 1) * x0) := by
  intro s1
  have hc : s1.alpha = s.alpha := by
    refine drive_inv (fun s : LPF1 K => { s with init := true }) LPF1.smooth
      (fun t => t.alpha = s.alpha) (fun t h => h) (fun t x h => ?_) es s rfl
    unfold LPF1.smooth
    cases t.init <;> exact h
  have ha : s.alpha = a := by
    unfold LPF1.setup at hset
    split_ifs at hset
    · simp only [Prod.mk.injEq, and_true] at hset
      rw [← hset]
    · simp at hset
  have h := lpf1_run s1 rfl x0 xs
  have hlast : (outputs LPF1.smooth s1 (x0 :: xs)).getLast?
      = some (drive id LPF1.smooth s1 ((x0 :: xs).map some)).y1 := by
    rcases List.eq_nil_or_concat xs with rfl | ⟨ys, y, rfl⟩
    · rfl
    · rw [List.concat_eq_append, ← List.cons_append, outputs_snoc, drive_snoc]
      simp [LPF1.smooth]
  rw [hlast, h, hc, ha, add_comm]
  rfl

theorem expw_run (s : EXPW K) (hi : s.init = true) (hl : 0 < s.lambda) (x0 : K) (xs : List K) :
    ∃ m w, drive id EXPW.smooth s ((x0 :: xs).map some) = { s with init := false, m := m, w := w } ∧
      0 < w ∧ w = ∑ i ∈ Finset.range (xs.length + 2), s.lambda ^ i ∧
      m * w = wsum s.lambda (x0 :: xs) + s.lambda ^ (xs.length + 1) * x0 := by
  induction xs using List.reverseRecOn with
  | nil =>
    have h1 : 0 < s.lambda + 1 := by linarith
    refine ⟨x0, s.lambda + 1, ?_, h1, by simp [Finset.sum_range_succ]; ring, by simp [wsum]; ring⟩
    simp [drive, EXPW.smooth, hi]
    field_simp
    ring
  | append_singleton xs x ih =>
    obtain ⟨m, w, e1, e2, e3, e4⟩ := ih
    have h1 : 0 < s.lambda * w + 1 := by positivity
    refine ⟨m * (1 - 1 / (s.lambda * w + 1)) + 1 / (s.lambda * w + 1) * x, s.lambda * w + 1, ?_, h1,
      ?_, ?_⟩
    · rw [show x0 :: (xs ++ [x]) = (x0 :: xs) ++ [x] from rfl, drive_snoc, e1]
      simp [EXPW.smooth]
    · rw [e3, List.length_append, List.length_singleton, Finset.sum_range_succ' _ (xs.length + 2),
        Finset.mul_sum]
      simp [pow_succ']
    · rw [show x0 :: (xs ++ [x]) = (x0 :: xs) ++ [x] from rfl, wsum_snoc, List.length_append,
        List.length_singleton, pow_succ' _ (xs.length + 1)]
      have : (m * (1 - 1 / (s.lambda * w + 1)) + 1 / (s.lambda * w + 1) * x) * (s.lambda * w + 1)
          = s.lambda * (m * w) + x := by
        field_simp
        ring
      rw [this, e4]
      ring

/-- **C63** (`smootherEXPW`) after an accepted `setup( λ )`, any history and a reset, the output for the
last of the samples `x_0, ..., x_k` is the mean of the history with weights `λ^(age)`, the first sample
counting once more with weight `λ^(k+1)`. -/
theorem C63_expw (s0 s : EXPW K) (a : K) (hset : s0.setup a = (s, true)) (es : List (Option K))
    (x0 : K) (xs : List K) :
    let s1 : EXPW K := { drive (fun s => { s with init := true }) EXPW.smooth s es with init := true }
    (outputs EXPW.smooth s1 (x0 :: xs)).getLast? = some
      (((∑ i ∈ Finset.range (xs.length + 1), a ^ (xs.length - i) * (x0 :: xs).getD i 0)
          + a ^ (xs.length + 1) * x0) / ∑ i ∈ Finset.range (xs.length + 2), a ^ i) := by
  intro s1
  have hc : s1.lambda = s.lambda := by
    refine drive_inv (fun s : EXPW K => { s with init := true }) EXPW.smooth
      (fun t => t.lambda = s.lambda) (fun t h => h) (fun t x h => ?_) es s rfl
    unfold EXPW.smooth
    cases t.init <;> exact h
  have ha : s.lambda = a ∧ 0 < a := by
    unfold EXPW.setup at hset
    split_ifs at hset with hcond
    · simp only [Prod.mk.injEq, and_true] at hset
      simp only [fLit, fLt, Rat.cast_zero, Rat.cast_one, Bool.and_eq_true, decide_eq_true_eq] at hcond
      rw [← hset]
      exact ⟨rfl, hcond.1⟩
    · simp at hset
  obtain ⟨m, w, e1, e2, e3, e4⟩ := expw_run s1 rfl (by rw [hc, ha.1]; exact ha.2) x0 xs
  have hlast : (outputs EXPW.smooth s1 (x0 :: xs)).getLast?
      = some (drive id EXPW.smooth s1 ((x0 :: xs).map some)).m := by
    rcases List.eq_nil_or_concat xs with rfl | ⟨ys, y, rfl⟩
    · rfl
    · rw [List.concat_eq_append, ← List.cons_append, outputs_snoc, drive_snoc]
      simp [EXPW.smooth]
  rw [hlast, e1]
  rw [hc, ha.1] at e3 e4
  congr 1
  rw [← e3, eq_div_iff e2.ne']
  exact e4

/-! ## Kalman filter -/

/-- Predicted error covariance of a scalar random walk with process noise `q` and measurement noise `r`
before measurement `k` (specification). -/
def kalmanCov (q r p0 : K) : ℕ → K
  | 0 => p0 + q
  | k + 1 => kalmanCov q r p0 k * r / (kalmanCov q r p0 k + r) + q

/-- Number of samples in a history. -/
def samplesIn (es : List (Option K)) : ℕ := (es.filter Option.isSome).length

theorem kalmanCov_pos (q r p0 : K) (hq : 0 < q) (hr : 0 < r) (hp : 0 < p0) (k : ℕ) :
    0 < kalmanCov q r p0 k := by
  induction k with
  | zero => exact add_pos hp hq
  | succ k ih => unfold kalmanCov; positivity

/-- The state of a Kalman filter after `n` samples. -/
def KlmnAt (q r p0 : K) (n : ℕ) (s : KLMN K) : Prop :=
  s.A = 1 ∧ s.H = 1 ∧ s.q = q ∧ s.r = r ∧ s.p + q = kalmanCov q r p0 n

theorem klmn_step {q r p0 : K} (hq : 0 < q) (hr : 0 < r) (hp : 0 < p0) {n : ℕ} {s : KLMN K}
    (h : KlmnAt q r p0 n s) (x : K) :
    KlmnAt q r p0 (n + 1) (s.smooth x).1 ∧ (s.smooth x).1.init = false ∧
      (s.smooth x).1.xS = (s.smooth x).2 ∧
      (s.smooth x).2 = (if s.init then x else s.xS) + kalmanCov q r p0 n / (kalmanCov q r p0 n + r) *
        (x - (if s.init then x else s.xS)) := by
  obtain ⟨h1, h2, h3, h4, h5⟩ := h
  have hc := kalmanCov_pos q r p0 hq hr hp n
  have hne : kalmanCov q r p0 n + r ≠ 0 := by positivity
  have key : (1 - kalmanCov q r p0 n / (r + kalmanCov q r p0 n)) * kalmanCov q r p0 n + q
      = kalmanCov q r p0 (n + 1) := by
    rw [kalmanCov, add_comm r]
    field_simp
    ring
  refine ⟨⟨?_, ?_, ?_, ?_, ?_⟩, ?_, rfl, ?_⟩
  all_goals
    unfold KLMN.smooth
    cases hi : s.init
  all_goals simp only [if_true, if_false, Bool.false_eq_true, fMul, fAdd, fSub, fDiv, fLit, Rat.cast_one,
    h1, h2, h3, h4, h5, mul_one, one_mul]
  · rw [key]
  · rw [key]
  · exact hi
  · rw [add_comm r]
  · rw [add_comm r]

theorem klmn_drive {q r p0 : K} (hq : 0 < q) (hr : 0 < r) (hp : 0 < p0) (es : List (Option K)) (n : ℕ)
    (s : KLMN K) (h : KlmnAt q r p0 n s) :
    KlmnAt q r p0 (n + samplesIn es) (drive (fun s => { s with init := true }) KLMN.smooth s es) := by
  induction es generalizing s n with
  | nil => exact h
  | cons e es ih =>
    cases e with
    | none => exact ih n _ h
    | some x =>
      have := ih (n + 1) _ (klmn_step hq hr hp h x).1
      rw [show n + samplesIn (some x :: es) = n + 1 + samplesIn es by simp [samplesIn]; omega]
      exact this

/-- **C63** (`smootherKLMN`) after an accepted `setup( q, r, p0 )`, any history of `n` samples and resets,
and a reset, the outputs are the Kalman estimates `y[k] = y[k-1] + g (x[k] - y[k-1])` of a random walk,
`g = P / (P + r)` with the predicted covariance `P` of measurement `n + k`; the first estimate is the
first sample. -/
theorem C63_klmn (s0 s : KLMN K) (q r p0 : K) (hset : s0.setup q r p0 = (s, true))
    (es : List (Option K)) (x0 : K) (xs : List K) (k : ℕ) (hk : k < xs.length + 1) :
    let s1 : KLMN K := { drive (fun s => { s with init := true }) KLMN.smooth s es with init := true }
    let y := at' x0 (outputs KLMN.smooth s1 (x0 :: xs)) k
    let P := kalmanCov q r p0 (samplesIn es + k)
    y 0 = y 1 + P / (P + r) * ((x0 :: xs).getD k 0 - y 1) := by
  intro s1 y P
  have hc : 0 < q ∧ 0 < r ∧ 0 < p0 ∧ KlmnAt q r p0 0 s := by
    unfold KLMN.setup at hset
    split_ifs at hset with hcond
    · simp only [fLit, fLt, Rat.cast_zero, Bool.and_eq_true, decide_eq_true_eq] at hcond
      simp only [Prod.mk.injEq, and_true] at hset
      rw [← hset]
      exact ⟨hcond.1.1, hcond.1.2, hcond.2, by simp [KlmnAt, kalmanCov]⟩
    · simp at hset
  obtain ⟨hq, hr, hp, h0⟩ := hc
  have h1 : KlmnAt q r p0 (samplesIn es) s1 := by
    have := klmn_drive hq hr hp es 0 s h0
    rw [Nat.zero_add] at this
    exact this
  have hi : s1.init = true := rfl
  clear_value s1
  suffices (∀ k, k < xs.length + 1 → at' x0 (outputs KLMN.smooth s1 (x0 :: xs)) k 0
        = at' x0 (outputs KLMN.smooth s1 (x0 :: xs)) k 1
          + kalmanCov q r p0 (samplesIn es + k) / (kalmanCov q r p0 (samplesIn es + k) + r)
            * ((x0 :: xs).getD k 0 - at' x0 (outputs KLMN.smooth s1 (x0 :: xs)) k 1)) ∧
      KlmnAt q r p0 (samplesIn es + (xs.length + 1)) (drive id KLMN.smooth s1 ((x0 :: xs).map some)) ∧
      (drive id KLMN.smooth s1 ((x0 :: xs).map some)).init = false ∧
      (drive id KLMN.smooth s1 ((x0 :: xs).map some)).xS
        = at' x0 (outputs KLMN.smooth s1 (x0 :: xs)) xs.length 0 from this.1 k hk
  clear hk y P
  induction xs using List.reverseRecOn with
  | nil =>
    obtain ⟨k1, k2, k3, k4⟩ := klmn_step hq hr hp h1 x0
    refine ⟨fun k hk => ?_, k1, k2, k3⟩
    obtain rfl : k = 0 := by simpa using hk
    rw [hi] at k4
    simpa [at', outputs] using k4
  | append_singleton xs x ih =>
    obtain ⟨ih1, ih2, ih3, ih4⟩ := ih
    rw [show x0 :: (xs ++ [x]) = (x0 :: xs) ++ [x] from rfl, outputs_snoc, drive_snoc]
    generalize hst : drive id KLMN.smooth s1 ((x0 :: xs).map some) = st at *
    obtain ⟨k1, k2, k3, k4⟩ := klmn_step hq hr hp ih2 x
    rw [ih3, ih4] at k4
    have hl : (outputs KLMN.smooth s1 (x0 :: xs)).length = xs.length + 1 := by simp [outputs_length]
    generalize hys : outputs KLMN.smooth s1 (x0 :: xs) = ys at *
    have f2 := at'_snoc x0 ys (st.smooth x).2
    rw [hl] at f2
    simp only [Nat.add_sub_cancel] at f2
    have g2 := fun i => congrFun f2 i
    rw [List.length_append, List.length_singleton]
    refine ⟨fun k hk => ?_, k1, k2, ?_⟩
    · by_cases hk' : k < xs.length + 1
      · simp only [at'_snoc_lt x0 ys _ k _ (by omega)]
        rw [List.getD_append _ _ _ _ (by simpa using hk')]
        exact ih1 k hk'
      · obtain rfl : k = xs.length + 1 := by omega
        simp only [g2, push]
        have : ((x0 :: xs) ++ [x]).getD (xs.length + 1) 0 = x := by simp
        rw [this]
        simpa using k4
    · simp only [g2, push]
      exact k3

/-! ## Double exponential smoothing -/

omit [IsStrictOrderedRing K] in
/-- **C63** (`smootherDESF`, partial: the level recursion has no trend term, so this is not Holt's method,
see `C63_desf_false`) after an accepted `setup( a, b, n )`, any history and a reset: level and trend start
at the first sample, and every output is the level plus `n` times the trend. -/
theorem C63_desf_partial (s0 s : DESF K) (a b : K) (nS : ℕ) (hset : s0.setup a b nS = (s, true))
    (es : List (Option K)) (x0 : K) (xs : List K) :
    let s1 : DESF K := { drive (fun s => { s with init := true }) DESF.smooth s es with init := true }
    ∃ l t : ℕ → K, l 0 = x0 ∧ t 0 = x0 ∧ ∀ k, k < xs.length + 1 →
      l (k + 1) = (1 - a) * l k + a * (x0 :: xs).getD k 0 ∧
      t (k + 1) = (1 - b) * t k + b * (l (k + 1) - l k) ∧
      (outputs DESF.smooth s1 (x0 :: xs)).getD k 0 = l (k + 1) + nS * t (k + 1) := by
  intro s1
  have hc : s1.alpha = s.alpha ∧ s1.beta = s.beta ∧ s1.n = s.n := by
    refine drive_inv (fun s : DESF K => { s with init := true }) DESF.smooth
      (fun t => t.alpha = s.alpha ∧ t.beta = s.beta ∧ t.n = s.n) (fun t h => h) (fun t x h => ?_) es s
      ⟨rfl, rfl, rfl⟩
    unfold DESF.smooth
    cases t.init <;> exact h
  have ha : s.alpha = a ∧ s.beta = b ∧ s.n = nS := by
    unfold DESF.setup at hset
    split_ifs at hset
    · simp only [Prod.mk.injEq, and_true] at hset
      rw [← hset]; simp
    · simp at hset
  rw [ha.1, ha.2.1, ha.2.2] at hc
  have hi : s1.init = true := rfl
  clear_value s1
  -- the first sample
  have key : ∀ (zs : List K) (s1 : DESF K), s1.alpha = a ∧ s1.beta = b ∧ s1.n = nS → s1.init = false →
      ∃ l t : ℕ → K, l 0 = s1.lt ∧ t 0 = s1.bt ∧ ∀ k, k < zs.length →
      l (k + 1) = (1 - a) * l k + a * zs.getD k 0 ∧
      t (k + 1) = (1 - b) * t k + b * (l (k + 1) - l k) ∧
      (outputs DESF.smooth s1 zs).getD k 0 = l (k + 1) + nS * t (k + 1) := by
    intro zs
    induction zs with
    | nil => intro s1 _ _; exact ⟨fun _ => s1.lt, fun _ => s1.bt, rfl, rfl, by simp⟩
    | cons z zs ih =>
      intro s1 hc hi
      have h1 : (s1.smooth z).1.alpha = a ∧ (s1.smooth z).1.beta = b ∧ (s1.smooth z).1.n = nS := by
        unfold DESF.smooth; rw [hi]; exact hc
      have h2 : (s1.smooth z).1.init = false := by unfold DESF.smooth; rw [hi]; exact hi
      obtain ⟨l, t, e1, e2, e3⟩ := ih _ h1 h2
      refine ⟨fun k => Nat.casesOn k s1.lt l, fun k => Nat.casesOn k s1.bt t, rfl, rfl, ?_⟩
      intro k hk
      cases k with
      | zero =>
        simp only [e1, e2]
        unfold outputs DESF.smooth
        simp [hi, hc.1, hc.2.1, hc.2.2]
      | succ k =>
        have := e3 k (by simpa using hk)
        simpa [outputs] using this
  have e0 : outputs DESF.smooth s1 (x0 :: xs)
      = outputs DESF.smooth { s1 with lt := x0, bt := x0, init := false } (x0 :: xs) := by
    simp [outputs, DESF.smooth, hi]
  rw [e0]
  exact key (x0 :: xs) { s1 with lt := x0, bt := x0, init := false } hc rfl

/-- Holt's method: level `l = (1-a) (l + t) + a x`, trend `t = (1-b) t + b (l' - l)`, forecast `l + n t`
(specification). -/
def holt (a b n : K) : K → K → List K → List K
  | _, _, [] => []
  | l, t, x :: xs =>
    let l' := (1 - a) * (l + t) + a * x
    let t' := (1 - b) * t + b * (l' - l)
    (l' + n * t') :: holt a b n l' t' xs

/-- **C63 is false of the code for `smootherDESF`** (documented as Holt's method): whatever the initial
trend, the outputs for `0, 1, 2` are not those of Holt's method. -/
theorem C63_desf_false (t0 : ℚ) :
    outputs DESF.smooth ((⟨0, 0, 0, 0, 0, false⟩ : DESF ℚ).setup (1 / 2) (1 / 2) 0).1 [0, 1, 2]
      ≠ holt (1 / 2) (1 / 2) 0 0 t0 [0, 1, 2] := by
  have e : outputs DESF.smooth ((⟨0, 0, 0, 0, 0, false⟩ : DESF ℚ).setup (1 / 2) (1 / 2) 0).1 [0, 1, 2]
      = [0, 1 / 2, 5 / 4] := by decide +kernel
  rw [e]
  simp only [holt, ne_eq, List.cons.injEq, not_and]
  intro h1 h2 h3
  exfalso
  have ht : t0 = 0 := by linarith
  subst ht
  revert h3
  norm_num

-- C63: a history, a reset, then three samples
example : outputs EXPW.smooth ({ drive (fun s => { s with init := true }) EXPW.smooth
      ((⟨0, 0, 0, false⟩ : EXPW ℚ).setup (1 / 2)).1 [some 7, none, some 8] with init := true })
    [1, 4, 2] = [1, 19 / 7, 7 / 3] := by decide +kernel

example : outputs LPF1.smooth ({ drive (fun s => { s with init := true }) LPF1.smooth
      ((⟨0, 0, false⟩ : LPF1 ℚ).setup (1 / 2)).1 [some 7, none, some 8] with init := true })
    [1, 4, 2] = [1, 5 / 2, 9 / 4] := by decide +kernel

example : outputs KLMN.smooth ({ drive (fun s => { s with init := true }) KLMN.smooth
      ((⟨0, 0, 0, 0, 0, 0, 0, false⟩ : KLMN ℚ).setup 1 2 1).1 [some 7] with init := true })
    [2, 4] = [2, 3] := by decide +kernel

-- C63: a second-order filter with a = 1/2, a square root that is exact there, and a step
example : letI : Trans ℚ := ⟨id, id, id, id, id, id, fun x _ => x⟩
    outputs LPF2.smooth ((⟨0, 0, 0, 0, 0, 0, 0, 0, false⟩ : LPF2 ℚ).setup (1 / 2)).1 [0, 9, 9]
      = [0, 1, 11 / 3] := by decide +kernel

end Verif.Smoother
