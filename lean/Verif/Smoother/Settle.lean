import Verif.Smoother.Recursive
import Mathlib.Analysis.SpecificLimits.Basic
import Mathlib.Analysis.Real.Sqrt

/-!
# Properties C155–C157: the recursive smoothers settle (exact arithmetic over the reals)
-/

namespace Verif.Smoother

open Arith Ltisys Filter Topology

/-- Output of the `k`-th call when the samples are `x 0, x 1, ...` (specification). -/
def nth {S : Type} (f : S → ℝ → S × ℝ) (x : ℕ → ℝ) : ℕ → S → ℝ
  | 0, s => (f s (x 0)).2
  | k + 1, s => nth f (fun i => x (i + 1)) k (f s (x 0)).1

/-- State before the `k`-th call (specification). -/
def stateAt {S : Type} (f : S → ℝ → S × ℝ) (x : ℕ → ℝ) (s : S) : ℕ → S
  | 0 => s
  | k + 1 => (f (stateAt f x s k) (x k)).1

theorem stateAt_shift {S : Type} (f : S → ℝ → S × ℝ) (x : ℕ → ℝ) (s : S) (k : ℕ) :
    stateAt f x s (k + 1) = stateAt f (fun i => x (i + 1)) (f s (x 0)).1 k := by
  induction k with
  | zero => rfl
  | succ k ih =>
    rw [stateAt, ih]; rfl

theorem nth_eq {S : Type} (f : S → ℝ → S × ℝ) (x : ℕ → ℝ) (s : S) (k : ℕ) :
    nth f x k s = (f (stateAt f x s k) (x k)).2 := by
  induction k generalizing x s with
  | zero => rfl
  | succ k ih => rw [nth, ih, stateAt_shift]

/-- A sequence driven by a vanishing input through a contraction vanishes. -/
theorem driven_zero {q : ℝ} (q0 : 0 ≤ q) (q1 : q < 1) {e w : ℕ → ℝ} (h : ∀ k, |e (k + 1)| ≤ q * |e k| + |w k|)
    (hw : Tendsto w atTop (𝓝 0)) : Tendsto e atTop (𝓝 0) := by
  rw [Metric.tendsto_atTop]
  intro ε hε
  obtain ⟨N, hN⟩ := Metric.tendsto_atTop.1 hw ((1 - q) * (ε / 2)) (by nlinarith)
  have key : ∀ j, |e (N + j)| ≤ q ^ j * |e N| + ε / 2 := by
    intro j
    induction j with
    | zero => simp; linarith
    | succ j ih =>
      have h1 := h (N + j)
      have h2 := hN (N + j) (by omega)
      rw [Real.dist_eq, sub_zero] at h2
      have h3 := mul_le_mul_of_nonneg_left ih q0
      rw [← add_assoc, pow_succ]
      nlinarith
  have h4 : Tendsto (fun j => q ^ j * |e N|) atTop (𝓝 0) := by
    have := (tendsto_pow_atTop_nhds_zero_of_lt_one q0 q1).mul_const |e N|
    rwa [zero_mul] at this
  obtain ⟨M, hM⟩ := Metric.tendsto_atTop.1 h4 (ε / 2) (by linarith)
  refine ⟨N + M, fun n hn => ?_⟩
  obtain ⟨j, rfl⟩ : ∃ j, n = N + j := ⟨n - N, by omega⟩
  have h5 := hM j (by omega)
  rw [Real.dist_eq, sub_zero] at h5 ⊢
  have := le_abs_self (q ^ j * |e N|)
  linarith [key j]

theorem contract_zero {q : ℝ} (q0 : 0 ≤ q) (q1 : q < 1) {e : ℕ → ℝ} (h : ∀ k, |e (k + 1)| ≤ q * |e k|) :
    Tendsto e atTop (𝓝 0) :=
  driven_zero (w := fun _ => 0) q0 q1 (fun k => by simpa using h k) tendsto_const_nhds

/-- A second-order recursion that meets Jury's conditions strictly vanishes. The proof rescales by a `ρ < 1`
with which the conditions still hold and uses the Schur–Cohn quadratic form. -/
theorem jury_zero {A B : ℝ} (h1 : |A| < 1 + B) (h2 : B < 1) {e : ℕ → ℝ}
    (h : ∀ k, e (k + 2) = -A * e (k + 1) - B * e k) : Tendsto e atTop (𝓝 0) := by
  have hB : -1 < B := by linarith [abs_nonneg A]
  obtain ⟨ρ, r0, r1, k1, k2⟩ : ∃ ρ : ℝ, 0 < ρ ∧ ρ < 1 ∧ |A / ρ| < 1 + B / ρ ^ 2 ∧ B / ρ ^ 2 < 1 := by
    have c1 : ContinuousAt (fun ρ : ℝ => 1 + B / ρ ^ 2 - |A / ρ|) 1 := by
      refine ContinuousAt.sub (continuousAt_const.add (continuousAt_const.div (by fun_prop) (by norm_num))) ?_
      exact (continuousAt_const.div continuousAt_id (by norm_num)).abs
    have c2 : ContinuousAt (fun ρ : ℝ => 1 - B / ρ ^ 2) 1 :=
      continuousAt_const.sub (continuousAt_const.div (by fun_prop) (by norm_num))
    have e1 := c1.eventually (lt_mem_nhds (show (0 : ℝ) < 1 + B / 1 ^ 2 - |A / 1| by simp; linarith))
    have e2 := c2.eventually (lt_mem_nhds (show (0 : ℝ) < 1 - B / 1 ^ 2 by simp; linarith))
    have e3 : ∀ᶠ ρ : ℝ in 𝓝 1, 0 < ρ := lt_mem_nhds one_pos
    obtain ⟨δ, d0, hδ⟩ := Metric.eventually_nhds_iff.1 (e1.and (e2.and e3))
    have := hδ (y := 1 - min (δ / 2) (1 / 2)) (by
      rw [Real.dist_eq]
      have a1 : 0 < min (δ / 2) (1 / 2) := lt_min (by linarith) (by norm_num)
      rw [sub_sub_cancel_left, abs_neg, abs_of_pos a1]
      linarith [min_le_left (δ / 2) (1 / 2 : ℝ)])
    have a1 : 0 < min (δ / 2) (1 / 2) := lt_min (by linarith) (by norm_num)
    exact ⟨_, this.2.2, by linarith, by linarith [this.1], by linarith [this.2.1]⟩
  obtain ⟨a, ha⟩ : ∃ a, a = A / ρ := ⟨_, rfl⟩
  obtain ⟨b, hb⟩ : ∃ b, b = B / ρ ^ 2 := ⟨_, rfl⟩
  rw [← ha, ← hb] at k1
  rw [← hb] at k2
  have hb1 : -1 < b := by linarith [abs_nonneg a]
  obtain ⟨f, hf⟩ : ∃ f : ℕ → ℝ, f = fun k => e k / ρ ^ k := ⟨_, rfl⟩
  have hrec : ∀ k, f (k + 2) = -a * f (k + 1) - b * f k := by
    intro k
    simp only [hf, h k, ha, hb, pow_succ]
    field_simp
  have dec : ∀ k, (1 - b ^ 2) * (f (k + 1) ^ 2 + f k ^ 2) + 2 * a * (1 - b) * (f (k + 1) * f k) ≤
      (1 - b ^ 2) * (f 1 ^ 2 + f 0 ^ 2) + 2 * a * (1 - b) * (f 1 * f 0) := by
    intro k
    induction k with
    | zero => simp
    | succ k ih =>
      refine le_trans ?_ ih
      rw [hrec k]
      nlinarith [sq_nonneg (a * (1 - b) * f (k + 1) + (1 - b ^ 2) * f k)]
  obtain ⟨V, hV⟩ : ∃ V, V = (1 - b ^ 2) * (f 1 ^ 2 + f 0 ^ 2) + 2 * a * (1 - b) * (f 1 * f 0) := ⟨_, rfl⟩
  have low : ∀ k, (1 - b) * (1 + b - |a|) * f k ^ 2 ≤ V := by
    intro k
    have := dec k
    rw [← hV] at this
    refine le_trans ?_ this
    have c0 : 0 < 1 - b := by linarith
    have c1 : -(|a| * (f (k + 1) ^ 2 + f k ^ 2)) ≤ 2 * a * (f (k + 1) * f k) := by
      have t := neg_abs_le (2 * a * (f (k + 1) * f k))
      rw [show 2 * a * (f (k + 1) * f k) = a * (2 * (f (k + 1) * f k)) by ring] at t ⊢
      rw [abs_mul] at t
      have t2 : |2 * (f (k + 1) * f k)| ≤ f (k + 1) ^ 2 + f k ^ 2 := by
        rw [_root_.abs_le]; constructor <;> nlinarith [sq_nonneg (f (k + 1) - f k), sq_nonneg (f (k + 1) + f k)]
      have := mul_le_mul_of_nonneg_left t2 (abs_nonneg a)
      linarith
    have c2 := mul_le_mul_of_nonneg_left c1 c0.le
    have c3 : 0 ≤ (1 - b) * (1 + b - |a|) * f (k + 1) ^ 2 :=
      mul_nonneg (mul_nonneg c0.le (by linarith)) (sq_nonneg _)
    nlinarith
  have dp : 0 < (1 - b) * (1 + b - |a|) := mul_pos (by linarith) (by linarith)
  -- `e k ^ 2 ≤ C (ρ²)^k`
  have bound : ∀ k, e k ^ 2 ≤ V / ((1 - b) * (1 + b - |a|)) * (ρ ^ 2) ^ k := by
    intro k
    have : f k ^ 2 ≤ V / ((1 - b) * (1 + b - |a|)) := by
      rw [le_div_iff₀ dp]; linarith [low k]
    have e1 : e k = f k * ρ ^ k := by
      rw [hf]; field_simp
    rw [e1, mul_pow, ← pow_mul, Nat.mul_comm, pow_mul]
    exact mul_le_mul_of_nonneg_right this (by positivity)
  have z : Tendsto (fun k => V / ((1 - b) * (1 + b - |a|)) * (ρ ^ 2) ^ k) atTop (𝓝 0) := by
    have := (tendsto_pow_atTop_nhds_zero_of_lt_one (r := ρ ^ 2) (by positivity) (by nlinarith)).const_mul (V / ((1 - b) * (1 + b - |a|)))
    rwa [mul_zero] at this
  have sq := squeeze_zero (fun k => sq_nonneg (e k)) bound z
  have := (Real.continuous_sqrt.tendsto 0).comp sq
  rw [Real.sqrt_zero] at this
  rw [tendsto_zero_iff_abs_tendsto_zero]
  refine this.congr fun k => ?_
  simp [Real.sqrt_sq_eq_abs]

/-! ## C155 -/

/-- **C155** (`smootherLPF1`) after an accepted `setup` and any history, a constant signal is approached. -/
theorem C155_lpf1 (s0 s : LPF1 ℝ) (a : ℝ) (hset : s0.setup a = (s, true)) (es : List (Option ℝ)) (c : ℝ) :
    Tendsto (fun k => nth LPF1.smooth (fun _ => c) k (drive (fun s => { s with init := true }) LPF1.smooth s es)) atTop (𝓝 c) := by
  have ha : s.alpha = a ∧ 0 < a ∧ a < 1 := by
    unfold LPF1.setup at hset
    split_ifs at hset with hc
    · simp only [fLit, fLt, Rat.cast_zero, Rat.cast_one, Bool.and_eq_true, decide_eq_true_eq] at hc
      simp only [Prod.mk.injEq, and_true] at hset
      exact ⟨by rw [← hset], hc⟩
    · simp at hset
  have hc := drive_inv (fun s : LPF1 ℝ => { s with init := true }) LPF1.smooth (fun t => t.alpha = a) (fun t h => h)
    (fun t x h => by unfold LPF1.smooth; cases t.init <;> exact h) es s ha.1
  generalize drive (fun s : LPF1 ℝ => { s with init := true }) LPF1.smooth s es = t at *
  have inv : ∀ k, (stateAt LPF1.smooth (fun _ => c) t k).alpha = a := by
    intro k
    induction k with
    | zero => exact hc
    | succ k ih =>
      rw [stateAt]
      generalize stateAt LPF1.smooth (fun _ => c) t k = u at *
      unfold LPF1.smooth; cases u.init <;> exact ih
  have step : ∀ k, |nth LPF1.smooth (fun _ => c) (k + 1) t - c| ≤ a * |nth LPF1.smooth (fun _ => c) k t - c| := by
    intro k
    rw [nth_eq, nth_eq, stateAt]
    have i1 := inv k
    generalize stateAt LPF1.smooth (fun _ => c) t k = u at *
    have e : a * |(u.smooth c).2 - c| = |a * ((u.smooth c).2 - c)| := by rw [abs_mul, abs_of_pos ha.2.1]
    rw [e]
    apply le_of_eq
    congr 1
    unfold LPF1.smooth
    cases hi : u.init <;> simp [i1, hi]
  have := contract_zero ha.2.1.le ha.2.2 (e := fun k => nth LPF1.smooth (fun _ => c) k t - c) step
  simpa using this.add_const c

/-- **C155** (`smootherLPF2`) with a square root that is positive for positive numbers. -/
theorem C155_lpf2 [Trans ℝ] (hsqrt : ∀ x : ℝ, 0 < x → 0 < Trans.sqrt x) (s0 s : LPF2 ℝ) (a : ℝ)
    (hset : s0.setup a = (s, true)) (es : List (Option ℝ)) (c : ℝ) :
    Tendsto (fun k => nth LPF2.smooth (fun _ => c) k (drive (fun s => { s with init := true }) LPF2.smooth s es)) atTop (𝓝 c) := by
  have ha : 0 < a ∧ a < 1 ∧ ∃ p, 0 < p ∧ s.k = a * a / (1 + p + a * a) ∧ s.b1 = 2 * (a * a / (1 + p + a * a)) ∧
      s.a1 = 2 * (a * a - 1) / (1 + p + a * a) ∧ s.a2 = (1 - p + a * a) / (1 + p + a * a) := by
    unfold LPF2.setup at hset
    split_ifs at hset with hc
    · simp only [fLit, fLt, Rat.cast_zero, Rat.cast_one, Bool.and_eq_true, decide_eq_true_eq] at hc
      simp only [fLit, fMul, fAdd, fSub, fDiv, Rat.cast_one, Rat.cast_ofNat, Prod.mk.injEq, and_true] at hset
      rw [← hset]
      exact ⟨hc.1, hc.2, Trans.sqrt (2 * a), hsqrt _ (by linarith), rfl, rfl, rfl, rfl⟩
    · simp at hset
  obtain ⟨a0, a1, p, p0, e1, e2, e3, e4⟩ := ha
  have r0 : 0 < 1 + p + a * a := by positivity
  obtain ⟨h1, h2, h3, h4⟩ := drive_inv (fun s : LPF2 ℝ => { s with init := true }) LPF2.smooth
    (fun t => t.k = s.k ∧ t.b1 = s.b1 ∧ t.a1 = s.a1 ∧ t.a2 = s.a2) (fun t h => h)
    (fun t x h => by unfold LPF2.smooth; cases t.init <;> exact h) es s ⟨rfl, rfl, rfl, rfl⟩
  generalize drive (fun s : LPF2 ℝ => { s with init := true }) LPF2.smooth s es = t at *
  obtain ⟨A, hA⟩ : ∃ A, A = s.a1 := ⟨_, rfl⟩
  obtain ⟨B, hB⟩ : ∃ B, B = s.a2 := ⟨_, rfl⟩
  have dc : s.k + s.b1 + s.k = 1 + A + B := by
    rw [hA, hB, e1, e2, e3, e4]; field_simp; ring
  obtain ⟨S, hS⟩ : ∃ S : ℕ → LPF2 ℝ, S = fun k => stateAt LPF2.smooth (fun _ => c) t (k + 1) := ⟨_, rfl⟩
  have Ss : ∀ k, S (k + 1) = ((S k).smooth c).1 := by intro k; rw [hS]; rfl
  have Sn : ∀ k, nth LPF2.smooth (fun _ => c) k t = (S k).y1 := by intro k; rw [nth_eq, hS]; rfl
  have inv : ∀ k, (S k).init = false ∧ (S k).x1 = c ∧ (S k).k = s.k ∧ (S k).b1 = s.b1 ∧ (S k).a1 = s.a1 ∧ (S k).a2 = s.a2 := by
    intro k
    induction k with
    | zero =>
      rw [hS]
      simp only [stateAt]
      unfold LPF2.smooth
      cases hi : t.init <;> simp [hi, h1, h2, h3, h4]
    | succ k ih =>
      rw [Ss]
      generalize S k = u at *
      unfold LPF2.smooth
      simp [ih.1, ih.2.2.1, ih.2.2.2.1, ih.2.2.2.2.1, ih.2.2.2.2.2]
  have hrec : ∀ k, nth LPF2.smooth (fun _ => c) (k + 2) t - c =
      -A * (nth LPF2.smooth (fun _ => c) (k + 1) t - c) - B * (nth LPF2.smooth (fun _ => c) k t - c) := by
    intro k
    obtain ⟨p1, p2, p3, p4, p5, p6⟩ := inv k
    obtain ⟨q1, q2, q3, q4, q5, q6⟩ := inv (k + 1)
    have x2 : (S (k + 1)).x2 = c := by rw [Ss]; unfold LPF2.smooth; simp [p1, p2]
    have y2 : (S (k + 1)).y2 = (S k).y1 := by rw [Ss]; unfold LPF2.smooth; simp [p1]
    have y1 : (S (k + 2)).y1 = (S (k + 1)).k * c + (S (k + 1)).b1 * (S (k + 1)).x1 + (S (k + 1)).k * (S (k + 1)).x2
        - (S (k + 1)).a1 * (S (k + 1)).y1 - (S (k + 1)).a2 * (S (k + 1)).y2 := by
      rw [Ss (k + 1)]
      generalize S (k + 1) = u at *
      unfold LPF2.smooth; simp [q1]
    rw [Sn, Sn, Sn, y1, x2, y2, q2, q3, q4, q5, q6, ← hA, ← hB]
    linear_combination c * dc
  have j1 : |A| < 1 + B := by
    rw [hA, hB, e3, e4, abs_div, abs_of_pos r0, abs_of_nonpos (by nlinarith), div_lt_iff₀ r0, add_mul, div_mul_cancel₀ _ r0.ne']
    nlinarith
  have j2 : B < 1 := by
    rw [hB, e4, div_lt_one r0]; linarith
  have := jury_zero j1 j2 (e := fun k => nth LPF2.smooth (fun _ => c) k t - c) hrec
  simpa using this.add_const c

/-- **C155** (`smootherEXPW`). -/
theorem C155_expw (s0 s : EXPW ℝ) (a : ℝ) (hset : s0.setup a = (s, true)) (es : List (Option ℝ)) (c : ℝ) :
    Tendsto (fun k => nth EXPW.smooth (fun _ => c) k (drive (fun s => { s with init := true }) EXPW.smooth s es)) atTop (𝓝 c) := by
  have ha : 0 < a ∧ a < 1 ∧ s.lambda = a ∧ s.w = 1 := by
    unfold EXPW.setup at hset
    split_ifs at hset with hc
    · simp only [fLit, fLt, Rat.cast_zero, Rat.cast_one, Bool.and_eq_true, decide_eq_true_eq] at hc
      simp only [Prod.mk.injEq, and_true] at hset
      rw [← hset]
      exact ⟨hc.1, hc.2, rfl, by simp⟩
    · simp at hset
  obtain ⟨a0, a1, e1, e2⟩ := ha
  let P : EXPW ℝ → Prop := fun t => t.lambda = a ∧ 1 ≤ t.w ∧ t.w * (1 - a) ≤ 1
  have pstep : ∀ t x, P t → P (EXPW.smooth t x).1 := by
    rintro t x ⟨p1, p2, p3⟩
    unfold EXPW.smooth
    cases t.init
    · simp only [Bool.false_eq_true, if_false, fMul, fAdd, fLit, Rat.cast_one, P, p1]
      exact ⟨trivial, by nlinarith, by nlinarith⟩
    · simp only [if_true, fMul, fAdd, fLit, Rat.cast_one, P, p1]
      exact ⟨trivial, by linarith, by nlinarith⟩
  have hP := drive_inv (fun s : EXPW ℝ => { s with init := true }) EXPW.smooth P (fun t h => h) pstep es s
    ⟨e1, e2.ge, by rw [e2]; linarith⟩
  generalize drive (fun s : EXPW ℝ => { s with init := true }) EXPW.smooth s es = t at *
  have inv : ∀ k, P (stateAt EXPW.smooth (fun _ => c) t k) := by
    intro k
    induction k with
    | zero => exact hP
    | succ k ih => exact pstep _ _ ih
  have step : ∀ k, |nth EXPW.smooth (fun _ => c) (k + 1) t - c| ≤ a * |nth EXPW.smooth (fun _ => c) k t - c| := by
    intro k
    rw [nth_eq, nth_eq]
    have i1 := inv (k + 1)
    rw [stateAt] at i1 ⊢
    have hm : (EXPW.smooth (stateAt EXPW.smooth (fun _ => c) t k) c).1.m = (EXPW.smooth (stateAt EXPW.smooth (fun _ => c) t k) c).2 := rfl
    have hi : (EXPW.smooth (stateAt EXPW.smooth (fun _ => c) t k) c).1.init = false := by
      generalize stateAt EXPW.smooth (fun _ => c) t k = u
      unfold EXPW.smooth; cases h : u.init <;> simp [h]
    rw [← hm]
    generalize (EXPW.smooth (stateAt EXPW.smooth (fun _ => c) t k) c).1 = u at *
    obtain ⟨p1, p2, p3⟩ := i1
    unfold EXPW.smooth
    simp only [hi, Bool.false_eq_true, if_false, fMul, fAdd, fSub, fDiv, fLit, Rat.cast_one, p1]
    have w1 : 0 < a * u.w + 1 := by nlinarith
    have e : u.m * (1 - 1 / (a * u.w + 1)) + 1 / (a * u.w + 1) * c - c = (a * u.w / (a * u.w + 1)) * (u.m - c) := by
      field_simp; ring
    rw [e, abs_mul]
    refine mul_le_mul_of_nonneg_right ?_ (abs_nonneg _)
    rw [abs_of_nonneg (by positivity), div_le_iff₀ w1]
    nlinarith
  have := contract_zero a0.le a1 (e := fun k => nth EXPW.smooth (fun _ => c) k t - c) step
  simpa using this.add_const c

theorem kalmanCov_ge (q r p0 : ℝ) (hq : 0 < q) (hr : 0 < r) (hp : 0 < p0) (k : ℕ) : q ≤ kalmanCov q r p0 k := by
  cases k with
  | zero => exact le_add_of_nonneg_left hp.le
  | succ k =>
    have := kalmanCov_pos q r p0 hq hr hp k
    rw [kalmanCov]
    have : 0 ≤ kalmanCov q r p0 k * r / (kalmanCov q r p0 k + r) := by positivity
    linarith

theorem klmn_setup {s0 s : KLMN ℝ} {q r p0 : ℝ} (hset : s0.setup q r p0 = (s, true)) :
    0 < q ∧ 0 < r ∧ 0 < p0 ∧ KlmnAt q r p0 0 s := by
  unfold KLMN.setup at hset
  split_ifs at hset with hcond
  · simp only [fLit, fLt, Rat.cast_zero, Bool.and_eq_true, decide_eq_true_eq] at hcond
    simp only [Prod.mk.injEq, and_true] at hset
    rw [← hset]
    exact ⟨hcond.1.1, hcond.1.2, hcond.2, by simp [KlmnAt, kalmanCov]⟩
  · simp at hset

/-- **C155** (`smootherKLMN`). -/
theorem C155_klmn (s0 s : KLMN ℝ) (q r p0 : ℝ) (hset : s0.setup q r p0 = (s, true)) (es : List (Option ℝ)) (c : ℝ) :
    Tendsto (fun k => nth KLMN.smooth (fun _ => c) k (drive (fun s => { s with init := true }) KLMN.smooth s es)) atTop (𝓝 c) := by
  obtain ⟨hq, hr, hp, h0⟩ := klmn_setup hset
  have h1 := klmn_drive hq hr hp es 0 s h0
  rw [Nat.zero_add] at h1
  generalize drive (fun s : KLMN ℝ => { s with init := true }) KLMN.smooth s es = t at *
  have inv : ∀ k, KlmnAt q r p0 (samplesIn es + k) (stateAt KLMN.smooth (fun _ => c) t k) := by
    intro k
    induction k with
    | zero => exact h1
    | succ k ih => exact (klmn_step hq hr hp ih c).1
  have step : ∀ k, |nth KLMN.smooth (fun _ => c) (k + 1) t - c| ≤ (r / (q + r)) * |nth KLMN.smooth (fun _ => c) k t - c| := by
    intro k
    rw [nth_eq, nth_eq]
    obtain ⟨-, i2, i3, -⟩ := klmn_step hq hr hp (inv k) c
    obtain ⟨-, -, -, j4⟩ := klmn_step hq hr hp (inv (k + 1)) c
    rw [j4, stateAt, i2, i3]
    simp only [Bool.false_eq_true, if_false]
    have P1 := kalmanCov_ge q r p0 hq hr hp (samplesIn es + (k + 1))
    generalize kalmanCov q r p0 (samplesIn es + (k + 1)) = P at *
    have Pp : 0 < P := by linarith
    have e : ∀ y : ℝ, y + P / (P + r) * (c - y) - c = r / (P + r) * (y - c) := by
      intro y; field_simp; ring
    rw [e, abs_mul, abs_of_pos (by positivity)]
    refine mul_le_mul_of_nonneg_right ?_ (abs_nonneg _)
    exact div_le_div_of_nonneg_left hr.le (by positivity) (by linarith)
  have := contract_zero (by positivity) ((div_lt_one (by positivity)).2 (by linarith)) (e := fun k => nth KLMN.smooth (fun _ => c) k t - c) step
  simpa using this.add_const c

/-! ## C156: the Kalman gain -/

/-- **C156** the gain of `smootherKLMN` converges, whatever the samples, the resets and the initial covariance, to
the steady-state gain `P / (P + r)` of the Riccati equation `P² = q P + q r`. -/
theorem C156_gain (s0 s : KLMN ℝ) (q r p0 : ℝ) (hset : s0.setup q r p0 = (s, true)) (es : List (Option ℝ)) (x : ℕ → ℝ) :
    let P := (q + √(q ^ 2 + 4 * q * r)) / 2
    P ^ 2 = q * P + q * r ∧ Tendsto (fun k => (stateAt KLMN.smooth x (drive (fun s => { s with init := true }) KLMN.smooth s es) (k + 1)).gain)
      atTop (𝓝 (P / (P + r))) := by
  intro P
  obtain ⟨hq, hr, hp, h0⟩ := klmn_setup hset
  have hs := Real.sq_sqrt (show 0 ≤ q ^ 2 + 4 * q * r by positivity)
  have hs0 := Real.sqrt_nonneg (q ^ 2 + 4 * q * r)
  have hP : P ^ 2 = q * P + q * r := by
    simp only [P]
    generalize √(q ^ 2 + 4 * q * r) = S at *
    nlinarith
  have Pp : 0 < P := by simp only [P]; positivity
  clear_value P
  refine ⟨hP, ?_⟩
  have h1 := klmn_drive hq hr hp es 0 s h0
  rw [Nat.zero_add] at h1
  generalize drive (fun s : KLMN ℝ => { s with init := true }) KLMN.smooth s es = t at *
  have inv : ∀ k, KlmnAt q r p0 (samplesIn es + k) (stateAt KLMN.smooth x t k) := by
    intro k
    induction k with
    | zero => exact h1
    | succ k ih => exact (klmn_step hq hr hp ih (x k)).1
  have gain : ∀ k, (stateAt KLMN.smooth x t (k + 1)).gain =
      kalmanCov q r p0 (samplesIn es + k) / (kalmanCov q r p0 (samplesIn es + k) + r) := by
    intro k
    obtain ⟨i1, i2, i3, i4, i5⟩ := inv k
    rw [stateAt]
    generalize stateAt KLMN.smooth x t k = u at *
    unfold KLMN.smooth
    cases u.init <;> simp [i1, i2, i3, i4, i5, add_comm]
  have cov : Tendsto (fun k => kalmanCov q r p0 (samplesIn es + k) - P) atTop (𝓝 0) := by
    refine contract_zero (q := r / (q + r)) (by positivity) ((div_lt_one (by positivity)).2 (by linarith)) fun k => ?_
    rw [← add_assoc, kalmanCov]
    have g := kalmanCov_ge q r p0 hq hr hp (samplesIn es + k)
    generalize kalmanCov q r p0 (samplesIn es + k) = C at *
    have Cp : 0 < C := by linarith
    have e : C * r / (C + r) + q - P = r / (C + r) * (r / (P + r)) * (C - P) := by
      field_simp
      linear_combination (-(C + r)) * hP
    rw [e, abs_mul]
    refine mul_le_mul_of_nonneg_right ?_ (abs_nonneg _)
    rw [abs_of_pos (by positivity)]
    have u1 : r / (C + r) ≤ r / (q + r) := div_le_div_of_nonneg_left hr.le (by positivity) (by linarith)
    have u2 : r / (P + r) ≤ 1 := (div_le_one (by positivity)).2 (by linarith)
    calc _ ≤ r / (q + r) * 1 := mul_le_mul u1 u2 (by positivity) (by positivity)
      _ = _ := mul_one _
  have cov' : Tendsto (fun k => kalmanCov q r p0 (samplesIn es + k)) atTop (𝓝 P) := by
    simpa using cov.add_const P
  simp only [gain]
  exact cov'.div (cov'.add_const r) (by positivity)

/-! ## C157: double exponential smoothing of ramps -/

theorem desf_setup {s0 s : DESF ℝ} {a b : ℝ} {nS : ℕ} (hset : s0.setup a b nS = (s, true)) (es : List (Option ℝ)) :
    0 < a ∧ a < 1 ∧ 0 < b ∧ b < 1 ∧
      (drive (fun s => { s with init := true }) DESF.smooth s es).alpha = a ∧
      (drive (fun s => { s with init := true }) DESF.smooth s es).beta = b ∧
      (drive (fun s => { s with init := true }) DESF.smooth s es).n = nS := by
  have hc := drive_inv (fun s : DESF ℝ => { s with init := true }) DESF.smooth
    (fun t => t.alpha = s.alpha ∧ t.beta = s.beta ∧ t.n = s.n) (fun t h => h)
    (fun t x h => by unfold DESF.smooth; cases t.init <;> exact h) es s ⟨rfl, rfl, rfl⟩
  rw [hc.1, hc.2.1, hc.2.2]
  unfold DESF.setup at hset
  split_ifs at hset with hcond
  · simp only [fLit, fLt, Rat.cast_zero, Rat.cast_one, Bool.and_eq_true, decide_eq_true_eq] at hcond
    simp only [Prod.mk.injEq, and_true] at hset
    rw [← hset]
    exact ⟨hcond.1.1.1, hcond.1.1.2, hcond.1.2, hcond.2, rfl, rfl, by simp⟩
  · simp at hset

/-- **C157** (partial) on a ramp of slope `g` the outputs of `smootherDESF` approach the ramp displaced by
`n - (1 - a) / a` steps: the forecast horizon `n` less the lag of the level, which has no trend term. -/
theorem C157_ramp_partial (s0 s : DESF ℝ) (a b : ℝ) (nS : ℕ) (hset : s0.setup a b nS = (s, true)) (es : List (Option ℝ)) (x0 g : ℝ) :
    Tendsto (fun k : ℕ => nth DESF.smooth (fun i => x0 + g * i) k (drive (fun s => { s with init := true }) DESF.smooth s es)
      - (x0 + g * k)) atTop (𝓝 (g * (nS - (1 - a) / a))) := by
  obtain ⟨a0, a1, b0, b1, h1, h2, h3⟩ := desf_setup hset es
  generalize drive (fun s : DESF ℝ => { s with init := true }) DESF.smooth s es = t at *
  obtain ⟨X, hX⟩ : ∃ X : ℕ → ℝ, X = fun i : ℕ => x0 + g * i := ⟨_, rfl⟩
  have hX' : ∀ k, X (k + 1) = X k + g := by intro k; rw [hX]; push_cast; ring
  obtain ⟨S, hS⟩ : ∃ S : ℕ → DESF ℝ, S = fun k => stateAt DESF.smooth X t (k + 1) := ⟨_, rfl⟩
  have inv : ∀ k, (S k).init = false ∧ (S k).alpha = a ∧ (S k).beta = b ∧ (S k).n = nS := by
    intro k
    rw [hS]
    induction k with
    | zero =>
      simp only [stateAt]
      unfold DESF.smooth
      cases hi : t.init <;> simp [hi, h1, h2, h3]
    | succ k ih =>
      dsimp only at ih ⊢
      rw [stateAt]
      generalize stateAt DESF.smooth X t (k + 1) = u at *
      unfold DESF.smooth
      simp [ih.1, ih.2.1, ih.2.2.1, ih.2.2.2]
  have hrec : ∀ k, (S (k + 1)).lt = (1 - a) * (S k).lt + a * X (k + 1) ∧
      (S (k + 1)).bt = (1 - b) * (S k).bt + b * ((S (k + 1)).lt - (S k).lt) := by
    intro k
    obtain ⟨i1, i2, i3, i4⟩ := inv k
    have : S (k + 1) = (DESF.smooth (S k) (X (k + 1))).1 := by rw [hS]; rfl
    rw [this]
    generalize S k = u at *
    unfold DESF.smooth
    simp [i1, i2, i3]
  have out : ∀ k, nth DESF.smooth X k t = (S k).lt + nS * (S k).bt := by
    intro k
    rw [nth_eq, ← (inv k).2.2.2, hS]
    dsimp only
    rw [stateAt]
    generalize stateAt DESF.smooth X t k = u
    unfold DESF.smooth
    cases u.init <;> rfl
  -- the lag of the level
  have d : Tendsto (fun k => (S k).lt - X k + g * ((1 - a) / a)) atTop (𝓝 0) := by
    refine contract_zero (q := 1 - a) (by linarith) (by linarith) fun k => ?_
    rw [(hrec k).1, hX']
    have : (1 - a) * (S k).lt + a * (X k + g) - (X k + g) + g * ((1 - a) / a) = (1 - a) * ((S k).lt - X k + g * ((1 - a) / a)) := by
      field_simp; ring
    rw [this, abs_mul, abs_of_nonneg (by linarith)]
  have tr : Tendsto (fun k => (S k).bt - g) atTop (𝓝 0) := by
    have w : Tendsto (fun k => b * (((S (k + 1)).lt - X (k + 1) + g * ((1 - a) / a)) - ((S k).lt - X k + g * ((1 - a) / a)))) atTop (𝓝 0) := by
      have := ((tendsto_add_atTop_iff_nat 1).2 d).sub d
      simpa using this.const_mul b
    refine driven_zero (q := 1 - b) (by linarith) (by linarith) (fun k => ?_) w
    have : (S (k + 1)).bt - g = (1 - b) * ((S k).bt - g) +
        b * (((S (k + 1)).lt - X (k + 1) + g * ((1 - a) / a)) - ((S k).lt - X k + g * ((1 - a) / a))) := by
      rw [(hrec k).2, hX']; ring
    rw [this]
    refine (abs_add_le _ _).trans ?_
    rw [abs_mul, abs_of_nonneg (show 0 ≤ 1 - b by linarith)]
  have fin := d.add (tr.const_mul (nS : ℝ))
  have fin := fin.add_const (g * (nS - (1 - a) / a))
  simp only [mul_zero, add_zero, zero_add] at fin
  refine fin.congr fun k => ?_
  have := out k
  rw [hX] at this ⊢
  rw [this]
  ring

/-- **C155** (`smootherDESF`, any forecast horizon). -/
theorem C155_desf (s0 s : DESF ℝ) (a b : ℝ) (nS : ℕ) (hset : s0.setup a b nS = (s, true)) (es : List (Option ℝ)) (c : ℝ) :
    Tendsto (fun k => nth DESF.smooth (fun _ => c) k (drive (fun s => { s with init := true }) DESF.smooth s es)) atTop (𝓝 c) := by
  have := C157_ramp_partial s0 s a b nS hset es c 0
  simp only [zero_mul, add_zero] at this
  simpa using this.add_const c

/-- **C157 is false of the code**: set up to forecast one step ahead with `a = 1/4`, the outputs for the ramp
`0, 1, 2, ...` end up two steps behind the signal. -/
theorem C157_false (s0 s : DESF ℝ) (b : ℝ) (hset : s0.setup (1 / 4) b 1 = (s, true)) :
    Tendsto (fun k : ℕ => nth DESF.smooth (fun i => (i : ℝ)) k s - k) atTop (𝓝 (-2)) := by
  have := C157_ramp_partial s0 s (1 / 4) b 1 hset [] 0 1
  norm_num [drive] at this
  exact this

-- hypotheses met: accepted set-ups
example : (⟨0, 0, false⟩ : LPF1 ℝ).setup (1 / 2) = (⟨1 / 2, 0, true⟩, true) := by
  norm_num [LPF1.setup]
example : (⟨0, 0, 0, 0, 0, 0, 0, false⟩ : KLMN ℝ).setup 1 2 1 = (⟨0, 1, 1, 1, 2, 1, 0, true⟩, true) := by
  norm_num [KLMN.setup]
example : (⟨0, 0, 0, 0, 0, false⟩ : DESF ℝ).setup (1 / 4) (1 / 2) 1 = (⟨1 / 4, 1 / 2, 0, 0, 1, true⟩, true) := by
  norm_num [DESF.setup]

end Verif.Smoother
