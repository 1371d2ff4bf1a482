import Verif.Pid.FloatStep
import Verif.Rms.Float
import Verif.Smoother.Settle

/-!
# The second-order low-pass filter in binary32 (C178)

Full claim: for every accepted factor the computed output stays close to the exact output for ever, and settles near a constant
sample. The second half is false for small factors
(`C178_deaf_false`); missing from the `_partial` theorems are the factors below 0.01 (`FloatLpf2Fast.lean` has those above 0.45).
-/

namespace Verif.Smoother

open Arith F32 Pid

attribute [local instance] Rms.sqrtTrans

/-- One step of a second-order recursion with poles `l`, `m` in [0, 1): the bound `B` is kept. -/
theorem two_poles {l m B ρ e0 e1 e2 : ℝ} (l0 : 0 ≤ l) (m0 : 0 ≤ m) (h0 : |e0| ≤ B) (h1 : |e1 - l * e0| ≤ (1 - l) * B)
    (h2 : e2 = (l + m) * e1 - l * m * e0 + ρ) (hρ : |ρ| ≤ (1 - l) * (1 - m) * B) :
    |e1| ≤ B ∧ |e2 - l * e1| ≤ (1 - l) * B := by
  constructor
  · have e : e1 = (e1 - l * e0) + l * e0 := by ring
    rw [e]
    refine (abs_add_le _ _).trans ?_
    rw [abs_mul, abs_of_nonneg l0]
    have := mul_le_mul_of_nonneg_left h0 l0
    linarith
  · have e : e2 - l * e1 = m * (e1 - l * e0) + ρ := by rw [h2]; ring
    rw [e]
    refine (abs_add_le _ _).trans ?_
    rw [abs_mul, abs_of_nonneg m0]
    have := mul_le_mul_of_nonneg_left h1 m0
    have e' : (1 - l) * (1 - m) * B = (1 - l) * B - m * ((1 - l) * B) := by ring
    rw [e'] at hρ
    linarith

/-- The poles of a recursion with real positive poles. -/
theorem poles {A1 A2 : ℝ} (h1 : -2 < A1) (h2 : A1 ≤ 0) (h3 : 0 ≤ A2) (h4 : 4 * A2 ≤ A1 ^ 2) (h5 : 0 < 1 + A1 + A2) :
    ∃ l m, 0 ≤ l ∧ l < 1 ∧ 0 ≤ m ∧ m < 1 ∧ l + m = -A1 ∧ l * m = A2 := by
  obtain ⟨d, hd⟩ : ∃ d, d = Real.sqrt (A1 ^ 2 - 4 * A2) := ⟨_, rfl⟩
  have d0 : 0 ≤ d := hd ▸ Real.sqrt_nonneg _
  have d2 : d ^ 2 = A1 ^ 2 - 4 * A2 := by rw [hd]; exact Real.sq_sqrt (by linarith)
  have d1 : d ≤ -A1 := abs_le_of_sq_le_sq' (by nlinarith) (by linarith) |>.2
  have d3 : d < 2 + A1 := by
    by_contra hc
    have : (2 + A1) ^ 2 ≤ d ^ 2 := by
      apply pow_le_pow_left₀ (by linarith); linarith
    nlinarith
  refine ⟨(-A1 + d) / 2, (-A1 - d) / 2, by linarith, by linarith, by linarith, by linarith, by ring, ?_⟩
  have : (-A1 + d) / 2 * ((-A1 - d) / 2) = (A1 ^ 2 - d ^ 2) / 4 := by ring
  rw [this, d2]; ring

/-- The stored coefficients (not a definition of the repository). -/
structure Coef (s : LPF2 (BitVec 32)) (a : ℝ) : Prop where
  fk : F32.Finite s.k
  fb : F32.Finite s.b1
  f1 : F32.Finite s.a1
  f2 : F32.Finite s.a2
  k0 : 0 ≤ (val s.k : ℝ)
  k1 : (val s.k : ℝ) ≤ 0.1
  b0 : 0 ≤ (val s.b1 : ℝ)
  b1 : (val s.b1 : ℝ) ≤ 0.2
  a1l : -2 < (val s.a1 : ℝ)
  a1u : (val s.a1 : ℝ) ≤ 0
  a2l : 0 ≤ (val s.a2 : ℝ)
  a2u : (val s.a2 : ℝ) ≤ 1
  disc : 4 * (val s.a2 : ℝ) ≤ (val s.a1 : ℝ) ^ 2
  low : 1.8 * a ^ 2 ≤ 1 + (val s.a1 : ℝ) + val s.a2
  gain : |(2 * val s.k + val s.b1 : ℝ) - (1 + val s.a1 + val s.a2)| ≤ 2e-6

/-- The computed and the exact recursion, the indices shifted by two: the first sample fills the memory (not a definition of the repository). -/
def stream (x : ℕ → BitVec 32) (n : ℕ) : BitVec 32 := x (n - 2)

/-- `smootherLPF2::smooth` as a recursion on the computed outputs, `/repo/src/smoother.cpp` lines 65-83. -/
def lpf2F (s : LPF2 (BitVec 32)) (x : ℕ → BitVec 32) : ℕ → BitVec 32
  | 0 => x 0
  | 1 => x 0
  | n + 2 => F32.sub (F32.sub (F32.add (F32.add (F32.mul s.k (stream x (n + 2))) (F32.mul s.b1 (stream x (n + 1)))) (F32.mul s.k (stream x n)))
      (F32.mul s.a1 (lpf2F s x (n + 1)))) (F32.mul s.a2 (lpf2F s x n))

/-- The exact recursion with the stored coefficients. -/
noncomputable def lpf2R (s : LPF2 (BitVec 32)) (x : ℕ → BitVec 32) : ℕ → ℝ
  | 0 => val (x 0)
  | 1 => val (x 0)
  | n + 2 => val s.k * val (stream x (n + 2)) + val s.b1 * val (stream x (n + 1)) + val s.k * val (stream x n) -
      val s.a1 * lpf2R s x (n + 1) - val s.a2 * lpf2R s x n

theorem lpf2_round {k b1 a1 a2 x0 x1 x2 y1 y2 : BitVec 32} {M : ℝ} (fk : F32.Finite k) (fb : F32.Finite b1) (f1 : F32.Finite a1)
    (f2 : F32.Finite a2) (hk : |(val k : ℝ)| ≤ 0.1) (hb : |(val b1 : ℝ)| ≤ 0.2) (h1 : |(val a1 : ℝ)| ≤ 2) (h2 : |(val a2 : ℝ)| ≤ 1)
    (g0 : F32.Finite x0) (g1 : F32.Finite x1) (g2 : F32.Finite x2) (g3 : F32.Finite y1) (g4 : F32.Finite y2)
    (m0 : |(val x0 : ℝ)| ≤ M) (m1 : |(val x1 : ℝ)| ≤ M) (m2 : |(val x2 : ℝ)| ≤ M) (m3 : |(val y1 : ℝ)| ≤ 1.1 * M)
    (m4 : |(val y2 : ℝ)| ≤ 1.1 * M) (M0 : 1e-20 ≤ M) (M1 : M ≤ 1e30) :
    F32.Near (F32.sub (F32.sub (F32.add (F32.add (F32.mul k x0) (F32.mul b1 x1)) (F32.mul k x2)) (F32.mul a1 y1)) (F32.mul a2 y2))
      (val k * val x0 + val b1 * val x1 + val k * val x2 - val a1 * val y1 - val a2 * val y2) (6.5e-7 * M) := by
  have t1 := NB.mul fk hk (NB.self g0 m0) (by norm_num at M1 ⊢; linarith)
  have t2 := NB.mul fb hb (NB.self g1 m1) (by norm_num at M1 ⊢; linarith)
  have t3 := NB.mul fk hk (NB.self g2 m2) (by norm_num at M1 ⊢; linarith)
  have t4 := NB.mul f1 h1 (NB.self g3 m3) (by norm_num at M1 ⊢; linarith)
  have t5 := NB.mul f2 h2 (NB.self g4 m4) (by norm_num at M1 ⊢; linarith)
  replace t1 := t1.weak (Q' := 0.1 * M) (d' := 6e-9 * M) (by linarith) (by norm_num at M0 ⊢; linarith)
  replace t2 := t2.weak (Q' := 0.2 * M) (d' := 1.2e-8 * M) (by linarith) (by norm_num at M0 ⊢; linarith)
  replace t3 := t3.weak (Q' := 0.1 * M) (d' := 6e-9 * M) (by linarith) (by norm_num at M0 ⊢; linarith)
  replace t4 := t4.weak (Q' := 2.2 * M) (d' := 1.32e-7 * M) (by norm_num; linarith) (by norm_num at M0 ⊢; linarith)
  replace t5 := t5.weak (Q' := 1.1 * M) (d' := 6.6e-8 * M) (by norm_num) (by norm_num at M0 ⊢; linarith)
  have u1 := (t1.add t2 (by norm_num at M1 ⊢; linarith)).weak (Q' := 0.3 * M) (d' := 3.6e-8 * M) (by norm_num; linarith)
    (by norm_num at M0 ⊢; linarith)
  have u2 := (u1.add t3 (by norm_num at M1 ⊢; linarith)).weak (Q' := 0.4 * M) (d' := 6.6e-8 * M) (by norm_num; linarith)
    (by norm_num at M0 ⊢; linarith)
  have u3 := (u2.sub t4 (by norm_num at M1 ⊢; linarith)).weak (Q' := 2.6 * M) (d' := 3.54e-7 * M) (by norm_num; linarith)
    (by norm_num at M0 ⊢; linarith)
  exact (u3.sub t5 (by norm_num at M1 ⊢; linarith)).near.mono (by norm_num at M0 ⊢; linarith)

/-- For ever: the computed recursion stays close to the exact one with the stored coefficients. -/
theorem lpf2_forever {s : LPF2 (BitVec 32)} {a M : ℝ} (c : Coef s a) (ha : 0.01 ≤ a) (x : ℕ → BitVec 32) (fx : ∀ n, F32.Finite (x n))
    (hx : ∀ n, |(val (x n) : ℝ)| ≤ M) (M0 : 1e-20 ≤ M) (M1 : M ≤ 1e30) (n : ℕ) :
    F32.Finite (lpf2F s x n) ∧ |(val (lpf2F s x n) : ℝ) - lpf2R s x n| ≤ 4e-7 / a ^ 2 * M ∧ |lpf2R s x n| ≤ 1.02 * M := by
  have Mp : 0 < M := by norm_num at M0; linarith
  have ap : 0 < a := by norm_num at ha; linarith
  have a2 : 1e-4 ≤ a ^ 2 := by
    have := pow_le_pow_left₀ (by norm_num) ha 2
    norm_num at this ⊢; linarith
  obtain ⟨Γ, hΓ⟩ : ∃ Γ, Γ = 1 + (val s.a1 : ℝ) + val s.a2 := ⟨_, rfl⟩
  have G0 : 1.8e-4 ≤ Γ := by have := c.low; rw [← hΓ] at this; norm_num at this a2 ⊢; linarith
  have Gp : 0 < Γ := by norm_num at G0; linarith
  obtain ⟨l, m, l0, l1, m0, m1, hs, hp⟩ := poles c.a1l c.a1u c.a2l c.disc (hΓ ▸ Gp)
  have hg : (1 - l) * (1 - m) = Γ := by rw [hΓ]; linear_combination -hs + hp
  have D4 : 4e-7 / a ^ 2 ≤ 4e-3 := by
    rw [div_le_iff₀ (by positivity)]; norm_num at a2 ⊢; linarith
  have D0 : 0 ≤ 4e-7 / a ^ 2 := by positivity
  have DΓ : 6.5e-7 ≤ Γ * (4e-7 / a ^ 2) := by
    have lo := c.low
    rw [← hΓ] at lo
    rw [mul_div_assoc', le_div_iff₀ (by positivity)]
    norm_num at lo ⊢; linarith
  have kb : 2 * (val s.k : ℝ) + val s.b1 ≤ 1.02 * Γ := by
    have := (_root_.abs_le.1 c.gain).2
    rw [← hΓ] at this
    norm_num at this G0 ⊢; linarith
  have hst : ∀ n, |(val (stream x n) : ℝ)| ≤ M := fun n => hx _
  have fst : ∀ n, F32.Finite (stream x n) := fun n => fx _
  -- invariant on two consecutive outputs
  have key : ∀ n, F32.Finite (lpf2F s x n) ∧ F32.Finite (lpf2F s x (n + 1)) ∧
      |(val (lpf2F s x n) : ℝ) - lpf2R s x n| ≤ 4e-7 / a ^ 2 * M ∧
      |((val (lpf2F s x (n + 1)) : ℝ) - lpf2R s x (n + 1)) - l * ((val (lpf2F s x n) : ℝ) - lpf2R s x n)| ≤ (1 - l) * (4e-7 / a ^ 2 * M) ∧
      |lpf2R s x n| ≤ 1.02 * M ∧ |lpf2R s x (n + 1) - l * lpf2R s x n| ≤ (1 - l) * (1.02 * M) := by
    intro n
    induction n with
    | zero =>
      refine ⟨fx 0, fx 0, ?_, ?_, ?_, ?_⟩
      · simp only [lpf2F, lpf2R, sub_self, abs_zero]; positivity
      · simp only [lpf2F, lpf2R, sub_self, mul_zero, abs_zero]
        exact mul_nonneg (by linarith) (by positivity)
      · simp only [lpf2R]; have := hx 0; norm_num; linarith
      · simp only [lpf2R]
        have e : (val (x 0) : ℝ) - l * val (x 0) = (1 - l) * val (x 0) := by ring
        rw [e, abs_mul, abs_of_nonneg (by linarith : 0 ≤ 1 - l)]
        refine mul_le_mul_of_nonneg_left ?_ (by linarith)
        have := hx 0; norm_num; linarith
    | succ n ih =>
      obtain ⟨i1, i2, i3, i4, i5, i6⟩ := ih
      -- exact recursion
      have r2 : lpf2R s x (n + 2) = (l + m) * lpf2R s x (n + 1) - l * m * lpf2R s x n +
          (val s.k * val (stream x (n + 2)) + val s.b1 * val (stream x (n + 1)) + val s.k * val (stream x n)) := by
        rw [hs, hp]; simp only [lpf2R]; ring
      have ρ2 : |(val s.k * val (stream x (n + 2)) + val s.b1 * val (stream x (n + 1)) + val s.k * val (stream x n) : ℝ)| ≤
          (1 - l) * (1 - m) * (1.02 * M) := by
        rw [hg]
        have t1 : |(val s.k : ℝ) * val (stream x (n + 2))| ≤ val s.k * M := by
          rw [abs_mul, abs_of_nonneg c.k0]; exact mul_le_mul_of_nonneg_left (hst _) c.k0
        have t2 : |(val s.b1 : ℝ) * val (stream x (n + 1))| ≤ val s.b1 * M := by
          rw [abs_mul, abs_of_nonneg c.b0]; exact mul_le_mul_of_nonneg_left (hst _) c.b0
        have t3 : |(val s.k : ℝ) * val (stream x n)| ≤ val s.k * M := by
          rw [abs_mul, abs_of_nonneg c.k0]; exact mul_le_mul_of_nonneg_left (hst _) c.k0
        have t4 := mul_le_mul_of_nonneg_right kb Mp.le
        have t5 := abs_add_le ((val s.k : ℝ) * val (stream x (n + 2)) + val s.b1 * val (stream x (n + 1))) (val s.k * val (stream x n))
        have t6 := abs_add_le ((val s.k : ℝ) * val (stream x (n + 2))) (val s.b1 * val (stream x (n + 1)))
        have e : (2 * (val s.k : ℝ) + val s.b1) * M = val s.k * M + val s.b1 * M + val s.k * M := by ring
        have e' : 1.02 * Γ * M = Γ * (1.02 * M) := by ring
        rw [e, e'] at t4
        linarith
      obtain ⟨j5, j6⟩ := two_poles l0 m0 i5 i6 r2 ρ2
      -- magnitudes of the computed outputs
      have DM : 4e-7 / a ^ 2 * M ≤ 4e-3 * M := mul_le_mul_of_nonneg_right D4 Mp.le
      have b3 : |(val (lpf2F s x (n + 1)) : ℝ) - lpf2R s x (n + 1)| ≤ 4e-7 / a ^ 2 * M := by
        have e : (val (lpf2F s x (n + 1)) : ℝ) - lpf2R s x (n + 1) =
            (((val (lpf2F s x (n + 1)) : ℝ) - lpf2R s x (n + 1)) - l * ((val (lpf2F s x n) : ℝ) - lpf2R s x n)) +
              l * ((val (lpf2F s x n) : ℝ) - lpf2R s x n) := by ring
        rw [e]
        refine (abs_add_le _ _).trans ?_
        rw [abs_mul, abs_of_nonneg l0]
        have := mul_le_mul_of_nonneg_left i3 l0
        linarith
      have y1 : |(val (lpf2F s x (n + 1)) : ℝ)| ≤ 1.1 * M := by
        have := abs_add_le ((val (lpf2F s x (n + 1)) : ℝ) - lpf2R s x (n + 1)) (lpf2R s x (n + 1))
        rw [sub_add_cancel] at this
        norm_num at DM j5 ⊢; linarith
      have y2 : |(val (lpf2F s x n) : ℝ)| ≤ 1.1 * M := by
        have := abs_add_le ((val (lpf2F s x n) : ℝ) - lpf2R s x n) (lpf2R s x n)
        rw [sub_add_cancel] at this
        norm_num at DM i5 ⊢; linarith
      have nr := lpf2_round c.fk c.fb c.f1 c.f2 (by rw [abs_of_nonneg c.k0]; exact c.k1) (by rw [abs_of_nonneg c.b0]; exact c.b1)
        (by rw [abs_of_nonpos c.a1u]; linarith [c.a1l]) (by rw [abs_of_nonneg c.a2l]; exact c.a2u) (fst (n + 2)) (fst (n + 1)) (fst n) i2 i1
        (hst (n + 2)) (hst (n + 1)) (hst n) y1 y2 M0 M1
      have f3 : F32.Finite (lpf2F s x (n + 2)) := by rw [lpf2F]; exact nr.fin
      have e2 : ((val (lpf2F s x (n + 2)) : ℝ) - lpf2R s x (n + 2)) = (l + m) * ((val (lpf2F s x (n + 1)) : ℝ) - lpf2R s x (n + 1)) -
          l * m * ((val (lpf2F s x n) : ℝ) - lpf2R s x n) + ((val (lpf2F s x (n + 2)) : ℝ) -
            (val s.k * val (stream x (n + 2)) + val s.b1 * val (stream x (n + 1)) + val s.k * val (stream x n) -
              val s.a1 * val (lpf2F s x (n + 1)) - val s.a2 * val (lpf2F s x n))) := by
        rw [hs, hp]; simp only [lpf2R]; ring
      have ρe : |(val (lpf2F s x (n + 2)) : ℝ) -
            (val s.k * val (stream x (n + 2)) + val s.b1 * val (stream x (n + 1)) + val s.k * val (stream x n) -
              val s.a1 * val (lpf2F s x (n + 1)) - val s.a2 * val (lpf2F s x n))| ≤ (1 - l) * (1 - m) * (4e-7 / a ^ 2 * M) := by
        have e := nr.err
        rw [lpf2F]
        refine e.trans ?_
        rw [hg, ← mul_assoc]
        exact mul_le_mul_of_nonneg_right DΓ Mp.le
      obtain ⟨j3, j4⟩ := two_poles l0 m0 i3 i4 e2 ρe
      exact ⟨i2, f3, j3, j4, j5, j6⟩
  obtain ⟨q1, -, q3, -, q5, -⟩ := key n
  exact ⟨q1, q3, q5⟩

/-- The square and the root that `setup` computes (not a definition of the repository). -/
structure PQ (t p q : ℝ) : Prop where
  t0 : 0.01 ≤ t
  t1 : t ≤ 0.45
  q0 : 0 < q
  ql : t * t - 2e-8 ≤ q
  qu : q ≤ t * t + 2e-8
  q1 : q ≤ 0.2026
  pl : 2 * t - 1e-6 ≤ p ^ 2
  pa : 0.14 ≤ p
  pb : p ≤ 0.949

theorem setup_pq {a : BitVec 32} (fa : F32.Finite a) (h0 : 0.01 ≤ (val a : ℝ)) (h1 : (val a : ℝ) ≤ 0.45) :
    F32.Finite (F32.mul a a) ∧ F32.Finite (Ffmath.sqrt (F32.mul (F32.lit 2) a)) ∧
      PQ (val a) (val (Ffmath.sqrt (F32.mul (F32.lit 2) a))) (val (F32.mul a a)) := by
  have c2 : F32.Finite (F32.lit 2) ∧ val (F32.lit 2) = 2 := by decide +kernel
  have v2 : (val (F32.lit 2) : ℝ) = 2 := by exact_mod_cast c2.2
  obtain ⟨t, ht⟩ : ∃ t, t = (val a : ℝ) := ⟨_, rfl⟩
  rw [← ht] at h0 h1 ⊢
  have t0 : 0 < t := by norm_num at h0; linarith
  have ta : |(val a : ℝ)| ≤ 0.45 := by rw [← ht, abs_of_pos t0]; exact h1
  have nq := NB.mul fa ta (NB.self fa ta) (by norm_num)
  rw [← ht] at nq
  have eq := nq.near.err
  rw [_root_.abs_le] at eq
  have sq0 : 1e-4 ≤ t * t := by
    have := mul_le_mul h0 h0 (by norm_num) t0.le
    norm_num at this ⊢; linarith
  have sq1 : t * t ≤ 0.45 * t := mul_le_mul_of_nonneg_right h1 t0.le
  have sq2 : t * t ≤ 0.2025 := by norm_num at sq1 h1 ⊢; linarith
  have ql : t * t - 2e-8 ≤ (val (F32.mul a a) : ℝ) := by have := eq.1; norm_num at this ⊢; linarith
  have qu : (val (F32.mul a a) : ℝ) ≤ t * t + 2e-8 := by have := eq.2; norm_num at this ⊢; linarith
  have n2 := NB.mul c2.1 (G := 2) (by rw [v2]; norm_num) (NB.self fa ta) (by norm_num)
  rw [v2, ← ht] at n2
  have fq := nq.near.fin
  have fu := n2.near.fin
  have eu := n2.near.err
  rw [_root_.abs_le] at eu
  have ul : 2 * t - 6e-8 ≤ (val (F32.mul (F32.lit 2) a) : ℝ) := by have := eu.1; norm_num at this ⊢; linarith
  have uu : (val (F32.mul (F32.lit 2) a) : ℝ) ≤ 2 * t + 6e-8 := by have := eu.2; norm_num at this ⊢; linarith
  have un : 2 ^ (-126 : ℤ) ≤ val (F32.mul (F32.lit 2) a) := by
    have h : ((0.01 : ℚ) : ℝ) ≤ (val (F32.mul (F32.lit 2) a) : ℝ) := by
      refine le_trans ?_ ul
      push_cast; norm_num at h0 ⊢; linarith
    exact le_trans (by norm_num) ((Rat.cast_le (K := ℝ)).1 h)
  obtain ⟨fp, pp, pl, pu⟩ := Ffmath.sqrt_sq fu un
  generalize Ffmath.sqrt (F32.mul (F32.lit 2) a) = p1 at *
  obtain ⟨p, hp⟩ : ∃ p, p = (val p1 : ℝ) := ⟨_, rfl⟩
  have p0 : 0 < p := by rw [hp]; exact_mod_cast pp
  have pl' : (1 - 0.0000003) * (val (F32.mul (F32.lit 2) a) : ℝ) ≤ p ^ 2 := by
    rw [hp]
    have := (Rat.cast_le (K := ℝ)).2 pl
    push_cast at this; norm_num at this ⊢; linarith
  have pu' : p ^ 2 ≤ (1 + 0.0000033) * (val (F32.mul (F32.lit 2) a) : ℝ) := by
    rw [hp]
    have := (Rat.cast_le (K := ℝ)).2 pu
    push_cast at this; norm_num at this ⊢; linarith
  have pL : 2 * t - 1e-6 ≤ p ^ 2 := by norm_num at pl' ul uu h1 ⊢; linarith
  have pU : p ^ 2 ≤ 2 * t + 4e-6 := by norm_num at pu' ul uu h1 ⊢; linarith
  have pa : 0.14 ≤ p := by
    by_contra hc
    have := pow_le_pow_left₀ p0.le (not_le.1 hc).le 2
    norm_num at this pL h0; linarith
  have pb : p ≤ 0.949 := by
    by_contra hc
    have := pow_le_pow_left₀ (by norm_num) (not_le.1 hc).le 2
    norm_num at this pU h1; linarith
  rw [← hp]
  exact ⟨fq, fp, h0, h1, by norm_num at ql sq0; linarith, ql, qu, by norm_num at qu sq2 ⊢; linarith, pL, pa, pb⟩

/-- The coefficients in exact arithmetic from the computed square and root. -/
theorem coef_exact {t p q : ℝ} (h : PQ t p q) :
    1.14 ≤ 1 + p + q ∧ 1 + p + q ≤ 2.1516 ∧ 4.6e-5 ≤ q / (1 + p + q) ∧ q / (1 + p + q) ≤ 0.0999 ∧
      -1.76 ≤ 2 * (q - 1) / (1 + p + q) ∧ 2 * (q - 1) / (1 + p + q) ≤ -0.7 ∧
      0.01 ≤ (1 - p + q) / (1 + p + q) ∧ (1 - p + q) / (1 + p + q) ≤ 0.95 ∧
      1 + 2 * (q - 1) / (1 + p + q) + (1 - p + q) / (1 + p + q) = 4 * (q / (1 + p + q)) ∧
      1.855 * q ≤ 4 * (q / (1 + p + q)) ∧
      4 * ((1 - p + q) / (1 + p + q)) + 0.01 ≤ (2 * (q - 1) / (1 + p + q)) ^ 2 := by
  obtain ⟨h0, h1, q0, ql, qu, q1, pL, pa, pb⟩ := h
  have t0 : 0 < t := by norm_num at h0; linarith
  have p0 : 0 < p := by norm_num at pa; linarith
  have sq0 : 1e-4 ≤ t * t := by
    have := mul_le_mul h0 h0 (by norm_num) t0.le
    norm_num at this ⊢; linarith
  have sq1 : t * t ≤ 0.45 * t := mul_le_mul_of_nonneg_right h1 t0.le
  obtain ⟨ρ, hρ⟩ : ∃ ρ, ρ = 1 + p + q := ⟨_, rfl⟩
  rw [← hρ]
  have r0 : 1.14 ≤ ρ := by norm_num at pa ⊢; linarith
  have rp : 0 < ρ := by norm_num at r0; linarith
  have r1 : ρ ≤ 2.1516 := by norm_num at pb q1 ⊢; linarith
  refine ⟨r0, r1, ?_, ?_, ?_, ?_, ?_, ?_, ?_, ?_, ?_⟩
  · rw [le_div_iff₀ rp]; norm_num at r1 ql sq0 ⊢; linarith
  · rw [div_le_iff₀ rp, hρ]
    have : p ^ 2 ≤ p := by
      have := mul_le_mul_of_nonneg_left pb p0.le
      norm_num at this; nlinarith
    norm_num at qu sq1 pL h1 ⊢; linarith
  · rw [le_div_iff₀ rp]; norm_num at r0 ⊢; linarith
  · rw [div_le_iff₀ rp]; norm_num at r1 q1 ⊢; linarith
  · rw [le_div_iff₀ rp]; norm_num at r1 pb ⊢; linarith
  · rw [div_le_iff₀ rp, hρ]; norm_num at pa q1 ⊢; linarith
  · field_simp; rw [hρ]; ring
  · rw [mul_div_assoc', le_div_iff₀ rp]
    have := mul_le_mul_of_nonneg_left r1 q0.le
    norm_num at this ⊢; linarith
  · have e : (2 * (q - 1) / ρ) ^ 2 - 4 * ((1 - p + q) / ρ) = 4 * (p ^ 2 - 4 * q) / ρ ^ 2 := by
      field_simp; rw [hρ]; ring
    have d0 : 0.019 ≤ p ^ 2 - 4 * q := by
      have := mul_nonneg (sub_nonneg.2 h0) (sub_nonneg.2 h1)
      norm_num at this pL qu h0 ⊢; linarith
    have d1 : 0.01 ≤ 4 * (p ^ 2 - 4 * q) / ρ ^ 2 := by
      rw [le_div_iff₀ (by positivity)]
      have := pow_le_pow_left₀ rp.le r1 2
      norm_num at this d0 ⊢; linarith
    linarith

/-- The rounded coefficients. -/
theorem coef_near {t : ℝ} {p1 aa : BitVec 32} (fp : F32.Finite p1) (fq : F32.Finite aa) (h : PQ t (val p1) (val aa)) :
    F32.Near (F32.div aa (F32.add (F32.add (F32.lit 1) p1) aa)) (val aa / (1 + val p1 + val aa)) 3e-8 ∧
    F32.Near (F32.mul (F32.lit 2) (F32.div aa (F32.add (F32.add (F32.lit 1) p1) aa))) (2 * (val aa / (1 + val p1 + val aa))) 8e-8 ∧
    F32.Near (F32.div (F32.mul (F32.lit 2) (F32.sub aa (F32.lit 1))) (F32.add (F32.add (F32.lit 1) p1) aa))
      (2 * (val aa - 1) / (1 + val p1 + val aa)) 7.6e-7 ∧
    F32.Near (F32.div (F32.add (F32.sub (F32.lit 1) p1) aa) (F32.add (F32.add (F32.lit 1) p1) aa))
      ((1 - val p1 + val aa) / (1 + val p1 + val aa)) 4.5e-7 := by
  have c2 : F32.Finite (F32.lit 2) ∧ val (F32.lit 2) = 2 := by decide +kernel
  have v1 : (val (F32.lit 1) : ℝ) = 1 := by exact_mod_cast Fis.l0.2.2.2
  have v2 : (val (F32.lit 2) : ℝ) = 2 := by exact_mod_cast c2.2
  have n1 : NB (F32.lit 1) 1 1 0 := by
    have := NB.self (Q := 1) Fis.l0.2.2.1 (by rw [v1]; norm_num)
    rwa [v1] at this
  obtain ⟨r0, r1, -, kq, A1l, A1u, A2l, A2u, -, -, -⟩ := coef_exact h
  obtain ⟨-, -, q0, -, -, q1, -, pa, pb⟩ := h
  have p0 : (0 : ℝ) < val p1 := by norm_num at pa; linarith
  have Nq : NB aa (val aa) 0.2026 0 := NB.self fq (by rw [abs_of_pos q0]; exact q1)
  have Np : NB p1 (val p1) 0.949 0 := NB.self fp (by rw [abs_of_pos p0]; exact pb)
  generalize (val aa : ℝ) = q at *
  generalize (val p1 : ℝ) = p at *
  have Nr := ((n1.add Np (by norm_num)).weak (Q' := 1.949) (d' := 1.17e-7) (by norm_num) (by norm_num)).add Nq (by norm_num)
  replace Nr := Nr.weak (Q' := 2.1516) (d' := 2.5e-7) (by norm_num) (by norm_num)
  generalize F32.add (F32.add (F32.lit 1) p1) aa = r at *
  generalize 1 + p + q = ρ at *
  have rp : 0 < ρ := by norm_num at r0; linarith
  have rL : 1.1 + 2.5e-7 ≤ |ρ| := by rw [abs_of_pos rp]; norm_num at r0 ⊢; linarith
  have kab : |q / ρ| ≤ 0.1 := by rw [abs_of_pos (by positivity)]; norm_num at kq ⊢; linarith
  have Nk : NB (F32.div aa r) (q / ρ) 0.1 3e-8 :=
    ⟨F32.Near.div 0.1 1.1 2.3e-8 0.11 Nq.near Nr.near rp.ne' (by norm_num) rL kab (by norm_num) (by norm_num) (by norm_num) (by norm_num), kab⟩
  have Nb := NB.mul c2.1 (G := 2) (by rw [v2]; norm_num) Nk (by norm_num)
  rw [v2] at Nb
  have N1 := (Nq.sub n1 (by norm_num))
  replace N1 : NB (F32.sub aa (F32.lit 1)) (q - 1) 1 7.2e-8 :=
    ⟨N1.near.mono (by norm_num), by rw [_root_.abs_le]; constructor <;> (norm_num at q1; linarith)⟩
  have N1' := NB.mul c2.1 (G := 2) (by rw [v2]; norm_num) N1 (by norm_num)
  rw [v2] at N1'
  replace N1' := N1'.weak (Q' := 2) (d' := 2.64e-7) (by norm_num) (by norm_num)
  have A1 : |2 * (q - 1) / ρ| ≤ 1.76 := by
    rw [_root_.abs_le]; exact ⟨A1l, by norm_num at A1u ⊢; linarith⟩
  have Na1 := F32.Near.div (e' := 7.6e-7) 1.76 1.1 6.42e-7 1.8 N1'.near Nr.near rp.ne' (by norm_num) rL A1 (by norm_num) (by norm_num) (by norm_num)
    (by norm_num)
  have N2 := n1.sub Np (by norm_num)
  replace N2 : NB (F32.sub (F32.lit 1) p1) (1 - p) 0.86 1.17e-7 :=
    ⟨N2.near.mono (by norm_num), by rw [_root_.abs_le]; constructor <;> (norm_num at pa pb ⊢; linarith)⟩
  have N2' := (N2.add Nq (by norm_num)).weak (Q' := 1.0626) (d' := 1.81e-7) (by norm_num) (by norm_num)
  have A2 : |(1 - p + q) / ρ| ≤ 0.95 := by
    rw [_root_.abs_le]; exact ⟨by norm_num at A2l ⊢; linarith, A2u⟩
  have Na2 := F32.Near.div (e' := 4.5e-7) 0.95 1.1 3.82e-7 0.96 N2'.near Nr.near rp.ne' (by norm_num) rL A2 (by norm_num) (by norm_num) (by norm_num)
    (by norm_num)
  exact ⟨Nk.near, Nb.near.mono (by norm_num), Na1, Na2⟩

/-- The bounds of the rounded coefficients. -/
theorem coef_bounds {t q κ α β K B X Y : ℝ} (ht : 0.01 ≤ t) (ql : t * t - 2e-8 ≤ q) (k1 : κ ≤ 0.0999)
    (a0 : -1.76 ≤ α) (a1 : α ≤ -0.7) (b0 : 0.01 ≤ β) (b1 : β ≤ 0.95) (g : 1 + α + β = 4 * κ) (gl : 1.855 * q ≤ 4 * κ)
    (dis : 4 * β + 0.01 ≤ α ^ 2) (hK : |K - κ| ≤ 3e-8) (hB : |B - 2 * κ| ≤ 8e-8) (hX : |X - α| ≤ 7.6e-7) (hY : |Y - β| ≤ 4.5e-7) :
    0 ≤ K ∧ K ≤ 0.1 ∧ 0 ≤ B ∧ B ≤ 0.2 ∧ -2 < X ∧ X ≤ 0 ∧ 0 ≤ Y ∧ Y ≤ 1 ∧ 4 * Y ≤ X ^ 2 ∧ 1.8 * t ^ 2 ≤ 1 + X + Y ∧
      |2 * K + B - (1 + X + Y)| ≤ 2e-6 := by
  have sq0 : 1e-4 ≤ t * t := by
    have := mul_le_mul ht ht (by norm_num) (by norm_num at ht; linarith)
    norm_num at this ⊢; linarith
  have dx : |X + α| * |X - α| ≤ 4 * 7.6e-7 := by
    refine mul_le_mul ?_ hX (abs_nonneg _) (by norm_num)
    rw [_root_.abs_le] at hX ⊢
    obtain ⟨h1, h2⟩ := hX
    constructor <;> (norm_num at h1 h2 a0 a1 ⊢; linarith)
  rw [← abs_mul] at dx
  have dx' := (_root_.abs_le.1 dx).1
  have e : (X + α) * (X - α) = X ^ 2 - α ^ 2 := by ring
  rw [e] at dx'
  rw [_root_.abs_le] at hK hB hX hY
  obtain ⟨h1, h2⟩ := hK
  obtain ⟨h3, h4⟩ := hB
  obtain ⟨h5, h6⟩ := hX
  obtain ⟨h7, h8⟩ := hY
  rw [pow_two t, _root_.abs_le]
  norm_num at h1 h2 h3 h4 h5 h6 h7 h8 k1 a0 a1 b0 b1 gl ql sq0 dis dx' ⊢
  refine ⟨?_, ?_, ?_, ?_, ?_, ?_, ?_, ?_, ?_, ?_, ?_, ?_⟩ <;> linarith

theorem setup_code (s0 : LPF2 (BitVec 32)) (a : BitVec 32) : s0.setup a = if F32.lt (F32.lit 0) a && F32.lt a (F32.lit 1) then
    ({ s0 with
        k := F32.div (F32.mul a a) (F32.add (F32.add (F32.lit 1) (Ffmath.sqrt (F32.mul (F32.lit 2) a))) (F32.mul a a)),
        a1 := F32.div (F32.mul (F32.lit 2) (F32.sub (F32.mul a a) (F32.lit 1)))
          (F32.add (F32.add (F32.lit 1) (Ffmath.sqrt (F32.mul (F32.lit 2) a))) (F32.mul a a)),
        a2 := F32.div (F32.add (F32.sub (F32.lit 1) (Ffmath.sqrt (F32.mul (F32.lit 2) a))) (F32.mul a a))
          (F32.add (F32.add (F32.lit 1) (Ffmath.sqrt (F32.mul (F32.lit 2) a))) (F32.mul a a)),
        b1 := F32.mul (F32.lit 2) (F32.div (F32.mul a a) (F32.add (F32.add (F32.lit 1) (Ffmath.sqrt (F32.mul (F32.lit 2) a))) (F32.mul a a))),
        init := true }, true)
    else (s0, false) := rfl

/-- The coefficients that `setup` stores. -/
theorem setup_coef {s0 s : LPF2 (BitVec 32)} {a : BitVec 32} (fa : F32.Finite a) (h0 : 0.01 ≤ (val a : ℝ)) (h1 : (val a : ℝ) ≤ 0.45)
    (hs : s0.setup a = (s, true)) : Coef s (val a) ∧ s.init = true := by
  obtain ⟨fq, fp, hpq⟩ := setup_pq fa h0 h1
  obtain ⟨Nk, Nb, N1, N2⟩ := coef_near fp fq hpq
  obtain ⟨-, -, -, kq, A1l, A1u, A2l, A2u, g, gl, dis⟩ := coef_exact hpq
  obtain ⟨c1, c2, c3, c4, c5, c6, c7, c8, c9, c10, c11⟩ := coef_bounds h0 hpq.ql kq A1l A1u A2l A2u g gl dis Nk.err Nb.err N1.err N2.err
  have l1 : F32.lt (F32.lit 0) a = true := by
    rw [lt_fin Fis.l0.1 fa, Fis.l0.2.1, decide_eq_true_eq]
    have : (0 : ℝ) < val a := by norm_num at h0; linarith
    exact_mod_cast this
  have l2 : F32.lt a (F32.lit 1) = true := by
    rw [lt_fin fa Fis.l0.2.2.1, Fis.l0.2.2.2, decide_eq_true_eq]
    have : (val a : ℝ) < 1 := by norm_num at h1; linarith
    exact_mod_cast this
  rw [setup_code, l1, l2, Bool.and_self, if_pos rfl, Prod.mk.injEq] at hs
  obtain ⟨rfl, -⟩ := hs
  exact ⟨⟨Nk.fin, Nb.fin, N1.fin, N2.fin, c1, c2, c3, c4, c5, c6, c7, c8, c9, c10, c11⟩, rfl⟩

/-- Output of the `n`-th call when the samples are `x 0, x 1, ...` (specification). -/
def outAt {K : Type} [Arith K] (s : LPF2 K) (x : ℕ → K) (n : ℕ) : K :=
  (((List.range n).foldl (fun t i => (t.smooth (x i)).1) s).smooth (x n)).2

/-- The filter in exact arithmetic with the coefficients that the binary32 filter stores (specification). -/
noncomputable def exactOf (s : LPF2 (BitVec 32)) : LPF2 ℝ :=
  ⟨val s.y1, val s.y2, val s.x1, val s.x2, val s.k, val s.a1, val s.a2, val s.b1, s.init⟩

theorem outAt_float (s : LPF2 (BitVec 32)) (hi : s.init = true) (x : ℕ → BitVec 32) (n : ℕ) : outAt s x n = lpf2F s x (n + 2) := by
  have key : ∀ n, (List.range (n + 1)).foldl (fun t i => (t.smooth (x i)).1) s =
      { s with y1 := lpf2F s x (n + 2), y2 := lpf2F s x (n + 1), x1 := x n, x2 := stream x (n + 1), init := false } := by
    intro n
    induction n with
    | zero => simp [LPF2.smooth, hi]; exact ⟨rfl, rfl, rfl⟩
    | succ n ih => rw [List.range_succ, List.foldl_append, ih]; rfl
  cases n with
  | zero => simp [outAt, LPF2.smooth, hi]; rfl
  | succ n => rw [outAt, key]; rfl

theorem outAt_exact (s : LPF2 (BitVec 32)) (hi : s.init = true) (x : ℕ → BitVec 32) (n : ℕ) :
    outAt (exactOf s) (fun i => (val (x i) : ℝ)) n = lpf2R s x (n + 2) := by
  have key : ∀ n, (List.range (n + 1)).foldl (fun t i => (t.smooth ((val (x i) : ℝ))).1) (exactOf s) =
      { exactOf s with y1 := lpf2R s x (n + 2), y2 := lpf2R s x (n + 1), x1 := val (x n), x2 := val (stream x (n + 1)), init := false } := by
    intro n
    induction n with
    | zero => simp [LPF2.smooth, exactOf, hi, lpf2R, stream]
    | succ n ih => rw [List.range_succ, List.foldl_append, ih]; simp [LPF2.smooth, exactOf, lpf2R, stream]
  cases n with
  | zero => simp [outAt, LPF2.smooth, exactOf, hi, lpf2R, stream]
  | succ n => rw [outAt, key]; simp [LPF2.smooth, exactOf, lpf2R, stream]

/-- **C178**: with a factor between 0.01 and 0.45 the second-order filter in binary32 follows, for ever and for every stream of samples
of magnitude at most `M` (`1e-20 ≤ M ≤ 1e30`), the filter in exact arithmetic with the same stored coefficients: rounding adds at most `4e-7 / a² * M`, and
the output never exceeds `1.03 * M`. -/
theorem C178_follows_partial {s0 s : LPF2 (BitVec 32)} {a : BitVec 32} {M : ℝ} (fa : F32.Finite a) (h0 : 0.01 ≤ (val a : ℝ))
    (h1 : (val a : ℝ) ≤ 0.45) (hs : s0.setup a = (s, true)) (x : ℕ → BitVec 32) (fx : ∀ n, F32.Finite (x n))
    (hx : ∀ n, |(val (x n) : ℝ)| ≤ M) (M0 : 1e-20 ≤ M) (M1 : M ≤ 1e30) (n : ℕ) :
    F32.Finite (outAt s x n) ∧ |(val (outAt s x n) : ℝ) - outAt (exactOf s) (fun i => (val (x i) : ℝ)) n| ≤ 4e-7 / (val a : ℝ) ^ 2 * M ∧
      |(val (outAt s x n) : ℝ)| ≤ 1.03 * M := by
  obtain ⟨c, hi⟩ := setup_coef fa h0 h1 hs
  obtain ⟨k1, k2, k3⟩ := lpf2_forever c h0 x fx hx M0 M1 (n + 2)
  rw [outAt_float s hi, outAt_exact s hi]
  refine ⟨k1, k2, ?_⟩
  have Mp : 0 < M := by norm_num at M0; linarith
  have a2 : 1e-4 ≤ (val a : ℝ) ^ 2 := by
    have := pow_le_pow_left₀ (by norm_num) h0 2
    norm_num at this ⊢; linarith
  have D4 : 4e-7 / (val a : ℝ) ^ 2 ≤ 4e-3 := by
    rw [div_le_iff₀ (by norm_num at a2; linarith)]; norm_num at a2 ⊢; linarith
  have DM := mul_le_mul_of_nonneg_right D4 Mp.le
  have := abs_add_le ((val (lpf2F s x (n + 2)) : ℝ) - lpf2R s x (n + 2)) (lpf2R s x (n + 2))
  rw [sub_add_cancel] at this
  norm_num at DM k2 k3 ⊢; linarith

example : F32.Finite (F32.lit 0.1) ∧ 0.01 ≤ (val (F32.lit 0.1) : ℝ) ∧ (val (F32.lit 0.1) : ℝ) ≤ 0.45 ∧
    (∀ n : ℕ, F32.Finite (if n % 3 = 0 then F32.lit 5 else F32.lit (-5)) ∧ |(val (if n % 3 = 0 then F32.lit 5 else F32.lit (-5)) : ℝ)| ≤ 5) ∧
    ∀ s0 : LPF2 (BitVec 32), ∃ s, s0.setup (F32.lit 0.1) = (s, true) := by
  have k : F32.Finite (F32.lit 0.1) ∧ (0.01 : ℚ) ≤ val (F32.lit 0.1) ∧ val (F32.lit 0.1) ≤ (0.45 : ℚ) ∧ F32.Finite (F32.lit 5) ∧
      F32.Finite (F32.lit (-5)) ∧ val (F32.lit 5) = 5 ∧ val (F32.lit (-5)) = -5 := by decide +kernel
  obtain ⟨k1, k2, k3, k4, k5, k6, k7⟩ := k
  refine ⟨k1, ?_, ?_, fun n => ?_, fun s0 => ?_⟩
  · have := (Rat.cast_le (K := ℝ)).2 k2; norm_num at this ⊢; linarith
  · have := (Rat.cast_le (K := ℝ)).2 k3; norm_num at this ⊢; linarith
  · split_ifs
    · exact ⟨k4, by rw [k6]; norm_num⟩
    · exact ⟨k5, by rw [k7]; norm_num⟩
  · have g : (F32.lt (F32.lit 0) (F32.lit 0.1) && F32.lt (F32.lit 0.1) (F32.lit 1)) = true := by decide +kernel
    exact ⟨_, by rw [setup_code, g, if_pos rfl]⟩

/-- **C178**: whatever came before, once the samples stay at `c` the outputs settle within `1.6e-6 / a² * M` of `c`. -/
theorem C178_settles_partial {s0 s : LPF2 (BitVec 32)} {a : BitVec 32} {M : ℝ} (fa : F32.Finite a) (h0 : 0.01 ≤ (val a : ℝ))
    (h1 : (val a : ℝ) ≤ 0.45) (hs : s0.setup a = (s, true)) (x : ℕ → BitVec 32) (fx : ∀ n, F32.Finite (x n))
    (hx : ∀ n, |(val (x n) : ℝ)| ≤ M) (M0 : 1e-20 ≤ M) (M1 : M ≤ 1e30) (c : BitVec 32) (N : ℕ) (hc : ∀ n, N ≤ n → x n = c) :
    ∀ᶠ n in Filter.atTop, |(val (outAt s x n) : ℝ) - val c| ≤ 1.6e-6 / (val a : ℝ) ^ 2 * M := by
  obtain ⟨C, hi⟩ := setup_coef fa h0 h1 hs
  have Mp : 0 < M := by norm_num at M0; linarith
  have ap : (0 : ℝ) < val a := by norm_num at h0; linarith
  have cM : |(val c : ℝ)| ≤ M := by rw [← hc N le_rfl]; exact hx N
  obtain ⟨Γ, hΓ⟩ : ∃ Γ, Γ = 1 + (val s.a1 : ℝ) + val s.a2 := ⟨_, rfl⟩
  have lo := C.low
  have ga := C.gain
  rw [← hΓ] at lo ga
  have Gp : 0 < Γ := lt_of_lt_of_le (by positivity) lo
  obtain ⟨l, m, l0, l1, m0, m1, hlm, hp⟩ := poles C.a1l C.a1u C.a2l C.disc (hΓ ▸ Gp)
  obtain ⟨g, hg⟩ : ∃ g, g = (2 * (val s.k : ℝ) + val s.b1) / Γ := ⟨_, rfl⟩
  have gG : g * Γ = 2 * (val s.k : ℝ) + val s.b1 := by rw [hg, div_mul_cancel₀ _ Gp.ne']
  have g1 : |g - 1| ≤ 1.12e-6 / (val a : ℝ) ^ 2 := by
    have e : g - 1 = (2 * (val s.k : ℝ) + val s.b1 - Γ) / Γ := by rw [hg]; field_simp
    rw [e, abs_div, abs_of_pos Gp, div_le_div_iff₀ Gp (by positivity)]
    have t := mul_le_mul_of_nonneg_right ga (sq_nonneg (val a : ℝ))
    norm_num at t lo ⊢; linarith
  have st : ∀ n, N + 2 ≤ n → (val (stream x n) : ℝ) = val c := by
    intro n hn
    rw [stream, hc _ (by omega)]
  have hrec : ∀ k, lpf2R s x (k + 2 + (N + 2)) - g * val c =
      -(val s.a1 : ℝ) * (lpf2R s x (k + 1 + (N + 2)) - g * val c) - val s.a2 * (lpf2R s x (k + (N + 2)) - g * val c) := by
    intro k
    have e1 : k + 2 + (N + 2) = (k + (N + 2)) + 2 := by omega
    have e2 : k + 1 + (N + 2) = (k + (N + 2)) + 1 := by omega
    rw [e1, e2, lpf2R, st _ (by omega), st _ (by omega), st _ (by omega)]
    linear_combination (-(val c : ℝ)) * gG + g * val c * hΓ
  have j1 : |(val s.a1 : ℝ)| < 1 + val s.a2 := by rw [abs_of_nonpos C.a1u]; linarith
  have j2 : (val s.a2 : ℝ) < 1 := by
    rw [← hp]; nlinarith
  have T := jury_zero j1 j2 (e := fun k => lpf2R s x (k + (N + 2)) - g * val c) hrec
  have ev := (Metric.tendsto_nhds.1 T) (8e-8 / (val a : ℝ) ^ 2 * M) (by positivity)
  rw [Filter.eventually_atTop] at ev ⊢
  obtain ⟨n0, hn0⟩ := ev
  refine ⟨n0 + N, fun n hn => ?_⟩
  obtain ⟨-, k2, -⟩ := lpf2_forever C h0 x fx hx M0 M1 (n + 2)
  rw [outAt_float s hi]
  have k3 := hn0 (n - N) (by omega)
  have e : n - N + (N + 2) = n + 2 := by omega
  rw [Real.dist_eq, sub_zero, e] at k3
  have k4 : |(g - 1) * (val c : ℝ)| ≤ 1.12e-6 / (val a : ℝ) ^ 2 * M := by
    rw [abs_mul]; exact mul_le_mul g1 cM (abs_nonneg _) (by positivity)
  have e' : (val (lpf2F s x (n + 2)) : ℝ) - val c = ((val (lpf2F s x (n + 2)) : ℝ) - lpf2R s x (n + 2)) +
      (lpf2R s x (n + 2) - g * val c) + (g - 1) * val c := by ring
  rw [e']
  refine (abs_add_le _ _).trans ((add_le_add (abs_add_le _ _) le_rfl).trans ?_)
  have e'' : 1.6e-6 / (val a : ℝ) ^ 2 * M = 4e-7 / (val a : ℝ) ^ 2 * M + 8e-8 / (val a : ℝ) ^ 2 * M + 1.12e-6 / (val a : ℝ) ^ 2 * M := by
    ring
  rw [e'']
  linarith

example : ∀ n, 3 ≤ n → (if n < 3 then F32.lit 5 else F32.lit (-5)) = F32.lit (-5) := fun n hn => if_neg (by omega)

theorem deaf {s : LPF2 (BitVec 32)}
    (h : ∀ u ∈ [(F32.lit 1, F32.lit 1, F32.lit 1), (F32.lit 0, F32.lit 1, F32.lit 1), (F32.lit 0, F32.lit 0, F32.lit 1),
        (F32.lit 0, F32.lit 0, F32.lit 0)],
      F32.sub (F32.sub (F32.add (F32.add (F32.mul s.k u.1) (F32.mul s.b1 u.2.1)) (F32.mul s.k u.2.2)) (F32.mul s.a1 (F32.lit 1)))
        (F32.mul s.a2 (F32.lit 1)) = F32.lit 1) (n : ℕ) :
    lpf2F s (fun i => if i = 0 then F32.lit 1 else F32.lit 0) n = F32.lit 1 ∧
      lpf2F s (fun i => if i = 0 then F32.lit 1 else F32.lit 0) (n + 1) = F32.lit 1 := by
  induction n with
  | zero => exact ⟨rfl, rfl⟩
  | succ n ih =>
    refine ⟨ih.2, ?_⟩
    rw [lpf2F, ih.1, ih.2]
    match n with
    | 0 => exact h (F32.lit 1, F32.lit 1, F32.lit 1) (by simp)
    | 1 => exact h (F32.lit 0, F32.lit 1, F32.lit 1) (by simp)
    | 2 => exact h (F32.lit 0, F32.lit 0, F32.lit 1) (by simp)
    | n + 3 => exact h (F32.lit 0, F32.lit 0, F32.lit 0) (by simp)

/-- **C178**: with a smaller accepted factor the filter can be deaf: set up with `1e-5`, started at 1 and fed zeros, its output stays
exactly 1 for ever. -/
theorem C178_deaf_false (s0 : LPF2 (BitVec 32)) :
    ∃ s, s0.setup (F32.lit 0.00001) = (s, true) ∧
      ∀ n, val (outAt s (fun i => if i = 0 then F32.lit 1 else F32.lit 0) n) = 1 := by
  have g : (F32.lt (F32.lit 0) (F32.lit 0.00001) && F32.lt (F32.lit 0.00001) (F32.lit 1)) = true := by decide +kernel
  refine ⟨_, by rw [setup_code, g, if_pos rfl], fun n => ?_⟩
  rw [outAt_float _ rfl, (deaf ?_ _).1]
  · exact Fis.l0.2.2.2
  · dsimp only; decide +kernel

end Verif.Smoother
