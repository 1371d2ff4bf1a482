import Verif.Smoother.FloatLpf2

/-!
# The second-order low-pass filter in binary32, factors from 0.45 to 1 (C178)

Together with `FloatLpf2.lean` this covers every accepted factor from 0.01 on; the full claim is stated there.
-/

namespace Verif.Smoother

open Arith F32 Pid

attribute [local instance] Rms.sqrtTrans

/-- One step of a recursion that contracts in the maximum norm: the bound `B` is kept. -/
theorem contract_step {A1 A2 B ρ e0 e1 e2 : ℝ} (h0 : |e0| ≤ B) (h1 : |e1| ≤ B) (h2 : e2 = -A1 * e1 - A2 * e0 + ρ)
    (hρ : |ρ| ≤ (1 - |A1| - |A2|) * B) : |e2| ≤ B := by
  rw [h2]
  have t1 := abs_add_le (-A1 * e1 - A2 * e0) ρ
  have t2 := abs_sub (-A1 * e1) (A2 * e0)
  have t3 : |-A1 * e1| ≤ |A1| * B := by rw [abs_mul, abs_neg]; exact mul_le_mul_of_nonneg_left h1 (abs_nonneg _)
  have t4 : |A2 * e0| ≤ |A2| * B := by rw [abs_mul]; exact mul_le_mul_of_nonneg_left h0 (abs_nonneg _)
  have e : (1 - |A1| - |A2|) * B = B - |A1| * B - |A2| * B := by ring
  rw [e] at hρ
  linarith

/-- The stored coefficients (not a definition of the repository). -/
structure CoefF (s : LPF2 (BitVec 32)) : Prop where
  fk : F32.Finite s.k
  fb : F32.Finite s.b1
  f1 : F32.Finite s.a1
  f2 : F32.Finite s.a2
  k1 : |(val s.k : ℝ)| ≤ 0.31
  b1 : |(val s.b1 : ℝ)| ≤ 0.62
  a1 : |(val s.a1 : ℝ)| ≤ 0.75
  a2 : |(val s.a2 : ℝ)| ≤ 0.5
  sum : |(val s.a1 : ℝ)| + |(val s.a2 : ℝ)| ≤ 0.862
  top : 2 * |(val s.k : ℝ)| + |(val s.b1 : ℝ)| ≤ 2.85 * (1 - |(val s.a1 : ℝ)| - |(val s.a2 : ℝ)|)
  low : 0.23 ≤ 1 + (val s.a1 : ℝ) + val s.a2
  gain : |(2 * val s.k + val s.b1 : ℝ) - (1 + val s.a1 + val s.a2)| ≤ 2e-6

theorem lpf2_round_fast {k b1 a1 a2 x0 x1 x2 y1 y2 : BitVec 32} {M : ℝ} (fk : F32.Finite k) (fb : F32.Finite b1) (f1 : F32.Finite a1)
    (f2 : F32.Finite a2) (hk : |(val k : ℝ)| ≤ 0.31) (hb : |(val b1 : ℝ)| ≤ 0.62) (h1 : |(val a1 : ℝ)| ≤ 0.75) (h2 : |(val a2 : ℝ)| ≤ 0.5)
    (g0 : F32.Finite x0) (g1 : F32.Finite x1) (g2 : F32.Finite x2) (g3 : F32.Finite y1) (g4 : F32.Finite y2)
    (m0 : |(val x0 : ℝ)| ≤ M) (m1 : |(val x1 : ℝ)| ≤ M) (m2 : |(val x2 : ℝ)| ≤ M) (m3 : |(val y1 : ℝ)| ≤ 3 * M)
    (m4 : |(val y2 : ℝ)| ≤ 3 * M) (M0 : 1e-20 ≤ M) (M1 : M ≤ 1e30) :
    F32.Near (F32.sub (F32.sub (F32.add (F32.add (F32.mul k x0) (F32.mul b1 x1)) (F32.mul k x2)) (F32.mul a1 y1)) (F32.mul a2 y2))
      (val k * val x0 + val b1 * val x1 + val k * val x2 - val a1 * val y1 - val a2 * val y2) (9.6e-7 * M) := by
  have t1 := NB.mul fk hk (NB.self g0 m0) (by norm_num at M1 ⊢; linarith)
  have t2 := NB.mul fb hb (NB.self g1 m1) (by norm_num at M1 ⊢; linarith)
  have t3 := NB.mul fk hk (NB.self g2 m2) (by norm_num at M1 ⊢; linarith)
  have t4 := NB.mul f1 h1 (NB.self g3 m3) (by norm_num at M1 ⊢; linarith)
  have t5 := NB.mul f2 h2 (NB.self g4 m4) (by norm_num at M1 ⊢; linarith)
  replace t1 := t1.weak (Q' := 0.31 * M) (d' := 1.86e-8 * M) (by linarith) (by norm_num at M0 ⊢; linarith)
  replace t2 := t2.weak (Q' := 0.62 * M) (d' := 3.72e-8 * M) (by linarith) (by norm_num at M0 ⊢; linarith)
  replace t3 := t3.weak (Q' := 0.31 * M) (d' := 1.86e-8 * M) (by linarith) (by norm_num at M0 ⊢; linarith)
  replace t4 := t4.weak (Q' := 2.25 * M) (d' := 1.35e-7 * M) (by norm_num; linarith) (by norm_num at M0 ⊢; linarith)
  replace t5 := t5.weak (Q' := 1.5 * M) (d' := 9e-8 * M) (by norm_num; linarith) (by norm_num at M0 ⊢; linarith)
  have u1 := (t1.add t2 (by norm_num at M1 ⊢; linarith)).weak (Q' := 0.93 * M) (d' := 1.116e-7 * M) (by norm_num; linarith)
    (by norm_num at M0 ⊢; linarith)
  have u2 := (u1.add t3 (by norm_num at M1 ⊢; linarith)).weak (Q' := 1.24 * M) (d' := 2.05e-7 * M) (by norm_num; linarith)
    (by norm_num at M0 ⊢; linarith)
  have u3 := (u2.sub t4 (by norm_num at M1 ⊢; linarith)).weak (Q' := 3.49 * M) (d' := 5.5e-7 * M) (by norm_num; linarith)
    (by norm_num at M0 ⊢; linarith)
  exact (u3.sub t5 (by norm_num at M1 ⊢; linarith)).near.mono (by norm_num at M0 ⊢; linarith)

theorem lpf2_forever_fast {s : LPF2 (BitVec 32)} {M : ℝ} (c : CoefF s) (x : ℕ → BitVec 32) (fx : ∀ n, F32.Finite (x n))
    (hx : ∀ n, |(val (x n) : ℝ)| ≤ M) (M0 : 1e-20 ≤ M) (M1 : M ≤ 1e30) (n : ℕ) :
    F32.Finite (lpf2F s x n) ∧ |(val (lpf2F s x n) : ℝ) - lpf2R s x n| ≤ 7e-6 * M ∧ |lpf2R s x n| ≤ 2.85 * M := by
  have Mp : 0 < M := by norm_num at M0; linarith
  have hst : ∀ n, |(val (stream x n) : ℝ)| ≤ M := fun n => hx _
  have fst : ∀ n, F32.Finite (stream x n) := fun n => fx _
  have key : ∀ n, (F32.Finite (lpf2F s x n) ∧ |(val (lpf2F s x n) : ℝ) - lpf2R s x n| ≤ 7e-6 * M ∧ |lpf2R s x n| ≤ 2.85 * M) ∧
      (F32.Finite (lpf2F s x (n + 1)) ∧ |(val (lpf2F s x (n + 1)) : ℝ) - lpf2R s x (n + 1)| ≤ 7e-6 * M ∧
        |lpf2R s x (n + 1)| ≤ 2.85 * M) := by
    intro n
    induction n with
    | zero =>
      have h : F32.Finite (x 0) ∧ |(val (x 0) : ℝ) - val (x 0)| ≤ 7e-6 * M ∧ |(val (x 0) : ℝ)| ≤ 2.85 * M :=
        ⟨fx 0, by rw [sub_self, abs_zero]; positivity, by have := hx 0; norm_num; linarith⟩
      exact ⟨h, h⟩
    | succ n ih =>
      obtain ⟨⟨i1, i3, i5⟩, i2, i4, i6⟩ := ih
      refine ⟨⟨i2, i4, i6⟩, ?_⟩
      have r2 : lpf2R s x (n + 2) = -(val s.a1 : ℝ) * lpf2R s x (n + 1) - val s.a2 * lpf2R s x n +
          (val s.k * val (stream x (n + 2)) + val s.b1 * val (stream x (n + 1)) + val s.k * val (stream x n)) := by
        simp only [lpf2R]; ring
      have ρ2 : |(val s.k * val (stream x (n + 2)) + val s.b1 * val (stream x (n + 1)) + val s.k * val (stream x n) : ℝ)| ≤
          (1 - |(val s.a1 : ℝ)| - |(val s.a2 : ℝ)|) * (2.85 * M) := by
        have t1 : |(val s.k : ℝ) * val (stream x (n + 2))| ≤ |(val s.k : ℝ)| * M := by
          rw [abs_mul]; exact mul_le_mul_of_nonneg_left (hst _) (abs_nonneg _)
        have t2 : |(val s.b1 : ℝ) * val (stream x (n + 1))| ≤ |(val s.b1 : ℝ)| * M := by
          rw [abs_mul]; exact mul_le_mul_of_nonneg_left (hst _) (abs_nonneg _)
        have t3 : |(val s.k : ℝ) * val (stream x n)| ≤ |(val s.k : ℝ)| * M := by
          rw [abs_mul]; exact mul_le_mul_of_nonneg_left (hst _) (abs_nonneg _)
        have t4 := mul_le_mul_of_nonneg_right c.top Mp.le
        have t5 := abs_add_le ((val s.k : ℝ) * val (stream x (n + 2)) + val s.b1 * val (stream x (n + 1))) (val s.k * val (stream x n))
        have t6 := abs_add_le ((val s.k : ℝ) * val (stream x (n + 2))) (val s.b1 * val (stream x (n + 1)))
        have e : (2 * |(val s.k : ℝ)| + |(val s.b1 : ℝ)|) * M = |(val s.k : ℝ)| * M + |(val s.b1 : ℝ)| * M + |(val s.k : ℝ)| * M := by ring
        have e' : 2.85 * (1 - |(val s.a1 : ℝ)| - |(val s.a2 : ℝ)|) * M = (1 - |(val s.a1 : ℝ)| - |(val s.a2 : ℝ)|) * (2.85 * M) := by ring
        rw [e, e'] at t4
        linarith
      have j5 := contract_step i5 i6 r2 ρ2
      have y1 : |(val (lpf2F s x (n + 1)) : ℝ)| ≤ 3 * M := by
        have := abs_add_le ((val (lpf2F s x (n + 1)) : ℝ) - lpf2R s x (n + 1)) (lpf2R s x (n + 1))
        rw [sub_add_cancel] at this
        norm_num at i4 i6 ⊢; linarith
      have y2 : |(val (lpf2F s x n) : ℝ)| ≤ 3 * M := by
        have := abs_add_le ((val (lpf2F s x n) : ℝ) - lpf2R s x n) (lpf2R s x n)
        rw [sub_add_cancel] at this
        norm_num at i3 i5 ⊢; linarith
      have nr := lpf2_round_fast c.fk c.fb c.f1 c.f2 c.k1 c.b1 c.a1 c.a2 (fst (n + 2)) (fst (n + 1)) (fst n) i2 i1
        (hst (n + 2)) (hst (n + 1)) (hst n) y1 y2 M0 M1
      have f3 : F32.Finite (lpf2F s x (n + 2)) := by rw [lpf2F]; exact nr.fin
      have e2 : ((val (lpf2F s x (n + 2)) : ℝ) - lpf2R s x (n + 2)) = -(val s.a1 : ℝ) * ((val (lpf2F s x (n + 1)) : ℝ) - lpf2R s x (n + 1)) -
          val s.a2 * ((val (lpf2F s x n) : ℝ) - lpf2R s x n) + ((val (lpf2F s x (n + 2)) : ℝ) -
            (val s.k * val (stream x (n + 2)) + val s.b1 * val (stream x (n + 1)) + val s.k * val (stream x n) -
              val s.a1 * val (lpf2F s x (n + 1)) - val s.a2 * val (lpf2F s x n))) := by
        simp only [lpf2R]; ring
      have ρe : |(val (lpf2F s x (n + 2)) : ℝ) -
            (val s.k * val (stream x (n + 2)) + val s.b1 * val (stream x (n + 1)) + val s.k * val (stream x n) -
              val s.a1 * val (lpf2F s x (n + 1)) - val s.a2 * val (lpf2F s x n))| ≤
          (1 - |(val s.a1 : ℝ)| - |(val s.a2 : ℝ)|) * (7e-6 * M) := by
        have e := nr.err
        rw [lpf2F]
        refine e.trans ?_
        have h : 0.138 ≤ 1 - |(val s.a1 : ℝ)| - |(val s.a2 : ℝ)| := by have := c.sum; norm_num at this ⊢; linarith
        have := mul_le_mul_of_nonneg_right h (by positivity : 0 ≤ 7e-6 * M)
        refine le_trans ?_ this
        norm_num; linarith
      exact ⟨f3, contract_step i3 i4 e2 ρe, j5⟩
  exact (key n).1

/-- The square and the root that `setup` computes (not a definition of the repository). -/
structure PQF (t p q : ℝ) : Prop where
  ql : 0.2024 ≤ q
  qu : q ≤ t + 1e-6
  q1 : q ≤ 1.000001
  t1 : t ≤ 1
  pl : 1.414 * t - 1e-5 ≤ p
  pq : 0.24 ≤ 1 - p + q
  pa : 0.948 ≤ p
  pb : p ≤ 1.4143

theorem setup_pq_fast {a : BitVec 32} (fa : F32.Finite a) (h0 : 0.45 ≤ (val a : ℝ)) (h1 : (val a : ℝ) ≤ 1) :
    F32.Finite (F32.mul a a) ∧ F32.Finite (Ffmath.sqrt (F32.mul (F32.lit 2) a)) ∧
      PQF (val a) (val (Ffmath.sqrt (F32.mul (F32.lit 2) a))) (val (F32.mul a a)) := by
  have c2 : F32.Finite (F32.lit 2) ∧ val (F32.lit 2) = 2 := by decide +kernel
  have v2 : (val (F32.lit 2) : ℝ) = 2 := by exact_mod_cast c2.2
  obtain ⟨t, ht⟩ : ∃ t, t = (val a : ℝ) := ⟨_, rfl⟩
  rw [← ht] at h0 h1 ⊢
  have t0 : 0 < t := by norm_num at h0; linarith
  have ta : |(val a : ℝ)| ≤ 1 := by rw [← ht, abs_of_pos t0]; exact h1
  have nq := NB.mul fa ta (NB.self fa ta) (by norm_num)
  rw [← ht] at nq
  have eq := nq.near.err
  rw [_root_.abs_le] at eq
  have sq0 : 0.2025 ≤ t * t := by
    have := mul_le_mul h0 h0 (by norm_num) t0.le
    norm_num at this ⊢; linarith
  have sq1 : t * t ≤ 1 * t := mul_le_mul_of_nonneg_right h1 t0.le
  have ql : t * t - 7e-8 ≤ (val (F32.mul a a) : ℝ) := by have := eq.1; norm_num at this ⊢; linarith
  have qu : (val (F32.mul a a) : ℝ) ≤ t * t + 7e-8 := by have := eq.2; norm_num at this ⊢; linarith
  have n2 := NB.mul c2.1 (G := 2) (by rw [v2]; norm_num) (NB.self fa ta) (by norm_num)
  rw [v2, ← ht] at n2
  have fq := nq.near.fin
  have fu := n2.near.fin
  have eu := n2.near.err
  rw [_root_.abs_le] at eu
  have ul : 2 * t - 1.3e-7 ≤ (val (F32.mul (F32.lit 2) a) : ℝ) := by have := eu.1; norm_num at this ⊢; linarith
  have uu : (val (F32.mul (F32.lit 2) a) : ℝ) ≤ 2 * t + 1.3e-7 := by have := eu.2; norm_num at this ⊢; linarith
  have un : 2 ^ (-126 : ℤ) ≤ val (F32.mul (F32.lit 2) a) := by
    have h : ((0.01 : ℚ) : ℝ) ≤ (val (F32.mul (F32.lit 2) a) : ℝ) := by
      refine le_trans ?_ ul
      push_cast; norm_num at h0 ⊢; linarith
    exact le_trans (by norm_num) ((Rat.cast_le (K := ℝ)).1 h)
  obtain ⟨fp, pp, pl, pu⟩ := Ffmath.sqrt_sq fu un
  generalize Ffmath.sqrt (F32.mul (F32.lit 2) a) = p1 at *
  obtain ⟨p, hp⟩ : ∃ p, p = (val p1 : ℝ) := ⟨_, rfl⟩
  have p0 : 0 < p := by rw [hp]; exact_mod_cast pp
  have pl' : (1 - 0.0000003) * (val (F32.mul (F32.lit 2) a) : ℝ) ≤ p ^ 2 := by
    rw [hp]
    have := (Rat.cast_le (K := ℝ)).2 pl
    push_cast at this; norm_num at this ⊢; linarith
  have pu' : p ^ 2 ≤ (1 + 0.0000033) * (val (F32.mul (F32.lit 2) a) : ℝ) := by
    rw [hp]
    have := (Rat.cast_le (K := ℝ)).2 pu
    push_cast at this; norm_num at this ⊢; linarith
  have pL : 2 * t - 1e-6 ≤ p ^ 2 := by norm_num at pl' ul uu h1 ⊢; linarith
  have pU : p ^ 2 ≤ 2 * t + 8e-6 := by norm_num at pu' ul uu h1 ⊢; linarith
  have pa : 0.948 ≤ p := by
    by_contra hc
    have := pow_le_pow_left₀ p0.le (not_le.1 hc).le 2
    norm_num at this pL h0; linarith
  have pb : p ≤ 1.4143 := by
    by_contra hc
    have := pow_le_pow_left₀ (by norm_num) (not_le.1 hc).le 2
    norm_num at this pU h1; linarith
  have pm : 2 * p ≤ p ^ 2 + 1 := by nlinarith [sq_nonneg (p - 1)]
  have tm : t ≤ t * t + 0.25 := by nlinarith [sq_nonneg (t - 1 / 2)]
  have pp' : p ^ 2 ≤ 1.4143 * p := by rw [pow_two]; exact mul_le_mul_of_nonneg_right pb p0.le
  rw [← hp]
  refine ⟨fq, fp, ?_, ?_, ?_, h1, ?_, ?_, pa, pb⟩
  · norm_num at ql sq0 ⊢; linarith
  · norm_num at qu ⊢; linarith
  · norm_num at qu ⊢; linarith
  · norm_num at pL pp' ⊢; linarith
  · norm_num at ql pU tm ⊢; linarith

/-- The coefficients in exact arithmetic from the computed square and root. -/
theorem coef_exact_fast {t p q : ℝ} (h : PQF t p q) :
    2.15 ≤ 1 + p + q ∧ 1 + p + q ≤ 3.4144 ∧ 0 ≤ q / (1 + p + q) ∧ q / (1 + p + q) ≤ 0.3 ∧
      -0.743 ≤ 2 * (q - 1) / (1 + p + q) ∧ 2 * (q - 1) / (1 + p + q) ≤ 1e-6 ∧
      0.05 ≤ (1 - p + q) / (1 + p + q) ∧ (1 - p + q) / (1 + p + q) ≤ 0.49 ∧
      1 + 2 * (q - 1) / (1 + p + q) + (1 - p + q) / (1 + p + q) = 4 * (q / (1 + p + q)) ∧
      0.235 ≤ 4 * (q / (1 + p + q)) ∧
      -(2 * (q - 1) / (1 + p + q)) + (1 - p + q) / (1 + p + q) ≤ 0.861 ∧
      4 * (q / (1 + p + q)) ≤ 2.8 * (1 - -(2 * (q - 1) / (1 + p + q)) - (1 - p + q) / (1 + p + q)) := by
  obtain ⟨ql, qu, q1, h1, pL, pq, pa, pb⟩ := h
  obtain ⟨ρ, hρ⟩ : ∃ ρ, ρ = 1 + p + q := ⟨_, rfl⟩
  rw [← hρ]
  have r0 : 2.15 ≤ ρ := by norm_num at pa ql ⊢; linarith
  have rp : 0 < ρ := by norm_num at r0; linarith
  have r1 : ρ ≤ 3.4144 := by norm_num at pb q1 ⊢; linarith
  have q0 : 0 < q := by norm_num at ql; linarith
  refine ⟨r0, r1, by positivity, ?_, ?_, ?_, ?_, ?_, ?_, ?_, ?_, ?_⟩
  · rw [div_le_iff₀ rp, hρ]; norm_num at qu pL h1 ⊢; linarith
  · rw [le_div_iff₀ rp]; norm_num at r0 ql ⊢; linarith
  · rw [div_le_iff₀ rp]; norm_num at r0 q1 ⊢; linarith
  · rw [le_div_iff₀ rp]; norm_num at r1 pq ⊢; linarith
  · rw [div_le_iff₀ rp, hρ]; norm_num at pa q1 ⊢; linarith
  · field_simp; rw [hρ]; ring
  · rw [mul_div_assoc', le_div_iff₀ rp]; norm_num at r1 ql ⊢; linarith
  · have e : -(2 * (q - 1) / ρ) + (1 - p + q) / ρ = (3 - p - q) / ρ := by field_simp; ring
    rw [e, div_le_iff₀ rp, hρ]; norm_num at pa ql ⊢; linarith
  · have e : 2.8 * (1 - -(2 * (q - 1) / ρ) - (1 - p + q) / ρ) = 2.8 * (2 * p + 2 * q - 2) / ρ := by
      field_simp; rw [hρ]; ring
    rw [e, mul_div_assoc', div_le_div_iff_of_pos_right rp]; norm_num at pa ql ⊢; linarith

/-- The rounded coefficients. -/
theorem coef_near_fast {t : ℝ} {p1 aa : BitVec 32} (fp : F32.Finite p1) (fq : F32.Finite aa) (h : PQF t (val p1) (val aa)) :
    F32.Near (F32.div aa (F32.add (F32.add (F32.lit 1) p1) aa)) (val aa / (1 + val p1 + val aa)) 1e-7 ∧
    F32.Near (F32.mul (F32.lit 2) (F32.div aa (F32.add (F32.add (F32.lit 1) p1) aa))) (2 * (val aa / (1 + val p1 + val aa))) 2.5e-7 ∧
    F32.Near (F32.div (F32.mul (F32.lit 2) (F32.sub aa (F32.lit 1))) (F32.add (F32.add (F32.lit 1) p1) aa))
      (2 * (val aa - 1) / (1 + val p1 + val aa)) 6e-7 ∧
    F32.Near (F32.div (F32.add (F32.sub (F32.lit 1) p1) aa) (F32.add (F32.add (F32.lit 1) p1) aa))
      ((1 - val p1 + val aa) / (1 + val p1 + val aa)) 4e-7 := by
  have c2 : F32.Finite (F32.lit 2) ∧ val (F32.lit 2) = 2 := by decide +kernel
  have v1 : (val (F32.lit 1) : ℝ) = 1 := by exact_mod_cast Fis.l0.2.2.2
  have v2 : (val (F32.lit 2) : ℝ) = 2 := by exact_mod_cast c2.2
  have n1 : NB (F32.lit 1) 1 1 0 := by
    have := NB.self (Q := 1) Fis.l0.2.2.1 (by rw [v1]; norm_num)
    rwa [v1] at this
  obtain ⟨r0, r1, k0, kq, A1l, A1u, A2l, A2u, -, -, -, -⟩ := coef_exact_fast h
  obtain ⟨ql, -, q1, -, -, -, pa, pb⟩ := h
  have p0 : (0 : ℝ) < val p1 := by norm_num at pa; linarith
  have q0 : (0 : ℝ) < val aa := by norm_num at ql; linarith
  have Nq : NB aa (val aa) 1.000001 0 := NB.self fq (by rw [abs_of_pos q0]; exact q1)
  have Np : NB p1 (val p1) 1.4143 0 := NB.self fp (by rw [abs_of_pos p0]; exact pb)
  generalize (val aa : ℝ) = q at *
  generalize (val p1 : ℝ) = p at *
  have Nr := ((n1.add Np (by norm_num)).weak (Q' := 2.4143) (d' := 1.45e-7) (by norm_num) (by norm_num)).add Nq (by norm_num)
  replace Nr := Nr.weak (Q' := 3.4144) (d' := 3.5e-7) (by norm_num) (by norm_num)
  generalize F32.add (F32.add (F32.lit 1) p1) aa = r at *
  generalize 1 + p + q = ρ at *
  have rp : 0 < ρ := by norm_num at r0; linarith
  have rL : 2.1 + 3.5e-7 ≤ |ρ| := by rw [abs_of_pos rp]; norm_num at r0 ⊢; linarith
  have kab : |q / ρ| ≤ 0.3 := by rw [abs_of_nonneg k0]; exact kq
  have Nk : NB (F32.div aa r) (q / ρ) 0.3 1e-7 :=
    ⟨F32.Near.div 0.3 2.1 5.1e-8 0.31 Nq.near Nr.near rp.ne' (by norm_num) rL kab (by norm_num) (by norm_num) (by norm_num) (by norm_num), kab⟩
  have Nb := NB.mul c2.1 (G := 2) (by rw [v2]; norm_num) Nk (by norm_num)
  rw [v2] at Nb
  have N1 := (Nq.sub n1 (by norm_num))
  replace N1 : NB (F32.sub aa (F32.lit 1)) (q - 1) 0.8 1.2e-7 :=
    ⟨N1.near.mono (by norm_num), by rw [_root_.abs_le]; constructor <;> (norm_num at q1 ql ⊢; linarith)⟩
  have N1' := NB.mul c2.1 (G := 2) (by rw [v2]; norm_num) N1 (by norm_num)
  rw [v2] at N1'
  replace N1' := N1'.weak (Q' := 1.6) (d' := 3.4e-7) (by norm_num) (by norm_num)
  have A1 : |2 * (q - 1) / ρ| ≤ 0.743 := by
    rw [_root_.abs_le]; exact ⟨A1l, by norm_num at A1u ⊢; linarith⟩
  have Na1 := F32.Near.div (e' := 6e-7) 0.743 2.1 2.9e-7 0.75 N1'.near Nr.near rp.ne' (by norm_num) rL A1 (by norm_num) (by norm_num) (by norm_num)
    (by norm_num)
  have N2 := n1.sub Np (by norm_num)
  replace N2 : NB (F32.sub (F32.lit 1) p1) (1 - p) 0.42 1.45e-7 :=
    ⟨N2.near.mono (by norm_num), by rw [_root_.abs_le]; constructor <;> (norm_num at pa pb ⊢; linarith)⟩
  have N2' := (N2.add Nq (by norm_num)).weak (Q' := 1.43) (d' := 2.4e-7) (by norm_num) (by norm_num)
  have A2 : |(1 - p + q) / ρ| ≤ 0.49 := by
    rw [_root_.abs_le]; exact ⟨by norm_num at A2l ⊢; linarith, A2u⟩
  have Na2 := F32.Near.div (e' := 4e-7) 0.49 2.1 2e-7 0.5 N2'.near Nr.near rp.ne' (by norm_num) rL A2 (by norm_num) (by norm_num) (by norm_num)
    (by norm_num)
  exact ⟨Nk.near, Nb.near.mono (by norm_num), Na1, Na2⟩

/-- The bounds of the rounded coefficients. -/
theorem coef_bounds_fast {κ α β K B X Y : ℝ} (k0 : 0 ≤ κ) (k1 : κ ≤ 0.3)
    (a0 : -0.743 ≤ α) (a1 : α ≤ 1e-6) (b0 : 0.05 ≤ β) (b1 : β ≤ 0.49) (g : 1 + α + β = 4 * κ) (gl : 0.235 ≤ 4 * κ)
    (su : -α + β ≤ 0.861) (tp : 4 * κ ≤ 2.8 * (1 - -α - β))
    (hK : |K - κ| ≤ 1e-7) (hB : |B - 2 * κ| ≤ 2.5e-7) (hX : |X - α| ≤ 6e-7) (hY : |Y - β| ≤ 4e-7) :
    |K| ≤ 0.31 ∧ |B| ≤ 0.62 ∧ |X| ≤ 0.75 ∧ |Y| ≤ 0.5 ∧ |X| + |Y| ≤ 0.862 ∧ 2 * |K| + |B| ≤ 2.85 * (1 - |X| - |Y|) ∧ 0.23 ≤ 1 + X + Y ∧
      |2 * K + B - (1 + X + Y)| ≤ 2e-6 := by
  rw [_root_.abs_le] at hK hB hX hY
  obtain ⟨h1, h2⟩ := hK
  obtain ⟨h3, h4⟩ := hB
  obtain ⟨h5, h6⟩ := hX
  obtain ⟨h7, h8⟩ := hY
  have xa : |X| ≤ -α + 3e-6 := by rw [_root_.abs_le]; constructor <;> (norm_num at h5 h6 a1 ⊢; linarith)
  have ya : |Y| ≤ β + 4e-7 := by rw [_root_.abs_le]; constructor <;> (norm_num at h7 h8 b0 ⊢; linarith)
  have ka : |K| ≤ κ + 1e-7 := by rw [_root_.abs_le]; constructor <;> (norm_num at h1 h2 k0 ⊢; linarith)
  have ba : |B| ≤ 2 * κ + 2.5e-7 := by rw [_root_.abs_le]; constructor <;> (norm_num at h3 h4 k0 ⊢; linarith)
  rw [_root_.abs_le (a := 2 * K + B - (1 + X + Y))]
  norm_num at h1 h2 h3 h4 h5 h6 h7 h8 xa ya ka ba k1 a0 a1 b0 b1 gl su tp ⊢
  refine ⟨?_, ?_, ?_, ?_, ?_, ?_, ?_, ?_, ?_⟩ <;> linarith

/-- The coefficients that `setup` stores. -/
theorem setup_coef_fast {s0 s : LPF2 (BitVec 32)} {a : BitVec 32} (fa : F32.Finite a) (h0 : 0.45 ≤ (val a : ℝ))
    (hs : s0.setup a = (s, true)) : CoefF s ∧ s.init = true := by
  rw [setup_code] at hs
  have hl : (F32.lt (F32.lit 0) a && F32.lt a (F32.lit 1)) = true := by
    by_contra hc
    rw [if_neg hc, Prod.mk.injEq] at hs
    simp at hs
  have h1 : (val a : ℝ) ≤ 1 := by
    have := (Bool.and_eq_true _ _ ▸ hl : _ ∧ _).2
    rw [lt_fin fa Fis.l0.2.2.1, Fis.l0.2.2.2, decide_eq_true_eq] at this
    exact_mod_cast this.le
  obtain ⟨fq, fp, hpq⟩ := setup_pq_fast fa h0 h1
  obtain ⟨Nk, Nb, N1, N2⟩ := coef_near_fast fp fq hpq
  obtain ⟨r0, r1, k0, kq, A1l, A1u, A2l, A2u, g, gl, su, tp⟩ := coef_exact_fast hpq
  obtain ⟨c1, c2, c3, c4, c5, c6, c7, c8⟩ := coef_bounds_fast k0 kq A1l A1u A2l A2u g gl su tp Nk.err Nb.err N1.err N2.err
  rw [hl, if_pos rfl, Prod.mk.injEq] at hs
  obtain ⟨rfl, -⟩ := hs
  exact ⟨⟨Nk.fin, Nb.fin, N1.fin, N2.fin, c1, c2, c3, c4, c5, c6, c7, c8⟩, rfl⟩

/-- **C178**, factors from 0.45 up to the largest accepted one: rounding adds at most `7e-6 * M` for ever. -/
theorem C178_follows_fast_partial {s0 s : LPF2 (BitVec 32)} {a : BitVec 32} {M : ℝ} (fa : F32.Finite a) (h0 : 0.45 ≤ (val a : ℝ))
    (hs : s0.setup a = (s, true)) (x : ℕ → BitVec 32) (fx : ∀ n, F32.Finite (x n))
    (hx : ∀ n, |(val (x n) : ℝ)| ≤ M) (M0 : 1e-20 ≤ M) (M1 : M ≤ 1e30) (n : ℕ) :
    F32.Finite (outAt s x n) ∧ |(val (outAt s x n) : ℝ) - outAt (exactOf s) (fun i => (val (x i) : ℝ)) n| ≤ 7e-6 * M := by
  obtain ⟨c, hi⟩ := setup_coef_fast fa h0 hs
  obtain ⟨k1, k2, -⟩ := lpf2_forever_fast c x fx hx M0 M1 (n + 2)
  rw [outAt_float s hi, outAt_exact s hi]
  exact ⟨k1, k2⟩

/-- **C178**, factors from 0.45: once the samples stay at `c` the outputs settle within `2e-5 * M` of `c`. -/
theorem C178_settles_fast_partial {s0 s : LPF2 (BitVec 32)} {a : BitVec 32} {M : ℝ} (fa : F32.Finite a) (h0 : 0.45 ≤ (val a : ℝ))
    (hs : s0.setup a = (s, true)) (x : ℕ → BitVec 32) (fx : ∀ n, F32.Finite (x n))
    (hx : ∀ n, |(val (x n) : ℝ)| ≤ M) (M0 : 1e-20 ≤ M) (M1 : M ≤ 1e30) (c : BitVec 32) (N : ℕ) (hc : ∀ n, N ≤ n → x n = c) :
    ∀ᶠ n in Filter.atTop, |(val (outAt s x n) : ℝ) - val c| ≤ 2e-5 * M := by
  obtain ⟨C, hi⟩ := setup_coef_fast fa h0 hs
  have Mp : 0 < M := by norm_num at M0; linarith
  have cM : |(val c : ℝ)| ≤ M := by rw [← hc N le_rfl]; exact hx N
  obtain ⟨Γ, hΓ⟩ : ∃ Γ, Γ = 1 + (val s.a1 : ℝ) + val s.a2 := ⟨_, rfl⟩
  have lo := C.low
  have ga := C.gain
  rw [← hΓ] at lo ga
  have Gp : 0 < Γ := lt_of_lt_of_le (by norm_num) lo
  obtain ⟨g, hg⟩ : ∃ g, g = (2 * (val s.k : ℝ) + val s.b1) / Γ := ⟨_, rfl⟩
  have gG : g * Γ = 2 * (val s.k : ℝ) + val s.b1 := by rw [hg, div_mul_cancel₀ _ Gp.ne']
  have g1 : |g - 1| ≤ 9e-6 := by
    have e : g - 1 = (2 * (val s.k : ℝ) + val s.b1 - Γ) / Γ := by rw [hg]; field_simp
    rw [e, abs_div, abs_of_pos Gp, div_le_iff₀ Gp]
    norm_num at ga lo ⊢; linarith
  have st : ∀ n, N + 2 ≤ n → (val (stream x n) : ℝ) = val c := by
    intro n hn
    rw [stream, hc _ (by omega)]
  have hrec : ∀ k, lpf2R s x (k + 2 + (N + 2)) - g * val c =
      -(val s.a1 : ℝ) * (lpf2R s x (k + 1 + (N + 2)) - g * val c) - val s.a2 * (lpf2R s x (k + (N + 2)) - g * val c) := by
    intro k
    have e1 : k + 2 + (N + 2) = (k + (N + 2)) + 2 := by omega
    have e2 : k + 1 + (N + 2) = (k + (N + 2)) + 1 := by omega
    rw [e1, e2, lpf2R, st _ (by omega), st _ (by omega), st _ (by omega)]
    linear_combination (-(val c : ℝ)) * gG + g * val c * hΓ
  have su := C.sum
  have j1 : |(val s.a1 : ℝ)| < 1 + val s.a2 := by
    have := neg_abs_le (val s.a2 : ℝ)
    norm_num at su; linarith
  have j2 : (val s.a2 : ℝ) < 1 := by
    have := le_abs_self (val s.a2 : ℝ)
    have := abs_nonneg (val s.a1 : ℝ)
    norm_num at su; linarith
  have T := jury_zero j1 j2 (e := fun k => lpf2R s x (k + (N + 2)) - g * val c) hrec
  have ev := (Metric.tendsto_nhds.1 T) (1e-6 * M) (by positivity)
  rw [Filter.eventually_atTop] at ev ⊢
  obtain ⟨n0, hn0⟩ := ev
  refine ⟨n0 + N, fun n hn => ?_⟩
  obtain ⟨-, k2, -⟩ := lpf2_forever_fast C x fx hx M0 M1 (n + 2)
  rw [outAt_float s hi]
  have k3 := hn0 (n - N) (by omega)
  have e : n - N + (N + 2) = n + 2 := by omega
  rw [Real.dist_eq, sub_zero, e] at k3
  have k4 : |(g - 1) * (val c : ℝ)| ≤ 9e-6 * M := by
    rw [abs_mul]; exact mul_le_mul g1 cM (abs_nonneg _) (by norm_num)
  have e' : (val (lpf2F s x (n + 2)) : ℝ) - val c = ((val (lpf2F s x (n + 2)) : ℝ) - lpf2R s x (n + 2)) +
      (lpf2R s x (n + 2) - g * val c) + (g - 1) * val c := by ring
  rw [e']
  refine (abs_add_le _ _).trans ((add_le_add (abs_add_le _ _) le_rfl).trans ?_)
  norm_num at k2 k3 k4 ⊢; linarith

example : F32.Finite (F32.lit 0.75) ∧ val (F32.lit 0.75) = 3 / 4 ∧ ∀ s0 : LPF2 (BitVec 32), ∃ s, s0.setup (F32.lit 0.75) = (s, true) := by
  have k : F32.Finite (F32.lit 0.75) ∧ val (F32.lit 0.75) = 3 / 4 := by decide +kernel
  have g : (F32.lt (F32.lit 0) (F32.lit 0.75) && F32.lt (F32.lit 0.75) (F32.lit 1)) = true := by decide +kernel
  exact ⟨k.1, k.2, fun s0 => ⟨_, by rw [setup_code, g, if_pos rfl]⟩⟩

end Verif.Smoother
