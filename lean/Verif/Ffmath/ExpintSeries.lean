import Verif.Ffmath.ExpintModel
import Verif.Ffmath.ExpintReal
import Verif.Ffmath.Laguerre

/-!
# The power series of the exponential integral in binary32 (C107)

The definitions here are proof tools and not definitions of the repository.
-/

namespace Verif.Ffmath

open Verif F32

/-! ### The series for positive arguments -/

theorem eps_factor {v w ε : ℚ} (hw : 0 ≤ w) (h : |ε| ≤ 1 / 16777216) (hv : v = w * (1 + ε)) :
    w * (1 - 1 / 16777216) ≤ v ∧ v ≤ w * (1 + 1 / 16777216) := by
  obtain ⟨h1, h2⟩ := _root_.abs_le.1 h
  rw [hv]
  constructor <;> exact mul_le_mul_of_nonneg_left (by linarith) hw

theorem lo_pow {k : ℕ} (hk : k ≤ 302) : (0.99998 : ℚ) ≤ (1 - 1 / 16777216) ^ k := by
  have := one_add_mul_le_pow (a := (-1 / 16777216 : ℚ)) (by norm_num) k
  have hk' : (k : ℚ) ≤ 302 := by exact_mod_cast hk
  have e : (1 - 1 / 16777216 : ℚ) = 1 + -1 / 16777216 := by norm_num
  rw [e]
  refine le_trans ?_ this
  norm_num
  linarith

theorem hi_pow {k : ℕ} (hk : k ≤ 302) : ((1 + 1 / 16777216) ^ k : ℚ) ≤ 1.00002 :=
  (pow_le_pow_right₀ (by norm_num) hk).trans (by decide +kernel)

/-- `x^n / n!` (not a definition of the repository). -/
def powFact (x : ℚ) (n : ℕ) : ℚ := x ^ n / (n.factorial : ℚ)

/-- The partial sum of the series (not a definition of the repository). -/
def seriesSum (x : ℚ) (n : ℕ) : ℚ := ∑ k ∈ Finset.range n, powFact x (k + 1) / ((k : ℚ) + 1)

theorem powFact_succ (x : ℚ) (n : ℕ) : powFact x (n + 1) = powFact x n * (x / ((n + 1 : ℕ) : ℚ)) := by
  unfold powFact
  rw [Nat.factorial_succ, pow_succ]
  push_cast
  field_simp

theorem powFact_pos {x : ℚ} (hx : 0 < x) (n : ℕ) : 0 < powFact x n := by unfold powFact; positivity

theorem powFact_le {x : ℚ} (hx : 0 < x) (h : x ≤ 37) (n : ℕ) : powFact x n ≤ 1e17 := by
  have h1 : ((powFact x n : ℚ) : ℝ) ≤ Real.exp x := by
    unfold powFact
    push_cast
    exact Real.pow_div_factorial_le_exp _ (by exact_mod_cast hx.le) _
  have h2 : Real.exp x ≤ Real.exp 37 := Real.exp_le_exp.2 (by exact_mod_cast h)
  have h3 : Real.exp 37 ≤ 1e17 := by
    have e : Real.exp 37 = Real.exp 1 ^ 37 := by rw [← Real.exp_nat_mul]; norm_num
    rw [e]
    refine (pow_le_pow_left₀ (Real.exp_pos 1).le Real.exp_one_lt_d9.le 37).trans ?_
    norm_num
  have : ((powFact x n : ℚ) : ℝ) ≤ ((1e17 : ℚ) : ℝ) := by
    refine (h1.trans (h2.trans h3)).trans (le_of_eq ?_); push_cast; norm_num
  exact_mod_cast this

theorem powFact_mono {x : ℚ} (hx : 0 < x) (n : ℕ) (h : (n : ℚ) ≤ x) : ∀ k ≤ n, powFact x k ≤ powFact x n := by
  intro k hk
  induction n, hk using Nat.le_induction with
  | base => exact le_rfl
  | succ n hk ih =>
    refine (ih (le_trans (by exact_mod_cast n.le_succ) h)).trans ?_
    rw [powFact_succ]
    refine le_mul_of_one_le_right (powFact_pos hx n).le ?_
    rw [le_div_iff₀ (by positivity), one_mul]
    exact h

theorem seriesSum_succ (x : ℚ) (n : ℕ) : seriesSum x (n + 1) = seriesSum x n + powFact x (n + 1) / ((n + 1 : ℕ) : ℚ) := by
  unfold seriesSum; rw [Finset.sum_range_succ]; push_cast; rfl

theorem seriesSum_nonneg {x : ℚ} (hx : 0 < x) (n : ℕ) : 0 ≤ seriesSum x n :=
  Finset.sum_nonneg fun k _ => div_nonneg (powFact_pos hx _).le (by positivity)

theorem seriesSum_ge {x : ℚ} (hx : 0 < x) (n : ℕ) : x ≤ seriesSum x (n + 1) := by
  induction n with
  | zero => simp [seriesSum, powFact]
  | succ n ih =>
    rw [seriesSum_succ]
    have : 0 ≤ powFact x (n + 1 + 1) / ((n + 1 + 1 : ℕ) : ℚ) := div_nonneg (powFact_pos hx _).le (by positivity)
    linarith

theorem seriesSum_le {x : ℚ} (hx : 0 < x) (n : ℕ) (h : (n : ℚ) ≤ x) : seriesSum x n ≤ n * powFact x n := by
  unfold seriesSum
  refine (Finset.sum_le_card_nsmul _ _ (powFact x n) fun k hk => ?_).trans (by simp)
  have := powFact_mono hx n h (k + 1) (by simpa using hk)
  refine (div_le_self (powFact_pos hx _).le ?_).trans this
  linarith [(Nat.cast_nonneg k : (0 : ℚ) ≤ k)]

theorem seriesSum_le' {x : ℚ} (hx : 0 < x) (h : x ≤ 37) (n : ℕ) : seriesSum x n ≤ n * 1e17 := by
  unfold seriesSum
  refine (Finset.sum_le_card_nsmul _ _ 1e17 fun k hk => ?_).trans (by simp)
  refine (div_le_self (powFact_pos hx _).le ?_).trans (powFact_le hx h _)
  linarith [(Nat.cast_nonneg k : (0 : ℚ) ≤ k)]

/-- The state of the loop after `i` iterations (not a definition of the repository): every rounding contributes a factor between `1 - 2^-24` and `1 + 2^-24`. -/
structure EiInv (x : ℚ) (i : ℕ) (term sum : BitVec 32) : Prop where
  ft : F32.Finite term
  fs : F32.Finite sum
  t1 : powFact x i * (1 - 1 / 16777216) ^ (2 * i) ≤ val term
  t2 : val term ≤ powFact x i * (1 + 1 / 16777216) ^ (2 * i)
  s1 : seriesSum x i * (1 - 1 / 16777216) ^ (2 * i + 2) ≤ val sum
  s2 : val sum ≤ seriesSum x i * (1 + 1 / 16777216) ^ (2 * i + 2)

theorem eiSeries_step {x term sum : BitVec 32} {i : ℕ} (hx : F32.Finite x) (h1 : 9e-7 ≤ val x) (h2 : val x ≤ 36.05) (hi : i < 150)
    (inv : EiInv (val x) i term sum) (ht : 5e-14 ≤ val term) :
    EiInv (val x) (i + 1) (F32.mul term (F32.div x (lit ((i + 1 : ℕ) : ℚ))))
      (F32.add sum (F32.div (F32.mul term (F32.div x (lit ((i + 1 : ℕ) : ℚ)))) (lit ((i + 1 : ℕ) : ℚ)))) := by
  obtain ⟨ft, fs, t1, t2, s1, s2⟩ := inv
  have hx0 : 0 < val x := by linarith
  obtain ⟨fj, vj⟩ := lit_nat (i + 1) (by omega)
  have j1 : (1 : ℚ) ≤ ((i + 1 : ℕ) : ℚ) := by exact_mod_cast (by omega : 1 ≤ i + 1)
  have j2 : ((i + 1 : ℕ) : ℚ) ≤ 150 := by exact_mod_cast (by omega : i + 1 ≤ 150)
  have tb : val term ≤ 1.1e17 := by
    refine t2.trans ?_
    have a := powFact_le hx0 (by linarith) i
    have b := hi_pow (k := 2 * i) (by omega)
    have c := (powFact_pos hx0 i).le
    calc _ ≤ (1e17 : ℚ) * 1.00002 := mul_le_mul a b (by positivity) (by norm_num)
      _ ≤ _ := by norm_num
  have sb : val sum ≤ 1.6e19 := by
    refine s2.trans ?_
    have a := seriesSum_le' hx0 (by linarith) i
    have a' : seriesSum (val x) i ≤ 150 * 1e17 := a.trans (by gcongr; exact_mod_cast hi.le)
    calc _ ≤ (150 * 1e17 : ℚ) * 1.00002 := mul_le_mul a' (hi_pow (by omega)) (by positivity) (by norm_num)
      _ ≤ _ := by norm_num
  have s0 : 0 ≤ val sum := le_trans (mul_nonneg (seriesSum_nonneg hx0 i) (by norm_num)) s1
  have hqx : 5e-9 ≤ val x / ((i + 1 : ℕ) : ℚ) := by rw [le_div_iff₀ (by positivity)]; nlinarith
  have hqx2 : val x / ((i + 1 : ℕ) : ℚ) ≤ 36.05 := (div_le_self hx0.le j1).trans h2
  obtain ⟨fd, e1, he1, vd⟩ := div_eps hx fj (by rw [vj]; positivity) (by rw [vj, abs_of_pos (by positivity)]; linarith)
    (by rw [vj, abs_of_pos (by positivity)]; linarith)
  rw [vj] at vd
  obtain ⟨d1, d2⟩ := eps_factor (by positivity) he1 vd
  generalize F32.div x (lit ((i + 1 : ℕ) : ℚ)) = d at *
  have hd1 : 4e-9 ≤ val d := le_trans (by linarith) d1
  have hd2 : val d ≤ 37 := d2.trans (by linarith)
  have hp1 : 1e-22 ≤ val term * val d := by nlinarith
  have hp2 : val term * val d ≤ 4.1e18 := by nlinarith
  obtain ⟨fm, e2, he2, vm⟩ := mul_eps ft fd (by rw [abs_of_pos (by linarith)]; linarith) (by rw [abs_of_pos (by linarith)]; linarith)
  obtain ⟨m1, m2⟩ := eps_factor (by linarith) he2 vm
  generalize F32.mul term d = tm at *
  have hm1 : 9e-23 ≤ val tm := le_trans (by linarith) m1
  have hm2 : val tm ≤ 4.2e18 := m2.trans (by linarith)
  have T1 : powFact (val x) (i + 1) * (1 - 1 / 16777216) ^ (2 * (i + 1)) ≤ val tm := by
    refine le_trans ?_ m1
    rw [powFact_succ]
    have : powFact (val x) i * (1 - 1 / 16777216) ^ (2 * i) * (val x / ((i + 1 : ℕ) : ℚ) * (1 - 1 / 16777216)) ≤ val term * val d :=
      mul_le_mul t1 d1 (by have : 0 ≤ val x / ((i + 1 : ℕ) : ℚ) := by positivity
                           nlinarith) (by linarith)
    refine le_trans (le_of_eq ?_) (mul_le_mul_of_nonneg_right this (by norm_num))
    rw [show 2 * (i + 1) = 2 * i + 1 + 1 by ring, pow_succ, pow_succ]; ring
  have T2 : val tm ≤ powFact (val x) (i + 1) * (1 + 1 / 16777216) ^ (2 * (i + 1)) := by
    refine m2.trans ?_
    rw [powFact_succ]
    have : val term * val d ≤ powFact (val x) i * (1 + 1 / 16777216) ^ (2 * i) * (val x / ((i + 1 : ℕ) : ℚ) * (1 + 1 / 16777216)) :=
      mul_le_mul t2 d2 (by linarith) (mul_nonneg (powFact_pos hx0 i).le (by positivity))
    refine le_trans (mul_le_mul_of_nonneg_right this (by norm_num)) (le_of_eq ?_)
    rw [show 2 * (i + 1) = 2 * i + 1 + 1 by ring, pow_succ, pow_succ]; ring
  have hq1 : 5e-25 ≤ val tm / ((i + 1 : ℕ) : ℚ) := by rw [le_div_iff₀ (by positivity)]; nlinarith
  have hq2 : val tm / ((i + 1 : ℕ) : ℚ) ≤ 4.2e18 := (div_le_self (by linarith) j1).trans hm2
  obtain ⟨fq, e3, he3, vq⟩ := div_eps fm fj (by rw [vj]; positivity) (by rw [vj, abs_of_pos (by linarith)]; linarith)
    (by rw [vj, abs_of_pos (by linarith)]; linarith)
  rw [vj] at vq
  obtain ⟨q1, q2⟩ := eps_factor (by linarith) he3 vq
  generalize F32.div tm (lit ((i + 1 : ℕ) : ℚ)) = qq at *
  have hqq : 4e-25 ≤ val qq := le_trans (by linarith) q1
  have hqq2 : val qq ≤ 5e18 := q2.trans (by linarith)
  obtain ⟨fa, e4, he4, va⟩ := add_eps fs fq (by rw [abs_of_pos (by linarith)]; linarith) (by rw [abs_of_pos (by linarith)]; linarith)
  obtain ⟨a1, a2⟩ := eps_factor (by linarith) he4 va
  have hS := seriesSum_nonneg hx0 i
  have hP := (powFact_pos hx0 (i + 1)).le
  refine ⟨fm, fa, T1, T2, le_trans ?_ a1, a2.trans ?_⟩
  · rw [seriesSum_succ]
    have k1 : powFact (val x) (i + 1) / ((i + 1 : ℕ) : ℚ) * (1 - 1 / 16777216) ^ (2 * i + 3) ≤ val qq := by
      refine le_trans (le_of_eq ?_) (le_trans (mul_le_mul_of_nonneg_right (div_le_div_of_nonneg_right T1 (by linarith)) (by norm_num)) q1)
      rw [show 2 * i + 3 = 2 * (i + 1) + 1 by ring, pow_succ]; ring
    have k2 : seriesSum (val x) i * (1 - 1 / 16777216) ^ (2 * i + 3) ≤ val sum := by
      refine le_trans (mul_le_mul_of_nonneg_left ?_ hS) s1
      exact pow_le_pow_of_le_one (by norm_num) (by norm_num) (by omega)
    have e : (seriesSum (val x) i + powFact (val x) (i + 1) / ((i + 1 : ℕ) : ℚ)) * (1 - 1 / 16777216) ^ (2 * (i + 1) + 2) =
        (seriesSum (val x) i * (1 - 1 / 16777216) ^ (2 * i + 3) + powFact (val x) (i + 1) / ((i + 1 : ℕ) : ℚ) * (1 - 1 / 16777216) ^ (2 * i + 3)) *
          (1 - 1 / 16777216) := by
      rw [show 2 * (i + 1) + 2 = 2 * i + 3 + 1 by ring, pow_succ]; ring
    rw [e]
    exact mul_le_mul_of_nonneg_right (add_le_add k2 k1) (by norm_num)
  · rw [seriesSum_succ]
    have k1 : val qq ≤ powFact (val x) (i + 1) / ((i + 1 : ℕ) : ℚ) * (1 + 1 / 16777216) ^ (2 * i + 3) := by
      refine le_trans (q2.trans (mul_le_mul_of_nonneg_right (div_le_div_of_nonneg_right T2 (by linarith)) (by norm_num))) (le_of_eq ?_)
      rw [show 2 * i + 3 = 2 * (i + 1) + 1 by ring, pow_succ]; ring
    have k2 : val sum ≤ seriesSum (val x) i * (1 + 1 / 16777216) ^ (2 * i + 3) := by
      refine s2.trans (mul_le_mul_of_nonneg_left ?_ hS)
      exact pow_le_pow_right₀ (by norm_num) (by omega)
    have e : (seriesSum (val x) i + powFact (val x) (i + 1) / ((i + 1 : ℕ) : ℚ)) * (1 + 1 / 16777216) ^ (2 * (i + 1) + 2) =
        (seriesSum (val x) i * (1 + 1 / 16777216) ^ (2 * i + 3) + powFact (val x) (i + 1) / ((i + 1 : ℕ) : ℚ) * (1 + 1 / 16777216) ^ (2 * i + 3)) *
          (1 + 1 / 16777216) := by
      rw [show 2 * (i + 1) + 2 = 2 * i + 3 + 1 by ring, pow_succ]; ring
    rw [e]
    exact mul_le_mul_of_nonneg_right (add_le_add k2 k1) (by norm_num)

/-- The loop ends after at most 150 iterations, and only after a number `n >= x` of iterations. -/
theorem eiSeries_loop {x : BitVec 32} (hx : F32.Finite x) (h1 : 9.5e-7 ≤ val x) (h2 : val x ≤ 36.05) :
    ∀ (fuel i : ℕ) (term sum : BitVec 32), i + fuel = 999 → i < 150 → EiInv (val x) i term sum → 5e-14 ≤ val term →
    ∃ n : ℕ, n ≤ 150 ∧ val x ≤ n ∧ F32.Finite (eiSeriesLoop x fuel (i + 1) term sum) ∧
      seriesSum (val x) n * 0.99998 ≤ val (eiSeriesLoop x fuel (i + 1) term sum) ∧
      val (eiSeriesLoop x fuel (i + 1) term sum) ≤ seriesSum (val x) n * 1.00002 ∧ powFact (val x) n ≤ 1.2e-7 * seriesSum (val x) n := by
  intro fuel
  induction fuel with
  | zero => intro i _ _ h hi; omega
  | succ fuel ih =>
    intro i term sum hif hi inv ht
    have hx0 : 0 < val x := by linarith
    have inv' := eiSeries_step hx (by linarith) h2 hi inv ht
    unfold eiSeriesLoop
    simp only []
    generalize F32.mul term (F32.div x (lit ((i + 1 : ℕ) : ℚ))) = tm at *
    generalize F32.add sum (F32.div tm (lit ((i + 1 : ℕ) : ℚ))) = sm at *
    obtain ⟨ft, fs, t1, t2, s1, s2⟩ := inv'
    have hS := seriesSum_ge hx0 i
    have hS2 : seriesSum (val x) (i + 1) ≤ 150 * 1e17 := by
      refine (seriesSum_le' hx0 (by linarith) (i + 1)).trans ?_
      gcongr; exact_mod_cast (by omega : i + 1 ≤ 150)
    have hP := powFact_pos hx0 (i + 1)
    have u1 := lo_pow (k := 2 * (i + 1)) (by omega)
    have u2 := hi_pow (k := 2 * (i + 1)) (by omega)
    have u3 := lo_pow (k := 2 * (i + 1) + 2) (by omega)
    have u4 := hi_pow (k := 2 * (i + 1) + 2) (by omega)
    have T1 : powFact (val x) (i + 1) * 0.99998 ≤ val tm := le_trans (mul_le_mul_of_nonneg_left u1 hP.le) t1
    have T2 : val tm ≤ powFact (val x) (i + 1) * 1.00002 := t2.trans (mul_le_mul_of_nonneg_left u2 hP.le)
    have S1 : seriesSum (val x) (i + 1) * 0.99998 ≤ val sm := le_trans (mul_le_mul_of_nonneg_left u3 (by linarith)) s1
    have S2 : val sm ≤ seriesSum (val x) (i + 1) * 1.00002 := s2.trans (mul_le_mul_of_nonneg_left u4 (by linarith))
    have heps : val epsilon = 1 / 8388608 := by decide +kernel
    obtain ⟨fe, e, he, ve⟩ := mul_eps c_eps.1 fs (by rw [heps, abs_of_pos (by linarith)]; linarith) (by rw [heps, abs_of_pos (by linarith)]; linarith)
    rw [heps] at ve
    obtain ⟨v1, v2⟩ := eps_factor (by linarith) he ve
    rw [lt_fin ft fe]
    split
    · rename_i hb
      rw [decide_eq_true_eq] at hb
      refine ⟨i + 1, by omega, ?_, fs, S1, S2, by linarith⟩
      by_contra hc
      rw [not_le] at hc
      have hle := seriesSum_le hx0 (i + 1) hc.le
      have : ((i + 1 : ℕ) : ℚ) ≤ 36.05 := by linarith
      have : ((i + 1 : ℕ) : ℚ) * powFact (val x) (i + 1) ≤ 36.05 * powFact (val x) (i + 1) := mul_le_mul_of_nonneg_right this hP.le
      linarith
    · rename_i hb
      rw [decide_eq_true_eq, not_lt] at hb
      have hi' : i + 1 < 150 := by
        by_contra hc
        have hi150 : i + 1 = 150 := by omega
        have hb2 : powFact (val x) 150 ≤ val x * 1e-12 := by
          have e : powFact (val x) 150 = val x * ((val x) ^ 149 / ((150).factorial : ℚ)) := by
            unfold powFact; rw [show (150 : ℕ) = 149 + 1 from rfl, pow_succ]; ring
          rw [e]
          refine mul_le_mul_of_nonneg_left ?_ hx0.le
          have : (val x) ^ 149 ≤ (36.05 : ℚ) ^ 149 := pow_le_pow_left₀ hx0.le h2 149
          refine (div_le_div_of_nonneg_right this (by positivity)).trans (by decide +kernel)
        rw [hi150] at T2 S1 hS
        linarith
      exact ih (i + 1) tm sm (by omega) hi' ⟨ft, fs, t1, t2, s1, s2⟩ (by linarith)

theorem eiSeries_near {x : BitVec 32} (hx : F32.Finite x) (h1 : 9.5e-7 ≤ val x) (h2 : val x ≤ 36.05) :
    F32.Finite (eiSeriesLoop x 999 1 (lit 1) (lit 0)) ∧
    |(val (eiSeriesLoop x 999 1 (lit 1) (lit 0)) : ℝ) - einR (val x)| ≤ 2.1e-5 * einR (val x) := by
  have hx0 : 0 < val x := by linarith
  obtain ⟨n, hn, hxn, hf, a1, a2, a3⟩ := eiSeries_loop hx h1 h2 999 0 (lit 1) (lit 0) rfl (by omega)
    ⟨c_one.1, c_zero.1, by simp [powFact, c_one.2], by simp [powFact, c_one.2], by simp [seriesSum, c_zero.2], by simp [seriesSum, c_zero.2]⟩
    (by rw [c_one.2]; norm_num)
  refine ⟨hf, ?_⟩
  have hxr : (0 : ℝ) < ((val x : ℚ) : ℝ) := by exact_mod_cast hx0
  have e1 : ((seriesSum (val x) n : ℚ) : ℝ) = einS (val x) n := by
    unfold seriesSum einS powFact
    push_cast
    refine Finset.sum_congr rfl fun k _ => ?_
    rw [div_div, _root_.mul_comm]
  have e2 : ((powFact (val x) n : ℚ) : ℝ) = ((val x : ℚ) : ℝ) ^ n / (n.factorial : ℝ) := by unfold powFact; push_cast; rfl
  have l := einS_le hxr.le n
  have u := einR_le hxr.le n (by exact_mod_cast hxn)
  rw [← e1] at l u
  rw [← e2] at u
  have b1 : ((seriesSum (val x) n * 0.99998 : ℚ) : ℝ) ≤ ((val (eiSeriesLoop x 999 1 (lit 1) (lit 0)) : ℚ) : ℝ) := by exact_mod_cast a1
  have b2 : ((val (eiSeriesLoop x 999 1 (lit 1) (lit 0)) : ℚ) : ℝ) ≤ ((seriesSum (val x) n * 1.00002 : ℚ) : ℝ) := by exact_mod_cast a2
  have b3 : ((powFact (val x) n : ℚ) : ℝ) ≤ ((1.2e-7 * seriesSum (val x) n : ℚ) : ℝ) := by exact_mod_cast a3
  push_cast at b1 b2 b3
  have hs : (0 : ℝ) ≤ ((seriesSum (val x) n : ℚ) : ℝ) := by exact_mod_cast seriesSum_nonneg hx0 n
  generalize ((val (eiSeriesLoop x 999 1 (lit 1) (lit 0)) : ℚ) : ℝ) = R at *
  generalize ((seriesSum (val x) n : ℚ) : ℝ) = S at *
  generalize ((powFact (val x) n : ℚ) : ℝ) = P at *
  generalize einR (val x) = E at *
  rw [_root_.abs_le]
  constructor <;> norm_num at b1 b2 b3 ⊢ <;> linarith

end Verif.Ffmath
