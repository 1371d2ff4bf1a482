import Verif.Ffmath.Log2

/-!
# `log`, `log10`, `log1p` (C82), `exp10`, `pow` (C83)

IEEE binary32 arithmetic.
-/

namespace Verif.Ffmath

open Verif F32

/-- A constant times `log2`. -/
theorem scaled_log {c x : BitVec 32} {C e : ℝ} (D K : ℝ) (hc : Near c C e) (hC : 0 < C) (hC1 : C ≤ 1)
    (hx : Finite x) (h : 2 ^ (-126 : ℤ) ≤ val x) (hD : C * 3.5e-7 + e + e * 3.5e-7 ≤ D) (hD1 : D ≤ 1)
    (hK : D + (C + D) / 16777216 + 1e-37 ≤ K) :
    Near (F32.mul c (log2 x)) (C * Real.logb 2 (val x)) (K * |Real.logb 2 (val x)|) := by
  obtain ⟨n, h2, h3⟩ := log2_core hx h
  generalize log2 x = y at *
  generalize Real.logb 2 (val x) = L at *
  rcases h3 with h3 | h3
  · subst h3
    have v : (val y : ℝ) = 0 := by
      have := n.err
      rw [abs_zero, mul_zero, sub_zero] at this
      exact abs_eq_zero.1 (le_antisymm this (abs_nonneg _))
    have v' : val y = 0 := by exact_mod_cast v
    rw [mul_fin hc.fin n.fin, v', mul_zero]
    have := rnd_int (neg c != neg y) (k := 0) (by norm_num)
    rw [Int.cast_zero] at this
    exact ⟨this.1, by rw [this.2]; simp⟩
  · have h0 : 0 ≤ |L| := abs_nonneg L
    have hCL : |C * L| = C * |L| := by rw [abs_mul, abs_of_pos hC]
    have e0 : 0 ≤ e := (abs_nonneg _).trans hc.err
    have D0 : 0 ≤ D := le_trans (by positivity) hD
    refine Near.mul C |L| (D * |L|) ((C + D) * |L|) hc n (by rw [abs_of_pos hC]) le_rfl ?_ ?_ ?_ ?_
    · have := mul_le_mul_of_nonneg_right hD h0
      linarith
    · rw [hCL]; linarith
    · have := mul_le_mul (show C + D ≤ 2 by linarith) h2 h0 (by norm_num)
      exact this.trans (by norm_num)
    · have := mul_le_mul_of_nonneg_right hK h0
      generalize |L| = A at *
      have e1 : D * A + (C + D) * A / 16777216 + 1e-37 * A ≤ K * A := by linarith
      norm_num at e1 h3 ⊢; linarith

theorem ln2_near : Near FFP_LN2 (Real.log 2) 2.1e-9 := by
  have c : Finite FFP_LN2 ∧ |val FFP_LN2 - 287209 / 414355| ≤ 1.98e-9 := by decide +kernel
  have n : Near FFP_LN2 (287209 / 414355 : ℝ) 1.98e-9 := near_lit c (by norm_num) (by norm_num)
  have h := Real.log_two_near_10
  rw [abs_sub_comm] at h
  exact (n.move h).mono (by norm_num)

theorem log2_bounds : 0.69314718 < Real.log 2 ∧ Real.log 2 < 0.69314719 := by
  have h := _root_.abs_le.1 Real.log_two_near_10
  norm_num at h ⊢; constructor <;> linarith

theorem log_of_logb (v : ℝ) : Real.log v = Real.log 2 * Real.logb 2 v := by
  rw [Real.logb]
  have := log2_bounds.1
  have : Real.log 2 ≠ 0 := by intro h; rw [h] at this; norm_num at this
  field_simp

/-- **C82** (part) `log` is within a relative error of `4.2e-7` for every normal positive float. -/
theorem C82_log_partial (x : BitVec 32) (hx : Finite x) (h : 2 ^ (-126 : ℤ) ≤ val x) :
    Finite (log x) ∧ |(val (log x) : ℝ) - Real.log (val x)| ≤ 4.2e-7 * |Real.log (val x)| := by
  obtain ⟨b1, b2⟩ := log2_bounds
  have := scaled_log (D := 2.45e-7) (K := 2.9e-7) ln2_near (lt_trans (by norm_num) b1) (b2.le.trans (by norm_num)) hx h
    (by norm_num at b2 ⊢; linarith) (by norm_num) (by norm_num at b2 ⊢; linarith)
  rw [← log_of_logb] at this
  refine ⟨this.fin, this.err.trans ?_⟩
  rw [log_of_logb (val x : ℝ), abs_mul, abs_of_pos (lt_trans (by norm_num) b1), ← mul_assoc]
  refine mul_le_mul_of_nonneg_right ?_ (abs_nonneg _)
  norm_num at b1 ⊢; linarith

theorem log10_bounds : 2.30258507 ≤ Real.log 10 ∧ Real.log 10 ≤ 2.30258512 := by
  obtain ⟨b1, b2⟩ := log2_bounds
  have h := _root_.abs_le.1 Real.log_two_near_10
  have c := logC_close (x := 0.25) (by norm_num) (by norm_num)
  have e : Real.log 10 = 3 * Real.log 2 + Real.log (1 + 0.25) := by
    rw [show (10 : ℝ) = 2 ^ 3 * (1 + 0.25) by norm_num, Real.log_mul (by norm_num) (by norm_num), Real.log_pow]
    push_cast; ring
  rw [e]
  simp only [logC, peval_cons, peval_nil] at c
  push_cast at c
  rw [_root_.abs_le] at c
  generalize Real.log (1 + 0.25) = w at *
  generalize Real.log 2 = l at *
  rw [abs_of_pos (by norm_num : (0 : ℝ) < 0.25)] at c
  norm_num at c h ⊢
  constructor <;> linarith

theorem log10_2_near : Near FFP_LOG10_2 (Real.log 2 / Real.log 10) 2.4e-8 := by
  have c : Finite FFP_LOG10_2 ∧ |val FFP_LOG10_2 - 0.301029996| ≤ 1.4e-8 := by decide +kernel
  have n : Near FFP_LOG10_2 (0.301029996 : ℝ) 1.4e-8 := near_lit c (by norm_num) (by norm_num)
  refine (n.move (e' := 1e-8) ?_).mono (by norm_num)
  obtain ⟨b1, b2⟩ := log2_bounds
  obtain ⟨c1, c2⟩ := log10_bounds
  have c0 : 0 < Real.log 10 := lt_of_lt_of_le (by norm_num) c1
  have : (0.301029996 : ℝ) - Real.log 2 / Real.log 10 = (0.301029996 * Real.log 10 - Real.log 2) / Real.log 10 := by field_simp
  rw [this, abs_div, abs_of_pos c0, div_le_iff₀ c0, _root_.abs_le]
  norm_num at b1 b2 c1 c2 ⊢
  constructor <;> linarith

/-- **C82** (part) `log10` is within a relative error of `5e-7` for every normal positive float. -/
theorem C82_log10_partial (x : BitVec 32) (hx : Finite x) (h : 2 ^ (-126 : ℤ) ≤ val x) :
    Finite (log10 x) ∧ |(val (log10 x) : ℝ) - Real.logb 10 (val x)| ≤ 5e-7 * |Real.logb 10 (val x)| := by
  obtain ⟨b1, b2⟩ := log2_bounds
  obtain ⟨c1, c2⟩ := log10_bounds
  have c0 : 0 < Real.log 10 := lt_of_lt_of_le (by norm_num) c1
  have r1 : 0.301 ≤ Real.log 2 / Real.log 10 := by rw [le_div_iff₀ c0]; norm_num at c2 b1 ⊢; linarith
  have r2 : Real.log 2 / Real.log 10 ≤ 0.3011 := by rw [div_le_iff₀ c0]; norm_num at c1 b2 ⊢; linarith
  have e : Real.logb 10 (val x : ℝ) = Real.log 2 / Real.log 10 * Real.logb 2 (val x) := by
    have hl2 : Real.log 2 ≠ 0 := by intro h; rw [h] at b1; norm_num at b1
    rw [Real.logb, Real.logb]
    field_simp
  have := scaled_log (D := 1.3e-7) (K := 1.49e-7) log10_2_near (lt_of_lt_of_le (by norm_num) r1) (r2.trans (by norm_num)) hx h
    (by norm_num at r2 ⊢; linarith) (by norm_num) (by norm_num at r2 ⊢; linarith)
  rw [← e] at this
  refine ⟨this.fin, this.err.trans ?_⟩
  rw [e, abs_mul, abs_of_pos (lt_of_lt_of_le (by norm_num) r1), ← mul_assoc]
  refine mul_le_mul_of_nonneg_right ?_ (abs_nonneg _)
  norm_num at r1 ⊢; linarith

theorem succ_le {a b : BitVec 32} (h : val a < val b) (c : BitVec 32) (hc : key c = key a + 1) : val c ≤ val b := by
  rw [val_lt_iff] at h; rw [val_le_iff]; omega

theorem eq_of_val_pos {a b : BitVec 32} (h : val a = val b) (hb : 0 < key b) : a = b := by
  have h2 := kval_strictMono.injective ((val_kval a).symm.trans (h.trans (val_kval b)))
  unfold key at h2 hb
  by_cases hn : neg b = true
  · rw [if_pos hn] at hb; omega
  · rw [if_neg hn] at h2
    by_cases ha : neg a = true
    · rw [if_pos ha] at h2; rw [if_neg hn] at hb; omega
    · rw [if_neg ha] at h2
      rw [Bool.not_eq_true] at ha hn
      exact eq_of_neg_mag (ha.trans hn.symm) (by omega)

/-- **C82** (part) `log1p` of `x > -1` is within `7e-8` plus a relative `4.2e-7` of `log(1 + x)`. Missing: relative
accuracy for small arguments, which is false (`C82_false`). -/
theorem C82_log1p_partial (x : BitVec 32) (hx : Finite x) (h : -1 < val x) (h2 : val x ≤ 1e38) :
    Finite (log1p x) ∧ |(val (log1p x) : ℝ) - Real.log (1 + val x)| ≤ 7e-8 + 4.2e-7 * |Real.log (1 + val x)| := by
  obtain ⟨fy, hy1, hy⟩ : Finite (F32.add (lit 1) x) ∧ 2 ^ (-126 : ℤ) ≤ val (F32.add (lit 1) x) ∧
      ∃ ε : ℚ, |ε| ≤ 1 / 16777216 ∧ val (F32.add (lit 1) x) = (1 + val x) * (1 + ε) := by
    have hs : 5e-8 ≤ 1 + val x := by
      have c : Finite (negate (lit 1)) ∧ val (negate (lit 1)) = -1 ∧ key 0xBF7FFFFF#32 = key (negate (lit 1)) + 1 ∧
        val 0xBF7FFFFF#32 = -1 + 2 ^ (-24 : ℤ) := by decide +kernel
      have := succ_le (a := negate (lit 1)) (b := x) (by rw [c.2.1]; exact h) _ c.2.2.1
      rw [c.2.2.2] at this
      norm_num at this ⊢; linarith
    have e := add_eps fin_one hx (by rw [val_one, abs_of_pos (by linarith)]; norm_num at hs ⊢; linarith)
      (by rw [val_one, abs_of_pos (by linarith)]; norm_num at h2 ⊢; linarith)
    rw [val_one] at e
    obtain ⟨f, ε, h3, h4⟩ := e
    refine ⟨f, ?_, ε, h3, h4⟩
    rw [h4]
    have : 1 / 2 ≤ 1 + ε := by linarith [(_root_.abs_le.1 h3).1]
    have := mul_le_mul hs this (by norm_num) (by linarith)
    exact le_trans (by norm_num) this
  obtain ⟨ε, he, hv⟩ := hy
  obtain ⟨f, e1⟩ := C82_log_partial _ fy hy1
  unfold log at f e1
  refine ⟨f, ?_⟩
  unfold log1p
  generalize F32.mul FFP_LN2 (log2 (F32.add (lit 1) x)) = r at *
  have hp : (0 : ℝ) < 1 + (val x : ℝ) := by
    have : ((-1 : ℚ) : ℝ) < (val x : ℝ) := by exact_mod_cast h
    push_cast at this; linarith
  have he' : |(ε : ℝ)| ≤ 1 / 16777216 := by
    have : ((|ε| : ℚ) : ℝ) ≤ ((1 / 16777216 : ℚ) : ℝ) := by exact_mod_cast he
    push_cast at this; exact this
  obtain ⟨g1, g2⟩ := _root_.abs_le.1 he'
  have hq : (0 : ℝ) < 1 + (ε : ℝ) := by norm_num at g1 ⊢; linarith
  have hl : Real.log (val (F32.add (lit 1) x) : ℝ) = Real.log (1 + val x) + Real.log (1 + ε) := by
    rw [hv]; push_cast; exact Real.log_mul hp.ne' hq.ne'
  have hs : |Real.log (1 + (ε : ℝ))| ≤ 6e-8 := by
    rw [_root_.abs_le]
    have u1 := Real.log_le_sub_one_of_pos hq
    have u2 := Real.one_sub_inv_le_log_of_pos hq
    have u3 : -(6e-8) ≤ 1 - (1 + (ε : ℝ))⁻¹ := by
      have : (1 + (ε : ℝ))⁻¹ ≤ 1 + 6e-8 := by
        rw [inv_le_comm₀ hq (by norm_num)]; norm_num at g1 ⊢; linarith
      linarith
    norm_num at u1 u2 u3 g2 ⊢
    constructor <;> linarith
  rw [hl] at e1
  generalize Real.log (1 + (val x : ℝ)) = L at *
  generalize Real.log (1 + (ε : ℝ)) = M at *
  have t1 := abs_add_le L M
  have t2 := abs_sub_le (val r : ℝ) (L + M) L
  rw [add_sub_cancel_left] at t2
  generalize |L + M| = A at *
  generalize |L| = B at *
  generalize |M| = E at *
  norm_num at e1 hs ⊢
  linarith

/-- **C82** (part) The special values of the logarithms. -/
theorem C82_special (x : BitVec 32) : (val x = 0 → log x = negate inf ∧ log10 x = negate inf) ∧
    (F32.lt x (lit 0) = true → IsNaN (log x) ∧ IsNaN (log10 x)) ∧
    (val x = 1 → val (log x) = 0 ∧ val (log10 x) = 0) := by
  unfold log log10
  refine ⟨fun h => ?_, fun h => ?_, fun h => ?_⟩
  · rw [(C81_special x).1 h]; decide +kernel
  · rw [(C81_special x).2 h]; decide +kernel
  · have hx : x = lit 1 := by
      have c : val (lit 1) = 1 := by decide +kernel
      exact eq_of_val_pos (h.trans c.symm) (by decide +kernel)
    rw [hx]; decide +kernel

/-- **C82** (negation) `log1p` loses a small argument altogether; the logarithms of infinity are finite and those
of a NaN are numbers. -/
theorem C82_false : log1p (lit 0.00000001) = lit 0 ∧ 0 < val (lit 0.00000001) ∧ Finite (log inf) ∧ Finite (log10 inf) ∧
    Finite (log nan) ∧ Finite (log10 nan) ∧ Finite (log1p nan) := by decide +kernel

/-- Cases of the theorems above. -/
example : Finite (lit 3) ∧ 2 ^ (-126 : ℤ) ≤ val (lit 3) ∧ log (lit 3) = 0x3F8C9F54#32 ∧
    -1 < val (negate (lit 0.5)) ∧ 0x80000000#32 ≠ 0#32 ∧ val 0x80000000#32 = 0 := by decide +kernel

/-! ### `exp10` and `pow` -/

/-- **C83** (part) `pow(b, e)` for a normal positive `b` and a result inside the range of `exp2`: the relative error is
at most `3.6e-7` plus `2.9e-7` times `|e log2 b|`. -/
theorem C83_pow_partial (b e : BitVec 32) (hb : Finite b) (h : 2 ^ (-126 : ℤ) ≤ val b) (he : Finite e)
    (h1 : -125.9 ≤ (val e : ℝ) * Real.logb 2 (val b)) (h2 : (val e : ℝ) * Real.logb 2 (val b) ≤ 127.4) :
    ∃ r, pow b e = .ok r ∧ Finite r ∧ |(val r : ℝ) - (val b : ℝ) ^ (val e : ℝ)| ≤
      (3.6e-7 + 2.9e-7 * |(val e : ℝ) * Real.logb 2 (val b)|) * (val b : ℝ) ^ (val e : ℝ) := by
  obtain ⟨n, n2, n3⟩ := log2_core hb h
  have hb0 : (0 : ℝ) < (val b : ℝ) := by
    have : 0 < val b := lt_of_lt_of_le (two_zpow_pos _) h
    exact_mod_cast this
  have hab : |(val e : ℝ) * Real.logb 2 (val b)| ≤ 127.4 := by rw [_root_.abs_le]; norm_num at h1 h2 ⊢; constructor <;> linarith
  have hpow : (val b : ℝ) ^ (val e : ℝ) = Real.exp (Real.log 2 * ((val e : ℝ) * Real.logb 2 (val b))) := by
    rw [Real.rpow_def_of_pos hb0, log_of_logb (val b : ℝ)]; congr 1; ring
  rw [hpow]
  unfold pow
  generalize log2 b = y at *
  generalize Real.logb 2 (val b) = L at *
  -- the product
  have hq : |((val e * val y : ℚ) : ℝ) - (val e : ℝ) * L| ≤ 3.5e-7 * |(val e : ℝ) * L| := by
    push_cast
    rw [← mul_sub, abs_mul, abs_mul]
    have := mul_le_mul_of_nonneg_left n.err (abs_nonneg (val e : ℝ))
    linarith
  generalize (val e : ℝ) * L = Z at *
  have hZ0 := abs_nonneg Z
  have hy : Near (F32.mul e y) Z (4.11e-7 * |Z| + 1e-45) := by
    rw [mul_fin he n.fin]
    refine rnd_near (1.000001 * |Z|) hq ?_ ?_ ?_ <;> generalize |Z| = A at * <;> norm_num at hab ⊢ <;> linarith
  obtain ⟨fy, ey⟩ := hy
  have hab2 : |(val (F32.mul e y) : ℝ) - Z| ≤ 1e-3 := ey.trans (by generalize |Z| = A at *; norm_num at hab ⊢; linarith)
  obtain ⟨q1, q2⟩ := _root_.abs_le.1 hab2
  generalize F32.mul e y = p at *
  have p1 : -126 < val p := by
    have : ((-126 : ℚ) : ℝ) < (val p : ℝ) := by push_cast; norm_num at q1 h1 ⊢; linarith
    exact_mod_cast this
  have p2 : val p < 127.5 := by
    have : (val p : ℝ) < ((127.5 : ℚ) : ℝ) := by push_cast; norm_num at q2 h2 ⊢; linarith
    exact_mod_cast this
  obtain ⟨b1, b2⟩ := log2_bounds
  have hd : |Real.log 2 * (val p : ℝ) - Real.log 2 * Z| ≤ 2.85e-7 * |Z| + 1e-45 := by
    rw [← mul_sub, abs_mul, abs_of_pos (lt_trans (by norm_num) b1)]
    have := mul_le_mul b2.le ey (abs_nonneg _) (by norm_num)
    generalize |Z| = A at *
    norm_num at this ⊢; linarith
  obtain ⟨r, hr, hf, he⟩ := exp2_as_exp fy p1 p2 hd (by generalize |Z| = A at *; norm_num at hab ⊢; linarith)
  refine ⟨r, hr, hf, he.trans (mul_le_mul_of_nonneg_right ?_ (Real.exp_pos _).le)⟩
  generalize |Z| = A at *
  norm_num; linarith

/-- **C83** (part) `pow(b, 0) = 1` for every normal positive `b`. -/
theorem C83_pow_zero (b e : BitVec 32) (hb : Finite b) (h : 2 ^ (-126 : ℤ) ≤ val b) (he : val e = 0) :
    pow b e = .ok (lit 1) := by
  have hy := (log2_core hb h).1.fin
  have fe : Finite e := by rcases zero_bits he with h | h <;> rw [h] <;> decide +kernel
  have hv : val (F32.mul e (log2 b)) = 0 := by
    rw [mul_fin fe hy, he, zero_mul]
    have := rnd_int (neg e != neg (log2 b)) (k := 0) (by norm_num)
    rw [Int.cast_zero] at this
    exact this.2
  unfold pow
  rcases zero_bits hv with h | h <;> rw [h] <;> decide +kernel

/-- **C83** (part) `pow(2, k) = 2^k` exactly for integers. -/
theorem C83_pow_two (e : BitVec 32) (k : ℤ) (he : Finite e) (hk : val e = k) (h1 : -126 < k) (h2 : k ≤ 127) :
    ∃ r, pow (lit 2) e = .ok r ∧ Finite r ∧ val r = 2 ^ k := by
  have c : log2 (lit 2) = lit 1 := by decide +kernel
  have hm : Finite (F32.mul e (lit 1)) ∧ val (F32.mul e (lit 1)) = k := by
    rw [mul_fin he fin_one, val_one, _root_.mul_one, ← hk]
    exact rnd_exact he rfl
  unfold pow
  rw [c]
  exact C79_int _ k hm.1 hm.2 h1 h2

theorem exp10_const : Finite (lit 3.32192809) ∧ |val (lit 3.32192809) - 3.3219280243| ≤ 1e-11 := by decide +kernel

/-- **C83** (part) `exp10` on `-37.8 ≤ x ≤ 38.3`: the relative error is at most `3.6e-7` plus `2.4e-7 |x|`. -/
theorem C83_exp10_partial (x : BitVec 32) (hx : Finite x) (h1 : -37.8 ≤ val x) (h2 : val x ≤ 38.3) :
    ∃ r, exp10 x = .ok r ∧ Finite r ∧
      |(val r : ℝ) - (10 : ℝ) ^ (val x : ℝ)| ≤ (3.6e-7 + 2.4e-7 * |(val x : ℝ)|) * (10 : ℝ) ^ (val x : ℝ) := by
  have g1 : (-37.8 : ℝ) ≤ (val x : ℝ) := by
    have : ((-37.8 : ℚ) : ℝ) ≤ (val x : ℝ) := by exact_mod_cast h1
    push_cast at this; norm_num at this ⊢; exact this
  have g2 : (val x : ℝ) ≤ 38.3 := by
    have : (val x : ℝ) ≤ ((38.3 : ℚ) : ℝ) := by exact_mod_cast h2
    push_cast at this; norm_num at this ⊢; exact this
  have hab : |(val x : ℝ)| ≤ 38.3 := by rw [_root_.abs_le]; norm_num at g1 g2 ⊢; constructor <;> linarith
  have nc : Near (lit 3.32192809) (3.3219280243 : ℝ) 1e-11 := near_lit exp10_const (by norm_num) (by norm_num)
  have n0 : Near x (val x : ℝ) 0 := Near.self hx
  rw [Real.rpow_def_of_pos (by norm_num)]
  unfold exp10
  have hX0 := abs_nonneg (val x : ℝ)
  have hab3 : |3.3219280243 * (val x : ℝ)| = 3.3219280243 * |(val x : ℝ)| := by rw [abs_mul, abs_of_pos (by norm_num)]
  have m := Near.mul (e' := 1.981e-7 * |(val x : ℝ)| + 1e-45) 3.3219280243 |(val x : ℝ)| (1e-11 * |(val x : ℝ)|) (3.322 * |(val x : ℝ)|) nc n0
    (by norm_num) le_rfl (by linarith) (by rw [hab3]; generalize |(val x : ℝ)| = A at *; norm_num; linarith)
    (by generalize |(val x : ℝ)| = A at *; norm_num at hab ⊢; linarith) (by generalize |(val x : ℝ)| = A at *; norm_num; linarith)
  obtain ⟨fy, ey⟩ := m
  generalize F32.mul (lit 3.32192809) x = p at *
  have hab2 : |(val p : ℝ) - 3.3219280243 * (val x : ℝ)| ≤ 1e-4 :=
    ey.trans (by generalize |(val x : ℝ)| = A at *; norm_num at hab ⊢; linarith)
  obtain ⟨q1, q2⟩ := _root_.abs_le.1 hab2
  have p1 : -126 < val p := by
    have : ((-126 : ℚ) : ℝ) < (val p : ℝ) := by push_cast; norm_num at q1 g1 ⊢; linarith
    exact_mod_cast this
  have p2 : val p < 127.5 := by
    have : (val p : ℝ) < ((127.5 : ℚ) : ℝ) := by push_cast; norm_num at q2 g2 ⊢; linarith
    exact_mod_cast this
  obtain ⟨b1, b2⟩ := log2_bounds
  obtain ⟨c1, c2⟩ := log10_bounds
  have hd : |Real.log 2 * (val p : ℝ) - Real.log 10 * (val x : ℝ)| ≤ 2.2e-7 * |(val x : ℝ)| + 1e-45 := by
    rw [show Real.log 2 * (val p : ℝ) - Real.log 10 * (val x : ℝ) = Real.log 2 * ((val p : ℝ) - 3.3219280243 * (val x : ℝ)) +
      (3.3219280243 * Real.log 2 - Real.log 10) * (val x : ℝ) by ring]
    refine (abs_add_le _ _).trans ?_
    rw [abs_mul, abs_mul, abs_of_pos (lt_trans (by norm_num) b1)]
    have i1 := mul_le_mul b2.le ey (abs_nonneg _) (by norm_num)
    have hh : |3.3219280243 * Real.log 2 - Real.log 10| ≤ 8.2e-8 := by
      rw [_root_.abs_le]; norm_num at b1 b2 c1 c2 ⊢; constructor <;> linarith
    have i2 := mul_le_mul_of_nonneg_right hh hX0
    generalize |(val x : ℝ)| = A at *
    norm_num at i1 i2 ⊢; linarith
  obtain ⟨r, hr, hf, he⟩ := exp2_as_exp fy p1 p2 hd (by generalize |(val x : ℝ)| = A at *; norm_num at hab ⊢; linarith)
  refine ⟨r, hr, hf, he.trans (mul_le_mul_of_nonneg_right ?_ (Real.exp_pos _).le)⟩
  generalize |(val x : ℝ)| = A at *
  norm_num; linarith

/-- **C83** (negation) A negative base is undefined behaviour whatever the exponent, `pow(0, 0)` too, and
`pow(inf, 0.5)` is finite. -/
theorem C83_false : pow (negate (lit 2)) (lit 2) = .ub ∧ pow (lit 0) (lit 0) = .ub ∧
    pow inf (lit 0.5) = .ok 0x5F800000#32 ∧ Finite 0x5F800000#32 := by decide +kernel

/-- A case of `C83_pow_partial`: `pow(3, 4)`. -/
example : Finite (lit 3) ∧ 2 ^ (-126 : ℤ) ≤ val (lit 3) ∧ Finite (lit 4) ∧ pow (lit 3) (lit 4) = .ok (lit 81) ∧
    -125.9 ≤ ((val (lit 4) : ℚ) : ℝ) * Real.logb 2 ((val (lit 3) : ℚ) : ℝ) ∧
    ((val (lit 4) : ℚ) : ℝ) * Real.logb 2 ((val (lit 3) : ℚ) : ℝ) ≤ 127.4 := by
  have v : val (lit 4) = 4 ∧ val (lit 3) = 3 := by decide +kernel
  refine ⟨by decide +kernel, by decide +kernel, by decide +kernel, by decide +kernel, ?_⟩
  rw [v.1, v.2]
  push_cast
  have h0 : 0 ≤ Real.logb 2 3 := Real.logb_nonneg (by norm_num) (by norm_num)
  have h1 : Real.logb 2 3 ≤ Real.logb 2 (2 ^ 2) := Real.logb_le_logb_of_le (by norm_num) (by norm_num) (by norm_num)
  rw [Real.logb_pow, Real.logb_self_eq_one (by norm_num)] at h1
  norm_num at h1 ⊢
  constructor <;> linarith

/-- Cases of `C83_pow_two` and `C83_exp10_partial`. -/
example : Finite (lit 3) ∧ val (lit 3) = (3 : ℤ) ∧ pow (lit 2) (lit 3) = .ok (lit 8) ∧ exp10 (lit 1) = .ok (lit 10) := by
  decide +kernel

end Verif.Ffmath
