import Verif.Fp16.Log
import Mathlib.Analysis.SpecialFunctions.Pow.Real

/-!
# `fp16::pow` (C131, C132)
-/

namespace Verif.Fp16

/-! ## Integer exponents -/

theorem pow_int {x : Int} {n : Nat} (h0 : 1 ≤ n) (h1 : n ≤ 32767) :
    pow x (n * 65536) = powiLoop x n one := by
  unfold pow
  have e : toU ((n : Int) * 65536) &&& fractionMask = 0 := by
    unfold fractionMask
    rw [and_ffff]; unfold toU; omega
  rw [if_pos ⟨e.symm, by omega⟩]
  unfold powi one
  have e2 : (n : Int) * 65536 / 65536 = n := by omega
  dsimp only
  rw [e2, if_neg (by omega), if_neg (by omega), Int.toNat_natCast]

/-- Product of two integers. -/
theorem mul_int {a b : Int} (ha : -32768 ≤ a ∧ a ≤ 32767) (hb : -32768 ≤ b ∧ b ≤ 32767) :
    (-32767 ≤ a * b ∧ a * b ≤ 32767 → mul (a * 65536) (b * 65536) = .ok (a * b * 65536)) ∧
    (a * b < -32768 ∨ 32767 < a * b → mul (a * 65536) (b * 65536) = .ok overflow) := by
  have e := mul_eq (a * 65536) (b * 65536) (by unfold I32; omega) (by unfold I32; omega) (by
    rw [Int.mul_emod_left, Int.mul_emod_left, mul_zero, mul_zero, add_zero]; decide)
  have eP : a * 65536 * (b * 65536) = a * b * 4294967296 := by ring
  rw [eP] at e
  generalize a * b = p at *
  have hr : rndMul (p * 4294967296) = p * 65536 := by unfold rndMul; split <;> omega
  rw [hr] at e
  constructor
  · intro h
    rw [e, if_pos (by omega), if_pos (by unfold Num; omega)]
  · intro h
    rw [e, if_neg (by omega)]
    rfl

theorem powi_exact {a : Int} (n : Nat) : ∀ b : Int, -32767 ≤ a → a ≤ 32767 → a ≠ 0 → b ≠ 0 →
    |a ^ n * b| ≤ 32767 → powiLoop (a * 65536) n (b * 65536) = .ok (a ^ n * b * 65536) := by
  induction n with
  | zero => intro b _ _ _ _ _; rw [powiLoop, pow_zero, one_mul]
  | succ n ih =>
    intro b h1 h2 h3 hb h4
    have ea : a ^ (n + 1) * b = a ^ n * (a * b) := by ring
    rw [ea] at h4 ⊢
    have hn : 1 ≤ |a ^ n| := Int.one_le_abs (pow_ne_zero n h3)
    have hab : |a * b| ≤ 32767 := by
      rw [abs_mul] at h4
      have := abs_nonneg (a * b)
      nlinarith
    have hb' : |b| ≤ 32767 := by
      have h1a : 1 ≤ |a| := Int.one_le_abs h3
      rw [abs_mul] at hab
      have := abs_nonneg b
      nlinarith
    rw [abs_le] at hab hb'
    have hm := (mul_int (a := a) (b := b) (by omega) (by omega)).1 (by omega)
    rw [powiLoop, hm, Out.bind_ok, if_neg (by unfold overflow; omega)]
    exact ih (a * b) h1 h2 h3 (mul_ne_zero h3 hb) h4

theorem powi_over {a : Int} (n : Nat) : ∀ b : Int, 0 < a → a ≤ 32767 → 0 < b → b ≤ 32767 →
    32767 < a ^ n * b → powiLoop (a * 65536) n (b * 65536) = .ok overflow := by
  induction n with
  | zero => intro b _ _ _ h1 h2; rw [pow_zero, one_mul] at h2; omega
  | succ n ih =>
    intro b h1 h2 h3 h4 h5
    rw [powiLoop]
    have hp : 0 < a * b := mul_pos h1 h3
    by_cases hab : a * b ≤ 32767
    · rw [(mul_int (a := a) (b := b) (by omega) (by omega)).1 (by omega), Out.bind_ok,
        if_neg (by unfold overflow; omega)]
      exact ih (a * b) h1 h2 hp hab (by rw [pow_succ] at h5; linarith)
    · rw [(mul_int (a := a) (b := b) (by omega) (by omega)).2 (by omega), Out.bind_ok, if_pos rfl]

theorem powi_zero (n : Nat) (b : Int) (hb : 0 ≤ b ∧ b ≤ 32767) : powiLoop 0 (n + 1) (b * 65536) = .ok 0 := by
  have step : ∀ b : Int, 0 ≤ b ∧ b ≤ 32767 → mul 0 (b * 65536) = .ok 0 := by
    intro b hb
    have := (mul_int (a := 0) (b := b) (by omega) (by omega)).1 (by omega)
    simpa using this
  induction n generalizing b with
  | zero => rw [powiLoop, step b hb, Out.bind_ok, if_neg (by decide), powiLoop]
  | succ n ih =>
    rw [powiLoop, step b hb, Out.bind_ok, if_neg (by decide)]
    exact ih 0 (by omega)

/-- **C131.** Whenever base and exponent are integers and the power is representable, `pow` is exact. -/
theorem C131_exact (a : Int) (n : Nat) (ha : |a| ≤ 32767) (h0 : 1 ≤ n) (h1 : n ≤ 32767)
    (h : |a ^ n| ≤ 32767) : pow (a * 65536) (n * 65536) = .ok (a ^ n * 65536) := by
  rw [pow_int h0 h1]
  rcases eq_or_ne a 0 with rfl | ha0
  · obtain ⟨k, rfl⟩ : ∃ k, n = k + 1 := ⟨n - 1, by omega⟩
    have := powi_zero k 1 (by omega)
    rw [zero_mul, show one = 1 * 65536 from rfl, this, zero_pow (by omega), zero_mul]
  · rw [abs_le] at ha
    have := powi_exact (a := a) n 1 ha.1 ha.2 ha0 one_ne_zero (by rwa [mul_one])
    rw [show one = 1 * 65536 from rfl, this, mul_one]

example : |(-3 : Int)| ≤ 32767 ∧ |(-3 : Int) ^ 7| ≤ 32767 := by decide
example : pow (-3 * 65536) (7 * 65536) = .ok (-2187 * 65536) := by decide +kernel

/-- **C131.** A power of a positive integer that is not representable gives the overflow value. -/
theorem C131_overflow (a : Int) (n : Nat) (ha0 : 0 < a) (ha : a ≤ 32767) (h1 : n ≤ 32767)
    (h : 32767 < a ^ n) : pow (a * 65536) (n * 65536) = .ok overflow := by
  have h0 : 1 ≤ n := by
    rcases Nat.eq_zero_or_pos n with rfl | h0
    · norm_num at h
    · exact h0
  rw [pow_int h0 h1, show one = 1 * 65536 from rfl]
  exact powi_over n 1 ha0 ha (by norm_num) (by norm_num) (by rwa [mul_one])

example : pow (3 * 65536) (10 * 65536) = .ok overflow := by decide +kernel

/-- For negative bases the overflow can be undefined behaviour. -/
theorem C131_false_ub : pow (-2 * 65536) (15 * 65536) = .ub := by decide +kernel

theorem powi_unit {x : Int} (hx : -65536 ≤ x ∧ x ≤ 65536) (n : Nat) : ∀ (r : Int) (v e : ℝ), -65536 ≤ r → r ≤ 65536 →
    |(r : ℝ) - 65536 * v| ≤ e → ∃ r' : Int, powiLoop x n r = .ok r' ∧ -65536 ≤ r' ∧ r' ≤ 65536 ∧
      |(r' : ℝ) - 65536 * (((x : ℝ) / 65536) ^ n * v)| ≤ e + n / 2 := by
  have hx1 : (-65536 : ℝ) ≤ x := by exact_mod_cast hx.1
  have hx2 : (x : ℝ) ≤ 65536 := by exact_mod_cast hx.2
  have hxa : |(x : ℝ)| ≤ 65536 := abs_le.2 ⟨hx1, hx2⟩
  induction n with
  | zero => intro r v e h1 h2 h3; exact ⟨r, by rw [powiLoop], h1, h2, by simpa using h3⟩
  | succ n ih =>
    intro r v e h1 h2 h3
    have hr1 : (-65536 : ℝ) ≤ r := by exact_mod_cast h1
    have hr2 : (r : ℝ) ≤ 65536 := by exact_mod_cast h2
    have hra : |(r : ℝ)| ≤ 65536 := abs_le.2 ⟨hr1, hr2⟩
    have hp : |(x : ℝ) * r| ≤ 65536 * 65536 := by
      rw [abs_mul]; exact mul_le_mul hxa hra (abs_nonneg _) (by norm_num)
    obtain ⟨m, hm, g⟩ := mul_real (x := x) (y := r) (by omega) (by omega) (hp.trans (by norm_num))
    have hmb : -65537 < m ∧ m < 65537 := by
      rw [abs_le] at g hp
      have a1 : (-65537 : ℝ) < m := by linarith [g.1, hp.1]
      have a2 : (m : ℝ) < 65537 := by linarith [g.2, hp.2]
      exact ⟨by exact_mod_cast a1, by exact_mod_cast a2⟩
    have hst : |(m : ℝ) - 65536 * ((x : ℝ) / 65536 * v)| ≤ e + 1 / 2 := by
      have e1 : (m : ℝ) - 65536 * ((x : ℝ) / 65536 * v) = (m - x * r / 65536) + x / 65536 * (r - 65536 * v) := by ring
      have e2 : |(x : ℝ) / 65536 * (r - 65536 * v)| ≤ 1 * e := by
        rw [abs_mul]
        refine mul_le_mul ?_ h3 (abs_nonneg _) (by norm_num)
        rw [abs_div, abs_of_pos (by norm_num : (0 : ℝ) < 65536), div_le_one (by norm_num)]
        exact hxa
      rw [e1]
      exact (abs_add_le _ _).trans (by linarith)
    obtain ⟨r', q1, q2, q3, q4⟩ := ih m _ _ (by omega) (by omega) hst
    refine ⟨r', ?_, q2, q3, ?_⟩
    · rw [powiLoop, hm, Out.bind_ok, if_neg (by unfold overflow; omega), q1]
    · have e3 : ((x : ℝ) / 65536) ^ (n + 1) * v = ((x : ℝ) / 65536) ^ n * ((x : ℝ) / 65536 * v) := by ring
      rw [e3]
      refine q4.trans ?_
      push_cast
      linarith

/-- **C131.** For a base of magnitude at most one, the error of the `n`-th power is at most `n` half units. -/
theorem C131_unit (x : Int) (n : Nat) (hx : |x| ≤ 65536) (h0 : 1 ≤ n) (h1 : n ≤ 32767) :
    ∃ r : Int, pow x (n * 65536) = .ok r ∧ |(r : ℝ) - 65536 * ((x : ℝ) / 65536) ^ n| ≤ n / 2 := by
  rw [abs_le] at hx
  obtain ⟨r, hr, -, -, g⟩ := powi_unit hx n one 1 0 (by decide) (by decide) (by unfold one; norm_num)
  refine ⟨r, by rw [pow_int h0 h1, hr], ?_⟩
  rw [mul_one, zero_add] at g
  exact g

example : pow (-32768) (3 * 65536) = .ok (-8192) := by decide +kernel

/-! ## Other exponents -/

/-- **C132, partial.** For a base from 0.01 on, an exponent of magnitude at most 16 that is not a positive
integer, and a power between `e^-10` and `e^10`, `pow` is accurate: relative error `1.01e-4 |y| + 6.1e-5` plus
absolute error `6e-5`. Missing: negative bases (`C132_false_sign`) and the ranges left out. -/
theorem C132_real_partial (x y : Int) (hx : 656 ≤ x) (hx1 : x < 2147483648) (hy : |y| ≤ 1048576)
    (hni : ¬ (y % 65536 = 0 ∧ 0 < y))
    (hr : |(y : ℝ) / 65536 * Real.log ((x : ℝ) / 65536)| ≤ 10) :
    ∃ r : Int, pow x y = .ok r ∧
      |(r : ℝ) / 65536 - ((x : ℝ) / 65536) ^ ((y : ℝ) / 65536)| ≤
        (1.01e-4 * |(y : ℝ) / 65536| + 6.1e-5) * ((x : ℝ) / 65536) ^ ((y : ℝ) / 65536) + 6e-5 := by
  obtain ⟨l, hl, gl⟩ := C129_log x (by omega) hx1
  have hx0 : (656 : ℝ) ≤ x := by exact_mod_cast hx
  have gl' : |(l : ℝ) / 65536 - Real.log ((x : ℝ) / 65536)| ≤ 1e-4 := by
    refine gl.trans ?_
    have : 0.0095 / (x : ℝ) ≤ 1.5e-5 := by rw [div_le_iff₀ (by linarith)]; norm_num; linarith
    norm_num at this ⊢; linarith
  rw [abs_le] at hy
  have hy1 : (-1048576 : ℝ) ≤ y := by exact_mod_cast hy.1
  have hy2 : (y : ℝ) ≤ 1048576 := by exact_mod_cast hy.2
  have hya : |(y : ℝ)| ≤ 1048576 := abs_le.2 ⟨hy1, hy2⟩
  set L := Real.log ((x : ℝ) / 65536) with hL
  have hL1 : L ≤ 11 := by
    rw [hL, Real.log_le_iff_le_exp (by positivity)]
    have h1 := Real.exp_one_gt_d9
    have e : (2.7 : ℝ) ^ 11 ≤ Real.exp 11 := by
      rw [show (11 : ℝ) = ((11 : Nat) : ℝ) * 1 by norm_num, Real.exp_nat_mul]
      exact pow_le_pow_left₀ (by norm_num) (by norm_num at h1 ⊢; linarith) 11
    have hx2 : (x : ℝ) ≤ 2147483648 := by exact_mod_cast hx1.le
    refine le_trans ?_ e
    rw [div_le_iff₀ (by norm_num)]; norm_num; linarith
  have hL2 : -5 ≤ L := by
    rw [hL, Real.le_log_iff_exp_le (by positivity)]
    have h1 := Real.exp_one_gt_d9
    have e : (2.7 : ℝ) ^ 5 ≤ Real.exp 5 := by
      rw [show (5 : ℝ) = ((5 : Nat) : ℝ) * 1 by norm_num, Real.exp_nat_mul]
      exact pow_le_pow_left₀ (by norm_num) (by norm_num at h1 ⊢; linarith) 5
    rw [Real.exp_neg]
    have : (Real.exp 5)⁻¹ ≤ ((2.7 : ℝ) ^ 5)⁻¹ := inv_anti₀ (by norm_num) e
    refine this.trans ?_
    rw [le_div_iff₀ (by norm_num)]; norm_num; linarith
  have hlb : -400000 < l ∧ l < 800000 := by
    rw [abs_le] at gl'
    norm_num at gl'
    have a1 : (-400000 : ℝ) < l := by linarith [gl'.1]
    have a2 : (l : ℝ) < 800000 := by linarith [gl'.2]
    exact ⟨by exact_mod_cast a1, by exact_mod_cast a2⟩
  have hla : |(l : ℝ)| ≤ 800000 := by
    have a1 : (-400000 : ℝ) < l := by exact_mod_cast hlb.1
    have a2 : (l : ℝ) < 800000 := by exact_mod_cast hlb.2
    exact abs_le.2 ⟨by linarith, a2.le⟩
  obtain ⟨t, ht, gt⟩ := mul_real (x := y) (y := l) (by omega) (by omega) (by
    rw [abs_mul]
    have := mul_le_mul hya hla (abs_nonneg _) (by norm_num)
    norm_num at this; linarith)
  -- the exponent
  set Y : ℝ := (y : ℝ) / 65536 with hY
  have hYa : |Y| ≤ 16 := by
    rw [hY, abs_div, abs_of_pos (by norm_num : (0 : ℝ) < 65536), div_le_iff₀ (by norm_num)]; linarith
  have hκ : |(t : ℝ) / 65536 - Y * L| ≤ 1e-4 * |Y| + 7.7e-6 := by
    have e : (t : ℝ) / 65536 - Y * L = (t - y * l / 65536) / 65536 + Y * ((l : ℝ) / 65536 - L) := by rw [hY]; ring
    have e1 : |((t : ℝ) - y * l / 65536) / 65536| ≤ 7.7e-6 := by
      rw [abs_div, abs_of_pos (by norm_num : (0 : ℝ) < 65536), div_le_iff₀ (by norm_num)]
      refine gt.trans ?_; norm_num
    have e2 : |Y * ((l : ℝ) / 65536 - L)| ≤ |Y| * 1e-4 := by
      rw [abs_mul]; exact mul_le_mul_of_nonneg_left gl' (abs_nonneg _)
    rw [e]
    exact (abs_add_le _ _).trans (by linarith)
  have hκ2 : 1e-4 * |Y| + 7.7e-6 ≤ 0.00161 := by norm_num at *; linarith
  set κ : ℝ := 1e-4 * |Y| + 7.7e-6 with hκd
  have hκ0 : 0 ≤ κ := by positivity
  have htb : -681391 < t ∧ t < 681391 := by
    have e := abs_le.1 hκ
    have e2 := abs_le.1 hr
    norm_num at hκ2
    have a1 : (-681391 : ℝ) < t := by linarith [e.1, e2.1]
    have a2 : (t : ℝ) < 681391 := by linarith [e.2, e2.2]
    exact ⟨by exact_mod_cast a1, by exact_mod_cast a2⟩
  have hxy : ((x : ℝ) / 65536) ^ Y = Real.exp (Y * L) := by
    rw [Real.rpow_def_of_pos (by positivity), mul_comm]
  refine ⟨expF t, ?_, ?_⟩
  · unfold pow
    have hc : ¬ (0 = toU y &&& fractionMask ∧ y > 0) := by
      rintro ⟨h1, h2⟩
      refine hni ⟨?_, h2⟩
      unfold fractionMask at h1
      rw [and_ffff] at h1
      unfold toU at h1
      omega
    have ha : absolute x = .ok x := by
      unfold absolute Min
      rw [if_neg (by omega), if_pos (by omega)]
      rfl
    rw [if_neg hc, ha, Out.bind_ok, hl, Out.bind_ok, ht, Out.bind_ok, if_pos (by unfold overflow; omega), exp_eq,
      Out.bind_ok, if_neg (by omega)]
    rfl
  · rw [hxy]
    have hP := Real.exp_pos (Y * L)
    -- the true exponential at the computed exponent
    have hE : |Real.exp ((t : ℝ) / 65536) - Real.exp (Y * L)| ≤ 1.002 * κ * Real.exp (Y * L) := by
      have e : Real.exp ((t : ℝ) / 65536) = Real.exp (Y * L) * Real.exp ((t : ℝ) / 65536 - Y * L) := by
        rw [← Real.exp_add]; congr 1; ring
      have b : |Real.exp ((t : ℝ) / 65536 - Y * L) - 1| ≤ 1.002 * κ := by
        have b0 := abs_le.1 hκ
        have lo := Real.add_one_le_exp ((t : ℝ) / 65536 - Y * L)
        have hi := Real.exp_bound_div_one_sub_of_interval hκ0 (by norm_num at hκ2; linarith)
        have hi2 : Real.exp ((t : ℝ) / 65536 - Y * L) ≤ Real.exp κ := Real.exp_le_exp.2 b0.2
        have hi3 : 1 / (1 - κ) ≤ 1 + 1.002 * κ := by
          norm_num at hκ2
          rw [div_le_iff₀ (by linarith)]
          norm_num
          nlinarith
        have hi4 := hi2.trans (hi.trans hi3)
        rw [abs_le]
        norm_num at hi4 ⊢
        constructor <;> linarith [b0.1, b0.2]
      rw [e, show Real.exp (Y * L) * Real.exp ((t : ℝ) / 65536 - Y * L) - Real.exp (Y * L) =
        (Real.exp ((t : ℝ) / 65536 - Y * L) - 1) * Real.exp (Y * L) by ring, abs_mul, abs_of_pos hP]
      exact mul_le_mul_of_nonneg_right b hP.le
    have hF : |(expF t : ℝ) / 65536 - Real.exp ((t : ℝ) / 65536)| ≤ 5.2e-5 * Real.exp ((t : ℝ) / 65536) + 6e-5 := by
      rcases lt_or_ge t 0 with h | h
      · obtain ⟨r, hr, g⟩ := C123_negative t h
        rw [exp_eq] at hr
        injection hr with hr
        rw [hr]
        have := Real.exp_pos ((t : ℝ) / 65536)
        norm_num at g ⊢; linarith
      · obtain ⟨r, hr, g⟩ := C123_positive t h htb.2
        rw [exp_eq] at hr
        injection hr with hr
        rw [hr]
        norm_num at g ⊢; linarith
    have hκP : κ * Real.exp (Y * L) ≤ 0.00161 * Real.exp (Y * L) := mul_le_mul_of_nonneg_right hκ2 hP.le
    have hκe : κ * Real.exp (Y * L) = 1e-4 * (|Y| * Real.exp (Y * L)) + 7.7e-6 * Real.exp (Y * L) := by
      rw [hκd]; ring
    have hYP : 0 ≤ |Y| * Real.exp (Y * L) := by positivity
    rw [mul_assoc] at hE
    have hgoal : (1.01e-4 * |Y| + 6.1e-5) * Real.exp (Y * L) =
        1.01e-4 * (|Y| * Real.exp (Y * L)) + 6.1e-5 * Real.exp (Y * L) := by ring
    rw [hgoal]
    generalize κ * Real.exp (Y * L) = K at *
    generalize |Y| * Real.exp (Y * L) = W at *
    generalize Real.exp (Y * L) = P at *
    generalize Real.exp ((t : ℝ) / 65536) = T at *
    rw [abs_le] at hE hF ⊢
    norm_num at hE hF hκP hκe ⊢
    constructor <;> linarith [hE.1, hE.2, hF.1, hF.2]

/-- Not vacuous: `2^0.5`. -/
example : |((32768 : Int) : ℝ) / 65536 * Real.log (((131072 : Int) : ℝ) / 65536)| ≤ 10 := by
  norm_num
  have h1 : 0 < Real.log 2 := Real.log_pos (by norm_num)
  have h2 := Real.log_two_lt_d9
  rw [show |Real.log 2| = Real.log 2 from abs_of_pos h1]
  norm_num at h2
  linarith

example : pow 131072 32768 = .ok 92683 := by decide +kernel

/-- For a negative base the sign of the base is put in front of the power of its magnitude:
`(-2)^0 = -1`, `(-2)^-2 = -0.25` and `(-2)^0.5 = -1.414`. -/
theorem C132_false_sign : pow (-131072) 0 = .ok (-65536) ∧ pow (-131072) (-131072) = .ok (-16384) ∧
    pow (-131072) 32768 = .ok (-92683) := by
  refine ⟨?_, ?_, ?_⟩ <;> decide +kernel

/-- The smallest raw value as base is undefined. -/
theorem C132_false_ub : pow (-2147483648) 32768 = .ub := by decide +kernel

end Verif.Fp16
