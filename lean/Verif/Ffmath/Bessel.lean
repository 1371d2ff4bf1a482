import Verif.Ffmath.BesselSeries
import Verif.Ffmath.TrigReal
import Mathlib.Analysis.SpecificLimits.Normed

/-!
# The Bessel functions (C113, C114, C115)

IEEE binary32 arithmetic.
-/

namespace Verif.Ffmath

open Verif F32

local infixl:65 " +ᶠ " => F32.add
local infixl:65 " -ᶠ " => F32.sub
local infixl:70 " *ᶠ " => F32.mul
local infixl:70 " /ᶠ " => F32.div
local notation:50 a:51 " <ᶠ " b:51 => F32.lt a b

/-- The series `∑ w^k / (k!)²` (not a definition of the repository). -/
noncomputable def besselSeries (w : ℝ) : ℝ := ∑' k : ℕ, w ^ k / ((k.factorial : ℝ) * k.factorial)

/-- The modified Bessel function `I₀(x) = ∑ (x²/4)^k / (k!)²` (not a definition of the repository). -/
noncomputable def besselI0 (x : ℝ) : ℝ := besselSeries (x ^ 2 / 4)

/-- The Bessel function `J₀(x) = ∑ (-x²/4)^k / (k!)²` (not a definition of the repository). -/
noncomputable def besselJ0 (x : ℝ) : ℝ := besselSeries (-(x ^ 2 / 4))

theorem besselSeries_summable (w : ℝ) : Summable fun k : ℕ => w ^ k / ((k.factorial : ℝ) * k.factorial) := by
  refine Summable.of_norm_bounded (Real.summable_pow_div_factorial |w|) fun k => ?_
  rw [Real.norm_eq_abs, abs_div, abs_pow, abs_of_pos (a := (k.factorial : ℝ) * _) (by positivity)]
  have h1 : (1 : ℝ) ≤ k.factorial := by exact_mod_cast Nat.one_le_iff_ne_zero.2 k.factorial_ne_zero
  exact div_le_div_of_nonneg_left (by positivity) (by positivity) (by nlinarith)

/-- The tail after a term is bounded by the term. -/
theorem besselSeries_tail {w : ℚ} {n : ℕ} (h : |w| ≤ 5 / 8 * ((n : ℚ) + 1) ^ 2) : |besselSeries w - bS w n| ≤ 5 / 3 * |(bT w n : ℝ)| := by
  have hs := besselSeries_summable (w : ℝ)
  have e : besselSeries w - bS w n = ∑' k : ℕ, (w : ℝ) ^ (k + (n + 1)) / (((k + (n + 1)).factorial : ℝ) * (k + (n + 1)).factorial) := by
    have := hs.sum_add_tsum_nat_add (n + 1)
    unfold besselSeries bS bT
    rw [← this]
    push_cast
    ring
  have hR : |(w : ℝ)| ≤ 5 / 8 * ((n : ℝ) + 1) ^ 2 := by
    have : ((|w| : ℚ) : ℝ) ≤ ((5 / 8 * ((n : ℚ) + 1) ^ 2 : ℚ) : ℝ) := Rat.cast_le.2 h
    push_cast at this; exact this
  have hb : ∀ k : ℕ, |(w : ℝ) ^ (k + n) / (((k + n).factorial : ℝ) * (k + n).factorial)| ≤ |(bT w n : ℝ)| * (5 / 8) ^ k := by
    intro k
    induction k with
    | zero => unfold bT; simp
    | succ k ih =>
      have f0 : ((k + n).factorial : ℝ) ≠ 0 := by exact_mod_cast (k + n).factorial_ne_zero
      have e1 : (w : ℝ) ^ (k + 1 + n) / (((k + 1 + n).factorial : ℝ) * (k + 1 + n).factorial) =
          (w : ℝ) ^ (k + n) / (((k + n).factorial : ℝ) * (k + n).factorial) * (w / (((k + n : ℕ) : ℝ) + 1) ^ 2) := by
        rw [show k + 1 + n = k + n + 1 by ring, Nat.factorial_succ, pow_succ]
        push_cast
        have : ((k : ℝ) + n + 1) ≠ 0 := by positivity
        field_simp
      rw [e1, abs_mul, pow_succ (5 / 8 : ℝ) k, ← mul_assoc]
      refine mul_le_mul ih ?_ (abs_nonneg _) (by positivity)
      rw [abs_div, abs_of_pos (a := (((k + n : ℕ) : ℝ) + 1) ^ 2) (by positivity), div_le_iff₀ (by positivity)]
      refine hR.trans (mul_le_mul_of_nonneg_left ?_ (by norm_num))
      refine pow_le_pow_left₀ (by positivity) ?_ _
      push_cast
      linarith [(Nat.cast_nonneg k : (0 : ℝ) ≤ k)]
  rw [e]
  have g : HasSum (fun k : ℕ => |(bT w n : ℝ)| * (5 / 8) * (5 / 8) ^ k) (|(bT w n : ℝ)| * (5 / 8) * (1 - 5 / 8)⁻¹) :=
    (hasSum_geometric_of_lt_one (by norm_num) (by norm_num)).mul_left _
  rw [← Real.norm_eq_abs, show 5 / 3 * |(bT w n : ℝ)| = |(bT w n : ℝ)| * (5 / 8) * (1 - 5 / 8)⁻¹ by ring]
  refine tsum_of_norm_bounded g fun k => ?_
  have := hb (k + 1)
  rw [show k + 1 + n = k + (n + 1) by ring, pow_succ (5 / 8 : ℝ) k, _root_.mul_comm ((5 / 8 : ℝ) ^ k), ← mul_assoc] at this
  exact this

/-- The loop is within `6e-6` of the series. -/
theorem ijLoop_near {nu xx : BitVec 32} {w : ℚ} (hn : val nu = 0) (hx : F32.Finite xx) (hw : |w| ≤ 5 / 2)
    (hxw : |val xx - w| ≤ |w| / 16777216 + 1e-45) :
    F32.Finite (ijLoop nu xx 199 1 (lit 1) (lit 1)) ∧ |(val (ijLoop nu xx 199 1 (lit 1) (lit 1)) : ℝ) - besselSeries w| ≤ 6e-6 := by
  obtain ⟨m, m1, hf, he, ht⟩ := ijLoop_spec hn hx hw hxw 199 0 (lit 1) (lit 1) rfl
    ⟨c_one.1, c_one.1, by simp [bT, c_one.2], by simp [bS, bT, c_one.2, bErr]⟩ (by simp)
  refine ⟨hf, ?_⟩
  rw [zero_add] at he
  have hm : (1 : ℚ) ≤ m := by exact_mod_cast m1
  have t := besselSeries_tail (w := w) (n := m) (hw.trans (by nlinarith))
  have he' : |(val (ijLoop nu xx 199 1 (lit 1) (lit 1)) : ℝ) - bS w m| ≤ 4.6e-6 := by
    have : ((|val (ijLoop nu xx 199 1 (lit 1) (lit 1)) - bS w m| : ℚ) : ℝ) ≤ ((4.6e-6 : ℚ) : ℝ) := by exact_mod_cast he
    push_cast at this; norm_num at this ⊢; exact this
  have ht' : |(bT w m : ℝ)| ≤ 7e-7 := by
    have : ((|bT w m| : ℚ) : ℝ) ≤ ((7e-7 : ℚ) : ℝ) := by exact_mod_cast ht
    push_cast at this; norm_num at this ⊢; exact this
  have := abs_sub_le (val (ijLoop nu xx 199 1 (lit 1) (lit 1)) : ℝ) (bS w m : ℝ) (besselSeries w)
  rw [abs_sub_comm (bS w m : ℝ)] at this
  norm_num at *
  linarith

theorem zero_finite {a : BitVec 32} (h : val a = 0) : F32.Finite a := by rcases zero_bits h with h | h <;> rw [h] <;> decide +kernel

/-- The prefactor of the series is one for order zero. -/
theorem ijFactor {nu l : BitVec 32} (hn : val nu = 0) (hl : F32.Finite l) : exp ((nu *ᶠ l) -ᶠ lgamma (nu +ᶠ lit 1)) = .ok (lit 1) := by
  have fn := zero_finite hn
  obtain ⟨f1, a1, a2⟩ := mul_btw fn hl c_zero.1 c_zero.1 (by rw [hn, c_zero.2]; simp) (by rw [hn, c_zero.2]; simp)
  obtain ⟨f2, b1, b2⟩ := add_btw fn c_one.1 c_one.1 c_one.1 (by rw [hn, zero_add]) (by rw [hn, zero_add])
  have v2 : val (nu +ᶠ lit 1) = 1 := (le_antisymm b2 b1).trans c_one.2
  obtain ⟨f3, v3⟩ := (C101_special _).2.2.2 f2 (Or.inl v2)
  have v1 : val (nu *ᶠ l) = 0 := (le_antisymm a2 a1).trans c_zero.2
  obtain ⟨-, d1, d2⟩ := sub_btw f1 f3 c_zero.1 c_zero.1 (by rw [v1, v3, c_zero.2]; simp) (by rw [v1, v3, c_zero.2]; simp)
  exact C80_zero _ ((le_antisymm d2 d1).trans c_zero.2)

theorem one_mul_val {a : BitVec 32} (ha : F32.Finite a) : F32.Finite (lit 1 *ᶠ a) ∧ val (lit 1 *ᶠ a) = val a :=
  mul_exact c_one.1 ha ha (by rw [c_one.2, one_mul])

/-- The series of `cyl_bessel_ij_series` for order zero. -/
theorem ijSeries_near {nu x sgn : BitVec 32} {g : ℚ} (hn : val nu = 0) (hx : F32.Finite x) (h1 : 2 ^ (-125 : ℤ) ≤ val x) (h2 : val x ≤ 3.16)
    (fs : F32.Finite sgn) (vs : val sgn = g) (hg : g = 1 ∨ g = -1) :
    ∃ r, cylBesselIjSeries nu x sgn = .ok r ∧ F32.Finite r ∧ |(val r : ℝ) - besselSeries ((g * (val x) ^ 2 / 4 : ℚ) : ℝ)| ≤ 6e-6 := by
  have hx0 : 0 < val x := lt_of_lt_of_le (two_zpow_pos _) h1
  have fn := zero_finite hn
  have ne : ¬ isEqual (lit 0) x = true := by
    rw [C88_iff _ _ c_zero.1 hx, c_zero.2, zero_sub, abs_neg, abs_of_pos hx0, not_le]
    exact lt_of_lt_of_le (zpow_lt_zpow_right₀ (by norm_num) (by norm_num)) h1
  obtain ⟨fh, vh⟩ := half_exact hx (by rwa [abs_of_pos hx0])
  have fl := (C82_log_partial _ fh (by
    rw [vh]
    have e : (2 : ℚ) ^ (-126 : ℤ) = 2 ^ (-125 : ℤ) / 2 := by norm_num
    rw [e]; exact div_le_div_of_nonneg_right h1 (by norm_num))).1
  unfold cylBesselIjSeries
  rw [if_neg ne]
  simp only []
  rw [ijFactor hn fl]
  simp only [Out.bind_ok, Out.pure_eq]
  generalize lit 0.5 *ᶠ x = y at *
  have ga : |g| = 1 := by rcases hg with h | h <;> rw [h] <;> norm_num
  obtain ⟨f1, v1⟩ : F32.Finite (sgn *ᶠ y) ∧ val (sgn *ᶠ y) = g * val y := by
    rcases hg with h | h
    · obtain ⟨a, b⟩ := mul_exact fs fh fh (by rw [vs, h, one_mul]); exact ⟨a, by rw [b, h, one_mul]⟩
    · obtain ⟨a, b⟩ := mul_exact fs fh (finite_negate.2 fh) (by rw [vs, h, val_negate]; ring); exact ⟨a, by rw [b, h, val_negate]; ring⟩
  generalize sgn *ᶠ y = z at *
  have hw : |g * (val x) ^ 2 / 4| ≤ 5 / 2 := by
    rw [abs_div, abs_mul, ga, one_mul, abs_of_nonneg (sq_nonneg _)]
    norm_num at h2 ⊢
    nlinarith
  have ew : val z * val y = g * (val x) ^ 2 / 4 := by rw [v1, vh]; ring
  have em : z *ᶠ y = rnd (neg z ^^ neg y) (val z * val y) := mul_fin f1 fh
  obtain ⟨fr, er⟩ := rnd_err' (s := neg z ^^ neg y) (q := val z * val y) (by rw [ew]; exact hw.trans (by norm_num))
  rw [← em, ew] at er
  rw [← em] at fr
  obtain ⟨lf, le⟩ := ijLoop_near hn fr hw er
  obtain ⟨of, ov⟩ := one_mul_val lf
  exact ⟨_, rfl, of, by rw [ov]; exact le⟩

theorem besselOutside_not {nu x : BitVec 32} (hn : F32.Finite nu) (h1 : 0 ≤ val nu) (hx : F32.Finite x) (h2 : 0 ≤ val x) : ¬ besselOutside nu x := by
  unfold besselOutside
  rw [lt_fin hn c_zero.1, lt_fin hx c_zero.1, c_zero.2, decide_eq_true_eq, decide_eq_true_eq]
  rintro (h | h | h | h)
  · linarith
  · linarith
  · exact hn.notNaN h
  · exact hx.notNaN h

theorem c_ten : F32.Finite (lit 10) ∧ val (lit 10) = 10 := by decide +kernel

theorem besselSmallArg_zero {nu x : BitVec 32} (hn : val nu = 0) (hx : F32.Finite x) (h0 : 0 ≤ val x) (h2 : val x ≤ 3.16) : besselSmallArg nu x = true := by
  have fn := zero_finite hn
  obtain ⟨f2, b1, b2⟩ := add_btw fn c_one.1 c_one.1 c_one.1 (by rw [hn, zero_add]) (by rw [hn, zero_add])
  have v2 : val (nu +ᶠ lit 1) = 1 := (le_antisymm b2 b1).trans c_one.2
  obtain ⟨f3, v3⟩ := mul_exact c_ten.1 f2 c_ten.1 (by rw [v2, mul_one])
  have c : F32.Finite (lit 9.99) ∧ val (lit 9.99) ≤ 9.9901 ∧ 9.9899 ≤ val (lit 9.99) := by decide +kernel
  obtain ⟨f4, -, v4⟩ := mul_btw hx hx c_zero.1 c.1 (by rw [c_zero.2]; positivity)
    (le_trans (by norm_num at h2 ⊢; nlinarith) c.2.2)
  unfold besselSmallArg
  rw [lt_fin f4 f3, v3, c_ten.2, decide_eq_true_eq]
  have := v4.trans c.2.1
  norm_num at this ⊢
  linarith

theorem besselSeries_tiny {w : ℝ} (h : |w| ≤ 1e-7) : |1 - besselSeries w| ≤ 6e-6 := by
  have hs := besselSeries_summable w
  have e := hs.sum_add_tsum_nat_add 1
  have hb : ∀ k : ℕ, ‖w ^ (k + 1) / (((k + 1).factorial : ℝ) * (k + 1).factorial)‖ ≤ |w| * (1 / 2) ^ k := by
    intro k
    have h1 : (1 : ℝ) ≤ (k + 1).factorial := by exact_mod_cast Nat.one_le_iff_ne_zero.2 (k + 1).factorial_ne_zero
    rw [Real.norm_eq_abs, abs_div, abs_pow, abs_of_pos (a := ((k + 1).factorial : ℝ) * _) (by positivity), pow_succ, _root_.mul_comm (|w| ^ k)]
    refine (div_le_self (by positivity) (by nlinarith)).trans ?_
    refine mul_le_mul_of_nonneg_left (pow_le_pow_left₀ (abs_nonneg _) (by norm_num at h ⊢; linarith) _) (abs_nonneg _)
  have g : HasSum (fun k : ℕ => |w| * (1 / 2) ^ k) (|w| * (1 - 1 / 2)⁻¹) :=
    (hasSum_geometric_of_lt_one (by norm_num) (by norm_num)).mul_left _
  have t := tsum_of_norm_bounded g hb
  rw [Real.norm_eq_abs] at t
  have : 1 - besselSeries w = -∑' k : ℕ, w ^ (k + 1) / (((k + 1).factorial : ℝ) * (k + 1).factorial) := by
    unfold besselSeries
    rw [← e]
    simp
  rw [this, abs_neg]
  norm_num at t h ⊢
  linarith

/-- **C113.** For order zero (either zero) `cyl_bessel_i` and `cyl_bessel_j` are defined and within `6e-6` of `I₀(x)` and `J₀(x)` for every
`x` from 0 to 3.16 except the numbers between `2^-126` and `2^-125`. -/
theorem C113_order_zero_partial (nu x : BitVec 32) (hn : val nu = 0) (hx : F32.Finite x) (h0 : 0 ≤ val x) (h2 : val x ≤ 3.16)
    (hg : val x ≤ 2 ^ (-126 : ℤ) ∨ 2 ^ (-125 : ℤ) ≤ val x) :
    (∃ r, cyl_bessel_i nu x = .ok r ∧ F32.Finite r ∧ |(val r : ℝ) - besselI0 (val x)| ≤ 6e-6) ∧
    (∃ r, cyl_bessel_j nu x = .ok r ∧ F32.Finite r ∧ |(val r : ℝ) - besselJ0 (val x)| ≤ 6e-6) := by
  have fn := zero_finite hn
  have ho := besselOutside_not fn hn.ge hx h0
  have hs := besselSmallArg_zero hn hx h0 h2
  have cm : F32.Finite (lit (-1)) ∧ val (lit (-1)) = -1 := by decide +kernel
  have ei : cyl_bessel_i nu x = cylBesselIjSeries nu x (lit 1) := by unfold cyl_bessel_i; rw [if_neg ho, if_pos hs]
  have ej : cyl_bessel_j nu x = cylBesselIjSeries nu x (lit (-1)) := by unfold cyl_bessel_j; rw [if_neg ho, if_pos hs]
  rw [ei, ej]
  unfold besselI0 besselJ0
  rcases hg with hg | hg
  · have e0 : isEqual (lit 0) x = true := by
      rw [C88_iff _ _ c_zero.1 hx, c_zero.2, zero_sub, abs_neg, abs_of_nonneg h0]; exact hg
    have e1 : isEqual (lit 0) nu = true := by
      rw [C88_iff _ _ c_zero.1 fn, c_zero.2, hn]; norm_num
    have hR : (val x : ℝ) ≤ 1e-10 := by
      have : val x ≤ 1e-10 := hg.trans (by norm_num)
      have : (val x : ℝ) ≤ ((1e-10 : ℚ) : ℝ) := by exact_mod_cast this
      norm_num at this ⊢; exact this
    have hR0 : (0 : ℝ) ≤ val x := by exact_mod_cast h0
    have hw : |(val x : ℝ) ^ 2 / 4| ≤ 1e-7 := by
      rw [abs_of_nonneg (by positivity)]
      norm_num at hR ⊢
      nlinarith
    constructor
    · refine ⟨lit 1, by unfold cylBesselIjSeries; rw [if_pos e0, if_pos e1]; rfl, c_one.1, ?_⟩
      rw [c_one.2, Rat.cast_one]; exact besselSeries_tiny hw
    · refine ⟨lit 1, by unfold cylBesselIjSeries; rw [if_pos e0, if_pos e1]; rfl, c_one.1, ?_⟩
      rw [c_one.2, Rat.cast_one]; exact besselSeries_tiny (by rwa [abs_neg])
  · constructor
    · obtain ⟨r, e, f, d⟩ := ijSeries_near (g := 1) hn hx hg h2 c_one.1 c_one.2 (Or.inl rfl)
      refine ⟨r, e, f, ?_⟩
      push_cast at d; rwa [one_mul] at d
    · obtain ⟨r, e, f, d⟩ := ijSeries_near (g := -1) hn hx hg h2 cm.1 cm.2 (Or.inr rfl)
      refine ⟨r, e, f, ?_⟩
      push_cast at d; rwa [neg_one_mul, neg_div] at d

/-- A case of the theorem above. -/
example : val (lit 0) = 0 ∧ F32.Finite (lit 2.5) ∧ 0 ≤ val (lit 2.5) ∧ val (lit 2.5) ≤ 3.16 ∧ 2 ^ (-125 : ℤ) ≤ val (lit 2.5) ∧
    val 0x80000000#32 = 0 ∧ cyl_bessel_i 0x80000000#32 (lit 2.5) = cyl_bessel_i (lit 0) (lit 2.5) := by decide +kernel

/-- **C113, negation.** Beyond that range `cyl_bessel_i(0, 5)` is above 28 though `I₀(5)` is below 27.3: the starting value of the continued
fraction of `bessel_ik` is taken from the wrong variable. -/
theorem C113_false_large : (∃ r, cyl_bessel_i (lit 0) (lit 5) = .ok r ∧ 28 ≤ val r) ∧ val (lit 5) = 5 ∧ besselI0 5 ≤ 27.3 := by
  refine ⟨?_, by decide +kernel, ?_⟩
  · have : (match cyl_bessel_i (lit 0) (lit 5) with | .ok r => decide (28 ≤ val r) | _ => false) = true := by decide +kernel
    revert this
    cases h : cyl_bessel_i (lit 0) (lit 5) <;> simp
  · have t := besselSeries_tail (w := 25 / 4) (n := 12) (by norm_num)
    have c : |bT (25 / 4) 12| ≤ 1 / 1000 ∧ bS (25 / 4) 12 ≤ 27.25 := by decide +kernel
    have c1 : |(bT (25 / 4) 12 : ℝ)| ≤ 1 / 1000 := by
      have : ((|bT (25 / 4) 12| : ℚ) : ℝ) ≤ ((1 / 1000 : ℚ) : ℝ) := Rat.cast_le.2 c.1
      push_cast at this; exact this
    have c2 : (bS (25 / 4) 12 : ℝ) ≤ 27.25 := by
      have : ((bS (25 / 4) 12 : ℚ) : ℝ) ≤ ((27.25 : ℚ) : ℝ) := by exact_mod_cast c.2
      norm_num at this ⊢; exact this
    unfold besselI0
    have e : ((25 / 4 : ℚ) : ℝ) = 5 ^ 2 / 4 := by norm_num
    rw [e] at t
    have := (_root_.abs_le.1 t).2
    norm_num at this c1 c2 ⊢
    linarith

/-- `I₀(x)` is at most the exponential. -/
theorem besselI0_le_exp {x : ℝ} (hx : 0 ≤ x) : besselI0 x ≤ Real.exp x := by
  unfold besselI0 besselSeries
  have e : Real.exp x = Real.exp (x / 2) ^ 2 := by rw [← Real.exp_nat_mul]; congr 1; push_cast; ring
  rw [e]
  refine Real.tsum_le_of_sum_range_le (fun n => by positivity) fun n => ?_
  have h := Real.sum_le_exp_of_nonneg (show 0 ≤ x / 2 by positivity) n
  refine le_trans ?_ (pow_le_pow_left₀ (Finset.sum_nonneg fun i _ => by positivity) h 2)
  refine le_trans (le_of_eq ?_) (Finset.sum_sq_le_sq_sum_of_nonneg (s := Finset.range n) (f := fun i => (x / 2) ^ i / (i.factorial : ℝ)) fun i _ => by positivity)
  refine Finset.sum_congr rfl fun i _ => ?_
  rw [show x ^ 2 / 4 = (x / 2) ^ 2 by ring, ← pow_mul, div_pow _ (i.factorial : ℝ), ← pow_mul, _root_.mul_comm 2 i, pow_two (i.factorial : ℝ)]

/-- **C113, negation.** `cyl_bessel_i(0, 88)` is infinite though `I₀(88)` is at most `e^88`, which is below the greatest float. -/
theorem C113_false_overflow : cyl_bessel_i (lit 0) (lit 88) = .ok inf ∧ val (lit 88) = 88 ∧ besselI0 88 ≤ val fltMax := by
  refine ⟨by decide +kernel, by decide +kernel, (besselI0_le_exp (by norm_num)).trans ?_⟩
  have h1 : Real.exp 88 = Real.exp 1 ^ 88 := by rw [← Real.exp_nat_mul]; norm_num
  have h2 : Real.exp 1 ^ 88 ≤ 2.7182818286 ^ 88 := pow_le_pow_left₀ (Real.exp_pos _).le Real.exp_one_lt_d9.le _
  have h3 : ((3.4e38 : ℚ) : ℝ) ≤ val fltMax := Rat.cast_le.2 (by decide +kernel)
  rw [h1]
  refine h2.trans (le_trans ?_ h3)
  norm_num

/-! ### Arguments outside the domain and the argument zero -/

/-- **C114.** A NaN or a negative argument (order or position) gives a NaN. -/
theorem C114_domain (nu x : BitVec 32) (n : ℕ) :
    (IsNaN nu ∨ IsNaN x ∨ (nu <ᶠ lit 0) = true ∨ (x <ᶠ lit 0) = true →
      cyl_bessel_i nu x = .ok nan ∧ cyl_bessel_j nu x = .ok nan ∧ cyl_bessel_k nu x = .ok nan ∧ cyl_neumann nu x = .ok nan) ∧
    (IsNaN x ∨ (x <ᶠ lit 0) = true → sph_bessel n x = .ok nan ∧ sph_neumann n x = .ok nan) := by
  constructor
  · intro h
    have ho : besselOutside nu x := by unfold besselOutside; tauto
    unfold cyl_bessel_i cyl_bessel_j cyl_bessel_k cyl_neumann
    simp only [if_pos ho]
    exact ⟨rfl, rfl, rfl, rfl⟩
  · intro h
    unfold sph_bessel sph_neumann
    rw [if_pos (by tauto), if_pos (by tauto)]
    exact ⟨rfl, rfl⟩

example : IsNaN nan ∧ (lit (-1) <ᶠ lit 0) = true := by decide +kernel

/-- **C114.** At either zero: `J` and `I` are one for order zero and zero for every greater order, `K` is positive infinity and `N` negative
infinity for every order. An order up to `2^-126` counts as zero. -/
theorem C114_at_zero (nu x : BitVec 32) (hn : F32.Finite nu) (h0 : 0 ≤ val nu) (hx : val x = 0) :
    (val nu ≤ 2 ^ (-126 : ℤ) → cyl_bessel_j nu x = .ok (lit 1) ∧ cyl_bessel_i nu x = .ok (lit 1)) ∧
    (2 ^ (-126 : ℤ) < val nu → cyl_bessel_j nu x = .ok (lit 0) ∧ cyl_bessel_i nu x = .ok (lit 0)) ∧
    cyl_bessel_k nu x = .ok inf ∧ cyl_neumann nu x = .ok (negate inf) := by
  have fx := zero_finite hx
  have ho := besselOutside_not hn h0 fx hx.ge
  have e0 : isEqual (lit 0) x = true := by
    rw [C88_iff _ _ c_zero.1 fx, c_zero.2, hx]; norm_num
  have en : isEqual (lit 0) nu = true ↔ val nu ≤ 2 ^ (-126 : ℤ) := by
    rw [C88_iff _ _ c_zero.1 hn, c_zero.2, zero_sub, abs_neg, abs_of_nonneg h0]
  have hs : besselSmallArg nu x = true := by
    unfold besselSmallArg
    obtain ⟨f1, a1, a2⟩ := mul_btw fx fx c_zero.1 c_zero.1 (by rw [hx, c_zero.2]; simp) (by rw [hx, c_zero.2]; simp)
    have v1 : val (x *ᶠ x) = 0 := (le_antisymm a2 a1).trans c_zero.2
    have e1 : nu +ᶠ lit 1 = rnd (neg nu && neg (lit 1)) (val nu + val (lit 1)) := add_fin hn c_one.1
    have b1 : 1 ≤ val (nu +ᶠ lit 1) := by
      have := le_rnd (s := neg nu && neg (lit 1)) (q := val nu + val (lit 1)) c_one.1 (by linarith)
      rwa [← e1, c_one.2] at this
    have n1 : ¬ IsNaN (nu +ᶠ lit 1) := by rw [e1]; exact rnd_notNaN _ _
    have key2 : ¬ IsNaN (lit 10 *ᶠ (nu +ᶠ lit 1)) ∧ 1 ≤ val (lit 10 *ᶠ (nu +ᶠ lit 1)) := by
      rcases trichotomy n1 with hf | hi | hi
      · have e2 : lit 10 *ᶠ (nu +ᶠ lit 1) = rnd (neg (lit 10) ^^ neg (nu +ᶠ lit 1)) (val (lit 10) * val (nu +ᶠ lit 1)) := mul_fin c_ten.1 hf
        rw [e2]
        refine ⟨rnd_notNaN _ _, ?_⟩
        have := le_rnd (s := neg (lit 10) ^^ neg (nu +ᶠ lit 1)) (q := val (lit 10) * val (nu +ᶠ lit 1)) c_one.1 (by rw [c_one.2, c_ten.2]; linarith)
        rwa [c_one.2] at this
      · rw [hi]; decide +kernel
      · exfalso; rw [hi] at b1; revert b1; decide +kernel
    unfold F32.lt
    simp only [decide_eq_true_eq]
    refine ⟨f1.notNaN, key2.1, ?_⟩
    rw [← val_lt_iff, v1]
    linarith [key2.2]
  have cx : ¬ (lit 1000 <ᶠ x) = true := by
    have c : F32.Finite (lit 1000) ∧ val (lit 1000) = 1000 := by decide +kernel
    rw [lt_fin c.1 fx, c.2, hx, decide_eq_true_eq]; norm_num
  refine ⟨fun h => ?_, fun h => ?_, ?_, ?_⟩
  · unfold cyl_bessel_j cyl_bessel_i cylBesselIjSeries
    rw [if_neg ho, if_neg ho, if_pos hs, if_pos hs, if_pos e0, if_pos e0, if_pos (en.2 h)]
    exact ⟨rfl, rfl⟩
  · unfold cyl_bessel_j cyl_bessel_i cylBesselIjSeries
    rw [if_neg ho, if_neg ho, if_pos hs, if_pos hs, if_pos e0, if_pos e0, if_neg (by rw [en]; exact not_le.2 h)]
    exact ⟨rfl, rfl⟩
  · unfold cyl_bessel_k besselIk
    rw [if_neg ho, if_pos e0]
    split
    · rfl
    · split <;> rfl
  · unfold cyl_neumann besselJn
    rw [if_neg ho, if_neg cx, if_pos e0]
    split
    · rfl
    · split <;> rfl

example : F32.Finite (lit 2.5) ∧ 0 ≤ val (lit 2.5) ∧ 2 ^ (-126 : ℤ) < val (lit 2.5) ∧ val 0x80000000#32 = 0 := by decide +kernel

/-- **C114.** The spherical functions at zero. -/
theorem C114_sph_at_zero (n : ℕ) (x : BitVec 32) (hx : val x = 0) :
    sph_bessel n x = .ok (if n = 0 then lit 1 else lit 0) ∧ sph_neumann n x = .ok (negate inf) := by
  have fx := zero_finite hx
  have e0 : isEqual (lit 0) x = true := by
    rw [C88_iff _ _ c_zero.1 fx, c_zero.2, hx]; norm_num
  have hn : ¬ ((x <ᶠ lit 0) = true ∨ IsNaN x) := by
    rw [lt_fin fx c_zero.1, c_zero.2, hx]
    rintro (h | h)
    · revert h; decide
    · exact fx.notNaN h
  unfold sph_bessel sph_neumann
  rw [if_neg hn, if_neg hn, if_pos e0, if_pos e0]
  refine ⟨?_, rfl⟩
  congr 1
  by_cases h : n = 0
  · rw [if_pos h, if_pos h.symm]
  · rw [if_neg h, if_neg (fun h' => h h'.symm)]

example : val (lit 0) = 0 ∧ sph_bessel 0 (lit 0) ≠ sph_bessel 1 (lit 0) := by decide +kernel

/-! ### Undefined behaviour of the spherical functions -/

theorem toI32_low {a : BitVec 32} (h : val a ≤ -2147483904) : toI32 a = .ub := by
  unfold toI32
  simp only []
  rw [if_neg]
  rintro ⟨-, h1, -⟩
  have : ((-2147483648 : ℤ) : ℚ) ≤ -(2147483904 : ℚ) + 1 := by
    split at h1
    · have h2 := Int.lt_floor_add_one (-val a)
      have h3 : ((⌊-val a⌋ : ℤ) : ℚ) ≤ 2147483648 := by exact_mod_cast (by omega : ⌊-val a⌋ ≤ 2147483648)
      exfalso; linarith
    · have h2 := Int.floor_le (val a)
      have h3 : (-2147483648 : ℚ) ≤ ((⌊val a⌋ : ℤ) : ℚ) := by exact_mod_cast h1
      exfalso; linarith
  norm_num at this

/-- **C115, negation.** For every order below 128 and every argument from `2147484416` on, infinity included, `sph_bessel` and `sph_neumann`
convert a float below `-2^31` to `int`, which is undefined behaviour; the functions themselves tend to zero there. -/
theorem C115_false_undefined (n : ℕ) (hn : n < 128) (x : BitVec 32) (hx : ¬ IsNaN x) (h : 2147484416 ≤ val x) :
    sph_bessel n x = .ub ∧ sph_neumann n x = .ub := by
  have c : F32.Finite (lit 0.5) ∧ val (lit 0.5) = 1 / 2 ∧ F32.Finite (lit 128) ∧ val (lit 128) = 128 ∧ F32.Finite (lit (-2147484160)) ∧
    val (lit (-2147484160)) = -2147484160 ∧ F32.Finite (lit 1.5) ∧ val (lit 1.5) = 3 / 2 ∧ F32.Finite (lit (-2147483904)) ∧
    val (lit (-2147483904)) = -2147483904 ∧ F32.Finite (lit 2) ∧ val (lit 2) = 2 := by decide +kernel
  obtain ⟨c1, v1, c2, v2, c3, v3, c4, v4, c5, v5, c6, v6⟩ := c
  obtain ⟨fn, vn⟩ := lit_nat n (by omega)
  have n0 : (0 : ℚ) ≤ n := n.cast_nonneg
  have n1 : (n : ℚ) ≤ 127 := by exact_mod_cast (by omega : n ≤ 127)
  obtain ⟨fu, u0, u1⟩ := add_btw fn c1 c_zero.1 c2 (by rw [vn, v1, c_zero.2]; linarith) (by rw [vn, v1, v2]; linarith)
  rw [c_zero.2] at u0
  rw [v2] at u1
  have ub : ∀ nu : BitVec 32, F32.Finite nu → 0 ≤ val nu → val nu ≤ 128 → toI32 ((nu -ᶠ x) +ᶠ lit 1.5) = .ub := by
    intro nu fu u0 u1
    rcases trichotomy hx with hf | hi | hi
    · have e1 : nu -ᶠ x = rnd (neg nu && !neg x) (val nu - val x) := sub_fin fu hf
      have d1 := rnd_le (s := neg nu && !neg x) (q := val nu - val x) c3 (by rw [v3]; linarith)
      rw [← e1, v3] at d1
      have nn : ¬ IsNaN (nu -ᶠ x) := by rw [e1]; exact rnd_notNaN _ _
      rcases trichotomy nn with gf | gi | gi
      · have e2 : (nu -ᶠ x) +ᶠ lit 1.5 = rnd (neg (nu -ᶠ x) && neg (lit 1.5)) (val (nu -ᶠ x) + val (lit 1.5)) := add_fin gf c4
        have d2 := rnd_le (s := neg (nu -ᶠ x) && neg (lit 1.5)) (q := val (nu -ᶠ x) + val (lit 1.5)) c5 (by rw [v5, v4]; linarith)
        rw [← e2, v5] at d2
        exact toI32_low d2
      · rw [gi]; decide +kernel
      · rw [gi]; decide +kernel
    · have e1 : nu -ᶠ x = negate inf := by
        rw [hi]
        have k : IsInf inf ∧ ¬ IsNaN inf := by decide
        unfold F32.sub F32.add
        rw [if_neg (by simp only [not_or]; exact ⟨fu.notNaN, by decide⟩), if_neg fu.notInf, if_pos (by decide)]
      rw [e1]; decide +kernel
    · exfalso; rw [hi] at h; revert h; decide +kernel
  have hd : ¬ ((x <ᶠ lit 0) = true ∨ IsNaN x) ∧ ¬ isEqual (lit 0) x = true ∧ ¬ (x <ᶠ lit 2) = true := by
    rcases trichotomy hx with hf | hi | hi
    · refine ⟨?_, ?_, ?_⟩
      · rw [lt_fin hf c_zero.1, c_zero.2, decide_eq_true_eq]
        rintro (h' | h')
        · linarith
        · exact hx h'
      · rw [C88_iff _ _ c_zero.1 hf, c_zero.2, zero_sub, abs_neg, abs_of_pos (by linarith), not_le]
        exact lt_of_lt_of_le (by norm_num) h
      · rw [lt_fin hf c6, v6, decide_eq_true_eq]; linarith
    · rw [hi]; decide +kernel
    · exfalso; rw [hi] at h; revert h; decide +kernel
  have hj : sphBesselJn n x = .ub := by
    unfold sphBesselJn besselJn
    simp only []
    rw [if_neg hd.2.1, if_neg hd.2.2, ub _ fu u0 u1]
    rfl
  unfold sph_bessel sph_neumann
  rw [if_neg hd.1, if_neg hd.1, if_neg hd.2.1, if_neg hd.2.1, hj]
  exact ⟨rfl, rfl⟩

example : 3 < 128 ∧ ¬ IsNaN (lit 3000000000) ∧ 2147484416 ≤ val (lit 3000000000) ∧ sph_bessel 3 inf = .ub := by decide +kernel

/-- **C115, negation.** `sph_bessel(0, 1)` misses `sin(1)` by more than `0.0014` and `sph_neumann(0, 1)` misses `-cos(1)` by more than `0.003`: the
factor `1/√x` comes from `rSqrt`, whose error is of this size. -/
theorem C115_false_accuracy : (∃ r, sph_bessel 0 (lit 1) = .ok r ∧ (val r : ℝ) ≤ Real.sin 1 - 0.0014) ∧
    (∃ r, sph_neumann 0 (lit 1) = .ok r ∧ -Real.cos 1 + 0.003 ≤ (val r : ℝ)) := by
  have hs : |Real.sin 1 - 0.8414709| ≤ 1e-6 ∧ |Real.cos 1 - 0.5403023| ≤ 1e-6 := by
    obtain ⟨a, b⟩ := trig_taylor (x := 1) (n := 11) (by norm_num)
    constructor
    · refine (abs_sub_le _ (∑ m ∈ Finset.range 11, (sinC m : ℝ) * 1 ^ m) _).trans ?_
      refine (add_le_add_left a _).trans ?_
      norm_num [Finset.sum_range_succ, sinC, Nat.factorial]
    · refine (abs_sub_le _ (∑ m ∈ Finset.range 11, (cosC m : ℝ) * 1 ^ m) _).trans ?_
      refine (add_le_add_left b _).trans ?_
      norm_num [Finset.sum_range_succ, cosC, Nat.factorial]
  obtain ⟨a1, a2⟩ := _root_.abs_le.1 hs.1
  obtain ⟨b1, b2⟩ := _root_.abs_le.1 hs.2
  constructor
  · have : (match sph_bessel 0 (lit 1) with | .ok r => decide (val r ≤ 0.84006) | _ => false) = true := by decide +kernel
    cases h : sph_bessel 0 (lit 1) with
    | ok r =>
      rw [h] at this
      have h2 : ((val r : ℚ) : ℝ) ≤ ((0.84006 : ℚ) : ℝ) := Rat.cast_le.2 (of_decide_eq_true this)
      exact ⟨r, rfl, by norm_num at *; linarith⟩
    | ub => rw [h] at this; cases this
    | diverge => rw [h] at this; cases this
  · have : (match sph_neumann 0 (lit 1) with | .ok r => decide (-0.5373 ≤ val r) | _ => false) = true := by decide +kernel
    cases h : sph_neumann 0 (lit 1) with
    | ok r =>
      rw [h] at this
      have h2 : ((-0.5373 : ℚ) : ℝ) ≤ ((val r : ℚ) : ℝ) := Rat.cast_le.2 (of_decide_eq_true this)
      exact ⟨r, rfl, by norm_num at *; linarith⟩
    | ub => rw [h] at this; cases this
    | diverge => rw [h] at this; cases this

end Verif.Ffmath
