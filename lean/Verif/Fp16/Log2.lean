import Verif.Fp16.Log
import Mathlib.Analysis.SpecialFunctions.Log.Base
import Mathlib.Analysis.Complex.ExponentialBounds

/-!
# `fp16::log2` (C130)

The binary digits of the logarithm are produced by repeated squaring. In exact arithmetic a step
turns `(r, x)` into `(2 r + b, x^2 / 2^b)`, which doubles `r + log2 x`; the roundings are carried along.
-/

namespace Verif.Fp16

theorem rs_eq {x : Int} (h0 : 0 ≤ x) (h1 : x < 2147483648) : rs x = .ok ((x + 1) / 2) := by
  unfold rs flagRounding
  rw [if_pos rfl, Nat.and_one_is_mod]
  have e : toI (toU x % 2) = x % 2 := by
    unfold toU toI
    split <;> omega
  rw [e, chk_ok (by omega)]
  congr 1
  omega

/-- Halving with rounding upwards, in logarithms. -/
theorem rs_log {x : Int} (h : 131072 ≤ x) :
    |Real.log (((x + 1) / 2 : Int) : ℝ) - Real.log x + Real.log 2| ≤ 1 / x := by
  have hx : (131072 : ℝ) ≤ x := by exact_mod_cast h
  have hx0 : (0 : ℝ) < x := by linarith
  have y1 : (x : ℝ) / 2 ≤ (((x + 1) / 2 : Int) : ℝ) := by
    have : x ≤ 2 * ((x + 1) / 2) := by omega
    have : (x : ℝ) ≤ 2 * (((x + 1) / 2 : Int) : ℝ) := by exact_mod_cast this
    linarith
  have y2 : (((x + 1) / 2 : Int) : ℝ) ≤ ((x : ℝ) + 1) / 2 := by
    have : 2 * ((x + 1) / 2) ≤ x + 1 := by omega
    have : 2 * (((x + 1) / 2 : Int) : ℝ) ≤ (x : ℝ) + 1 := by exact_mod_cast this
    linarith
  generalize (((x + 1) / 2 : Int) : ℝ) = y at *
  have hy0 : 0 < y := by linarith
  have e : Real.log y - Real.log x + Real.log 2 = Real.log (y * 2 / x) := by
    rw [Real.log_div (by positivity) hx0.ne', Real.log_mul hy0.ne' (by norm_num)]; ring
  have r1 : 1 ≤ y * 2 / x := by rw [le_div_iff₀ hx0]; linarith
  have r2 : y * 2 / x ≤ 1 + 1 / x := by
    rw [div_le_iff₀ hx0, add_mul, one_div_mul_cancel hx0.ne']; linarith
  have u := Real.log_le_sub_one_of_pos (by linarith : 0 < y * 2 / x)
  rw [e, abs_of_nonneg (Real.log_nonneg r1)]
  linarith

/-- The normalisation. -/
theorem norm_spec (k : Nat) : ∀ (fuel : Nat) (r x : Int), k < fuel → 65536 ≤ x → x < 2147483648 → x ≤ 131071 * 2 ^ k →
    ∃ (y : Int) (j : Nat), log2iNorm fuel r x = .ok (r + j, y) ∧ j ≤ k ∧ 65536 ≤ y ∧ y ≤ 131071 ∧
      |Real.log y - Real.log x + j * Real.log 2| ≤ 1.55e-5 - 1.01 / x := by
  have base : ∀ x : Int, 65536 ≤ x → (0 : ℝ) ≤ 1.55e-5 - 1.01 / x := by
    intro x h
    have hx : (65536 : ℝ) ≤ x := by exact_mod_cast h
    rw [sub_nonneg, div_le_iff₀ (by linarith)]
    norm_num; linarith
  induction k with
  | zero =>
    intro fuel r x hf h0 h1 hk
    obtain ⟨f, rfl⟩ : ∃ f, fuel = f + 1 := ⟨fuel - 1, by omega⟩
    refine ⟨x, 0, ?_, le_rfl, h0, by omega, ?_⟩
    · rw [log2iNorm, if_neg (by unfold f2; omega)]; simp
    · simp only [sub_self, Nat.cast_zero, zero_mul, add_zero, abs_zero]; exact base x h0
  | succ k ih =>
    intro fuel r x hf h0 h1 hk
    obtain ⟨f, rfl⟩ : ∃ f, fuel = f + 1 := ⟨fuel - 1, by omega⟩
    by_cases hx : 131072 ≤ x
    · obtain ⟨z, j, hz, hj, z1, z2, gz⟩ := ih f (r + 1) ((x + 1) / 2) (by omega) (by omega) (by omega) (by
        rw [pow_succ] at hk; omega)
      refine ⟨z, j + 1, ?_, by omega, z1, z2, ?_⟩
      · rw [log2iNorm, if_pos (by unfold f2; omega), rs_eq (by omega) h1, Out.bind_ok, hz]
        congr 2; push_cast; ring
      · have g := rs_log hx
        have hxr : (131072 : ℝ) ≤ x := by exact_mod_cast hx
        have hx0 : (0 : ℝ) < x := by linarith
        have y2 : 2 * (((x + 1) / 2 : Int) : ℝ) ≤ (x : ℝ) + 1 := by
          exact_mod_cast (by omega : 2 * ((x + 1) / 2) ≤ x + 1)
        have y1 : (0 : ℝ) < (((x + 1) / 2 : Int) : ℝ) := by exact_mod_cast (by omega : 0 < (x + 1) / 2)
        have e4 : Real.log z - Real.log x + ((j + 1 : Nat) : ℝ) * Real.log 2 =
            (Real.log z - Real.log (((x + 1) / 2 : Int) : ℝ) + j * Real.log 2) +
            (Real.log (((x + 1) / 2 : Int) : ℝ) - Real.log x + Real.log 2) := by push_cast; ring
        rw [e4]
        refine (abs_add_le _ _).trans ?_
        generalize (((x + 1) / 2 : Int) : ℝ) = y at *
        have : 2.01 / (x : ℝ) ≤ 1.01 / y := by
          rw [div_le_div_iff₀ hx0 y1]; norm_num; linarith
        have e5 : 2.01 / (x : ℝ) = 1 / x + 1.01 / x := by rw [← add_div]; norm_num
        linarith
    · refine ⟨x, 0, ?_, by omega, h0, by omega, ?_⟩
      · rw [log2iNorm, if_neg (by unfold f2; omega)]; simp
      · simp only [sub_self, Nat.cast_zero, zero_mul, add_zero, abs_zero]; exact base x h0

/-- Squaring, in logarithms. -/
theorem sq_step {x : Int} (h : 65536 ≤ x ∧ x ≤ 131071) :
    ∃ m : Int, mul x x = .ok m ∧ 65536 ≤ m ∧ m ≤ 262140 ∧
      |Real.log ((m : ℝ) / 65536) - 2 * Real.log ((x : ℝ) / 65536)| ≤ 7.64e-6 := by
  have hx1 : (65536 : ℝ) ≤ x := by exact_mod_cast h.1
  have hx2 : (x : ℝ) ≤ 131071 := by exact_mod_cast h.2
  have q1 : (65536 : ℝ) * 65536 ≤ x * x := mul_le_mul hx1 hx1 (by norm_num) (by linarith)
  have q2 : (x : ℝ) * x ≤ 131071 * 131071 := mul_le_mul hx2 hx2 (by linarith) (by norm_num)
  obtain ⟨m, hm, g⟩ := mul_real (x := x) (y := x) (by omega) (by omega) (by
    rw [abs_of_nonneg (by positivity)]; linarith)
  have g' := g
  rw [abs_le] at g
  have m1 : (65535 : ℝ) < m := by linarith [g.1]
  have m2 : (m : ℝ) < 262141 := by linarith [g.2]
  have m1' : 65535 < m := by exact_mod_cast m1
  have m2' : m < 262141 := by exact_mod_cast m2
  refine ⟨m, hm, by omega, by omega, ?_⟩
  have hn := log_near (p := (m : ℝ) / 65536) (q := ((x : ℝ) / 65536) * ((x : ℝ) / 65536)) (τ := 1 / 131072)
    (by positivity) (by
      have e : (m : ℝ) / 65536 - x / 65536 * (x / 65536) = (m - x * x / 65536) / 65536 := by ring
      rw [e, abs_div, abs_of_pos (by norm_num : (0 : ℝ) < 65536), div_le_iff₀ (by norm_num)]
      have : 1 / 131072 * ((x : ℝ) / 65536 * (x / 65536)) * 65536 = x * x / 8589934592 := by ring
      rw [this]
      linarith) (by norm_num)
  rw [Real.log_mul (by positivity) (by positivity), ← two_mul] at hn
  refine hn.trans ?_
  norm_num

theorem log_double {m : Int} (h : 131072 ≤ m ∧ m ≤ 262140) :
    65536 ≤ (m + 1) / 2 ∧ (m + 1) / 2 ≤ 131071 ∧
    |Real.log ((((m + 1) / 2 : Int) : ℝ) / 65536) - Real.log ((m : ℝ) / 65536) + Real.log 2| ≤ 7.64e-6 := by
  refine ⟨by omega, by omega, ?_⟩
  have hm : (131072 : ℝ) ≤ m := by exact_mod_cast h.1
  have y1 : (0 : ℝ) < (((m + 1) / 2 : Int) : ℝ) := by exact_mod_cast (by omega : 0 < (m + 1) / 2)
  rw [Real.log_div y1.ne' (by norm_num), Real.log_div (by positivity) (by norm_num)]
  have g := rs_log h.1
  have e : 1 / (m : ℝ) ≤ 7.64e-6 := by rw [div_le_iff₀ (by linarith)]; norm_num; linarith
  have e2 : Real.log (((m + 1) / 2 : Int) : ℝ) - Real.log 65536 - (Real.log m - Real.log 65536) + Real.log 2 =
      Real.log (((m + 1) / 2 : Int) : ℝ) - Real.log m + Real.log 2 := by ring
  rw [e2]
  exact g.trans e

theorem digit_even {r : Int} (h0 : 0 ≤ r) (h1 : r < 1048576) : toI (toU (r * 2)) = 2 * r ∧
    toI (toU (2 * r) ||| 1) = 2 * r + 1 := by
  constructor
  · unfold toU toI; split <;> omega
  · have e : toU (2 * r) ||| 1 = toU (2 * r) + 1 := by
      have : toU (2 * r) % 2 = 0 := by unfold toU; omega
      obtain ⟨n, hn⟩ : ∃ n, toU (2 * r) = 2 * n := ⟨toU (2 * r) / 2, by omega⟩
      rw [hn]
      exact (Nat.two_pow_add_eq_or_of_lt (i := 1) (b := 1) (by norm_num) n).symm
    rw [e]
    unfold toU toI; split <;> omega

theorem loop_spec (n : Nat) : ∀ (r x : Int), 0 ≤ r → (r + 1) * 2 ^ n ≤ 1048576 → 65536 ≤ x → x ≤ 131071 →
    ∃ r' x' : Int, log2iLoop n r x = .ok (r', x') ∧ 0 ≤ r' ∧ r' < 1048576 ∧ 65536 ≤ x' ∧ x' ≤ 131071 ∧
      |(r' * Real.log 2 + Real.log ((x' : ℝ) / 65536)) - 2 ^ n * (r * Real.log 2 + Real.log ((x : ℝ) / 65536))| ≤
        (2 ^ n - 1) * 1.53e-5 := by
  induction n with
  | zero =>
    intro r x h0 h1 h2 h3
    refine ⟨r, x, by rw [log2iLoop], h0, by omega, h2, h3, by simp⟩
  | succ n ih =>
    intro r x h0 h1 h2 h3
    have hp : (1 : Int) ≤ 2 ^ n := one_le_pow₀ (by norm_num)
    have hr : r < 1048576 := by rw [pow_succ] at h1; nlinarith
    obtain ⟨m, hm, m1, m2, gm⟩ := sq_step ⟨h2, h3⟩
    obtain ⟨d1, d2⟩ := digit_even h0 hr
    by_cases hb : m ≥ 131072
    · obtain ⟨y1, y2, gy⟩ := log_double ⟨hb, m2⟩
      obtain ⟨r', x', hx', a1, a2, a3, a4, a5⟩ := ih (2 * r + 1) ((m + 1) / 2) (by omega)
        (by rw [pow_succ] at h1; linarith) y1 y2
      refine ⟨r', x', ?_, a1, a2, a3, a4, ?_⟩
      · rw [log2iLoop, hm, Out.bind_ok]
        dsimp only
        rw [if_pos (by unfold f2; omega), d1, d2, rs_eq (by omega) (by omega), Out.bind_ok, hx']
      · have st : |((2 * r + 1 : Int) * Real.log 2 + Real.log ((((m + 1) / 2 : Int) : ℝ) / 65536)) -
            2 * (r * Real.log 2 + Real.log ((x : ℝ) / 65536))| ≤ 1.53e-5 := by
          have e : ((2 * r + 1 : Int) * Real.log 2 + Real.log ((((m + 1) / 2 : Int) : ℝ) / 65536)) -
            2 * (r * Real.log 2 + Real.log ((x : ℝ) / 65536)) =
            (Real.log ((((m + 1) / 2 : Int) : ℝ) / 65536) - Real.log ((m : ℝ) / 65536) + Real.log 2) +
            (Real.log ((m : ℝ) / 65536) - 2 * Real.log ((x : ℝ) / 65536)) := by push_cast; ring
          rw [e]
          refine (abs_add_le _ _).trans ?_
          norm_num at gy gm ⊢
          linarith
        have hpn : (0 : ℝ) < 2 ^ n := by positivity
        generalize ((2 * r + 1 : Int) * Real.log 2 + Real.log ((((m + 1) / 2 : Int) : ℝ) / 65536)) = A at *
        generalize (r * Real.log 2 + Real.log ((x : ℝ) / 65536)) = B at *
        generalize (r' * Real.log 2 + Real.log ((x' : ℝ) / 65536)) = C at *
        have st' := mul_le_mul_of_nonneg_left st hpn.le
        rw [← abs_of_pos hpn, ← abs_mul, abs_of_pos hpn] at st'
        have e : C - 2 ^ (n + 1) * B = (C - 2 ^ n * A) + 2 ^ n * (A - 2 * B) := by ring
        rw [e]
        refine (abs_add_le _ _).trans ?_
        rw [pow_succ]
        linarith
    · obtain ⟨r', x', hx', a1, a2, a3, a4, a5⟩ := ih (2 * r) m (by omega)
        (by rw [pow_succ] at h1; linarith) m1 (by omega)
      refine ⟨r', x', ?_, a1, a2, a3, a4, ?_⟩
      · rw [log2iLoop, hm, Out.bind_ok]
        dsimp only
        rw [if_neg (by unfold f2; omega), d1, hx']
      · have st : |((2 * r : Int) * Real.log 2 + Real.log ((m : ℝ) / 65536)) -
            2 * (r * Real.log 2 + Real.log ((x : ℝ) / 65536))| ≤ 1.53e-5 := by
          have e : ((2 * r : Int) * Real.log 2 + Real.log ((m : ℝ) / 65536)) -
            2 * (r * Real.log 2 + Real.log ((x : ℝ) / 65536)) =
            (Real.log ((m : ℝ) / 65536) - 2 * Real.log ((x : ℝ) / 65536)) := by push_cast; ring
          rw [e]
          refine gm.trans ?_
          norm_num
        have hpn : (0 : ℝ) < 2 ^ n := by positivity
        generalize ((2 * r : Int) * Real.log 2 + Real.log ((m : ℝ) / 65536)) = A at *
        generalize (r * Real.log 2 + Real.log ((x : ℝ) / 65536)) = B at *
        generalize (r' * Real.log 2 + Real.log ((x' : ℝ) / 65536)) = C at *
        have st' := mul_le_mul_of_nonneg_left st hpn.le
        rw [← abs_of_pos hpn, ← abs_mul, abs_of_pos hpn] at st'
        have e : C - 2 ^ (n + 1) * B = (C - 2 ^ n * A) + 2 ^ n * (A - 2 * B) := by ring
        rw [e]
        refine (abs_add_le _ _).trans ?_
        rw [pow_succ]
        linarith

/-- `log2i` from one on. -/
theorem log2i_spec {x : Int} (h0 : 65536 ≤ x) (h1 : x < 2147483648) :
    ∃ r : Int, log2i x = .ok r ∧ 0 ≤ r ∧ r ≤ 1048576 ∧
      |(r : ℝ) / 65536 * Real.log 2 - Real.log ((x : ℝ) / 65536)| ≤ 3.65e-5 := by
  obtain ⟨y, j, hy, hj, y1, y2, gy⟩ := norm_spec 15 64 0 x (by norm_num) h0 h1 (by norm_num; omega)
  obtain ⟨r, z, hz, r0, r1, z1, z2, gz⟩ := loop_spec 16 (0 + j) y (by omega) (by norm_num; omega) y1 y2
  obtain ⟨m, hm, m1, m2, gm⟩ := sq_step ⟨z1, z2⟩
  have hx0 : (65536 : ℝ) ≤ x := by exact_mod_cast h0
  have hy0 : (65536 : ℝ) ≤ y := by exact_mod_cast y1
  have hz0 : (65536 : ℝ) ≤ z := by exact_mod_cast z1
  have hz1 : (z : ℝ) ≤ 131071 := by exact_mod_cast z2
  have l1 := Real.log_two_gt_d9
  have l2 := Real.log_two_lt_d9
  have u0 : 0 ≤ Real.log ((z : ℝ) / 65536) := Real.log_nonneg (by rw [le_div_iff₀ (by norm_num)]; linarith)
  have u1 : Real.log ((z : ℝ) / 65536) ≤ Real.log 2 :=
    Real.log_le_log (by positivity) (by rw [div_le_iff₀ (by norm_num)]; linarith)
  rw [Real.log_div (by positivity) (by norm_num)]
  rw [Real.log_div (by positivity : (y : ℝ) ≠ 0) (by norm_num)] at gz
  push_cast at gz
  have hxp : (0 : ℝ) ≤ 1.01 / x := by positivity
  have gy' : |Real.log y - Real.log x + j * Real.log 2| ≤ 1.55e-5 := by linarith
  refine ⟨if m ≥ 131072 then r + 1 else r, ?_, by split <;> omega, by split <;> omega, ?_⟩
  · unfold log2i flagRounding
    rw [hy, Out.bind_ok]
    dsimp only
    rw [if_neg (by omega), hz, Out.bind_ok]
    dsimp only
    rw [if_pos rfl, hm, Out.bind_ok]
    have e : f2 = 131072 := rfl
    rw [e]
    split
    · exact chk_ok (by omega)
    · rfl
  · have fin : |((if m ≥ 131072 then r + 1 else r : Int) : ℝ) * Real.log 2 -
        (r * Real.log 2 + Real.log ((z : ℝ) / 65536))| ≤ 0.347 := by
      have hm0 : (0 : ℝ) < m := by exact_mod_cast (by omega : 0 < m)
      rw [abs_le] at gm
      split
      · rename_i hb
        have hb' : (131072 : ℝ) ≤ m := by exact_mod_cast hb
        have : Real.log 2 ≤ Real.log ((m : ℝ) / 65536) :=
          Real.log_le_log (by norm_num) (by rw [le_div_iff₀ (by norm_num)]; linarith)
        push_cast
        rw [abs_le]
        norm_num at gm l1 l2 ⊢
        constructor <;> linarith [gm.1, gm.2]
      · rename_i hb
        have hb' : (m : ℝ) ≤ 131072 := by exact_mod_cast (by omega : m ≤ 131072)
        have : Real.log ((m : ℝ) / 65536) ≤ Real.log 2 :=
          Real.log_le_log (by positivity) (by rw [div_le_iff₀ (by norm_num)]; linarith)
        rw [abs_le]
        norm_num at gm l1 l2 ⊢
        constructor <;> linarith [gm.1, gm.2]
    generalize ((if m ≥ 131072 then r + 1 else r : Int) : ℝ) = R at *
    generalize Real.log ((z : ℝ) / 65536) = u at *
    rw [abs_le] at *
    norm_num at gz gy' fin ⊢
    constructor <;> linarith [gz.1, gz.2, gy'.1, gy'.2, fin.1, fin.2]

/-- The reciprocal used for arguments below one. -/
theorem inv_spec {x : Int} (h0 : 3 ≤ x) (h1 : x < 65536) :
    ∃ v : Int, div one x = .ok v ∧ 65536 ≤ v ∧ v < 2147483648 ∧
      |Real.log ((v : ℝ) / 65536) + Real.log ((x : ℝ) / 65536)| ≤ 7.64e-6 := by
  have hx0 : (3 : ℝ) ≤ x := by exact_mod_cast h0
  have hx1 : (x : ℝ) ≤ 65535 := by exact_mod_cast (by omega : x ≤ 65535)
  have hx : (0 : ℝ) < x := by linarith
  obtain ⟨v, hv, g, -⟩ := div_real (x := one) (y := x) (by decide) ⟨by omega, by omega⟩ (by
    have : one.natAbs = 65536 := rfl
    omega)
  unfold one at g
  push_cast at g
  have q1 : (65537 : ℝ) ≤ 65536 * 65536 / x := by rw [le_div_iff₀ hx]; linarith
  have q2 : (65536 * 65536 / x : ℝ) ≤ 1431655766 := by rw [div_le_iff₀ hx]; linarith
  have g' := g
  rw [abs_le] at g
  have v1 : (65536 : ℝ) ≤ v := by linarith [g.1]
  have v2 : (v : ℝ) < 2147483648 := by linarith [g.2]
  refine ⟨v, hv, by exact_mod_cast v1, by exact_mod_cast v2, ?_⟩
  have hn := log_near (p := (v : ℝ) / 65536) (q := ((x : ℝ) / 65536)⁻¹) (τ := 1 / 131072) (by positivity) (by
    have e : (v : ℝ) / 65536 - ((x : ℝ) / 65536)⁻¹ = (v - 65536 * 65536 / x) / 65536 := by
      rw [inv_div]; ring
    have e2 : 1 ≤ ((x : ℝ) / 65536)⁻¹ := by
      rw [inv_div, le_div_iff₀ hx]; linarith
    rw [e, abs_div, abs_of_pos (by norm_num : (0 : ℝ) < 65536), div_le_iff₀ (by norm_num)]
    linarith) (by norm_num)
  rw [Real.log_inv, sub_neg_eq_add] at hn
  refine hn.trans ?_
  norm_num

/-- **C130, partial.** For every positive argument but the raw value 2, `log2` is defined and within
`6.4e-5` of the binary logarithm. Missing: the raw value 2 (`C130_false`). -/
theorem C130_log2_partial (x : Int) (h0 : 0 < x) (h1 : x < 2147483648) (h2 : x ≠ 2) :
    ∃ r : Int, log2 x = .ok r ∧ |(r : ℝ) / 65536 - Real.logb 2 ((x : ℝ) / 65536)| ≤ 6.4e-5 := by
  have l1 := Real.log_two_gt_d9
  have lp : 0 < Real.log 2 := by norm_num at l1; linarith
  have key : ∀ r : Int, |(r : ℝ) / 65536 * Real.log 2 - Real.log ((x : ℝ) / 65536)| ≤ 4.42e-5 →
      |(r : ℝ) / 65536 - Real.logb 2 ((x : ℝ) / 65536)| ≤ 6.4e-5 := by
    intro r hr
    rw [Real.logb]
    have e : (r : ℝ) / 65536 - Real.log ((x : ℝ) / 65536) / Real.log 2 =
        ((r : ℝ) / 65536 * Real.log 2 - Real.log ((x : ℝ) / 65536)) / Real.log 2 := by
      rw [sub_div, mul_div_cancel_right₀ _ lp.ne']
    rw [e, abs_div, abs_of_pos lp, div_le_iff₀ lp]
    refine hr.trans ?_
    norm_num at l1 ⊢
    linarith
  rcases le_or_gt 65536 x with hx | hx
  · obtain ⟨r, hr, r0, r1, g⟩ := log2i_spec hx h1
    refine ⟨r, ?_, key r (g.trans (by norm_num))⟩
    unfold log2 saturation one
    rw [if_pos h0, if_neg (by omega), hr, Out.bind_ok]
    rfl
  · rcases eq_or_ne x 1 with rfl | hx1
    · refine ⟨-1048576, by decide, ?_⟩
      have : Real.log (((1 : Int) : ℝ) / 65536) = -(16 * Real.log 2) := by
        rw [Int.cast_one, Real.log_div one_ne_zero (by norm_num), Real.log_one, show (65536 : ℝ) = 2 ^ 16 by norm_num,
          Real.log_pow]
        norm_num
      apply key
      rw [this]
      norm_num
    · obtain ⟨v, hv, v1, v2, gv⟩ := inv_spec (x := x) (by omega) hx
      obtain ⟨r, hr, r0, r1, g⟩ := log2i_spec v1 v2
      refine ⟨-r, ?_, key (-r) ?_⟩
      · unfold log2 saturation one
        unfold one at hv
        rw [if_pos h0, if_pos hx, if_neg (by omega), hv, Out.bind_ok, hr, Out.bind_ok, chk_ok (by omega), Out.bind_ok]
        rfl
      · push_cast
        rw [abs_le] at *
        norm_num at g gv ⊢
        constructor <;> linarith [g.1, g.2, gv.1, gv.2]

example : log2 524288 = .ok 196608 ∧ log2 655360 = .ok 217706 ∧ log2 3 = .ok (-944705) := by decide +kernel

/-- The raw value 2 is `2^-15`: the logarithm is -15, and 0 is returned. -/
theorem C130_false : log2 2 = .ok 0 := by decide +kernel

/-- **C130.** No logarithm exists for the other arguments; the overflow value says so. -/
theorem C130_nonpositive (x : Int) (h : x ≤ 0) : log2 x = .ok overflow := by
  unfold log2 saturation
  rw [if_neg (by omega)]
  rfl

/-- **C130.** Powers of two have exact logarithms. -/
theorem C130_powers (k : Nat) (h : k < 31) (h1 : k ≠ 1) : log2 (2 ^ k) = .ok (((k : Int) - 16) * 65536) := by
  interval_cases k <;> first | decide +kernel | exact absurd rfl h1

end Verif.Fp16
