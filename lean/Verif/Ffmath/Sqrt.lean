import Verif.Ffmath.FloatLemmas
import Verif.F32.Error
import Mathlib.Analysis.SpecialFunctions.Pow.Real
import Mathlib.Analysis.SpecialFunctions.Sqrt

/-!
# Accuracy of `sqrt` (C76)

IEEE binary32 arithmetic: a seed from the bit pattern and two Newton steps.
-/

namespace Verif.Ffmath

open Verif F32

/-- A pattern given by its number, without sign. -/
theorem nat_spec {b : BitVec 32} {m : Nat} (h : b.toNat = m) (hm : m < 2139095040) :
    Finite b ∧ val b = mval m := by
  obtain ⟨h1, h2⟩ := neg_mag_of_toNat (b := b) (s := false) (m := m) (by omega) (by simpa using h)
  refine ⟨(finite_iff b).2 (by omega), ?_⟩
  rw [val_eq, h1, h2]; rfl

theorem sq_pow {a b c : ℤ} (h : 2 * a + c = b) : (2 : ℚ) ^ a * 2 ^ a = 2 ^ b / 2 ^ c := by
  rw [eq_div_iff (two_zpow_pos c).ne', ← zpow_add₀ (by norm_num), ← zpow_add₀ (by norm_num)]
  congr 1; omega

theorem mul_form_le {a b c d p : ℚ} (hp : 0 < p) (h : a * b ≤ c / d) : a * (b * p) ≤ c * (p / d) := by
  rw [show a * (b * p) = a * b * p by ring, show c * (p / d) = c / d * p by ring]
  exact mul_le_mul_of_nonneg_right h hp.le

theorem mul_form_ge {a b c d p : ℚ} (hp : 0 < p) (h : c / d ≤ a * b) : c * (p / d) ≤ a * (b * p) := by
  rw [show a * (b * p) = a * b * p by ring, show c * (p / d) = c / d * p by ring]
  exact mul_le_mul_of_nonneg_right h hp.le

/-- The seed of `sqrt`: its square exceeds `x` by at most one eighth. -/
theorem sqrt_seed {x : BitVec 32} {m : Nat} (hx : x.toNat = m) (h1 : 8388608 ≤ m)
    (h2 : m < 2139095040) :
    let y := ((x - 0x00800000#32) >>> 1) + 0x20000000#32
    Finite y ∧ 0 < val y ∧ (1 - 1 / 4194304) * val x ≤ val y ^ 2 ∧ val y ^ 2 ≤ 9 / 8 * val x := by
  intro y
  have hy : y.toNat = (m - 8388608) / 2 + 536870912 := by
    show (((x - 0x00800000#32) >>> 1) + 0x20000000#32).toNat = _
    rw [BitVec.toNat_add, BitVec.toNat_ushiftRight, BitVec.toNat_sub, hx, Nat.shiftRight_eq_div_pow]
    simp only [BitVec.toNat_ofNat]
    omega
  clear_value y
  obtain ⟨fy, vy⟩ := nat_spec hy (by omega)
  obtain ⟨fx, vx⟩ := nat_spec hx h2
  obtain ⟨E, F, hE, hF, rfl⟩ : ∃ E F, 1 ≤ E ∧ F < 8388608 ∧ m = E * 8388608 + F :=
    ⟨m / 8388608, m % 8388608, by omega, Nat.mod_lt _ (by norm_num), by omega⟩
  rw [mval_lin hE hF.le] at vx
  refine ⟨fy, ?_⟩
  rw [vx, vy]
  clear vx vy hx hy h1 h2 fx fy
  rcases Nat.even_or_odd' E with ⟨j, hj | hj⟩
  · -- even biased exponent
    have e1 : (E * 8388608 + F - 8388608) / 2 + 536870912 =
        (j + 63) * 8388608 + (8388608 + F) / 2 := by omega
    rw [e1, mval_lin (by omega) (by omega)]
    generalize hh : (8388608 + F) / 2 = h
    have l1 := (Nat.cast_le (α := ℚ)).2 (by omega : 8388608 + F ≤ 2 * h + 1)
    have l2 := (Nat.cast_le (α := ℚ)).2 (by omega : 2 * h ≤ 8388608 + F)
    have f0 : (0 : ℚ) ≤ F := Nat.cast_nonneg F
    have f1 := (Nat.cast_le (α := ℚ)).2 hF.le
    have p : (2 : ℚ) ^ ((j + 63 : ℕ) - 150 : ℤ) * 2 ^ ((j + 63 : ℕ) - 150 : ℤ) =
        2 ^ ((E : ℤ) - 150) / 16777216 := by
      rw [sq_pow (b := (E : ℤ) - 150) (c := 24) (by rw [hj]; push_cast; ring)]
      norm_num
    have pp := two_zpow_pos ((E : ℤ) - 150)
    push_cast at l1 l2 f1 ⊢
    refine ⟨mul_pos (by linarith [Nat.cast_nonneg (α := ℚ) h]) (two_zpow_pos _), ?_, ?_⟩
    · rw [mul_pow, sq (2 ^ _ : ℚ)]
      push_cast at p
      rw [p]
      refine mul_form_le pp ?_
      nlinarith
    · rw [mul_pow, sq (2 ^ _ : ℚ)]
      push_cast at p
      rw [p]
      refine mul_form_ge pp ?_
      nlinarith
  · have e1 : (E * 8388608 + F - 8388608) / 2 + 536870912 = (j + 64) * 8388608 + F / 2 := by omega
    rw [e1, mval_lin (by omega) (by omega)]
    generalize hh : F / 2 = h
    have l1 := (Nat.cast_le (α := ℚ)).2 (by omega : F ≤ 2 * h + 1)
    have l2 := (Nat.cast_le (α := ℚ)).2 (by omega : 2 * h ≤ F)
    have f0 : (0 : ℚ) ≤ F := Nat.cast_nonneg F
    have h0 : (0 : ℚ) ≤ h := Nat.cast_nonneg h
    have f1 := (Nat.cast_le (α := ℚ)).2 hF.le
    have p : (2 : ℚ) ^ ((j + 64 : ℕ) - 150 : ℤ) * 2 ^ ((j + 64 : ℕ) - 150 : ℤ) =
        2 ^ ((E : ℤ) - 150) / 8388608 := by
      rw [sq_pow (b := (E : ℤ) - 150) (c := 23) (by rw [hj]; push_cast; ring)]
      norm_num
    have pp := two_zpow_pos ((E : ℤ) - 150)
    push_cast at l1 l2 f1 ⊢
    refine ⟨mul_pos (by linarith [Nat.cast_nonneg (α := ℚ) h]) (two_zpow_pos _), ?_, ?_⟩
    · rw [mul_pow, sq (2 ^ _ : ℚ)]
      push_cast at p
      rw [p]
      refine mul_form_le pp ?_
      nlinarith
    · rw [mul_pow, sq (2 ^ _ : ℚ)]
      push_cast at p
      rw [p]
      refine mul_form_ge pp ?_
      nlinarith

/-- One rounded Newton step: `w ≈ (x / z + z) / 2`. -/
theorem newton_step {x z : BitVec 32} (fx : Finite x) (fz : Finite z) (hx : 2 ^ (-126 : ℤ) ≤ val x)
    (hz : 0 < val z) (h1 : val x / 2 ≤ val z ^ 2) (h2 : val z ^ 2 ≤ 2 * val x) :
    let w := mul (lit 0.5) (add (div x z) z)
    Finite w ∧ (val x / val z + val z) / 2 * (1 - 1 / 16777216) ^ 2 ≤ val w ∧
      val w ≤ (val x / val z + val z) / 2 * (1 + 1 / 16777216) ^ 2 := by
  simp only
  have hx0 : 0 < val x := lt_of_lt_of_le (two_zpow_pos _) hx
  have hxu := fx.abs_lt
  rw [abs_of_pos hx0] at hxu
  have z1 : 2 ^ (-64 : ℤ) ≤ val z := by
    by_contra h
    have : val z ^ 2 < (2 ^ (-64 : ℤ)) ^ 2 := by
      apply pow_lt_pow_left₀ (not_le.1 h) hz.le (by norm_num)
    have e : ((2 : ℚ) ^ (-64 : ℤ)) ^ 2 = 2 ^ (-126 : ℤ) / 4 := by norm_num
    rw [e] at this
    generalize (2 : ℚ) ^ (-126 : ℤ) = p at *
    linarith
  have z2 : val z ≤ 2 ^ (65 : ℤ) := by
    by_contra h
    have : (2 ^ (65 : ℤ)) ^ 2 < val z ^ 2 := by
      apply pow_lt_pow_left₀ (not_le.1 h) (by norm_num) (by norm_num)
    have e : ((2 : ℚ) ^ (65 : ℤ)) ^ 2 = 2 ^ (128 : ℤ) * 4 := by norm_num
    rw [e] at this
    generalize (2 : ℚ) ^ (128 : ℤ) = p at *
    linarith
  have q1 : val z / 2 ≤ val x / val z := by
    rw [le_div_iff₀ hz]; nlinarith
  have q2 : val x / val z ≤ 2 * val z := by
    rw [div_le_iff₀ hz]; nlinarith
  have q0 : 0 < val x / val z := div_pos hx0 hz
  obtain ⟨fq, eq⟩ := rnd_rel (s := neg x ^^ neg z) (q := val x / val z)
    (by
      rw [abs_of_pos q0]
      have : (2 : ℚ) ^ (-126 : ℤ) ≤ 2 ^ (-64 : ℤ) / 2 := by norm_num
      exact this.trans (le_trans (by gcongr) q1))
    (by
      rw [abs_of_pos q0]
      have : 2 * (2 : ℚ) ^ (65 : ℤ) ≤ 2 ^ (127 : ℤ) := by norm_num
      exact le_trans (q2.trans (by gcongr)) this)
  rw [← div_fin fx fz hz.ne'] at fq eq
  generalize div x z = q at *
  rw [abs_of_pos q0, _root_.abs_le] at eq
  obtain ⟨a1, a2⟩ := eq
  have s0 : val q + val z = |val q + val z| := by
    rw [abs_of_pos]; linarith
  have sl : val z ≤ val q + val z := by linarith
  have su : val q + val z ≤ 4 * val z := by linarith
  obtain ⟨fs, es⟩ := rnd_rel (s := neg q && neg z) (q := val q + val z)
    (by
      rw [← s0]
      have : (2 : ℚ) ^ (-126 : ℤ) ≤ 2 ^ (-64 : ℤ) := by norm_num
      exact this.trans (z1.trans sl))
    (by
      rw [← s0]
      have : 4 * (2 : ℚ) ^ (65 : ℤ) ≤ 2 ^ (127 : ℤ) := by norm_num
      exact le_trans (su.trans (by gcongr)) this)
  rw [← add_fin fq fz] at fs es
  rw [← s0, _root_.abs_le] at es
  obtain ⟨b1, b2⟩ := es
  generalize add q z = s at *
  have s1 : val z / 2 ≤ val s := by linarith
  obtain ⟨fw, vw⟩ := half_exact fs (by
    have : (2 : ℚ) ^ (-125 : ℤ) ≤ 2 ^ (-64 : ℤ) / 2 := by norm_num
    rw [abs_of_pos (by linarith)]
    exact this.trans (le_trans (by gcongr) s1))
  refine ⟨fw, ?_, ?_⟩ <;> rw [vw] <;> nlinarith

/-- The square of the exact Newton step. -/
theorem newton_sq {x z t : ℚ} (hx : 0 < x) (hz : 0 < z) (ht : z ^ 2 = t * x) :
    ((x / z + z) / 2) ^ 2 = x * (1 + (t - 1) ^ 2 / (4 * t)) := by
  have ht0 : 0 < t := by
    by_contra h
    have : 0 < z ^ 2 := by positivity
    nlinarith
  have hz' : z ≠ 0 := hz.ne'
  field_simp
  rw [ht]; ring

/-- Rational form of the accuracy of `sqrt`. -/
theorem sqrt_sq {x : BitVec 32} (hx : Finite x) (h : 2 ^ (-126 : ℤ) ≤ val x) :
    Finite (sqrt x) ∧ 0 < val (sqrt x) ∧ (1 - 0.0000003) * val x ≤ val (sqrt x) ^ 2 ∧
      val (sqrt x) ^ 2 ≤ (1 + 0.0000033) * val x := by
  have hx0 : 0 < val x := lt_of_lt_of_le (two_zpow_pos _) h
  have hneg : neg x = false := by
    by_contra hn
    have hn : neg x = true := by simpa using hn
    rw [val_eq, hn] at hx0
    have := mval_nonneg (mag x)
    simp only [if_true] at hx0
    linarith
  have hN : x.toNat = mag x := by rw [toNat_eq, hneg]; simp
  have hm2 := (finite_iff x).1 hx
  have hm1 : 8388608 ≤ mag x := by
    rw [← mval_le_iff, ← abs_val, abs_of_pos hx0]
    have : mval 8388608 = 2 ^ (-126 : ℤ) := by
      rw [mval_sub (by norm_num)]; norm_num
    rw [this]; exact h
  obtain ⟨fy, y0, y1, y2⟩ := sqrt_seed hN hm1 hm2
  unfold sqrt
  rw [if_neg (by rw [lt_fin hx fin_zero, val_zero]; simpa using hx0.le),
    if_neg (by rw [classify_zero']; exact hx0.ne')]
  simp only
  generalize ((x - 0x00800000#32) >>> 1) + 0x20000000#32 = y at *
  -- the first step
  obtain ⟨fz, z1, z2⟩ := newton_step hx fy h y0 (by linarith) (by linarith)
  generalize mul (lit 0.5) (add (div x y) y) = z at *
  obtain ⟨t, ht⟩ : ∃ t, val y ^ 2 = t * val x := ⟨val y ^ 2 / val x, by field_simp⟩
  have t1 : 1 - 1 / 4194304 ≤ t := by
    rw [ht] at y1; exact le_of_mul_le_mul_right y1 hx0
  have t2 : t ≤ 9 / 8 := by
    rw [ht] at y2; exact le_of_mul_le_mul_right y2 hx0
  have hsq := newton_sq hx0 y0 ht
  have hb : (t - 1) ^ 2 / (4 * t) ≤ 0.003473 := by
    rw [div_le_iff₀ (by linarith)]
    nlinarith
  have hb0 : 0 ≤ (t - 1) ^ 2 / (4 * t) := by apply div_nonneg (sq_nonneg _); linarith
  have n0 : 0 < (val x / val y + val y) / 2 := by positivity
  generalize (val x / val y + val y) / 2 = n at *
  generalize (t - 1) ^ 2 / (4 * t) = d at *
  have z0 : 0 < val z := lt_of_lt_of_le (by positivity) z1
  have w1 : (1 - 0.0000003) * val x ≤ val z ^ 2 := by
    have := pow_le_pow_left₀ (by positivity) z1 2
    refine le_trans ?_ this
    rw [mul_pow, hsq]
    nlinarith
  have w2 : val z ^ 2 ≤ 1.003474 * val x := by
    have := pow_le_pow_left₀ z0.le z2 2
    refine this.trans ?_
    rw [mul_pow, hsq]
    nlinarith
  -- the second step
  clear hsq hb hb0 n0 z1 z2 ht t1 t2 y1 y2
  obtain ⟨fw, r1, r2⟩ := newton_step hx fz h z0 (by linarith) (by linarith)
  generalize mul (lit 0.5) (add (div x z) z) = w at *
  obtain ⟨t, ht⟩ : ∃ t, val z ^ 2 = t * val x := ⟨val z ^ 2 / val x, by field_simp⟩
  have t1 : 1 - 0.0000003 ≤ t := by
    rw [ht] at w1; exact le_of_mul_le_mul_right w1 hx0
  have t2 : t ≤ 1.003474 := by
    rw [ht] at w2; exact le_of_mul_le_mul_right w2 hx0
  have hsq := newton_sq hx0 z0 ht
  have hb : (t - 1) ^ 2 / (4 * t) ≤ 0.00000301 := by
    rw [div_le_iff₀ (by linarith)]
    nlinarith
  have hb0 : 0 ≤ (t - 1) ^ 2 / (4 * t) := by apply div_nonneg (sq_nonneg _); linarith
  have n0 : 0 < (val x / val z + val z) / 2 := by positivity
  generalize (val x / val z + val z) / 2 = n at *
  generalize (t - 1) ^ 2 / (4 * t) = d at *
  have z0 : 0 < val w := lt_of_lt_of_le (by positivity) r1
  refine ⟨fw, z0, ?_, ?_⟩
  · have := pow_le_pow_left₀ (by positivity) r1 2
    refine le_trans ?_ this
    rw [mul_pow, hsq]
    nlinarith
  · have := pow_le_pow_left₀ z0.le r2 2
    refine this.trans ?_
    rw [mul_pow, hsq]
    nlinarith

/-- **C76** (part) For every normal positive float the result is finite and within a relative error of
`1.7e-6` of the square root. -/
theorem C76_accuracy_partial (x : BitVec 32) (hx : Finite x) (h : 2 ^ (-126 : ℤ) ≤ val x) :
    Finite (sqrt x) ∧
      |(val (sqrt x) : ℝ) - Real.sqrt (val x)| ≤ 0.0000017 * Real.sqrt (val x) := by
  obtain ⟨f, p, l, u⟩ := sqrt_sq hx h
  have hx0 : 0 < val x := lt_of_lt_of_le (two_zpow_pos _) h
  refine ⟨f, ?_⟩
  have hs := Real.sq_sqrt (show (0 : ℝ) ≤ (val x : ℝ) by exact_mod_cast hx0.le)
  have hs0 := Real.sqrt_nonneg (val x : ℝ)
  have p' : (0 : ℝ) < val (sqrt x) := by exact_mod_cast p
  have l' : ((1 - 0.0000003 : ℚ) : ℝ) * (val x : ℝ) ≤ (val (sqrt x) : ℝ) ^ 2 := by exact_mod_cast l
  have u' : (val (sqrt x) : ℝ) ^ 2 ≤ ((1 + 0.0000033 : ℚ) : ℝ) * (val x : ℝ) := by exact_mod_cast u
  rw [← hs] at l' u'
  generalize (val (sqrt x) : ℝ) = r at *
  generalize Real.sqrt (val x : ℝ) = s at *
  have : r ≤ (1 + 0.0000017) * s := by
    refine (fun h p => (pow_le_pow_iff_left₀ (by positivity) p (by norm_num : (2:ℕ) ≠ 0)).1 h) ?_ (by positivity)
    push_cast at u'
    nlinarith
  have : (1 - 0.0000017) * s ≤ r := by
    refine (fun h p => (pow_le_pow_iff_left₀ (by positivity) p (by norm_num : (2:ℕ) ≠ 0)).1 h) ?_ p'.le
    push_cast at l'
    nlinarith
  rw [_root_.abs_le]
  constructor <;> linarith

/-- **C76** Negative arguments (and minus infinity) give a NaN, both zeros give zero. -/
theorem C76_special (x : BitVec 32) :
    (F32.lt x (lit 0) = true → IsNaN (sqrt x)) ∧ (val x = 0 → Finite x → sqrt x = lit 0) := by
  constructor
  · intro h
    unfold sqrt
    rw [if_pos h]; decide
  · intro h f
    unfold sqrt
    rw [if_neg (by rw [lt_fin f fin_zero, val_zero, h]; simp), if_pos ((classify_zero' x).2 h)]

theorem div_nan_left {a b : BitVec 32} (h : IsNaN a) : IsNaN (div a b) := by
  unfold div; rw [if_pos (.inl h)]; decide

/-- **C76** A NaN is propagated. -/
theorem C76_nan (x : BitVec 32) (h : IsNaN x) : IsNaN (sqrt x) := by
  unfold sqrt
  rw [if_neg (by unfold lt; simp [h]), if_neg (by
    rw [classify_zero]
    intro hm
    rw [nan_iff, hm] at h
    omega)]
  exact mul_nan_right (add_nan_left (div_nan_left h))

/-- A Newton step from a negative seed with a tiny positive argument stays negative. -/
theorem newton_neg {x z : BitVec 32} (fx : Finite x) (fz : Finite z) (hx0 : 0 ≤ val x)
    (hx : val x ≤ 2 ^ (-126 : ℤ)) (hz1 : val z ≤ -2 ^ (-70 : ℤ)) (hz2 : -2 ^ (0 : ℤ) ≤ val z) :
    let w := mul (lit 0.5) (add (div x z) z)
    Finite w ∧ val w ≤ val z / 2 ∧ -2 ^ (0 : ℤ) ≤ val w := by
  simp only
  have hp : (0 : ℚ) < 2 ^ (-70 : ℤ) := two_zpow_pos _
  have z0 : val z < 0 := by linarith
  have e1 : Finite (lit 0) ∧ val (lit 0) = 0 := ⟨fin_zero, val_zero⟩
  have e2 : Finite (lit (-1)) ∧ val (lit (-1)) = -1 := by decide +kernel
  have q2 : val x / val z ≤ 0 := div_nonpos_of_nonneg_of_nonpos hx0 z0.le
  have q1 : -1 ≤ val x / val z := by
    rw [le_div_iff_of_neg z0]
    have : (2 : ℚ) ^ (-126 : ℤ) ≤ 2 ^ (-70 : ℤ) := by norm_num
    generalize (2 : ℚ) ^ (-126 : ℤ) = p at *
    generalize (2 : ℚ) ^ (-70 : ℤ) = p at *
    linarith
  obtain ⟨fq, a1, a2⟩ := div_btw fx fz z0.ne e2.1 e1.1 (by rw [e2.2]; exact q1) (by rw [e1.2]; exact q2)
  generalize div x z = q at *
  have e3 : Finite (lit (-2)) ∧ val (lit (-2)) = -2 := by decide +kernel
  have hz2' : -1 ≤ val z := by simpa using hz2
  obtain ⟨fs, b1, b2⟩ := add_btw fq fz e3.1 fz (by rw [e3.2]; linarith) (by linarith)
  generalize add q z = s at *
  obtain ⟨fw, vw⟩ := half_exact fs (by
    rw [abs_of_neg (by linarith)]
    have : (2 : ℚ) ^ (-125 : ℤ) ≤ 2 ^ (-70 : ℤ) := by norm_num
    generalize (2 : ℚ) ^ (-125 : ℤ) = p at *
    generalize (2 : ℚ) ^ (-70 : ℤ) = p at *
    linarith)
  refine ⟨fw, ?_, ?_⟩ <;> rw [vw]
  · linarith
  · norm_num; linarith

/-- **C76** is false for subnormal numbers: the root of every subnormal number is negative. -/
theorem C76_subnormal_false (x : BitVec 32) (h1 : 1 ≤ x.toNat) (h2 : x.toNat < 8388608) :
    Finite x ∧ 0 < val x ∧ Finite (sqrt x) ∧ val (sqrt x) < 0 := by
  obtain ⟨fx, vx⟩ := nat_spec (rfl : x.toNat = _) (by omega)
  have x0 : 0 < val x := by rw [vx, ← mval_zero, mval_lt_iff]; omega
  have xu : val x ≤ 2 ^ (-126 : ℤ) := by
    have : mval 8388608 = 2 ^ (-126 : ℤ) := by rw [mval_sub (by norm_num)]; norm_num
    rw [vx, ← this, mval_le_iff]; omega
  refine ⟨fx, x0, ?_⟩
  unfold sqrt
  rw [if_neg (by rw [lt_fin fx fin_zero, val_zero]; simpa using x0.le),
    if_neg (by rw [classify_zero']; exact x0.ne')]
  simp only
  have hy : (((x - 0x00800000#32) >>> 1) + 0x20000000#32).toNat =
      2147483648 + (532676608 + x.toNat / 2) := by
    rw [BitVec.toNat_add, BitVec.toNat_ushiftRight, BitVec.toNat_sub, Nat.shiftRight_eq_div_pow]
    simp only [BitVec.toNat_ofNat]
    omega
  obtain ⟨n1, n2⟩ := neg_mag_of_toNat (s := true) (by omega) hy
  generalize ((x - 0x00800000#32) >>> 1) + 0x20000000#32 = y at *
  have fy : Finite y := (finite_iff y).2 (by omega)
  have vy : val y = -mval (mag y) := by rw [val_eq, n1]; rfl
  have c1 : mval 532676608 = 3 * 2 ^ (-65 : ℤ) := by decide +kernel
  have c2 : mval 536870912 = 2 ^ (-63 : ℤ) := by decide +kernel
  have y1 : val y ≤ -(3 * 2 ^ (-65 : ℤ)) := by rw [vy, ← c1, n2, neg_le_neg_iff, mval_le_iff]; omega
  have y2 : -2 ^ (-63 : ℤ) ≤ val y := by rw [vy, ← c2, n2, neg_le_neg_iff, mval_le_iff]; omega
  obtain ⟨fz, z1, z2⟩ := newton_neg fx fy x0.le xu (y1.trans (by norm_num)) (le_trans (by norm_num) y2)
  obtain ⟨fw, w1, w2⟩ := newton_neg fx fz x0.le xu (z1.trans (le_trans (div_le_div_of_nonneg_right y1 (by norm_num))
      (by norm_num : -(3 * 2 ^ (-65 : ℤ)) / 2 ≤ -(2 : ℚ) ^ (-70 : ℤ)))) z2
  refine ⟨fw, ?_⟩
  have : (0 : ℚ) < 3 * 2 ^ (-65 : ℤ) := by positivity
  linarith

/-- **C76** is false for infinity, whose root is a NaN. -/
theorem C76_inf_false : IsNaN (sqrt inf) ∧ IsInf inf := by decide +kernel

example : Finite (lit 2) ∧ 2 ^ (-126 : ℤ) ≤ val (lit 2) ∧ sqrt (lit 2) = 1068827909#32 := by decide +kernel
example : sqrt 0x00400000#32 = 2679443636#32 := by decide +kernel

end Verif.Ffmath
