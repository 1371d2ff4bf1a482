import Verif.Ffmath.Sqrt
import Verif.F32.Poly

/-!
# Accuracy of `recip` and `rSqrt` (C77)

IEEE binary32 arithmetic: a seed from the bit pattern and one Newton step.
-/

namespace Verif.Ffmath

open Verif F32

/-- The seed of `recip` times `x` is within `0.0506` of one. -/
theorem recip_seed {m : Nat} (h1 : 8388608 ≤ m) (h2 : m < 2105540608) :
    |mval m * mval (2129859015 - m) - 1| ≤ 0.0506 := by
  obtain ⟨E, F, hE, hF, rfl⟩ : ∃ E F, 1 ≤ E ∧ F < 8388608 ∧ m = E * 8388608 + F :=
    ⟨m / 8388608, m % 8388608, by omega, Nat.mod_lt _ (by norm_num), by omega⟩
  rw [mval_lin hE hF.le]
  have f0 : (0 : ℚ) ≤ F := Nat.cast_nonneg F
  have f1 := (Nat.cast_le (α := ℚ)).2 hF.le
  push_cast at f1
  rcases le_or_gt F 7541191 with hc | hc
  · rw [show 2129859015 - (E * 8388608 + F) = (253 - E) * 8388608 + (7541191 - F) by omega,
      mval_lin (by omega) (by omega)]
    have p : (2 : ℚ) ^ ((E : ℤ) - 150) * 2 ^ (((253 - E : ℕ) : ℤ) - 150) = 1 / 140737488355328 := by
      rw [← zpow_add₀ (by norm_num), show (E : ℤ) - 150 + (((253 - E : ℕ) : ℤ) - 150) = -47 by omega]
      norm_num
    rw [show ∀ a b c d : ℚ, a * b * (c * d) = a * c * (b * d) by intros; ring, p]
    rw [show 8388608 + (7541191 - F) = 15929799 - F by omega, Nat.cast_sub (by omega)]
    have hc' := (Nat.cast_le (α := ℚ)).2 hc
    push_cast at hc' ⊢
    rw [_root_.abs_le]
    constructor <;> nlinarith [sq_nonneg ((F : ℚ) - 3770595.5)]
  · rw [show 2129859015 - (E * 8388608 + F) = (252 - E) * 8388608 + (15929799 - F) by omega,
      mval_lin (by omega) (by omega)]
    have p : (2 : ℚ) ^ ((E : ℤ) - 150) * 2 ^ (((252 - E : ℕ) : ℤ) - 150) = 1 / 281474976710656 := by
      rw [← zpow_add₀ (by norm_num), show (E : ℤ) - 150 + (((252 - E : ℕ) : ℤ) - 150) = -48 by omega]
      norm_num
    rw [show ∀ a b c d : ℚ, a * b * (c * d) = a * c * (b * d) by intros; ring, p]
    rw [show 8388608 + (15929799 - F) = 24318407 - F by omega, Nat.cast_sub (by omega)]
    have hc' := (Nat.cast_le (α := ℚ)).2 hc.le
    push_cast at hc' ⊢
    rw [_root_.abs_le]
    constructor <;> nlinarith [sq_nonneg ((F : ℚ) - 7964899.5)]

/-- **C77** (part) `recip(x)` is within `0.26 %` of `1/x` for all normal `x` up to `2^124`. -/
theorem C77_recip_partial (x : BitVec 32) (hx : Finite x) (h1 : 2 ^ (-126 : ℤ) ≤ |val x|)
    (h2 : |val x| < 2 ^ (124 : ℤ)) :
    Finite (recip x) ∧ |val (recip x) * val x - 1| ≤ 0.0026 := by
  have hm1 : 8388608 ≤ mag x := by
    rw [← mval_le_iff, ← abs_val]
    have : mval 8388608 = 2 ^ (-126 : ℤ) := by
      rw [mval_sub (by norm_num)]; norm_num
    rw [this]; exact h1
  have hm2 : mag x < 2105540608 := by
    rw [← mval_lt_iff, ← abs_val]
    have : mval 2105540608 = 2 ^ (124 : ℤ) := by decide +kernel
    rw [this]; exact h2
  have hs := recip_seed hm1 hm2
  have hN : (0x7EF311C7#32 - x).toNat = (if neg x then 2147483648 else 0) + (2129859015 - mag x) := by
    have e := toNat_eq x
    have := x.isLt
    rw [BitVec.toNat_sub]
    simp only [BitVec.toNat_ofNat]
    by_cases hn : neg x <;> simp only [hn, if_true] at e ⊢ <;> simp at e ⊢ <;> omega
  obtain ⟨n1, n2⟩ := neg_mag_of_toNat (by omega) hN
  unfold recip
  simp only
  generalize 0x7EF311C7#32 - x = z at *
  have fz : Finite z := (finite_iff z).2 (by omega)
  have hs' : val x * val z = mval (mag x) * mval (2129859015 - mag x) := by
    rw [val_eq, val_eq z, n1, n2]
    by_cases hn : neg x <;> simp [hn]
  rw [← hs', _root_.abs_le] at hs
  obtain ⟨s1, s2⟩ := hs
  have hz1 : 2 ^ (-125 : ℤ) ≤ |val z| := by
    rw [abs_val, n2]
    have : mval 16777216 = 2 ^ (-125 : ℤ) := by decide +kernel
    rw [← this, mval_le_iff]; omega
  have hz2 : |val z| ≤ 2 ^ (126 : ℤ) := by
    rw [abs_val, n2]
    have : mval 2122317824 = 2 ^ (126 : ℤ) := by decide +kernel
    rw [← this, mval_le_iff]; omega
  have hz1 : 2.3e-38 ≤ |val z| := le_trans (by norm_num) hz1
  have hz2 : |val z| ≤ 8.6e37 := hz2.trans (by norm_num)
  obtain ⟨fw, a, ha, vw⟩ := mul_eps hx fz (by rw [abs_of_pos (by linarith)]; linarith)
    (by rw [abs_of_pos (by linarith)]; linarith)
  generalize mul x z = w at *
  obtain ⟨s, hsd⟩ : ∃ s, val x * val z = s := ⟨_, rfl⟩
  rw [hsd] at s1 s2 vw
  obtain ⟨a1, a2⟩ := _root_.abs_le.1 ha
  have w1 : 0.9 ≤ val w := by rw [vw]; nlinarith
  have w2 : val w ≤ 1.1 := by rw [vw]; nlinarith
  obtain ⟨fd, b, hb, vd⟩ := sub_eps fin_two fw (by rw [val_two, abs_of_pos (by linarith)]; linarith)
    (by rw [val_two, abs_of_pos (by linarith)]; linarith)
  generalize sub (lit 2) w = d at *
  obtain ⟨b1, b2⟩ := _root_.abs_le.1 hb
  rw [val_two] at vd
  have d1 : 0.8 ≤ val d := by rw [vd]; nlinarith
  have d2 : val d ≤ 1.2 := by rw [vd]; nlinarith
  obtain ⟨fr, c, hc, vr⟩ := mul_eps fz fd
    (by
      rw [abs_mul, abs_of_pos (by linarith : (0 : ℚ) < val d)]
      nlinarith)
    (by
      rw [abs_mul, abs_of_pos (by linarith : (0 : ℚ) < val d)]
      nlinarith)
  refine ⟨fr, ?_⟩
  rw [show val (mul z d) * val x = (val x * val z) * val d * (1 + c) by rw [vr]; ring, hsd, vd, vw]
  obtain ⟨e, he, hbc⟩ := eps_comb hb hc
  have e1 : |s * ((2 - s * (1 + a)) * (1 + b)) * (1 + c) - s * (2 - s)| ≤ 0.000001 := by
    rw [show s * ((2 - s * (1 + a)) * (1 + b)) * (1 + c) - s * (2 - s) =
      s * (2 - s) * e - s * s * a * ((1 + b) * (1 + c)) by
        rw [show s * ((2 - s * (1 + a)) * (1 + b)) * (1 + c) =
          s * (2 - s * (1 + a)) * ((1 + b) * (1 + c)) by ring, hbc]; ring, hbc]
    have S : |s| ≤ 1.06 := by rw [_root_.abs_le]; constructor <;> linarith
    have T : |2 - s| ≤ 1.06 := by rw [_root_.abs_le]; constructor <;> linarith
    refine (abs_sub_le' (abs_mul_le' (abs_mul_le' S T) he) (abs_mul_le' (abs_mul_le' (abs_mul_le' S S) ha)
      (abs_add_le' (le_of_eq abs_one) he))).trans ?_
    norm_num
  rw [_root_.abs_le] at e1 ⊢
  constructor <;> nlinarith

theorem mul_sq_form (a b c d : ℚ) : a * b * (c * d) ^ 2 = a * c ^ 2 * (b * (d * d)) := by ring

/-- The square of the seed of `rSqrt` times `x` is near one. -/
theorem rSqrt_seed {m : Nat} (h1 : 8388608 ≤ m) (h2 : m < 2139095040) :
    |mval m * mval (1597463174 - m / 2) ^ 2 - 1.0008| ≤ 0.069 := by
  obtain ⟨E, F, hE, hF, rfl⟩ : ∃ E F, 1 ≤ E ∧ F < 8388608 ∧ m = E * 8388608 + F :=
    ⟨m / 8388608, m % 8388608, by omega, Nat.mod_lt _ (by norm_num), by omega⟩
  rw [mval_lin hE hF.le]
  obtain ⟨h, r, hr, hF2⟩ : ∃ h r, r < 2 ∧ F = 2 * h + r := ⟨F / 2, F % 2, by omega, by omega⟩
  have r0 : (0 : ℚ) ≤ r := Nat.cast_nonneg r
  have r1 := (Nat.cast_le (α := ℚ)).2 (by omega : r ≤ 1)
  have hq0 : (0 : ℚ) ≤ h := Nat.cast_nonneg h
  rcases Nat.even_or_odd' E with ⟨j, hj | hj⟩
  · rcases le_or_gt h 3627654 with hc | hc
    · rw [show 1597463174 - (E * 8388608 + F) / 2 = (190 - j) * 8388608 + (3627654 - h) by omega,
        mval_lin (by omega) (by omega)]
      have p : (2 : ℚ) ^ ((E : ℤ) - 150) * (2 ^ (((190 - j : ℕ) : ℤ) - 150) *
          2 ^ (((190 - j : ℕ) : ℤ) - 150)) = 1 / 2 ^ 70 := by
        rw [← zpow_add₀ (by norm_num), ← zpow_add₀ (by norm_num),
          show (E : ℤ) - 150 + (((190 - j : ℕ) : ℤ) - 150 + (((190 - j : ℕ) : ℤ) - 150)) = -70 by omega]
        norm_num
      rw [mul_sq_form, p, show 8388608 + (3627654 - h) = 12016262 - h by omega, Nat.cast_sub (by omega), hF2]
      have hc' := (Nat.cast_le (α := ℚ)).2 hc
      have key := pcheckQ (p := padd [-1.0008 * 2 ^ 70] (pmul [8388608, 2] (pmul [12016262, -1] [12016262, -1])))
        (a := 0) (r := 28342) (n := 64) (e := 0.0688 * 2 ^ 70) (by decide +kernel) (by norm_num) h hq0
        (by push_cast at hc' ⊢; linarith)
      simp only [pmul, padd, psmul, List.map_cons, List.map_nil, pevalQ_cons, pevalQ_nil] at key
      push_cast at hc' r1 ⊢
      have hsq : ((12016262 : ℚ) - h) ^ 2 ≤ 12016262 ^ 2 := by nlinarith
      have hsq0 := sq_nonneg ((12016262 : ℚ) - h)
      rw [_root_.abs_le] at key ⊢
      constructor <;> nlinarith
    · rw [show 1597463174 - (E * 8388608 + F) / 2 = (189 - j) * 8388608 + (12016262 - h) by omega,
        mval_lin (by omega) (by omega)]
      have p : (2 : ℚ) ^ ((E : ℤ) - 150) * (2 ^ (((189 - j : ℕ) : ℤ) - 150) *
          2 ^ (((189 - j : ℕ) : ℤ) - 150)) = 1 / 2 ^ 72 := by
        rw [← zpow_add₀ (by norm_num), ← zpow_add₀ (by norm_num),
          show (E : ℤ) - 150 + (((189 - j : ℕ) : ℤ) - 150 + (((189 - j : ℕ) : ℤ) - 150)) = -72 by omega]
        norm_num
      rw [mul_sq_form, p, show 8388608 + (12016262 - h) = 20404870 - h by omega, Nat.cast_sub (by omega), hF2]
      have hc' := (Nat.cast_le (α := ℚ)).2 hc.le
      have hc2 := (Nat.cast_le (α := ℚ)).2 (by omega : h ≤ 4194304)
      have key := pcheckQ (p := padd [-1.0008 * 2 ^ 72] (pmul [8388608, 2] (pmul [20404870, -1] [20404870, -1])))
        (a := 3627654) (r := 35500) (n := 8) (e := 0.0688 * 2 ^ 72) (by decide +kernel) (by norm_num) h
        (by push_cast at hc'; linarith)
        (by push_cast at hc2 ⊢; linarith)
      simp only [pmul, padd, psmul, List.map_cons, List.map_nil, pevalQ_cons, pevalQ_nil] at key
      push_cast at hc' hc2 r1 ⊢
      have hsq : ((20404870 : ℚ) - h) ^ 2 ≤ 20404870 ^ 2 := by nlinarith
      have hsq0 := sq_nonneg ((20404870 : ℚ) - h)
      rw [_root_.abs_le] at key ⊢
      constructor <;> nlinarith
  · rw [show 1597463174 - (E * 8388608 + F) / 2 = (189 - j) * 8388608 + (7821958 - h) by omega,
      mval_lin (by omega) (by omega)]
    have p : (2 : ℚ) ^ ((E : ℤ) - 150) * (2 ^ (((189 - j : ℕ) : ℤ) - 150) *
        2 ^ (((189 - j : ℕ) : ℤ) - 150)) = 1 / 2 ^ 71 := by
      rw [← zpow_add₀ (by norm_num), ← zpow_add₀ (by norm_num),
        show (E : ℤ) - 150 + (((189 - j : ℕ) : ℤ) - 150 + (((189 - j : ℕ) : ℤ) - 150)) = -71 by omega]
      norm_num
    rw [mul_sq_form, p, show 8388608 + (7821958 - h) = 16210566 - h by omega, Nat.cast_sub (by omega), hF2]
    have hc2 := (Nat.cast_le (α := ℚ)).2 (by omega : h ≤ 4194304)
    have key := pcheckQ (p := padd [-1.0008 * 2 ^ 71] (pmul [8388608, 2] (pmul [16210566, -1] [16210566, -1])))
      (a := 0) (r := 131072) (n := 16) (e := 0.0688 * 2 ^ 71) (by decide +kernel) (by norm_num) h
      hq0 (by push_cast at hc2 ⊢; linarith)
    simp only [pmul, padd, psmul, List.map_cons, List.map_nil, pevalQ_cons, pevalQ_nil] at key
    push_cast at hc2 r1 ⊢
    have hsq : ((16210566 : ℚ) - h) ^ 2 ≤ 16210566 ^ 2 := by nlinarith
    have hsq0 := sq_nonneg ((16210566 : ℚ) - h)
    rw [_root_.abs_le] at key ⊢
    constructor <;> nlinarith

theorem pos_toNat {x : BitVec 32} (h : 0 < val x) : x.toNat = mag x := by
  have hneg : neg x = false := by
    by_contra hn
    have hn : neg x = true := by simpa using hn
    rw [val_eq, hn] at h
    have := mval_nonneg (mag x)
    simp only [if_true] at h
    linarith
  rw [toNat_eq, hneg]; simp

/-- The last two operations of `rSqrt`. -/
theorem rSqrt_bracket {x y t w d r c g e : ℚ} (y0 : 0 < y) (ht : x * y ^ 2 = t) (t1 : 0.9318 ≤ t)
    (t2 : t ≤ 1.0698) (he' : |e| ≤ 0.00000012) (vw : w = t / 2 * (1 + e)) (vd : d = (1.5 - w) * (1 + c))
    (hc : |c| ≤ 1 / 16777216) (vr : r = y * d * (1 + g)) (hg : |g| ≤ 1 / 16777216) :
    0 < r ∧ (1 - 0.0019) ^ 2 ≤ x * r ^ 2 ∧ x * r ^ 2 ≤ (1 + 0.0019) ^ 2 := by
  obtain ⟨e1, e2⟩ := _root_.abs_le.1 he'
  obtain ⟨k, hk, hcg⟩ := eps_comb hc hg
  have hk' : |k| ≤ 0.00000012 := hk.trans (by norm_num)
  -- the computed bracket
  obtain ⟨A, hA⟩ : ∃ A, d * (1 + g) = A := ⟨_, rfl⟩
  have hA2 : |A - (1.5 - t / 2)| ≤ 0.0000003 := by
    rw [← hA, vd, mul_assoc, hcg, vw]
    rw [show (1.5 - t / 2 * (1 + e)) * (1 + k) - (1.5 - t / 2) = (1.5 - t / 2 * (1 + e)) * k - t / 2 * e by ring]
    have T : |t / 2| ≤ 0.6 := by rw [_root_.abs_le]; constructor <;> linarith
    have T' : |1.5 - t / 2 * (1 + e)| ≤ 1.1 := by
      rw [_root_.abs_le]; constructor <;> nlinarith
    refine (abs_sub_le' (abs_mul_le' T' hk') (abs_mul_le' T he')).trans ?_
    norm_num
  obtain ⟨A1, A2⟩ := _root_.abs_le.1 hA2
  have vr' : r = y * A := by rw [vr, ← hA]; ring
  have r0 : 0 < r := by rw [vr']; apply mul_pos y0; linarith
  have hsq : x * r ^ 2 = t * A ^ 2 := by rw [vr', ← ht]; ring
  have l : (1 - 0.0019) ^ 2 ≤ x * r ^ 2 := by
    rw [hsq]
    have h1 : (1.5 - t / 2 - 0.0000003) ^ 2 ≤ A ^ 2 := by
      apply pow_le_pow_left₀ <;> linarith
    have h2 : (1 - 0.0019) ^ 2 ≤ t * (1.5 - t / 2 - 0.0000003) ^ 2 := by
      nlinarith [mul_nonneg (by linarith : 0 ≤ t - 0.9318) (by linarith : 0 ≤ 1.0698 - t)]
    refine h2.trans (mul_le_mul_of_nonneg_left h1 (by linarith))
  have u : x * r ^ 2 ≤ (1 + 0.0019) ^ 2 := by
    rw [hsq]
    have h1 : A ^ 2 ≤ (1.5 - t / 2 + 0.0000003) ^ 2 := by
      apply pow_le_pow_left₀ <;> linarith
    have h2 : t * (1.5 - t / 2 + 0.0000003) ^ 2 ≤ (1 + 0.0019) ^ 2 := by
      nlinarith [mul_nonneg (by linarith : 0 ≤ t - 0.9318) (by linarith : 0 ≤ 1.0698 - t),
        mul_nonneg (sq_nonneg (t - 1)) (by linarith : 0 ≤ 4 - t)]
    refine le_trans (mul_le_mul_of_nonneg_left h1 (by linarith)) h2
  exact ⟨r0, l, u⟩

set_option maxHeartbeats 800000 in
/-- Rational form of the accuracy of `rSqrt`. -/
theorem rSqrt_sq {x : BitVec 32} (hx : Finite x) (h : 2 ^ (-125 : ℤ) ≤ val x) :
    Finite (rSqrt x) ∧ 0 < val (rSqrt x) ∧ (1 - 0.0019) ^ 2 ≤ val x * val (rSqrt x) ^ 2 ∧
      val x * val (rSqrt x) ^ 2 ≤ (1 + 0.0019) ^ 2 := by
  have hx0 : 0 < val x := lt_of_lt_of_le (two_zpow_pos _) h
  have hN := pos_toNat hx0
  have hm2 := (finite_iff x).1 hx
  have hm1 : 16777216 ≤ mag x := by
    rw [← mval_le_iff, ← abs_val, abs_of_pos hx0]
    have : mval 16777216 = 2 ^ (-125 : ℤ) := by decide +kernel
    rw [this]; exact h
  have hs := rSqrt_seed (by omega : 8388608 ≤ mag x) hm2
  have hy : (0x5F375A86#32 - (x >>> 1)).toNat = 1597463174 - mag x / 2 := by
    rw [BitVec.toNat_sub, BitVec.toNat_ushiftRight, hN, Nat.shiftRight_eq_div_pow]
    simp only [BitVec.toNat_ofNat]
    omega
  obtain ⟨fy, vy⟩ := nat_spec hy (by omega)
  unfold rSqrt
  rw [if_neg (by rw [lt_fin hx fin_zero, val_zero]; simpa using hx0.le),
    if_neg (by rw [classify_zero']; exact hx0.ne')]
  simp only
  generalize 0x5F375A86#32 - (x >>> 1) = y at *
  have vx : val x = mval (mag x) := by rw [← abs_val, abs_of_pos hx0]
  rw [← vy, ← vx] at hs
  obtain ⟨fz, vz⟩ := half_exact hx (by rw [abs_of_pos hx0]; exact h)
  generalize mul (lit 0.5) x = z at *
  -- range of the seed
  have y0 : 0 < val y := by
    rw [vy, ← mval_zero, mval_lt_iff]; omega
  have yl : 1e-20 ≤ val y := by
    have c : (1e-20 : ℚ) ≤ mval 527722862 := by decide +kernel
    rw [vy]; exact c.trans (mval_le_iff.2 (by omega))
  have yu : val y ≤ 1e20 := by
    have c : mval 1589074566 ≤ (1e20 : ℚ) := by decide +kernel
    rw [vy]; exact le_trans (mval_le_iff.2 (by omega)) c
  obtain ⟨t, ht⟩ : ∃ t, val x * val y ^ 2 = t := ⟨_, rfl⟩
  rw [ht, _root_.abs_le] at hs
  obtain ⟨t1, t2⟩ := hs
  have ezy : val z * val y = t / 2 / val y := by rw [vz, ← ht]; field_simp
  have q0 : 0 < t / 2 / val y := div_pos (by linarith) y0
  obtain ⟨fp, a, ha, vp⟩ := mul_eps fz fy
    (by
      rw [ezy, abs_of_pos q0, le_div_iff₀ y0]; linarith)
    (by
      rw [ezy, abs_of_pos q0, div_le_iff₀ y0]; linarith)
  generalize mul z y = p at *
  obtain ⟨a1, a2⟩ := _root_.abs_le.1 ha
  have epy : val p * val y = t / 2 * (1 + a) := by rw [vp, ezy]; field_simp
  have p1 : 0 < t / 2 * (1 + a) := mul_pos (by linarith) (by linarith)
  obtain ⟨fw, b, hb, vw⟩ := mul_eps fp fy (by rw [epy, abs_of_pos p1]; nlinarith)
    (by rw [epy, abs_of_pos p1]; nlinarith)
  generalize mul p y = w at *
  rw [epy] at vw
  obtain ⟨b1, b2⟩ := _root_.abs_le.1 hb
  obtain ⟨e, he, hab⟩ := eps_comb ha hb
  rw [mul_assoc, hab] at vw
  have he' : |e| ≤ 0.00000012 := he.trans (by norm_num)
  obtain ⟨e1, e2⟩ := _root_.abs_le.1 he'
  have w1 : 0.4 ≤ val w := by rw [vw]; nlinarith
  have w2 : val w ≤ 0.6 := by rw [vw]; nlinarith
  have lc : Finite (lit 1.5) ∧ val (lit 1.5) = 1.5 := by decide +kernel
  obtain ⟨fd, c, hc, vd⟩ := sub_eps lc.1 fw (by rw [lc.2, abs_of_pos (by linarith)]; linarith)
    (by rw [lc.2, abs_of_pos (by linarith)]; linarith)
  generalize sub (lit 1.5) w = d at *
  rw [lc.2] at vd
  obtain ⟨c1, c2⟩ := _root_.abs_le.1 hc
  have d1 : 0.8 ≤ val d := by rw [vd]; nlinarith
  have d2 : val d ≤ 1.2 := by rw [vd]; nlinarith
  have yd : 0 < val y * val d := mul_pos y0 (by linarith)
  obtain ⟨fr, g, hg, vr⟩ := mul_eps fy fd (by rw [abs_of_pos yd]; nlinarith) (by rw [abs_of_pos yd]; nlinarith)
  refine ⟨fr, ?_⟩
  generalize mul y d = r at *
  exact rSqrt_bracket y0 ht (by linarith) (by linarith) he' vw vd hc vr hg

/-- **C77** (part) `rSqrt(x)` is within `0.19 %` of the reciprocal square root for all `x` from twice the
smallest normal number on. -/
theorem C77_rSqrt_partial (x : BitVec 32) (hx : Finite x) (h : 2 ^ (-125 : ℤ) ≤ val x) :
    Finite (rSqrt x) ∧ |(val (rSqrt x) : ℝ) * Real.sqrt (val x) - 1| ≤ 0.0019 := by
  obtain ⟨f, r0, l, u⟩ := rSqrt_sq hx h
  have hx0 : 0 < val x := lt_of_lt_of_le (two_zpow_pos _) h
  refine ⟨f, ?_⟩
  generalize rSqrt x = r at *
  have hx0' : (0 : ℝ) ≤ (val x : ℝ) := by exact_mod_cast hx0.le
  have hs := Real.sq_sqrt hx0'
  have hs0 := Real.sqrt_nonneg (val x : ℝ)
  have p' : (0 : ℝ) < val r := by exact_mod_cast r0
  have l' : (((1 - 0.0019) ^ 2 : ℚ) : ℝ) ≤ (val x : ℝ) * (val r : ℝ) ^ 2 := by exact_mod_cast l
  have u' : (val x : ℝ) * (val r : ℝ) ^ 2 ≤ (((1 + 0.0019) ^ 2 : ℚ) : ℝ) := by exact_mod_cast u
  rw [← hs] at l' u'
  push_cast at l' u'
  generalize (val r : ℝ) = r at *
  generalize Real.sqrt (val x : ℝ) = s at *
  have : r * s ≤ 1 + 0.0019 := by
    refine (pow_le_pow_iff_left₀ (by positivity) (by norm_num) (by norm_num : (2 : ℕ) ≠ 0)).1 ?_
    rw [mul_pow]; linarith
  have : 1 - 0.0019 ≤ r * s := by
    refine (pow_le_pow_iff_left₀ (by norm_num) (by positivity) (by norm_num : (2 : ℕ) ≠ 0)).1 ?_
    rw [mul_pow]; linarith
  rw [_root_.abs_le]
  constructor <;> linarith

/-- **C77** Negative arguments of `rSqrt` give a NaN and both zeros give infinity. -/
theorem C77_special (x : BitVec 32) :
    (F32.lt x (lit 0) = true → IsNaN (rSqrt x)) ∧ (val x = 0 → Finite x → rSqrt x = inf) := by
  constructor
  · intro h
    unfold rSqrt
    rw [if_pos h]; decide
  · intro h f
    unfold rSqrt
    rw [if_neg (by rw [lt_fin f fin_zero, val_zero, h]; simp), if_pos ((classify_zero' x).2 h)]

/-- **C77** fails outside the normal range: `recip(0)` is a finite number and `recip` of infinity or of the
largest float is minus infinity; `rSqrt` of infinity is minus infinity, and `rSqrt` of the smallest positive
float is a thousand times too small. -/
theorem C77_false :
    Finite (recip (lit 0)) ∧ recip inf = negate inf ∧ recip fltMax = negate inf ∧
    rSqrt inf = negate inf ∧ val (rSqrt 1#32) ^ 2 * val 1#32 ≤ 1 / 1000000 := by decide +kernel

example : Finite (lit (-4)) ∧ 2 ^ (-126 : ℤ) ≤ |val (lit (-4))| ∧ |val (lit (-4))| < 2 ^ (124 : ℤ) ∧
    recip (lit (-4)) = 3196016844#32 := by decide +kernel
example : Finite (lit 4) ∧ 2 ^ (-125 : ℤ) ≤ val (lit 4) ∧ rSqrt (lit 4) = 1056936223#32 := by decide +kernel

end Verif.Ffmath
