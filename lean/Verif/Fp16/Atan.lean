import Verif.Fp16.TrigProps
import Verif.Ffmath.Atan

/-!
# `fp16::atan2`, `atan`, `asin` and `acos` (C126-C128)
-/

namespace Verif.Fp16

open Verif.Ffmath Verif.F32

/-- `mul` of moderate operands, against the real product. -/
theorem mul_real {x y : Int} (hx : -2 ^ 30 ≤ x ∧ x < 2 ^ 30) (hy : -2 ^ 30 ≤ y ∧ y < 2 ^ 30)
    (h : |(x : ℝ) * y| ≤ 140000000000000) :
    ∃ r : Int, mul x y = .ok r ∧ |(r : ℝ) - x * y / 65536| ≤ 1 / 2 := by
  have hn := rndMul_nearest (x * y)
  have h1 : -140000000000000 ≤ x * y ∧ x * y ≤ 140000000000000 := by
    rw [abs_le] at h
    exact ⟨by exact_mod_cast h.1, by exact_mod_cast h.2⟩
  refine ⟨rndMul (x * y), C22_small_partial x y _ hx hy hn ?_, ?_⟩
  · unfold Num rndMul; split <;> omega
  · unfold NearestAway at hn
    have h2 : -(65536 : ℝ) ≤ 2 * (rndMul (x * y) * 65536 - x * y) := by exact_mod_cast hn.1
    have h3 : 2 * ((rndMul (x * y) : ℝ) * 65536 - x * y) ≤ 65536 := by exact_mod_cast hn.2.1
    rw [abs_le]; constructor <;> linarith

theorem xor_ones {n : Nat} (h : n < 4294967296) : n ^^^ 4294967295 = 4294967295 - n := by
  have e : (BitVec.ofNat 32 n ^^^ BitVec.allOnes 32).toNat = 4294967295 - n := by
    rw [BitVec.xor_allOnes, BitVec.toNat_not, BitVec.toNat_ofNat, Nat.mod_eq_of_lt h]
  rw [BitVec.toNat_xor, BitVec.toNat_ofNat, BitVec.toNat_allOnes, Nat.mod_eq_of_lt h] at e
  exact e

theorem xor_near {a k : Nat} (h : k < 8) : a ^^^ k ≤ a + 7 ∧ a ≤ (a ^^^ k) + 7 := by
  have e : (a ^^^ k) / 2 ^ 3 = a / 2 ^ 3 := by
    rw [Nat.xor_div_two_pow, Nat.div_eq_of_lt (by omega : k < 2 ^ 3), Nat.xor_zero]
  omega

/-- The branch-free absolute value is right below `2^28`, and off by at most 15 above. -/
theorem absY_eq {y : Int} (h : -2147483632 ≤ y ∧ y ≤ 2147483632) :
    chk (y + y / 268435456) = .ok (y + y / 268435456) ∧
    ∃ a : Int, toI (toU (y + y / 268435456) ^^^ toU (y / 268435456)) = a ∧
      (a = |y| ∨ 2 ^ 28 ≤ |y| ∧ |y| - 15 ≤ a ∧ a ≤ |y| + 15) := by
  refine ⟨chk_ok (by omega), _, rfl, ?_⟩
  rcases lt_or_ge y 0 with h0 | h0
  · rw [abs_of_neg h0]
    obtain ⟨k, hk, hk8⟩ : ∃ k : Nat, y / 268435456 = -1 - (k : Int) ∧ k < 8 :=
      ⟨(-1 - y / 268435456).toNat, by omega, by omega⟩
    have e1 : toU (-1 - (k : Int)) = k ^^^ 4294967295 := by
      rw [xor_ones (by omega)]; unfold toU; omega
    rw [hk, e1, ← Nat.xor_assoc]
    have hlt : toU (y + (-1 - (k : Int))) ^^^ k < 4294967296 :=
      Nat.xor_lt_two_pow (n := 32) (toU_lt _) (by omega)
    rw [xor_ones hlt]
    have hn := xor_near (a := toU (y + (-1 - (k : Int)))) hk8
    have ht : (toU (y + (-1 - (k : Int))) : Int) = y + (-1 - k) + 4294967296 := by unfold toU; omega
    rcases Nat.eq_zero_or_pos k with rfl | hk0
    · left
      rw [Nat.xor_zero]
      unfold toI
      split <;> omega
    · right
      generalize toU (y + (-1 - (k : Int))) ^^^ k = z at *
      generalize toU (y + (-1 - (k : Int))) = w at *
      unfold toI
      split <;> omega
  · rw [abs_of_nonneg h0]
    obtain ⟨k, hk, hk8⟩ : ∃ k : Nat, y / 268435456 = (k : Int) ∧ k < 8 :=
      ⟨(y / 268435456).toNat, by omega, by omega⟩
    have e1 : toU (k : Int) = k := by unfold toU; omega
    rw [hk, e1]
    have hn := xor_near (a := toU (y + (k : Int))) hk8
    have ht : (toU (y + (k : Int)) : Int) = y + k := by unfold toU; omega
    rcases Nat.eq_zero_or_pos k with rfl | hk0
    · left
      rw [Nat.xor_zero]
      unfold toI
      split <;> omega
    · right
      generalize toU (y + (k : Int)) ^^^ k = z at *
      generalize toU (y + (k : Int)) = w at *
      have hz : z / 4294967296 = 0 := by omega
      unfold toI
      split <;> omega

/-- The error of the absolute value does not show in the quotient. -/
theorem quot_pert {X Y A : ℝ} (hX : 0 ≤ X) (hY : 0 ≤ Y) (hXY : 0 < X + Y)
    (h : A = Y ∨ 268435456 ≤ Y ∧ Y - 15 ≤ A ∧ A ≤ Y + 15) :
    |(X - A) / (X + A) - (X - Y) / (X + Y)| ≤ 2e-7 := by
  rcases h with rfl | ⟨h1, h2, h3⟩
  · rw [sub_self, abs_zero]; norm_num
  · have d1 : 0 < X + A := by linarith
    have e : (X - A) / (X + A) - (X - Y) / (X + Y) = 2 * X * (Y - A) / ((X + A) * (X + Y)) := by
      rw [div_sub_div _ _ d1.ne' hXY.ne']; congr 1; ring
    rw [e, abs_div, abs_of_pos (mul_pos d1 hXY), div_le_iff₀ (mul_pos d1 hXY), abs_mul,
      abs_of_nonneg (by linarith : 0 ≤ 2 * X)]
    have hd : |Y - A| ≤ 15 := abs_le.2 ⟨by linarith, by linarith⟩
    have k1 : 2 * X * |Y - A| ≤ 2 * X * 15 := mul_le_mul_of_nonneg_left hd (by linarith)
    have k2 : 268435441 * X ≤ (X + A) * (X + Y) := by nlinarith
    norm_num
    linarith

/-- The polynomial of `atan2` minus the arc tangent (in the variable of the quotient). -/
def polyA : List ℚ := padd [0, 64336 / 65536, 0, -12864 / 65536] (psmul (-1) atanA)

theorem polyA_check : pcheck polyA (-1) (1 / 100) 100 0.0102 = true := by decide +kernel

theorem poly_close {u : ℝ} (h1 : -1 ≤ u) (h2 : u ≤ 1) :
    |(64336 * u - 12864 * u ^ 3) / 65536 - Real.arctan u| ≤ 0.01022 := by
  have hA := atanA_close h1 h2
  have hp := pcheck_sound polyA_check (by norm_num) u (by push_cast; exact h1) (by norm_num; linarith)
  unfold polyA at hp
  rw [peval_padd, peval_psmul] at hp
  generalize peval atanA u = A at *
  simp only [peval_cons, peval_nil] at hp
  push_cast at hp
  rw [abs_le] at *
  norm_num at hA hp ⊢
  constructor <;> nlinarith [hA.1, hA.2, hp.1, hp.2]

/-- The polynomial part of `atan2`. -/
theorem poly_fixed {r : Int} (h : -65536 ≤ r ∧ r ≤ 65536) {u : ℝ} (hu : |(r : ℝ) - 65536 * u| ≤ 0.52)
    (h1 : -1 ≤ u) (h2 : u ≤ 1) :
    ∃ rr r3 p q t : Int, mul r r = .ok rr ∧ mul rr r = .ok r3 ∧ mul 0x3240 r3 = .ok p ∧
      mul 0xFB50 r = .ok q ∧ t = p - q ∧ |(t : ℝ) + 65536 * Real.arctan u| ≤ 672 := by
  have hr1 : (-65536 : ℝ) ≤ r := by exact_mod_cast h.1
  have hr2 : (r : ℝ) ≤ 65536 := by exact_mod_cast h.2
  have hrr : |(r : ℝ) * r| ≤ 65536 * 65536 := by
    rw [abs_mul]
    have : |(r : ℝ)| ≤ 65536 := abs_le.2 ⟨hr1, hr2⟩
    exact mul_le_mul this this (abs_nonneg _) (by norm_num)
  obtain ⟨rr, e1, g1⟩ := mul_real (x := r) (y := r) (by omega) (by omega) (hrr.trans (by norm_num))
  have hrr0 := mul_self_nonneg (r : ℝ)
  rw [abs_of_nonneg hrr0] at hrr
  have brr : -1 < rr ∧ rr ≤ 65536 := by
    rw [abs_le] at g1
    have a1 : (-1 : ℝ) < rr := by linarith [g1.1]
    have a2 : (rr : ℝ) < 65537 := by linarith [g1.2]
    have a2' : rr < 65537 := by exact_mod_cast a2
    exact ⟨by exact_mod_cast a1, by omega⟩
  have brr' : (0 : ℝ) ≤ rr ∧ (rr : ℝ) ≤ 65536 :=
    ⟨by exact_mod_cast (by omega : 0 ≤ rr), by exact_mod_cast brr.2⟩
  have hr3 : |(rr : ℝ) * r| ≤ 65536 * 65536 := by
    rw [abs_mul, abs_of_nonneg brr'.1]
    exact mul_le_mul brr'.2 (abs_le.2 ⟨hr1, hr2⟩) (abs_nonneg _) (by norm_num)
  obtain ⟨r3, e2, g2⟩ := mul_real (x := rr) (y := r) (by omega) (by omega) (hr3.trans (by norm_num))
  have br3 : -65537 < (r3 : ℝ) ∧ (r3 : ℝ) < 65537 := by
    rw [abs_le] at g2 hr3
    constructor <;> linarith [g2.1, g2.2, hr3.1, hr3.2]
  have br3' : -65537 < r3 ∧ r3 < 65537 := ⟨by exact_mod_cast br3.1, by exact_mod_cast br3.2⟩
  obtain ⟨p, e3, g3⟩ := mul_real (x := 0x3240) (y := r3) (by norm_num) (by omega) (by
    rw [abs_le]; push_cast; constructor <;> linarith [br3.1, br3.2])
  obtain ⟨q, e4, g4⟩ := mul_real (x := 0xFB50) (y := r) (by norm_num) (by omega) (by
    rw [abs_le]; push_cast; constructor <;> linarith)
  refine ⟨rr, r3, p, q, _, e1, e2, e3, e4, rfl, ?_⟩
  have hc := poly_close h1 h2
  set v : ℝ := (r : ℝ) / 65536 with hv
  have hvr : (r : ℝ) = 65536 * v := by rw [hv]; ring
  have v1 : -1 ≤ v := by rw [hv, le_div_iff₀ (by norm_num)]; linarith
  have v2 : v ≤ 1 := by rw [hv, div_le_iff₀ (by norm_num)]; linarith
  have huv : |v - u| ≤ 0.52 / 65536 := by
    rw [hvr, abs_le] at hu
    rw [abs_le]; constructor <;> linarith [hu.1, hu.2]
  -- cubes
  have hcube : |v ^ 3 - u ^ 3| ≤ 1.56 / 65536 := by
    have e : v ^ 3 - u ^ 3 = (v - u) * (v ^ 2 + v * u + u ^ 2) := by ring
    have k : |v ^ 2 + v * u + u ^ 2| ≤ 3 := by
      rw [abs_le]; constructor <;> nlinarith
    rw [e, abs_mul]
    have := mul_le_mul huv k (abs_nonneg _) (by norm_num)
    linarith
  have k3 : |(r3 : ℝ) - 65536 * v ^ 3| ≤ 1 := by
    have e : (r3 : ℝ) - 65536 * v ^ 3 = (r3 - rr * r / 65536) + (rr - r * r / 65536) * v := by
      rw [hvr]; ring
    have k : |((rr : ℝ) - r * r / 65536) * v| ≤ 1 / 2 * 1 := by
      rw [abs_mul]; exact mul_le_mul g1 (abs_le.2 ⟨v1, v2⟩) (abs_nonneg _) (by norm_num)
    rw [e]
    exact (abs_add_le _ _).trans (by linarith)
  push_cast
  rw [hvr] at g4
  rw [abs_le] at *
  norm_num at g3 g4 hc huv hcube k3 ⊢
  constructor <;> linarith [g3.1, g3.2, g4.1, g4.2, hc.1, hc.2, huv.1, huv.2, hcube.1, hcube.2, k3.1, k3.2]

/-- `atan2` in the upper half plane, from the quotient on. -/
theorem angle_first {x y ρ θ : ℝ} (hρ : 0 < ρ) (h0 : 0 ≤ θ) (h1 : θ ≤ Real.pi) (hx : x = ρ * Real.cos θ)
    (hy : y = ρ * Real.sin θ) (hx0 : 0 ≤ x) : Real.arctan ((x - y) / (x + y)) = Real.pi / 4 - θ := by
  have hc : 0 ≤ Real.cos θ := by
    by_contra hc
    have := mul_neg_of_pos_of_neg hρ (not_le.1 hc)
    linarith
  have h2 : θ ≤ Real.pi / 2 := by
    by_contra hc2
    have := Real.cos_neg_of_pi_div_two_lt_of_lt (x := θ) (by linarith) (by linarith [Real.pi_pos])
    linarith
  have e : (x - y) / (x + y) = Real.tan (Real.pi / 4 - θ) := by
    rw [Real.tan_eq_sin_div_cos, Real.sin_sub, Real.cos_sub, Real.cos_pi_div_four, Real.sin_pi_div_four, hx, hy]
    have s2 : (0 : ℝ) < √2 / 2 := by positivity
    rw [← mul_sub, ← mul_add, ← mul_sub, ← mul_add, mul_div_mul_left _ _ hρ.ne', mul_div_mul_left _ _ s2.ne']
  rw [e, Real.arctan_tan] <;> linarith [Real.pi_pos]

theorem angle_second {x y ρ θ : ℝ} (hρ : 0 < ρ) (h0 : 0 ≤ θ) (h1 : θ ≤ Real.pi) (hx : x = ρ * Real.cos θ)
    (hy : y = ρ * Real.sin θ) (hx0 : x < 0) :
    Real.arctan ((x + y) / (y - x)) = 3 * Real.pi / 4 - θ := by
  have hc : Real.cos θ < 0 := by
    by_contra hc
    have := mul_nonneg hρ.le (not_lt.1 hc)
    linarith
  have h2 : Real.pi / 2 ≤ θ := by
    by_contra hc2
    have := Real.cos_nonneg_of_mem_Icc (x := θ) ⟨by linarith [Real.pi_pos], by linarith⟩
    linarith
  have e : (x + y) / (y - x) = Real.tan (3 * Real.pi / 4 - θ) := by
    have c3 : Real.cos (3 * Real.pi / 4) = -(√2 / 2) := by
      rw [show 3 * Real.pi / 4 = Real.pi - Real.pi / 4 by ring, Real.cos_pi_sub, Real.cos_pi_div_four]
    have s3 : Real.sin (3 * Real.pi / 4) = √2 / 2 := by
      rw [show 3 * Real.pi / 4 = Real.pi - Real.pi / 4 by ring, Real.sin_pi_sub, Real.sin_pi_div_four]
    rw [Real.tan_eq_sin_div_cos, Real.sin_sub, Real.cos_sub, c3, s3, hx, hy]
    have s2 : (0 : ℝ) < √2 / 2 := by positivity
    rw [show ρ * Real.cos θ + ρ * Real.sin θ = ρ * (Real.cos θ + Real.sin θ) by ring,
      show ρ * Real.sin θ - ρ * Real.cos θ = ρ * (Real.sin θ - Real.cos θ) by ring,
      show √2 / 2 * Real.cos θ - -(√2 / 2) * Real.sin θ = √2 / 2 * (Real.cos θ + Real.sin θ) by ring,
      show -(√2 / 2) * Real.cos θ + √2 / 2 * Real.sin θ = √2 / 2 * (Real.sin θ - Real.cos θ) by ring,
      mul_div_mul_left _ _ hρ.ne', mul_div_mul_left _ _ s2.ne']
  rw [e, Real.arctan_tan] <;> linarith [Real.pi_pos]

/-- The quotient of `atan2`. -/
theorem quot_unit {n d : Int} (h1 : -d ≤ n) (h2 : n ≤ d) (hd : 0 < d) (hd' : d < 2147483648) :
    ∃ r : Int, div n d = .ok r ∧ |(r : ℝ) - 65536 * (n / d)| ≤ 1 / 2 ∧ (-65536 ≤ r ∧ r ≤ 65536) ∧
      -1 ≤ (n : ℝ) / d ∧ (n : ℝ) / d ≤ 1 := by
  obtain ⟨r, hr, g, -⟩ := div_real (x := n) (y := d) (by unfold Num; omega) ⟨hd, hd'⟩ (by omega)
  have hd0 : (0 : ℝ) < d := by exact_mod_cast hd
  have q1 : -1 ≤ (n : ℝ) / d := by
    rw [le_div_iff₀ hd0]; have : (-d : ℝ) ≤ n := by exact_mod_cast h1
    linarith
  have q2 : (n : ℝ) / d ≤ 1 := by
    rw [div_le_iff₀ hd0]; have : (n : ℝ) ≤ d := by exact_mod_cast h2
    linarith
  rw [mul_div_assoc] at g
  refine ⟨r, hr, g, ?_, q1, q2⟩
  rw [abs_le] at g
  have a1 : (-65537 : ℝ) < r := by linarith [g.1]
  have a2 : (r : ℝ) < 65537 := by linarith [g.2]
  have a1' : -65537 < r := by exact_mod_cast a1
  have a2' : r < 65537 := by exact_mod_cast a2
  omega

/-- **C126.** For operands with `|x| + |y| < 2^31 - 16` raw, not both zero, `atan2` is
defined and within `0.0103` of the polar angle of the point `(x, y)`. Outside: larger operands, where the
sums overflow, and the origin (`C126_false_ub`, `C126_false_origin`). -/
theorem C126_atan2 (y x : Int) (hs : |x| + |y| ≤ 2147483632)
    (ρ θ : ℝ) (hρ : 0 < ρ) (h1 : -Real.pi < θ) (h2 : θ ≤ Real.pi) (hX : (x : ℝ) = ρ * Real.cos θ)
    (hY : (y : ℝ) = ρ * Real.sin θ) :
    ∃ r : Int, atan2 y x = .ok r ∧ |(r : ℝ) / 65536 - θ| ≤ 0.0103 := by
  have hya := abs_nonneg x
  have hx1 := le_abs_self x
  have hx2 := neg_abs_le x
  obtain ⟨hm, a, ha, haY⟩ := absY_eq (y := y) (by have := le_abs_self y; have := neg_abs_le y; omega)
  -- angle of the point reflected into the upper half plane
  obtain ⟨φ, hφ0, hφ1, hXφ, hYφ, hφ⟩ : ∃ φ : ℝ, 0 ≤ φ ∧ φ ≤ Real.pi ∧ (x : ℝ) = ρ * Real.cos φ ∧
      ((|y| : Int) : ℝ) = ρ * Real.sin φ ∧ θ = if y < 0 then -φ else φ := by
    rcases lt_or_ge y 0 with h0 | h0
    · have hY0 : (y : ℝ) < 0 := by exact_mod_cast h0
      have hθ : θ < 0 := by
        by_contra hc
        have := mul_nonneg hρ.le (Real.sin_nonneg_of_nonneg_of_le_pi (not_lt.1 hc) h2)
        linarith
      refine ⟨-θ, by linarith, by linarith, by rw [Real.cos_neg]; exact hX, ?_, ?_⟩
      · rw [abs_of_neg h0, Real.sin_neg]; push_cast; rw [hY]; ring
      · rw [if_pos h0]; ring
    · have hY0 : (0 : ℝ) ≤ y := by exact_mod_cast h0
      have hθ : 0 ≤ θ := by
        by_contra hc
        have := mul_neg_of_pos_of_neg hρ (Real.sin_neg_of_neg_of_neg_pi_lt (not_le.1 hc) h1)
        linarith
      exact ⟨θ, hθ, h2, hX, by rw [abs_of_nonneg h0]; exact hY, by rw [if_neg (by omega)]⟩
  have hnz : x ≠ 0 ∨ |y| ≠ 0 := by
    by_contra hc
    push Not at hc
    have e1 : (x : ℝ) = 0 := by exact_mod_cast hc.1
    have e2 : ((|y| : Int) : ℝ) = 0 := by exact_mod_cast hc.2
    have := Real.sin_sq_add_cos_sq φ
    have c0 : Real.cos φ = 0 := by
      rw [e1] at hXφ; exact (mul_eq_zero.1 hXφ.symm).resolve_left hρ.ne'
    have s0 : Real.sin φ = 0 := by
      rw [e2] at hYφ; exact (mul_eq_zero.1 hYφ.symm).resolve_left hρ.ne'
    rw [c0, s0] at this
    norm_num at this
  have hb0 : 0 ≤ |y| := abs_nonneg y
  have p1 := Real.pi_gt_d6
  have p2 := Real.pi_lt_d6
  have haY' : (a : ℝ) = ((|y| : Int) : ℝ) ∨ 268435456 ≤ ((|y| : Int) : ℝ) ∧
      ((|y| : Int) : ℝ) - 15 ≤ a ∧ (a : ℝ) ≤ ((|y| : Int) : ℝ) + 15 := by
    rcases haY with h | ⟨k1, k2, k3⟩
    · left; rw [h]
    · right; exact ⟨by exact_mod_cast k1, by exact_mod_cast k2, by exact_mod_cast k3⟩
  -- the angle before the sign is applied
  have main : ∃ r u : Int, (if x ≥ 0 then (do
        let n ← chk (x - a)
        let d ← chk (x + a)
        let r ← div n d
        pure (r, (51471 : Int)))
      else do
        let n ← chk (x + a)
        let d ← chk (a - x)
        let r ← div n d
        pure (r, (154415 : Int))) = .ok (r, u) ∧ 0 ≤ u ∧ u ≤ 154415 ∧ ∃ rr r3 p q t : Int,
      mul r r = .ok rr ∧ mul rr r = .ok r3 ∧ mul 0x3240 r3 = .ok p ∧ mul 0xFB50 r = .ok q ∧
      t = p - q ∧ |((u + t : Int) : ℝ) - 65536 * φ| ≤ 674 := by
    generalize hb : |y| = b at *
    have hb0' : (0 : ℝ) ≤ b := by exact_mod_cast hb0
    by_cases hx0 : x ≥ 0
    · rw [abs_of_nonneg hx0] at hs
      have hx0' : (0 : ℝ) ≤ x := by exact_mod_cast hx0
      have hsum : (0 : ℝ) < (x : ℝ) + b := by exact_mod_cast (by omega : 0 < x + b)
      obtain ⟨r, hr, g, hb, -, -⟩ := quot_unit (n := x - a) (d := x + a) (by omega) (by omega)
        (by omega) (by omega)
      have qp := quot_pert hx0' hb0' hsum haY'
      have q1 : -1 ≤ ((x : ℝ) - b) / (x + b) := by rw [le_div_iff₀ hsum]; linarith
      have q2 : ((x : ℝ) - b) / (x + b) ≤ 1 := by rw [div_le_iff₀ hsum]; linarith
      push_cast at g
      have g' : |(r : ℝ) - 65536 * (((x : ℝ) - b) / (x + b))| ≤ 0.52 := by
        rw [abs_le] at *
        norm_num at g qp ⊢
        constructor <;> linarith [g.1, g.2, qp.1, qp.2]
      obtain ⟨rr, r3, p, q, t, e1, e2, e3, e4, e5, e6⟩ := poly_fixed hb g' q1 q2
      rw [angle_first hρ hφ0 hφ1 hXφ hYφ hx0'] at e6
      refine ⟨r, 51471, ?_, by norm_num, by norm_num, rr, r3, p, q, t, e1, e2, e3, e4, e5, ?_⟩
      · rw [if_pos hx0, chk_ok (by omega), Out.bind_ok, chk_ok (by omega), Out.bind_ok, hr, Out.bind_ok]
        rfl
      · rw [abs_le] at e6 ⊢
        push_cast
        norm_num at e6 p1 p2 ⊢
        constructor <;> linarith [e6.1, e6.2]
    · rw [abs_of_neg (by omega)] at hs
      have hx0' : (x : ℝ) < 0 := by exact_mod_cast (not_le.1 hx0)
      have hsum : (0 : ℝ) < (-x : ℝ) + b := by exact_mod_cast (by omega : 0 < -x + b)
      have hsum' : (0 : ℝ) < (b : ℝ) - x := by linarith
      obtain ⟨r, hr, g, hb, -, -⟩ := quot_unit (n := x + a) (d := a - x) (by omega) (by omega)
        (by omega) (by omega)
      have qp := quot_pert (X := -x) (by linarith) hb0' hsum haY'
      have q1 : -1 ≤ ((x : ℝ) + b) / (b - x) := by rw [le_div_iff₀ hsum']; linarith
      have q2 : ((x : ℝ) + b) / (b - x) ≤ 1 := by rw [div_le_iff₀ hsum']; linarith
      push_cast at g
      have f1 : (-(x : ℝ) - a) / (-x + a) = -((x + a) / (a - x)) := by
        rw [show (-(x : ℝ) - a) = -(x + a) by ring, show (-(x : ℝ) + a) = a - x by ring, neg_div]
      have f2 : (-(x : ℝ) - b) / (-x + b) = -((x + b) / (b - x)) := by
        rw [show (-(x : ℝ) - b) = -(x + b) by ring, show (-(x : ℝ) + b) = b - x by ring, neg_div]
      rw [f1, f2] at qp
      have g' : |(r : ℝ) - 65536 * (((x : ℝ) + b) / (b - x))| ≤ 0.52 := by
        rw [abs_le] at *
        norm_num at g qp ⊢
        constructor <;> linarith [g.1, g.2, qp.1, qp.2]
      obtain ⟨rr, r3, p, q, t, e1, e2, e3, e4, e5, e6⟩ := poly_fixed hb g' q1 q2
      rw [angle_second hρ hφ0 hφ1 hXφ hYφ hx0'] at e6
      refine ⟨r, 154415, ?_, by norm_num, by norm_num, rr, r3, p, q, t, e1, e2, e3, e4, e5, ?_⟩
      · rw [if_neg hx0, chk_ok (by omega), Out.bind_ok, chk_ok (by omega), Out.bind_ok, hr, Out.bind_ok]
        rfl
      · rw [abs_le] at e6 ⊢
        push_cast
        norm_num at e6 p1 p2 ⊢
        constructor <;> linarith [e6.1, e6.2]
  obtain ⟨r, u, hu, hu0, hu1, rr, r3, p, q, t, e1, e2, e3, e4, e5, e6⟩ := main
  have hut : -1000 < u + t ∧ u + t < 250000 := by
    rw [abs_le] at e6
    norm_num at p2
    have a1 : (-1000 : ℝ) < ((u + t : Int) : ℝ) := by linarith [e6.1]
    have a2 : ((u + t : Int) : ℝ) < 250000 := by linarith [e6.2]
    exact ⟨by exact_mod_cast a1, by exact_mod_cast a2⟩
  refine ⟨if y < 0 then -(u + t) else u + t, ?_, ?_⟩
  · unfold atan2
    dsimp only
    rw [hm, Out.bind_ok, ha, hu, Out.bind_ok]
    dsimp only
    rw [e1, Out.bind_ok, e2, Out.bind_ok, e3, Out.bind_ok, e4, Out.bind_ok, ← e5, chk_ok (by omega),
      Out.bind_ok, chk_ok (by omega), Out.bind_ok]
    split
    · exact chk_ok (by omega)
    · rfl
  · rw [hφ]
    rw [abs_le] at e6 ⊢
    split
    · push_cast at e6 ⊢
      norm_num
      constructor <;> linarith [e6.1, e6.2]
    · push_cast at e6 ⊢
      norm_num
      constructor <;> linarith [e6.1, e6.2]

/-- Not vacuous: the point `(-1, -1)`. -/
example : ∃ r : Int, atan2 (-65536) (-65536) = .ok r ∧ |(r : ℝ) / 65536 - -(3 * Real.pi / 4)| ≤ 0.0103 := by
  have s2 : √2 * √2 = 2 := Real.mul_self_sqrt (by norm_num)
  have c3 : Real.cos (-(3 * Real.pi / 4)) = -(√2 / 2) := by
    rw [Real.cos_neg, show 3 * Real.pi / 4 = Real.pi - Real.pi / 4 by ring, Real.cos_pi_sub, Real.cos_pi_div_four]
  have s3 : Real.sin (-(3 * Real.pi / 4)) = -(√2 / 2) := by
    rw [Real.sin_neg, show 3 * Real.pi / 4 = Real.pi - Real.pi / 4 by ring, Real.sin_pi_sub, Real.sin_pi_div_four]
  refine C126_atan2 (-65536) (-65536) (by decide) (65536 * √2) _ (by positivity)
    (by linarith [Real.pi_pos]) (by linarith [Real.pi_pos]) ?_ ?_
  · rw [c3]; push_cast; linear_combination 32768 * s2
  · rw [s3]; push_cast; linear_combination 32768 * s2

example : atan2 (-65536) (-65536) = .ok (-154415) := by decide +kernel

/-- The result at the origin is no angle. -/
theorem C126_false_origin : atan2 0 0 = .ok 1686685966 := by decide +kernel

/-- For large operands the sums overflow. -/
theorem C126_false_ub : atan2 65536 2147483647 = .ub := by decide +kernel

theorem polar_exists {X Y : ℝ} (hX : 0 < X) : ∃ ρ : ℝ, 0 < ρ ∧ X = ρ * Real.cos (Real.arctan (Y / X)) ∧
    Y = ρ * Real.sin (Real.arctan (Y / X)) := by
  have h : 0 < √(1 + (Y / X) ^ 2) := Real.sqrt_pos.2 (by positivity)
  refine ⟨X * √(1 + (Y / X) ^ 2), mul_pos hX h, ?_, ?_⟩
  · rw [Real.cos_arctan]; field_simp
  · rw [Real.sin_arctan]; field_simp

/-- **C127, partial.** `atan` is defined and within `0.0103` of the arc tangent. Missing: the last
`65552` raw values at both ends of the range, where it overflows (`C127_false`). -/
theorem C127_atan_partial (x : Int) (h : |x| ≤ 2147418096) :
    ∃ r : Int, atan x = .ok r ∧ |(r : ℝ) / 65536 - Real.arctan ((x : ℝ) / 65536)| ≤ 0.0103 := by
  obtain ⟨ρ, hρ, h1, h2⟩ := polar_exists (X := 65536) (Y := x) (by norm_num)
  have g1 := Real.neg_pi_div_two_lt_arctan ((x : ℝ) / 65536)
  have g2 := Real.arctan_lt_pi_div_two ((x : ℝ) / 65536)
  have e : |one| = 65536 := by decide
  exact C126_atan2 x one (by omega) ρ _ hρ (by linarith [Real.pi_pos]) (by linarith [Real.pi_pos])
    (by unfold one; push_cast; exact h1) h2

example : atan 65536 = .ok 51471 := by decide +kernel

theorem C127_false : atan 2147483647 = .ub ∧ atan (-2147483648) = .ub := by
  constructor <;> decide +kernel

/-! ## The arc sine -/

theorem le_of_sq_le_sq {a b : ℝ} (h : a ^ 2 ≤ b ^ 2) (hb : 0 ≤ b) : a ≤ b := by
  by_contra hc
  have := pow_lt_pow_left₀ (not_le.1 hc) hb (n := 2) (by norm_num)
  linarith

theorem abs_arctan_sub_le (a b : ℝ) : |Real.arctan a - Real.arctan b| ≤ |a - b| := by
  have := Convex.norm_image_sub_le_of_norm_hasDerivWithin_le (f := Real.arctan) (f' := fun y => 1 / (1 + y ^ 2))
    (C := 1) (s := Set.univ) (x := b) (y := a) (fun y _ => (Real.hasDerivAt_arctan y).hasDerivWithinAt)
    (fun y _ => by
      rw [Real.norm_eq_abs, abs_of_nonneg (by positivity), div_le_one (by positivity)]
      linarith [sq_nonneg y]) convex_univ (Set.mem_univ _) (Set.mem_univ _)
  simpa [Real.norm_eq_abs] using this

/-- The length `sqrt (1 - x^2)` as computed. -/
theorem asin_side {x : Int} (h : -65536 < x ∧ x < 65536) :
    ∃ m s : Int, mul x x = .ok m ∧ chk (one - m) = .ok (one - m) ∧ sqrt (one - m) = .ok s ∧
      362 ≤ s ∧ s ≤ 65536 ∧ |(s : ℝ) / 65536 - √(1 - ((x : ℝ) / 65536) ^ 2)| ≤ 0.00141 := by
  have hx1 : (-65535 : ℝ) ≤ x := by exact_mod_cast (by omega : -65535 ≤ x)
  have hx2 : (x : ℝ) ≤ 65535 := by exact_mod_cast (by omega : x ≤ 65535)
  have hxx : (x : ℝ) * x ≤ 65535 * 65535 := by nlinarith
  have hxx0 := mul_self_nonneg (x : ℝ)
  obtain ⟨m, hm, g⟩ := mul_real (x := x) (y := x) (by omega) (by omega) (by
    rw [abs_of_nonneg hxx0]; linarith)
  rw [abs_le] at g
  have m1 : (-1 : ℝ) < m := by linarith [g.1]
  have m2 : (m : ℝ) < 65535 := by linarith [g.2]
  have m1' : -1 < m := by exact_mod_cast m1
  have m2' : m < 65535 := by exact_mod_cast m2
  obtain ⟨k, hk⟩ : ∃ k : Nat, one - m = (k : Int) := ⟨(one - m).toNat, by unfold one; omega⟩
  have hk1 : 2 ≤ k := by unfold one at hk; omega
  have hk2 : k ≤ 65536 := by unfold one at hk; omega
  obtain ⟨s, hs, hN1, hN2⟩ := C24_upto_4096_partial k (by omega) (by omega)
  have hs1 : 362 ≤ s := by
    by_contra hc
    have : (2 * s + 1) ^ 2 ≤ 723 ^ 2 := Nat.pow_le_pow_left (by omega) 2
    omega
  have hs2 : s ≤ 65536 := by
    by_contra hc
    have : 131073 ^ 2 ≤ (2 * s - 1) ^ 2 := Nat.pow_le_pow_left (by omega) 2
    omega
  refine ⟨m, s, hm, chk_ok (by unfold one; omega), by rw [hk]; exact hs, by omega, by omega, ?_⟩
  -- reals
  have hmk : (m : ℝ) = 65536 - k := by
    have : (m : Int) = 65536 - k := by unfold one at hk; omega
    exact_mod_cast this
  have hkr : (2 : ℝ) ≤ k := by exact_mod_cast hk1
  have hsr : (362 : ℝ) ≤ s := by exact_mod_cast hs1
  have n1 : (2 * (s : ℝ) - 1) ^ 2 ≤ 4 * (k * 65536) := by
    have e : ((2 * s - 1 : Nat) : ℝ) = 2 * (s : ℝ) - 1 := by push_cast [Nat.cast_sub (by omega : 1 ≤ 2 * s)]; ring
    rw [← e]; exact_mod_cast hN1
  have n2 : 4 * ((k : ℝ) * 65536) < (2 * (s : ℝ) + 1) ^ 2 := by exact_mod_cast hN2
  set v : ℝ := √((k : ℝ) / 65536) with hv
  set w : ℝ := √(1 - ((x : ℝ) / 65536) ^ 2) with hw
  have hvv : v * v = k / 65536 := Real.mul_self_sqrt (by positivity)
  have hww : w * w = 1 - ((x : ℝ) / 65536) ^ 2 := Real.mul_self_sqrt (by
    rw [sub_nonneg, div_pow, div_le_one (by norm_num)]; nlinarith)
  have v0 : 0 ≤ v := Real.sqrt_nonneg _
  have w0 : 0 ≤ w := Real.sqrt_nonneg _
  have v1 : 0.0055 ≤ v := by
    apply Real.le_sqrt_of_sq_le
    rw [le_div_iff₀ (by norm_num)]
    norm_num
    linarith
  have hd : |v * v - w * w| ≤ 1 / 131072 := by
    have e : v * v - w * w = -(m - x * x / 65536) / 65536 := by
      rw [hvv, hww, hmk]; ring
    rw [e, abs_le]
    constructor
    · rw [le_div_iff₀ (by norm_num)]; linarith [g.1, g.2]
    · rw [div_le_iff₀ (by norm_num)]; linarith [g.1, g.2]
  have hvw : |v - w| ≤ 0.001395 := by
    have e : v * v - w * w = (v - w) * (v + w) := by ring
    rw [e, abs_mul, abs_of_nonneg (by linarith : 0 ≤ v + w)] at hd
    by_contra hc
    have hc := not_le.1 hc
    have : 0.001395 * 0.0055 < |v - w| * (v + w) := by
      have k1 : 0.001395 * 0.0055 < |v - w| * 0.0055 := mul_lt_mul_of_pos_right hc (by norm_num)
      have k2 : |v - w| * 0.0055 ≤ |v - w| * (v + w) := mul_le_mul_of_nonneg_left (by linarith) (abs_nonneg _)
      linarith
    norm_num at this
    linarith
  have hsv : |(s : ℝ) / 65536 - v| ≤ 1 / 131072 := by
    have hk' : (k : ℝ) = 65536 * (v * v) := by rw [hvv]; ring
    rw [hk'] at n1 n2
    rw [show 4 * (65536 * (v * v) * 65536) = (131072 * v) ^ 2 by ring] at n1 n2
    have a1 : 2 * (s : ℝ) - 1 ≤ 131072 * v := le_of_sq_le_sq n1 (by linarith)
    have a2 : 131072 * v < 2 * (s : ℝ) + 1 := lt_of_pow_lt_pow_left₀ 2 (by linarith) n2
    rw [abs_le]
    constructor <;> linarith
  have e : ((s : Int) : ℝ) / 65536 - w = ((s : ℝ) / 65536 - v) + (v - w) := by push_cast; ring
  rw [e]
  refine (abs_add_le _ _).trans ?_
  norm_num at hsv hvw ⊢
  linarith

/-- Replacing the side `cos θ` by a nearby `S` turns the angle little. -/
theorem angle_pert {θ S : ℝ} (h1 : -(Real.pi / 2) < θ) (h2 : θ < Real.pi / 2) (hS : 0 < S)
    (h : |S - Real.cos θ| ≤ 0.00141) : |Real.arctan (Real.sin θ / S) - θ| ≤ 0.001411 := by
  obtain ⟨ρ, hρ, e1, e2⟩ := polar_exists (X := S) (Y := Real.sin θ) hS
  set φ := Real.arctan (Real.sin θ / S) with hφ
  have g1 : -(Real.pi / 2) < φ := Real.neg_pi_div_two_lt_arctan _
  have g2 : φ < Real.pi / 2 := Real.arctan_lt_pi_div_two _
  have hc : 0 < Real.cos θ := Real.cos_pos_of_mem_Ioo ⟨h1, h2⟩
  -- the sine of the difference
  have hs : |Real.sin (φ - θ)| ≤ 0.00141 := by
    have e : Real.sin (φ - θ) = Real.sin φ * (Real.cos θ - S) := by
      rw [Real.sin_sub]
      have : Real.cos φ * Real.sin θ = Real.sin φ * S := by
        linear_combination Real.cos φ * e2 - Real.sin φ * e1
      rw [this]; ring
    rw [e, abs_mul, abs_sub_comm]
    exact (mul_le_of_le_one_left (abs_nonneg _) (Real.abs_sin_le_one φ)).trans h
  -- both on the same side
  have hb : |φ - θ| ≤ Real.pi / 2 := by
    rcases le_or_gt 0 θ with h0 | h0
    · have s0 : 0 ≤ Real.sin θ := Real.sin_nonneg_of_nonneg_of_le_pi h0 (by linarith [Real.pi_pos])
      have : 0 ≤ φ := Real.arctan_nonneg.2 (div_nonneg s0 hS.le)
      rw [abs_le]; constructor <;> linarith
    · have s0 : Real.sin θ < 0 := Real.sin_neg_of_neg_of_neg_pi_lt h0 (by linarith [Real.pi_pos])
      have : φ < 0 := Real.arctan_lt_zero.2 (div_neg_of_neg_of_pos s0 hS)
      rw [abs_le]; constructor <;> linarith
  have key : Real.sin |φ - θ| ≤ 0.00141 := by
    refine le_trans ?_ hs
    rcases abs_cases (φ - θ) with ⟨e, _⟩ | ⟨e, _⟩ <;> rw [e]
    · exact le_abs_self _
    · rw [Real.sin_neg]; exact neg_le_abs _
  generalize |φ - θ| = t at *
  rcases le_or_gt t 0 with ht | ht
  · norm_num; linarith
  have p2 := Real.pi_lt_d6
  have p0 := Real.pi_pos
  have k1 : 2 / Real.pi * t ≤ Real.sin t := Real.mul_le_sin ht.le hb
  have k2 : t ≤ 0.00223 := by
    have : t ≤ Real.pi / 2 * Real.sin t := by
      have := mul_le_mul_of_nonneg_left k1 (by positivity : 0 ≤ Real.pi / 2)
      have e : Real.pi / 2 * (2 / Real.pi * t) = t := by field_simp
      linarith
    have k : Real.pi / 2 * Real.sin t ≤ 3.141593 / 2 * 0.00141 := by
      have : Real.pi / 2 * Real.sin t ≤ Real.pi / 2 * 0.00141 := mul_le_mul_of_nonneg_left key (by positivity)
      linarith
    norm_num at k ⊢
    linarith
  have k3 := Real.sin_gt_sub_cube ht
  have k4 : t ^ 3 ≤ 0.00223 ^ 3 := pow_le_pow_left₀ ht.le k2 3
  norm_num at key k4 ⊢
  linarith

theorem asin_val {x : Int} (h : -65536 < x ∧ x < 65536) :
    ∃ r : Int, asin x = .ok r ∧ |(r : ℝ) / 65536 - Real.arcsin ((x : ℝ) / 65536)| ≤ 0.01172 := by
  obtain ⟨m, s, hm, hc, hs, s1, s2, hS⟩ := asin_side h
  have hs0 : (0 : ℝ) < s := by exact_mod_cast (by omega : 0 < s)
  obtain ⟨q, hq, gq, -⟩ := div_real (x := x) (y := s) (by unfold Num; omega) ⟨by omega, by omega⟩ (by omega)
  have hx1 : (-65536 : ℝ) < x := by exact_mod_cast h.1
  have hx2 : (x : ℝ) < 65536 := by exact_mod_cast h.2
  have s1' : (362 : ℝ) ≤ s := by exact_mod_cast s1
  have hqr : |(q : ℝ)| ≤ 12000000 := by
    have e : |65536 * (x : ℝ) / s| ≤ 11900000 := by
      rw [abs_div, abs_of_pos hs0, div_le_iff₀ hs0, abs_le]
      constructor <;> linarith
    rw [abs_le] at *
    constructor <;> linarith [gq.1, gq.2, e.1, e.2]
  have hqi : |q| ≤ 12000000 := by exact_mod_cast hqr
  obtain ⟨r, hr, gr⟩ := C127_atan_partial q (by omega)
  refine ⟨r, ?_, ?_⟩
  · unfold asin
    rw [if_pos (by unfold one; omega), hm, Out.bind_ok, hc, Out.bind_ok, hs, Out.bind_ok, hq, Out.bind_ok, hr]
  -- the exact angle
  set c : ℝ := (x : ℝ) / 65536 with hcdef
  have c1 : -1 < c := by rw [hcdef, lt_div_iff₀ (by norm_num)]; linarith
  have c2 : c < 1 := by rw [hcdef, div_lt_iff₀ (by norm_num)]; linarith
  set θ := Real.arcsin c with hθ
  have t1 : -(Real.pi / 2) < θ := Real.neg_pi_div_two_lt_arcsin.2 c1
  have t2 : θ < Real.pi / 2 := Real.arcsin_lt_pi_div_two.2 c2
  have hsin : Real.sin θ = c := Real.sin_arcsin c1.le c2.le
  have hcos : Real.cos θ = √(1 - c ^ 2) := Real.cos_arcsin c
  have hp := angle_pert (S := (s : ℝ) / 65536) t1 t2 (by positivity) (by rw [hcos]; exact hS)
  rw [hsin] at hp
  have hqs : |(q : ℝ) / 65536 - c / ((s : ℝ) / 65536)| ≤ 1 / 131072 := by
    have e : c / ((s : ℝ) / 65536) = (65536 * x / s) / 65536 := by rw [hcdef]; field_simp
    rw [e, ← sub_div, abs_div, abs_of_pos (by norm_num : (0 : ℝ) < 65536), div_le_iff₀ (by norm_num)]
    linarith
  have hl := (abs_arctan_sub_le ((q : ℝ) / 65536) (c / ((s : ℝ) / 65536))).trans hqs
  rw [abs_le] at hp gr hl ⊢
  norm_num at hp gr hl ⊢
  constructor <;> linarith [hp.1, hp.2, gr.1, gr.2, hl.1, hl.2]

/-- **C128, partial.** Strictly inside the domain `asin` and `acos` are defined and within `0.0118` of
the exact functions. Missing: the two end points, where both are wrong (`C128_false`). -/
theorem C128_asin_partial (x : Int) (h : -65536 < x ∧ x < 65536) :
    (∃ r : Int, asin x = .ok r ∧ |(r : ℝ) / 65536 - Real.arcsin ((x : ℝ) / 65536)| ≤ 0.0118) ∧
    ∃ r : Int, acos x = .ok r ∧ |(r : ℝ) / 65536 - Real.arccos ((x : ℝ) / 65536)| ≤ 0.0118 := by
  obtain ⟨r, hr, g⟩ := asin_val h
  have p1 := Real.pi_gt_d6
  have p2 := Real.pi_lt_d6
  have a1 := Real.neg_pi_div_two_le_arcsin ((x : ℝ) / 65536)
  have a2 := Real.arcsin_le_pi_div_two ((x : ℝ) / 65536)
  refine ⟨⟨r, hr, g.trans (by norm_num)⟩, fPi2 - r, ?_, ?_⟩
  · have b : -200000 < r ∧ r < 200000 := by
      rw [abs_le] at g
      norm_num at g p2
      have b1 : (-200000 : ℝ) < r := by linarith [g.1]
      have b2 : (r : ℝ) < 200000 := by linarith [g.2]
      exact ⟨by exact_mod_cast b1, by exact_mod_cast b2⟩
    unfold acos
    rw [hr, Out.bind_ok, chk_ok (by unfold fPi2; omega)]
  · rw [Real.arccos]
    unfold fPi2
    push_cast
    rw [abs_le] at g ⊢
    norm_num at g p1 p2 ⊢
    constructor <;> linarith [g.1, g.2]

example : asin 32768 = .ok 34480 := by decide +kernel

/-- At the end points the quotient divides by an error sentinel: `asin 1` is -0.00002 instead of `π/2`,
and `acos 1` is `π/2` instead of 0. -/
theorem C128_false : asin one = .ok (-1) ∧ asin (-one) = .ok 1 ∧ acos one = .ok 102945 ∧
    acos (-one) = .ok 102943 := by
  refine ⟨?_, ?_, ?_, ?_⟩ <;> decide +kernel

/-- **C128.** Outside the domain `asin` answers 0 and `acos` answers `π/2`, no error value. -/
theorem C128_outside (x : Int) (h : one < x ∨ x < -one) : asin x = .ok 0 ∧ acos x = .ok 102944 := by
  have e : asin x = .ok 0 := by
    unfold asin
    rw [if_neg (by omega)]
    rfl
  refine ⟨e, ?_⟩
  unfold acos
  rw [e]
  decide

example : one < 65537 ∨ (65537 : Int) < -one := by decide

end Verif.Fp16
