import Verif.Ffmath.Mod

/-!
# `ffmath::frac` and `ffmath::rem` in IEEE arithmetic (C94)
-/

namespace Verif.Ffmath
open Verif F32

/-- The truncated value lies between zero and the argument, less than one away from it. -/
theorem trunc_bounds {x : BitVec 32} (h : Finite x) : Finite (trunc x) ∧ ∃ n : ℤ, val (trunc x) = n ∧
    (0 ≤ val x → 0 ≤ val (trunc x) ∧ val (trunc x) ≤ val x ∧ val x < val (trunc x) + 1) ∧
    (val x ≤ 0 → val (trunc x) ≤ 0 ∧ val x ≤ val (trunc x) ∧ val (trunc x) - 1 < val x) := by
  obtain ⟨f, -, v⟩ := C30_trunc x h
  refine ⟨f, ?_⟩
  by_cases hx : 0 ≤ val x
  · rw [if_pos hx] at v
    have h0 : (0 : ℚ) ≤ ((⌊val x⌋ : ℤ) : ℚ) := by exact_mod_cast Int.floor_nonneg.2 hx
    have h1 := Int.floor_le (val x)
    have h2 := Int.lt_floor_add_one (val x)
    refine ⟨_, v, fun _ => ?_, fun h' => ?_⟩
    · rw [v]; exact ⟨h0, h1, h2⟩
    · have e : val x = 0 := le_antisymm h' hx
      rw [v, e]; norm_num
  · rw [if_neg hx] at v
    have hx' := (not_le.1 hx).le
    have h0 : ((⌈val x⌉ : ℤ) : ℚ) ≤ 0 := by exact_mod_cast Int.ceil_le.2 (by simpa using hx')
    have h1 := Int.le_ceil (val x)
    have h2 := Int.ceil_lt_add_one (val x)
    refine ⟨_, v, fun h' => absurd h' hx, fun _ => ?_⟩
    rw [v]; exact ⟨h0, h1, by linarith⟩

/-- **C94** (part) `frac` is exact: it is the difference of the argument and its integer part, less than one in magnitude, with
the sign of the argument. -/
theorem C94_frac (x : BitVec 32) (h : Finite x) : Finite (ffrac x) ∧ val (ffrac x) = val x - val (trunc x) ∧
    |val (ffrac x)| < 1 ∧ (0 ≤ val x → 0 ≤ val (ffrac x)) ∧ (val x ≤ 0 → val (ffrac x) ≤ 0) ∧ ∃ n : ℤ, val x - val (ffrac x) = n := by
  obtain ⟨ft, n, vn, hp, hm⟩ := trunc_bounds h
  have main : Finite (ffrac x) ∧ val (ffrac x) = val x - val (trunc x) := by
    unfold ffrac
    rw [sub_fin h ft]
    obtain ⟨k, t, h1, h2, h3, h4, h5⟩ := val_dyadic h
    by_cases ht : 0 ≤ t
    · -- an integer: the difference is zero
      have hz : val x - val (trunc x) = 0 := by
        have hi : val x = ((k * 2 ^ t.toNat : ℤ) : ℚ) := by
          rw [h4]; push_cast
          rw [← zpow_natCast, Int.toNat_of_nonneg ht]
        have hd : |val x - val (trunc x)| < 1 := by
          rw [abs_lt]
          rcases le_total 0 (val x) with hx | hx
          · obtain ⟨a, b, c⟩ := hp hx; constructor <;> linarith
          · obtain ⟨a, b, c⟩ := hm hx; constructor <;> linarith
        rw [hi, vn] at hd ⊢
        have : |k * 2 ^ t.toNat - n| < 1 := by exact_mod_cast hd
        have : k * 2 ^ t.toNat - n = 0 := by rwa [Int.abs_lt_one_iff] at this
        exact_mod_cast this
      rw [hz]
      have := rnd_int (neg x && !neg (trunc x)) (k := 0) (by norm_num)
      simpa using this
    · -- a multiple of `2^t` no larger than the argument
      have e : val x - val (trunc x) = ((k - n * 2 ^ (-t).toNat : ℤ) : ℚ) * 2 ^ t := by
        rw [h4, vn]; push_cast
        rw [sub_mul, mul_assoc, ← zpow_natCast, Int.toNat_of_nonneg (by omega), ← zpow_add₀ (by norm_num)]
        simp
      have hle : |val x - val (trunc x)| ≤ |val x| := by
        rcases le_total 0 (val x) with hx | hx
        · obtain ⟨a, b, c⟩ := hp hx
          rw [abs_of_nonneg hx, abs_of_nonneg (by linarith)]; linarith
        · obtain ⟨a, b, c⟩ := hm hx
          rw [abs_of_nonpos hx, abs_of_nonpos (by linarith)]; linarith
      have hk : |k - n * 2 ^ (-t).toNat| ≤ |k| := by
        rw [e, h4, abs_mul, abs_mul] at hle
        have := le_of_mul_le_mul_right hle (abs_pos.2 (two_zpow_pos t).ne')
        exact_mod_cast this
      rw [e]
      exact rnd_dyadic _ h1 (by omega) (by omega)
  refine ⟨main.1, main.2, ?_, ?_, ?_, n, ?_⟩
  · rw [main.2, abs_lt]
    rcases le_total 0 (val x) with hx | hx
    · obtain ⟨a, b, c⟩ := hp hx; constructor <;> linarith
    · obtain ⟨a, b, c⟩ := hm hx; constructor <;> linarith
  · intro hx; rw [main.2]; linarith [(hp hx).2.1]
  · intro hx; rw [main.2]; linarith [(hm hx).2.1]
  · rw [main.2, ← vn]; ring

/-- The remainder of integers, given the quotient. -/
theorem rem_core {a n d m : ℤ} (ha : |a| ≤ 8388608) (ha0 : a ≠ 0) (hn0 : n ≠ 0) (hn : |n| ≤ 8388608) (e1 : a = n * d + m)
    (hm : |m| < |n|) (hs : (0 ≤ d ∧ 0 ≤ m * n) ∨ (d ≤ 0 ∧ m * n ≤ 0)) :
    Finite (rem (lit (a : ℚ)) (lit (n : ℚ))) ∧ val (rem (lit (a : ℚ)) (lit (n : ℚ))) = m := by
  obtain ⟨fa, va⟩ := lit_int (k := a) (by omega)
  obtain ⟨fn, vn⟩ := lit_int (k := n) (by omega)
  generalize lit (a : ℚ) = x at *
  generalize lit (n : ℚ) = y at *
  have hnq : (n : ℚ) ≠ 0 := by exact_mod_cast hn0
  have hnp : (0 : ℚ) < |(n : ℚ)| := abs_pos.2 hnq
  have hn1 : (1 : ℚ) ≤ |(n : ℚ)| := by exact_mod_cast Int.one_le_abs hn0
  have haq : |(a : ℚ)| ≤ 8388608 := by exact_mod_cast ha
  have h0 : val y ≠ 0 := by rw [vn]; exact hnq
  have hQ : |val x / val y| ≤ 8388608 := by
    rw [va, vn, abs_div, div_le_iff₀ hnp]; nlinarith [abs_nonneg (a : ℚ)]
  obtain ⟨fc, vc⟩ := lit_int (k := 8388608) (by norm_num)
  have vc' : val (lit ((8388608 : ℤ) : ℚ)) = 8388608 := by rw [vc]; norm_num
  obtain ⟨b1, b2⟩ := btw_of_abs (c := lit ((8388608 : ℤ) : ℚ)) (q := val x / val y)
    (by rw [vc']; exact hQ)
  obtain ⟨fQ, q1, q2⟩ := div_btw fa fn h0 (finite_negate.2 fc) fc b1 b2
  have eQ := div_err fa fn h0 fQ
  have eQ' : |val (div x y) - val x / val y| < 1 / |(n : ℚ)| := by
    refine lt_of_le_of_lt eQ (max_lt ?_ ?_)
    · rw [va, vn, abs_div, div_mul_eq_mul_div]
      apply div_lt_div_of_pos_right _ hnp
      calc |(a : ℚ)| * 2 ^ (-24 : ℤ) ≤ 8388608 * 2 ^ (-24 : ℤ) :=
            mul_le_mul_of_nonneg_right haq (two_zpow_pos _).le
        _ < 1 := by norm_num
    · rw [lt_div_iff₀ hnp]
      have : |(n : ℚ)| ≤ 8388608 := by exact_mod_cast hn
      calc (2 : ℚ) ^ (-150 : ℤ) * |(n : ℚ)| ≤ 2 ^ (-150 : ℤ) * 8388608 :=
            mul_le_mul_of_nonneg_left this (two_zpow_pos _).le
        _ < 1 := by norm_num
  have hq : val x / val y = (d : ℚ) + (m : ℚ) / n := by
    rw [va, vn]
    have : (a : ℚ) = n * (d : ℚ) + (m : ℚ) := by exact_mod_cast e1
    rw [this]; field_simp
  have hf1 : |(m : ℚ) / n| + 1 / |(n : ℚ)| ≤ 1 := by
    rw [abs_div, ← add_div, div_le_one hnp]; exact_mod_cast (by omega : |m| + 1 ≤ |n|)
  have hnd : |n * d| ≤ 16777216 := by
    have h1 : n * d = a - m := by omega
    rw [h1]
    have := abs_sub a m
    omega
  have hd : |d| ≤ 16777216 := by
    rw [abs_mul] at hnd
    have := Int.one_le_abs hn0
    nlinarith [abs_nonneg d]
  obtain ⟨fd, vd⟩ := lit_int (k := d) hd
  obtain ⟨ft, nt, vt, hp, hmn⟩ := trunc_bounds fQ
  obtain ⟨l1, l2⟩ := abs_lt.1 eQ'
  have hT : val (trunc (div x y)) = d := by
    rw [vt]
    suffices nt = d by rw [this]
    rcases hs with ⟨hd0, hmn0⟩ | ⟨hd0, hmn0⟩
    · have hf : 0 ≤ (m : ℚ) / n := by
        rw [div_eq_mul_inv, ← div_eq_mul_inv, ← mul_div_mul_right _ _ hnq]
        exact div_nonneg (by exact_mod_cast hmn0) (mul_self_nonneg _)
      rw [abs_of_nonneg hf] at hf1
      have lo : (d : ℚ) ≤ val (div x y) := by
        rw [← vd, div_fin fa fn h0]
        exact le_rnd fd (by rw [vd, hq]; linarith)
      have hd0q : (0 : ℚ) ≤ d := by exact_mod_cast hd0
      obtain ⟨a1, a2, a3⟩ := hp (by linarith)
      rw [vt] at a1 a2 a3
      have k1 : (nt : ℚ) < d + 1 := by rw [hq] at l2; linarith
      have k2 : (d : ℚ) < nt + 1 := by linarith
      have k1' : nt < d + 1 := by exact_mod_cast k1
      have k2' : d < nt + 1 := by exact_mod_cast k2
      omega
    · have hf : (m : ℚ) / n ≤ 0 := by
        rw [← mul_div_mul_right _ _ hnq]
        exact div_nonpos_of_nonpos_of_nonneg (by exact_mod_cast hmn0) (mul_self_nonneg _)
      rw [abs_of_nonpos hf] at hf1
      have up : val (div x y) ≤ d := by
        rw [← vd, div_fin fa fn h0]
        exact rnd_le fd (by rw [vd, hq]; linarith)
      have hd0q : (d : ℚ) ≤ 0 := by exact_mod_cast hd0
      obtain ⟨a1, a2, a3⟩ := hmn (by linarith)
      rw [vt] at a1 a2 a3
      have k1 : (d : ℚ) - 1 < nt := by rw [hq] at l1; linarith
      have k2 : (nt : ℚ) - 1 < d := by linarith
      have k1' : d - 1 < nt := by exact_mod_cast k1
      have k2' : nt - 1 < d := by exact_mod_cast k2
      omega
  obtain ⟨fp, vp⟩ := lit_int (k := n * d) hnd
  have P := mul_exact fn ft fp (by rw [vn, hT, vp]; push_cast; ring)
  obtain ⟨fr, vr⟩ := lit_int (k := m) (by omega)
  have M := sub_exact fa P.1 fr (by
    rw [va, P.2, vp, vr]
    have : (a : ℚ) = ((n * d : ℤ) : ℚ) + (m : ℚ) := by exact_mod_cast e1
    rw [this]; ring)
  rw [vr] at M
  unfold rem
  rw [if_neg (by rw [classify_zero', va]; exact_mod_cast ha0)]
  exact M

/-- **C94** (part) On integers up to `2^23` other than zero, `rem` is exactly the remainder of the division truncated toward zero:
smaller in magnitude than the divisor, with the sign of the dividend. Missing: a zero dividend (`C94_zero`), and dividends that
are not integers (`C94_sign_false`). -/
theorem C94_rem_partial (a n : ℤ) (ha : |a| ≤ 8388608) (ha0 : a ≠ 0) (hn0 : n ≠ 0) (hn : |n| ≤ 8388608) :
    Finite (rem (lit (a : ℚ)) (lit (n : ℚ))) ∧ val (rem (lit (a : ℚ)) (lit (n : ℚ))) = ((a.tmod n : ℤ) : ℚ) := by
  refine rem_core ha ha0 hn0 hn (d := a.tdiv n) (Int.mul_tdiv_add_tmod a n).symm ?_ ?_
  · have h1 := Int.natAbs_tmod a n
    have h2 := Nat.mod_lt a.natAbs (show n.natAbs > 0 by omega)
    rw [Int.abs_eq_natAbs, Int.abs_eq_natAbs]
    omega
  · have e := Int.mul_tdiv_add_tmod a n
    rcases lt_or_gt_of_ne ha0 with h | h <;> rcases lt_or_gt_of_ne hn0 with h' | h'
    · left
      refine ⟨Int.tdiv_nonneg_of_nonpos_of_nonpos h.le h'.le, mul_nonneg_of_nonpos_of_nonpos ?_ h'.le⟩
      have := Int.tmod_nonneg (a := -a) n (by omega)
      rw [Int.neg_tmod] at this; omega
    · right
      have hd := Int.tdiv_nonneg (a := -a) (by omega) h'.le
      rw [Int.neg_tdiv] at hd
      refine ⟨by omega, mul_nonpos_of_nonpos_of_nonneg ?_ h'.le⟩
      have := Int.tmod_nonneg (a := -a) n (by omega)
      rw [Int.neg_tmod] at this; omega
    · right
      refine ⟨Int.tdiv_nonpos_of_nonneg_of_nonpos h.le h'.le, mul_nonpos_of_nonneg_of_nonpos ?_ h'.le⟩
      exact Int.tmod_nonneg (a := a) n h.le
    · left
      exact ⟨Int.tdiv_nonneg h.le h'.le, mul_nonneg (Int.tmod_nonneg n h.le) h'.le⟩

/-- **C94** (negation, for every divisor) A zero dividend gives a NaN instead of zero. -/
theorem C94_zero (x y : BitVec 32) (h : val x = 0) : IsNaN (rem x y) := by
  unfold rem
  rw [if_pos ((classify_zero' x).2 h)]; decide +kernel

/-- **C94** (part) A zero divisor gives a NaN, as documented. -/
theorem C94_div_zero (x y : BitVec 32) (hx : Finite x) (h : val y = 0) : IsNaN (rem x y) := by
  by_cases h0 : val x = 0
  · exact C94_zero x y h0
  unfold rem
  rw [if_neg (by rw [classify_zero']; exact h0)]
  apply add_nan_right
  have hy : mag y = 0 := val_eq_zero.1 h
  have hx0 : mag x ≠ 0 := fun e => h0 (val_eq_zero.2 e)
  have fy : Finite y := by rw [finite_iff, hy]; norm_num
  have hd : div x y = pack (neg x ^^ neg y) 2139095040 := by
    unfold F32.div
    rw [if_neg (by rintro (h | h); exact hx.notNaN h; exact fy.notNaN h), if_neg hx.notInf, if_neg fy.notInf, if_pos hy, if_neg hx0]
  rw [hd]
  have inf2 : ∀ s, ¬ Finite (pack s 2139095040) ∧ IsInf (pack s 2139095040) ∧ ¬ IsNaN (pack s 2139095040) := by decide +kernel
  obtain ⟨i1, i2, i3⟩ := inf2 (neg x ^^ neg y)
  rw [(C30_nonfinite _ i1).2.2.1]
  have : IsNaN (mul y (pack (neg x ^^ neg y) 2139095040)) := by
    unfold F32.mul
    rw [if_neg (by rintro (h | h); exact fy.notNaN h; exact i3 h), if_pos (.inr i2), if_pos (.inl hy)]
    decide +kernel
  exact nan_negate.2 this

/-- **C94** (negation) The rounded quotient may reach an integer that the exact one does not: `rem(0.9, 0.1)` is negative; the
remainder by infinity is a NaN instead of the dividend, and the remainder by a tiny number is minus infinity. -/
theorem C94_sign_false : 0 < val (lit 0.9) ∧ 0 < val (lit 0.1) ∧ val (rem (lit 0.9) (lit 0.1)) = -1 / 16777216 ∧
    IsNaN (rem (lit 3) inf) ∧ rem (lit 1e38) (lit 1e-38) = negate inf := by decide +kernel

/-- Cases of the theorems above. -/
example : val (rem (lit 5) (lit (-3))) = 2 ∧ val (rem (lit (-5)) (lit 3)) = -2 ∧ val (ffrac (lit (-2.75))) = -0.75 := by
  decide +kernel

end Verif.Ffmath
