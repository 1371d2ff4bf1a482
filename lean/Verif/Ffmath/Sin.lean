import Verif.Ffmath.TrigReal
import Verif.Ffmath.Exp2

/-!
# `sin` (C86)

IEEE binary32 arithmetic.
-/

namespace Verif.Ffmath

open Verif F32

local infixl:65 " +ᶠ " => F32.add
local infixl:65 " -ᶠ " => F32.sub
local infixl:70 " *ᶠ " => F32.mul
local infixl:70 " /ᶠ " => F32.div
local notation:50 a:51 " ≤ᶠ " b:51 => F32.le a b

/-! ## Rounding as a function of values -/

/-- Value of the float nearest to `q`. Not a definition of the repository. -/
def fl (q : ℚ) : ℚ := val (rnd false q)

theorem val_rnd (s : Bool) (q : ℚ) : val (rnd s q) = fl q := by
  unfold fl; rw [val_kval, val_kval, key_rnd, key_rnd]

theorem fl_neg (q : ℚ) : fl (-q) = -fl q := by
  unfold fl; rw [val_kval, val_kval, key_rnd, key_rnd, rkey_neg, kval_neg]

theorem fl_mono {p q : ℚ} (h : p ≤ q) : fl p ≤ fl q := rnd_mono h

theorem fl_val {b : BitVec 32} (h : Finite b) : fl (val b) = val b := (rnd_exact h rfl).2

theorem fl_zero : fl 0 = 0 := by decide +kernel

theorem fl_abs (q : ℚ) : |fl q| = fl |q| := by
  rcases le_total 0 q with h | h
  · have := fl_mono h
    rw [fl_zero] at this
    rw [abs_of_nonneg h, abs_of_nonneg this]
  · have := fl_mono h
    rw [fl_zero] at this
    rw [abs_of_nonpos h, abs_of_nonpos this, fl_neg]

theorem near_abs {z : BitVec 32} {q e : ℝ} (h : Near z q e) : Near (absolute z) |q| e :=
  ⟨absolute_finite.2 h.fin, by
    rw [absolute_val]; push_cast
    exact (abs_abs_sub_abs_le _ _).trans h.err⟩

/-! ## The range reduction -/

theorem c25 : Finite (lit 25165824) ∧ val (lit 25165824) = 25165824 := by decide +kernel

/-- Adding and subtracting 25165824 leaves an even integer next to the argument, and the remainder
is exact. -/
theorem sin_reduce {a : BitVec 32} (ha : Finite a) (h : |val a| ≤ 8388607) :
    ∃ m : ℤ, |val a - (2 * m : ℤ)| ≤ 1 ∧ Finite (a -ᶠ ((a +ᶠ lit 25165824) -ᶠ lit 25165824)) ∧
      val (a -ᶠ ((a +ᶠ lit 25165824) -ᶠ lit 25165824)) = val a - (2 * m : ℤ) := by
  rw [_root_.abs_le] at h
  -- the nearest even integer
  obtain ⟨r, hr⟩ : ∃ r : ℤ, |val a - (2 * r : ℤ)| ≤ 1 := by
    refine ⟨round (val a / 2), ?_⟩
    have := abs_sub_round (val a / 2)
    rw [_root_.abs_le] at this ⊢
    push_cast
    constructor <;> linarith [this.1, this.2]
  have hr2 := _root_.abs_le.1 hr
  push_cast at hr2
  have rb : -4194304 ≤ r ∧ r ≤ 4194304 := by
    constructor
    · by_contra hh
      have : r ≤ -4194305 := by omega
      have : (r : ℚ) ≤ -4194305 := by exact_mod_cast this
      linarith [hr2.1, hr2.2]
    · by_contra hh
      have : 4194305 ≤ r := by omega
      have : (4194305 : ℚ) ≤ r := by exact_mod_cast this
      linarith [hr2.1, hr2.2]
  obtain ⟨b, hbf, hb⟩ := exists_float (k := 12582912 + r) (t := 1) (by norm_num)
    (by rw [_root_.abs_le]; omega) (by
      have : |((12582912 + r : ℤ) : ℚ)| ≤ 16777216 := by
        have : |12582912 + r| ≤ 16777216 := by rw [_root_.abs_le]; omega
        exact_mod_cast this
      calc |((12582912 + r : ℤ) : ℚ)| * 2 ^ (1 : ℤ) ≤ 16777216 * 2 ^ (1 : ℤ) := by gcongr
        _ < _ := by norm_num)
  have hyeq := add_fin ha c25.1
  rw [c25.2] at hyeq
  have hyn := rnd_near (s := neg a && neg (lit 25165824)) (q := val a + 25165824) (r := ((val a + 25165824 : ℚ) : ℝ)) (e := 0)
    (e' := 10) 4e7 (by simp) (by
      rw [_root_.add_zero]
      have : |val a + 25165824| ≤ 4e7 := by rw [_root_.abs_le]; norm_num at h ⊢; constructor <;> linarith [h.1, h.2]
      have : ((|val a + 25165824| : ℚ) : ℝ) ≤ ((4e7 : ℚ) : ℝ) := by exact_mod_cast this
      push_cast at this ⊢; norm_num at this ⊢; exact this) (by norm_num) (by norm_num)
  rw [← hyeq] at hyn
  have hyf := hyn.fin
  have hlow : 16777217 ≤ val a + 25165824 := by linarith
  have hynear : |val (a +ᶠ lit 25165824) - (val a + 25165824)| ≤ 1 := by
    have := rnd_nearest (s := neg a && neg (lit 25165824)) (q := val a + 25165824) (by rw [← hyeq]; exact hyf) b
    rw [← hyeq] at this
    refine this.trans ?_
    rw [hb, abs_sub_comm]
    push_cast
    rw [show val a + 25165824 - (12582912 + (r : ℚ)) * 2 = val a - (2 * r : ℤ) by push_cast; ring]
    exact hr
  set y := a +ᶠ lit 25165824 with hy
  have hyl : 16777216 ≤ val y := by
    have := (_root_.abs_le.1 hynear).1; linarith
  -- it is an even integer
  obtain ⟨k, t, t1, t2, k1, k2, k3⟩ := val_dyadic hyf
  have ht : 1 ≤ t := by
    by_contra hh
    have h0 : (2 : ℚ) ^ t ≤ 1 := by
      rw [show (1 : ℚ) = 2 ^ (0 : ℤ) by norm_num]; exact zpow_le_iff.2 (by omega)
    have k1' : (k : ℚ) ≤ 16777215 := by
      have : k ≤ 16777215 := by have := _root_.abs_lt.1 k1; omega
      exact_mod_cast this
    have h1 := two_zpow_pos t
    rcases le_total (k : ℚ) 0 with c | c
    · have : (k : ℚ) * 2 ^ t ≤ 0 := mul_nonpos_of_nonpos_of_nonneg c h1.le
      linarith
    · have : (k : ℚ) * 2 ^ t ≤ k * 1 := mul_le_mul_of_nonneg_left h0 c
      linarith
  obtain ⟨j, hj⟩ : ∃ j : ℤ, val y = (2 * j : ℤ) := by
    refine ⟨k * 2 ^ (t - 1).toNat, ?_⟩
    rw [k2]
    push_cast
    rw [← zpow_natCast, Int.toNat_of_nonneg (by omega), zpow_sub₀ (by norm_num)]
    norm_num; ring
  have hm : |val a - (2 * (j - 12582912) : ℤ)| ≤ 1 := by
    rw [abs_sub_comm]
    rw [hj] at hynear
    push_cast at hynear ⊢
    convert hynear using 2
    ring
  refine ⟨j - 12582912, hm, ?_⟩
  set m := j - 12582912 with hmdef
  have hm2 := _root_.abs_le.1 hm
  push_cast at hm2
  have mb : -4194304 ≤ m ∧ m ≤ 4194304 := by
    constructor
    · by_contra hh
      have : m ≤ -4194305 := by omega
      have : (m : ℚ) ≤ -4194305 := by exact_mod_cast this
      linarith [hm2.1, hm2.2]
    · by_contra hh
      have : 4194305 ≤ m := by omega
      have : (4194305 : ℚ) ≤ m := by exact_mod_cast this
      linarith [hm2.1, hm2.2]
  have hs : Finite (y -ᶠ lit 25165824) ∧ val (y -ᶠ lit 25165824) = (2 * m : ℤ) := by
    rw [sub_fin hyf c25.1, c25.2, hj]
    have := rnd_int (neg y && !neg (lit 25165824)) (k := 2 * m) (by rw [_root_.abs_le]; omega)
    rw [show ((2 * j : ℤ) : ℚ) - 25165824 = ((2 * m : ℤ) : ℚ) by rw [hmdef]; push_cast; ring]
    exact this
  rw [sub_fin ha hs.1, hs.2]
  by_cases m0 : m = 0
  · rw [m0]
    simp only [mul_zero, Int.cast_zero, sub_zero]
    exact rnd_exact ha rfl
  · -- the argument is at least one in magnitude, a multiple of 2^-23
    have ha1 : 1 ≤ |val a| := by
      rcases lt_or_gt_of_ne m0 with c | c
      · have : (m : ℚ) ≤ -1 := by exact_mod_cast (by omega : m ≤ -1)
        rw [le_abs]; right; linarith [hm2.1]
      · have : (1 : ℚ) ≤ m := by exact_mod_cast (by omega : 1 ≤ m)
        rw [le_abs]; left; linarith [hm2.2]
    obtain ⟨K, T, T1, T2, K1, K2, K3⟩ := val_dyadic ha
    have hT : -23 ≤ T := by
      by_contra hh
      have h0 : (2 : ℚ) ^ T ≤ 2 ^ (-24 : ℤ) := zpow_le_iff.2 (by omega)
      have h1 := two_zpow_pos T
      have K1' : |(K : ℚ)| ≤ 16777215 := by
        have : |K| ≤ 16777215 := by omega
        exact_mod_cast this
      rw [K2, abs_mul, abs_of_pos h1] at ha1
      have : |(K : ℚ)| * 2 ^ T ≤ 16777215 * 2 ^ (-24 : ℤ) := mul_le_mul K1' h0 h1.le (by norm_num)
      norm_num at this ha1
      linarith
    have hK : val a - (2 * m : ℤ) = ((K * 2 ^ (T + 23).toNat - 2 * m * 8388608 : ℤ) : ℚ) * 2 ^ (-23 : ℤ) := by
      rw [K2]
      push_cast
      rw [← zpow_natCast, Int.toNat_of_nonneg (by omega), zpow_add₀ (by norm_num)]
      norm_num
      ring
    have hKb : |K * 2 ^ (T + 23).toNat - 2 * m * 8388608| ≤ 16777216 := by
      have h1 := hm
      rw [hK, abs_mul, abs_of_pos (two_zpow_pos _)] at h1
      have : |((K * 2 ^ (T + 23).toNat - 2 * m * 8388608 : ℤ) : ℚ)| ≤ 16777216 := by
        rw [show (2 : ℚ) ^ (-23 : ℤ) = 1 / 8388608 by norm_num] at h1
        linarith
      exact_mod_cast this
    rw [hK]
    exact rnd_dyadic _ (by norm_num) (by norm_num) hKb

/-! ## The parabola -/

/-- Last two lines of `ffmath::sin`, `/repo/src/ffmath.cpp` lines 460-461. -/
def sinP (z : BitVec 32) : BitVec 32 :=
  let x := z *ᶠ (absolute z -ᶠ lit 1)
  x *ᶠ ((lit 3.5841304553896 *ᶠ absolute x) +ᶠ lit 3.1039673861526)

theorem sc1 : Finite (lit 3.5841304553896) ∧ |val (lit 3.5841304553896) - 3.5841304553896| ≤ 1e-7 := by decide +kernel
theorem sc0 : Finite (lit 3.1039673861526) ∧ |val (lit 3.1039673861526) - 3.1039673861526| ≤ 8e-8 := by decide +kernel
theorem scs : val (lit 3.5841304553896) = 15032933 / 4194304 ∧ val (lit 3.1039673861526) = 13018983 / 4194304 := by decide +kernel

theorem sinP_steps {z : BitVec 32} (hz : Finite z) (h : |val z| ≤ 1) :
    Near (absolute z -ᶠ lit 1) (|(val z : ℝ)| - 1) 6e-8 ∧
    Near (z *ᶠ (absolute z -ᶠ lit 1)) ((val z : ℝ) * (|(val z : ℝ)| - 1)) 8e-8 ∧
    Near (lit 3.5841304553896 *ᶠ absolute (z *ᶠ (absolute z -ᶠ lit 1)))
      (3.5841304553896 * |(val z : ℝ) * (|(val z : ℝ)| - 1)|) 4e-7 ∧
    Near ((lit 3.5841304553896 *ᶠ absolute (z *ᶠ (absolute z -ᶠ lit 1))) +ᶠ lit 3.1039673861526)
      (3.5841304553896 * |(val z : ℝ) * (|(val z : ℝ)| - 1)| + 3.1039673861526) 8e-7 ∧
    Near (sinP z) (sinR (val z)) 6e-7 := by
  have hZ : |(val z : ℝ)| ≤ 1 := by
    have : ((|val z| : ℚ) : ℝ) ≤ ((1 : ℚ) : ℝ) := by exact_mod_cast h
    push_cast at this; exact this
  have n0 : Near z (val z) 0 := Near.self hz
  have n1 := near_abs n0
  have hw : |(val z : ℝ) * (|(val z : ℝ)| - 1)| ≤ 1 / 4 := by
    rw [abs_mul, abs_sub_comm, abs_of_nonneg (by linarith : 0 ≤ 1 - |(val z : ℝ)|)]
    nlinarith [sq_nonneg (|(val z : ℝ)| - 1 / 2)]
  have hd : |(|(val z : ℝ)| - 1)| ≤ 1 := by
    rw [_root_.abs_le]; constructor <;> linarith [abs_nonneg (val z : ℝ)]
  have hs : sinR (val z) = (val z : ℝ) * (|(val z : ℝ)| - 1) *
    (3.5841304553896 * |(val z : ℝ) * (|(val z : ℝ)| - 1)| + 3.1039673861526) := rfl
  rw [hs]
  have one : Near (lit 1) 1 0 := near_lit exp2_c6 (by norm_num) (by norm_num)
  have n2 := Near.sub (e' := 6e-8) 1 n1 one (by rw [_root_.add_zero, _root_.add_zero]; exact hd) (by norm_num) (by norm_num)
  generalize hz' : (val z : ℝ) = Z at *
  generalize hd' : |Z| - 1 = d at *
  generalize hD' : absolute z -ᶠ lit 1 = D at *
  have n3 := Near.mul (e' := 8e-8) 1 1 6e-8 0.26 n0 n2 hZ hd (by norm_num) (by norm_num at hw ⊢; linarith) (by norm_num) (by norm_num)
  have n4 := near_abs n3
  have c1 : Near (lit 3.5841304553896) 3.5841304553896 1e-7 := near_lit sc1 (by norm_num) (by norm_num)
  have c0 : Near (lit 3.1039673861526) 3.1039673861526 8e-8 := near_lit sc0 (by norm_num) (by norm_num)
  have e : sinP z = (z *ᶠ D) *ᶠ ((lit 3.5841304553896 *ᶠ absolute (z *ᶠ D)) +ᶠ lit 3.1039673861526) := by
    unfold sinP; rw [hD']
  rw [e]
  generalize z *ᶠ D = W at *
  generalize Z * d = w at *
  have hw' : |(|w|)| ≤ 1 / 4 := by rw [abs_abs]; exact hw
  have n5 := Near.mul (e' := 4e-7) 3.6 (1 / 4) 3.2e-7 0.91 c1 n4 (by rw [abs_of_pos (by norm_num)]; norm_num) hw'
    (by norm_num) (by
      rw [abs_mul, abs_abs, abs_of_pos (by norm_num : (0 : ℝ) < 3.5841304553896)]
      norm_num at hw ⊢; linarith) (by norm_num) (by norm_num)
  have n6 := Near.add (e' := 8e-7) 4.1 n5 c0 (by
      rw [abs_of_nonneg (by positivity)]
      norm_num at hw ⊢; linarith) (by norm_num) (by norm_num)
  have h7 : |3.5841304553896 * |w| + 3.1039673861526| ≤ 4.01 := by
    rw [abs_of_nonneg (by positivity)]
    norm_num at hw ⊢; linarith
  have n7 := Near.mul (e' := 6e-7) (1 / 4) 4.01 5.3e-7 1.1 n3 n6 hw h7 (by norm_num) (by
      rw [abs_mul]
      have := mul_le_mul hw h7 (abs_nonneg _) (by norm_num)
      norm_num at this ⊢; linarith) (by norm_num) (by norm_num)
  exact ⟨n2, n3, n5, n6, n7⟩

/-- Values of the last two lines. Not a definition of the repository. -/
def sinV (z : ℚ) : ℚ :=
  fl (fl (z * fl (|z| - 1)) * fl (fl (val (lit 3.5841304553896) * |fl (z * fl (|z| - 1))|) + val (lit 3.1039673861526)))

theorem sinP_val {z : BitVec 32} (hz : Finite z) (h : |val z| ≤ 1) : val (sinP z) = sinV (val z) := by
  obtain ⟨n1, n2, n3, n4, n5⟩ := sinP_steps hz h
  unfold sinP sinV
  have e1 : val (absolute z -ᶠ lit 1) = fl (|val z| - 1) := by
    rw [sub_fin (absolute_finite.2 hz) fin_one, val_rnd, absolute_val, val_one]
  have e2 : val (z *ᶠ (absolute z -ᶠ lit 1)) = fl (val z * fl (|val z| - 1)) := by
    rw [mul_fin hz n1.fin, val_rnd, e1]
  have e3 : val (lit 3.5841304553896 *ᶠ absolute (z *ᶠ (absolute z -ᶠ lit 1))) =
      fl (val (lit 3.5841304553896) * |fl (val z * fl (|val z| - 1))|) := by
    rw [mul_fin sc1.1 (absolute_finite.2 n2.fin), val_rnd, absolute_val, e2]
  have e4 : val ((lit 3.5841304553896 *ᶠ absolute (z *ᶠ (absolute z -ᶠ lit 1))) +ᶠ lit 3.1039673861526) =
      fl (fl (val (lit 3.5841304553896) * |fl (val z * fl (|val z| - 1))|) + val (lit 3.1039673861526)) := by
    rw [add_fin n3.fin sc0.1, val_rnd, e3]
  show val ((z *ᶠ (absolute z -ᶠ lit 1)) *ᶠ ((lit 3.5841304553896 *ᶠ absolute (z *ᶠ (absolute z -ᶠ lit 1))) +ᶠ lit 3.1039673861526)) = _
  rw [mul_fin n2.fin n4.fin, val_rnd, e2, e4]

theorem sinV_neg (z : ℚ) : sinV (-z) = -sinV z := by
  unfold sinV
  rw [abs_neg, neg_mul, fl_neg, abs_neg, neg_mul, fl_neg]

theorem sinV_one : sinV 1 = 0 ∧ sinV (-1) = 0 := by decide +kernel

theorem fl_le {q : ℚ} {b : BitVec 32} (hb : Finite b) (h : q ≤ val b) : fl q ≤ val b := rnd_le hb h

theorem le_fl {q : ℚ} {b : BitVec 32} (hb : Finite b) (h : val b ≤ q) : val b ≤ fl q := le_rnd hb h

theorem fl_consts : fl (1 / 4 + 1 / 67108864) = 1 / 4 ∧ fl (-1) = -1 ∧ fl (1 / 8) = 1 / 8 ∧ fl 1 = 1 ∧
    fl (fl (val (lit 3.5841304553896) * (1 / 4)) + val (lit 3.1039673861526)) = 4 := by decide +kernel

/-- The parabola never exceeds its maximum. -/
theorem sinW_bound {z : ℚ} (h : |z| ≤ 1) : |fl (z * fl (|z| - 1))| ≤ 1 / 4 := by
  obtain ⟨c1, c2, c3, c4, -⟩ := fl_consts
  rw [fl_abs, abs_mul, fl_abs, abs_sub_comm, abs_of_nonneg (by linarith : 0 ≤ 1 - |z|)]
  have hu := abs_nonneg z
  generalize |z| = u at *
  rw [← c1]
  apply fl_mono
  have f0 : 0 ≤ fl (1 - u) := by rw [← fl_zero]; exact fl_mono (by linarith)
  rcases le_total (1 - u) (1 / 8) with c | c
  · have h1 : fl (1 - u) ≤ 1 / 8 := by rw [← c3]; exact fl_mono c
    calc u * fl (1 - u) ≤ 1 * (1 / 8) := mul_le_mul h h1 f0 (by norm_num)
      _ ≤ _ := by norm_num
  · have hq : |1 - u| = 1 - u := abs_of_nonneg (by linarith)
    obtain ⟨ε, e1, e2⟩ := (rnd_eps' (s := false) (q := 1 - u) (by rw [hq]; refine le_trans ?_ c; norm_num)
      (by rw [hq]; norm_num; linarith)).2
    have h1 : fl (1 - u) ≤ (1 - u) * (1 + 1 / 16777216) := by
      unfold fl
      rw [e2]
      have := (_root_.abs_le.1 e1).2
      refine mul_le_mul_of_nonneg_left ?_ (by linarith)
      norm_num at this ⊢
      linarith
    calc u * fl (1 - u) ≤ u * ((1 - u) * (1 + 1 / 16777216)) := mul_le_mul_of_nonneg_left h1 hu
      _ = (u * (1 - u)) * (1 + 1 / 16777216) := by ring
      _ ≤ (1 / 4) * (1 + 1 / 16777216) := by
        apply mul_le_mul_of_nonneg_right _ (by norm_num)
        nlinarith [sq_nonneg (u - 1 / 2)]
      _ = _ := by norm_num

theorem sinV_bound {z : ℚ} (h : |z| ≤ 1) : |sinV z| ≤ 1 := by
  obtain ⟨c1, c2, c3, c4, c5⟩ := fl_consts
  have hw := sinW_bound h
  unfold sinV
  generalize fl (z * fl (|z| - 1)) = w at *
  rw [fl_abs, abs_mul, fl_abs]
  rw [scs.1, scs.2] at *
  have h1 : fl (15032933 / 4194304 * |w|) ≤ fl (15032933 / 4194304 * (1 / 4)) :=
    fl_mono (mul_le_mul_of_nonneg_left hw (by norm_num))
  have h0 : 0 ≤ fl (15032933 / 4194304 * |w|) := by
    rw [← fl_zero]; exact fl_mono (mul_nonneg (by norm_num) (abs_nonneg _))
  rw [abs_of_nonneg (by linarith : 0 ≤ fl (15032933 / 4194304 * |w|) + 13018983 / 4194304)]
  have h2 : fl (fl (15032933 / 4194304 * |w|) + 13018983 / 4194304) ≤ 4 := by
    rw [← c5]; exact fl_mono (by linarith)
  have h3 : 0 ≤ fl (fl (15032933 / 4194304 * |w|) + 13018983 / 4194304) := by
    rw [← fl_zero]; exact fl_mono (by linarith)
  conv_rhs => rw [← c4]
  apply fl_mono
  calc |w| * fl (fl (15032933 / 4194304 * |w|) + 13018983 / 4194304) ≤ 1 / 4 * 4 := mul_le_mul hw h2 h3 (by norm_num)
    _ = 1 := by norm_num

/-! ## The function -/

theorem inf_bits {x : BitVec 32} (h : IsInf x) : x = 0x7F800000#32 ∨ x = 0xFF800000#32 := by
  have h1 := (inf_iff x).1 h
  cases hn : neg x
  · left; apply eq_of_neg_mag
    · rw [hn]; decide +kernel
    · rw [h1]; decide +kernel
  · right; apply eq_of_neg_mag
    · rw [hn]; decide +kernel
    · rw [h1]; decide +kernel

theorem sin_lim : Finite (lit 0.0066) ∧ 0.0065999 ≤ val (lit 0.0066) ∧ val (lit 0.0066) ≤ 0.0066001 := by decide +kernel
theorem sin_pi : Finite (negate FFP_1_PI) ∧ val (negate FFP_1_PI) = -(10680707 / 33554432) := by decide +kernel

theorem sin_small {x : BitVec 32} (hx : Finite x) (h : |val x| ≤ val (lit 0.0066)) : sin x = x := by
  unfold sin
  rw [if_pos]
  rw [le_fin (absolute_finite.2 hx) sin_lim.1, absolute_val]
  simpa using h

/-- Reduced argument. -/
theorem sin_large {x : BitVec 32} (hx : Finite x) (h : val (lit 0.0066) < |val x|) (h2 : |val x| ≤ 2.6e7) :
    ∃ z m, sin x = sinP z ∧ Finite z ∧ |val z| ≤ 1 ∧ val z = fl (-(val x * (10680707 / 33554432))) - (2 * m : ℤ) := by
  have hA : Finite (x *ᶠ negate FFP_1_PI) ∧ val (x *ᶠ negate FFP_1_PI) = fl (-(val x * (10680707 / 33554432))) ∧
      |val (x *ᶠ negate FFP_1_PI)| ≤ 8388607 := by
    have hm : |val x * val (negate FFP_1_PI)| ≤ 8388607 := by
      rw [abs_mul, sin_pi.2, abs_neg, abs_of_pos (by norm_num : (0 : ℚ) < 10680707 / 33554432)]
      norm_num at h2 ⊢; linarith
    have hc : Finite (lit 8388607) ∧ val (lit 8388607) = 8388607 := by decide +kernel
    have hb := rnd_between (s := neg x ^^ neg (negate FFP_1_PI)) (q := val x * val (negate FFP_1_PI)) (finite_negate.2 hc.1) hc.1
      (by rw [val_negate, hc.2]; exact (_root_.abs_le.1 hm).1) (by rw [hc.2]; exact (_root_.abs_le.1 hm).2)
    rw [mul_fin hx sin_pi.1]
    refine ⟨hb.1, ?_, ?_⟩
    · rw [val_rnd, sin_pi.2, mul_neg]
    · rw [_root_.abs_le]
      rw [val_negate (lit 8388607), hc.2] at hb
      exact hb.2
  obtain ⟨m, h1, h3, h4⟩ := sin_reduce hA.1 hA.2.2
  refine ⟨_, m, ?_, h3, ?_, ?_⟩
  · unfold sin
    rw [if_neg]
    · rfl
    rw [le_fin (absolute_finite.2 hx) sin_lim.1, absolute_val]
    simpa using h
  · rw [h4]; exact h1
  · rw [h4, hA.2.1]

theorem sin_cube {x : ℝ} (h : |x| ≤ 0.0066001) : |x - Real.sin x| ≤ 1e-7 := by
  have := Real.sin_bound (x := x) (h.trans (by norm_num))
  have h3 : |x| ^ 3 ≤ 0.0066001 ^ 3 := by gcongr
  have h4 : |x| ^ 5 ≤ 0.0066001 ^ 5 := by gcongr
  have h5 : |x ^ 3 / 6| ≤ 0.0066001 ^ 3 / 6 := by rw [abs_div, abs_pow, abs_of_pos (by norm_num : (0 : ℝ) < 6)]; gcongr
  have : |x - Real.sin x| ≤ |Real.sin x - (x - x ^ 3 / 6)| + |x ^ 3 / 6| := by
    have := abs_sub (x ^ 3 / 6) (Real.sin x - (x - x ^ 3 / 6))
    rw [show x ^ 3 / 6 - (Real.sin x - (x - x ^ 3 / 6)) = x - Real.sin x by ring] at this
    linarith
  norm_num at *
  linarith

/-- **C86 (partial).** `sin` is finite and within `9.51e-4 + 1.01e-7 |x|` of the sine for every finite
argument up to 26 million in magnitude. Beyond, the claim is false: `C86_false`. -/
theorem C86_accuracy_partial (x : BitVec 32) (hx : Finite x) (h : |val x| ≤ 2.6e7) :
    Finite (sin x) ∧ |(val (sin x) : ℝ) - Real.sin (val x)| ≤ 9.51e-4 + 1.01e-7 * |(val x : ℝ)| := by
  by_cases hs : |val x| ≤ val (lit 0.0066)
  · rw [sin_small hx hs]
    refine ⟨hx, ?_⟩
    have h1 : |(val x : ℝ)| ≤ 0.0066001 := by
      have : ((|val x| : ℚ) : ℝ) ≤ ((0.0066001 : ℚ) : ℝ) := by exact_mod_cast hs.trans sin_lim.2.2
      push_cast at this; norm_num at this ⊢; exact this
    have h2 := sin_cube h1
    have h3 := abs_nonneg (val x : ℝ)
    generalize |(val x : ℝ) - Real.sin (val x)| = A at *
    generalize |(val x : ℝ)| = B at *
    norm_num at h2 ⊢
    linarith
  · obtain ⟨z, m, e, hz, hz1, hzv⟩ := sin_large hx (not_le.1 hs) h
    have hn := (sinP_steps hz hz1).2.2.2.2
    rw [e]
    refine ⟨hn.fin, ?_⟩
    have hz1' : |(val z : ℝ)| ≤ 1 := by
      have : ((|val z| : ℚ) : ℝ) ≤ ((1 : ℚ) : ℝ) := by exact_mod_cast hz1
      push_cast at this; exact this
    have hc := sinR_close hz1'
    -- the argument of the sine
    have hx0 : 0.0065999 ≤ |val x| := sin_lim.2.1.trans (not_le.1 hs).le
    have hq : |-(val x * (10680707 / 33554432))| = |val x| * (10680707 / 33554432) := by
      rw [abs_neg, abs_mul, abs_of_pos (by norm_num : (0 : ℚ) < 10680707 / 33554432)]
    obtain ⟨ε, e1, e2⟩ := (rnd_eps' (s := false) (q := -(val x * (10680707 / 33554432)))
      (by rw [hq]; norm_num at hx0 ⊢; linarith) (by rw [hq]; norm_num at h ⊢; linarith)).2
    have hA : |Real.pi * (fl (-(val x * (10680707 / 33554432))) : ℝ) + val x| ≤ 1.01e-7 * |(val x : ℝ)| := by
      unfold fl
      rw [e2]
      push_cast
      rw [show Real.pi * (-((val x : ℝ) * (10680707 / 33554432)) * (1 + (ε : ℝ))) + val x =
        (val x : ℝ) * ((1 - Real.pi * (10680707 / 33554432)) - Real.pi * (10680707 / 33554432) * ε) by ring, abs_mul, _root_.mul_comm]
      refine mul_le_mul_of_nonneg_right ?_ (abs_nonneg _)
      have p1 := Real.pi_gt_d20
      have p2 := Real.pi_lt_d20
      have hε : |(ε : ℝ)| ≤ 1 / 16777216 := by
        have : ((|ε| : ℚ) : ℝ) ≤ (((1 : ℚ) / 16777216 : ℚ) : ℝ) := by
          have : |ε| ≤ 1 / 16777216 := by norm_num at e1 ⊢; exact e1
          exact_mod_cast this
        push_cast at this; norm_num at this ⊢; exact this
      have h1 : |1 - Real.pi * (10680707 / 33554432)| ≤ 4.1e-8 := by
        rw [_root_.abs_le]; norm_num at p1 p2 ⊢; constructor <;> linarith
      have h2 : |Real.pi * (10680707 / 33554432)| ≤ 1.0000001 := by
        rw [_root_.abs_le]; norm_num at p1 p2 ⊢; constructor <;> linarith
      refine (abs_sub _ _).trans ?_
      rw [abs_mul]
      have := mul_le_mul h2 hε (abs_nonneg _) (by norm_num)
      generalize |1 - Real.pi * (10680707 / 33554432)| = u at *
      generalize |Real.pi * (10680707 / 33554432)| * |(ε : ℝ)| = v at *
      norm_num at this h1 ⊢
      linarith
    -- periodicity
    have hp : Real.sin (Real.pi * (val z : ℝ)) = Real.sin (Real.pi * (fl (-(val x * (10680707 / 33554432))) : ℝ)) := by
      rw [hzv]
      push_cast
      rw [show Real.pi * ((fl (-(val x * (10680707 / 33554432))) : ℝ) - 2 * (m : ℝ)) =
        Real.pi * (fl (-(val x * (10680707 / 33554432))) : ℝ) - (m : ℝ) * (2 * Real.pi) by ring, Real.sin_sub_int_mul_two_pi]
    have hd := abs_sin_sub (Real.pi * (fl (-(val x * (10680707 / 33554432))) : ℝ)) (-(val x : ℝ))
    rw [sub_neg_eq_add, Real.sin_neg, sub_neg_eq_add] at hd
    rw [hp] at hc
    have he := hn.err
    generalize (fl (-(val x * (10680707 / 33554432))) : ℝ) = a at *
    have t1 := abs_add_le ((val (sinP z) : ℝ) - sinR (val z)) (sinR (val z) + Real.sin (Real.pi * a))
    have t2 := abs_sub (((val (sinP z) : ℝ) - sinR (val z)) + (sinR (val z) + Real.sin (Real.pi * a)))
      (Real.sin (Real.pi * a) + Real.sin (val x : ℝ))
    rw [show ((val (sinP z) : ℝ) - sinR (val z)) + (sinR (val z) + Real.sin (Real.pi * a)) -
      (Real.sin (Real.pi * a) + Real.sin (val x : ℝ)) = (val (sinP z) : ℝ) - Real.sin (val x : ℝ) by ring] at t2
    generalize |(val (sinP z) : ℝ) - Real.sin (val x : ℝ)| = r1 at *
    generalize |((val (sinP z) : ℝ) - sinR (val z)) + (sinR (val z) + Real.sin (Real.pi * a))| = r2 at *
    generalize |(val (sinP z) : ℝ) - sinR (val z)| = r3 at *
    generalize |sinR (val z) + Real.sin (Real.pi * a)| = r4 at *
    generalize |Real.sin (Real.pi * a) + Real.sin (val x : ℝ)| = r5 at *
    generalize |Real.pi * a + (val x : ℝ)| = r6 at *
    generalize |(val x : ℝ)| = r7 at *
    norm_num at he hc hA ⊢
    linarith

/-- **C86 (partial).** In the same range the result never exceeds one in magnitude. -/
theorem C86_bound_partial (x : BitVec 32) (hx : Finite x) (h : |val x| ≤ 2.6e7) : |val (sin x)| ≤ 1 := by
  by_cases hs : |val x| ≤ val (lit 0.0066)
  · rw [sin_small hx hs]
    refine hs.trans (sin_lim.2.2.trans (by norm_num))
  · obtain ⟨z, m, e, hz, hz1, hzv⟩ := sin_large hx (not_le.1 hs) h
    rw [e, sinP_val hz hz1]
    exact sinV_bound hz1

/-- **C86 (partial).** In the same range `sin(-x)` is exactly the opposite of `sin(x)`. -/
theorem C86_odd_partial (x : BitVec 32) (hx : Finite x) (h : |val x| ≤ 2.6e7) :
    val (sin (negate x)) = -val (sin x) := by
  have hx' := finite_negate.2 hx
  have ha : |val (negate x)| = |val x| := by rw [val_negate, abs_neg]
  by_cases hs : |val x| ≤ val (lit 0.0066)
  · rw [sin_small hx hs, sin_small hx' (by rw [ha]; exact hs), val_negate]
  · obtain ⟨z, m, e, hz, hz1, hzv⟩ := sin_large hx (not_le.1 hs) h
    obtain ⟨z', m', e', hz', hz1', hzv'⟩ := sin_large hx' (by rw [ha]; exact not_le.1 hs) (by rw [ha]; exact h)
    rw [e, e', sinP_val hz hz1, sinP_val hz' hz1']
    rw [val_negate, neg_mul, fl_neg] at hzv'
    generalize fl (-(val x * (10680707 / 33554432))) = a at *
    have k : val z + val z' = ((-(2 * (m + m')) : ℤ) : ℚ) := by rw [hzv, hzv']; push_cast; ring
    rw [_root_.abs_le] at hz1 hz1'
    have kb : -1 ≤ m + m' ∧ m + m' ≤ 1 := by
      have h1 : -2 ≤ ((-(2 * (m + m')) : ℤ) : ℚ) := by rw [← k]; linarith
      have h2 : ((-(2 * (m + m')) : ℤ) : ℚ) ≤ 2 := by rw [← k]; linarith
      have h1 : -2 ≤ -(2 * (m + m')) := by exact_mod_cast h1
      have h2 : -(2 * (m + m')) ≤ 2 := by exact_mod_cast h2
      omega
    obtain c | c | c : m + m' = -1 ∨ m + m' = 0 ∨ m + m' = 1 := by omega
    · rw [c] at k
      norm_num at k
      have h1 : val z = 1 := by linarith
      have h2 : val z' = 1 := by linarith
      rw [h1, h2, sinV_one.1, neg_zero]
    · rw [c] at k
      norm_num at k
      rw [show val z' = -val z by linarith, sinV_neg]
    · rw [c] at k
      norm_num at k
      have h1 : val z = -1 := by linarith
      have h2 : val z' = -1 := by linarith
      rw [h1, h2, sinV_one.2, neg_zero]

/-- **C86.** A NaN or an infinite argument gives a NaN. -/
theorem C86_special (x : BitVec 32) (h : IsNaN x ∨ IsInf x) : IsNaN (sin x) := by
  rcases h with h | h
  · unfold sin
    rw [if_neg]
    · exact mul_nan_left (mul_nan_left (add_nan_left (mul_nan_left h)))
    · rw [le_iff]
      exact fun hh => hh.1 (absolute_nan.2 h)
  · rcases inf_bits h with h | h <;> subst h <;> decide +kernel

/-- **C86, negation.** For larger arguments the result leaves [-1, 1] and the oddness is lost. -/
theorem C86_false : Finite (negate (lit 26400004)) ∧ val (negate (lit 26400004)) = -26400004 ∧
    val (sin (negate (lit 26400004))) < -20 ∧ val (sin (lit 26400004)) = 0 := by decide +kernel

/-- Cases of the theorems above. -/
example : Finite (lit 1000) ∧ |val (lit 1000)| ≤ 2.6e7 ∧ Finite (negate (lit 2.5)) ∧ |val (negate (lit 2.5))| ≤ 2.6e7 := by
  decide +kernel

end Verif.Ffmath
