import Verif.Ffmath.Exp2

/-!
# `normalize` and `map` (C96)

IEEE binary32 arithmetic.
-/

namespace Verif.Ffmath

open Verif F32

/-- Every finite value is a multiple of the smallest subnormal. -/
theorem val_grid {b : BitVec 32} (h : Finite b) : ∃ k : ℤ, val b = k * 2 ^ (-149 : ℤ) := by
  obtain ⟨k, t, h1, h2, h3, h4, h5⟩ := val_dyadic h
  refine ⟨k * 2 ^ (t + 149).toNat, ?_⟩
  rw [h4]; push_cast
  rw [← zpow_natCast, Int.toNat_of_nonneg (by omega), mul_assoc, ← zpow_add₀ (by norm_num)]
  congr 2; omega

/-- A difference has a relative error even when it is subnormal. -/
theorem sub_rel {a b : BitVec 32} (ha : Finite a) (hb : Finite b) (h : |val a - val b| ≤ 3.4e38) :
    Finite (sub a b) ∧ |val (sub a b) - (val a - val b)| ≤ |val a - val b| / 16777216 := by
  have e := sub_fin ha hb
  have f : Finite (sub a b) := by rw [e]; exact rnd_finite' h
  refine ⟨f, ?_⟩
  by_cases hs : 2 ^ (-126 : ℤ) ≤ |val a - val b|
  · have k := rnd_err (e ▸ f)
    rw [← e] at k
    refine k.trans (max_le (by norm_num; linarith) ?_)
    have : (2 : ℚ) ^ (-126 : ℤ) / 16777216 ≤ |val a - val b| / 16777216 := by gcongr
    refine le_trans (by norm_num) this
  · obtain ⟨k, hk⟩ := val_grid ha
    obtain ⟨l, hl⟩ := val_grid hb
    have hd : val a - val b = ((k - l : ℤ) : ℚ) * 2 ^ (-149 : ℤ) := by rw [hk, hl]; push_cast; ring
    have hb : |k - l| ≤ 16777216 := by
      by_contra hc
      have hc : (16777216 : ℚ) < |((k - l : ℤ) : ℚ)| := by exact_mod_cast not_le.1 hc
      apply hs
      rw [hd, abs_mul, abs_of_pos (two_zpow_pos (-149))]
      have := mul_le_mul_of_nonneg_right hc.le (two_zpow_pos (-149)).le
      refine le_trans (by norm_num) this
    have := (rnd_dyadic (neg a && !neg b) (k := k - l) (t := -149) le_rfl (by norm_num) hb).2
    rw [e, hd, this, sub_self, abs_zero]
    positivity

theorem sub_pos' {a b : BitVec 32} (ha : Finite a) (hb : Finite b) (h : |val a - val b| ≤ 3.4e38) (hl : val b < val a) :
    0 < val (sub a b) := by
  obtain ⟨-, k⟩ := sub_rel ha hb h
  rw [abs_of_pos (by linarith : 0 < val a - val b)] at k
  have := (_root_.abs_le.1 k).1
  linarith

/-- The operands of `normalize` inside the range. -/
theorem norm_args {x a b : BitVec 32} (hx : Finite x) (ha : Finite a) (hb : Finite b) (hab : val a < val b)
    (hw : val b - val a ≤ 3.4e38) (h1 : val a ≤ val x) (h2 : val x ≤ val b) :
    Finite (sub x a) ∧ Finite (sub b a) ∧ 0 ≤ val (sub x a) ∧ val (sub x a) ≤ val (sub b a) ∧ 0 < val (sub b a) := by
  have wb : |val b - val a| ≤ 3.4e38 := by rw [abs_of_pos (by linarith)]; exact hw
  have wx : |val x - val a| ≤ 3.4e38 := by rw [abs_of_nonneg (by linarith)]; linarith
  obtain ⟨fx, -⟩ := sub_rel hx ha wx
  obtain ⟨fb, -⟩ := sub_rel hb ha wb
  refine ⟨fx, fb, ?_, ?_, sub_pos' hb ha wb hab⟩
  · rw [sub_fin hx ha, ← val_zero]; exact le_rnd fin_zero (by rw [val_zero]; linarith)
  · rw [sub_fin hx ha, sub_fin hb ha]; exact rnd_mono (by linarith)

/-- **C96** `normalize` of a number inside the range is a number in `[0, 1]`. -/
theorem C96_range (x a b : BitVec 32) (hx : Finite x) (ha : Finite a) (hb : Finite b) (hab : val a < val b)
    (hw : val b - val a ≤ 3.4e38) (h1 : val a ≤ val x) (h2 : val x ≤ val b) :
    Finite (normalize x a b) ∧ 0 ≤ val (normalize x a b) ∧ val (normalize x a b) ≤ 1 := by
  obtain ⟨f1, f2, p1, p2, p3⟩ := norm_args hx ha hb hab hw h1 h2
  unfold normalize
  have := div_btw f1 f2 p3.ne' fin_zero fin_one (by rw [val_zero]; positivity) (by rw [val_one, div_le_one p3]; exact p2)
  rwa [val_zero, val_one] at this

/-- **C96** The ends of the range go to exactly zero and one. -/
theorem C96_ends (a b : BitVec 32) (ha : Finite a) (hb : Finite b) (hab : val a < val b) (hw : val b - val a ≤ 3.4e38) :
    val (normalize a a b) = 0 ∧ val (normalize b a b) = 1 := by
  constructor
  · obtain ⟨f1, f2, p1, p2, p3⟩ := norm_args ha ha hb hab hw le_rfl hab.le
    have h0 : val (sub a a) = 0 := by
      rw [sub_fin ha ha, sub_self]
      have := rnd_int (neg a && !neg a) (k := 0) (by norm_num)
      simpa using this.2
    unfold normalize
    rw [div_fin f1 f2 p3.ne', h0, zero_div]
    have := rnd_int (neg (sub a a) ^^ neg (sub b a)) (k := 0) (by norm_num)
    simpa using this.2
  · obtain ⟨f1, f2, p1, p2, p3⟩ := norm_args hb ha hb hab hw hab.le le_rfl
    unfold normalize
    rw [div_fin f1 f2 p3.ne', div_self p3.ne']
    have := rnd_int (neg (sub b a) ^^ neg (sub b a)) (k := 1) (by norm_num)
    simpa using this.2

/-- **C96** `normalize` is monotone. -/
theorem C96_mono (x y a b : BitVec 32) (hx : Finite x) (hy : Finite y) (ha : Finite a) (hb : Finite b) (hab : val a < val b)
    (hw : val b - val a ≤ 3.4e38) (h1 : val a ≤ val x) (hxy : val x ≤ val y) (h2 : val y ≤ val b) :
    val (normalize x a b) ≤ val (normalize y a b) := by
  obtain ⟨f1, f2, p1, p2, p3⟩ := norm_args hx ha hb hab hw h1 (hxy.trans h2)
  obtain ⟨g1, g2, q1, q2, q3⟩ := norm_args hy ha hb hab hw (h1.trans hxy) h2
  unfold normalize
  rw [div_fin f1 f2 p3.ne', div_fin g1 f2 p3.ne']
  apply rnd_mono
  gcongr
  rw [sub_fin hx ha, sub_fin hy ha]
  exact rnd_mono (by linarith)

/-- **C96** `normalize` is accurate to a relative `1.8e-7`, up to half of the smallest subnormal. -/
theorem C96_accuracy (x a b : BitVec 32) (hx : Finite x) (ha : Finite a) (hb : Finite b) (hab : val a < val b)
    (hw : val b - val a ≤ 3.4e38) (h1 : val a ≤ val x) (h2 : val x ≤ val b) :
    |val (normalize x a b) - (val x - val a) / (val b - val a)| ≤ 1.8e-7 * ((val x - val a) / (val b - val a)) + 1e-45 := by
  obtain ⟨f1, f2, p1, p2, p3⟩ := norm_args hx ha hb hab hw h1 h2
  obtain ⟨f, n0, n1⟩ := C96_range x a b hx ha hb hab hw h1 h2
  unfold normalize at *
  have e := div_fin f1 f2 p3.ne'
  have k := rnd_err (e ▸ f)
  rw [← e] at k
  have hW : 0 < val b - val a := by linarith
  have hX : 0 ≤ val x - val a := by linarith
  obtain ⟨-, k1⟩ := sub_rel hx ha (by rw [abs_of_nonneg hX]; linarith)
  obtain ⟨-, k2⟩ := sub_rel hb ha (by rw [abs_of_pos hW]; linarith)
  rw [abs_of_nonneg hX] at k1
  rw [abs_of_pos hW] at k2
  generalize val (div (sub x a) (sub b a)) = r at *
  generalize val (sub x a) = n at *
  generalize val (sub b a) = d at *
  generalize val x - val a = X at *
  generalize val b - val a = W at *
  obtain ⟨k1a, k1b⟩ := _root_.abs_le.1 k1
  obtain ⟨k2a, k2b⟩ := _root_.abs_le.1 k2
  have hQ : 0 ≤ X / W := div_nonneg hX hW.le
  have q1 : n / d ≤ (1 + 1.1921e-7) * (X / W) := by
    rw [div_le_iff₀ p3, show (1 + 1.1921e-7) * (X / W) * d = X * ((1 + 1.1921e-7) * (d / W)) by ring]
    have : 1 - 1 / 16777216 ≤ d / W := by rw [le_div_iff₀ hW]; linarith
    have : (1 + 1 / 16777216 : ℚ) ≤ (1 + 1.1921e-7) * (d / W) := by norm_num at *; linarith
    have := mul_le_mul_of_nonneg_left this hX
    linarith
  have q2 : (1 - 1.1921e-7) * (X / W) ≤ n / d := by
    rw [le_div_iff₀ p3, show (1 - 1.1921e-7) * (X / W) * d = X * ((1 - 1.1921e-7) * (d / W)) by ring]
    have : d / W ≤ 1 + 1 / 16777216 := by rw [div_le_iff₀ hW]; linarith
    have : (1 - 1.1921e-7) * (d / W) ≤ (1 - 1 / 16777216 : ℚ) := by norm_num at *; linarith
    have := mul_le_mul_of_nonneg_left this hX
    linarith
  have hn : 0 ≤ n / d := div_nonneg p1 p3.le
  rw [abs_of_nonneg hn] at k
  generalize X / W = Q at *
  generalize n / d = N at *
  have k' : |r - N| ≤ N * (1 / 16777216) + 1e-45 := by
    refine k.trans (max_le ?_ ?_)
    · norm_num
    · have : (2 : ℚ) ^ (-150 : ℤ) ≤ 1e-45 := by norm_num
      have : 0 ≤ N * (1 / 16777216) := by positivity
      linarith
  obtain ⟨g1, g2⟩ := _root_.abs_le.1 k'
  rw [_root_.abs_le]
  constructor <;> norm_num at * <;> linarith

/-- The operands of `map`. -/
theorem map_args {x a b c d : BitVec 32} (hx : Finite x) (ha : Finite a) (hb : Finite b) (hab : val a < val b)
    (hw : val b - val a ≤ 3.4e38) (h1 : val a ≤ val x) (h2 : val x ≤ val b) (hc : Finite c) (hd : Finite d)
    (bc : |val c| ≤ 1e38) (bd : |val d| ≤ 1e38) :
    Finite (sub d c) ∧ |val (sub d c)| ≤ 2.1e38 ∧ Finite (mul (sub d c) (normalize x a b)) ∧
      |val (mul (sub d c) (normalize x a b))| ≤ 2.1e38 ∧ Finite (map x a b c d) := by
  obtain ⟨f, n0, n1⟩ := C96_range x a b hx ha hb hab hw h1 h2
  obtain ⟨c1, c2⟩ := _root_.abs_le.1 bc
  obtain ⟨d1, d2⟩ := _root_.abs_le.1 bd
  have cK : Finite (lit 2.1e38) ∧ 2.0999e38 ≤ val (lit 2.1e38) ∧ val (lit 2.1e38) ≤ 2.1e38 := by decide +kernel
  have hD : |val d - val c| ≤ 2e38 := by rw [_root_.abs_le]; constructor <;> norm_num at * <;> linarith
  obtain ⟨D1, D2⟩ := _root_.abs_le.1 hD
  obtain ⟨fD, s1, s2⟩ := sub_btw hd hc (finite_negate.2 cK.1) cK.1 (by rw [val_negate]; norm_num at *; linarith) (by norm_num at *; linarith)
  rw [val_negate] at s1
  have hp : |val (sub d c) * val (normalize x a b)| ≤ val (lit 2.1e38) := by
    rw [abs_mul, abs_of_nonneg n0]
    have : |val (sub d c)| ≤ val (lit 2.1e38) := _root_.abs_le.2 ⟨s1, s2⟩
    calc |val (sub d c)| * val (normalize x a b) ≤ val (lit 2.1e38) * 1 := mul_le_mul this n1 n0 (by norm_num at *; linarith)
      _ = _ := mul_one _
  obtain ⟨P1, P2⟩ := _root_.abs_le.1 hp
  obtain ⟨fP, t1, t2⟩ := mul_btw fD f (finite_negate.2 cK.1) cK.1 (by rw [val_negate]; linarith) (by linarith)
  rw [val_negate] at t1
  refine ⟨fD, _root_.abs_le.2 ⟨by linarith [cK.2.2], by linarith [cK.2.2]⟩, fP, _root_.abs_le.2 ⟨by linarith [cK.2.2], by linarith [cK.2.2]⟩, ?_⟩
  unfold map
  rw [add_fin fP hc]
  apply rnd_finite'
  rw [_root_.abs_le]
  have := cK.2.2
  constructor <;> norm_num at * <;> linarith

/-- **C96** (part) `map` takes the lower end of the input range to exactly the lower end of the output range. -/
theorem C96_map_min (a b c d : BitVec 32) (ha : Finite a) (hb : Finite b) (hab : val a < val b) (hw : val b - val a ≤ 3.4e38)
    (hc : Finite c) (hd : Finite d) (bc : |val c| ≤ 1e38) (bd : |val d| ≤ 1e38) :
    Finite (map a a b c d) ∧ val (map a a b c d) = val c := by
  obtain ⟨fD, -, fP, -, fM⟩ := map_args ha ha hb hab hw le_rfl hab.le hc hd bc bd
  refine ⟨fM, ?_⟩
  have f := (C96_range a a b ha ha hb hab hw le_rfl hab.le).1
  have v := (C96_ends a b ha hb hab hw).1
  have p0 : val (mul (sub d c) (normalize a a b)) = 0 := by
    rw [mul_fin fD f, v, mul_zero]
    have := rnd_int (neg (sub d c) ^^ neg (normalize a a b)) (k := 0) (by norm_num)
    simpa using this.2
  unfold map
  exact (add_exact fP hc hc (by rw [p0, zero_add])).2

/-- **C96** (part) `map` is monotone in its first argument. -/
theorem C96_map_mono (x y a b c d : BitVec 32) (hx : Finite x) (hy : Finite y) (ha : Finite a) (hb : Finite b) (hab : val a < val b)
    (hw : val b - val a ≤ 3.4e38) (h1 : val a ≤ val x) (hxy : val x ≤ val y) (h2 : val y ≤ val b) (hc : Finite c) (hd : Finite d)
    (bc : |val c| ≤ 1e38) (bd : |val d| ≤ 1e38) (hcd : val c ≤ val d) : val (map x a b c d) ≤ val (map y a b c d) := by
  obtain ⟨fD, -, fP, -, -⟩ := map_args hx ha hb hab hw h1 (hxy.trans h2) hc hd bc bd
  obtain ⟨-, -, fQ, -, -⟩ := map_args hy ha hb hab hw (h1.trans hxy) h2 hc hd bc bd
  have n1 := (C96_range x a b hx ha hb hab hw h1 (hxy.trans h2)).1
  have n2 := (C96_range y a b hy ha hb hab hw (h1.trans hxy) h2).1
  have hm := C96_mono x y a b hx hy ha hb hab hw h1 hxy h2
  have hD : 0 ≤ val (sub d c) := by
    rw [sub_fin hd hc, ← val_zero]; exact le_rnd fin_zero (by rw [val_zero]; linarith)
  have hp : val (mul (sub d c) (normalize x a b)) ≤ val (mul (sub d c) (normalize y a b)) := by
    rw [mul_fin fD n1, mul_fin fD n2]
    exact rnd_mono (mul_le_mul_of_nonneg_left hm hD)
  unfold map
  rw [add_fin fP hc, add_fin fQ hc]
  exact rnd_mono (by linarith)

/-- **C96** (part) `map` is within `7e-7` of the larger output bound of the affine function. Missing: the result may leave the output
range by that much, and need not reach its upper end (`C96_map_false`). -/
theorem C96_map_partial (x a b c d : BitVec 32) (hx : Finite x) (ha : Finite a) (hb : Finite b) (hab : val a < val b)
    (hw : val b - val a ≤ 3.4e38) (h1 : val a ≤ val x) (h2 : val x ≤ val b) (hc : Finite c) (hd : Finite d)
    (bc : |val c| ≤ 1e38) (bd : |val d| ≤ 1e38) :
    Finite (map x a b c d) ∧ |val (map x a b c d) - (val c + (val d - val c) * ((val x - val a) / (val b - val a)))| ≤
      7e-7 * max |val c| |val d| + 1e-44 := by
  obtain ⟨fD, bD, fP, bP, fM⟩ := map_args hx ha hb hab hw h1 h2 hc hd bc bd
  refine ⟨fM, ?_⟩
  obtain ⟨f, n0, n1⟩ := C96_range x a b hx ha hb hab hw h1 h2
  have acc := C96_accuracy x a b hx ha hb hab hw h1 h2
  have hQ0 : 0 ≤ (val x - val a) / (val b - val a) := div_nonneg (by linarith) (by linarith)
  have hQ1 : (val x - val a) / (val b - val a) ≤ 1 := by rw [div_le_one (by linarith)]; linarith
  generalize (val x - val a) / (val b - val a) = Q at *
  have hY : |val d - val c| ≤ 2 * max |val c| |val d| := by
    refine (abs_sub _ _).trans ?_
    linarith [le_max_left |val c| |val d|, le_max_right |val c| |val d|]
  have hYb : |val d - val c| ≤ 2e38 := by
    refine (abs_sub _ _).trans ?_
    norm_num at *; linarith
  obtain ⟨-, kD⟩ := sub_rel hd hc (hYb.trans (by norm_num))
  have eP := mul_fin fD f
  have kP := rnd_err (eP ▸ fP)
  rw [← eP] at kP
  have hconv : |val c + (val d - val c) * Q| ≤ max |val c| |val d| := by
    rw [show val c + (val d - val c) * Q = val c * (1 - Q) + val d * Q by ring]
    refine (abs_add_le _ _).trans ?_
    rw [abs_mul, abs_mul, abs_of_nonneg hQ0, abs_of_nonneg (by linarith : 0 ≤ 1 - Q)]
    have m1 := mul_le_mul_of_nonneg_right (le_max_left |val c| |val d|) (by linarith : 0 ≤ 1 - Q)
    have m2 := mul_le_mul_of_nonneg_right (le_max_right |val c| |val d|) hQ0
    generalize max |val c| |val d| = M at *
    nlinarith
  unfold map at *
  have eM := add_fin fP hc
  have kM := rnd_err (eM ▸ fM)
  rw [← eM] at kM
  have hM0 : 0 ≤ max |val c| |val d| := (abs_nonneg _).trans (le_max_left _ _)
  have hMb : max |val c| |val d| ≤ 1e38 := max_le bc bd
  generalize normalize x a b = n at *
  generalize mul (sub d c) n = p at *
  generalize sub d c = s at *
  generalize max |val c| |val d| = M at *
  generalize hz : val d - val c = Y at *
  -- the product
  have d1 : |val s * val n - Y * Q| ≤ 2.42e-7 * |Y| := by
    rw [show val s * val n - Y * Q = (val s - Y) * val n + Y * (val n - Q) by ring]
    refine (abs_add_le _ _).trans ?_
    rw [abs_mul, abs_mul, abs_of_nonneg n0]
    have u1 : |val s - Y| * val n ≤ |Y| / 16777216 * 1 := mul_le_mul kD n1 n0 (by positivity)
    have u2 : |Y| * |val n - Q| ≤ |Y| * (1.8e-7 * Q + 1e-45) := mul_le_mul_of_nonneg_left acc (abs_nonneg _)
    have u3 : |Y| * (1.8e-7 * Q) ≤ |Y| * 1.8e-7 := mul_le_mul_of_nonneg_left (by norm_num at *; linarith) (abs_nonneg _)
    have h0 := abs_nonneg Y
    generalize |Y| = A at *
    generalize |val s - Y| * val n = U1 at *
    generalize A * |val n - Q| = U2 at *
    rw [mul_add] at u2
    generalize A * (1.8e-7 * Q) = U3 at *
    norm_num at *; linarith
  have d2 : |val p - val s * val n| ≤ 6.1e-8 * |Y| + 1e-45 := by
    refine kP.trans (max_le ?_ ?_)
    · have : |val s * val n| ≤ |Y| * (1 + 1 / 16777216) := by
        rw [abs_mul, abs_of_nonneg n0]
        have : |val s| ≤ |Y| * (1 + 1 / 16777216) := by
          have := abs_sub_abs_le_abs_sub (val s) Y
          linarith
        calc |val s| * val n ≤ |Y| * (1 + 1 / 16777216) * 1 := mul_le_mul this n1 n0 (by positivity)
          _ = _ := mul_one _
      have h0 := abs_nonneg Y
      generalize |val s * val n| = A at *
      generalize |Y| = B at *
      norm_num at *; linarith
    · have h0 := abs_nonneg Y
      have : (2 : ℚ) ^ (-150 : ℤ) ≤ 1e-45 := by norm_num
      generalize |Y| = B at *
      norm_num at *; linarith
  have d3 : |val p - Y * Q| ≤ 3.04e-7 * |Y| + 1e-45 := by
    have := abs_sub_le (val p) (val s * val n) (Y * Q)
    have h0 := abs_nonneg Y
    generalize |Y| = B at *
    norm_num at *; linarith
  have d4 : |val p + val c - (val c + Y * Q)| ≤ 6.08e-7 * M + 1e-45 := by
    rw [show val p + val c - (val c + Y * Q) = val p - Y * Q by ring]
    generalize |Y| = B at *
    norm_num at *; linarith
  have d5 : |val (add p c) - (val p + val c)| ≤ 6e-8 * (1.001 * M) + 2e-45 := by
    have hs : |val p + val c| ≤ 1.0001 * M + 1e-45 := by
      have := abs_sub_abs_le_abs_sub (val p + val c) (val c + Y * Q)
      norm_num at *; linarith
    refine kM.trans (max_le ?_ ?_)
    · generalize |val p + val c| = A at *
      norm_num at *; linarith
    · have : (2 : ℚ) ^ (-150 : ℤ) ≤ 1e-45 := by norm_num
      norm_num at *; linarith
  have := abs_sub_le (val (add p c)) (val p + val c) (val c + Y * Q)
  norm_num at *; linarith

/-- **C96** (negation) The upper end: `map(1, 0, 1, 1e10, 1)` is `0`, not `1`, and lies outside the output range; a range of
zero width gives a NaN or an infinity; a range wider than the largest float gives `0` in its middle. -/
theorem C96_map_false : val (map (lit 1) (lit 0) (lit 1) (lit 1e10) (lit 1)) = 0 ∧ IsNaN (normalize (lit 2) (lit 2) (lit 2)) ∧
    normalize (lit 3) (lit 2) (lit 2) = inf ∧ val (normalize (lit 0) (lit (-3e38)) (lit 3e38)) = 0 ∧
    IsNaN (normalize (lit 3e38) (lit (-3e38)) (lit 3e38)) := by decide +kernel

/-- Cases of the theorems above: a range with rounded ends, and a point inside it. -/
example : Finite (lit 0.3) ∧ Finite (lit (-0.1)) ∧ Finite (lit 0.7) ∧ val (lit (-0.1)) < val (lit 0.7) ∧ val (lit 0.7) - val (lit (-0.1)) ≤ 3.4e38 ∧
    val (lit (-0.1)) ≤ val (lit 0.3) ∧ val (lit 0.3) ≤ val (lit 0.7) ∧ |val (lit 100)| ≤ 1e38 := by decide +kernel

end Verif.Ffmath
