import Verif.Ffmath.FloatLemmas

/-! # `ffmath::mod` and the angle wrappers in IEEE arithmetic (C75) -/

namespace Verif.Ffmath
open Verif F32

theorem btw_of_abs {c : BitVec 32} {q : ℚ} (h : |q| ≤ val c) :
    val (negate c) ≤ q ∧ q ≤ val c := by
  rw [val_negate]; exact abs_le.1 h

theorem min_sub {y : BitVec 32} (h : val y ≠ 0) : (2 : ℚ) ^ (-149 : ℤ) ≤ |val y| := by
  rw [abs_val]
  have : mag y ≠ 0 := fun e => h (val_eq_zero.2 e)
  have h1 : mval 1 ≤ mval (mag y) := mval_le_iff.2 (by omega)
  have h2 : mval 1 = 2 ^ (-149 : ℤ) := by rw [mval_sub (by norm_num)]; norm_num
  linarith

/-- Core of the argument: the first estimate of the remainder is at most one modulus off. -/
theorem mod_core {x y : BitVec 32} (hx : Finite x) (hy : Finite y) (h0 : val y ≠ 0)
    (bx : |val x| ≤ 2 ^ (126 : ℤ)) (bY : |val y| ≤ 2 ^ (126 : ℤ))
    (hq : |val x| ≤ 4194304 * |val y|) :
    ∃ F, floor (div x y) = .ok F ∧ Finite (sub x (mul y F)) ∧
      (0 < val y → -val y ≤ val (sub x (mul y F))) ∧
      (val y < 0 → val (sub x (mul y F)) ≤ -val y) := by
  have hyp : 0 < |val y| := abs_pos.2 h0
  have hQ : |val x / val y| ≤ 4194304 := by rw [abs_div, div_le_iff₀ hyp]; exact hq
  obtain ⟨fc, vc⟩ := lit_int (k := 4194304) (by norm_num)
  have vc' : val (lit ((4194304 : ℤ) : ℚ)) = 4194304 := by rw [vc]; norm_num
  obtain ⟨b1, b2⟩ := btw_of_abs (c := lit ((4194304 : ℤ) : ℚ)) (q := val x / val y)
    (by rw [vc']; exact hQ)
  obtain ⟨fQ, q1, q2⟩ := div_btw hx hy h0 (finite_negate.2 fc) fc b1 b2
  rw [val_negate, vc'] at q1
  rw [vc'] at q2
  have eQ := div_err hx hy h0 fQ
  have eQ' : |val (div x y) - val x / val y| ≤ 1 / 4 := by
    refine eQ.trans (max_le ?_ (by norm_num))
    have : |val x / val y| * (2 : ℚ) ^ (-24 : ℤ) ≤ 4194304 * 2 ^ (-24 : ℤ) :=
      mul_le_mul_of_nonneg_right hQ (two_zpow_pos _).le
    refine this.trans (by norm_num)
  obtain ⟨F, hF, fF, vF⟩ := C30_floor _ fQ
  refine ⟨F, hF, ?_⟩
  have f1 := Int.floor_le (val (div x y))
  have f2 := Int.lt_floor_add_one (val (div x y))
  have f3 : (-4194304 : ℤ) ≤ ⌊val (div x y)⌋ := Int.le_floor.2 (by push_cast; exact q1)
  have f3' : (-4194304 : ℚ) ≤ (⌊val (div x y)⌋ : ℚ) := by exact_mod_cast f3
  rw [← vF] at f1 f2 f3'
  have bF : |val F| ≤ 4194304 := abs_le.2 ⟨f3', by linarith⟩
  rw [abs_le] at eQ'
  have d1 : -(1 / 4) ≤ val x / val y - val F := by linarith [eQ'.2]
  have d2 : val x / val y - val F ≤ 5 / 4 := by linarith [eQ'.1]
  have exy : val x = val y * (val x / val y) := by field_simp
  have hyF : |val y * val F| ≤ 9 / 4 * 2 ^ (126 : ℤ) := by
    have e : val y * val F = val x - val y * (val x / val y - val F) := by
      rw [mul_sub, ← exy]; ring
    rw [e]
    have h1 : |val y * (val x / val y - val F)| ≤ 5 / 4 * 2 ^ (126 : ℤ) := by
      rw [abs_mul]
      have : |val x / val y - val F| ≤ 5 / 4 := abs_le.2 ⟨by linarith, d2⟩
      calc |val y| * |val x / val y - val F| ≤ 2 ^ (126 : ℤ) * (5 / 4) :=
            mul_le_mul bY this (abs_nonneg _) (by positivity)
        _ = _ := by ring
    have h2 := abs_sub (val x) (val y * (val x / val y - val F))
    generalize (2 : ℚ) ^ (126 : ℤ) = p at *
    linarith
  have c1 : val 0x7F200000#32 = 5 / 2 * 2 ^ (126 : ℤ) := by decide +kernel
  have c2 : val 0x7F600000#32 = 7 / 2 * 2 ^ (126 : ℤ) := by decide +kernel
  have c1f : Finite 0x7F200000#32 := by decide +kernel
  have c2f : Finite 0x7F600000#32 := by decide +kernel
  have hp126 := two_zpow_pos 126
  obtain ⟨p1, p2⟩ := btw_of_abs (c := 0x7F200000#32) (q := val y * val F)
    (by rw [c1]; generalize (2 : ℚ) ^ (126 : ℤ) = p at *; linarith)
  obtain ⟨fP, r1, r2⟩ := mul_btw hy fF (finite_negate.2 c1f) c1f p1 p2
  rw [val_negate, c1] at r1
  rw [c1] at r2
  have eP := mul_err hy fF fP
  have eP' : |val (mul y F) - val y * val F| ≤ |val y| / 2 := by
    refine eP.trans (max_le ?_ ?_)
    · rw [abs_mul]
      calc |val y| * |val F| * (2 : ℚ) ^ (-24 : ℤ) ≤ |val y| * 4194304 * 2 ^ (-24 : ℤ) := by gcongr
        _ = |val y| / 4 := by norm_num; ring
        _ ≤ _ := by linarith
    · have h1 := min_sub h0
      have h2 : (2 : ℚ) ^ (-150 : ℤ) = 2 ^ (-149 : ℤ) / 2 := by norm_num
      rw [h2]; exact div_le_div_of_nonneg_right h1 (by norm_num)
  have hr : |val x - val (mul y F)| ≤ val 0x7F600000#32 := by
    rw [c2]
    have h1 : |val (mul y F)| ≤ 5 / 2 * 2 ^ (126 : ℤ) := abs_le.2 ⟨r1, r2⟩
    have h2 := abs_sub (val x) (val (mul y F))
    generalize (2 : ℚ) ^ (126 : ℤ) = p at *
    linarith
  obtain ⟨s1, s2⟩ := btw_of_abs hr
  refine ⟨(sub_btw hx fP (finite_negate.2 c2f) c2f s1 s2).1, ?_, ?_⟩
  · intro hpos
    rw [abs_of_pos hpos] at eP'
    rw [abs_le] at eP'
    rw [← val_negate, sub_fin hx fP]
    apply le_rnd (finite_negate.2 hy)
    rw [val_negate]
    have : val x - val y * val F = val y * (val x / val y - val F) := by
      rw [mul_sub, ← exy]
    nlinarith [mul_le_mul_of_nonneg_left d1 hpos.le]
  · intro hneg
    rw [abs_of_neg hneg] at eP'
    rw [abs_le] at eP'
    rw [← val_negate, sub_fin hx fP]
    apply rnd_le (finite_negate.2 hy)
    rw [val_negate]
    have : val x - val y * val F = val y * (val x / val y - val F) := by
      rw [mul_sub, ← exy]
    nlinarith [mul_le_mul_of_nonneg_left d1 (neg_pos.2 hneg).le]

/-- **C75** `mod` never runs into undefined behaviour. -/
theorem C75_defined (x y : BitVec 32) : ∃ m, mod x y = .ok m := by
  have hfl : ∀ z, ∃ F, floor z = .ok F := fun z => by
    obtain ⟨r, hr, _⟩ := floor_pat z
    exact ⟨r, hr⟩
  unfold mod
  split
  · exact ⟨x, rfl⟩
  · obtain ⟨F, hF⟩ := hfl (div x y)
    simp only [hF, Out.bind_ok, Out.pure_eq]
    split_ifs <;> exact ⟨_, rfl⟩

theorem mod_zero (x y : BitVec 32) (h : val y = 0) : mod x y = .ok x := by
  unfold mod
  rw [if_pos ((classify_zero y).2 (val_eq_zero.1 h))]; rfl

/-- **C75** (part) The result lies in `[0, y)` for positive and in `(y, 0]` for negative `y`, as
long as the quotient is at most `2^22` and the operands at most `2^126`. Without these bounds the
claim is false, see `C75_false`. -/
theorem C75_range_partial (x y : BitVec 32) (hx : Finite x) (hy : Finite y) (h0 : val y ≠ 0)
    (bx : |val x| ≤ 2 ^ (126 : ℤ)) (bY : |val y| ≤ 2 ^ (126 : ℤ))
    (hq : |val x| ≤ 4194304 * |val y|) :
    ∃ m, mod x y = .ok m ∧ Finite m ∧
      (0 < val y → 0 ≤ val m ∧ val m < val y) ∧ (val y < 0 → val y < val m ∧ val m ≤ 0) := by
  obtain ⟨F, hF, fm, m1, m2⟩ := mod_core hx hy h0 bx bY hq
  unfold mod
  rw [if_neg (by rw [classify_zero']; exact h0)]
  simp only [hF, Out.bind_ok, Out.pure_eq]
  generalize sub x (mul y F) = m at *
  rw [lt_fin fin_zero hy, le_fin hy fm, le_fin fm hy, lt_fin fm fin_zero, lt_fin fin_zero fm,
    val_zero]
  rcases lt_or_gt_of_ne h0 with hneg | hpos
  · rw [if_neg (by simp [hneg.le])]
    by_cases c1 : val m ≤ val y
    · rw [if_pos (by simpa using c1)]
      exact ⟨_, rfl, fin_zero, fun h => by linarith, fun _ => by rw [val_zero]; exact ⟨hneg, le_refl _⟩⟩
    · rw [if_neg (by simpa using c1)]
      by_cases c2 : 0 < val m
      · rw [if_pos (by simpa using c2)]
        obtain ⟨ft, t1, t2⟩ := add_btw hy fm hy fin_zero (by linarith)
          (by rw [val_zero]; linarith [m2 hneg])
        rw [val_zero] at t2
        refine ⟨_, rfl, ?_⟩
        split
        · exact ⟨fin_zero, fun h => by linarith,
            fun _ => by rw [val_zero]; exact ⟨hneg, le_refl _⟩⟩
        · rename_i hs
          refine ⟨ft, fun h => by linarith, fun _ => ⟨lt_of_le_of_ne t1 ?_, t2⟩⟩
          intro he
          apply hs
          have := sub_exact ft hy fin_zero (by rw [val_zero, he, sub_self])
          rw [le_fin (absolute_finite.2 this.1) fin_fltMin, absolute_val, this.2, val_zero,
            val_fltMin]
          exact decide_eq_true (by rw [abs_zero]; positivity)
      · rw [if_neg (by simpa using c2)]
        exact ⟨m, rfl, fm, fun h => by linarith, fun _ => ⟨not_le.1 c1, not_lt.1 c2⟩⟩
  · rw [if_pos (by simpa using hpos)]
    by_cases c1 : val y ≤ val m
    · rw [if_pos (by simpa using c1)]
      exact ⟨_, rfl, fin_zero, fun _ => by rw [val_zero]; exact ⟨le_refl _, hpos⟩, fun h => by linarith⟩
    · rw [if_neg (by simpa using c1)]
      by_cases c2 : val m < 0
      · rw [if_pos (by simpa using c2)]
        obtain ⟨ft, t1, t2⟩ := add_btw hy fm fin_zero hy (by rw [val_zero]; linarith [m1 hpos])
          (by linarith)
        rw [val_zero] at t1
        refine ⟨_, rfl, ?_⟩
        split
        · exact ⟨fin_zero, fun _ => by rw [val_zero]; exact ⟨le_refl _, hpos⟩, fun h => by linarith⟩
        · rename_i hs
          refine ⟨ft, fun _ => ⟨t1, lt_of_le_of_ne t2 ?_⟩, fun h => by linarith⟩
          intro he
          apply hs
          have := sub_exact ft hy fin_zero (by rw [val_zero, he, sub_self])
          rw [le_fin (absolute_finite.2 this.1) fin_fltMin, absolute_val, this.2, val_zero,
            val_fltMin]
          exact decide_eq_true (by rw [abs_zero]; positivity)
      · rw [if_neg (by simpa using c2)]
        exact ⟨m, rfl, fm, fun _ => ⟨not_lt.1 c2, not_le.1 c1⟩, fun h => by linarith⟩

/-- **C75** fails in general: with a modulus that fits 31 times into the largest float the product
overflows and the result is minus infinity; and `wrapTo360` of `6.1e9` is `-152`. -/
theorem C75_false :
    (Finite fltMax ∧ Finite 0x7D042108#32 ∧ 0 < val 0x7D042108#32 ∧
      val fltMax < 31 * val 0x7D042108#32 ∧ mod fltMax 0x7D042108#32 = .ok 0xFF800000#32 ∧
      IsInf 0xFF800000#32) ∧
    (Finite (lit 6100000427) ∧ wrapTo360 (lit 6100000427) = .ok (lit (-152))) := by
  decide +kernel

/-- **C75** On integers up to `2^23` the result is exactly the Euclidean remainder. -/
theorem C75_int (a n : ℤ) (ha : |a| ≤ 8388608) (hn : 1 ≤ n) (hn2 : n ≤ 8388608) :
    ∃ m, mod (lit (a : ℚ)) (lit (n : ℚ)) = .ok m ∧ Finite m ∧ val m = ((a % n : ℤ) : ℚ) := by
  obtain ⟨fa, va⟩ := lit_int (k := a) (by omega)
  obtain ⟨fn, vn⟩ := lit_int (k := n) (by rw [abs_of_pos (by omega)]; omega)
  generalize lit (a : ℚ) = x at *
  generalize lit (n : ℚ) = y at *
  have hnq : (0 : ℚ) < n := by exact_mod_cast (by omega : (0 : ℤ) < n)
  have hn1 : (1 : ℚ) ≤ n := by exact_mod_cast hn
  have haq : |(a : ℚ)| ≤ 8388608 := by exact_mod_cast ha
  have h0 : val y ≠ 0 := by rw [vn]; exact hnq.ne'
  have e1 : a = n * (a / n) + a % n := (Int.mul_ediv_add_emod a n).symm
  have r0 := Int.emod_nonneg a (by omega : n ≠ 0)
  have r1 := Int.emod_lt_of_pos a (by omega : 0 < n)
  -- the quotient is representable as an integer bracket
  have hQ : |val x / val y| ≤ 8388608 := by
    rw [va, vn, abs_div, abs_of_pos hnq, div_le_iff₀ hnq]; nlinarith [abs_nonneg (a : ℚ)]
  have hd : |a / n| ≤ 8388608 := by
    rw [abs_le] at ha ⊢
    constructor
    · rw [Int.le_ediv_iff_mul_le (by omega)]; nlinarith
    · have : a / n < 8388608 + 1 := by rw [Int.ediv_lt_iff_lt_mul (by omega)]; nlinarith
      omega
  obtain ⟨fc, vc⟩ := lit_int (k := 8388608) (by norm_num)
  have vc' : val (lit ((8388608 : ℤ) : ℚ)) = 8388608 := by rw [vc]; norm_num
  obtain ⟨b1, b2⟩ := btw_of_abs (c := lit ((8388608 : ℤ) : ℚ)) (q := val x / val y)
    (by rw [vc']; exact hQ)
  obtain ⟨fQ, q1, q2⟩ := div_btw fa fn h0 (finite_negate.2 fc) fc b1 b2
  have eQ := div_err fa fn h0 fQ
  have eQ' : |val (div x y) - val x / val y| < 1 / n := by
    refine lt_of_le_of_lt eQ (max_lt ?_ ?_)
    · rw [va, vn, abs_div, abs_of_pos hnq, div_mul_eq_mul_div]
      apply div_lt_div_of_pos_right _ hnq
      calc |(a : ℚ)| * 2 ^ (-24 : ℤ) ≤ 8388608 * 2 ^ (-24 : ℤ) :=
            mul_le_mul_of_nonneg_right haq (two_zpow_pos _).le
        _ < 1 := by norm_num
    · rw [lt_div_iff₀ hnq]
      have : (n : ℚ) ≤ 8388608 := by exact_mod_cast hn2
      calc (2 : ℚ) ^ (-150 : ℤ) * n ≤ 2 ^ (-150 : ℤ) * 8388608 :=
            mul_le_mul_of_nonneg_left this (two_zpow_pos _).le
        _ < 1 := by norm_num
  have hq : val x / val y = ((a / n : ℤ) : ℚ) + ((a % n : ℤ) : ℚ) / n := by
    rw [va, vn]
    have : (a : ℚ) = n * ((a / n : ℤ) : ℚ) + ((a % n : ℤ) : ℚ) := by exact_mod_cast e1
    rw [this]; field_simp
  have r0q : (0 : ℚ) ≤ ((a % n : ℤ) : ℚ) := by exact_mod_cast r0
  have r1q : ((a % n : ℤ) : ℚ) + 1 ≤ n := by exact_mod_cast r1
  obtain ⟨fd, vd⟩ := lit_int (k := a / n) (by omega)
  have lo : ((a / n : ℤ) : ℚ) ≤ val (div x y) := by
    rw [← vd, div_fin fa fn h0]
    apply le_rnd fd
    rw [vd, hq]
    have : (0 : ℚ) ≤ ((a % n : ℤ) : ℚ) / n := div_nonneg r0q hnq.le
    linarith
  have up : val (div x y) < ((a / n : ℤ) : ℚ) + 1 := by
    rw [abs_lt] at eQ'
    have : ((a % n : ℤ) : ℚ) / n + 1 / n ≤ 1 := by
      rw [← add_div, div_le_one hnq]; exact r1q
    linarith [eQ'.2]
  have hfl : ⌊val (div x y)⌋ = a / n := Int.floor_eq_iff.2 ⟨lo, up⟩
  obtain ⟨F, hF, fF, vF⟩ := C30_floor _ fQ
  rw [hfl] at vF
  -- the product and the difference are exact
  have hprod : |n * (a / n)| ≤ 16777216 := by
    have : n * (a / n) = a - a % n := by omega
    rw [this]
    rw [abs_le] at ha ⊢
    constructor <;> omega
  obtain ⟨fp, vp⟩ := lit_int (k := n * (a / n)) hprod
  have P := mul_exact fn fF fp (by rw [vn, vF, vp]; push_cast; ring)
  obtain ⟨fr, vr⟩ := lit_int (k := a % n) (by rw [abs_of_nonneg r0]; omega)
  have M := sub_exact fa P.1 fr (by
    rw [va, P.2, vp, vr]
    have : (a : ℚ) = ((n * (a / n) : ℤ) : ℚ) + ((a % n : ℤ) : ℚ) := by exact_mod_cast e1
    rw [this]; ring)
  rw [vr] at M
  unfold mod
  rw [if_neg (by rw [classify_zero']; exact h0)]
  simp only [hF, Out.bind_ok, Out.pure_eq]
  generalize sub x (mul y F) = m at *
  rw [lt_fin fin_zero fn, le_fin fn M.1, lt_fin M.1 fin_zero, val_zero, M.2, vn,
    if_pos (by simpa using hnq), if_neg (by simp only [decide_eq_true_eq]; linarith),
    if_neg (by simp only [decide_eq_true_eq]; linarith)]
  exact ⟨m, rfl, M.1, M.2⟩

theorem c360 : Finite (lit 360) ∧ val (lit 360) = 360 := by decide +kernel
theorem c180 : Finite (lit 180) ∧ val (lit 180) = 180 := by decide +kernel
theorem cPi : Finite FFP_PI ∧ Finite FFP_2PI ∧ val FFP_2PI = 2 * val FFP_PI ∧
    val FFP_PI = 13176795 / 4194304 := by decide +kernel

/-- **C75** (part) `wrapTo360` gives an angle in `[0, 360)` for every angle up to a billion
degrees. -/
theorem C75_wrapTo360_partial (x : BitVec 32) (hx : Finite x) (b : |val x| ≤ 1000000000) :
    ∃ m, wrapTo360 x = .ok m ∧ Finite m ∧ 0 ≤ val m ∧ val m < 360 := by
  obtain ⟨m, h1, h2, h3, _⟩ := C75_range_partial x (lit 360) hx c360.1 (by rw [c360.2]; norm_num)
    (b.trans (by norm_num)) (by rw [c360.2]; norm_num) (by rw [c360.2]; norm_num; linarith)
  rw [c360.2] at h3
  exact ⟨m, h1, h2, h3 (by norm_num)⟩

/-- **C75** (part) `wrapTo2Pi` gives an angle in `[0, 2π)`, with `2π` as a float, up to ten
million. -/
theorem C75_wrapTo2Pi_partial (x : BitVec 32) (hx : Finite x) (b : |val x| ≤ 10000000) :
    ∃ m, wrapTo2Pi x = .ok m ∧ Finite m ∧ 0 ≤ val m ∧ val m < val FFP_2PI := by
  have e : val FFP_2PI = 13176795 / 2097152 := by rw [cPi.2.2.1, cPi.2.2.2]; norm_num
  obtain ⟨m, h1, h2, h3, _⟩ := C75_range_partial x FFP_2PI hx cPi.2.1 (by rw [e]; norm_num)
    (b.trans (by norm_num)) (by rw [e]; norm_num) (by rw [e]; norm_num; linarith)
  exact ⟨m, h1, h2, h3 (by rw [e]; norm_num)⟩

/-- A float below another is at most its predecessor. -/
theorem le_pred {a b : BitVec 32} (h : val a < val b) (c : BitVec 32) (hc : key c + 1 = key b) :
    val a ≤ val c := by
  rw [val_lt_iff] at h; rw [val_le_iff]; omega

/-- **C75** (part) `wrapTo180` gives an angle in `[-180, 180)` up to a billion degrees. -/
theorem C75_wrapTo180_partial (x : BitVec 32) (hx : Finite x) (b : |val x| ≤ 1000000000) :
    ∃ m, wrapTo180 x = .ok m ∧ Finite m ∧ -180 ≤ val m ∧ val m < 180 := by
  have cb : Finite (lit 1000000512) ∧ val (lit 1000000512) = 1000000512 := by decide +kernel
  have hs : |val x + val (lit 180)| ≤ val (lit 1000000512) := by
    rw [cb.2, c180.2]
    have := abs_add_le (val x) 180
    rw [abs_of_pos (by norm_num : (0 : ℚ) < 180)] at this
    linarith
  obtain ⟨s1, s2⟩ := btw_of_abs hs
  obtain ⟨fs, t1, t2⟩ := add_btw hx c180.1 (finite_negate.2 cb.1) cb.1 s1 s2
  rw [val_negate, cb.2] at t1
  rw [cb.2] at t2
  have bs : |val (add x (lit 180))| ≤ 1000000512 := abs_le.2 ⟨t1, t2⟩
  obtain ⟨m, h1, h2, h3, _⟩ := C75_range_partial (add x (lit 180)) (lit 360) fs c360.1
    (by rw [c360.2]; norm_num) (bs.trans (by norm_num)) (by rw [c360.2]; norm_num)
    (by rw [c360.2]; norm_num; linarith)
  obtain ⟨m0, m1⟩ := h3 (by rw [c360.2]; norm_num)
  have hp := le_pred m1 0x43B3FFFF#32 (by decide +kernel)
  have cp : val 0x43B3FFFF#32 = 360 - 1 / 32768 := by decide +kernel
  have ch : Finite 0x4333FFFE#32 ∧ val 0x4333FFFE#32 = 180 - 1 / 32768 := by decide +kernel
  obtain ⟨fr, u1, u2⟩ := sub_btw h2 c180.1 (finite_negate.2 c180.1) ch.1
    (by rw [val_negate, c180.2]; linarith) (by rw [ch.2, c180.2]; linarith)
  rw [val_negate, c180.2] at u1
  rw [ch.2] at u2
  refine ⟨_, ?_, fr, u1, by linarith⟩
  unfold wrapTo180
  rw [h1]; rfl

/-- **C75** (part) `wrapToPi` gives an angle in `[-π, π)`, with `π` as a float, up to ten
million. -/
theorem C75_wrapToPi_partial (x : BitVec 32) (hx : Finite x) (b : |val x| ≤ 10000000) :
    ∃ m, wrapToPi x = .ok m ∧ Finite m ∧ -val FFP_PI ≤ val m ∧ val m < val FFP_PI := by
  have e : val FFP_2PI = 13176795 / 2097152 := by rw [cPi.2.2.1, cPi.2.2.2]; norm_num
  have cb : Finite (lit 10000004) ∧ val (lit 10000004) = 10000004 := by decide +kernel
  have hs : |val x + val FFP_PI| ≤ val (lit 10000004) := by
    rw [cb.2, cPi.2.2.2]
    have := abs_add_le (val x) (13176795 / 4194304)
    rw [abs_of_pos (by norm_num : (0 : ℚ) < 13176795 / 4194304)] at this
    linarith
  obtain ⟨s1, s2⟩ := btw_of_abs hs
  obtain ⟨fs, t1, t2⟩ := add_btw hx cPi.1 (finite_negate.2 cb.1) cb.1 s1 s2
  rw [val_negate, cb.2] at t1
  rw [cb.2] at t2
  have bs : |val (add x FFP_PI)| ≤ 10000004 := abs_le.2 ⟨t1, t2⟩
  obtain ⟨m, h1, h2, h3, _⟩ := C75_range_partial (add x FFP_PI) FFP_2PI fs cPi.2.1
    (by rw [e]; norm_num) (bs.trans (by norm_num)) (by rw [e]; norm_num)
    (by rw [e]; norm_num; linarith)
  obtain ⟨m0, m1⟩ := h3 (by rw [e]; norm_num)
  have hp := le_pred m1 0x40C90FDA#32 (by decide +kernel)
  have cp : val 0x40C90FDA#32 = 13176794 / 2097152 := by decide +kernel
  have ch : Finite 0x40490FD9#32 ∧ val 0x40490FD9#32 = 13176793 / 4194304 := by decide +kernel
  obtain ⟨fr, u1, u2⟩ := sub_btw h2 cPi.1 (finite_negate.2 cPi.1) ch.1
    (by rw [val_negate]; linarith) (by rw [ch.2, cPi.2.2.2]; linarith)
  rw [val_negate] at u1
  rw [ch.2] at u2
  refine ⟨_, ?_, fr, u1, by rw [cPi.2.2.2]; linarith⟩
  unfold wrapToPi
  rw [h1]; rfl

example : mod (lit (-7.5)) (lit 2) = .ok (lit 0.5) := by decide +kernel
example : |val (lit (-7.5))| ≤ 4194304 * |val (lit 2)| ∧ |val (lit (-7.5))| ≤ 2 ^ (126 : ℤ) := by
  decide +kernel
example : wrapTo180 (lit 270) = .ok (lit (-90)) := by decide +kernel
example : mod (lit (-100)) (lit 7) = .ok (lit 5) ∧ (-100 : ℤ) % 7 = 5 := by decide +kernel

end Verif.Ffmath
