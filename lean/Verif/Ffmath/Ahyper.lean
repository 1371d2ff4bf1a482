import Verif.Ffmath.Log
import Verif.Ffmath.Hyper
import Mathlib.Analysis.SpecialFunctions.Arsinh
import Mathlib.Analysis.SpecialFunctions.Arcosh
import Mathlib.Analysis.SpecialFunctions.Artanh

/-!
# `asinh`, `acosh`, `atanh` (C92)

IEEE binary32 arithmetic on top of the accuracy of `sqrt` (C76) and `log` (C82).
-/

namespace Verif.Ffmath

open Verif F32

/-- `log` of a float near a positive real number. -/
theorem log_near {a : BitVec 32} {A d : ℝ} (fa : Finite a) (hA : 1e-30 ≤ A) (h : |(val a : ℝ) - A| ≤ d * A)
    (hd : d ≤ 0.05) : Finite (log a) ∧ |(val (log a) : ℝ) - Real.log A| ≤ 1.06 * d + 4.2e-7 * |Real.log A| := by
  have hA0 : 0 < A := lt_of_lt_of_le (by norm_num) hA
  have hd0 : 0 ≤ d := by
    by_contra hc
    have : d * A < 0 := mul_neg_of_neg_of_pos (not_le.1 hc) hA0
    linarith [abs_nonneg ((val a : ℝ) - A)]
  obtain ⟨h1, h2⟩ := _root_.abs_le.1 h
  have ha1 : (1 - d) * A ≤ (val a : ℝ) := by linarith
  have ha2 : (val a : ℝ) ≤ (1 + d) * A := by linarith
  have hd1 : 0 < 1 - d := by norm_num at hd; linarith
  have ha0 : 0 < (val a : ℝ) := lt_of_lt_of_le (mul_pos hd1 hA0) ha1
  have hva : 2 ^ (-126 : ℤ) ≤ val a := by
    have : ((2 ^ (-126 : ℤ) : ℚ) : ℝ) ≤ (val a : ℝ) := by
      refine le_trans ?_ ha1
      have : (0.95 : ℝ) * 1e-30 ≤ (1 - d) * A := mul_le_mul (by norm_num at hd ⊢; linarith) hA (by norm_num) hd1.le
      refine le_trans ?_ this
      norm_num
    exact_mod_cast this
  obtain ⟨f, e⟩ := C82_log_partial a fa hva
  refine ⟨f, ?_⟩
  have hl : |Real.log (val a) - Real.log A| ≤ 1.053 * d := by
    rw [← Real.log_div ha0.ne' hA0.ne']
    have hu : 0 < (val a : ℝ) / A := div_pos ha0 hA0
    have u1 : (val a : ℝ) / A ≤ 1 + d := by rw [div_le_iff₀ hA0]; exact ha2
    have u2 : 1 - d ≤ (val a : ℝ) / A := by rw [le_div_iff₀ hA0]; exact ha1
    have l1 := Real.log_le_sub_one_of_pos hu
    have l2 := Real.one_sub_inv_le_log_of_pos hu
    have l3 : ((val a : ℝ) / A)⁻¹ ≤ 1 + 1.053 * d := by
      rw [inv_le_iff_one_le_mul₀ hu]
      calc (1 : ℝ) ≤ (1 + 1.053 * d) * (1 - d) := by norm_num at hd ⊢; nlinarith
        _ ≤ _ := by gcongr
    generalize (val a : ℝ) / A = w at *
    rw [_root_.abs_le]
    norm_num at *
    constructor <;> linarith
  have t := abs_sub_le (val (log a) : ℝ) (Real.log (val a)) (Real.log A)
  have t2 := abs_sub_abs_le_abs_sub (Real.log (val a)) (Real.log A)
  generalize |Real.log (val a)| = P at *
  generalize |Real.log A| = Q at *
  norm_num at *; linarith

/-- `sqrt` of a float near a positive real number. -/
theorem sqrt_rel {a : BitVec 32} {B d : ℝ} (fa : Finite a) (h0 : 2 ^ (-126 : ℤ) ≤ val a) (hB : 0 < B)
    (h : |(val a : ℝ) - B| ≤ d * B) (hd : d ≤ 1e-3) :
    Finite (sqrt a) ∧ |(val (sqrt a) : ℝ) - Real.sqrt B| ≤ (1.71e-6 + d) * Real.sqrt B := by
  obtain ⟨f, e⟩ := C76_accuracy_partial a fa h0
  refine ⟨f, ?_⟩
  have hs : 0 < Real.sqrt B := Real.sqrt_pos.2 hB
  have ha : (0 : ℝ) ≤ (val a : ℝ) := by
    have : (0 : ℚ) ≤ val a := le_trans (two_zpow_pos _).le h0
    exact_mod_cast this
  have hd0 : 0 ≤ d := by
    by_contra hc
    have : d * B < 0 := mul_neg_of_neg_of_pos (not_le.1 hc) hB
    linarith [abs_nonneg ((val a : ℝ) - B)]
  have e1 : |Real.sqrt (val a) - Real.sqrt B| ≤ d * Real.sqrt B := by
    have q1 := Real.sq_sqrt ha
    have q2 := Real.sq_sqrt hB.le
    have s0 := Real.sqrt_nonneg (val a : ℝ)
    have : |Real.sqrt (val a) - Real.sqrt B| * (Real.sqrt (val a) + Real.sqrt B) ≤ d * Real.sqrt B * Real.sqrt B := by
      rw [← abs_of_nonneg (add_nonneg s0 hs.le), ← abs_mul]
      rw [show (Real.sqrt (val a) - Real.sqrt B) * (Real.sqrt (val a) + Real.sqrt B) = Real.sqrt (val a) ^ 2 - Real.sqrt B ^ 2 by ring, q1, q2]
      rw [mul_assoc, Real.mul_self_sqrt hB.le]; exact h
    have h3 : |Real.sqrt (val a) - Real.sqrt B| * Real.sqrt B ≤ |Real.sqrt (val a) - Real.sqrt B| * (Real.sqrt (val a) + Real.sqrt B) :=
      mul_le_mul_of_nonneg_left (by linarith) (abs_nonneg _)
    exact le_of_mul_le_mul_right (h3.trans this) hs
  have t := abs_sub_le (val (sqrt a) : ℝ) (Real.sqrt (val a)) (Real.sqrt B)
  have e2 := (_root_.abs_le.1 e1).2
  have e3 : d * Real.sqrt B ≤ 1e-3 * Real.sqrt B := by gcongr
  rw [add_mul]
  generalize d * Real.sqrt B = D at *
  generalize Real.sqrt B = S at *
  generalize Real.sqrt (val a) = T at *
  norm_num at *; linarith

/-- The rounded square, in the reals. -/
theorem sq_near {x : BitVec 32} (hx : Finite x) (h : |val x| ≤ 1e18) :
    Finite (mul x x) ∧ 0 ≤ val (mul x x) ∧ |(val (mul x x) : ℝ) - (val x : ℝ) ^ 2| ≤ (val x : ℝ) ^ 2 / 16777216 + 1e-45 := by
  have hq : |val x * val x| ≤ 1e36 := by
    rw [abs_mul]
    exact (mul_le_mul h h (abs_nonneg _) (by norm_num)).trans (by norm_num)
  have f : Finite (mul x x) := by rw [mul_fin hx hx]; exact rnd_finite' (hq.trans (by norm_num))
  refine ⟨f, ?_, ?_⟩
  · rw [mul_fin hx hx, val_rnd]
    have := fl_mono (show 0 ≤ val x * val x from mul_self_nonneg _)
    rwa [fl_zero] at this
  · rw [mul_fin hx hx] at f ⊢
    have := rnd_errR f
    push_cast at this
    rw [abs_mul_self] at this
    rw [sq]; exact this

/-- The square root inside `asinh`. -/
theorem asinh_sqrt {x : BitVec 32} (hx : Finite x) (h : |val x| ≤ 1e18) :
    Finite (sqrt (add (mul x x) (lit 1))) ∧
      |(val (sqrt (add (mul x x) (lit 1))) : ℝ) - Real.sqrt (1 + (val x : ℝ) ^ 2)| ≤ 1.84e-6 * Real.sqrt (1 + (val x : ℝ) ^ 2) := by
  obtain ⟨fm, m0, em⟩ := sq_near hx h
  have hx2 : (val x : ℝ) ^ 2 ≤ 1e36 := by
    have : (|val x| : ℝ) ≤ 1e18 := by
      have : ((|val x| : ℚ) : ℝ) ≤ ((1e18 : ℚ) : ℝ) := by exact_mod_cast h
      push_cast at this; norm_num at this ⊢; exact this
    rw [← sq_abs]
    exact (pow_le_pow_left₀ (abs_nonneg _) this 2).trans (by norm_num)
  have hx0 : 0 ≤ (val x : ℝ) ^ 2 := sq_nonneg _
  generalize (val x : ℝ) ^ 2 = X at *
  generalize mul x x = m at *
  have m0R : 0 ≤ (val m : ℝ) := by exact_mod_cast m0
  obtain ⟨m1, m2⟩ := _root_.abs_le.1 em
  have ha := add_fin fm fin_one
  rw [val_one] at ha
  have fa : Finite (add m (lit 1)) := by
    rw [ha]; apply rnd_finite'
    have : |((val m + 1 : ℚ) : ℝ)| ≤ ((3.4e38 : ℚ) : ℝ) := by
      push_cast
      rw [abs_of_nonneg (by linarith)]
      norm_num at *; linarith
    exact_mod_cast this
  have k := rnd_errR (ha ▸ fa)
  rw [← ha] at k
  push_cast at k
  rw [abs_of_nonneg (by linarith : 0 ≤ (val m : ℝ) + 1)] at k
  have a1 : 1 ≤ val (add m (lit 1)) := by
    rw [ha]
    have := le_rnd (s := neg m && neg (lit 1)) fin_one (q := val m + 1) (by rw [val_one]; linarith)
    rwa [val_one] at this
  have hr := sqrt_rel (B := 1 + X) (d := 1.3e-7) fa (le_trans (by norm_num) a1) (by linarith)
    (by
      have t := abs_sub_le (val (add m (lit 1)) : ℝ) ((val m : ℝ) + 1) (1 + X)
      rw [show (val m : ℝ) + 1 - (1 + X) = (val m : ℝ) - X by ring] at t
      norm_num at *; linarith) (by norm_num)
  exact ⟨hr.1, hr.2.trans (by
    have := Real.sqrt_nonneg (1 + X)
    generalize Real.sqrt (1 + X) = S at *
    norm_num)⟩

/-- The argument of the logarithm in `asinh`. -/
theorem asinh_arg {x : BitVec 32} (hx : Finite x) (h : |val x| ≤ 1e18) :
    Finite (add x (sqrt (add (mul x x) (lit 1)))) ∧
      |(val (add x (sqrt (add (mul x x) (lit 1)))) : ℝ) - ((val x : ℝ) + Real.sqrt (1 + (val x : ℝ) ^ 2))| ≤
        1.85e-6 * Real.sqrt (1 + (val x : ℝ) ^ 2) + 6e-8 * ((val x : ℝ) + Real.sqrt (1 + (val x : ℝ) ^ 2)) + 1e-45 := by
  obtain ⟨fs, es⟩ := asinh_sqrt hx h
  have hxs : |(val x : ℝ)| ≤ Real.sqrt (1 + (val x : ℝ) ^ 2) := by
    apply Real.abs_le_sqrt; linarith
  have hS : Real.sqrt (1 + (val x : ℝ) ^ 2) ≤ 2e18 := by
    have : (|val x| : ℝ) ≤ 1e18 := by
      have : ((|val x| : ℚ) : ℝ) ≤ ((1e18 : ℚ) : ℝ) := by exact_mod_cast h
      push_cast at this; norm_num at this ⊢; exact this
    rw [Real.sqrt_le_left (by norm_num), ← sq_abs (val x : ℝ)]
    have := pow_le_pow_left₀ (abs_nonneg _) this 2
    norm_num at *; linarith
  generalize Real.sqrt (1 + (val x : ℝ) ^ 2) = S at *
  generalize sqrt (add (mul x x) (lit 1)) = s at *
  obtain ⟨s1, s2⟩ := _root_.abs_le.1 es
  obtain ⟨x1, x2⟩ := _root_.abs_le.1 hxs
  have ha := add_fin hx fs
  have t3 : |((val x + val s : ℚ) : ℝ)| ≤ ((val x : ℝ) + S) + 1.84e-6 * S := by
    push_cast
    rw [_root_.abs_le]
    norm_num at *; constructor <;> linarith
  have fa : Finite (add x s) := by
    rw [ha]; apply rnd_finite'
    have : |((val x + val s : ℚ) : ℝ)| ≤ ((3.4e38 : ℚ) : ℝ) := by
      refine t3.trans ?_
      norm_num at *; linarith
    exact_mod_cast this
  refine ⟨fa, ?_⟩
  have k := rnd_errR (ha ▸ fa)
  rw [← ha] at k
  have t := abs_sub_le (val (add x s) : ℝ) ((val x + val s : ℚ) : ℝ) ((val x : ℝ) + S)
  have t2 : |((val x + val s : ℚ) : ℝ) - ((val x : ℝ) + S)| ≤ 1.84e-6 * S := by
    push_cast
    rw [show (val x : ℝ) + val s - ((val x : ℝ) + S) = (val s : ℝ) - S by ring]; exact es
  generalize |((val x + val s : ℚ) : ℝ)| = A at *
  norm_num at *; linarith

/-- **C92** (part) For `0 ≤ x ≤ 1e18`, `asinh` is within `2.1e-6` plus a relative `4.2e-7` of the inverse hyperbolic sine.
Missing: larger arguments, where the square overflows (`C92_false`). -/
theorem C92_asinh_partial (x : BitVec 32) (hx : Finite x) (h0 : 0 ≤ val x) (h : val x ≤ 1e18) :
    Finite (asinh x) ∧ |(val (asinh x) : ℝ) - Real.arsinh (val x)| ≤ 2.1e-6 + 4.2e-7 * |Real.arsinh (val x)| := by
  obtain ⟨fa, ea⟩ := asinh_arg hx (by rw [abs_of_nonneg h0]; exact h)
  have h0R : 0 ≤ (val x : ℝ) := by exact_mod_cast h0
  have hS : 1 ≤ Real.sqrt (1 + (val x : ℝ) ^ 2) := by
    rw [Real.one_le_sqrt]; linarith [sq_nonneg (val x : ℝ)]
  unfold asinh Real.arsinh
  generalize Real.sqrt (1 + (val x : ℝ) ^ 2) = S at *
  have := log_near (d := 1.92e-6) fa (A := (val x : ℝ) + S) (le_trans (by norm_num) (show (1 : ℝ) ≤ (val x : ℝ) + S by linarith))
    (ea.trans (by
      generalize (val x : ℝ) = v at *
      norm_num at *; linarith)) (by norm_num)
  refine ⟨this.1, this.2.trans ?_⟩
  gcongr
  norm_num

/-- **C92** (part) For `-100 ≤ x < 0`, `asinh` is within `4.1e-6 (1 + x²)` plus a relative `4.2e-7` of the inverse
hyperbolic sine: the sum cancels. -/
theorem C92_asinh_neg_partial (x : BitVec 32) (hx : Finite x) (h1 : -100 ≤ val x) (h0 : val x < 0) :
    Finite (asinh x) ∧ |(val (asinh x) : ℝ) - Real.arsinh (val x)| ≤
      4.1e-6 * (1 + (val x : ℝ) ^ 2) + 4.2e-7 * |Real.arsinh (val x)| := by
  obtain ⟨fa, ea⟩ := asinh_arg hx (by rw [abs_of_neg h0]; linarith)
  have h0R : (val x : ℝ) < 0 := by exact_mod_cast h0
  have h1R : (-100 : ℝ) ≤ (val x : ℝ) := by exact_mod_cast h1
  have hS : 1 ≤ Real.sqrt (1 + (val x : ℝ) ^ 2) := by
    rw [Real.one_le_sqrt]; linarith [sq_nonneg (val x : ℝ)]
  have hq := Real.sq_sqrt (show 0 ≤ 1 + (val x : ℝ) ^ 2 by positivity)
  unfold asinh Real.arsinh
  rw [← hq]
  rw [hq]
  generalize Real.sqrt (1 + (val x : ℝ) ^ 2) = S at *
  generalize hv : (val x : ℝ) = v at *
  have hSv : (S + v) * (S - v) = 1 := by ring_nf; linarith
  have hSv0 : 0 < S - v := by linarith
  have hA0 : 0 < v + S := by
    by_contra hc
    have : (S + v) * (S - v) ≤ 0 := mul_nonpos_of_nonpos_of_nonneg (by linarith) hSv0.le
    linarith
  have hvS : -v ≤ S := by linarith
  have hS2 : 1 ≤ (v + S) * (2 * S) := by
    calc (1 : ℝ) = (v + S) * (S - v) := by rw [_root_.add_comm v S]; exact hSv.symm
      _ ≤ _ := by gcongr; linarith
  have hS3 : S ≤ (v + S) * (2 * S ^ 2) := by nlinarith
  have hSb : S ^ 2 ≤ 10001 := by rw [hq]; nlinarith
  have hd : 1.85e-6 * S + 6e-8 * (v + S) + 1e-45 ≤ (3.78e-6 * S ^ 2) * (v + S) := by
    have : v + S ≤ S ^ 2 * (v + S) := by nlinarith
    have e : 1e-45 ≤ 1e-10 * S := by norm_num at *; linarith
    have e2 : (3.78e-6 * S ^ 2) * (v + S) = 1.86e-6 * ((v + S) * (2 * S ^ 2)) + 6e-8 * (S ^ 2 * (v + S)) := by ring
    rw [e2]
    generalize (v + S) * (2 * S ^ 2) = P at *
    generalize S ^ 2 * (v + S) = Q at *
    norm_num at *; linarith
  have := log_near (d := 3.78e-6 * S ^ 2) fa (A := v + S) (by
      have : (1 : ℝ) ≤ (v + S) * 300 := by
        refine hS2.trans ?_
        gcongr
        nlinarith
      norm_num at *; linarith)
    (ea.trans hd) (by norm_num at *; linarith)
  refine ⟨this.1, this.2.trans ?_⟩
  have e : 1.06 * (3.78e-6 * S ^ 2) ≤ 4.1e-6 * (1 + v ^ 2) := by
    rw [hq]
    have : 0 ≤ 1 + v ^ 2 := by positivity
    generalize 1 + v ^ 2 = R at *
    norm_num at *; linarith
  linarith

/-! ### `acosh` -/

/-- The difference under the square root of `acosh`. -/
theorem acosh_rad {x : BitVec 32} (hx : Finite x) (h1 : 1 < val x) (h : val x ≤ 1e18) :
    Finite (sub (mul x x) (lit 1)) ∧ 1e-7 ≤ val (sub (mul x x) (lit 1)) ∧
      |(val (sub (mul x x) (lit 1)) : ℝ) - ((val x : ℝ) ^ 2 - 1)| ≤ 1.21e-7 * (val x : ℝ) ^ 2 := by
  obtain ⟨fm, m0, em⟩ := sq_near hx (by rw [abs_of_pos (by linarith)]; exact h)
  have h1R : (1 : ℝ) < (val x : ℝ) := by exact_mod_cast h1
  have hR : (val x : ℝ) ≤ 1e18 := by
    have : (val x : ℝ) ≤ ((1e18 : ℚ) : ℝ) := by exact_mod_cast h
    push_cast at this; norm_num at this ⊢; exact this
  have hx2 : (val x : ℝ) ^ 2 ≤ 1e36 := (pow_le_pow_left₀ (by linarith) hR 2).trans (by norm_num)
  have hx1 : 1 < (val x : ℝ) ^ 2 := by nlinarith
  have hm : val x ≤ val (mul x x) := by
    rw [mul_fin hx hx]
    exact le_rnd hx (by nlinarith)
  have hsucc : 1 + 1 / 8388608 ≤ val x := by
    have c : val (lit 1) = 1 ∧ key 0x3F800001#32 = key (lit 1) + 1 ∧ val 0x3F800001#32 = 1 + 1 / 8388608 := by decide +kernel
    have := succ_le (a := lit 1) (b := x) (by rw [c.1]; exact h1) _ c.2.1
    rwa [c.2.2] at this
  generalize (val x : ℝ) ^ 2 = X at *
  generalize mul x x = m at *
  have mR : (1 : ℝ) ≤ (val m : ℝ) := by exact_mod_cast (by linarith : (1 : ℚ) ≤ val m)
  obtain ⟨m1, m2⟩ := _root_.abs_le.1 em
  have ha := sub_fin fm fin_one
  rw [val_one] at ha
  have fa : Finite (sub m (lit 1)) := by
    rw [ha]; apply rnd_finite'
    have : |((val m - 1 : ℚ) : ℝ)| ≤ ((3.4e38 : ℚ) : ℝ) := by
      push_cast
      rw [abs_of_nonneg (by linarith)]
      norm_num at *; linarith
    exact_mod_cast this
  refine ⟨fa, ?_, ?_⟩
  · have c : Finite 0x34000000#32 ∧ val 0x34000000#32 = 1 / 8388608 := by decide +kernel
    rw [ha]
    have := le_rnd (s := neg m && !neg (lit 1)) c.1 (q := val m - 1) (by rw [c.2]; linarith)
    rw [c.2] at this
    exact le_trans (by norm_num) this
  have k := rnd_errR (ha ▸ fa)
  rw [← ha] at k
  push_cast at k
  rw [abs_of_nonneg (by linarith : 0 ≤ (val m : ℝ) - 1)] at k
  have t := abs_sub_le (val (sub m (lit 1)) : ℝ) ((val m : ℝ) - 1) (X - 1)
  rw [show (val m : ℝ) - 1 - (X - 1) = (val m : ℝ) - X by ring] at t
  norm_num at *; linarith

/-- From an error of the square root to the result of `acosh`. -/
theorem acosh_of {x s : BitVec 32} {S D : ℝ} (hx : Finite x) (fs : Finite s) (h1 : 1 < val x) (h : val x ≤ 1e18)
    (hS0 : 0 ≤ S) (hS : S ≤ (val x : ℝ)) (hD : D ≤ 1e-2) (hs : |(val s : ℝ) - S| ≤ D * (val x : ℝ)) :
    Finite (log (add x s)) ∧ |(val (log (add x s)) : ℝ) - Real.log ((val x : ℝ) + S)| ≤
      1.06 * (D + 1.3e-7) + 4.2e-7 * |Real.log ((val x : ℝ) + S)| := by
  have h1R : (1 : ℝ) < (val x : ℝ) := by exact_mod_cast h1
  have hR : (val x : ℝ) ≤ 1e18 := by
    have : (val x : ℝ) ≤ ((1e18 : ℚ) : ℝ) := by exact_mod_cast h
    push_cast at this; norm_num at this ⊢; exact this
  have hDx : D * (val x : ℝ) ≤ 1e-2 * (val x : ℝ) := by gcongr
  obtain ⟨s1, s2⟩ := _root_.abs_le.1 hs
  have ha := add_fin hx fs
  have t3 : |((val x + val s : ℚ) : ℝ)| ≤ 2.01 * (val x : ℝ) := by
    push_cast
    rw [_root_.abs_le]
    generalize (val x : ℝ) = v at *
    generalize D * v = W at *
    norm_num at *; constructor <;> linarith
  have fa : Finite (add x s) := by
    rw [ha]; apply rnd_finite'
    have : |((val x + val s : ℚ) : ℝ)| ≤ ((3.4e38 : ℚ) : ℝ) := by
      refine t3.trans ?_
      generalize (val x : ℝ) = v at *
      norm_num at *; linarith
    exact_mod_cast this
  have k := rnd_errR (ha ▸ fa)
  rw [← ha] at k
  have t := abs_sub_le (val (add x s) : ℝ) ((val x + val s : ℚ) : ℝ) ((val x : ℝ) + S)
  have t2 : |((val x + val s : ℚ) : ℝ) - ((val x : ℝ) + S)| ≤ D * (val x : ℝ) := by
    push_cast
    rw [show (val x : ℝ) + val s - ((val x : ℝ) + S) = (val s : ℝ) - S by ring]; exact hs
  have hD0 : 0 ≤ D := by
    by_contra hc
    have : D * (val x : ℝ) < 0 := mul_neg_of_neg_of_pos (not_le.1 hc) (by linarith)
    linarith [abs_nonneg ((val s : ℝ) - S)]
  refine log_near fa (le_trans (by norm_num) (show (1 : ℝ) ≤ (val x : ℝ) + S by linarith)) ?_ (by norm_num at *; linarith)
  have e : (D + 1.3e-7) * (val x : ℝ) ≤ (D + 1.3e-7) * ((val x : ℝ) + S) := by gcongr; linarith
  refine le_trans ?_ e
  rw [add_mul]
  generalize |((val x + val s : ℚ) : ℝ)| = A at *
  generalize D * (val x : ℝ) = W at *
  generalize (val x : ℝ) = v at *
  norm_num at *; linarith

/-- **C92** (part) For `1 ≤ x ≤ 1e18`, `acosh` is within `4e-4` plus a relative `4.2e-7` of the inverse hyperbolic cosine, and
from `1.25` on within `2.4e-6`. Missing: larger arguments, where the square overflows (`C92_false`). -/
theorem C92_acosh_partial (x : BitVec 32) (hx : Finite x) (h1 : 1 ≤ val x) (h : val x ≤ 1e18) :
    Finite (acosh x) ∧ |(val (acosh x) : ℝ) - Real.arcosh (val x)| ≤ 4e-4 + 4.2e-7 * |Real.arcosh (val x)| ∧
      (1.25 ≤ val x → |(val (acosh x) : ℝ) - Real.arcosh (val x)| ≤ 2.4e-6 + 4.2e-7 * |Real.arcosh (val x)|) := by
  have hne : ¬ F32.lt x (lit 1) = true := by
    rw [lt_fin hx fin_one, val_one]; simpa using h1
  rcases h1.eq_or_lt with he | h1
  · have : x = lit 1 := eq_of_val_pos (by rw [val_one]; exact he.symm) (by decide +kernel)
    subst this
    have c : Finite (acosh (lit 1)) ∧ val (acosh (lit 1)) = 0 := by decide +kernel
    rw [val_one, c.2]
    refine ⟨c.1, ?_, ?_⟩
    · simp; norm_num
    · intro h; norm_num at h
  obtain ⟨fr, r0, er⟩ := acosh_rad hx h1 h
  have e0 : acosh x = log (add x (sqrt (sub (mul x x) (lit 1)))) := by unfold acosh; rw [if_neg hne]
  rw [e0]
  have hv : 2 ^ (-126 : ℤ) ≤ val (sub (mul x x) (lit 1)) := le_trans (by norm_num) r0
  obtain ⟨fs, es⟩ := C76_accuracy_partial _ fr hv
  have h1R : (1 : ℝ) < (val x : ℝ) := by exact_mod_cast h1
  have r0R : (0 : ℝ) ≤ (val (sub (mul x x) (lit 1)) : ℝ) := by
    exact_mod_cast (le_trans (by norm_num) r0 : (0 : ℚ) ≤ val (sub (mul x x) (lit 1)))
  have hB : 0 < (val x : ℝ) ^ 2 - 1 := by nlinarith
  have hSx : Real.sqrt ((val x : ℝ) ^ 2 - 1) ≤ (val x : ℝ) := by
    rw [Real.sqrt_le_left (by linarith)]; linarith
  have hS0 := Real.sqrt_nonneg ((val x : ℝ) ^ 2 - 1)
  unfold Real.arcosh
  have weak : |(val (sqrt (sub (mul x x) (lit 1))) : ℝ) - Real.sqrt ((val x : ℝ) ^ 2 - 1)| ≤ 3.6e-4 * (val x : ℝ) := by
    have q : |Real.sqrt (val (sub (mul x x) (lit 1))) - Real.sqrt ((val x : ℝ) ^ 2 - 1)| ≤ 3.5e-4 * (val x : ℝ) := by
      have a : (Real.sqrt (val (sub (mul x x) (lit 1))) - Real.sqrt ((val x : ℝ) ^ 2 - 1)) ^ 2 ≤ (3.5e-4 * (val x : ℝ)) ^ 2 := by
        have s0 := Real.sqrt_nonneg (val (sub (mul x x) (lit 1)) : ℝ)
        have q1 := Real.sq_sqrt r0R
        have q2 := Real.sq_sqrt hB.le
        obtain ⟨g1, g2⟩ := _root_.abs_le.1 er
        have b : (Real.sqrt (val (sub (mul x x) (lit 1))) - Real.sqrt ((val x : ℝ) ^ 2 - 1)) ^ 2 ≤ 1.21e-7 * (val x : ℝ) ^ 2 := by
          rcases le_total (Real.sqrt (val (sub (mul x x) (lit 1)))) (Real.sqrt ((val x : ℝ) ^ 2 - 1)) with hl | hl
          · nlinarith
          · nlinarith
        refine b.trans ?_
        rw [mul_pow]
        have : 0 ≤ (val x : ℝ) ^ 2 := sq_nonneg _
        generalize (val x : ℝ) ^ 2 = X at *
        norm_num at *; linarith
      exact abs_le_of_sq_le_sq a (by positivity)
    have t := abs_sub_le (val (sqrt (sub (mul x x) (lit 1))) : ℝ) (Real.sqrt (val (sub (mul x x) (lit 1)))) (Real.sqrt ((val x : ℝ) ^ 2 - 1))
    have q2 := (_root_.abs_le.1 q).2
    generalize Real.sqrt (val (sub (mul x x) (lit 1)) : ℝ) = T at *
    generalize Real.sqrt ((val x : ℝ) ^ 2 - 1) = S at *
    generalize (val x : ℝ) = v at *
    norm_num at *; linarith
  obtain ⟨f, k⟩ := acosh_of hx fs h1 h hS0 hSx (by norm_num) weak
  refine ⟨f, k.trans ?_, ?_⟩
  · gcongr; norm_num
  · intro h25
    have h25R : (1.25 : ℝ) ≤ (val x : ℝ) := by
      have : ((1.25 : ℚ) : ℝ) ≤ (val x : ℝ) := by exact_mod_cast h25
      push_cast at this; exact this
    have hB2 : 0.36 * (val x : ℝ) ^ 2 ≤ (val x : ℝ) ^ 2 - 1 := by nlinarith
    obtain ⟨-, es2⟩ := sqrt_rel (B := (val x : ℝ) ^ 2 - 1) (d := 3.4e-7) fr hv hB (er.trans (by
      generalize (val x : ℝ) ^ 2 = X at *
      norm_num at *; linarith)) (by norm_num)
    have strong : |(val (sqrt (sub (mul x x) (lit 1))) : ℝ) - Real.sqrt ((val x : ℝ) ^ 2 - 1)| ≤ 2.05e-6 * (val x : ℝ) := by
      refine es2.trans ?_
      generalize Real.sqrt ((val x : ℝ) ^ 2 - 1) = S at *
      generalize (val x : ℝ) = v at *
      norm_num at *; linarith
    obtain ⟨-, k⟩ := acosh_of hx fs h1 h hS0 hSx (by norm_num) strong
    refine k.trans ?_
    gcongr; norm_num

/-- **C92** (part) `acosh` is a NaN below one, minus infinity included. -/
theorem C92_acosh_domain (x : BitVec 32) (h : F32.lt x (lit 1) = true) : IsNaN (acosh x) := by
  unfold acosh
  rw [if_pos h]; decide +kernel

/-! ### `atanh` -/

/-- **C92** (part) On `(-1, 1)`, `atanh` is within `1e-7` plus a relative `4.9e-7` of the inverse hyperbolic tangent. -/
theorem C92_atanh (x : BitVec 32) (hx : Finite x) (h : |val x| < 1) :
    Finite (atanh x) ∧ |(val (atanh x) : ℝ) - Real.artanh (val x)| ≤ 1e-7 + 4.9e-7 * |Real.artanh (val x)| := by
  obtain ⟨h1, h2⟩ := abs_lt.1 h
  have lo : ∀ y : BitVec 32, Finite y → -1 < val y → 5e-8 ≤ 1 + val y := by
    intro y hy hy1
    have c : Finite (negate (lit 1)) ∧ val (negate (lit 1)) = -1 ∧ key 0xBF7FFFFF#32 = key (negate (lit 1)) + 1 ∧
      val 0xBF7FFFFF#32 = -1 + 2 ^ (-24 : ℤ) := by decide +kernel
    have := succ_le (a := negate (lit 1)) (b := y) (by rw [c.2.1]; exact hy1) _ c.2.2.1
    rw [c.2.2.2] at this
    norm_num at this ⊢; linarith
  have hp := lo x hx h1
  have hm : 5e-8 ≤ 1 - val x := by
    have := lo (negate x) (finite_negate.2 hx) (by rw [val_negate]; linarith)
    rw [val_negate] at this; linarith
  obtain ⟨fu, ε, e1, e2⟩ := add_eps fin_one hx (by rw [val_one, abs_of_pos (by linarith)]; norm_num at hp ⊢; linarith)
      (by rw [val_one, abs_of_pos (by linarith)]; norm_num; linarith)
  obtain ⟨fv, δ, d1, d2⟩ := sub_eps fin_one hx (by rw [val_one, abs_of_pos (by linarith)]; norm_num at hm ⊢; linarith)
      (by rw [val_one, abs_of_pos (by linarith)]; norm_num; linarith)
  rw [val_one] at e2 d2
  obtain ⟨ea, eb⟩ := _root_.abs_le.1 e1
  obtain ⟨da, db⟩ := _root_.abs_le.1 d1
  have u0 : 0 < val (add (lit 1) x) := by rw [e2]; apply mul_pos <;> linarith
  have v0 : 0 < val (sub (lit 1) x) := by rw [d2]; apply mul_pos <;> linarith
  have u1 : 4e-8 ≤ val (add (lit 1) x) ∧ val (add (lit 1) x) ≤ 2.1 := by
    rw [e2]; constructor <;> norm_num at * <;> nlinarith
  have v1 : 4e-8 ≤ val (sub (lit 1) x) ∧ val (sub (lit 1) x) ≤ 2.1 := by
    rw [d2]; constructor <;> norm_num at * <;> nlinarith
  have hq1 : 1e-8 ≤ val (add (lit 1) x) / val (sub (lit 1) x) := by
    rw [le_div_iff₀ v0]; norm_num at *; linarith
  have hq2 : val (add (lit 1) x) / val (sub (lit 1) x) ≤ 1e8 := by
    rw [div_le_iff₀ v0]; norm_num at *; linarith
  have hq0 : 0 < val (add (lit 1) x) / val (sub (lit 1) x) := div_pos u0 v0
  obtain ⟨fq, η, g1, g2⟩ := div_eps fu fv v0.ne' (by rw [abs_of_pos hq0]; norm_num at hq1 ⊢; linarith)
    (by rw [abs_of_pos hq0]; norm_num at hq2 ⊢; linarith)
  obtain ⟨ga, gb⟩ := _root_.abs_le.1 g1
  have hA0 : 0 < (1 + val x) / (1 - val x) := div_pos (by linarith) (by linarith)
  have hA1 : 1e-30 ≤ (1 + val x) / (1 - val x) := by
    rw [le_div_iff₀ (by linarith)]; norm_num at *; linarith
  have hrel : |val (div (add (lit 1) x) (sub (lit 1) x)) - (1 + val x) / (1 - val x)| ≤ 1.81e-7 * ((1 + val x) / (1 - val x)) := by
    rw [g2, e2, d2]
    have e3 : (1 + val x) * (1 + ε) / ((1 - val x) * (1 + δ)) * (1 + η) = (1 + val x) / (1 - val x) * ((1 + ε) * (1 + η) / (1 + δ)) := by
      have : (1 : ℚ) - val x ≠ 0 := by linarith
      have : (1 : ℚ) + δ ≠ 0 := by linarith
      field_simp
    rw [e3]
    have e4 : |(1 + ε) * (1 + η) / (1 + δ) - 1| ≤ 1.81e-7 := by
      have hδ : 0 < 1 + δ := by linarith
      rw [div_sub_one hδ.ne', abs_div, abs_of_pos hδ, div_le_iff₀ hδ]
      rw [_root_.abs_le]
      constructor <;> norm_num at * <;> nlinarith
    rw [show (1 + val x) / (1 - val x) * ((1 + ε) * (1 + η) / (1 + δ)) - (1 + val x) / (1 - val x) =
      (1 + val x) / (1 - val x) * ((1 + ε) * (1 + η) / (1 + δ) - 1) by ring, abs_mul, abs_of_pos hA0, _root_.mul_comm]
    gcongr
  have hrelR : |(val (div (add (lit 1) x) (sub (lit 1) x)) : ℝ) - (1 + (val x : ℝ)) / (1 - (val x : ℝ))| ≤
      1.81e-7 * ((1 + (val x : ℝ)) / (1 - (val x : ℝ))) := by
    have : ((|val (div (add (lit 1) x) (sub (lit 1) x)) - (1 + val x) / (1 - val x)| : ℚ) : ℝ) ≤
      ((1.81e-7 * ((1 + val x) / (1 - val x)) : ℚ) : ℝ) := by exact_mod_cast hrel
    push_cast at this; exact this
  have hA1R : (1e-30 : ℝ) ≤ (1 + (val x : ℝ)) / (1 - (val x : ℝ)) := by
    have : ((1e-30 : ℚ) : ℝ) ≤ (((1 + val x) / (1 - val x) : ℚ) : ℝ) := by exact_mod_cast hA1
    push_cast at this; exact this
  obtain ⟨fl1, kl⟩ := log_near fq hA1R hrelR (by norm_num)
  have hx1 : (-1 : ℝ) ≤ (val x : ℝ) := by exact_mod_cast h1.le
  have hx2 : (val x : ℝ) ≤ 1 := by exact_mod_cast h2.le
  rw [Real.artanh_eq_half_log ⟨hx1, hx2⟩]
  have hlog : |Real.log ((1 + (val x : ℝ)) / (1 - (val x : ℝ)))| ≤ 100 := by
    have hA2 : (1 + (val x : ℝ)) / (1 - (val x : ℝ)) ≤ 4e7 := by
      have : (1 + val x) / (1 - val x) ≤ 4e7 := by
        rw [div_le_iff₀ (by linarith)]; norm_num at *; linarith
      have : (((1 + val x) / (1 - val x) : ℚ) : ℝ) ≤ ((4e7 : ℚ) : ℝ) := by exact_mod_cast this
      push_cast at this; exact this
    have hA3 : (1 / 4e7 : ℝ) ≤ (1 + (val x : ℝ)) / (1 - (val x : ℝ)) := by
      have : 1 / 4e7 ≤ (1 + val x) / (1 - val x) := by
        rw [le_div_iff₀ (by linarith)]; norm_num at *; linarith
      have : ((1 / 4e7 : ℚ) : ℝ) ≤ (((1 + val x) / (1 - val x) : ℚ) : ℝ) := by exact_mod_cast this
      push_cast at this; exact this
    have hpos : (0 : ℝ) < (1 + (val x : ℝ)) / (1 - (val x : ℝ)) := lt_of_lt_of_le (by norm_num) hA1R
    have l1 : Real.log ((1 + (val x : ℝ)) / (1 - (val x : ℝ))) ≤ 100 := by
      rw [Real.log_le_iff_le_exp hpos]
      refine hA2.trans ?_
      have : (2 : ℝ) ^ 100 ≤ Real.exp 1 ^ 100 := pow_le_pow_left₀ (by norm_num) (by linarith [Real.exp_one_gt_d9]) _
      rw [← Real.exp_nat_mul] at this
      refine le_trans ?_ (this.trans (le_of_eq (by norm_num)))
      norm_num
    have l2 : -100 ≤ Real.log ((1 + (val x : ℝ)) / (1 - (val x : ℝ))) := by
      rw [Real.le_log_iff_exp_le hpos]
      refine le_trans ?_ hA3
      have : (2 : ℝ) ^ 100 ≤ Real.exp 1 ^ 100 := pow_le_pow_left₀ (by norm_num) (by linarith [Real.exp_one_gt_d9]) _
      rw [← Real.exp_nat_mul] at this
      rw [Real.exp_neg, ← one_div]
      apply one_div_le_one_div_of_le (by norm_num)
      refine le_trans ?_ (this.trans (le_of_eq (by norm_num)))
      norm_num
    exact _root_.abs_le.2 ⟨l2, l1⟩
  unfold atanh
  generalize log (div (add (lit 1) x) (sub (lit 1) x)) = l at *
  generalize Real.log ((1 + (val x : ℝ)) / (1 - (val x : ℝ))) = L at *
  have hmul := mul_fin fl1 lit_half_val.1
  rw [lit_half_val.2] at hmul
  have kl2 := abs_sub_abs_le_abs_sub (val l : ℝ) L
  have hq : |((val l * 0.5 : ℚ) : ℝ)| = |(val l : ℝ)| / 2 := by
    push_cast
    rw [abs_mul, abs_of_pos (by norm_num : (0 : ℝ) < 0.5)]; ring
  have fr : Finite (mul l (lit 0.5)) := by
    rw [hmul]; apply rnd_finite'
    have : |((val l * 0.5 : ℚ) : ℝ)| ≤ ((3.4e38 : ℚ) : ℝ) := by
      rw [hq]
      generalize |(val l : ℝ)| = P at *
      generalize |L| = Q at *
      norm_num at *; linarith
    exact_mod_cast this
  refine ⟨fr, ?_⟩
  have k := rnd_errR (hmul ▸ fr)
  rw [← hmul, hq] at k
  have t := abs_sub_le (val (mul l (lit 0.5)) : ℝ) ((val l * 0.5 : ℚ) : ℝ) (1 / 2 * L)
  have t2 : |((val l * 0.5 : ℚ) : ℝ) - 1 / 2 * L| = |(val l : ℝ) - L| / 2 := by
    push_cast
    rw [show (val l : ℝ) * 0.5 - 1 / 2 * L = ((val l : ℝ) - L) / 2 by ring, abs_div, abs_of_pos (by norm_num : (0 : ℝ) < 2)]
  have t3 : |1 / 2 * L| = |L| / 2 := by rw [abs_mul, abs_of_pos (by norm_num : (0 : ℝ) < 1 / 2)]; ring
  rw [t2] at t
  rw [t3]
  have hQ0 := abs_nonneg L
  generalize |(val l : ℝ)| = P at *
  generalize |L| = Q at *
  norm_num at *; linarith

/-- **C92** (part) `atanh` is a NaN outside `[-1, 1]` (up to `1e38`), and minus infinity at `-1`. -/
theorem C92_atanh_domain (x : BitVec 32) (hx : Finite x) : (1 < |val x| → |val x| ≤ 1e38 → IsNaN (atanh x)) ∧
    (val x = -1 → atanh x = negate inf) := by
  refine ⟨fun h hb => ?_, fun h => ?_⟩
  · obtain ⟨b1, b2⟩ := _root_.abs_le.1 hb
    have far : 1 + 1 / 8388608 ≤ |val x| := by
      have c : val (lit 1) = 1 ∧ key 0x3F800001#32 = key (lit 1) + 1 ∧ val 0x3F800001#32 = 1 + 1 / 8388608 := by decide +kernel
      rcases lt_abs.1 h with h | h
      · have := succ_le (a := lit 1) (b := x) (by rw [c.1]; exact h) _ c.2.1
        rw [c.2.2] at this
        exact this.trans (le_abs_self _)
      · have := succ_le (a := lit 1) (b := negate x) (by rw [c.1, val_negate]; exact h) _ c.2.1
        rw [c.2.2, val_negate] at this
        exact this.trans (neg_le_abs _)
    have hu : 1e-8 ≤ |1 + val x| ∧ |1 + val x| ≤ 1.1e38 ∧ 1e-8 ≤ |1 - val x| ∧ |1 - val x| ≤ 1.1e38 := by
      refine ⟨le_abs.2 ?_, _root_.abs_le.2 ?_, le_abs.2 ?_, _root_.abs_le.2 ?_⟩
      · rcases le_abs.1 far with h | h
        · left; norm_num at *; linarith
        · right; norm_num at *; linarith
      · constructor <;> norm_num at * <;> linarith
      · rcases le_abs.1 far with h | h
        · right; norm_num at *; linarith
        · left; norm_num at *; linarith
      · constructor <;> norm_num at * <;> linarith
    obtain ⟨fu, ε, e1, e2⟩ := add_eps fin_one hx (by rw [val_one]; exact le_trans (by norm_num) hu.1)
      (by rw [val_one]; exact hu.2.1.trans (by norm_num))
    obtain ⟨fv, δ, d1, d2⟩ := sub_eps fin_one hx (by rw [val_one]; exact le_trans (by norm_num) hu.2.2.1)
      (by rw [val_one]; exact hu.2.2.2.trans (by norm_num))
    rw [val_one] at e2 d2
    obtain ⟨ea, eb⟩ := _root_.abs_le.1 e1
    obtain ⟨da, db⟩ := _root_.abs_le.1 d1
    have hq : val (sub (lit 1) x) ≠ 0 ∧ val (add (lit 1) x) / val (sub (lit 1) x) ≤ -1e-9 := by
      rcases le_abs.1 far with h | h
      · have hv : val (sub (lit 1) x) < 0 := by rw [d2]; apply mul_neg_of_neg_of_pos <;> norm_num at * <;> linarith
        refine ⟨hv.ne, ?_⟩
        rw [div_le_iff_of_neg hv, e2, d2]
        norm_num at *; nlinarith
      · have hv : 0 < val (sub (lit 1) x) := by rw [d2]; apply mul_pos <;> norm_num at * <;> linarith
        refine ⟨hv.ne', ?_⟩
        rw [div_le_iff₀ hv, e2, d2]
        norm_num at *; nlinarith
    have hd := div_fin fu fv hq.1
    have c : Finite (negate (lit 1e-9)) ∧ val (negate (lit 1e-9)) < 0 ∧ -1.0001e-9 ≤ val (negate (lit 1e-9)) ∧
      Finite (negate (lit 0.9e-9)) ∧ val (negate (lit 0.9e-9)) < 0 ∧ -1e-9 ≤ val (negate (lit 0.9e-9)) ∧ val (lit 0) = 0 ∧ ¬ IsNaN (lit 0) := by
      decide +kernel
    have hlt : F32.lt (div (add (lit 1) x) (sub (lit 1) x)) (lit 0) = true := by
      rw [hd]
      unfold F32.lt
      simp only [rnd_notNaN, c.2.2.2.2.2.2.2, not_false_eq_true, true_and, decide_eq_true_eq]
      rw [← val_lt_iff, c.2.2.2.2.2.2.1]
      exact lt_of_le_of_lt (rnd_le c.2.2.2.1 (hq.2.trans c.2.2.2.2.2.1)) c.2.2.2.2.1
    unfold atanh
    exact mul_nan_left ((C82_special _).2.1 hlt).1
  · have c : val (negate (lit 1)) = -1 ∧ Finite (negate (lit 1)) := by decide +kernel
    have : negate x = lit 1 := eq_of_val_pos (by rw [val_negate, h, val_one]; norm_num) (by decide +kernel)
    have : x = negate (lit 1) := by rw [← this, negate_negate]
    rw [this]; decide +kernel

/-- **C92** is false as stated: `asinh` is minus infinity from about `-4000` down, where the two terms cancel; `acosh` of a
large argument, of infinity and of a NaN is `89.13`; `atanh` is `44.36` at one, where the function is infinite, and `44.56` at
a NaN. -/
theorem C92_false : asinh (lit (-10000)) = negate inf ∧ acosh (lit 1e30) = 0x42b241b1#32 ∧ acosh inf = 0x42b241b1#32 ∧
    acosh 0x7fc00000#32 = 0x42b241b1#32 ∧ atanh (lit 1) = 0x42317218#32 ∧ atanh 0x7fc00000#32 = 0x423241b1#32 := by
  decide +kernel

example : Finite (lit 1000) ∧ 0 ≤ val (lit 1000) ∧ val (lit 1000) ≤ 1e18 ∧ Finite (lit (-3)) ∧ -100 ≤ val (lit (-3)) ∧
    val (lit (-3)) < 0 ∧ Finite (lit 0.5) ∧ |val (lit 0.5)| < 1 ∧ 1 < |val (lit (-3))| ∧ F32.lt (lit 0.5) (lit 1) = true := by
  decide +kernel

end Verif.Ffmath
