import Verif.Ffmath.LgammaAcc
import Verif.Ffmath.Exp
import Mathlib.Analysis.SpecialFunctions.Gamma.BohrMollerup

/-!
# Accuracy of `beta` for positive arguments (C153)

IEEE binary32 arithmetic against the beta function of the real numbers.
-/

namespace Verif.Ffmath

open Verif Verif.F32

/-! ## The logarithm of the gamma function at a rounded argument -/

theorem lg_succ {x : ℝ} (hx : 0 < x) : Real.log (Real.Gamma (x + 1)) = Real.log x + Real.log (Real.Gamma x) := by
  rw [Real.Gamma_add_one hx.ne', Real.log_mul hx.ne' (Real.Gamma_pos_of_pos hx).ne']

/-- By convexity the slope of `log Γ` right of `a + 1` is between `log a` and `log (b + 1)`. -/
theorem lg_slope {a b : ℝ} (ha : 0 < a) (hab : a < b) :
    (b - a) * Real.log a ≤ Real.log (Real.Gamma (b + 1)) - Real.log (Real.Gamma (a + 1)) ∧
    Real.log (Real.Gamma (b + 1)) - Real.log (Real.Gamma (a + 1)) ≤ (b - a) * Real.log (b + 1) := by
  have c := Real.convexOn_log_Gamma
  have s1 := c.slope_mono_adjacent (x := a) (y := a + 1) (z := b + 1) (Set.mem_Ioi.2 ha) (Set.mem_Ioi.2 (by linarith)) (by linarith) (by linarith)
  have s2 := c.slope_mono_adjacent (x := a + 1) (y := b + 1) (z := b + 1 + 1) (Set.mem_Ioi.2 (by linarith)) (Set.mem_Ioi.2 (by linarith))
    (by linarith) (by linarith)
  simp only [Function.comp_apply] at s1 s2
  have e1 := lg_succ ha
  have e2 := lg_succ (x := b + 1) (by linarith)
  rw [show a + 1 - a = 1 by ring, show b + 1 - (a + 1) = b - a by ring, div_one, le_div_iff₀ (by linarith)] at s1
  rw [show b + 1 + 1 - (b + 1) = 1 by ring, show b + 1 - (a + 1) = b - a by ring, div_one, div_le_iff₀ (by linarith)] at s2
  constructor
  · nlinarith
  · nlinarith

theorem lg_order {a b s : ℝ} (ha : 0 < a) (hab : a < b) (h : b - a ≤ s / 16777216) (h1 : a ≤ s) (h2 : s ≤ b) (hs : s ≤ 1000) :
    |Real.log (Real.Gamma b) - Real.log (Real.Gamma a)| ≤ 6e-8 * (s * |Real.log s| + 2.1) := by
  obtain ⟨l1, l2⟩ := lg_slope ha hab
  rw [lg_succ ha, lg_succ (ha.trans hab)] at l1 l2
  have hb := ha.trans hab
  have s0 : 0 < s := by linarith
  have ls : Real.log a ≤ Real.log s := Real.log_le_log ha h1
  have lb : Real.log s ≤ Real.log b := Real.log_le_log s0 h2
  have q : Real.log b - Real.log a ≤ 6e-8 := by
    rw [← Real.log_div hb.ne' ha.ne']
    have := Real.log_le_sub_one_of_pos (x := b / a) (by positivity)
    have e : b / a ≤ 1 + 6e-8 := by
      rw [div_le_iff₀ ha]; norm_num; linarith
    linarith
  have p : Real.log (b + 1) ≤ Real.log b + 1 / b := by
    rw [show b + 1 = b * (1 + 1 / b) by field_simp, Real.log_mul hb.ne' (by positivity)]
    have := Real.log_le_sub_one_of_pos (x := 1 + 1 / b) (by positivity)
    linarith
  have k := abs_le.1 (le_refl |Real.log s|)
  have u1 : (b - a) * Real.log (b + 1) ≤ 5.97e-8 * (s * |Real.log s| + 1.001) := by
    have a1 : Real.log (b + 1) ≤ |Real.log s| + 6e-8 + 1 / b := by linarith
    have a2 : (b - a) * Real.log (b + 1) ≤ (b - a) * (|Real.log s| + 6e-8 + 1 / b) := mul_le_mul_of_nonneg_left a1 (by linarith)
    have a3 : (b - a) * (|Real.log s| + 6e-8 + 1 / b) ≤ s / 16777216 * (|Real.log s| + 6e-8 + 1 / b) := mul_le_mul_of_nonneg_right h (by positivity)
    have a4 : s * (1 / b) ≤ 1 := by rw [mul_one_div, div_le_one hb]; exact h2
    have a5 : 0 ≤ s * |Real.log s| := by positivity
    norm_num at a3 ⊢
    nlinarith
  have u2 : -(5.97e-8 * (s * |Real.log s| + 1.001)) ≤ (b - a) * Real.log a := by
    have a1 : -(|Real.log s| + 6e-8) ≤ Real.log a := by linarith
    have a2 : (b - a) * -(|Real.log s| + 6e-8) ≤ (b - a) * Real.log a := mul_le_mul_of_nonneg_left a1 (by linarith)
    have a3 : (b - a) * (|Real.log s| + 6e-8) ≤ s / 16777216 * (|Real.log s| + 6e-8) := mul_le_mul_of_nonneg_right h (by positivity)
    have a5 : 0 ≤ s * |Real.log s| := by positivity
    norm_num at a2 a3 ⊢
    nlinarith
  have a5 : 0 ≤ s * |Real.log s| := by positivity
  generalize s * |Real.log s| = w at *
  rw [abs_le]
  norm_num at u1 u2 q ⊢
  constructor <;> linarith

theorem lg_close {s t : ℝ} (h0 : 0 < s) (hs : s ≤ 1000) (h : |t - s| ≤ s / 16777216) :
    |Real.log (Real.Gamma t) - Real.log (Real.Gamma s)| ≤ 6e-8 * (s * |Real.log s| + 2.1) := by
  rw [abs_le] at h
  rcases lt_trichotomy t s with k | rfl | k
  · rw [abs_sub_comm]
    exact lg_order (by linarith) k (by linarith) (by linarith) le_rfl hs
  · rw [sub_self, abs_zero]; positivity
  · exact lg_order h0 k (by linarith) le_rfl (by linarith) hs

theorem c_ln2pi : 0.9 ≤ Real.log (2 * Real.pi) / 2 ∧ Real.log (2 * Real.pi) / 2 ≤ 0.93 := by
  obtain ⟨fc, ec⟩ := ln2pi
  have k : F32.Finite FFP_LN_SQRT_2PI ∧ |val FFP_LN_SQRT_2PI - 0.919| ≤ 0.001 := by decide +kernel
  have : ((|val FFP_LN_SQRT_2PI - 0.919| : ℚ) : ℝ) ≤ ((0.001 : ℚ) : ℝ) := by exact_mod_cast k.2
  push_cast at this
  rw [abs_le] at this ec
  norm_num at this ec ⊢
  constructor <;> linarith

theorem lg_lower {s : ℝ} (h : 1 ≤ s) : (s - 1 / 2) * Real.log s - s + 0.9 ≤ Real.log (Real.Gamma s) := by
  obtain ⟨b1, -⟩ := stir_bounds (x := s) (by linarith)
  have c := c_ln2pi.1
  have : 0 ≤ corr3 s := by
    unfold corr3
    rw [sub_nonneg]
    apply one_div_le_one_div_of_le (by linarith)
    nlinarith [mul_pos (by linarith : 0 < s) (by linarith : 0 < s)]
  unfold stir at b1
  linarith

theorem s_log {s : ℝ} (h0 : 0 < s) : s * |Real.log s| ≤ 4 + 2 * |Real.log (Real.Gamma s)| := by
  have g := abs_nonneg (Real.log (Real.Gamma s))
  rcases le_total s 1 with h | h
  · rw [abs_of_nonpos (Real.log_nonpos h0.le h)]
    have := Real.one_sub_inv_le_log_of_pos h0
    have e : s * s⁻¹ = 1 := mul_inv_cancel₀ h0.ne'
    nlinarith
  · have l := lg_lower h
    have g2 := le_abs_self (Real.log (Real.Gamma s))
    rw [abs_of_nonneg (Real.log_nonneg h)]
    have e1 := Real.exp_one_lt_d9
    have e0 := Real.exp_pos 1
    have k := Real.one_sub_inv_le_log_of_pos (x := s / Real.exp 1) (by positivity)
    rw [Real.log_div h0.ne' e0.ne', Real.log_exp, inv_div] at k
    have m : Real.exp 1 / s * s = Real.exp 1 := by field_simp
    have m2 : Real.exp 1 / s ≤ Real.exp 1 := div_le_self e0.le h
    have p : (s - 1) * (2 - Real.exp 1 / s) ≤ (s - 1) * Real.log s := mul_le_mul_of_nonneg_left (by linarith) (by linarith)
    have p0 : 0 ≤ Real.exp 1 / s := by positivity
    norm_num at l e1
    nlinarith

/-- A rough bound. -/
theorem lg_rough {x : ℝ} (h0 : (2 : ℝ) ^ (-126 : ℤ) ≤ x) (h1 : x ≤ 172) : |Real.log (Real.Gamma x)| ≤ 1060 := by
  have xp : 0 < x := lt_of_lt_of_le (by positivity) h0
  have e := lg_succ xp
  have b := Real.log_two_lt_d9
  norm_num at b
  have l1 : -88 ≤ Real.log x := by
    have := Real.log_le_log (by positivity) h0
    rw [Real.log_zpow] at this
    push_cast at this
    linarith
  have up : ∀ z : ℝ, 0 < z → z ≤ 256 → Real.log z ≤ 5.6 := fun z z0 z1 => by
    have := Real.log_le_log z0 z1
    rw [show (256 : ℝ) = 2 ^ 8 by norm_num, Real.log_pow] at this
    push_cast at this
    norm_num; linarith
  have l2 := up x xp (by linarith)
  have z1 : 1 ≤ x + 1 := by linarith
  have l3 := up (x + 1) (by linarith) (by linarith)
  have l4 := Real.log_nonneg z1
  have lo := lg_lower z1
  obtain ⟨-, hi⟩ := stir_bounds (x := x + 1) (by linarith)
  have c := c_ln2pi.2
  unfold stir corr5 corr3 at hi
  have d1 : 1 / (12 * (x + 1)) ≤ 1 := by rw [div_le_one (by linarith)]; linarith
  have d2 : 1 / (1260 * (x + 1) ^ 5) ≤ 1 := by
    rw [div_le_one (by positivity)]
    have := one_le_pow₀ z1 (n := 5)
    linarith
  have d3 : 0 ≤ 1 / (360 * (x + 1) ^ 3) := by positivity
  generalize 1 / (12 * (x + 1)) = u1 at *
  generalize 1 / (1260 * (x + 1) ^ 5) = u2 at *
  generalize 1 / (360 * (x + 1) ^ 3) = u3 at *
  generalize Real.log (Real.Gamma (x + 1)) = G1 at *
  generalize Real.log (Real.Gamma x) = G at *
  generalize Real.log (x + 1) = l at *
  norm_num at l2 l3 lo c
  rw [abs_le]
  constructor <;> nlinarith

/-! ## The property -/

/-- **C153** For positive normal arguments whose sum is at most 171 and whose beta function is between `1e-37` and `1e38`, `beta` is within
a relative error of `1e-6 + 6e-6 (|log Γ(x)| + |log Γ(y)| + |log Γ(x + y)|)`. -/
theorem C153_beta (x y : BitVec 32) (hx : F32.Finite x) (hy : F32.Finite y) (h0 : 2 ^ (-126 : ℤ) ≤ val x) (k0 : 2 ^ (-126 : ℤ) ≤ val y)
    (hs : val x + val y ≤ 171) (B : ℝ) (hB : B = Real.Gamma (val x) * Real.Gamma (val y) / Real.Gamma (val x + val y))
    (b1 : 1e-37 ≤ B) (b2 : B ≤ 1e38) :
    ∃ b, beta x y = .ok b ∧ F32.Finite b ∧ |(val b : ℝ) - B| ≤ (1e-6 + 6e-6 *
      (|Real.log (Real.Gamma (val x))| + |Real.log (Real.Gamma (val y))| + |Real.log (Real.Gamma (val x + val y))|)) * B := by
  have cast126 : ∀ {q : ℚ}, 2 ^ (-126 : ℤ) ≤ q → (2 : ℝ) ^ (-126 : ℤ) ≤ (q : ℝ) := fun {q} h => by
    have : ((2 ^ (-126 : ℤ) : ℚ) : ℝ) ≤ ((q : ℚ) : ℝ) := by exact_mod_cast h
    norm_num at this ⊢; linarith
  have h0r := cast126 h0
  have k0r := cast126 k0
  have pp : (0 : ℝ) < (2 : ℝ) ^ (-126 : ℤ) := by positivity
  have ppq : (0 : ℚ) < (2 : ℚ) ^ (-126 : ℤ) := by positivity
  have hsr : (val x : ℝ) + val y ≤ 171 := by exact_mod_cast hs
  have xr : (0 : ℝ) < (val x : ℝ) := by linarith
  have yr : (0 : ℝ) < (val y : ℝ) := by linarith
  have hlim : (171.5 : ℚ) ≤ val (lit 171.624) := by decide +kernel
  -- the rounded sum
  have s0 : 2 ^ (-126 : ℤ) ≤ (val x + val y) / 2 := by
    generalize (2 : ℚ) ^ (-126 : ℤ) = p at h0 k0 ⊢
    linarith
  obtain ⟨ft, et⟩ := rnd_rel (s := neg x && neg y) (q := val x + val y) (by rw [abs_of_pos (by linarith)]; linarith)
    (by rw [abs_of_pos (by linarith)]; norm_num; linarith)
  rw [← add_fin hx hy] at ft et
  rw [abs_of_pos (by linarith : 0 < val x + val y)] at et
  have etr : |(val (add x y) : ℝ) - (val x + val y)| ≤ ((val x : ℝ) + val y) / 16777216 := by exact_mod_cast et
  have lc := lg_close (by linarith) (by linarith) etr
  have sl := s_log (s := (val x : ℝ) + val y) (by linarith)
  have etq := abs_le.1 et
  obtain ⟨f1, e1⟩ := C152_lgamma x hx h0 (by linarith)
  obtain ⟨f2, e2⟩ := C152_lgamma y hy k0 (by linarith)
  obtain ⟨f3, e3⟩ := C152_lgamma (add x y) ft (by linarith) (by linarith)
  have r1 := lg_rough h0r (by linarith)
  have r2 := lg_rough k0r (by linarith)
  have r3 := lg_rough (x := (val x : ℝ) + val y) (by linarith) (by linarith)
  have lB : Real.log B = Real.log (Real.Gamma (val x)) + Real.log (Real.Gamma (val y)) - Real.log (Real.Gamma (val x + val y)) := by
    have p1 := Real.Gamma_pos_of_pos xr
    have p2 := Real.Gamma_pos_of_pos yr
    have p3 := Real.Gamma_pos_of_pos (add_pos xr yr)
    rw [hB, Real.log_div (by positivity) p3.ne', Real.log_mul p1.ne' p2.ne']
  have Bp : 0 < B := lt_of_lt_of_le (by norm_num) b1
  have lo10 := log10_bounds
  have T1 : -85.3 ≤ Real.log B := by
    have := Real.log_le_log (by norm_num) b1
    rw [show (1e-37 : ℝ) = (10 ^ 37)⁻¹ by norm_num, Real.log_inv, Real.log_pow] at this
    push_cast at this
    norm_num at lo10 ⊢; linarith
  have T2 : Real.log B ≤ 87.6 := by
    have := Real.log_le_log Bp b2
    rw [show (1e38 : ℝ) = 10 ^ 38 by norm_num, Real.log_pow] at this
    push_cast at this
    norm_num at lo10 ⊢; linarith
  have nn : ¬ (Class.nan = classify x ∨ Class.nan = classify y) := by
    rintro (h | h)
    · exact hx.notNaN ((C31_classify x).2.2.2.2.1 h.symm)
    · exact hy.notNaN ((C31_classify y).2.2.2.2.1 h.symm)
  unfold beta
  rw [if_neg nn]
  dsimp only
  have n1 : Near (lgamma x) (Real.log (Real.Gamma (val x))) (5e-6 * |Real.log (Real.Gamma (val x))|) := ⟨f1, e1⟩
  have n2 : Near (lgamma y) (Real.log (Real.Gamma (val y))) (5e-6 * |Real.log (Real.Gamma (val y))|) := ⟨f2, e2⟩
  have n3 : Near (lgamma (add x y)) (Real.log (Real.Gamma (val x + val y))) (5.13e-6 * |Real.log (Real.Gamma (val x + val y))| + 3.7e-7) := by
    refine ⟨f3, ?_⟩
    have a := abs_sub_abs_le_abs_sub (Real.log (Real.Gamma (val (add x y) : ℝ))) (Real.log (Real.Gamma ((val x : ℝ) + val y)))
    have := abs_sub_le (val (lgamma (add x y)) : ℝ) (Real.log (Real.Gamma (val (add x y) : ℝ))) (Real.log (Real.Gamma ((val x : ℝ) + val y)))
    have A3 := abs_nonneg (Real.log (Real.Gamma ((val x : ℝ) + val y)))
    norm_num at lc e3 ⊢
    linarith
  generalize lgamma x = lx at *
  generalize lgamma y = ly at *
  generalize lgamma (add x y) = ls at *
  clear lc sl e1 e2 e3 f1 f2 f3 hB
  have A1 := abs_nonneg (Real.log (Real.Gamma (val x : ℝ)))
  have A2 := abs_nonneg (Real.log (Real.Gamma (val y : ℝ)))
  have A3 := abs_nonneg (Real.log (Real.Gamma ((val x : ℝ) + val y)))
  have tri1 := abs_add_le (Real.log (Real.Gamma (val x : ℝ))) (Real.log (Real.Gamma (val y : ℝ)))
  have tri2 := abs_sub (Real.log (Real.Gamma (val x : ℝ)) + Real.log (Real.Gamma (val y : ℝ))) (Real.log (Real.Gamma ((val x : ℝ) + val y)))
  generalize Real.log (Real.Gamma (val x : ℝ)) = Lx at *
  generalize Real.log (Real.Gamma (val y : ℝ)) = Ly at *
  generalize Real.log (Real.Gamma ((val x : ℝ) + val y)) = Ls at *
  have m1 := Near.add (e' := 5.07e-6 * (|Lx| + |Ly|) + 1e-20) (1.00001 * (|Lx| + |Ly|)) n1 n2 (by norm_num; linarith) (by norm_num; linarith) (by norm_num; linarith)
  have m2 := Near.sub (e' := 5.2e-6 * (|Lx| + |Ly| + |Ls|) + 3.8e-7) (1.00001 * (|Lx| + |Ly| + |Ls|) + 1e-6) m1 n3 (by norm_num; linarith)
    (by norm_num; linarith) (by norm_num; linarith)
  rw [← lB] at m2 tri2
  have S2 : |Real.log B| ≤ |Lx| + |Ly| + |Ls| := by linarith
  have S0 : |Lx| + |Ly| + |Ls| ≤ 3180 := by linarith
  generalize |Lx| + |Ly| + |Ls| = S at *
  have eB : Real.exp (Real.log B) = B := Real.exp_log Bp
  generalize hT : Real.log B = T at *
  generalize sub (add lx ly) ls = w at *
  have we := m2.err
  have wabs := abs_le.1 we
  norm_num at T1 T2 wabs
  have w1 : -87.3 ≤ val w := by
    have : ((-87.3 : ℚ) : ℝ) ≤ ((val w : ℚ) : ℝ) := by norm_num; linarith
    exact_mod_cast this
  have w2 : val w ≤ 88.3 := by
    have : ((val w : ℚ) : ℝ) ≤ ((88.3 : ℚ) : ℝ) := by norm_num; linarith
    exact_mod_cast this
  obtain ⟨r, hr, fr, er⟩ := C80_accuracy_partial w m2.fin w1 w2
  refine ⟨r, hr, fr, ?_⟩
  have ex : Real.exp (val w) = B * Real.exp (val w - T) := by rw [← eB, ← Real.exp_add]; congr 1; ring
  rw [ex] at er
  have d1 : |(val w : ℝ) - T| ≤ 0.017 := by norm_num at we ⊢; linarith
  have d2 := Real.abs_exp_sub_one_sub_id_le (x := (val w : ℝ) - T) (by norm_num at d1 ⊢; linarith)
  have d3 : ((val w : ℝ) - T) ^ 2 ≤ 0.017 * |(val w : ℝ) - T| := by
    rw [← sq_abs, sq]; exact mul_le_mul_of_nonneg_right d1 (abs_nonneg _)
  have d4 : |Real.exp (val w - T) - 1| ≤ 1.017 * |(val w : ℝ) - T| := by
    have := abs_sub_le (Real.exp (val w - T) - 1) ((val w : ℝ) - T) 0
    rw [sub_zero, sub_zero] at this
    norm_num at d3 ⊢; linarith
  have wv : |(val w : ℝ)| ≤ 1.00001 * S + 1e-6 := by
    have := abs_sub_abs_le_abs_sub (val w : ℝ) T
    norm_num at we ⊢; linarith
  have E1 : Real.exp (val w - T) ≤ 1.02 := by
    have := (abs_le.1 d4).2
    norm_num at d1 this ⊢; linarith
  have E2 := Real.exp_pos (val w - T)
  generalize Real.exp (val w - T) = ee at *
  generalize |(val w : ℝ) - T| = dd at *
  have F : |(val r : ℝ) - B| ≤ ((3.6e-7 + 7.4e-8 * |(val w : ℝ)|) * ee + |ee - 1|) * B := by
    have := abs_sub_le (val r : ℝ) (B * ee) B
    have k : |B * ee - B| = |ee - 1| * B := by rw [show B * ee - B = (ee - 1) * B by ring, abs_mul, abs_of_pos Bp]
    rw [k] at this
    linarith
  refine F.trans (mul_le_mul_of_nonneg_right ?_ Bp.le)
  have G : (3.6e-7 + 7.4e-8 * |(val w : ℝ)|) * ee ≤ (3.6e-7 + 7.4e-8 * |(val w : ℝ)|) * 1.02 := mul_le_mul_of_nonneg_left E1 (by positivity)
  norm_num at G d4 we wv ⊢
  linarith

/-- A case of the theorem: `beta(2, 3) = 1/12`. -/
example : F32.Finite (lit 2) ∧ F32.Finite (lit 3) ∧ 2 ^ (-126 : ℤ) ≤ val (lit 2) ∧ 2 ^ (-126 : ℤ) ≤ val (lit 3) ∧ val (lit 2) + val (lit 3) ≤ 171 ∧
    (1e-37 : ℝ) ≤ Real.Gamma (val (lit 2)) * Real.Gamma (val (lit 3)) / Real.Gamma (val (lit 2) + val (lit 3)) ∧
    Real.Gamma (val (lit 2)) * Real.Gamma (val (lit 3)) / Real.Gamma (val (lit 2) + val (lit 3)) ≤ 1e38 := by
  have k : F32.Finite (lit 2) ∧ F32.Finite (lit 3) ∧ val (lit 2) = 2 ∧ val (lit 3) = 3 := by decide +kernel
  have g3 : Real.Gamma 3 = 2 := by
    rw [show (3 : ℝ) = (2 : ℕ) + 1 by norm_num, Real.Gamma_nat_eq_factorial]; norm_num [Nat.factorial]
  have g5 : Real.Gamma 5 = 24 := by
    rw [show (5 : ℝ) = (4 : ℕ) + 1 by norm_num, Real.Gamma_nat_eq_factorial]; norm_num [Nat.factorial]
  obtain ⟨k1, k2, k3, k4⟩ := k
  refine ⟨k1, k2, ?_⟩
  rw [k3, k4]
  push_cast
  rw [show (2 : ℝ) + 3 = 5 by norm_num, g3, g5, Real.Gamma_two]
  norm_num

end Verif.Ffmath
