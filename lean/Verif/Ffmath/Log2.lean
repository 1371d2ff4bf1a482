import Verif.Ffmath.Exp
import Verif.Ffmath.LogReal
import Mathlib.Analysis.SpecialFunctions.Log.Base

/-!
# `log2` (C81)

IEEE binary32 arithmetic.
-/

namespace Verif.Ffmath

open Verif F32

/-- The part of `log2` after the argument reduction, before the factor `log2 e`; not a definition of the
repository (`/repo/src/ffmath.cpp` lines 576-587). -/
def logP (x : BitVec 32) : BitVec 32 :=
  let px := lit 7.0376836292e-2
  let px := sub (mul px x) (lit 1.1514610310e-1)
  let px := add (mul px x) (lit 1.1676998740e-1)
  let px := sub (mul px x) (lit 1.2420140846e-1)
  let px := add (mul px x) (lit 1.4249322787e-1)
  let px := sub (mul px x) (lit 1.6668057665e-1)
  let px := add (mul px x) (lit 2.0000714765e-1)
  let px := sub (mul px x) (lit 2.4999993993e-1)
  let px := add (mul px x) (lit 3.3333331174e-1)
  let z := mul x x
  add (sub (mul (mul x z) px) (mul (lit 0.5) z)) x

theorem sqrt2_val : Finite FFP_SQRT2 ∧ 1.414213 ≤ val FFP_SQRT2 ∧ val FFP_SQRT2 ≤ 1.414214 := by decide +kernel
theorem lit_one_half : Finite (lit 0.5) ∧ val (lit 0.5) = 1 / 2 := by decide +kernel

theorem log2_bits {x : BitVec 32} {E F : ℕ} (h : x.toNat = E * 8388608 + F) (hE : E < 256) (hF : F < 8388608) :
    ((x &&& 8388607#32) ||| 1065353216#32).toNat = 127 * 8388608 + F ∧
    ((x &&& 2139095040#32) >>> 23).toInt = E := by
  constructor
  · rw [BitVec.toNat_or, BitVec.toNat_and, h]
    simp only [BitVec.toNat_ofNat, Nat.reducePow, Nat.reduceMod]
    rw [show (8388607 : ℕ) = 2 ^ 23 - 1 by norm_num, Nat.and_two_pow_sub_one_eq_mod,
      show (E * 8388608 + F) % 2 ^ 23 = F by omega, Nat.or_comm,
      show (1065353216 : ℕ) = 2 ^ 23 * 127 by norm_num,
      ← Nat.two_pow_add_eq_or_of_lt (by omega)]
  · have e : ((x &&& 2139095040#32) >>> 23).toNat = E := by
      rw [BitVec.toNat_ushiftRight, BitVec.toNat_and, h]
      simp only [BitVec.toNat_ofNat, Nat.reducePow, Nat.reduceMod]
      rw [Nat.shiftRight_and_distrib, show (2139095040 : ℕ) >>> 23 = 2 ^ 8 - 1 by decide,
        Nat.and_two_pow_sub_one_eq_mod, Nat.shiftRight_eq_div_pow]
      omega
    rw [BitVec.toInt_eq_toNat_of_lt (by rw [e]; omega), e]

/-- The argument reduction of `log2`. -/
theorem log2_split {x : BitVec 32} (hx : Finite x) (h : 2 ^ (-126 : ℤ) ≤ val x) :
    ∃ (n : ℤ) (t : BitVec 32), Finite t ∧ -126 ≤ n ∧ n ≤ 128 ∧ -0.292894 ≤ val t ∧ val t ≤ 0.414214 ∧
      (val t = 0 ∨ 5e-8 ≤ |val t|) ∧ val x = (1 + val t) * 2 ^ n ∧ log2 x = add (rnd false (n : ℚ)) (mul (logP t) FFP_LOG2E) := by
  have hx0 : 0 < val x := lt_of_lt_of_le (two_zpow_pos _) h
  obtain ⟨m, hm, m1, m2⟩ : ∃ m : ℕ, x.toNat = m ∧ 8388608 ≤ m ∧ m < 2139095040 := by
    have hneg : neg x = false := by
      by_contra hn
      rw [Bool.not_eq_false] at hn
      rw [val_eq, hn] at hx0
      have := mval_nonneg (mag x)
      simp only [if_true] at hx0
      linarith
    refine ⟨mag x, by rw [toNat_eq, hneg]; simp, ?_, (finite_iff x).1 hx⟩
    rw [← mval_le_iff, ← abs_val, abs_of_pos hx0]
    have : mval 8388608 = 2 ^ (-126 : ℤ) := by
      rw [mval_sub (by norm_num)]; norm_num
    rw [this]; exact h
  obtain ⟨E, F, hE, hF, rfl⟩ : ∃ E F, 1 ≤ E ∧ F < 8388608 ∧ m = E * 8388608 + F :=
    ⟨m / 8388608, m % 8388608, by omega, Nat.mod_lt _ (by norm_num), by omega⟩
  have hE2 : E < 255 := by omega
  obtain ⟨b1, b2⟩ := log2_bits hm (by omega) hF
  obtain ⟨fx, vx⟩ := nat_spec hm m2
  rw [mval_lin hE hF.le] at vx
  have b3 : 127 * 8388608 + F < 2139095040 := lt_of_lt_of_le (Nat.add_lt_add_left hF _) (by norm_num)
  obtain ⟨fw, vw⟩ := nat_spec b1 b3
  rw [mval_lin (by norm_num) hF.le] at vw
  have hl : log2 x = (match (if F32.lt FFP_SQRT2 ((x &&& 8388607#32) ||| 1065353216#32) = true then
      (mul ((x &&& 8388607#32) ||| 1065353216#32) (lit 0.5), ((x &&& 2139095040#32) >>> 23).toInt - 127 + 1) else
      (((x &&& 8388607#32) ||| 1065353216#32), ((x &&& 2139095040#32) >>> 23).toInt - 127) : BitVec 32 × ℤ) with
      | (x, ip) => add (rnd false (ip : ℚ)) (mul (logP (sub x (lit 1))) FFP_LOG2E)) := by
    unfold log2
    rw [if_neg (by rw [lt_fin hx fin_zero, val_zero]; simpa using hx0.le), if_neg (by rw [classify_zero']; exact hx0.ne')]
    rfl
  rw [hl, b2]
  generalize (x &&& 8388607#32) ||| 1065353216#32 = w at *
  clear hl b1 b2
  have F0 : (0 : ℚ) ≤ F := Nat.cast_nonneg F
  have F1 : (F : ℚ) ≤ 8388607 := by exact_mod_cast (by omega : F ≤ 8388607)
  have vw' : val w = 1 + F / 8388608 := by rw [vw]; push_cast; norm_num; ring
  have vx' : val x = val w * 2 ^ ((E : ℤ) - 127) := by
    rw [vx, vw', show (E : ℤ) - 127 = ((E : ℤ) - 150) + 23 by ring, zpow_add₀ (by norm_num)]
    push_cast; ring
  by_cases hc : F32.lt FFP_SQRT2 w = true
  · rw [if_pos hc]
    rw [lt_fin sqrt2_val.1 fw] at hc
    have hc' : val FFP_SQRT2 < val w := by simpa using hc
    have hh : Finite (mul w (lit 0.5)) ∧ val (mul w (lit 0.5)) = val w / 2 := by
      rw [mul_fin fw lit_one_half.1, lit_one_half.2]
      have := rnd_dyadic (neg w != neg (lit 0.5)) (k := 8388608 + F) (t := -24) (by norm_num) (by norm_num) (by rw [_root_.abs_le]; constructor <;> omega)
      have e : ((8388608 + F : ℤ) : ℚ) * 2 ^ (-24 : ℤ) = val w * (1 / 2) := by rw [vw']; push_cast; norm_num; ring
      rw [e] at this
      exact ⟨this.1, this.2.trans (by ring)⟩
    have hs : Finite (sub (mul w (lit 0.5)) (lit 1)) ∧ val (sub (mul w (lit 0.5)) (lit 1)) = val w / 2 - 1 := by
      rw [sub_fin hh.1 fin_one, hh.2, val_one]
      have := rnd_dyadic (neg (mul w (lit 0.5)) && !neg (lit 1)) (k := F - 8388608) (t := -24) (by norm_num) (by norm_num) (by rw [_root_.abs_le]; constructor <;> omega)
      have e : ((F - 8388608 : ℤ) : ℚ) * 2 ^ (-24 : ℤ) = val w / 2 - 1 := by rw [vw']; push_cast; norm_num; ring
      rwa [e] at this
    refine ⟨(E : ℤ) - 127 + 1, _, hs.1, by omega, by omega, ?_, ?_, ?_, ?_, rfl⟩
    · rw [hs.2]; have := sqrt2_val.2.1; norm_num at this ⊢; linarith
    · rw [hs.2, vw']; norm_num; linarith
    · right; rw [hs.2, vw', abs_of_neg (by linarith)]; norm_num; linarith
    · rw [hs.2, vx', zpow_add₀ (by norm_num)]; ring
  · rw [if_neg hc]
    rw [lt_fin sqrt2_val.1 fw] at hc
    have hc' : val w ≤ val FFP_SQRT2 := by simpa using hc
    have hs : Finite (sub w (lit 1)) ∧ val (sub w (lit 1)) = val w - 1 := by
      rw [sub_fin fw fin_one, val_one]
      have := rnd_dyadic (neg w && !neg (lit 1)) (k := F) (t := -23) (by norm_num) (by norm_num) (by rw [_root_.abs_le]; constructor <;> omega)
      have e : ((F : ℤ) : ℚ) * 2 ^ (-23 : ℤ) = val w - 1 := by rw [vw']; push_cast; norm_num; ring
      rwa [e] at this
    refine ⟨(E : ℤ) - 127, _, hs.1, by omega, by omega, ?_, ?_, ?_, ?_, rfl⟩
    · rw [hs.2, vw']; norm_num; linarith
    · rw [hs.2]; have := sqrt2_val.2.2; norm_num at this ⊢; linarith
    · rw [hs.2, vw']
      rcases Nat.eq_zero_or_pos F with h0 | h0
      · left; rw [h0]; norm_num
      · right
        have : (1 : ℚ) ≤ F := by exact_mod_cast h0
        rw [abs_of_nonneg (by linarith)]; norm_num; linarith
    · rw [hs.2, vx']; ring

theorem log_c0 : Finite (lit 7.0376836292e-2) ∧ |val (lit 7.0376836292e-2) - 7.0376836292e-2| ≤ 5.3e-10 := by decide +kernel
theorem log_c1 : Finite (lit 1.1514610310e-1) ∧ |val (lit 1.1514610310e-1) - 1.1514610310e-1| ≤ 2.6e-9 := by decide +kernel
theorem log_c2 : Finite (lit 1.1676998740e-1) ∧ |val (lit 1.1676998740e-1) - 1.1676998740e-1| ≤ 3.1e-9 := by decide +kernel
theorem log_c3 : Finite (lit 1.2420140846e-1) ∧ |val (lit 1.2420140846e-1) - 1.2420140846e-1| ≤ 1.1e-9 := by decide +kernel
theorem log_c4 : Finite (lit 1.4249322787e-1) ∧ |val (lit 1.4249322787e-1) - 1.4249322787e-1| ≤ 5.3e-9 := by decide +kernel
theorem log_c5 : Finite (lit 1.6668057665e-1) ∧ |val (lit 1.6668057665e-1) - 1.6668057665e-1| ≤ 2.3e-9 := by decide +kernel
theorem log_c6 : Finite (lit 2.0000714765e-1) ∧ |val (lit 2.0000714765e-1) - 2.0000714765e-1| ≤ 7.1e-9 := by decide +kernel
theorem log_c7 : Finite (lit 2.4999993993e-1) ∧ |val (lit 2.4999993993e-1) - 2.4999993993e-1| ≤ 4.7e-10 := by decide +kernel
theorem log_c8 : Finite (lit 3.3333331174e-1) ∧ |val (lit 3.3333331174e-1) - 3.3333331174e-1| ≤ 1.8e-9 := by decide +kernel

/-- The Horner scheme inside `logP`, not a definition of the repository. -/
def logPx (x : BitVec 32) : BitVec 32 :=
  let px := lit 7.0376836292e-2
  let px := sub (mul px x) (lit 1.1514610310e-1)
  let px := add (mul px x) (lit 1.1676998740e-1)
  let px := sub (mul px x) (lit 1.2420140846e-1)
  let px := add (mul px x) (lit 1.4249322787e-1)
  let px := sub (mul px x) (lit 1.6668057665e-1)
  let px := add (mul px x) (lit 2.0000714765e-1)
  let px := sub (mul px x) (lit 2.4999993993e-1)
  add (mul px x) (lit 3.3333331174e-1)

/-- The real polynomial of the Horner scheme. -/
noncomputable def logQ (f : ℝ) : ℝ :=
  (((((((7.0376836292e-2 * f + -1.1514610310e-1) * f + 1.1676998740e-1) * f + -1.2420140846e-1) * f + 1.4249322787e-1) * f + -1.6668057665e-1) * f + 2.0000714765e-1) * f + -2.4999993993e-1) * f + 3.3333331174e-1

theorem logPx_near {x : BitVec 32} {f : ℝ} (h : Near x f 0) (hf : |f| ≤ 0.41422) :
    Near (logPx x) (logQ f) 6.13e-8 ∧ |logQ f| ≤ 0.4898 := by
  unfold logPx logQ
  have n0 : Near _ (7.0376836292e-2 : ℝ) 5.3e-10 := near_lit log_c0 (by norm_num) (by norm_num)
  have n1 : Near _ (1.1514610310e-1 : ℝ) 2.6e-9 := near_lit log_c1 (by norm_num) (by norm_num)
  have n2 : Near _ (1.1676998740e-1 : ℝ) 3.1e-9 := near_lit log_c2 (by norm_num) (by norm_num)
  have n3 : Near _ (1.2420140846e-1 : ℝ) 1.1e-9 := near_lit log_c3 (by norm_num) (by norm_num)
  have n4 : Near _ (1.4249322787e-1 : ℝ) 5.3e-9 := near_lit log_c4 (by norm_num) (by norm_num)
  have n5 : Near _ (1.6668057665e-1 : ℝ) 2.3e-9 := near_lit log_c5 (by norm_num) (by norm_num)
  have n6 : Near _ (2.0000714765e-1 : ℝ) 7.1e-9 := near_lit log_c6 (by norm_num) (by norm_num)
  have n7 : Near _ (2.4999993993e-1 : ℝ) 4.7e-10 := near_lit log_c7 (by norm_num) (by norm_num)
  have n8 : Near _ (3.3333331174e-1 : ℝ) 1.8e-9 := near_lit log_c8 (by norm_num) (by norm_num)
  obtain ⟨a1, b1⟩ := horner' (e' := 1.320e-08) (P' := 0.1444) 0.0704 0.41422 0.1152 2.200e-10 1.960e-09 n0 h n1.negate (by norm_num) hf (by norm_num) (by norm_num) (by norm_num) (by norm_num) (by norm_num) (by norm_num)
  obtain ⟨a2, b2⟩ := horner' (e' := 2.270e-08) (P' := 0.1767) 0.1444 0.41422 0.1168 5.470e-09 9.040e-09 a1 h n2 b1 hf (by norm_num) (by norm_num) (by norm_num) (by norm_num) (by norm_num) (by norm_num)
  obtain ⟨a3, b3⟩ := horner' (e' := 2.670e-08) (P' := 0.1976) 0.1767 0.41422 0.1243 9.410e-09 1.380e-08 a2 h n3.negate b2 hf (by norm_num) (by norm_num) (by norm_num) (by norm_num) (by norm_num) (by norm_num)
  obtain ⟨a4, b4⟩ := horner' (e' := 3.470e-08) (P' := 0.2244) 0.1976 0.41422 0.1425 1.110e-08 1.600e-08 a3 h n4 b3 hf (by norm_num) (by norm_num) (by norm_num) (by norm_num) (by norm_num) (by norm_num)
  obtain ⟨a5, b5⟩ := horner' (e' := 3.780e-08) (P' := 0.2597) 0.2244 0.41422 0.1667 1.440e-08 2.000e-08 a4 h n5.negate b4 hf (by norm_num) (by norm_num) (by norm_num) (by norm_num) (by norm_num) (by norm_num)
  obtain ⟨a6, b6⟩ := horner' (e' := 4.770e-08) (P' := 0.3077) 0.2597 0.41422 0.2001 1.570e-08 2.220e-08 a5 h n6 b5 hf (by norm_num) (by norm_num) (by norm_num) (by norm_num) (by norm_num) (by norm_num)
  obtain ⟨a7, b7⟩ := horner' (e' := 5.040e-08) (P' := 0.3775) 0.3077 0.41422 0.2500 1.980e-08 2.740e-08 a6 h n7.negate b6 hf (by norm_num) (by norm_num) (by norm_num) (by norm_num) (by norm_num) (by norm_num)
  obtain ⟨a8, b8⟩ := horner' (e' := 6.130e-08) (P' := 0.4898) 0.3775 0.41422 0.3334 2.090e-08 3.030e-08 a7 h n8 b7 hf (by norm_num) (by norm_num) (by norm_num) (by norm_num) (by norm_num) (by norm_num)
  exact ⟨a8.mono (by norm_num), b8⟩

theorem logC_eq (f : ℝ) : peval logC f = f * (f * f) * logQ f - 0.5 * (f * f) + f := by
  unfold logQ
  simp only [logC, peval_cons, peval_nil]
  push_cast
  ring

theorem logC_tail : ∃ p, logC = 0 :: p ∧ pcheck (padd [-1.01] p) (-0.292894) 0.00176777 200 0.1739 = true :=
  ⟨logC.tail, by decide +kernel, by decide +kernel⟩

/-- The polynomial is the argument times a factor near one. -/
theorem logC_factor {f : ℝ} (r1 : -0.292894 ≤ f) (r2 : f ≤ 0.414214) :
    0.836 * |f| ≤ |peval logC f| ∧ |peval logC f| ≤ 1.184 * |f| := by
  obtain ⟨p, hp, hc⟩ := logC_tail
  have hT := pcheck_sound hc (by norm_num) f (by norm_num at r1 ⊢; linarith) (by norm_num at r2 ⊢; linarith)
  rw [peval_padd, peval_cons, peval_nil] at hT
  rw [hp, peval_cons]
  push_cast at hT ⊢
  obtain ⟨t1, t2⟩ := _root_.abs_le.1 hT
  have h0 : 0.836 ≤ peval p f := by norm_num at t1 ⊢; linarith
  have h1 : peval p f ≤ 1.184 := by norm_num at t2 ⊢; linarith
  rw [_root_.zero_add, abs_mul, abs_of_nonneg (a := peval p f) (le_trans (by norm_num) h0), _root_.mul_comm |f|]
  exact ⟨mul_le_mul_of_nonneg_right h0 (abs_nonneg _), mul_le_mul_of_nonneg_right h1 (abs_nonneg _)⟩

/-- The tail of the evaluation, from the Horner result. -/
theorem log_tail {x px : BitVec 32} {f p T F : ℝ} (h : Near x f 0) (hF : |f| = F) (a8 : Near px p 6.13e-8) (b8 : |p| ≤ 0.4898)
    (hF0 : 5e-8 ≤ F) (hf : F ≤ 0.41422) (eT : T = f * (f * f) * p - 0.5 * (f * f) + f) (hT : |T| ≤ 1.184 * F) :
    Near (F32.add (F32.sub (F32.mul (F32.mul x (F32.mul x x)) px) (F32.mul (lit 0.5) (F32.mul x x))) x) T (1.43e-7 * F) := by
  have F0 : 0 ≤ F := le_trans (by norm_num) hF0
  have F2 : 2.5e-15 ≤ F * F := by
    have := mul_le_mul hF0 hF0 (by norm_num) F0
    norm_num at this ⊢; linarith
  have F3 : 1e-22 ≤ F * (F * F) := by
    have := mul_le_mul hF0 F2 (by norm_num) F0
    norm_num at this ⊢; linarith
  have K32 : F * (F * F) ≤ 0.41422 * (F * F) := mul_le_mul_of_nonneg_right hf (by positivity)
  have F21 : F * F ≤ 0.41422 * F := mul_le_mul_of_nonneg_right hf F0
  have F1 : F * F ≤ 1 := by nlinarith
  have hff : |f * f| ≤ F * F := by rw [abs_mul, hF]
  have hfff : |f * (f * f)| ≤ F * (F * F) := by rw [abs_mul, abs_mul, hF]
  have z1 : Near (F32.mul x x) (f * f) (5.97e-8 * (F * F)) := Near.mul F F 0 (F * F) h h hF.le hF.le (by norm_num)
    (by linarith) (by norm_num; linarith) (by norm_num at F2 ⊢; linarith)
  have z2 : Near (F32.mul x (F32.mul x x)) (f * (f * f)) (1.2e-7 * (F * (F * F))) :=
    Near.mul F (F * F) (5.97e-8 * (F * (F * F))) (1.000001 * (F * (F * F))) h z1 hF.le hff (by norm_num; linarith)
    (by generalize |f * (f * f)| = A at *; norm_num; linarith) (by norm_num; linarith) (by norm_num at F3 ⊢; linarith)
  have z3 := Near.mul (e' := 1.51e-7 * (F * (F * F))) (F * (F * F)) 0.4898 (1.202e-7 * (F * (F * F))) (0.48981 * (F * (F * F))) z2 a8 hfff b8
    (by norm_num; linarith)
    (by rw [abs_mul]; have := mul_le_mul hfff b8 (abs_nonneg _) (by positivity); norm_num at this ⊢; linarith) (by norm_num; linarith) (by norm_num at F3 ⊢; linarith)
  have hz3 : |f * (f * f) * p| ≤ 0.4898 * (F * (F * F)) := by
    rw [abs_mul]; have := mul_le_mul hfff b8 (abs_nonneg _) (by positivity); norm_num at this ⊢; linarith
  have nh : Near (lit 0.5) (0.5 : ℝ) 0 := near_lit (q := 0.5) (e := 0) ⟨lit_half_val.1, by rw [lit_half_val.2]; norm_num⟩ (by norm_num) (by norm_num)
  have hz4 : |0.5 * (f * f)| ≤ 0.5 * (F * F) := by
    rw [abs_mul, abs_of_pos (by norm_num : (0 : ℝ) < 0.5)]; linarith
  have z4 : Near (F32.mul (lit 0.5) (F32.mul x x)) (0.5 * (f * f)) (6e-8 * (F * F)) :=
    Near.mul 0.5 (F * F) (2.985e-8 * (F * F)) (0.50001 * (F * F)) nh z1 (by norm_num) hff (by norm_num; linarith)
    (by norm_num at hz4 ⊢; linarith) (by norm_num; linarith) (by norm_num at F2 ⊢; linarith)
  have z5 := Near.sub (e' := 1.66e-7 * (F * F)) (0.703 * (F * F)) z3 z4 (by
    refine le_trans (add_le_add_left (abs_sub _ _) _) ?_
    refine le_trans (add_le_add_left (add_le_add hz3 hz4) _) ?_
    norm_num at K32 ⊢; linarith) (by norm_num; linarith) (by norm_num at K32 F2 ⊢; linarith)
  rw [eT] at hT ⊢
  refine Near.add (1.1841 * F) z5 h ?_ (by norm_num; linarith) (by norm_num at F21 hF0 ⊢; linarith)
  generalize |f * (f * f) * p - 0.5 * (f * f) + f| = A at *
  norm_num at hT F21 ⊢; linarith

theorem logP_near {x : BitVec 32} (hx : Finite x) (h1 : -0.292894 ≤ val x) (h2 : val x ≤ 0.414214)
    (h0 : 5e-8 ≤ |val x|) : Near (logP x) (peval logC (val x : ℝ)) (1.43e-7 * |(val x : ℝ)|) ∧
      |peval logC (val x : ℝ) - Real.log (1 + (val x : ℝ))| ≤ 1.2e-8 * |(val x : ℝ)| ∧
      0.836 * |(val x : ℝ)| ≤ |peval logC (val x : ℝ)| ∧ |peval logC (val x : ℝ)| ≤ 1.184 * |(val x : ℝ)| := by
  have h : Near x (val x : ℝ) 0 := Near.self hx
  have r1 : (-0.292894 : ℝ) ≤ (val x : ℝ) := by
    have : ((-0.292894 : ℚ) : ℝ) ≤ (val x : ℝ) := by exact_mod_cast h1
    push_cast at this; norm_num at this ⊢; exact this
  have r2 : (val x : ℝ) ≤ 0.414214 := by
    have : (val x : ℝ) ≤ ((0.414214 : ℚ) : ℝ) := by exact_mod_cast h2
    push_cast at this; norm_num at this ⊢; exact this
  have h0' : 5e-8 ≤ |(val x : ℝ)| := by
    have : ((5e-8 : ℚ) : ℝ) ≤ ((|val x| : ℚ) : ℝ) := by exact_mod_cast h0
    push_cast at this
    norm_num at this ⊢; exact this
  have hf : |(val x : ℝ)| ≤ 0.41422 := by rw [_root_.abs_le]; norm_num at r1 r2 ⊢; constructor <;> linarith
  obtain ⟨a8, b8⟩ := logPx_near h hf
  obtain ⟨w1, w2⟩ := logC_factor r1 r2
  exact ⟨log_tail h rfl a8 b8 h0' hf (logC_eq _) w2, logC_close r1 r2, w1, w2⟩

theorem logC_bound_check : pcheck logC (-0.292894) 0.00176777 200 0.347 = true := by decide +kernel

theorem inv_log2 : |1.4426950408 - 1 / Real.log 2| ≤ 4e-10 ∧ 0 < Real.log 2 := by
  have h := _root_.abs_le.1 Real.log_two_near_10
  have h0 : 0.69314718 < Real.log 2 := by norm_num at h ⊢; linarith
  have h1 : 0 < Real.log 2 := lt_trans (by norm_num) h0
  refine ⟨?_, h1⟩
  have : (1.4426950408 : ℝ) - 1 / Real.log 2 = (1.4426950408 * Real.log 2 - 1) / Real.log 2 := by field_simp
  rw [this, abs_div, abs_of_pos h1, div_le_iff₀ h1, _root_.abs_le]
  norm_num at h h0 ⊢
  constructor <;> linarith

theorem log2e_near : Near FFP_LOG2E (1 / Real.log 2) 1.96e-8 := by
  have c : Finite FFP_LOG2E ∧ |val FFP_LOG2E - 1.4426950408| ≤ 1.92e-8 := by decide +kernel
  have n : Near FFP_LOG2E (1.4426950408 : ℝ) 1.92e-8 := near_lit c (by norm_num) (by norm_num)
  exact (n.move inv_log2.1).mono (by norm_num)

theorem logP_zero {t : BitVec 32} (h : val t = 0) : val (F32.mul (logP t) FFP_LOG2E) = 0 ∧ Finite (F32.mul (logP t) FFP_LOG2E) := by
  rcases zero_bits h with h | h <;> rw [h] <;> decide +kernel

theorem log2_core {x : BitVec 32} (hx : Finite x) (h : 2 ^ (-126 : ℤ) ≤ val x) :
    Near (log2 x) (Real.logb 2 (val x)) (3.5e-7 * |Real.logb 2 (val x)|) ∧ |Real.logb 2 (val x)| ≤ 200 ∧
      (Real.logb 2 (val x) = 0 ∨ 5e-8 ≤ |Real.logb 2 (val x)|) := by
  obtain ⟨n, t, ft, n1, n2, t1, t2, t3, hv, hl⟩ := log2_split hx h
  have r1 : (-0.292894 : ℝ) ≤ (val t : ℝ) := by
    have : ((-0.292894 : ℚ) : ℝ) ≤ (val t : ℝ) := by exact_mod_cast t1
    push_cast at this; norm_num at this ⊢; exact this
  have r2 : (val t : ℝ) ≤ 0.414214 := by
    have : (val t : ℝ) ≤ ((0.414214 : ℚ) : ℝ) := by exact_mod_cast t2
    push_cast at this; norm_num at this ⊢; exact this
  have hw : (0 : ℝ) < 1 + (val t : ℝ) := by norm_num at r1 ⊢; linarith
  have hlog : Real.logb 2 (val x : ℝ) = n + Real.log (1 + (val t : ℝ)) * (1 / Real.log 2) := by
    rw [hv]; push_cast
    rw [Real.logb, Real.log_mul hw.ne' (by positivity), Real.log_zpow]
    have := inv_log2.2
    field_simp; ring
  obtain ⟨fn, vn⟩ := rnd_int false (k := n) (by rw [_root_.abs_le]; constructor <;> omega)
  rw [hl, hlog]
  rcases t3 with t3 | t3
  · obtain ⟨z1, z2⟩ := logP_zero t3
    rw [add_fin fn z2, z1, vn, _root_.add_zero]
    have := rnd_int (neg (rnd false (n : ℚ)) && neg (F32.mul (logP t) FFP_LOG2E)) (k := n) (by rw [_root_.abs_le]; constructor <;> omega)
    rw [t3]
    simp only [Rat.cast_zero, _root_.add_zero, Real.log_one, zero_mul]
    have hn : |(n : ℝ)| ≤ 128 := by
      have : |n| ≤ 128 := by rw [_root_.abs_le]; constructor <;> omega
      exact_mod_cast this
    refine ⟨⟨this.1, ?_⟩, hn.trans (by norm_num), ?_⟩
    · rw [this.2, Rat.cast_intCast, sub_self, abs_zero]
      positivity
    · by_cases h0 : n = 0
      · left; rw [h0]; norm_num
      · right
        have h1 : (1 : ℝ) ≤ |(n : ℝ)| := by
          have : 1 ≤ |n| := Int.one_le_abs h0
          exact_mod_cast this
        exact le_trans (by norm_num) h1
  obtain ⟨a, b, c1, c2⟩ := logP_near ft t1 t2 t3
  have hT := pcheck_sound logC_bound_check (by norm_num) (val t : ℝ) (by norm_num at r1 ⊢; linarith) (by norm_num at r2 ⊢; linarith)
  have hF0 : 5e-8 ≤ |(val t : ℝ)| := by
    have : ((5e-8 : ℚ) : ℝ) ≤ ((|val t| : ℚ) : ℝ) := by exact_mod_cast t3
    push_cast at this
    norm_num at this ⊢; exact this
  have hF1 : |(val t : ℝ)| ≤ 0.41422 := by rw [_root_.abs_le]; norm_num at r1 r2 ⊢; constructor <;> linarith
  have a2 := (a.move b)
  have lb := abs_sub_abs_le_abs_sub (peval logC (val t : ℝ)) (Real.log (1 + (val t : ℝ)))
  have ub := abs_sub_abs_le_abs_sub (Real.log (1 + (val t : ℝ))) (peval logC (val t : ℝ))
  rw [abs_sub_comm (Real.log _)] at ub
  push_cast at hT
  generalize Real.log (1 + (val t : ℝ)) = l at *
  generalize |peval logC (val t : ℝ) - l| = e1 at *
  generalize |peval logC (val t : ℝ)| = T at *
  generalize |(val t : ℝ)| = F at *
  generalize logP t = p at *
  have l1 : 0.8359 * F ≤ |l| := by norm_num at lb b c1 ⊢; linarith
  have l2 : |l| ≤ 1.1841 * F := by norm_num at ub b c2 ⊢; linarith
  have l3 : |l| ≤ 0.3471 := by norm_num at ub b hT hF1 ⊢; linarith
  obtain ⟨g1, g2⟩ := _root_.abs_le.1 inv_log2.1
  have hC1 : 1.44269 ≤ 1 / Real.log 2 := by norm_num at g1 g2 ⊢; linarith
  have hC2 : 1 / Real.log 2 ≤ 1.4427 := by norm_num at g1 g2 ⊢; linarith
  have ne := log2e_near
  generalize 1 / Real.log 2 = C at *
  have hCa : |C| = C := abs_of_pos (lt_of_lt_of_le (by norm_num) hC1)
  have lC1 : 1.2059 * F ≤ |l * C| := by
    rw [abs_mul, hCa]
    have := mul_le_mul l1 hC1 (by norm_num) (abs_nonneg l)
    norm_num at this ⊢; linarith
  have lC2 : |l * C| ≤ 1.7084 * F := by
    rw [abs_mul, hCa]
    have := mul_le_mul l2 hC2 (le_trans (by norm_num) hC1) (by linarith [abs_nonneg l])
    norm_num at this ⊢; linarith
  have lC3 : |l * C| ≤ 0.5008 := by
    rw [abs_mul, hCa]
    have := mul_le_mul l3 hC2 (le_trans (by norm_num) hC1) (by norm_num)
    norm_num at this ⊢; linarith
  have m := Near.mul (e' := 3.496e-7 * F) (1.1841 * F) 1.4427 (2.475e-7 * F) (1.70841 * F) a2 ne l2 (by rw [hCa]; exact hC2)
    (by norm_num at hF0 ⊢; nlinarith) (by generalize |l * C| = A at *; norm_num at lC2 hF0 ⊢; linarith) (by norm_num at hF1 ⊢; linarith)
    (by norm_num at hF0 ⊢; linarith)
  by_cases hn : n = 0
  · subst hn
    have fm := m.fin
    rw [add_fin fn fm, vn]
    simp only [Int.cast_zero, _root_.zero_add]
    obtain ⟨f1, v1⟩ := rnd_exact (s := neg (rnd false 0) && neg (F32.mul p FFP_LOG2E)) fm rfl
    refine ⟨⟨f1, ?_⟩, lC3.trans (by norm_num), .inr ?_⟩
    · rw [v1]
      have := m.err
      generalize |l * C| = A at *
      norm_num at this lC1 ⊢; linarith
    · generalize |l * C| = A at *
      norm_num at lC1 hF0 ⊢; linarith
  · have nn : Near (rnd false (n : ℚ)) (n : ℝ) 0 := ⟨fn, by rw [vn]; simp⟩
    have hL : 0.4992 ≤ |(n : ℝ) + l * C| := by
      have h1 : (1 : ℝ) ≤ |(n : ℝ)| := by
        have : 1 ≤ |n| := Int.one_le_abs hn
        exact_mod_cast this
      have := abs_sub_abs_le_abs_sub (n : ℝ) (-(l * C))
      rw [abs_neg, sub_neg_eq_add] at this
      generalize |l * C| = A at *
      norm_num at lC3 ⊢; linarith
    have hL2 : |(n : ℝ) + l * C| ≤ 200 := by
      have h1 : |(n : ℝ)| ≤ 128 := by
        have : |n| ≤ 128 := by rw [_root_.abs_le]; constructor <;> omega
        exact_mod_cast this
      have := abs_add_le (n : ℝ) (l * C)
      generalize |l * C| = A at *
      norm_num at lC3 ⊢; linarith
    have fin := Near.add (e' := 3.5e-7 * |(n : ℝ) + l * C|) (1.000001 * |(n : ℝ) + l * C|) nn m (by
      generalize |(n : ℝ) + l * C| = A at *; norm_num at hL hF1 ⊢; linarith) (by
      generalize |(n : ℝ) + l * C| = A at *; norm_num at hL2 ⊢; linarith) (by
      generalize |(n : ℝ) + l * C| = A at *; norm_num at hL hF1 ⊢; linarith)
    exact ⟨fin, hL2, .inr (le_trans (by norm_num) hL)⟩

/-- **C81** (part) `log2` is within a relative error of `3.5e-7` of the logarithm for every normal positive float.
Missing: subnormals (`C81_false`). -/
theorem C81_accuracy_partial (x : BitVec 32) (hx : Finite x) (h : 2 ^ (-126 : ℤ) ≤ val x) :
    Finite (log2 x) ∧ |(val (log2 x) : ℝ) - Real.logb 2 (val x)| ≤ 3.5e-7 * |Real.logb 2 (val x)| :=
  ⟨(log2_core hx h).1.fin, (log2_core hx h).1.err⟩

/-- **C81** (part) `log2` of a power of two is exactly the exponent. -/
theorem C81_pow2 (x : BitVec 32) (k : ℤ) (hx : Finite x) (hk : val x = 2 ^ k) (h1 : -126 ≤ k) :
    Finite (log2 x) ∧ val (log2 x) = k := by
  obtain ⟨n, t, ft, n1, n2, t1, t2, t3, hv, hl⟩ := log2_split hx (by rw [hk]; exact zpow_le_zpow_right₀ (by norm_num) h1)
  have h2 : (0 : ℚ) < 2 ^ n := two_zpow_pos _
  have hkn : k = n := by
    rw [hk] at hv
    rcases lt_trichotomy k n with hc | hc | hc
    · exfalso
      have : (2 : ℚ) ^ k ≤ 2 ^ (n - 1) := zpow_le_zpow_right₀ (by norm_num) (by omega)
      rw [zpow_sub_one₀ (by norm_num)] at this
      nlinarith
    · exact hc
    · exfalso
      have : (2 : ℚ) ^ (n + 1) ≤ 2 ^ k := zpow_le_zpow_right₀ (by norm_num) (by omega)
      rw [zpow_add_one₀ (by norm_num)] at this
      nlinarith
  subst hkn
  have ht : val t = 0 := by
    rw [hk] at hv
    have : (1 + val t) * 2 ^ k = 1 * 2 ^ k := by rw [← hv, _root_.one_mul]
    have := mul_right_cancel₀ h2.ne' this
    linarith
  obtain ⟨z1, z2⟩ := logP_zero ht
  obtain ⟨fn, vn⟩ := rnd_int false (k := k) (by rw [_root_.abs_le]; constructor <;> omega)
  rw [hl, add_fin fn z2, z1, vn, _root_.add_zero]
  exact rnd_int _ (by rw [_root_.abs_le]; constructor <;> omega)

/-- **C81** (part) The logarithm of zero is minus infinity, of a negative number (minus infinity included) NaN. -/
theorem C81_special (x : BitVec 32) : (val x = 0 → log2 x = negate inf) ∧ (F32.lt x (lit 0) = true → log2 x = nan) := by
  constructor
  · intro h
    have f : Finite x := by rcases zero_bits h with h | h <;> rw [h] <;> decide +kernel
    unfold log2
    rw [if_neg (by rw [lt_fin f fin_zero, val_zero, h]; simp), if_pos (by rw [classify_zero']; exact h)]
  · intro h
    unfold log2
    rw [if_pos h]

/-- **C81** (negation) The logarithm of infinity is 128, of a NaN a number, and a subnormal is
misread: `log2(2^-149)` is about `-127`. -/
theorem C81_false : IsInf inf ∧ val (log2 inf) = 128 ∧ IsNaN nan ∧ Finite (log2 nan) ∧
    val 1#32 = 2 ^ (-149 : ℤ) ∧ -127.1 ≤ val (log2 1#32) := by decide +kernel

/-- A case of `C81_accuracy_partial` close to one. -/
example : Finite (lit 1.0001) ∧ 2 ^ (-126 : ℤ) ≤ val (lit 1.0001) ∧ 0.00014 ≤ val (log2 (lit 1.0001)) ∧
    val (log2 (lit 1.0001)) ≤ 0.000145 := by decide +kernel

/-- A case of `C81_pow2`. -/
example : Finite (lit 8) ∧ val (lit 8) = 2 ^ (3 : ℤ) ∧ val (log2 (lit 8)) = 3 := by decide +kernel

/-- Cases of `C81_special`. -/
example : val 0x80000000#32 = 0 ∧ F32.lt (negate (lit 2)) (lit 0) = true ∧ F32.lt (negate inf) (lit 0) = true := by decide +kernel

end Verif.Ffmath
