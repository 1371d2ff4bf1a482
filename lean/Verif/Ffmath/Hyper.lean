import Verif.Ffmath.Exp
import Verif.Ffmath.IsEqual
import Mathlib.Analysis.SpecialFunctions.Trigonometric.DerivHyp

/-!
# `sinh`, `cosh`, `tanh` (C91)

IEEE binary32 arithmetic on top of the accuracy of `exp` (C80).
-/

namespace Verif.Ffmath

open Verif F32

/-- The rounding error of a finite result, in the reals. -/
theorem rnd_errR {s : Bool} {q : ℚ} (f : Finite (rnd s q)) :
    |((val (rnd s q) : ℚ) : ℝ) - (q : ℝ)| ≤ |(q : ℝ)| / 16777216 + 1e-45 := by
  have h : |val (rnd s q) - q| ≤ |q| / 16777216 + 1e-45 := by
    have h0 := abs_nonneg q
    refine (rnd_err f).trans (max_le ?_ ?_)
    · generalize |q| = A at *
      norm_num; linarith
    · generalize |q| = A at *
      norm_num; linarith
  have : ((|val (rnd s q) - q| : ℚ) : ℝ) ≤ ((|q| / 16777216 + 1e-45 : ℚ) : ℝ) := by exact_mod_cast h
  push_cast at this
  generalize |(q : ℝ)| = A at *
  norm_num at this ⊢; exact this

theorem exp_87 : Real.exp 87.3 ≤ 1.01e38 := by
  have h : Real.exp 87.3 ≤ Real.exp 87.5 := Real.exp_le_exp.2 (by norm_num)
  refine h.trans ?_
  have h1 : Real.exp 87.5 ^ 2 = Real.exp 1 ^ 175 := by
    rw [← Real.exp_nat_mul, ← Real.exp_nat_mul]; norm_num
  have h2 : Real.exp 1 ^ 175 ≤ 2.7182818286 ^ 175 := pow_le_pow_left₀ (Real.exp_pos _).le Real.exp_one_lt_d9.le _
  have h3 : Real.exp 87.5 ^ 2 ≤ 1.01e38 ^ 2 := by rw [h1]; exact h2.trans (by norm_num)
  exact (pow_le_pow_iff_left₀ (Real.exp_pos _).le (by norm_num) (by norm_num)).1 h3

/-- `e^x` and its reciprocal as `sinh` and `cosh` compute them. -/
theorem exp_pair {x : BitVec 32} (hx : Finite x) (h : |val x| ≤ 87.3) :
    ∃ e, exp x = .ok e ∧ Finite e ∧ 0 < val e ∧ Finite (div (lit 1) e) ∧
      |(val e : ℝ) - Real.exp (val x)| ≤ (3.6e-7 + 7.4e-8 * |(val x : ℝ)|) * Real.exp (val x) ∧
      |(val (div (lit 1) e) : ℝ) - Real.exp (-(val x : ℝ))| ≤
        (4.3e-7 + 7.5e-8 * |(val x : ℝ)|) * Real.exp (-(val x : ℝ)) + 1e-45 ∧
      Real.exp (val x) ≤ 1.01e38 ∧ Real.exp (-(val x : ℝ)) ≤ 1.01e38 := by
  obtain ⟨h1, h2⟩ := _root_.abs_le.1 h
  obtain ⟨e, he, hf, hr⟩ := C80_accuracy_partial x hx h1 (by linarith)
  have hab' : |(val x : ℝ)| ≤ 87.3 := by
    have : ((|val x| : ℚ) : ℝ) ≤ ((87.3 : ℚ) : ℝ) := by exact_mod_cast h
    push_cast at this; norm_num at this ⊢; exact this
  have hZ1 : Real.exp (val x) ≤ 1.01e38 :=
    (Real.exp_le_exp.2 ((le_abs_self _).trans hab')).trans exp_87
  have hW1 : Real.exp (-(val x : ℝ)) ≤ 1.01e38 :=
    (Real.exp_le_exp.2 ((neg_le_abs _).trans hab')).trans exp_87
  have hW := Real.exp_pos (-(val x : ℝ))
  have hZ := Real.exp_pos (val x : ℝ)
  have hZW : Real.exp (val x : ℝ) * Real.exp (-(val x : ℝ)) = 1 := by rw [← Real.exp_add]; simp
  have h0 := abs_nonneg (val x : ℝ)
  generalize Real.exp (-(val x : ℝ)) = W at *
  generalize Real.exp (val x : ℝ) = Z at *
  generalize |(val x : ℝ)| = X at *
  have hY : 3.6e-7 + 7.4e-8 * X ≤ 7e-6 := by norm_num at hab' ⊢; linarith
  have hY0 : 0 ≤ 3.6e-7 + 7.4e-8 * X := by positivity
  have hY2 : 1.0001 * (3.6e-7 + 7.4e-8 * X) ≤ 3.601e-7 + 7.401e-8 * X := by norm_num; linarith
  have hfin : (4.3e-7 + 7.5e-8 * X) * W = (3.601e-7 + 7.401e-8 * X) * W + 6.99e-8 * W + 9.9e-10 * (X * W) := by
    ring_nf
  generalize hYY : 3.6e-7 + 7.4e-8 * X = Y at *
  generalize 3.601e-7 + 7.401e-8 * X = Y' at *
  obtain ⟨r1, r2⟩ := _root_.abs_le.1 hr
  have ha : (1 - 7e-6) * Z ≤ (val e : ℝ) := by nlinarith
  have ha0 : 0 < (val e : ℝ) := lt_of_lt_of_le (by positivity) ha
  have ha0' : 0 < val e := by exact_mod_cast ha0
  have hinv : (val e : ℝ)⁻¹ ≤ 1.0001 * W := by
    rw [inv_le_iff_one_le_mul₀ ha0]
    calc (1 : ℝ) = Z * W := hZW.symm
      _ ≤ 1.0001 * W * ((1 - 7e-6) * Z) := by
        have : 0 ≤ Z * W := by rw [hZW]; norm_num
        nlinarith
      _ ≤ _ := by gcongr
  have hdiff : |(val e : ℝ)⁻¹ - W| ≤ Y' * W := by
    have e1 : (val e : ℝ)⁻¹ - W = -(((val e : ℝ) - Z) * ((val e : ℝ)⁻¹ * W)) := by
      have : (val e : ℝ)⁻¹ * (val e : ℝ) = 1 := inv_mul_cancel₀ ha0.ne'
      calc (val e : ℝ)⁻¹ - W = (val e : ℝ)⁻¹ * (Z * W) - ((val e : ℝ)⁻¹ * (val e : ℝ)) * W := by rw [hZW, this]; ring
        _ = _ := by ring
    rw [e1, abs_neg, abs_mul, abs_of_pos (by positivity : 0 < (val e : ℝ)⁻¹ * W)]
    calc |(val e : ℝ) - Z| * ((val e : ℝ)⁻¹ * W) ≤ (Y * Z) * ((1.0001 * W) * W) := by gcongr
      _ = 1.0001 * Y * (Z * W) * W := by ring
      _ = 1.0001 * Y * W := by rw [hZW]; ring
      _ ≤ _ := by gcongr
  have c1 := fin_one
  have hd : div (lit 1) e = rnd (neg (lit 1) != neg e) (1 / val e) := by rw [div_fin c1 hf ha0'.ne', val_one]
  have hq : |((1 / val e : ℚ) : ℝ)| ≤ 1.0001 * W := by
    push_cast; rw [one_div, abs_of_pos (by positivity)]; exact hinv
  have hfd : Finite (div (lit 1) e) := by
    rw [hd]
    apply rnd_finite'
    have : |((1 / val e : ℚ) : ℝ)| ≤ ((3.4e38 : ℚ) : ℝ) := by
      refine hq.trans ?_
      norm_num at hW1 ⊢; linarith
    exact_mod_cast this
  refine ⟨e, he, hf, ha0', hfd, hr, ?_, hZ1, hW1⟩
  rw [hd] at hfd ⊢
  have k := rnd_errR hfd
  have k2 : |((1 / val e : ℚ) : ℝ) - W| ≤ Y' * W := by push_cast; rw [one_div]; exact hdiff
  have t := abs_sub_le ((val (rnd (neg (lit 1) != neg e) (1 / val e)) : ℚ) : ℝ) ((1 / val e : ℚ) : ℝ) W
  have hXW : 0 ≤ X * W := by positivity
  rw [hfin]
  generalize Y' * W = V at *
  generalize X * W = U at *
  generalize |((1 / val e : ℚ) : ℝ)| = A at *
  norm_num at *
  linarith

/-- Half the rounded sum of two floats. -/
theorem half_sum {a b : BitVec 32} {A B d e : ℝ} (ha : Finite a) (hb : Finite b)
    (h1 : |(val a : ℝ) - A| ≤ d) (h2 : |(val b : ℝ) - B| ≤ e) (hA : |A| + d + (|B| + e) ≤ 3.3e38) :
    Finite (mul (lit 0.5) (add a b)) ∧ |(val (mul (lit 0.5) (add a b)) : ℝ) - (A + B) / 2| ≤
      (d + e) / 2 + (|A| + d + (|B| + e)) / 16000000 + 3e-45 := by
  have ha' : |(val a : ℝ)| ≤ |A| + d := by
    have := abs_sub_abs_le_abs_sub (val a : ℝ) A; linarith
  have hb' : |(val b : ℝ)| ≤ |B| + e := by
    have := abs_sub_abs_le_abs_sub (val b : ℝ) B; linarith
  have hs : |((val a + val b : ℚ) : ℝ)| ≤ |A| + d + (|B| + e) := by
    push_cast; exact (abs_add_le _ _).trans (add_le_add ha' hb')
  have hT : |((val a + val b : ℚ) : ℝ) - (A + B)| ≤ d + e := by
    push_cast
    rw [show (val a : ℝ) + val b - (A + B) = ((val a : ℝ) - A) + ((val b : ℝ) - B) by ring]
    exact (abs_add_le _ _).trans (add_le_add h1 h2)
  generalize |A| + d + (|B| + e) = S at *
  generalize A + B = Q at *
  generalize d + e = D at *
  rw [add_fin ha hb]
  generalize (neg a && neg b) = s
  generalize val a + val b = q at *
  have f1 : Finite (rnd s q) := by
    apply rnd_finite'
    have : |(q : ℝ)| ≤ ((3.4e38 : ℚ) : ℝ) := hs.trans (hA.trans (by norm_num))
    exact_mod_cast this
  have k1 := rnd_errR f1
  generalize rnd s q = t at *
  rw [mul_fin lit_half_val.1 f1, lit_half_val.2]
  generalize (neg (lit 0.5) ^^ neg t) = s'
  have ht : |((0.5 * val t : ℚ) : ℝ)| ≤ 0.50001 * S + 1e-45 := by
    push_cast
    rw [abs_mul]
    have := abs_sub_abs_le_abs_sub (val t : ℝ) (q : ℝ)
    have h0 := abs_nonneg (q : ℝ)
    rw [show |(0.5 : ℝ)| = 0.5 by rw [abs_of_pos]; norm_num]
    generalize |(val t : ℝ)| = T at *
    generalize |(q : ℝ)| = Q' at *
    norm_num at *; linarith
  have f2 : Finite (rnd s' (0.5 * val t)) := by
    apply rnd_finite'
    have : |((0.5 * val t : ℚ) : ℝ)| ≤ ((3.4e38 : ℚ) : ℝ) := ht.trans (by norm_num at hA ⊢; linarith)
    exact_mod_cast this
  refine ⟨f2, ?_⟩
  have k2 := rnd_errR f2
  generalize rnd s' (0.5 * val t) = w at *
  have e1 : ((0.5 * val t : ℚ) : ℝ) = (val t : ℝ) / 2 := by push_cast; ring
  rw [e1] at k2 ht
  have t1 := abs_sub_le (val w : ℝ) ((val t : ℝ) / 2) (Q / 2)
  have t2 : |(val t : ℝ) / 2 - Q / 2| ≤ (|(q : ℝ)| / 16777216 + 1e-45 + D) / 2 := by
    rw [← sub_div, abs_div, abs_of_pos (by norm_num : (0 : ℝ) < 2)]
    have := abs_sub_le (val t : ℝ) (q : ℝ) Q
    gcongr
    exact this.trans (add_le_add k1 hT)
  have hS : 0 ≤ S := (abs_nonneg _).trans hs
  generalize |(val t : ℝ) / 2| = T at *
  generalize |(q : ℝ)| = Q' at *
  norm_num at *; linarith

/-- **C91** (part) `sinh` and `cosh` are defined and finite for `|x| ≤ 87.3`, and their error is at most
`(5.7e-7 + 7.6e-8 |x|)` times the hyperbolic cosine. Missing: larger arguments (`C91_false`). -/
theorem C91_accuracy_partial (x : BitVec 32) (hx : Finite x) (h : |val x| ≤ 87.3) :
    ∃ s c, sinh x = .ok s ∧ cosh x = .ok c ∧ Finite s ∧ Finite c ∧
      |(val s : ℝ) - Real.sinh (val x)| ≤ (5.7e-7 + 7.6e-8 * |(val x : ℝ)|) * Real.cosh (val x) ∧
      |(val c : ℝ) - Real.cosh (val x)| ≤ (5.7e-7 + 7.6e-8 * |(val x : ℝ)|) * Real.cosh (val x) := by
  obtain ⟨e, he, hf, hp, hfd, hr, hn, hZ1, hW1⟩ := exp_pair hx h
  refine ⟨_, _, by unfold sinh; rw [he]; rfl, by unfold cosh; rw [he]; rfl, ?_⟩
  have hW := Real.exp_pos (-(val x : ℝ))
  have hZ := Real.exp_pos (val x : ℝ)
  have hab' : |(val x : ℝ)| ≤ 87.3 := by
    have : ((|val x| : ℚ) : ℝ) ≤ ((87.3 : ℚ) : ℝ) := by exact_mod_cast h
    push_cast at this; norm_num at this ⊢; exact this
  have hC : 1 ≤ (Real.exp (val x : ℝ) + Real.exp (-(val x : ℝ))) / 2 := by
    rw [← Real.cosh_eq]; exact Real.one_le_cosh _
  rw [Real.sinh_eq, Real.cosh_eq]
  have h0 := abs_nonneg (val x : ℝ)
  generalize Real.exp (-(val x : ℝ)) = W at *
  generalize Real.exp (val x : ℝ) = Z at *
  generalize |(val x : ℝ)| = X at *
  have hn' : |(val (negate (div (lit 1) e)) : ℝ) - (-W)| ≤ (4.3e-7 + 7.5e-8 * X) * W + 1e-45 := by
    rw [val_negate]; push_cast
    rw [show -(val (div (lit 1) e) : ℝ) - -W = -((val (div (lit 1) e) : ℝ) - W) by ring, abs_neg]
    exact hn
  have hXZ : 0 ≤ X * Z := by positivity
  have hXW : 0 ≤ X * W := by positivity
  have hXZ2 : X * Z ≤ 87.3 * Z := by gcongr
  have hXW2 : X * W ≤ 87.3 * W := by gcongr
  have e1 : (3.6e-7 + 7.4e-8 * X) * Z = 3.6e-7 * Z + 7.4e-8 * (X * Z) := by ring
  have e2 : (4.3e-7 + 7.5e-8 * X) * W = 4.3e-7 * W + 7.5e-8 * (X * W) := by ring
  have e3 : (5.7e-7 + 7.6e-8 * X) * ((Z + W) / 2) = 2.85e-7 * (Z + W) + 3.8e-8 * (X * Z + X * W) := by
    rw [show (5.7e-7 : ℝ) = 2 * 2.85e-7 by norm_num, show (7.6e-8 : ℝ) = 2 * 3.8e-8 by norm_num]; ring
  rw [e1] at hr
  rw [e2] at hn hn'
  rw [e3]
  obtain ⟨f1, k1⟩ := half_sum hf hfd hr hn (by
    rw [abs_of_pos hZ, abs_of_pos hW]
    generalize X * Z = U at *
    generalize X * W = V at *
    norm_num at *; linarith)
  obtain ⟨f2, k2⟩ := half_sum hf (finite_negate.2 hfd) hr hn' (by
    rw [abs_neg, abs_of_pos hZ, abs_of_pos hW]
    generalize X * Z = U at *
    generalize X * W = V at *
    norm_num at *; linarith)
  rw [abs_neg] at k2
  rw [abs_of_pos hZ, abs_of_pos hW] at k1 k2
  refine ⟨f2, f1, ?_, ?_⟩
  · refine (show _ ≤ _ from k2).trans ?_
    generalize X * Z = U at *
    generalize X * W = V at *
    norm_num at *; linarith
  · refine k1.trans ?_
    generalize X * Z = U at *
    generalize X * W = V at *
    norm_num at *; linarith

/-! ### The result of `exp` in every case -/

/-- What `exp2` returns: zero, infinity or a positive normal-sized number. -/
theorem exp2_cases {x : BitVec 32} (h : ¬ IsNaN x) : ∃ r, exp2 x = .ok r ∧
    (r = lit 0 ∨ r = inf ∨ Finite r ∧ 2 ^ (-127 : ℤ) ≤ val r) := by
  by_cases h1 : F32.le x (negate (lit 126)) = true
  · exact ⟨_, (C79_limits x).1 h1, .inl rfl⟩
  by_cases h2 : F32.lt (lit 128) x = true
  · exact ⟨_, (C79_limits x).2 h2, .inr (.inl rfl)⟩
  have hf : Finite x := finite_of_range h h1 h2
  rw [le_fin hf lit_m126.1, lit_m126.2] at h1
  rw [lt_fin lit_128.1 hf, lit_128.2] at h2
  have h1' : -126 < val x := by simpa using h1
  have h2' : val x ≤ 128 := by simpa using h2
  by_cases h3 : val x < 127.5
  · obtain ⟨r, hr, fr, he⟩ := C79_accuracy_partial x hf h1' h3
    refine ⟨r, hr, .inr (.inr ⟨fr, ?_⟩)⟩
    have h4 : (2 : ℝ) ^ (-126 : ℤ) ≤ (2 : ℝ) ^ (val x : ℝ) := by
      rw [← Real.rpow_intCast]
      refine Real.rpow_le_rpow_of_exponent_le (by norm_num) ?_
      have : ((-126 : ℚ) : ℝ) ≤ (val x : ℝ) := by exact_mod_cast h1'.le
      push_cast at this ⊢; exact this
    obtain ⟨a, b⟩ := _root_.abs_le.1 he
    have : ((2 ^ (-127 : ℤ) : ℚ) : ℝ) ≤ (val r : ℝ) := by
      push_cast
      generalize (2 : ℝ) ^ (val x : ℝ) = E at *
      norm_num at *; linarith
    exact_mod_cast this
  · have h3' : 127.5 ≤ val x := not_lt.1 h3
    obtain ⟨ip, n, k3, k4, k5, k6, k7, k8, k9⟩ := exp2_split hf h1' h2'
    refine ⟨_, exp2_eq hf h1' h2' k3 k4 k5 k6 k7, .inr (.inl ?_)⟩
    have hn : n = 128 := by
      have : 128 ≤ n := by
        rw [k9, Int.le_floor, add_fin hf lit_half_val.1, lit_half_val.2]
        push_cast
        rw [← lit_128.2]
        refine le_rnd lit_128.1 ?_
        rw [lit_128.2]; linarith
      omega
    subst hn
    have k8' : |((val x : ℚ) : ℝ) - (128 : ℤ)| ≤ 0.50001 := by
      have : ((|val x - (128 : ℤ)| : ℚ) : ℝ) ≤ ((0.50001 : ℚ) : ℝ) := by exact_mod_cast k8
      push_cast at this ⊢; norm_num at this ⊢; exact this
    have nf : Near (sub x ip) ((val x : ℝ) - (128 : ℤ)) 3.1e-8 := by
      have := Near.sub (e' := 3.1e-8) 0.50001 (Near.self hf) (Near.self k4)
        (by rw [k5]; push_cast at k8' ⊢; norm_num at k8' ⊢; linarith) (by norm_num) (by norm_num)
      rw [k5] at this; push_cast at this ⊢; exact this
    have np := exp2P_near nf k8'
    obtain ⟨r1, r2⟩ := exp2R_range k8'
    have fp := np.fin
    have hp : 0 < val (exp2P (sub x ip)) := by
      have := (_root_.abs_le.1 np.err).1
      have : (0.5 : ℝ) ≤ (val (exp2P (sub x ip)) : ℝ) := by norm_num at this r1 ⊢; linarith
      have : (0 : ℝ) < (val (exp2P (sub x ip)) : ℝ) := lt_of_lt_of_le (by norm_num) this
      exact_mod_cast this
    generalize exp2P (sub x ip) = p at *
    have c : BitVec.ofInt 32 ((128 + 127) * 8388608) = inf := by decide +kernel
    rw [c]
    have c2 : IsInf inf ∧ ¬ IsNaN inf ∧ neg inf = false := by decide +kernel
    have hng : neg p = false := by
      by_contra hc
      have hc : neg p = true := by simpa using hc
      rw [val_eq, if_pos hc] at hp
      have := mval_nonneg (mag p)
      linarith
    unfold F32.mul
    rw [if_neg (by simp [fp.notNaN, c2.2.1])]
    rw [if_pos (.inr c2.1)]
    rw [if_neg (by
      have c3 : mag inf ≠ 0 := by decide +kernel
      have : mag p ≠ 0 := fun hc => by rw [val_eq_zero.2 hc] at hp; exact lt_irrefl _ hp
      simp [c3, this]), hng, c2.2.2]
    rfl

theorem exp_cases {x : BitVec 32} (h : ¬ IsNaN x) : ∃ r, exp x = .ok r ∧
    (r = lit 0 ∨ r = inf ∨ Finite r ∧ 2 ^ (-127 : ℤ) ≤ val r) := by
  unfold exp
  exact exp2_cases (exp_arg_notNaN h)

/-- Floats from a half on are multiples of `2^-24`. -/
theorem grid24 {b : BitVec 32} (h : Finite b) (h1 : 1 / 2 ≤ val b) : ∃ k : ℤ, val b = k / 16777216 := by
  obtain ⟨k, t, a1, a2, a3, a4, a5⟩ := val_dyadic h
  have ht : -24 ≤ t := by
    by_contra hc
    have : t ≤ -25 := by omega
    have h2 : (2 : ℚ) ^ t ≤ 2 ^ (-25 : ℤ) := zpow_le_zpow_right₀ (by norm_num) this
    have h3 : (k : ℚ) < 16777216 := by exact_mod_cast lt_of_le_of_lt (le_abs_self k) a3
    have h4 := two_zpow_pos t
    rw [a4] at h1
    have : (k : ℚ) * 2 ^ t < 16777216 * 2 ^ (-25 : ℤ) := by
      calc (k : ℚ) * 2 ^ t < 16777216 * 2 ^ t := by gcongr
        _ ≤ _ := by gcongr
    norm_num at this h1; linarith
  obtain ⟨m, rfl⟩ : ∃ m : ℕ, t = m - 24 := ⟨(t + 24).toNat, by omega⟩
  refine ⟨k * 2 ^ m, ?_⟩
  rw [a4, zpow_sub₀ (by norm_num), zpow_natCast]
  push_cast
  ring

/-- A float next to its reciprocal: the sum is at least `2 - 2^-24`. -/
theorem recip_sum {e n : BitVec 32} (he : Finite e) (hn : Finite n) (h0 : 0 < val e) (hv : val n = fl (1 / val e)) :
    2 - 1 / 16777216 ≤ val e + val n := by
  have cF : Finite (lit 2) ∧ val (lit 2) = 2 ∧ Finite (lit 0.5) ∧ val (lit 0.5) = 1 / 2 := by decide +kernel
  have hn0 : 0 ≤ val n := by
    rw [hv]
    have := fl_mono (show (0 : ℚ) ≤ 1 / val e by positivity)
    rwa [fl_zero] at this
  by_cases h1 : 2 ≤ val e
  · linarith
  by_cases h2 : val e ≤ 1 / 2
  · have : 2 ≤ val n := by
      rw [hv, ← cF.2.1]
      refine le_fl cF.1 ?_
      rw [cF.2.1, le_div_iff₀ h0]; linarith
    linarith
  have h1' : val e < 2 := not_le.1 h1
  have h2' : 1 / 2 < val e := not_le.1 h2
  have hq : 1 / 2 < 1 / val e := by rw [lt_div_iff₀ h0]; linarith
  have hq2 : 1 / val e < 2 := by rw [div_lt_iff₀ h0]; linarith
  have hn1 : 1 / 2 ≤ val n := by
    rw [hv]
    have := le_fl cF.2.2.1 (q := 1 / val e) (by rw [cF.2.2.2]; exact hq.le)
    rw [cF.2.2.2] at this; exact this
  obtain ⟨k, hk⟩ := grid24 he h2'.le
  obtain ⟨l, hl⟩ := grid24 hn hn1
  have hr : |val n - 1 / val e| ≤ 1 / val e / 16777216 := by
    rw [hv, ← val_rnd false]
    have := (rnd_rel (s := false) (q := 1 / val e) (by rw [abs_of_pos (by linarith)]; exact le_trans (by norm_num) hq.le)
      (by rw [abs_of_pos (by linarith)]; exact hq2.le.trans (by norm_num))).2
    rwa [abs_of_pos (show 0 < 1 / val e by linarith)] at this
  have hs : 2 - 1 / 16777216 - 1 / 281474976710656 ≤ val e + val n := by
    have h4 := (_root_.abs_le.1 hr).1
    have h5 : 2 - 1 / 16777216 - 1 / 281474976710656 ≤ val e + 1 / val e * (1 - 1 / 16777216) := by
      have e1 : val e + 1 / val e * (1 - 1 / 16777216) - (2 - 1 / 16777216 - 1 / 281474976710656) =
        ((val e - (1 - 1 / 33554432 - 1 / 562949953421312)) ^ 2 + (1 - 1 / 16777216 - (1 - 1 / 33554432 - 1 / 562949953421312) ^ 2)) / val e := by
        field_simp; ring
      have : 0 ≤ ((val e - (1 - 1 / 33554432 - 1 / 562949953421312)) ^ 2 + (1 - 1 / 16777216 - (1 - 1 / 33554432 - 1 / 562949953421312) ^ 2)) / val e := by
        apply div_nonneg _ h0.le
        have : (0 : ℚ) ≤ 1 - 1 / 16777216 - (1 - 1 / 33554432 - 1 / 562949953421312) ^ 2 := by norm_num
        positivity
      linarith
    linarith
  rw [hk, hl] at hs ⊢
  have h6 : (33554431 - 1 : ℚ) < k + l := by linarith
  have h7 : (33554430 : ℤ) < k + l := by
    have : ((33554430 : ℤ) : ℚ) < ((k + l : ℤ) : ℚ) := by push_cast; linarith
    exact_mod_cast this
  have h8 : (33554431 : ℚ) ≤ k + l := by
    have : (33554431 : ℤ) ≤ k + l := by omega
    exact_mod_cast this
  linarith

theorem half_ge {t : BitVec 32} (hn : ¬ IsNaN t) (h : 2 ≤ val t) : F32.le (lit 1) (mul (lit 0.5) t) = true := by
  rcases trichotomy hn with hf | rfl | rfl
  · obtain ⟨f, v⟩ := half_exact hf (by rw [abs_of_nonneg (by linarith)]; exact le_trans (by norm_num) h)
    rw [le_fin fin_one f, val_one, v, decide_eq_true_eq]; linarith
  · decide +kernel
  · have : ¬ (2 : ℚ) ≤ val (negate inf) := by decide +kernel
    exact absurd h this

/-- **C91** (part) `cosh` of any number, infinities included, is defined and at least one. -/
theorem C91_cosh_ge_one (x : BitVec 32) (h : ¬ IsNaN x) : ∃ r, cosh x = .ok r ∧ F32.le (lit 1) r = true := by
  obtain ⟨e, he, hc⟩ := exp_cases h
  refine ⟨_, by unfold cosh; rw [he]; rfl, ?_⟩
  rcases hc with rfl | rfl | ⟨f, hv⟩
  · decide +kernel
  · decide +kernel
  have h0 : 0 < val e := lt_of_lt_of_le (two_zpow_pos _) hv
  have hd := div_fin fin_one f h0.ne'
  rw [val_one] at hd
  have fn : Finite (div (lit 1) e) := by
    rw [hd]
    apply rnd_finite
    rw [abs_of_pos (by positivity), div_le_iff₀ h0]
    have := mul_le_mul_of_nonneg_left hv (two_zpow_pos 127).le
    rw [← zpow_add₀ (by norm_num)] at this
    simpa using this
  have hn : val (div (lit 1) e) = fl (1 / val e) := by rw [hd, val_rnd]
  have hs := recip_sum f fn h0 hn
  have c : (2 : ℚ) ≤ fl (2 - 1 / 16777216) := by decide +kernel
  apply half_ge
  · rw [add_fin f fn]; exact rnd_notNaN _ _
  · rw [add_fin f fn, val_rnd]
    exact c.trans (fl_mono hs)

/-! ### `tanh` -/

theorem lit_m2 : Finite (negate (lit 2)) ∧ val (negate (lit 2)) = -2 := by decide +kernel

/-- The argument `-2 x` of the exponential in `tanh` is exact. -/
theorem tanh_arg {x : BitVec 32} (hx : Finite x) (h : |val x| ≤ 1e38) :
    Finite (mul (negate (lit 2)) x) ∧ val (mul (negate (lit 2)) x) = -(2 * val x) := by
  obtain ⟨c, hc, hv⟩ := double_exists hx (h.trans (by norm_num))
  obtain ⟨f, v⟩ := mul_exact lit_m2.1 hx (finite_negate.2 hc) (by rw [lit_m2.2, val_negate c, hv]; ring)
  exact ⟨f, by rw [v, val_negate c, hv]⟩

/-- The last three roundings of `tanh`. -/
theorem tanh_quot {E : BitVec 32} (hE : Finite E) (h0 : 0 ≤ val E) (h1 : val E ≤ 3.3e38) :
    Finite (div (sub (lit 1) E) (add (lit 1) E)) ∧ |val (div (sub (lit 1) E) (add (lit 1) E))| ≤ 1 ∧
      |(val (div (sub (lit 1) E) (add (lit 1) E)) : ℝ) - (1 - (val E : ℝ)) / (1 + (val E : ℝ))| ≤ 1.9e-7 := by
  have cm : Finite (negate (lit 1)) ∧ val (negate (lit 1)) = -1 := by decide +kernel
  have hp := sub_fin fin_one hE
  have hd := add_fin fin_one hE
  rw [val_one] at hp hd
  have fp : Finite (sub (lit 1) E) := by
    rw [hp]; apply rnd_finite'; rw [_root_.abs_le]; constructor <;> norm_num at h1 ⊢ <;> linarith
  have fd : Finite (add (lit 1) E) := by
    rw [hd]; apply rnd_finite'; rw [_root_.abs_le]; constructor <;> norm_num at h1 ⊢ <;> linarith
  have vp : val (sub (lit 1) E) = fl (1 - val E) := by rw [hp, val_rnd]
  have vd : val (add (lit 1) E) = fl (1 + val E) := by rw [hd, val_rnd]
  have d1 : 1 ≤ val (add (lit 1) E) := by
    have := le_fl fin_one (q := 1 + val E) (by rw [val_one]; linarith)
    rw [val_one] at this
    rw [vd]; exact this
  have d0 : 0 < val (add (lit 1) E) := by linarith
  have hpd : |val (sub (lit 1) E)| ≤ val (add (lit 1) E) := by
    rw [vp, vd, fl_abs]
    apply fl_mono
    rw [_root_.abs_le]; constructor <;> linarith
  have hq : |val (sub (lit 1) E) / val (add (lit 1) E)| ≤ 1 := by
    rw [abs_div, abs_of_pos d0, div_le_one d0]; exact hpd
  obtain ⟨q1, q2⟩ := _root_.abs_le.1 hq
  obtain ⟨f, g1, g2⟩ := div_btw fp fd d0.ne' cm.1 fin_one (by rw [cm.2]; exact q1) (by rw [val_one]; exact q2)
  rw [cm.2] at g1
  rw [val_one] at g2
  refine ⟨f, _root_.abs_le.2 ⟨g1, g2⟩, ?_⟩
  have hdv := div_fin fp fd d0.ne'
  rw [hdv] at f ⊢
  have k := rnd_errR f
  generalize (neg (sub (lit 1) E) ^^ neg (add (lit 1) E)) = s at *
  have kp := rnd_errR (hp ▸ fp)
  have kd := rnd_errR (hd ▸ fd)
  rw [← hp] at kp
  rw [← hd] at kd
  generalize sub (lit 1) E = p at *
  generalize add (lit 1) E = d at *
  have hE0 : 0 ≤ (val E : ℝ) := by exact_mod_cast h0
  have d0R : 0 < (val d : ℝ) := by exact_mod_cast d0
  have hqR : |((val p / val d : ℚ) : ℝ)| ≤ 1 := by exact_mod_cast hq
  have t := abs_sub_le ((val (rnd s (val p / val d)) : ℚ) : ℝ) ((val p / val d : ℚ) : ℝ) ((1 - (val E : ℝ)) / (1 + (val E : ℝ)))
  have kq : |((val p / val d : ℚ) : ℝ) - (1 - (val E : ℝ)) / (1 + (val E : ℝ))| ≤ 1.2e-7 := by
    push_cast at kp kd ⊢
    generalize (val E : ℝ) = Z at *
    generalize (val p : ℝ) = P at *
    generalize (val d : ℝ) = D at *
    have hZ : 0 < 1 + Z := by linarith
    have a1 : |1 - Z| ≤ 1 + Z := by rw [_root_.abs_le]; constructor <;> linarith
    rw [abs_of_pos hZ] at kd
    have e1 : P / D - (1 - Z) / (1 + Z) = ((P - (1 - Z)) + ((1 + Z) - D) * ((1 - Z) / (1 + Z))) / D := by
      field_simp; ring
    have a2 : |(1 - Z) / (1 + Z)| ≤ 1 := by rw [abs_div, abs_of_pos hZ, div_le_one hZ]; exact a1
    rw [e1, abs_div, abs_of_pos d0R, div_le_iff₀ d0R]
    have a3 := abs_add_le (P - (1 - Z)) (((1 + Z) - D) * ((1 - Z) / (1 + Z)))
    have a4 : |((1 + Z) - D) * ((1 - Z) / (1 + Z))| ≤ |D - (1 + Z)| := by
      rw [abs_mul, abs_sub_comm]
      calc _ ≤ |D - (1 + Z)| * 1 := by gcongr
        _ = _ := by ring
    have a5 := (_root_.abs_le.1 kd).1
    generalize |1 - Z| = A at *
    norm_num at *; linarith
  generalize |((val p / val d : ℚ) : ℝ)| = A at *
  norm_num at *; linarith

/-- Propagation of the error of the exponential through `(1 - E) / (1 + E)`. -/
theorem tanh_prop {x E : ℝ} (hE : |E - Real.exp (-(2 * x))| ≤ (3.6e-7 + 1.48e-7 * |x|) * Real.exp (-(2 * x))) (hx : |x| ≤ 45) :
    |(1 - E) / (1 + E) - Real.tanh x| ≤ 2.25e-7 := by
  have hZ := Real.exp_pos (-(2 * x))
  have ht : Real.tanh x = (1 - Real.exp (-(2 * x))) / (1 + Real.exp (-(2 * x))) := by
    rw [Real.tanh_eq_sinh_div_cosh, Real.sinh_eq, Real.cosh_eq]
    have h1 : Real.exp (-(2 * x)) = Real.exp (-x) / Real.exp x := by rw [← Real.exp_sub]; congr 1; ring
    have := Real.exp_pos x
    rw [h1]; field_simp
  -- `Z |x| / (1 + Z)²` is at most an eighth
  have hc : Real.exp (-(2 * x)) * (8 * |x|) ≤ (1 + Real.exp (-(2 * x))) ^ 2 := by
    have h1 : (1 + Real.exp (-(2 * x))) ^ 2 = 4 * Real.cosh x ^ 2 * Real.exp (-(2 * x)) := by
      rw [Real.cosh_eq]
      have a : Real.exp (-(2 * x)) = Real.exp (-x) * Real.exp (-x) := by rw [← Real.exp_add]; congr 1; ring
      have b : Real.exp x * Real.exp (-x) = 1 := by rw [← Real.exp_add]; simp
      rw [a]
      generalize Real.exp x = u at *
      generalize Real.exp (-x) = v at *
      have : 4 * ((u + v) / 2) ^ 2 * (v * v) = (u * v + v * v) ^ 2 := by ring
      rw [this, b]
    rw [h1]
    have h2 : 2 * |x| ≤ Real.cosh x ^ 2 := by
      have s : |x| ≤ Real.sinh |x| := Real.self_le_sinh_iff.2 (abs_nonneg _)
      have q := Real.cosh_sq |x|
      rw [Real.cosh_abs] at q
      nlinarith [sq_nonneg (|x| - 1), abs_nonneg x]
    nlinarith
  rw [ht]
  generalize Real.exp (-(2 * x)) = Z at *
  have h0 := abs_nonneg x
  generalize |x| = X at *
  have hY : 3.6e-7 + 1.48e-7 * X ≤ 7.1e-6 := by norm_num at hx ⊢; linarith
  have hb : (3.6e-7 + 1.48e-7 * X) * Z ≤ 7.1e-6 * Z := by gcongr
  obtain ⟨a1, a2⟩ := _root_.abs_le.1 hE
  have hE1 : 0.9999 * (1 + Z) ≤ 1 + E := by norm_num at *; linarith
  have hZ1 : 0 < 1 + Z := by linarith
  have hE2 : 0 < 1 + E := lt_of_lt_of_le (by positivity) hE1
  have e1 : (1 - E) / (1 + E) - (1 - Z) / (1 + Z) = -(2 * (E - Z)) / ((1 + E) * (1 + Z)) := by
    field_simp; ring
  rw [e1, abs_div, abs_neg, abs_mul, abs_of_pos (by positivity : 0 < (1 + E) * (1 + Z)), abs_of_pos (by norm_num : (0 : ℝ) < 2),
    div_le_iff₀ (by positivity)]
  have e2 : 0.9999 * (1 + Z) ^ 2 ≤ (1 + E) * (1 + Z) := by
    calc 0.9999 * (1 + Z) ^ 2 = 0.9999 * (1 + Z) * (1 + Z) := by ring
      _ ≤ _ := by gcongr
  have e3 : 4 * Z ≤ (1 + Z) ^ 2 := by nlinarith [sq_nonneg (1 - Z)]
  have e4 : (3.6e-7 + 1.48e-7 * X) * Z = 0.9e-7 * (4 * Z) + 0.185e-7 * (Z * (8 * X)) := by ring
  rw [e4] at hE
  generalize (1 + Z) ^ 2 = Q at *
  generalize (1 + E) * (1 + Z) = R at *
  generalize Z * (8 * X) = V at *
  norm_num at *; linarith

theorem exp_88 : Real.exp 88.5 ≤ 3e38 := by
  have h1 : Real.exp 88.5 ^ 2 = Real.exp 1 ^ 177 := by
    rw [← Real.exp_nat_mul, ← Real.exp_nat_mul]; norm_num
  have h2 : Real.exp 1 ^ 177 ≤ 2.7182818286 ^ 177 := pow_le_pow_left₀ (Real.exp_pos _).le Real.exp_one_lt_d9.le _
  have h3 : Real.exp 88.5 ^ 2 ≤ 3e38 ^ 2 := by rw [h1]; exact h2.trans (by norm_num)
  exact (pow_le_pow_iff_left₀ (Real.exp_pos _).le (by norm_num) (by norm_num)).1 h3

theorem exp_m20 : Real.exp (-20) ≤ 1e-8 := by
  have h1 : Real.exp (-20) = Real.exp (-1) ^ 20 := by rw [← Real.exp_nat_mul]; norm_num
  rw [h1]
  have h2 : Real.exp (-1) ^ 20 ≤ 0.3678794412 ^ 20 := pow_le_pow_left₀ (Real.exp_pos _).le Real.exp_neg_one_lt_d9.le _
  exact h2.trans (by norm_num)

/-- Far to the left `exp` is negligible. -/
theorem exp_small {y : BitVec 32} (h : F32.le y (lit (-87.1)) = true) :
    ∃ E, exp y = .ok E ∧ Finite E ∧ 0 ≤ val E ∧ val E ≤ 1e-30 := by
  have c : Finite (lit (-87.1)) ∧ val (lit (-87.1)) ≤ -87 ∧ Finite (lit (-125)) ∧ val (lit (-125)) = -125 ∧
    val (mul FFP_LOG2E (negate inf)) ≤ -125 ∧ ¬ F32.le inf (lit (-87.1)) = true := by decide +kernel
  have hn : ¬ IsNaN y := by unfold F32.le at h; simp only [decide_eq_true_eq] at h; exact h.1
  have hz := exp_arg_notNaN hn
  have hv : val (mul FFP_LOG2E y) ≤ -125 := by
    rcases trichotomy hn with hf | rfl | rfl
    · rw [le_fin hf c.1, decide_eq_true_eq] at h
      rw [mul_fin log2e_val.1 hf, log2e_val.2, ← c.2.2.2.1]
      refine rnd_le c.2.2.1 ?_
      rw [c.2.2.2.1]; have := c.2.1; linarith
    · exact absurd h c.2.2.2.2.2
    · exact c.2.2.2.2.1
  unfold exp
  generalize mul FFP_LOG2E y = z at *
  by_cases h1 : F32.le z (negate (lit 126)) = true
  · exact ⟨_, (C79_limits z).1 h1, fin_zero, by rw [val_zero], by rw [val_zero]; norm_num⟩
  have h2 : ¬ F32.lt (lit 128) z = true := by
    intro hc
    have := lt_key hc
    rw [key_lt_iff, lit_128.2] at this
    linarith
  have hf := finite_of_range hz h1 h2
  rw [le_fin hf lit_m126.1, lit_m126.2] at h1
  have h1' : -126 < val z := by simpa using h1
  obtain ⟨r, hr, fr, he⟩ := C79_accuracy_partial z hf h1' (by linarith)
  have h4 : (2 : ℝ) ^ (val z : ℝ) ≤ (2 : ℝ) ^ (-125 : ℤ) := by
    rw [← Real.rpow_intCast]
    refine Real.rpow_le_rpow_of_exponent_le (by norm_num) ?_
    have : (val z : ℝ) ≤ ((-125 : ℚ) : ℝ) := by exact_mod_cast hv
    push_cast at this ⊢; exact this
  have h5 : (0 : ℝ) < (2 : ℝ) ^ (val z : ℝ) := by positivity
  obtain ⟨a, b⟩ := _root_.abs_le.1 he
  generalize (2 : ℝ) ^ (val z : ℝ) = Q at *
  refine ⟨r, hr, fr, ?_, ?_⟩
  · have : (0 : ℝ) ≤ (val r : ℝ) := by norm_num at a; linarith
    exact_mod_cast this
  · have : (val r : ℝ) ≤ ((1e-30 : ℚ) : ℝ) := by norm_num at *; linarith
    exact_mod_cast this

/-- **C91** (part) For every finite `x ≥ -44.1`, `tanh` is defined, stays within `[-1, 1]` and is within `4.2e-7` of the
hyperbolic tangent. Missing: arguments below `-44.1` (`C91_tanh_nan`). -/
theorem C91_tanh_partial (x : BitVec 32) (hx : Finite x) (h : -44.1 ≤ val x) :
    ∃ r, tanh x = .ok r ∧ Finite r ∧ |val r| ≤ 1 ∧ |(val r : ℝ) - Real.tanh (val x)| ≤ 4.2e-7 := by
  by_cases h2 : val x ≤ 43.6
  · have hab : |val x| ≤ 44.1 := _root_.abs_le.2 ⟨by linarith, by linarith⟩
    have hab' : |(val x : ℝ)| ≤ 45 := by
      have : ((|val x| : ℚ) : ℝ) ≤ ((44.1 : ℚ) : ℝ) := by exact_mod_cast hab
      push_cast at this; norm_num at this ⊢; linarith
    obtain ⟨fy, vy⟩ := tanh_arg hx (hab.trans (by norm_num))
    obtain ⟨E, he, fE, hr⟩ := C80_accuracy_partial _ fy (by rw [vy]; linarith) (by rw [vy]; linarith)
    rw [vy] at hr
    push_cast at hr
    rw [abs_neg, abs_mul, abs_of_pos (by norm_num : (0 : ℝ) < 2)] at hr
    have hr' : |(val E : ℝ) - Real.exp (-(2 * (val x : ℝ)))| ≤
        (3.6e-7 + 1.48e-7 * |(val x : ℝ)|) * Real.exp (-(2 * (val x : ℝ))) := by
      refine hr.trans (le_of_eq ?_)
      ring
    have tp := tanh_prop hr' hab'
    have hZ := Real.exp_pos (-(2 * (val x : ℝ)))
    have hZ2 : Real.exp (-(2 * (val x : ℝ))) ≤ 3e38 := by
      refine (Real.exp_le_exp.2 ?_).trans exp_88
      have : ((-44.1 : ℚ) : ℝ) ≤ (val x : ℝ) := by exact_mod_cast h
      push_cast at this; norm_num at this ⊢; linarith
    have hb : (3.6e-7 + 1.48e-7 * |(val x : ℝ)|) * Real.exp (-(2 * (val x : ℝ))) ≤ 7.1e-6 * Real.exp (-(2 * (val x : ℝ))) := by
      refine mul_le_mul_of_nonneg_right ?_ hZ.le
      generalize |(val x : ℝ)| = X at *
      norm_num at *; linarith
    obtain ⟨a1, a2⟩ := _root_.abs_le.1 (hr'.trans hb)
    generalize Real.exp (-(2 * (val x : ℝ))) = Z at *
    have E0 : 0 ≤ val E := by
      have : (0 : ℝ) ≤ (val E : ℝ) := by norm_num at a1; linarith
      exact_mod_cast this
    have E1 : val E ≤ 3.3e38 := by
      have : (val E : ℝ) ≤ ((3.3e38 : ℚ) : ℝ) := by norm_num at *; linarith
      exact_mod_cast this
    obtain ⟨f, b, q⟩ := tanh_quot fE E0 E1
    refine ⟨_, by unfold tanh; rw [he]; rfl, f, b, ?_⟩
    have t := abs_sub_le (val (div (sub (lit 1) E) (add (lit 1) E)) : ℝ) ((1 - (val E : ℝ)) / (1 + (val E : ℝ))) (Real.tanh (val x))
    norm_num at *; linarith
  · have h2 : 43.6 < val x := not_le.1 h2
    have hy : F32.le (mul (negate (lit 2)) x) (lit (-87.1)) = true := by
      have c : Finite (lit (-87.1)) ∧ -87.2 ≤ val (lit (-87.1)) := by decide +kernel
      unfold F32.le
      rw [decide_eq_true_eq, ← val_le_iff, mul_fin lit_m2.1 hx, lit_m2.2]
      refine ⟨rnd_notNaN _ _, c.1.notNaN, rnd_le c.1 ?_⟩
      linarith [c.2]
    obtain ⟨E, he, fE, E0, E1⟩ := exp_small hy
    obtain ⟨f, b, q⟩ := tanh_quot fE E0 (E1.trans (by norm_num))
    refine ⟨_, by unfold tanh; rw [he]; rfl, f, b, ?_⟩
    have hx' : (43 : ℝ) ≤ (val x : ℝ) := by
      have : ((43 : ℚ) : ℝ) ≤ (val x : ℝ) := by exact_mod_cast (show (43 : ℚ) ≤ val x by linarith)
      push_cast at this; exact this
    have hZ := Real.exp_pos (-(2 * (val x : ℝ)))
    have hZ2 : Real.exp (-(2 * (val x : ℝ))) ≤ 1e-8 := by
      refine (Real.exp_le_exp.2 ?_).trans exp_m20
      linarith
    have ht : Real.tanh (val x) = (1 - Real.exp (-(2 * (val x : ℝ)))) / (1 + Real.exp (-(2 * (val x : ℝ)))) := by
      rw [Real.tanh_eq_sinh_div_cosh, Real.sinh_eq, Real.cosh_eq]
      have h1 : Real.exp (-(2 * (val x : ℝ))) = Real.exp (-(val x : ℝ)) / Real.exp (val x : ℝ) := by
        rw [← Real.exp_sub]; congr 1; ring
      have := Real.exp_pos (val x : ℝ)
      rw [h1]; field_simp
    have E0' : 0 ≤ (val E : ℝ) := by exact_mod_cast E0
    have E1' : (val E : ℝ) ≤ 1e-8 := by
      have : (val E : ℝ) ≤ ((1e-8 : ℚ) : ℝ) := by exact_mod_cast E1.trans (by norm_num)
      push_cast at this; exact this
    have k : |(1 - (val E : ℝ)) / (1 + (val E : ℝ)) - Real.tanh (val x)| ≤ 4e-8 := by
      rw [ht]
      generalize Real.exp (-(2 * (val x : ℝ))) = Z at *
      generalize (val E : ℝ) = e at *
      have e1 : (1 - e) / (1 + e) - (1 - Z) / (1 + Z) = 2 * (Z - e) / ((1 + e) * (1 + Z)) := by
        field_simp; ring
      have p : 1 ≤ (1 + e) * (1 + Z) := by nlinarith
      have d : |Z - e| ≤ 2e-8 := by rw [_root_.abs_le]; norm_num at *; constructor <;> linarith
      rw [e1, abs_div, abs_of_pos (by linarith : 0 < (1 + e) * (1 + Z)), div_le_iff₀ (by linarith), abs_mul,
        abs_of_pos (by norm_num : (0 : ℝ) < 2)]
      generalize (1 + e) * (1 + Z) = R at *
      norm_num at *; linarith
    have t := abs_sub_le (val (div (sub (lit 1) E) (add (lit 1) E)) : ℝ) ((1 - (val E : ℝ)) / (1 + (val E : ℝ))) (Real.tanh (val x))
    norm_num at *; linarith

/-- **C91** (negation) Below `-44.4`, minus infinity included, `tanh` is a NaN instead of minus one. -/
theorem C91_tanh_nan (x : BitVec 32) (h : F32.le x (lit (-44.4)) = true) : ∃ r, tanh x = .ok r ∧ IsNaN r := by
  have c : Finite (lit (-44.4)) ∧ -(2 * val (lit (-44.4))) = val (lit 88.8) ∧ Finite (lit 88.8) ∧
    ¬ F32.le inf (lit (-44.4)) = true ∧ F32.le (lit 88.8) (mul (negate (lit 2)) (negate inf)) = true := by decide +kernel
  have hn : ¬ IsNaN x := by unfold F32.le at h; simp only [decide_eq_true_eq] at h; exact h.1
  have hy : F32.le (lit 88.8) (mul (negate (lit 2)) x) = true := by
    rcases trichotomy hn with hf | rfl | rfl
    · rw [le_fin hf c.1, decide_eq_true_eq] at h
      unfold F32.le
      rw [decide_eq_true_eq, ← val_le_iff, mul_fin lit_m2.1 hf, lit_m2.2]
      refine ⟨c.2.2.1.notNaN, rnd_notNaN _ _, le_rnd c.2.2.1 ?_⟩
      rw [← c.2.1]; linarith
    · exact absurd h c.2.2.2.1
    · exact c.2.2.2.2
  refine ⟨_, by unfold tanh; rw [(C80_limits _).2 hy]; rfl, ?_⟩
  decide +kernel

/-- **C91** (negation) `tanh(-100)` is a NaN, `sinh` overflows where its value is still a float, and `sinh` of a small
number is zero. -/
theorem C91_false : Finite (lit (-100)) ∧ tanh (lit (-100)) = .ok 0x7FC00000#32 ∧ IsNaN 0x7FC00000#32 ∧
    sinh (lit 88.5) = .ok inf ∧ val (lit 88.5) = 88.5 ∧ Real.sinh 88.5 < (val fltMax : ℝ) ∧
    sinh (lit 0.00000001) = .ok (lit 0) ∧ 0 < val (lit 0.00000001) := by
  refine ⟨by decide +kernel, by decide +kernel, by decide +kernel, by decide +kernel, by decide +kernel, ?_, by decide +kernel,
    by decide +kernel⟩
  have h4 : ((3.4e38 : ℚ) : ℝ) ≤ (val fltMax : ℝ) := by exact_mod_cast fltMax_val.2
  have h := exp_88
  have h5 := Real.exp_pos (-88.5)
  rw [Real.sinh_eq]
  norm_num at *; linarith

/-- Cases of the theorems above. -/
example : Finite (lit 1) ∧ |val (lit 1)| ≤ 87.3 ∧ -44.1 ≤ val (lit 1) ∧ cosh (lit 1) = .ok 0x3FC583AA#32 ∧
    tanh (lit 1) = .ok 0x3F42F7D5#32 ∧ F32.le (lit (-50)) (lit (-44.4)) = true ∧ ¬ IsNaN (negate inf) := by decide +kernel

end Verif.Ffmath
