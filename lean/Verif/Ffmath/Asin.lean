import Verif.Ffmath.Cos
import Verif.Ffmath.Log
import Mathlib.Analysis.SpecialFunctions.Trigonometric.Inverse

/-!
# `asin` and `acos` (C89)

IEEE binary32 arithmetic.
-/

namespace Verif.Ffmath

open Verif F32

/-- The approximation of `ffmath::asin` (`/repo/src/ffmath.cpp` line 490), over the reals. -/
noncomputable def asinR (s : ℝ) : ℝ := s * (0.131754508171 * |s| + 0.924391722181)

theorem asinR_neg (s : ℝ) : asinR (-s) = -asinR s := by unfold asinR; rw [abs_neg]; ring

theorem asinR_close {t : ℝ} (ht : |t| ≤ Real.pi / 4) : |asinR (2 * Real.sin t) - 2 * t| ≤ 0.01217 := by
  have p1 := Real.pi_gt_d20
  have p2 := Real.pi_lt_d20
  have main : ∀ t : ℝ, 0 ≤ t → t ≤ Real.pi / 4 → |asinR (2 * Real.sin t) - 2 * t| ≤ 0.01217 := by
    intro t h0 h1
    have h1' : t ≤ 0.7854 := by norm_num at p2 ⊢; linarith
    have hs0 : 0 ≤ Real.sin t := Real.sin_nonneg_of_nonneg_of_le_pi h0 (by linarith)
    have hs1 := Real.sin_le_one t
    have hs := sin_poly (c := 1) (n := 10) (x := t) (X := 0.7854) (e := 6e-8)
      (by push_cast; rw [_root_.one_mul, abs_of_nonneg h0]; exact h1') (by norm_num)
      (by norm_num [Nat.factorial])
    rw [Rat.cast_one, _root_.one_mul] at hs
    have hp := pcheck_sound (p := padd (pmul (psmul 2 (pseries sinC 1 10)) (padd (psmul 0.263509016342 (pseries sinC 1 10)) [0.924391722181]))
      [0, -2]) (a := 0) (r := 0.003927) (n := 100) (e := 0.01216)
      (by decide +kernel) (by norm_num) t (by push_cast; exact h0) (by norm_num at h1' ⊢; linarith)
    rw [peval_padd, peval_pmul, peval_padd, peval_psmul, peval_psmul] at hp
    generalize peval (pseries sinC 1 10) t = T at *
    simp only [peval_cons, peval_nil] at hp
    push_cast at hp
    unfold asinR
    rw [show |2 * Real.sin t| = 2 * Real.sin t from abs_of_nonneg (by positivity)]
    generalize Real.sin t = S at *
    have e : 2 * S * (0.131754508171 * (2 * S) + 0.924391722181) - 2 * t =
      (2 * T * (0.263509016342 * T + (0.924391722181 + t * 0)) + (0 + t * (-2 + t * 0))) +
      (S - T) * (0.527018032684 * (S + T) + 1.848783444362) := by ring
    rw [e]
    refine (abs_add_le _ _).trans ?_
    rw [abs_mul]
    have hST := _root_.abs_le.1 hs
    have hb : |0.527018032684 * (S + T) + 1.848783444362| ≤ 4 := by
      rw [_root_.abs_le]; norm_num at hST ⊢; constructor <;> linarith [hST.1, hST.2]
    have := mul_le_mul hs hb (abs_nonneg _) (by norm_num)
    generalize |S - T| * |0.527018032684 * (S + T) + 1.848783444362| = r1 at *
    generalize |2 * T * (0.263509016342 * T + (0.924391722181 + t * 0)) + (0 + t * (-2 + t * 0))| = r2 at *
    norm_num at this hp ⊢
    linarith
  rcases le_total 0 t with h | h
  · exact main t h (by rwa [abs_of_nonneg h] at ht)
  · have := main (-t) (by linarith) (by rwa [abs_of_nonpos h] at ht)
    rw [Real.sin_neg, mul_neg, asinR_neg, mul_neg, sub_neg_eq_add] at this
    rw [show asinR (2 * Real.sin t) - 2 * t = -(-asinR (2 * Real.sin t) + 2 * t) by ring, abs_neg]
    exact this

/-- Half-angle identity behind the substitution. -/
theorem sqrt_diff {x : ℝ} (h1 : -1 ≤ x) (h2 : x ≤ 1) :
    Real.sqrt (1 + x) - Real.sqrt (1 - x) = 2 * Real.sin (Real.arcsin x / 2) ∧ |Real.arcsin x / 2| ≤ Real.pi / 4 := by
  have a1 := Real.neg_pi_div_two_le_arcsin x
  have a2 := Real.arcsin_le_pi_div_two x
  have hx := Real.sin_arcsin h1 h2
  set t := Real.arcsin x / 2 with ht
  have ht2 : Real.arcsin x = 2 * t := by rw [ht]; ring
  have tb : |t| ≤ Real.pi / 4 := by rw [_root_.abs_le]; constructor <;> linarith
  refine ⟨?_, tb⟩
  rw [ht2, Real.sin_two_mul] at hx
  have hsc := Real.sin_sq_add_cos_sq t
  have hcs : |Real.sin t| ≤ Real.cos t := by
    rw [_root_.abs_le] at tb
    have hcos0 : 0 ≤ Real.cos (2 * t) := Real.cos_nonneg_of_mem_Icc ⟨by linarith, by linarith⟩
    have hcos : 0 ≤ Real.cos t := Real.cos_nonneg_of_mem_Icc ⟨by linarith [Real.pi_pos], by linarith [Real.pi_pos]⟩
    rw [Real.cos_two_mul] at hcos0
    apply abs_le_of_sq_le_sq _ hcos
    nlinarith
  rw [_root_.abs_le] at hcs
  have e1 : Real.sqrt (1 + x) = Real.sin t + Real.cos t := by
    rw [Real.sqrt_eq_iff_mul_self_eq (by linarith) (by linarith)]; nlinarith
  have e2 : Real.sqrt (1 - x) = Real.cos t - Real.sin t := by
    rw [Real.sqrt_eq_iff_mul_self_eq (by linarith) (by linarith)]; nlinarith
  rw [e1, e2]; ring

/-- The square root of a rounded argument. -/
theorem sqrt_near {a : BitVec 32} {q : ℚ} {s : Bool} (ha : a = rnd s q) (h0 : 0 ≤ q) (h2 : q ≤ 2)
    (h3 : q = 0 ∨ 2 ^ (-100 : ℤ) ≤ q) : Near (sqrt a) (Real.sqrt q) (0.0000018 * Real.sqrt q) := by
  rcases h3 with h3 | h3
  · subst h3
    have hr := rnd_exact (s := s) (q := 0) fin_zero val_zero.symm
    rw [ha]
    rw [(C76_special _).2 hr.2 hr.1]
    refine ⟨fin_zero, ?_⟩
    rw [val_zero]; simp
  · have hq : |q| = q := abs_of_nonneg h0
    obtain ⟨f, ε, e1, e2⟩ := rnd_eps (s := s) (q := q) (by rw [hq]; exact le_trans (zpow_le_iff.2 (by norm_num)) h3)
      (by rw [hq]; refine h2.trans ?_; norm_num)
    rw [← ha] at f e2
    rw [_root_.abs_le] at e1
    have hlow : 2 ^ (-126 : ℤ) ≤ val a := by
      rw [e2]
      have : 2 ^ (-100 : ℤ) * (1 / 2) ≤ q * (1 + ε) := mul_le_mul h3 (by norm_num at e1 ⊢; linarith [e1.1]) (by norm_num) h0
      refine le_trans ?_ this
      norm_num
    obtain ⟨fs, hs⟩ := C76_accuracy_partial a f hlow
    refine ⟨fs, ?_⟩
    have hqr : (0 : ℝ) ≤ (q : ℝ) := by exact_mod_cast h0
    have e2r : (val a : ℝ) = q * (1 + ε) := by exact_mod_cast e2
    have er1 : -(1 / 16777216 : ℝ) ≤ ε ∧ (ε : ℝ) ≤ 1 / 16777216 := by
      constructor
      · have : (((-(1 / 16777216) : ℚ)) : ℝ) ≤ (ε : ℝ) := by exact_mod_cast e1.1
        push_cast at this; exact this
      · have : (ε : ℝ) ≤ (((1 / 16777216 : ℚ)) : ℝ) := by exact_mod_cast e1.2
        push_cast at this; exact this
    rw [e2r, Real.sqrt_mul hqr] at hs
    have hg : |Real.sqrt (1 + ε) - 1| ≤ 6e-8 := by
      have l : 1 - 6e-8 ≤ Real.sqrt (1 + ε) := by
        apply Real.le_sqrt_of_sq_le
        norm_num at er1 ⊢; linarith [er1.1]
      have u : Real.sqrt (1 + ε) ≤ 1 + 6e-8 := by
        apply Real.sqrt_le_iff.2
        constructor
        · norm_num
        · norm_num at er1 ⊢; linarith [er1.2]
      rw [_root_.abs_le]; constructor <;> linarith
    have hS := Real.sqrt_nonneg (q : ℝ)
    generalize Real.sqrt (q : ℝ) = S at *
    generalize Real.sqrt (1 + (ε : ℝ)) = G at *
    have t := abs_add_le ((val (sqrt a) : ℝ) - S * G) (S * (G - 1))
    rw [show (val (sqrt a) : ℝ) - S * G + S * (G - 1) = (val (sqrt a) : ℝ) - S by ring, abs_mul, abs_of_nonneg hS] at t
    have hG : G ≤ 1.0000001 := by rw [_root_.abs_le] at hg; norm_num at hg ⊢; linarith [hg.2]
    have m1 := mul_le_mul_of_nonneg_left hg hS
    have m2 := mul_le_mul_of_nonneg_left hG hS
    refine t.trans ?_
    generalize |(val (sqrt a) : ℝ) - S * G| = r1 at *
    generalize |G - 1| = r2 at *
    norm_num at *
    linarith

theorem asin_c : Finite (lit 0.131754508171) ∧ |val (lit 0.131754508171) - 0.131754508171| ≤ 1e-8 := by decide +kernel
theorem asin_d : Finite (lit 0.924391722181) ∧ |val (lit 0.924391722181) - 0.924391722181| ≤ 3e-8 := by decide +kernel

/-- `1 + q` is zero or not tiny. -/
theorem one_add_gap {x : BitVec 32} (hx : Finite x) (h : 0 ≤ 1 + val x) : 1 + val x = 0 ∨ 2 ^ (-100 : ℤ) ≤ 1 + val x := by
  rcases le_total (-(1 / 2)) (val x) with c | c
  · right
    have : (2 : ℚ) ^ (-100 : ℤ) ≤ 1 / 2 := by norm_num
    refine this.trans ?_
    linarith
  · -- multiples of 2^-24
    obtain ⟨k, t, t1, t2, k1, e, k3⟩ := val_dyadic hx
    have ht : -24 ≤ t := by
      by_contra hh
      have h0 : (2 : ℚ) ^ t ≤ 2 ^ (-25 : ℤ) := zpow_le_iff.2 (by omega)
      have h1 : |(k : ℚ)| ≤ 16777215 := by
        have : |k| ≤ 16777215 := by omega
        exact_mod_cast this
      have := mul_le_mul h1 h0 (two_zpow_pos t).le (by norm_num)
      have h5 : |val x| = |(k : ℚ)| * 2 ^ t := by rw [e, abs_mul, abs_of_pos (two_zpow_pos t)]
      rw [abs_of_nonpos (by linarith)] at h5
      norm_num at this
      linarith
    have e2 : 1 + val x = ((16777216 + k * 2 ^ (t + 24).toNat : ℤ) : ℚ) * 2 ^ (-24 : ℤ) := by
      rw [e]; push_cast
      rw [← zpow_natCast, Int.toNat_of_nonneg (by omega), zpow_add₀ (by norm_num)]
      norm_num; ring
    rw [e2] at h ⊢
    have h1 : (0 : ℚ) ≤ ((16777216 + k * 2 ^ (t + 24).toNat : ℤ) : ℚ) := by
      by_contra hh
      have := mul_neg_of_neg_of_pos (not_le.1 hh) (two_zpow_pos (-24))
      linarith
    have h2 : 0 ≤ 16777216 + k * 2 ^ (t + 24).toNat := by exact_mod_cast h1
    rcases eq_or_lt_of_le h2 with c | c
    · left; rw [← c]; simp
    · right
      have : (1 : ℚ) ≤ ((16777216 + k * 2 ^ (t + 24).toNat : ℤ) : ℚ) := by exact_mod_cast c
      calc (2 : ℚ) ^ (-100 : ℤ) ≤ 1 * 2 ^ (-24 : ℤ) := by norm_num
        _ ≤ _ := mul_le_mul_of_nonneg_right this (two_zpow_pos _).le

theorem asin_near {x : BitVec 32} (hx : Finite x) (h : |val x| ≤ 1) :
    Near (sub (sqrt (add (lit 1) x)) (sqrt (sub (lit 1) x))) (2 * Real.sin (Real.arcsin (val x) / 2)) 4e-6 ∧
    Near (asin x) (Real.arcsin (val x)) 0.01219 := by
  have hb := _root_.abs_le.1 h
  have hbr : -1 ≤ (val x : ℝ) ∧ (val x : ℝ) ≤ 1 := by
    constructor
    · have : (((-1 : ℚ)) : ℝ) ≤ (val x : ℝ) := by exact_mod_cast hb.1
      push_cast at this; exact this
    · exact_mod_cast hb.2
  have n1 := sqrt_near (a := add (lit 1) x) (q := 1 + val x) (by rw [add_fin fin_one hx, val_one]) (by linarith) (by linarith)
    (one_add_gap hx (by linarith))
  have n2 := sqrt_near (a := sub (lit 1) x) (q := 1 - val x) (by rw [sub_fin fin_one hx, val_one]) (by linarith) (by linarith)
    (by
      have := one_add_gap (finite_negate.2 hx) (by rw [val_negate]; linarith)
      rw [val_negate, ← sub_eq_add_neg] at this; exact this)
  push_cast at n1 n2
  obtain ⟨e, ht⟩ := sqrt_diff hbr.1 hbr.2
  have hsum : Real.sqrt (1 + val x) + Real.sqrt (1 - val x) ≤ 2 := by
    have s1 := Real.sq_sqrt (by linarith : (0 : ℝ) ≤ 1 + val x)
    have s2 := Real.sq_sqrt (by linarith : (0 : ℝ) ≤ 1 - val x)
    nlinarith [sq_nonneg (Real.sqrt (1 + val x) - Real.sqrt (1 - val x))]
  have hs : |2 * Real.sin (Real.arcsin (val x) / 2)| ≤ 1.5 := by
    -- the difference of the roots is at most the square root of two
    have s1 := Real.sq_sqrt (by linarith : (0 : ℝ) ≤ 1 + val x)
    have s2 := Real.sq_sqrt (by linarith : (0 : ℝ) ≤ 1 - val x)
    have p1 := Real.sqrt_nonneg (1 + val x : ℝ)
    have p2 := Real.sqrt_nonneg (1 - val x : ℝ)
    rw [← e, _root_.abs_le]
    constructor <;> nlinarith
  have n3 := Near.sub (e' := 4e-6) 1.6 n1 n2 (by
      rw [e]
      generalize |2 * Real.sin (Real.arcsin (val x) / 2)| = A at *
      norm_num at hs ⊢; linarith) (by norm_num) (by norm_num; linarith)
  rw [e] at n3
  refine ⟨n3, ?_⟩
  have hclose := asinR_close ht
  rw [mul_div_cancel₀ _ (two_ne_zero)] at hclose
  unfold asin
  dsimp only
  have c1 : Near (lit 0.131754508171) 0.131754508171 1e-8 := near_lit asin_c (by norm_num) (by norm_num)
  have c0 : Near (lit 0.924391722181) 0.924391722181 3e-8 := near_lit asin_d (by norm_num) (by norm_num)
  generalize sub (sqrt (add (lit 1) x)) (sqrt (sub (lit 1) x)) = t at *
  generalize 2 * Real.sin (Real.arcsin (val x) / 2) = T at *
  have n4 := near_abs n3
  have hT' : |(|T|)| ≤ 1.5 := by rw [abs_abs]; exact hs
  obtain ⟨n5, b5⟩ := horner' (e' := 8e-7) (P' := 1.2) 0.14 1.5 0.93 5.8e-7 6e-7 c1 n4 c0 (by rw [abs_of_pos (by norm_num)]; norm_num) hT'
    (by rw [abs_of_pos (by norm_num)]; norm_num) (by norm_num) (by norm_num) (by norm_num) (by norm_num) (by norm_num)
  have n6 := Near.mul (e' := 9e-6) 1.5 1.2 6.1e-6 1.9 n3 n5 hs b5 (by norm_num) (by
    rw [abs_mul]
    have := mul_le_mul hs b5 (abs_nonneg _) (by norm_num)
    generalize |T| * |0.131754508171 * |T| + 0.924391722181| = A at *
    norm_num at this ⊢; linarith) (by norm_num) (by norm_num)
  exact (n6.move hclose).mono (by norm_num)

/-- **C89 (partial).** `asin` is finite and within 0.0122 of the arc sine on the whole of [-1, 1]. -/
theorem C89_asin_partial (x : BitVec 32) (hx : Finite x) (h : |val x| ≤ 1) :
    Finite (asin x) ∧ |(val (asin x) : ℝ) - Real.arcsin (val x)| ≤ 0.0122 := by
  have := (asin_near hx h).2
  exact ⟨this.fin, this.err.trans (by norm_num)⟩

/-- **C89 (partial).** `acos` likewise. -/
theorem C89_acos_partial (x : BitVec 32) (hx : Finite x) (h : |val x| ≤ 1) :
    Finite (acos x) ∧ |(val (acos x) : ℝ) - Real.arccos (val x)| ≤ 0.0122 := by
  have n := (asin_near hx h).2
  have p2 := Real.pi_lt_d20
  have a1 := Real.neg_pi_div_two_le_arcsin (val x : ℝ)
  have a2 := Real.arcsin_le_pi_div_two (val x : ℝ)
  have := Near.sub (e' := 0.0122) 4 near_PI2 n (by
    rw [abs_of_nonneg (by linarith)]
    norm_num at p2 ⊢; linarith) (by norm_num) (by norm_num)
  rw [Real.arccos]
  exact ⟨this.fin, this.err⟩

theorem asinT_val {t : BitVec 32} (ht : Finite t) (h : |val t| ≤ 3) :
    val (mul t (add (mul (lit 0.131754508171) (absolute t)) (lit 0.924391722181))) =
      fl (val t * fl (fl (val (lit 0.131754508171) * |val t|) + val (lit 0.924391722181))) := by
  have hr : |(val t : ℝ)| ≤ 3 := by
    have : ((|val t| : ℚ) : ℝ) ≤ ((3 : ℚ) : ℝ) := by exact_mod_cast h
    push_cast at this; exact this
  have hr' : |(|(val t : ℝ)|)| ≤ 3 := by rw [abs_abs]; exact hr
  have c1 : Near (lit 0.131754508171) 0.131754508171 1e-8 := near_lit asin_c (by norm_num) (by norm_num)
  have c0 : Near (lit 0.924391722181) 0.924391722181 3e-8 := near_lit asin_d (by norm_num) (by norm_num)
  have n := near_abs (Near.self ht)
  have n1 := Near.mul (e' := 1) 0.14 3 0.1 1 c1 n (by rw [abs_of_pos (by norm_num)]; norm_num) hr' (by norm_num) (by
    rw [abs_mul, abs_abs, abs_of_pos (by norm_num)]
    generalize |(val t : ℝ)| = A at *
    norm_num; linarith) (by norm_num) (by norm_num)
  have n2 := horner (e' := 2) 0.14 3 0.93 0.1 0.2 c1 n c0 (by rw [abs_of_pos (by norm_num)]; norm_num) hr'
    (by rw [abs_of_pos (by norm_num)]; norm_num) (by norm_num) (by norm_num) (by norm_num) (by norm_num)
  rw [mul_fin ht n2.fin, val_rnd, add_fin n1.fin asin_d.1, val_rnd, mul_fin asin_c.1 (absolute_finite.2 ht), val_rnd, absolute_val]

/-- **C89.** `asin(-x)` is exactly the opposite of `asin(x)`. -/
theorem C89_odd (x : BitVec 32) (hx : Finite x) (h : |val x| ≤ 1) : val (asin (negate x)) = -val (asin x) := by
  have hx' := finite_negate.2 hx
  have h' : |val (negate x)| ≤ 1 := by rw [val_negate, abs_neg]; exact h
  have f1 := (asin_near hx h).1.fin
  have f2 := (asin_near hx' h').1.fin
  have e1 : add (lit 1) (negate x) = sub (lit 1) x := rfl
  have e2 : sub (lit 1) (negate x) = add (lit 1) x := by unfold F32.sub; rw [negate_negate]
  unfold asin
  dsimp only
  rw [e1, e2] at f2 ⊢
  have tb : |val (sub (sqrt (add (lit 1) x)) (sqrt (sub (lit 1) x)))| ≤ 3 := by
    have h1 := (asin_near hx h).1.abs_le
    have h2 : |2 * Real.sin (Real.arcsin (val x) / 2)| ≤ 2 := by
      rw [abs_mul, abs_two]; have := Real.abs_sin_le_one (Real.arcsin (val x) / 2); linarith
    have h3 : |(val (sub (sqrt (add (lit 1) x)) (sqrt (sub (lit 1) x))) : ℝ)| ≤ 3 := by
      generalize |2 * Real.sin (Real.arcsin (val x) / 2)| = A at *
      norm_num at h1 ⊢; linarith
    exact_mod_cast h3
  have ht : val (sub (sqrt (sub (lit 1) x)) (sqrt (add (lit 1) x))) = -val (sub (sqrt (add (lit 1) x)) (sqrt (sub (lit 1) x))) := by
    have fs : ∀ {y : BitVec 32} {q : ℚ} {s : Bool}, y = rnd s q → 0 ≤ q → q ≤ 2 → (q = 0 ∨ 2 ^ (-100 : ℤ) ≤ q) → Finite (sqrt y) :=
      fun a b c d => (sqrt_near a b c d).fin
    have hb := _root_.abs_le.1 h
    have s1 := fs (y := add (lit 1) x) (q := 1 + val x) (by rw [add_fin fin_one hx, val_one]) (by linarith) (by linarith) (one_add_gap hx (by linarith))
    have s2 := fs (y := sub (lit 1) x) (q := 1 - val x) (by rw [sub_fin fin_one hx, val_one]) (by linarith) (by linarith) (by
      have := one_add_gap hx' (by rw [val_negate]; linarith)
      rw [val_negate, ← sub_eq_add_neg] at this; exact this)
    rw [sub_fin s2 s1, sub_fin s1 s2, val_rnd, val_rnd, ← fl_neg, neg_sub]
  generalize sub (sqrt (sub (lit 1) x)) (sqrt (add (lit 1) x)) = t' at *
  generalize sub (sqrt (add (lit 1) x)) (sqrt (sub (lit 1) x)) = t at *
  rw [asinT_val f1 tb, asinT_val f2 (by rw [ht, abs_neg]; exact tb), ht, abs_neg, neg_mul, fl_neg]

/-- **C89.** Outside [-1, 1], and for NaN, both give a NaN. -/
theorem C89_domain (x : BitVec 32) (h : IsNaN x ∨ 1 < val x ∨ val x < -1) : IsNaN (asin x) ∧ IsNaN (acos x) := by
  have key : IsNaN (asin x) := by
    unfold asin
    dsimp only
    apply mul_nan_left
    by_cases hn : IsNaN x
    · exact add_nan_left (C76_nan _ (add_nan_right hn))
    by_cases hi : IsInf x
    · rcases inf_bits hi with h | h <;> subst h <;> decide +kernel
    have hf : Finite x := by
      rw [nan_iff] at hn
      rw [inf_iff] at hi
      rw [finite_iff]
      omega
    have hneg : ∀ {s : Bool} {q : ℚ}, q ≤ -(2 ^ (-23 : ℤ)) → IsNaN (sqrt (rnd s q)) := by
      intro s q hq
      apply (C76_special _).1
      rw [lt_iff]
      refine ⟨rnd_notNaN _ _, fin_zero.notNaN, ?_⟩
      rw [ext_lt_iff (rnd_notNaN _ _) fin_zero.notNaN, key_lt_iff, val_zero, val_rnd]
      refine lt_of_le_of_lt (fl_mono hq) ?_
      decide +kernel
    have gap : ∀ {y : BitVec 32}, 1 < val y → 1 + 2 ^ (-23 : ℤ) ≤ val y := by
      intro y hy
      have := succ_le (a := lit 1) (b := y) (by rw [val_one]; exact hy) 0x3F800001#32 (by decide +kernel)
      refine le_trans (le_of_eq ?_) this
      decide +kernel
    rcases h with h | h | h
    · exact absurd h hn
    · apply add_nan_right
      rw [nan_negate, sub_fin fin_one hf, val_one]
      exact hneg (by have := gap h; linarith)
    · apply add_nan_left
      rw [add_fin fin_one hf, val_one]
      exact hneg (by
        have := gap (y := negate x) (by rw [val_negate]; linarith)
        rw [val_negate] at this; linarith)
  exact ⟨key, add_nan_right (nan_negate.2 key)⟩

/-- **C89, negation.** The ranges are not kept: `asin(1)` exceeds pi/2 and `acos(1)` is negative. -/
theorem C89_range_false : val FFP_PI_2 < val (asin (lit 1)) ∧ val (acos (lit 1)) < 0 ∧
    val FFP_PI < val (acos (negate (lit 1))) := by decide +kernel

/-- Cases of the theorems above. -/
example : Finite (lit 0.3) ∧ |val (lit 0.3)| ≤ 1 ∧ Finite (negate (lit 1)) ∧ |val (negate (lit 1))| ≤ 1 ∧ 1 < val (lit 1.5) := by
  decide +kernel

end Verif.Ffmath
