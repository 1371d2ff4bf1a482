import Verif.Ffmath.Asin
import Mathlib.Analysis.SpecialFunctions.Trigonometric.ArctanDeriv
import Mathlib.Analysis.Calculus.MeanValue

/-!
# `atan` and `atan2` (C90)

IEEE binary32 arithmetic.
-/

namespace Verif.Ffmath

open Verif F32

/-! ## A polynomial for the arc tangent -/

/-- Derivative of a polynomial. Not a definition of the repository. -/
def pderiv : List ℚ → List ℚ
  | [] => []
  | _ :: p => padd p (0 :: pderiv p)

theorem peval_deriv (p : List ℚ) (x : ℝ) : HasDerivAt (fun y => peval p y) (peval (pderiv p) x) x := by
  induction p with
  | nil => simp only [peval_nil, pderiv]; exact hasDerivAt_const x 0
  | cons a p ih =>
    rw [pderiv, peval_padd]
    have := ((hasDerivAt_id x).mul ih).const_add (a : ℝ)
    refine this.congr_deriv ?_
    simp [peval_cons]

/-- Nine terms of an odd polynomial close to the arc tangent on [-1, 1] (Abramowitz and Stegun 4.4.49; not a
definition of the repository). -/
def atanA : List ℚ := [0, 1, 0, -0.3333314528, 0, 0.1999355085, 0, -0.1420889944, 0, 0.1065626393, 0, -0.0752896400, 0,
  0.0429096138, 0, -0.0161657367, 0, 0.0028662257]

theorem atanA_deriv_check :
    pcheck (padd [-1] (pmul [1, 0, 1] (pderiv atanA))) (-1) (1 / 20) 20 2e-5 = true := by decide +kernel

theorem atanA_close {u : ℝ} (h1 : -1 ≤ u) (h2 : u ≤ 1) : |Real.arctan u - peval atanA u| ≤ 2e-5 := by
  have hd : ∀ y ∈ Set.Icc (-1 : ℝ) 1, HasDerivWithinAt (fun y => Real.arctan y - peval atanA y)
      (1 / (1 + y ^ 2) - peval (pderiv atanA) y) (Set.Icc (-1) 1) y := fun y _ =>
    ((Real.hasDerivAt_arctan y).sub (peval_deriv atanA y)).hasDerivWithinAt
  have hb : ∀ y ∈ Set.Icc (-1 : ℝ) 1, ‖1 / (1 + y ^ 2) - peval (pderiv atanA) y‖ ≤ 2e-5 := by
    intro y hy
    have hp := pcheck_sound atanA_deriv_check (by norm_num) y (by push_cast; exact hy.1)
      (by have := hy.2; norm_num; linarith)
    rw [peval_padd, peval_pmul] at hp
    simp only [peval_cons, peval_nil] at hp
    have hy2 : 0 ≤ y ^ 2 := sq_nonneg y
    have e : 1 / (1 + y ^ 2) - peval (pderiv atanA) y =
        -(((-1 : ℚ) : ℝ) + y * 0 + (((1 : ℚ) : ℝ) + y * (((0 : ℚ) : ℝ) + y * (((1 : ℚ) : ℝ) + y * 0))) * peval (pderiv atanA) y) / (1 + y ^ 2) := by
      push_cast
      have : (1 + y ^ 2) ≠ 0 := by positivity
      field_simp
      ring
    rw [Real.norm_eq_abs, e, abs_div, abs_neg, abs_of_pos (by positivity : 0 < 1 + y ^ 2)]
    refine (div_le_self (abs_nonneg _) (by linarith)).trans (hp.trans ?_)
    norm_num
  have := Convex.norm_image_sub_le_of_norm_hasDerivWithin_le hd hb (convex_Icc (-1) 1)
    (x := 0) (y := u) ⟨by norm_num, by norm_num⟩ ⟨h1, h2⟩
  have h0 : peval atanA 0 = 0 := by simp [atanA, peval_cons, peval_nil]
  rw [Real.arctan_zero, h0, sub_zero, sub_zero, sub_zero, Real.norm_eq_abs, Real.norm_eq_abs] at this
  refine this.trans ?_
  have : |u| ≤ 1 := _root_.abs_le.2 ⟨h1, h2⟩
  calc (2e-5 : ℝ) * |u| ≤ 2e-5 * 1 := mul_le_mul_of_nonneg_left this (by norm_num)
    _ = 2e-5 := by norm_num

/-- The polynomial of `ffmath::atan` (`/repo/src/ffmath.cpp` line 505), over the reals. -/
noncomputable def atanR (v : ℝ) : ℝ := v * (|v| * (-1.45667498914 * |v| + 2.18501248371) + 0.842458832225)

/-- Difference of the polynomial and the arc tangent in the variable `2 v - 1`. -/
def atanP : List ℚ := padd (pmul [1 / 2, 1 / 2] (padd (pmul [1 / 2, 1 / 2] (padd (psmul (-1.45667498914) [1 / 2, 1 / 2])
  [2.18501248371])) [0.842458832225])) (psmul (-1) (padd [355 / 452] atanA))

theorem atanP_check : pcheck atanP (-1) (1 / 100) 100 6.18e-3 = true := by decide +kernel

theorem atanR_close (x : ℝ) : |atanR (x / (|x| + 1)) - Real.arctan x| ≤ 6.21e-3 := by
  have p1 := Real.pi_gt_d20
  have p2 := Real.pi_lt_d20
  have main : ∀ x : ℝ, 0 ≤ x → |atanR (x / (|x| + 1)) - Real.arctan x| ≤ 6.21e-3 := by
    intro x h0
    rw [abs_of_nonneg h0]
    have hx1 : 0 < x + 1 := by linarith
    set v := x / (x + 1) with hv
    have v0 : 0 ≤ v := by positivity
    have v1 : v < 1 := by rw [hv, div_lt_one hx1]; linarith
    have hatan : Real.arctan x = Real.pi / 4 + Real.arctan (2 * v - 1) := by
      have e : (1 + (2 * v - 1)) / (1 - 1 * (2 * v - 1)) = x := by
        rw [hv]; field_simp; ring
      have := Real.arctan_add (x := 1) (y := 2 * v - 1) (by linarith)
      rw [e, Real.arctan_one] at this
      exact this.symm
    have hA := atanA_close (u := 2 * v - 1) (by linarith) (by linarith)
    have hp := pcheck_sound atanP_check (by norm_num) (2 * v - 1) (by push_cast; linarith) (by norm_num; linarith)
    unfold atanP at hp
    rw [peval_padd, peval_psmul, peval_padd, peval_pmul, peval_padd, peval_pmul, peval_padd, peval_psmul] at hp
    rw [hatan]
    unfold atanR
    rw [abs_of_nonneg v0]
    generalize peval atanA (2 * v - 1) = A at *
    generalize Real.arctan (2 * v - 1) = B at *
    simp only [peval_cons, peval_nil] at hp
    push_cast at hp
    have e : v * (v * (-1.45667498914 * v + 2.18501248371) + 0.842458832225) - (Real.pi / 4 + B) =
      ((1 / 2 + (2 * v - 1) * (1 / 2 + (2 * v - 1) * 0)) * ((1 / 2 + (2 * v - 1) * (1 / 2 + (2 * v - 1) * 0)) *
        (-1.45667498914 * (1 / 2 + (2 * v - 1) * (1 / 2 + (2 * v - 1) * 0)) + (2.18501248371 + (2 * v - 1) * 0)) +
        (0.842458832225 + (2 * v - 1) * 0)) + -1 * (355 / 452 + (2 * v - 1) * 0 + A)) +
      (A - B) + (355 / 452 - Real.pi / 4) := by ring
    rw [e]
    refine (abs_add_three _ _ _).trans ?_
    have hpi : |355 / 452 - Real.pi / 4| ≤ 1e-7 := by
      rw [_root_.abs_le]; norm_num at p1 p2 ⊢; constructor <;> linarith
    rw [abs_sub_comm] at hA
    refine (add_le_add (add_le_add hp hA) hpi).trans ?_
    norm_num
  rcases le_total 0 x with h | h
  · exact main x h
  · have := main (-x) (by linarith)
    rw [abs_neg, Real.arctan_neg] at this
    have e : atanR (-x / (|x| + 1)) = -atanR (x / (|x| + 1)) := by
      unfold atanR; rw [neg_div, abs_neg]; ring
    rw [e] at this
    rw [show atanR (x / (|x| + 1)) - Real.arctan x = -(-atanR (x / (|x| + 1)) - -Real.arctan x) by ring, abs_neg]
    exact this

/-! ## `atan` -/

theorem atan_c2 : Finite (negate (lit 1.45667498914)) ∧ |val (negate (lit 1.45667498914)) - (-1.45667498914)| ≤ 6e-8 := by decide +kernel
theorem atan_c1 : Finite (lit 2.18501248371) ∧ |val (lit 2.18501248371) - 2.18501248371| ≤ 1.2e-7 := by decide +kernel
theorem atan_c0 : Finite (lit 0.842458832225) ∧ |val (lit 0.842458832225) - 0.842458832225| ≤ 3e-8 := by decide +kernel

theorem fltMax_key : rkey (val fltMax + 1) = key fltMax ∧ key fltMax = 2139095039 ∧ Finite fltMax := by decide +kernel

theorem le_fltMax {x : BitVec 32} (hx : Finite x) : |val x| ≤ val fltMax := by
  have h := hx.key_lt
  rw [← absolute_val, val_le_iff, fltMax_key.2.1]
  have h3 : key (absolute x) = mag x := by
    unfold F32.key; rw [(absolute_spec _).1, (absolute_spec _).2]; simp
  rw [key_natAbs] at h
  omega

/-- The denominator. -/
theorem atan_den {x : BitVec 32} (hx : Finite x) : Finite (add (absolute x) (lit 1)) ∧
    |val (add (absolute x) (lit 1)) - (|val x| + 1)| ≤ (|val x| + 1) / 16777216 := by
  have e := add_fin (absolute_finite.2 hx) fin_one
  rw [absolute_val, val_one] at e
  have hk := rkey_mono (show |val x| + 1 ≤ val fltMax + 1 by linarith [le_fltMax hx])
  rw [fltMax_key.1, fltMax_key.2.1] at hk
  have hk0 : 0 ≤ rkey (|val x| + 1) := by
    rw [rkey_nonneg (by positivity)]; positivity
  have f : Finite (add (absolute x) (lit 1)) := by
    apply finite_of_key
    rw [e, key_rnd]; omega
  refine ⟨f, ?_⟩
  rw [e] at f ⊢
  refine (rnd_err f).trans (max_le (le_of_eq ?_) ?_)
  · rw [abs_of_pos (by positivity), show (2 : ℚ) ^ (-24 : ℤ) = 1 / 16777216 by norm_num]; ring
  · have : 0 ≤ |val x| := abs_nonneg _
    rw [le_div_iff₀ (by norm_num)]
    refine le_trans ?_ (show (1 : ℚ) ≤ |val x| + 1 by linarith)
    norm_num

theorem atan_arg {x : BitVec 32} (hx : Finite x) :
    Near (div x (add (absolute x) (lit 1))) ((val x : ℝ) / (|(val x : ℝ)| + 1)) 1.3e-7 := by
  obtain ⟨f, he⟩ := atan_den hx
  generalize add (absolute x) (lit 1) = d at *
  have he' : |(val d : ℝ) - (|(val x : ℝ)| + 1)| ≤ (|(val x : ℝ)| + 1) / 16777216 := by
    have : ((|val d - (|val x| + 1)| : ℚ) : ℝ) ≤ (((|val x| + 1) / 16777216 : ℚ) : ℝ) := by exact_mod_cast he
    push_cast at this; exact this
  have hX := abs_nonneg (val x : ℝ)
  have hd0 : 0 < (val d : ℝ) := by
    rw [_root_.abs_le] at he'; linarith [he'.1]
  have hdq : val d ≠ 0 := by
    intro h; rw [h] at hd0; simp at hd0
  rw [div_fin hx f hdq]
  have hr : |(val x : ℝ) / (|(val x : ℝ)| + 1)| ≤ 1 := by
    rw [abs_div, abs_of_pos (by linarith : 0 < |(val x : ℝ)| + 1), div_le_one (by linarith)]; linarith
  refine rnd_near (e := 6.1e-8) 1.01 ?_ (by norm_num at hr ⊢; linarith) (by norm_num) (by norm_num)
  push_cast
  have e : (val x : ℝ) / val d - val x / (|(val x : ℝ)| + 1) =
      val x / (|(val x : ℝ)| + 1) * (((|(val x : ℝ)| + 1) - val d) / val d) := by
    have : |(val x : ℝ)| + 1 ≠ 0 := by positivity
    field_simp
  rw [e, abs_mul, abs_div ((|(val x : ℝ)| + 1) - val d), abs_sub_comm (|(val x : ℝ)| + 1), abs_of_pos hd0]
  have h2 : |(val d : ℝ) - (|(val x : ℝ)| + 1)| / val d ≤ 6.1e-8 := by
    rw [div_le_iff₀ hd0]
    refine he'.trans ?_
    rw [_root_.abs_le] at he'
    norm_num
    linarith [he'.1]
  have h3 : 0 ≤ |(val d : ℝ) - (|(val x : ℝ)| + 1)| / val d := by positivity
  calc _ ≤ 1 * 6.1e-8 := mul_le_mul hr h2 h3 (by norm_num)
    _ = 6.1e-8 := by norm_num

/-- The polynomial of `ffmath::atan`, `/repo/src/ffmath.cpp` lines 503-505. -/
def atanQ (v : BitVec 32) : BitVec 32 :=
  mul v (add (mul (absolute v) (add (mul (negate (lit 1.45667498914)) (absolute v)) (lit 2.18501248371))) (lit 0.842458832225))

theorem atanQ_near {v : BitVec 32} {r d : ℝ} (h : Near v r d) (hd : d ≤ 1.3e-7) (hr : |r| ≤ 1) :
    Near (mul (negate (lit 1.45667498914)) (absolute v)) (-1.45667498914 * |r|) 4e-7 ∧
    Near (add (mul (negate (lit 1.45667498914)) (absolute v)) (lit 2.18501248371)) (-1.45667498914 * |r| + 2.18501248371) 8e-7 ∧
    Near (mul (absolute v) (add (mul (negate (lit 1.45667498914)) (absolute v)) (lit 2.18501248371)))
      (|r| * (-1.45667498914 * |r| + 2.18501248371)) 1.6e-6 ∧
    Near (add (mul (absolute v) (add (mul (negate (lit 1.45667498914)) (absolute v)) (lit 2.18501248371))) (lit 0.842458832225))
      (|r| * (-1.45667498914 * |r| + 2.18501248371) + 0.842458832225) 2e-6 ∧
    Near (atanQ v) (atanR r) 3e-6 := by
  have n0 := h.mono hd
  have n1 := near_abs n0
  have c2 : Near (negate (lit 1.45667498914)) (-1.45667498914) 6e-8 := near_lit atan_c2 (by norm_num) (by norm_num)
  have c1 : Near (lit 2.18501248371) 2.18501248371 1.2e-7 := near_lit atan_c1 (by norm_num) (by norm_num)
  have c0 : Near (lit 0.842458832225) 0.842458832225 3e-8 := near_lit atan_c0 (by norm_num) (by norm_num)
  have e : atanR r = r * (|r| * (-1.45667498914 * |r| + 2.18501248371) + 0.842458832225) := rfl
  rw [e]
  unfold atanQ
  have h0 := abs_nonneg r
  have hA' : |(|r|)| ≤ 1 := by rw [abs_abs]; exact hr
  generalize hA : |r| = A at *
  have n2 := Near.mul (e' := 4e-7) 1.46 1 2.6e-7 1.5 c2 n1 (by rw [_root_.abs_le]; norm_num) hA' (by norm_num) (by
    rw [abs_mul, abs_of_nonneg h0, abs_of_neg (by norm_num)]; norm_num; linarith) (by norm_num) (by norm_num)
  have b3 : |-1.45667498914 * A + 2.18501248371| ≤ 2.19 := by
    rw [_root_.abs_le]; norm_num; constructor <;> linarith
  have n3 := Near.add (e' := 8e-7) 2.2 n2 c1 (by norm_num at b3 ⊢; linarith) (by norm_num) (by norm_num)
  have b4 : |A * (-1.45667498914 * A + 2.18501248371)| ≤ 0.83 := by
    rw [_root_.abs_le]; norm_num; constructor <;> nlinarith [sq_nonneg (A - 3 / 4)]
  have n4 := Near.mul (e' := 1.6e-6) 1 2.19 1.2e-6 0.84 n1 n3 hA' b3 (by norm_num) (by norm_num at b4 ⊢; linarith) (by norm_num) (by norm_num)
  have b5 : |A * (-1.45667498914 * A + 2.18501248371) + 0.842458832225| ≤ 1.7 := by
    rw [_root_.abs_le] at b4 ⊢; norm_num at b4 ⊢; constructor <;> linarith [b4.1, b4.2]
  have n5 := Near.add (e' := 2e-6) 1.8 n4 c0 (by norm_num at b5 ⊢; linarith) (by norm_num) (by norm_num)
  have n6 := Near.mul (e' := 3e-6) 1 1.7 2.3e-6 1.8 n0 n5 (hA.le.trans hr) b5 (by norm_num) (by
    rw [abs_mul, hA]
    have := mul_le_mul hr b5 (abs_nonneg _) (by norm_num)
    norm_num at this ⊢; linarith) (by norm_num) (by norm_num)
  exact ⟨n2, n3, n4, n5, n6⟩

theorem atan_near {x : BitVec 32} (hx : Finite x) : Near (atan x) (Real.arctan (val x)) 0.00622 := by
  have hX := abs_nonneg (val x : ℝ)
  have hr : |(val x : ℝ) / (|(val x : ℝ)| + 1)| ≤ 1 := by
    rw [abs_div, abs_of_pos (by linarith : 0 < |(val x : ℝ)| + 1), div_le_one (by linarith)]; linarith
  have := (atanQ_near (atan_arg hx) le_rfl hr).2.2.2.2
  exact (this.move (atanR_close _)).mono (by norm_num)

/-- **C90.** `atan` of every finite argument is finite and within 0.00622 of the arc tangent. -/
theorem C90_atan (x : BitVec 32) (hx : Finite x) :
    Finite (atan x) ∧ |(val (atan x) : ℝ) - Real.arctan (val x)| ≤ 0.00622 :=
  ⟨(atan_near hx).fin, (atan_near hx).err⟩

theorem atanQ_val {v : BitVec 32} (hv : Finite v) (h : |val v| ≤ 1) :
    val (atanQ v) = fl (val v * fl (fl (|val v| * fl (fl (val (negate (lit 1.45667498914)) * |val v|) + val (lit 2.18501248371))) +
      val (lit 0.842458832225))) := by
  have hr : |(val v : ℝ)| ≤ 1 := by
    have : ((|val v| : ℚ) : ℝ) ≤ ((1 : ℚ) : ℝ) := by exact_mod_cast h
    push_cast at this; exact this
  obtain ⟨n1, n2, n3, n4, n5⟩ := atanQ_near (Near.self hv) (by norm_num) hr
  unfold atanQ
  rw [mul_fin hv n4.fin, val_rnd, add_fin n3.fin atan_c0.1, val_rnd, mul_fin (absolute_finite.2 hv) n2.fin, val_rnd,
    add_fin n1.fin atan_c1.1, val_rnd, mul_fin atan_c2.1 (absolute_finite.2 hv), val_rnd, absolute_val]

theorem atan_arg_le {x : BitVec 32} (hx : Finite x) : |val (div x (add (absolute x) (lit 1)))| ≤ 1 ∧
    val (div x (add (absolute x) (lit 1))) = fl (val x / val (add (absolute x) (lit 1))) := by
  obtain ⟨f, he⟩ := atan_den hx
  have hd : |val x| ≤ val (add (absolute x) (lit 1)) := by
    rw [add_fin (absolute_finite.2 hx) fin_one, ← absolute_val]
    exact le_rnd (absolute_finite.2 hx) (by rw [val_one]; linarith)
  have hp : 0 < val (add (absolute x) (lit 1)) := by
    have := abs_nonneg (val x)
    rw [_root_.abs_le] at he; linarith [he.1]
  rw [div_fin hx f hp.ne', val_rnd]
  refine ⟨?_, rfl⟩
  rw [fl_abs, abs_div, abs_of_pos hp]
  have := fl_mono (show |val x| / val (add (absolute x) (lit 1)) ≤ 1 by rw [div_le_one hp]; exact hd)
  rwa [fl_consts.2.2.2.1] at this

/-- **C90.** `atan(-x)` is exactly the opposite of `atan(x)`. -/
theorem C90_odd (x : BitVec 32) (hx : Finite x) : val (atan (negate x)) = -val (atan x) := by
  have hx' := finite_negate.2 hx
  obtain ⟨b, e⟩ := atan_arg_le hx
  obtain ⟨b', e'⟩ := atan_arg_le hx'
  have f := (atan_arg hx).fin
  have f' := (atan_arg hx').fin
  rw [absolute_negate] at b' e' f'
  rw [val_negate, neg_div, fl_neg, ← e] at e'
  show val (atanQ (div (negate x) (add (absolute (negate x)) (lit 1)))) = -val (atanQ (div x (add (absolute x) (lit 1))))
  rw [absolute_negate, atanQ_val f b, atanQ_val f' b', e', abs_neg, neg_mul, fl_neg]

/-- **C90, negation.** The limit at infinity is lost: infinity over infinity is a NaN. -/
theorem C90_inf_false : IsNaN (atan inf) ∧ IsInf inf ∧ IsNaN (atan (negate inf)) := by decide +kernel

/-! ## `atan2` -/

theorem abs_arctan_le (z : ℝ) : |Real.arctan z| ≤ |z| := by
  have main : ∀ z : ℝ, 0 ≤ z → Real.arctan z ≤ z := by
    intro z hz
    have := Real.le_tan (Real.arctan_nonneg.2 hz) (Real.arctan_lt_pi_div_two z)
    rwa [Real.tan_arctan] at this
  rcases le_total 0 z with h | h
  · rw [abs_of_nonneg h, abs_of_nonneg (Real.arctan_nonneg.2 h)]; exact main z h
  · rw [abs_of_nonpos h, abs_of_nonpos (Real.arctan_le_zero.2 h), ← Real.arctan_neg]
    exact main (-z) (by linarith)

/-- A small relative change of the argument hardly changes the arc tangent. -/
theorem arctan_rel {a b : ℝ} (h : |a - b| ≤ |b| / 16777216 + 1e-45) : |Real.arctan a - Real.arctan b| ≤ 1.3e-7 := by
  have hb := abs_nonneg b
  rcases le_total |b| 1 with c | c
  · -- both are small
    have hab : a * -b < 1 := by
      have h1 : |a - b| ≤ 1e-7 := by norm_num at h ⊢; linarith
      have h2 := _root_.abs_le.1 h1
      have h3 := _root_.abs_le.1 c
      norm_num at h2
      nlinarith [h2.1, h2.2, h3.1, h3.2, sq_nonneg b]
    have := Real.arctan_add hab
    rw [Real.arctan_neg, ← sub_eq_add_neg, ← sub_eq_add_neg] at this
    rw [this]
    refine (abs_arctan_le _).trans ?_
    have hden : 1 / 2 ≤ 1 - a * -b := by
      have h1 : |a - b| ≤ 1e-7 := by norm_num at h ⊢; linarith
      have h2 := _root_.abs_le.1 h1
      have h3 := _root_.abs_le.1 c
      norm_num at h2
      nlinarith [h2.1, h2.2, h3.1, h3.2, sq_nonneg b]
    rw [abs_div, abs_of_pos (by linarith : 0 < 1 - a * -b), div_le_iff₀ (by linarith)]
    norm_num at h ⊢
    linarith
  · have h2 : |a - b| ≤ |b| / 8000000 := by norm_num at h ⊢; linarith
    have hab : b ^ 2 / 2 ≤ a * b := by
      have h3 : |(a - b) * b| ≤ |b| / 8000000 * |b| := by rw [abs_mul]; exact mul_le_mul_of_nonneg_right h2 hb
      have h4 : |b| / 8000000 * |b| = b ^ 2 / 8000000 := by rw [← sq_abs]; ring
      rw [h4, _root_.abs_le] at h3
      nlinarith [h3.1, sq_nonneg b]
    have hb2 : |b| ≤ b ^ 2 := by rw [← sq_abs]; nlinarith
    have := Real.arctan_add (x := a) (y := -b) (by nlinarith)
    rw [Real.arctan_neg, ← sub_eq_add_neg, ← sub_eq_add_neg] at this
    rw [this]
    refine (abs_arctan_le _).trans ?_
    have hden : |b| / 2 ≤ 1 - a * -b := by nlinarith
    have hdp : 0 < 1 - a * -b := by linarith
    rw [abs_div, abs_of_pos hdp, div_le_iff₀ hdp]
    norm_num at h ⊢
    norm_num at hden
    linarith

theorem atan2_t (y : BitVec 32) (hy : Finite y) :
    sub FFP_PI (if F32.lt y (lit 0) = true then FFP_2PI else lit 0) = (if val y < 0 then negate FFP_PI else FFP_PI) := by
  rw [lt_fin hy fin_zero, val_zero]
  by_cases h : val y < 0
  · simp only [h, decide_true, if_true]; decide +kernel
  · simp only [h, decide_false, if_false, Bool.false_eq_true]; decide +kernel

theorem near_PI : Near FFP_PI Real.pi 8.8e-8 := by
  have hv : Finite FFP_PI ∧ val FFP_PI = 13176795 / 4194304 := by decide +kernel
  refine ⟨hv.1, ?_⟩
  have p1 := Real.pi_gt_d20
  have p2 := Real.pi_lt_d20
  rw [hv.2, _root_.abs_le]
  push_cast
  norm_num at p1 p2 ⊢
  constructor <;> linarith

/-- Adding a zero does not change the value. -/
theorem add_zero_val {a z : BitVec 32} (ha : Finite a) (hz : Finite z) (h0 : val z = 0) :
    Finite (add a z) ∧ val (add a z) = val a := by
  rw [add_fin ha hz, h0, _root_.add_zero]
  exact rnd_exact ha rfl

/-- The quotient of `atan2`. -/
theorem atan2_quot {y x : BitVec 32} (hy : Finite y) (hx : Finite x) (h0 : val x ≠ 0) (h : |val y| ≤ 1e38 * |val x|) :
    Finite (div y x) ∧ |((val (div y x) : ℚ) : ℝ) - (val y : ℝ) / val x| ≤ |(val y : ℝ) / val x| / 16777216 + 1e-45 := by
  have hq : |val y / val x| ≤ 1e38 := by
    rw [abs_div, div_le_iff₀ (abs_pos.2 h0)]; exact h
  rw [div_fin hy hx h0]
  have f := rnd_finite (s := neg y ^^ neg x) (hq.trans (by norm_num))
  refine ⟨f, ?_⟩
  have := rnd_err f
  have h2 : |val (rnd (neg y ^^ neg x) (val y / val x)) - val y / val x| ≤ |val y / val x| / 16777216 + 1e-45 := by
    refine this.trans (max_le ?_ ?_)
    · rw [show (2 : ℚ) ^ (-24 : ℤ) = 1 / 16777216 by norm_num]
      have : (0 : ℚ) ≤ 1e-45 := by norm_num
      linarith
    · have : (2 : ℚ) ^ (-150 : ℤ) ≤ 1e-45 := by norm_num
      have : 0 ≤ |val y / val x| / 16777216 := by positivity
      linarith
  have h3 : ((|val (rnd (neg y ^^ neg x) (val y / val x)) - val y / val x| : ℚ) : ℝ) ≤ ((|val y / val x| / 16777216 + 1e-45 : ℚ) : ℝ) := by
    exact_mod_cast h2
  push_cast at h3
  norm_num at h3 ⊢
  exact h3

/-- The angle in terms of the arc tangent. -/
theorem polar_arctan {X Y r θ : ℝ} (hr : 0 < r) (h1 : -Real.pi < θ) (h2 : θ ≤ Real.pi) (hX : X = r * Real.cos θ)
    (hY : Y = r * Real.sin θ) (h0 : X ≠ 0) :
    θ = Real.arctan (Y / X) + (if X < 0 then (if Y < 0 then -Real.pi else Real.pi) else 0) := by
  have hpi := Real.pi_pos
  have hq : Y / X = Real.tan θ := by
    rw [hX, hY, Real.tan_eq_sin_div_cos, mul_div_mul_left _ _ hr.ne']
  by_cases hx : X < 0
  · rw [if_pos hx]
    have hc : Real.cos θ < 0 := by
      by_contra hc
      have := mul_nonneg hr.le (not_lt.1 hc)
      linarith
    by_cases hy : Y < 0
    · rw [if_pos hy]
      have hs : Real.sin θ < 0 := by
        by_contra hs
        have := mul_nonneg hr.le (not_lt.1 hs)
        linarith
      have ht : θ < -(Real.pi / 2) := by
        by_contra ht
        rcases le_total θ (Real.pi / 2) with c | c
        · have := Real.cos_nonneg_of_mem_Icc ⟨not_lt.1 ht, c⟩
          linarith
        · have := Real.sin_nonneg_of_nonneg_of_le_pi (by linarith : 0 ≤ θ) h2
          linarith
      rw [hq, ← Real.tan_add_pi, Real.arctan_tan (by linarith) (by linarith)]
      ring
    · rw [if_neg hy]
      have hs : 0 ≤ Real.sin θ := by
        by_contra hs
        have := mul_neg_of_pos_of_neg hr (not_le.1 hs)
        linarith
      have ht : Real.pi / 2 < θ := by
        by_contra ht
        rcases le_total (-(Real.pi / 2)) θ with c | c
        · have := Real.cos_nonneg_of_mem_Icc ⟨c, not_lt.1 ht⟩
          linarith
        · have := Real.sin_neg_of_neg_of_neg_pi_lt (by linarith : θ < 0) h1
          linarith
      rw [hq, ← Real.tan_sub_pi, Real.arctan_tan (by linarith) (by linarith)]
      ring
  · rw [if_neg hx, _root_.add_zero, hq]
    have hc : 0 < Real.cos θ := by
      by_contra hc
      have := mul_nonpos_of_nonneg_of_nonpos hr.le (not_lt.1 hc)
      exact h0 (by linarith)
    have t1 : -(Real.pi / 2) < θ := by
      by_contra ht
      have := Real.cos_nonpos_of_pi_div_two_le_of_le (x := -θ) (by linarith) (by linarith)
      rw [Real.cos_neg] at this
      linarith
    have t2 : θ < Real.pi / 2 := by
      by_contra ht
      have := Real.cos_nonpos_of_pi_div_two_le_of_le (x := θ) (by linarith) (by linarith)
      linarith
    rw [Real.arctan_tan t1 t2]

/-- **C90 (partial).** `atan2(y, x)` is within 0.00624 of the polar angle of the point `(x, y)` in all four
quadrants and on the axes with `x ≠ 0`. Missing: `|x| ≤ FLT_MIN` and quotients beyond 1e38, where the claim is
false (`C90_atan2_false`) except near the vertical axis (`C90_atan2_axis_partial`). -/
theorem C90_atan2_partial (y x : BitVec 32) (hy : Finite y) (hx : Finite x) (h : 2 ^ (-126 : ℤ) < |val x|)
    (hq : |val y| ≤ 1e38 * |val x|) (r θ : ℝ) (hr : 0 < r) (h1 : -Real.pi < θ) (h2 : θ ≤ Real.pi)
    (hX : (val x : ℝ) = r * Real.cos θ) (hY : (val y : ℝ) = r * Real.sin θ) :
    Finite (atan2 y x) ∧ |(val (atan2 y x) : ℝ) - θ| ≤ 0.00624 := by
  have h0 : val x ≠ 0 := by
    intro h0; rw [h0, abs_zero] at h; exact absurd h (not_lt.2 (two_zpow_pos _).le)
  have h0r : (val x : ℝ) ≠ 0 := by exact_mod_cast h0
  have hθ := polar_arctan hr h1 h2 hX hY h0r
  unfold atan2
  dsimp only
  rw [atan2_t y hy]
  have hf : (if F32.le (absolute x) fltMin = true then lit 1 else lit 0) = lit 0 := by
    rw [if_neg]
    rw [le_fin (absolute_finite.2 hx) fin_fltMin, absolute_val, val_fltMin]
    simpa using h
  rw [hf]
  obtain ⟨w1, w2⟩ := add_zero_val hx fin_zero val_zero
  generalize add x (lit 0) = w at *
  obtain ⟨q1, q2⟩ := atan2_quot hy w1 (by rw [w2]; exact h0) (by rw [w2]; exact hq)
  rw [w2] at q2
  have n1 := atan_near q1
  have n2 := (n1.move (arctan_rel q2)).mono (show (0.00622 : ℝ) + 1.3e-7 ≤ 0.0062202 by norm_num)
  generalize atan (div y w) = A at *
  -- the turn
  have a1 := Real.arctan_lt_pi_div_two ((val y : ℝ) / val x)
  have a2 := Real.neg_pi_div_two_lt_arctan ((val y : ℝ) / val x)
  have p1 := Real.pi_gt_d20
  have p2 := Real.pi_lt_d20
  have hlt : F32.lt x (lit 0) = decide (val x < 0) := by rw [lt_fin hx fin_zero, val_zero]
  have hxc : (val x : ℝ) < 0 ↔ val x < 0 := by exact_mod_cast Iff.rfl
  have hyc : (val y : ℝ) < 0 ↔ val y < 0 := by exact_mod_cast Iff.rfl
  have hbb : ∀ T : ℝ, |T| ≤ 3.2 → |Real.arctan ((val y : ℝ) / val x) + T| ≤ 4.8 := by
    intro T hT
    rw [_root_.abs_le] at hT ⊢
    norm_num at hT p1 p2 ⊢
    constructor <;> linarith [hT.1, hT.2]
  have hpi32 : |Real.pi| ≤ 3.2 := by rw [abs_of_pos Real.pi_pos]; norm_num at p2 ⊢; linarith
  have n3 : Near (add A (if F32.lt x (lit 0) = true then (if val y < 0 then negate FFP_PI else FFP_PI) else lit 0)) θ 0.0062208 := by
    rw [hθ]
    simp only [hlt, hxc, hyc, decide_eq_true_eq]
    by_cases cx : val x < 0
    · simp only [cx, if_true]
      by_cases cy : val y < 0
      · simp only [cy, if_true]
        have b := hbb (-Real.pi) (by rw [abs_neg]; exact hpi32)
        exact Near.add 4.9 n2 near_PI.negate (by norm_num at b ⊢; linarith) (by norm_num) (by norm_num)
      · simp only [cy, if_false]
        have b := hbb Real.pi hpi32
        exact Near.add 4.9 n2 near_PI (by norm_num at b ⊢; linarith) (by norm_num) (by norm_num)
    · simp only [cx, if_false]
      obtain ⟨z1, z2⟩ := add_zero_val n2.fin fin_zero val_zero
      rw [_root_.add_zero]
      exact ⟨z1, by rw [z2]; exact n2.err.trans (by norm_num)⟩
  have hθb : |θ| ≤ 3.2 := by
    rw [_root_.abs_le]; norm_num at p2 ⊢; constructor <;> linarith
  generalize add A (if F32.lt x (lit 0) = true then (if val y < 0 then negate FFP_PI else FFP_PI) else lit 0) = B at *
  have n4 : Finite (sub (mul (lit 0.5) (if val y < 0 then negate FFP_PI else FFP_PI)) B) := by
    have hh : ∃ c : ℝ, |c| ≤ 1.6 ∧ Near (mul (lit 0.5) (if val y < 0 then negate FFP_PI else FFP_PI)) c 0.1 := by
      have hv : (Finite (mul (lit 0.5) FFP_PI) ∧ val (mul (lit 0.5) FFP_PI) = 13176795 / 8388608) ∧
        (Finite (mul (lit 0.5) (negate FFP_PI)) ∧ val (mul (lit 0.5) (negate FFP_PI)) = -(13176795 / 8388608)) := by decide +kernel
      split
      · refine ⟨-(13176795 / 8388608), by norm_num, hv.2.1, ?_⟩
        rw [hv.2.2]; norm_num
      · refine ⟨13176795 / 8388608, by norm_num, hv.1.1, ?_⟩
        rw [hv.1.2]; norm_num
    obtain ⟨c, hc, nc⟩ := hh
    refine (Near.sub (e' := 1) 6 nc n3 ?_ (by norm_num) (by norm_num)).fin
    have := abs_sub c θ
    norm_num at *
    linarith
  generalize sub (mul (lit 0.5) (if val y < 0 then negate FFP_PI else FFP_PI)) B = D at *
  have n5 : Finite (mul (lit 0) D) ∧ val (mul (lit 0) D) = 0 := by
    rw [mul_fin fin_zero n4, val_zero, zero_mul]
    have := rnd_exact (s := neg (lit 0) ^^ neg D) (q := 0) fin_zero val_zero.symm
    exact this
  obtain ⟨z1, z2⟩ := add_zero_val n3.fin n5.1 n5.2
  exact ⟨z1, by rw [z2]; exact n3.err.trans (by norm_num)⟩

/-- **C90 (partial).** Close to the vertical axis the answer is a quarter turn. -/
theorem C90_atan2_axis_partial (y x : BitVec 32) (hy : Finite y) (hx : Finite x) (h : |val x| ≤ 2 ^ (-126 : ℤ)) :
    Finite (atan2 y x) ∧ |(val (atan2 y x) : ℝ) - (if val y < 0 then -(Real.pi / 2) else Real.pi / 2)| ≤ 1e-6 := by
  unfold atan2
  dsimp only
  rw [atan2_t y hy]
  have hf : (if F32.le (absolute x) fltMin = true then lit 1 else lit 0) = lit 1 := by
    rw [if_pos]
    rw [le_fin (absolute_finite.2 hx) fin_fltMin, absolute_val, val_fltMin]
    simpa using h
  rw [hf]
  have w : add x (lit 1) = lit 1 := by
    rw [add_fin hx fin_one, val_one]
    have hk : rkey (1 - 2 ^ (-126 : ℤ)) = key (lit 1) ∧ rkey (1 + 2 ^ (-126 : ℤ)) = key (lit 1) ∧ 0 < key (lit 1) := by decide +kernel
    rw [_root_.abs_le] at h
    have k1 := rkey_mono (show 1 - 2 ^ (-126 : ℤ) ≤ val x + 1 by linarith)
    have k2 := rkey_mono (show val x + 1 ≤ 1 + 2 ^ (-126 : ℤ) by linarith)
    rw [hk.1] at k1
    rw [hk.2.1] at k2
    apply eq_of_val_pos _ hk.2.2
    rw [val_kval (rnd _ _), val_kval (lit 1), key_rnd, le_antisymm k2 k1]
  rw [w]
  have hd : Finite (div y (lit 1)) := by
    rw [div_fin hy fin_one (by rw [val_one]; norm_num), val_one, div_one]
    exact (rnd_exact hy rfl).1
  have n1 := atan_near hd
  have a1 := Real.arctan_lt_pi_div_two (val (div y (lit 1)) : ℝ)
  have a2 := Real.neg_pi_div_two_lt_arctan (val (div y (lit 1)) : ℝ)
  have p1 := Real.pi_gt_d20
  have p2 := Real.pi_lt_d20
  have hA : |(val (atan (div y (lit 1))) : ℝ)| ≤ 1.6 := by
    have := n1.abs_le
    have : |Real.arctan (val (div y (lit 1)) : ℝ)| ≤ 1.58 := by
      rw [_root_.abs_le]; norm_num at p2 ⊢; constructor <;> linarith
    generalize |Real.arctan (val (div y (lit 1)) : ℝ)| = u at *
    norm_num at *; linarith
  have fA := n1.fin
  generalize atan (div y (lit 1)) = A at *
  obtain ⟨T, hT, nT, hv⟩ : ∃ T : ℚ, |(T : ℝ)| ≤ 3.2 ∧ (Finite (if val y < 0 then negate FFP_PI else FFP_PI) ∧
      val (if val y < 0 then negate FFP_PI else FFP_PI) = T) ∧
      Near (mul (lit 0.5) (if val y < 0 then negate FFP_PI else FFP_PI)) (if val y < 0 then -(Real.pi / 2) else Real.pi / 2) 4.4e-8 := by
    have hv : (Finite FFP_PI ∧ val FFP_PI = 13176795 / 4194304) ∧ (Finite (negate FFP_PI) ∧ val (negate FFP_PI) = -(13176795 / 4194304)) ∧
      mul (lit 0.5) FFP_PI = FFP_PI_2 ∧ mul (lit 0.5) (negate FFP_PI) = negate FFP_PI_2 := by decide +kernel
    by_cases c : val y < 0
    · simp only [c, if_true]
      refine ⟨-(13176795 / 4194304), by norm_num [_root_.abs_le], hv.2.1, ?_⟩
      rw [hv.2.2.2]; exact near_PI2.negate
    · simp only [c, if_false]
      refine ⟨13176795 / 4194304, by norm_num [_root_.abs_le], hv.1, ?_⟩
      rw [hv.2.2.1]; exact near_PI2
  have hHb : |(if val y < 0 then -(Real.pi / 2) else Real.pi / 2)| ≤ 1.58 := by
    split
    · rw [abs_neg, abs_of_pos (by positivity)]; norm_num at p2 ⊢; linarith
    · rw [abs_of_pos (by positivity)]; norm_num at p2 ⊢; linarith
  generalize (if val y < 0 then -(Real.pi / 2) else Real.pi / 2) = H at *
  generalize mul (lit 0.5) (if val y < 0 then negate FFP_PI else FFP_PI) = HF at *
  generalize (if val y < 0 then negate FFP_PI else FFP_PI) = t at *
  have hB : ∃ B : BitVec 32, add A (if F32.lt x (lit 0) = true then t else lit 0) = B ∧ Finite B ∧ |(val B : ℝ)| ≤ 4.9 := by
    refine ⟨_, rfl, ?_⟩
    by_cases c : F32.lt x (lit 0) = true
    · rw [if_pos c]
      have nt : Near t (T : ℝ) 0 := ⟨nT.1, by rw [nT.2]; simp⟩
      have hs := abs_add_le (val A : ℝ) (T : ℝ)
      have n := Near.add (e' := 0.01) 4.85 (Near.self fA) nt (by norm_num at *; linarith) (by norm_num) (by norm_num)
      refine ⟨n.fin, n.abs_le.trans ?_⟩
      norm_num at *
      linarith
    · rw [if_neg c]
      obtain ⟨z1, z2⟩ := add_zero_val fA fin_zero val_zero
      refine ⟨z1, ?_⟩
      rw [z2]; norm_num at hA ⊢; linarith
  obtain ⟨B, hBe, fB, bB⟩ := hB
  rw [hBe]
  have hs := abs_sub H (val B : ℝ)
  have n3 := Near.sub (e' := 4.4e-7) 6.5 hv (Near.self fB) (by norm_num at *; linarith) (by norm_num) (by norm_num)
  have n4 := Near.mul (e' := 8.3e-7) 1 6.49 4.4e-7 6.5 (near_lit exp2_c6 (by norm_num) (by norm_num) : Near (lit 1) 1 0) n3
    (by norm_num) (by norm_num at *; linarith) (by norm_num) (by rw [_root_.one_mul]; norm_num at *; linarith) (by norm_num) (by norm_num)
  have n5 := Near.add (e' := 1e-6) 1.6 (Near.self fB) n4 (by
    rw [show (val B : ℝ) + 1 * (H - val B) = H by ring]; norm_num at *; linarith) (by norm_num) (by norm_num)
  rw [show (val B : ℝ) + 1 * (H - val B) = H by ring] at n5
  exact ⟨n5.fin, n5.err⟩

/-- **C90, negation.** The origin and points of the positive horizontal axis with an abscissa up to `FLT_MIN` get a quarter
turn instead of zero, and a quotient that overflows gives a NaN instead of a quarter turn. -/
theorem C90_atan2_false : val (atan2 (lit 0) (lit 0)) = val FFP_PI_2 ∧ val (atan2 (lit 0) fltMin) = val FFP_PI_2 ∧
    IsNaN (atan2 (lit 1e30) (lit 1e-30)) := by decide +kernel

/-- Cases of the theorems above. -/
example : Finite (negate (lit 3)) ∧ 2 ^ (-126 : ℤ) < |val (negate (lit 3))| ∧ |val (lit 4)| ≤ 1e38 * |val (negate (lit 3))| ∧
    |val (lit 0)| ≤ 2 ^ (-126 : ℤ) := by decide +kernel

example : ∃ r θ : ℝ, 0 < r ∧ -Real.pi < θ ∧ θ ≤ Real.pi ∧ (val (negate (lit 3)) : ℝ) = r * Real.cos θ ∧
    (val (lit 0) : ℝ) = r * Real.sin θ := by
  have h : val (negate (lit 3)) = -3 := by decide +kernel
  refine ⟨3, Real.pi, by norm_num, by linarith [Real.pi_pos], le_rfl, ?_, ?_⟩
  · rw [h]; simp
  · rw [val_zero]; simp

end Verif.Ffmath
