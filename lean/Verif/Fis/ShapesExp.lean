import Verif.Fis.ShapesFloat

/-!
# Exponential membership functions in binary32 (C154)
-/

namespace Verif.Ffmath

open Verif F32

/-- The part of the polynomial of `exp2` that multiplies the fraction (not a definition of the repository). -/
def exp2Q (fp : BitVec 32) : BitVec 32 :=
  let x := lit 1.535336188319500e-4
  let x := add (mul x fp) (lit 1.339887440266574e-3)
  let x := add (mul x fp) (lit 9.618437357674640e-3)
  let x := add (mul x fp) (lit 5.550332471162809e-2)
  let x := add (mul x fp) (lit 2.402264791363012e-1)
  add (mul x fp) (lit 6.931472028550421e-1)

theorem exp2Q_pos {fp : BitVec 32} {f : ℝ} (h : Near fp f 3.1e-8) (hf : |f| ≤ 0.50001) :
    F32.Finite (exp2Q fp) ∧ 0 ≤ val (exp2Q fp) ∧ val (exp2Q fp) ≤ 1 := by
  have n0 : Near _ (1.535336188319500e-4 : ℝ) 1e-12 := near_lit exp2_c0 (by norm_num) (by norm_num)
  have n1 : Near _ (1.339887440266574e-3 : ℝ) 6e-11 := near_lit exp2_c1 (by norm_num) (by norm_num)
  have n2 : Near _ (9.618437357674640e-3 : ℝ) 4.5e-10 := near_lit exp2_c2 (by norm_num) (by norm_num)
  have n3 : Near _ (5.550332471162809e-2 : ℝ) 1.1e-9 := near_lit exp2_c3 (by norm_num) (by norm_num)
  have n4 : Near _ (2.402264791363012e-1 : ℝ) 1.8e-9 := near_lit exp2_c4 (by norm_num) (by norm_num)
  have n5 : Near _ (6.931472028550421e-1 : ℝ) 2.1e-8 := near_lit exp2_c5 (by norm_num) (by norm_num)
  obtain ⟨a1, b1⟩ := horner' (e' := 1.55e-10) (P' := 1.4171e-3) 1.54e-4 0.50001 1.34e-3 5.3e-12 9.9e-12 n0 h n1 (by norm_num) hf (by norm_num) (by norm_num) (by norm_num) (by norm_num) (by norm_num) (by norm_num)
  obtain ⟨a2, b2⟩ := horner' (e' := 1.24e-9) (P' := 1.0329e-2) 1.42e-3 0.50001 9.6185e-3 1.25e-10 1.7e-10 a1 h n2 (b1.trans (by norm_num)) hf (by norm_num) (by norm_num) (by norm_num) (by norm_num) (by norm_num) (by norm_num)
  obtain ⟨a3, b3⟩ := horner' (e' := 6.0e-9) (P' := 6.067e-2) 1.033e-2 0.50001 5.5504e-2 9.5e-10 1.26e-9 a2 h n3 (b2.trans (by norm_num)) hf (by norm_num) (by norm_num) (by norm_num) (by norm_num) (by norm_num) (by norm_num)
  obtain ⟨a4, b4⟩ := horner' (e' := 2.48e-8) (P' := 0.2706) 6.067e-2 0.50001 0.24023 4.9e-9 6.8e-9 a3 h n4 (b3.trans (by norm_num)) hf (by norm_num) (by norm_num) (by norm_num) (by norm_num) (by norm_num) (by norm_num)
  obtain ⟨a5, b5⟩ := horner' (e' := 1.0e-7) (P' := 0.82848) 0.2706 0.50001 0.69315 2.1e-8 2.92e-8 a4 h n5 (b4.trans (by norm_num)) hf (by norm_num) (by norm_num) (by norm_num) (by norm_num) (by norm_num) (by norm_num)
  replace a5 : Near (exp2Q fp) _ 1.0e-7 := a5
  have e := _root_.abs_le.1 a5.err
  have h7 := mul_le_mul b4 hf (abs_nonneg _) (by norm_num)
  rw [← abs_mul] at h7
  have h8 := (_root_.abs_le.1 h7).1
  have h9 := (_root_.abs_le.1 b5).2
  have ff := a5.fin
  clear a1 a2 a3 a4 a5 n0 n1 n2 n3 n4 n5 b1 b2 b3 b4 b5 h7
  generalize exp2Q fp = Z at *
  generalize ((((1535336188319500e-19 * f + 1339887440266574e-18) * f + 9618437357674640e-18) * f + 5550332471162809e-17) * f +
    0.2402264791363012) * f = A at *
  have k0 : (0 : ℝ) ≤ val Z := by norm_num at e h8; linarith
  have k1 : (val Z : ℝ) ≤ 1 := by norm_num at e h9; linarith
  exact ⟨ff, by exact_mod_cast k0, by exact_mod_cast k1⟩

/-- `exp2` of a nonpositive number is at most one. -/
theorem exp2_le_one {x : BitVec 32} (hx : F32.Finite x) (h1 : -126 < val x) (h2 : val x ≤ 0) :
    ∃ r, exp2 x = .ok r ∧ F32.Finite r ∧ 0 ≤ val r ∧ val r ≤ 1 := by
  obtain ⟨r, hr, fr, er⟩ := C79_accuracy_partial x hx h1 (by linarith)
  have pw : (0 : ℝ) < (2 : ℝ) ^ (val x : ℝ) := by positivity
  have r0 : 0 ≤ val r := by
    have : (0 : ℝ) ≤ val r := by
      have := (_root_.abs_le.1 er).1
      norm_num at this; linarith
    exact_mod_cast this
  refine ⟨r, hr, fr, r0, ?_⟩
  obtain ⟨ip, n, h3, h4, h5, h6, h7, h8, h9⟩ := exp2_split hx h1 (by linarith)
  have eq := exp2_eq hx h1 (by linarith) h3 h4 h5 h6 h7
  rw [hr] at eq
  injection eq with eq
  have n0 : n ≤ 0 := by
    have : val (add x (lit 0.5)) ≤ val (lit 0.5) := by
      rw [add_fin hx lit_half_val.1]
      exact rnd_le lit_half_val.1 (by linarith)
    rw [lit_half_val.2] at this
    have : n < 1 := by rw [h9, Int.floor_lt]; push_cast; linarith
    omega
  rcases lt_or_eq_of_le n0 with hn | hn
  · have e1 : (2 : ℝ) ^ (val x : ℝ) ≤ 0.75 := by
      have hx2 : (val x : ℝ) ≤ -0.49999 := by
        have hn' : (n : ℚ) ≤ -1 := by exact_mod_cast (by omega : n ≤ -1)
        have := (_root_.abs_le.1 h8).2
        have h : val x ≤ -0.49999 := by linarith
        have : ((val x : ℚ) : ℝ) ≤ ((-0.49999 : ℚ) : ℝ) := by exact_mod_cast h
        push_cast at this; norm_num at this ⊢; exact this
      rw [Real.rpow_def_of_pos (by norm_num)]
      have hl := Real.log_two_gt_d9
      have : Real.log 2 * (val x : ℝ) ≤ -0.3465 := by
        have : Real.log 2 * (val x : ℝ) ≤ Real.log 2 * (-0.49999) := mul_le_mul_of_nonneg_left hx2 (by norm_num at hl; linarith)
        norm_num at hl this ⊢; linarith
      refine (Real.exp_le_exp.2 this).trans ?_
      rw [Real.exp_neg, inv_le_comm₀ (Real.exp_pos _) (by norm_num)]
      have := Real.add_one_le_exp (0.3465 : ℝ)
      norm_num at this ⊢; linarith
    have : (val r : ℝ) ≤ 1 := by
      have := (_root_.abs_le.1 er).2
      norm_num at this e1 ⊢; linarith
    exact_mod_cast this
  · subst hn
    have vi : val ip = 0 := by rw [h5]; norm_num
    have fs : F32.Finite (sub x ip) ∧ val (sub x ip) = val x := sub_exact hx h4 hx (by rw [vi]; ring)
    have c1 : BitVec.ofInt 32 ((0 + 127) * 8388608) = lit 1 := by decide +kernel
    rw [c1] at eq
    have hb : |(val x : ℝ)| ≤ 0.50001 := by
      have : ((|val x - (0 : ℤ)| : ℚ) : ℝ) ≤ ((0.50001 : ℚ) : ℝ) := by exact_mod_cast h8
      push_cast at this; norm_num at this ⊢; exact this
    have nf : Near (sub x ip) (val x : ℝ) 3.1e-8 := ⟨fs.1, by rw [fs.2]; norm_num⟩
    obtain ⟨fq, q0, q1⟩ := exp2Q_pos nf hb
    have np := exp2P_near nf hb
    have ep : exp2P (sub x ip) = add (mul (exp2Q (sub x ip)) (sub x ip)) (lit 1) := rfl
    have le : val (exp2P (sub x ip)) ≤ 1 := by
      have hm : F32.Finite (mul (exp2Q (sub x ip)) (sub x ip)) ∧ val (mul (exp2Q (sub x ip)) (sub x ip)) ≤ 0 := by
        have zf : F32.Finite 0#32 ∧ val 0#32 = 0 := by decide +kernel
        have p0 : val (exp2Q (sub x ip)) * val x ≤ 0 := mul_nonpos_of_nonneg_of_nonpos q0 h2
        have p1 : |val (exp2Q (sub x ip)) * val x| ≤ 3.4e38 := by
          have hx1 : |val x| ≤ 0.50001 := by simpa using h8
          rw [abs_mul, abs_of_nonneg q0]
          exact (mul_le_mul q1 hx1 (abs_nonneg _) (by norm_num)).trans (by norm_num)
        rw [mul_fin fq fs.1, fs.2]
        refine ⟨rnd_fin_max p1, ?_⟩
        have := rnd_le (s := (neg (exp2Q (sub x ip)) ^^ neg (sub x ip))) zf.1 (p0.trans zf.2.ge)
        rw [zf.2] at this; exact this
      rw [ep, add_fin hm.1 fin_one, val_one]
      exact rnd_le_one (by linarith [hm.2])
    rw [eq, mul_fin np.fin fin_one, val_one, mul_one]
    exact rnd_le_one le

theorem exp_m87 : Real.exp (-87.3) ≤ 1e-37 := by
  rw [Real.exp_neg, inv_le_comm₀ (Real.exp_pos _) (by norm_num)]
  have h : Real.exp 1 ^ 87 ≤ Real.exp 87.3 := by
    rw [← Real.exp_nat_mul]; exact Real.exp_le_exp.2 (by norm_num)
  refine le_trans ?_ h
  have := pow_le_pow_left₀ (by norm_num) Real.exp_one_gt_d9.le 87
  refine le_trans ?_ this
  norm_num

/-- `exp` of any nonpositive number. -/
theorem exp_nonpos {x : BitVec 32} (hx : F32.Finite x) (h : val x ≤ 0) :
    ∃ r, exp x = .ok r ∧ F32.Finite r ∧ 0 ≤ val r ∧ val r ≤ 1 ∧
      |(val r : ℝ) - Real.exp (val x)| ≤ 3.6e-7 * Real.exp (val x) + 7.4e-8 * (|(val x : ℝ)| * Real.exp (val x)) + 2e-37 := by
  have pos := Real.exp_pos (val x : ℝ)
  have xp : 0 ≤ |(val x : ℝ)| * Real.exp (val x) := by positivity
  have zf : F32.Finite (lit 0) ∧ val (lit 0) = 0 := by decide +kernel
  have small : val x ≤ -87.3 → Real.exp (val x : ℝ) ≤ 1e-37 := by
    intro hs
    have : (val x : ℝ) ≤ -87.3 := by
      have : ((val x : ℚ) : ℝ) ≤ ((-87.3 : ℚ) : ℝ) := by exact_mod_cast hs
      push_cast at this; norm_num at this ⊢; exact this
    exact (Real.exp_le_exp.2 this).trans exp_m87
  have zero : val x ≤ -87.3 → exp x = .ok (lit 0) →
      ∃ r, exp x = .ok r ∧ F32.Finite r ∧ 0 ≤ val r ∧ val r ≤ 1 ∧
      |(val r : ℝ) - Real.exp (val x)| ≤ 3.6e-7 * Real.exp (val x) + 7.4e-8 * (|(val x : ℝ)| * Real.exp (val x)) + 2e-37 := by
    intro hs he
    refine ⟨_, he, zf.1, zf.2.ge, by rw [zf.2]; norm_num, ?_⟩
    have := small hs
    rw [zf.2]; push_cast
    rw [zero_sub, abs_neg, abs_of_pos pos]
    norm_num at this ⊢; linarith
  have c : F32.Finite (lit (-87.4)) ∧ val (lit (-87.4)) ≤ -87.39 ∧ -87.41 ≤ val (lit (-87.4)) := by decide +kernel
  by_cases k : val x ≤ val (lit (-87.4))
  · exact zero (by linarith [c.2.1]) ((C80_limits x).1 (by rw [le_fin hx c.1]; exact decide_eq_true k))
  · rw [not_le] at k
    have hab : |val x| ≤ 87.41 := by rw [_root_.abs_le]; constructor <;> linarith [c.2.2]
    obtain ⟨fy, ey⟩ := exp_arg hx (hab.trans (by norm_num))
    have e100 : 8.6e-8 * |val x| + 1e-45 ≤ 8e-6 := by norm_num at hab ⊢; linarith
    have ey' := _root_.abs_le.1 (ey.trans e100)
    by_cases k2 : val (mul FFP_LOG2E x) ≤ -126
    · refine zero ?_ ?_
      · norm_num at ey' ⊢; linarith
      · unfold exp
        apply (C79_limits _).1
        rw [le_fin fy lit_m126.1, lit_m126.2]; exact decide_eq_true k2
    · rw [not_le] at k2
      have y0 : val (mul FFP_LOG2E x) ≤ 0 := by
        rw [mul_fin log2e_val.1 hx, log2e_val.2]
        have := rnd_le (s := (neg FFP_LOG2E ^^ neg x)) (q := 12102203 / 8388608 * val x) zf.1 (by rw [zf.2]; linarith)
        rwa [zf.2] at this
      obtain ⟨r, hr, fr, r0, r1⟩ := exp2_le_one fy k2 y0
      have he : exp x = .ok r := hr
      by_cases k3 : -87.3 ≤ val x
      · obtain ⟨r', hr', -, er⟩ := C80_accuracy_partial x hx k3 (by linarith)
        rw [he] at hr'; injection hr' with hr'
        subst hr'
        refine ⟨r, he, fr, r0, r1, er.trans ?_⟩
        rw [add_mul, mul_assoc]
        norm_num
      · rw [not_le] at k3
        refine ⟨r, he, fr, r0, r1, ?_⟩
        have sm := small k3.le
        obtain ⟨r', hr', -, er⟩ := C79_accuracy_partial _ fy k2 (by linarith)
        rw [hr] at hr'; injection hr' with hr'
        subst hr'
        have y1 : val (mul FFP_LOG2E x) ≤ -125 := by norm_num at ey' k3 ⊢; linarith
        have y1' : (val (mul FFP_LOG2E x) : ℝ) ≤ ((-125 : ℤ) : ℝ) := by
          have : ((val (mul FFP_LOG2E x) : ℚ) : ℝ) ≤ ((-125 : ℚ) : ℝ) := by exact_mod_cast y1
          push_cast at this ⊢; exact this
        have p1 : (2 : ℝ) ^ (val (mul FFP_LOG2E x) : ℝ) ≤ 3e-38 := by
          refine (Real.rpow_le_rpow_of_exponent_le (by norm_num) y1').trans ?_
          rw [Real.rpow_intCast]; norm_num
        have b := (_root_.abs_le.1 er).2
        have r0' : (0 : ℝ) ≤ val r := by exact_mod_cast r0
        generalize (2 : ℝ) ^ (val (mul FFP_LOG2E x) : ℝ) = P at *
        rw [_root_.abs_le]
        norm_num at b p1 sm ⊢
        constructor <;> linarith

theorem x_exp_le {x : ℝ} (h : x ≤ 0) : |x| * Real.exp x ≤ 1 := by
  rw [abs_of_nonpos h]
  have h1 := Real.add_one_le_exp (-x)
  have h2 : Real.exp (-x) * Real.exp x = 1 := by rw [← Real.exp_add]; simp
  have := mul_le_mul_of_nonneg_right (show -x ≤ Real.exp (-x) by linarith) (Real.exp_pos x).le
  linarith

theorem exp_lip (a b : ℝ) : Real.exp b - Real.exp a ≤ (b - a) * Real.exp b := by
  have h1 := Real.add_one_le_exp (a - b)
  have h2 : Real.exp a = Real.exp (a - b) * Real.exp b := by rw [← Real.exp_add]; congr 1; ring
  have := mul_le_mul_of_nonneg_right h1 (Real.exp_pos b).le
  rw [h2]; linarith

/-- `exp` of a computed nonpositive number against the exponential of the exact one. -/
theorem exp_decay {x : BitVec 32} {u : ℝ} (hx : F32.Finite x) (h : val x ≤ 0) (hu : u ≤ 0)
    (hd : |(val x : ℝ) - u| ≤ 5e-7 * |u| + 1e-10) :
    ∃ r, exp x = .ok r ∧ F32.Finite r ∧ 0 ≤ val r ∧ val r ≤ 1 ∧ |(val r : ℝ) - Real.exp u| ≤ 1e-6 := by
  obtain ⟨r, he, fr, r0, r1, er⟩ := exp_nonpos hx h
  refine ⟨r, he, fr, r0, r1, ?_⟩
  have h' : (val x : ℝ) ≤ 0 := by exact_mod_cast h
  have a1 := x_exp_le h'
  have a2 := x_exp_le hu
  have b1 : Real.exp (val x : ℝ) ≤ 1 := Real.exp_le_one_iff.2 h'
  have b2 : Real.exp u ≤ 1 := Real.exp_le_one_iff.2 hu
  have p1 := Real.exp_pos (val x : ℝ)
  have p2 := Real.exp_pos u
  have d : |Real.exp (val x : ℝ) - Real.exp u| ≤ 5.1e-7 := by
    rcases le_total (val x : ℝ) u with k | k
    · rw [abs_sub_comm, abs_of_nonneg (by linarith [Real.exp_le_exp.2 k])]
      refine (exp_lip _ _).trans ?_
      have e1 : u - (val x : ℝ) ≤ 5e-7 * |u| + 1e-10 := by
        have := neg_le_abs ((val x : ℝ) - u); linarith
      have := mul_le_mul_of_nonneg_right e1 p2.le
      have e2 : (5e-7 * |u| + 1e-10) * Real.exp u = 5e-7 * (|u| * Real.exp u) + 1e-10 * Real.exp u := by ring
      rw [e2] at this
      norm_num at this ⊢; linarith
    · rw [abs_of_nonneg (by linarith [Real.exp_le_exp.2 k])]
      refine (exp_lip _ _).trans ?_
      have e1 : (val x : ℝ) - u ≤ 5.001e-7 * |(val x : ℝ)| + 2e-10 := by
        have t1 := le_abs_self ((val x : ℝ) - u)
        have t2 : |u| ≤ |(val x : ℝ)| + ((val x : ℝ) - u) := by
          rw [abs_of_nonpos hu, abs_of_nonpos h']; linarith
        norm_num at hd ⊢; linarith
      have := mul_le_mul_of_nonneg_right e1 p1.le
      have e2 : (5.001e-7 * |(val x : ℝ)| + 2e-10) * Real.exp (val x) =
        5.001e-7 * (|(val x : ℝ)| * Real.exp (val x)) + 2e-10 * Real.exp (val x) := by ring
      rw [e2] at this
      norm_num at this ⊢; linarith
  have t := abs_sub_le (val r : ℝ) (Real.exp (val x)) (Real.exp u)
  norm_num at er d ⊢
  linarith

end Verif.Ffmath

namespace Verif.Fis

open Arith F32

/-- The membership functions call `ffmath::exp`, `ffmath::cos` and `ffmath::pow` (models in `Ffmath/FloatModel.lean`),
`/repo/src/fisCore.cpp` lines 56, 71, 100, 387, 461. By `C80_defined` the first is free of undefined behaviour for every argument
that is not a NaN, and the theorems below show the calls they need to be defined; the other functions are not called. Not a
definition of the repository. -/
@[reducible] def expTrans : Trans (BitVec 32) where
  exp := fun x => match Ffmath.exp x with
    | .ok r => r
    | _ => Ffmath.nan
  log := id
  sqrt := id
  sin := id
  cos := Ffmath.cos
  tanh := id
  pow := fun a b => match Ffmath.pow a b with
    | .ok r => r
    | _ => Ffmath.nan

attribute [local instance] expTrans

/-- A finite number of magnitude up to `1e9`. -/
def Fin9 (y : BitVec 32) : Prop := F32.Finite y ∧ |(val y : ℝ)| ≤ 1e9

theorem Fin9.sub {a b : BitVec 32} (ha : Fin9 a) (hb : Fin9 b) : |(val a : ℝ) - val b| ≤ 2e9 := by
  have h1 := ha.2
  have h2 := hb.2
  refine (abs_sub _ _).trans ?_
  norm_num at h1 h2 ⊢; linarith

theorem Fin9.near {a b : BitVec 32} (ha : Fin9 a) (hb : Fin9 b) :
    F32.Near (F32.sub a b) ((val a : ℝ) - val b) (5.97e-8 * |(val a : ℝ) - val b| + 1e-45) := by
  have := ha.sub hb
  refine F32.Near.sub |(val a : ℝ) - val b| (F32.Near.self ha.1) (F32.Near.self hb.1) (by linarith)
    (by norm_num at this ⊢; linarith) ?_
  have := abs_nonneg ((val a : ℝ) - val b)
  norm_num; linarith

/-- A computed difference over a number of at least `1e-9`. -/
theorem quot_near {d w : BitVec 32} {u : ℝ} {k : ℝ} (hd : F32.Near d u (k * |u| + 1e-43)) (k0 : 0 ≤ k) (k1 : k ≤ 1e-6) (hu : |u| ≤ 2e10)
    (fw : F32.Finite w) (w0 : 1e-9 ≤ |(val w : ℝ)|) :
    F32.Near (F32.div d w) (u / val w) ((k + 6e-8) * |u / val w| + 1e-33) ∧ |u / val w| ≤ 2e19 := by
  have wp : 0 < |(val w : ℝ)| := by norm_num at w0; linarith
  obtain ⟨T, hT⟩ : ∃ T, T = |u / val w| := ⟨_, rfl⟩
  have T0 : 0 ≤ T := hT ▸ abs_nonneg _
  have uT : |u| = T * |(val w : ℝ)| := by rw [hT, abs_div]; field_simp
  have TB : T ≤ 2e19 := by
    rw [hT, abs_div, div_le_iff₀ wp]
    norm_num at hu w0 ⊢; linarith
  rw [← hT]
  refine ⟨?_, TB⟩
  have kT : k * T ≤ 1e-6 * T := mul_le_mul_of_nonneg_right k1 T0
  have kT0 : 0 ≤ k * T := mul_nonneg k0 T0
  refine F32.Near.div T |(val w : ℝ)| (k * T + 1e-34) (T + k * T + 1e-34) hd (F32.Near.self fw) (abs_pos.1 wp) wp
    (by linarith) hT.ge ?_ ?_ ?_ ?_
  · rw [uT, div_le_iff₀ wp]
    have e : (k * T + 1e-34) * |(val w : ℝ)| = k * (T * |(val w : ℝ)|) + 1e-34 * |(val w : ℝ)| := by ring
    rw [e]
    norm_num at w0 ⊢; linarith
  · linarith
  · norm_num at TB kT ⊢; linarith
  · rw [add_mul]; norm_num at kT ⊢; linarith

theorem half_sq {q : BitVec 32} {t : ℝ} (h : F32.Near q t (1.197e-7 * |t| + 1e-33)) (ht : |t| ≤ 2e18) :
    F32.Near (F32.mul (F32.mul (F32.lit (-1 / 2)) q) q) (-(1 / 2) * t ^ 2) (3.8e-7 * |-(1 / 2) * t ^ 2| + 1e-13) ∧
      val (F32.mul (F32.mul (F32.lit (-1 / 2)) q) q) ≤ 0 := by
  have c2 : F32.Finite (F32.lit (-1 / 2)) ∧ val (F32.lit (-1 / 2)) = -(1 / 2) := by decide +kernel
  have n2 : F32.Near (F32.lit (-1 / 2)) (-(1 / 2)) 0 := ⟨c2.1, by rw [c2.2]; norm_num⟩
  obtain ⟨T, hT⟩ : ∃ T, T = |t| := ⟨_, rfl⟩
  have T0 : 0 ≤ T := hT ▸ abs_nonneg _
  rw [← hT] at h ht
  have m1 : F32.Near (F32.mul (F32.lit (-1 / 2)) q) (-(1 / 2) * t) (9e-8 * T + 1e-33) := by
    refine F32.Near.mul (1 / 2) T (5.99e-8 * T + 6e-34) (0.5000001 * T + 1e-33) n2 h (by norm_num) hT.ge ?_ ?_ ?_ ?_
    · norm_num; linarith
    · rw [abs_mul, ← hT]; norm_num; linarith
    · norm_num at ht ⊢; linarith
    · norm_num; linarith
  obtain ⟨S, hS⟩ : ∃ S, S = T * T := ⟨_, rfl⟩
  have S0 : 0 ≤ S := hS ▸ mul_nonneg T0 T0
  have SB : S ≤ 4e36 := by
    rw [hS]; have := mul_le_mul ht ht T0 (by norm_num); norm_num at this ⊢; linarith
  have tS : |-(1 / 2) * t ^ 2| = S / 2 := by
    rw [abs_mul, abs_pow, ← hT, hS]; norm_num; ring
  have e : -(1 / 2) * t * t = -(1 / 2) * t ^ 2 := by ring
  refine ⟨?_, ?_⟩
  · rw [tS, ← e]
    refine F32.Near.mul (T / 2) T (1.5e-7 * S + 1e-14) (0.5000002 * S + 1e-14) m1 h ?_ hT.ge ?_ ?_ ?_ ?_
    · rw [abs_mul, ← hT]; norm_num; linarith
    · have : T / 2 * (1.197e-7 * T + 1e-33) + T * (9e-8 * T + 1e-33) + (9e-8 * T + 1e-33) * (1.197e-7 * T + 1e-33) =
        (1.197e-7 / 2 + 9e-8 + 9e-8 * 1.197e-7) * S + (1e-33 / 2 + 1e-33 + 9e-8 * 1e-33 + 1.197e-7 * 1e-33) * T + 1e-33 * 1e-33 := by
          rw [hS]; ring
      rw [this]
      norm_num at ht ⊢; linarith
    · rw [e, tS]; norm_num; linarith
    · norm_num at SB ⊢; linarith
    · norm_num; linarith
  · rw [mul_fin m1.fin h.fin, mul_fin c2.1 h.fin, c2.2]
    have hz : F32.Finite 0#32 ∧ val 0#32 = 0 := by decide +kernel
    have key : val (rnd (F32.neg (F32.lit (-1 / 2)) ^^ F32.neg q) (-(1 / 2) * val q)) * val q ≤ 0 := by
      rcases le_total 0 (val q) with k | k
      · refine mul_nonpos_of_nonpos_of_nonneg ?_ k
        have := rnd_le (s := F32.neg (F32.lit (-1 / 2)) ^^ F32.neg q) (q := -(1 / 2) * val q) hz.1 (by rw [hz.2]; linarith)
        rwa [hz.2] at this
      · exact mul_nonpos_of_nonneg_of_nonpos (rnd_nonneg (by linarith)) k
    have := rnd_le (s := F32.neg (rnd (F32.neg (F32.lit (-1 / 2)) ^^ F32.neg q) (-(1 / 2) * val q)) ^^ F32.neg q) hz.1 (key.trans hz.2.ge)
    rwa [hz.2] at this

/-- **C154** (Gaussian sets) within `1e-6` of the exact membership and in [0, 1]. -/
theorem C154_gauss (inp : Nat → Out (IO (BitVec 32))) (p : Nat → Out (BitVec 32)) (n : Nat) (io : IO (BitVec 32))
    (a c : BitVec 32) (hx : inp 0 = .ok io) (h0 : p 0 = .ok a) (h1 : p 1 = .ok c)
    (fx : Fin9 io.value) (fc : Fin9 c) (fa : F32.Finite a) (ha : 1e-9 ≤ |(val a : ℝ)|) :
    ∃ y, GaussMF inp p n = .ok y ∧ F32.Finite y ∧ 0 ≤ val y ∧ val y ≤ 1 ∧
      |(val y : ℝ) - Real.exp (-(1 / 2) * (((val io.value : ℝ) - val c) / val a) ^ 2)| ≤ 1e-6 := by
  have n1 := fx.near fc
  have d1 := fx.sub fc
  obtain ⟨n2, -⟩ := quot_near (k := 5.97e-8) (n1.mono (by norm_num)) (by norm_num) (by norm_num) (d1.trans (by norm_num)) fa ha
  have wp : 0 < |(val a : ℝ)| := by norm_num at ha; linarith
  have tb : |((val io.value : ℝ) - val c) / val a| ≤ 2e18 := by
    rw [abs_div, div_le_iff₀ wp]; norm_num at d1 ha ⊢; linarith
  obtain ⟨m, m0⟩ := half_sq (n2.mono (by norm_num)) tb
  obtain ⟨r, hr, fr, r0, r1, er⟩ := Ffmath.exp_decay m.fin m0
    (by have := sq_nonneg (((val io.value : ℝ) - val c) / val a); linarith)
    (m.err.trans (by
      have := abs_nonneg (-(1 / 2) * (((val io.value : ℝ) - val c) / val a) ^ 2)
      norm_num at this ⊢; linarith))
  refine ⟨r, ?_, fr, r0, r1, er⟩
  simp only [GaussMF, hx, h0, h1, Out.bind_ok, Out.pure_eq]
  change Out.ok (match Ffmath.exp (F32.mul (F32.mul (F32.lit (-1 / 2)) (F32.div (F32.sub io.value c) a)) (F32.div (F32.sub io.value c) a)) with
    | .ok r => r
    | _ => Ffmath.nan) = _
  rw [hr]

/-- **C154** (spike sets) within `1e-6` of the exact membership and in [0, 1]. -/
theorem C154_spike (inp : Nat → Out (IO (BitVec 32))) (p : Nat → Out (BitVec 32)) (n : Nat) (io : IO (BitVec 32))
    (w c : BitVec 32) (hx : inp 0 = .ok io) (h0 : p 0 = .ok w) (h1 : p 1 = .ok c)
    (fx : Fin9 io.value) (fc : Fin9 c) (fw : F32.Finite w) (hw : 1e-9 ≤ |(val w : ℝ)|) :
    ∃ y, SpikeMF inp p n = .ok y ∧ F32.Finite y ∧ 0 ≤ val y ∧ val y ≤ 1 ∧
      |(val y : ℝ) - Real.exp (-|10 * ((val io.value : ℝ) - val c) / val w|)| ≤ 1e-6 := by
  have n1 := fx.near fc
  have d1 := fx.sub fc
  have c10 : F32.Finite (F32.lit 10) ∧ val (F32.lit 10) = 10 := by decide +kernel
  have n10 : F32.Near (F32.lit 10) 10 0 := ⟨c10.1, by rw [c10.2]; norm_num⟩
  have e10 : |10 * ((val io.value : ℝ) - val c)| = 10 * |(val io.value : ℝ) - val c| := by rw [abs_mul]; norm_num
  have n2 : F32.Near (F32.mul (F32.lit 10) (F32.sub io.value c)) (10 * ((val io.value : ℝ) - val c))
      (1.2e-7 * |10 * ((val io.value : ℝ) - val c)| + 1e-43) := by
    rw [e10]
    have z := abs_nonneg ((val io.value : ℝ) - val c)
    refine F32.Near.mul 10 |(val io.value : ℝ) - val c| (5.97e-7 * |(val io.value : ℝ) - val c| + 1e-44)
      (10.000001 * |(val io.value : ℝ) - val c| + 1e-44) n10 n1 (by norm_num) le_rfl ?_ ?_ ?_ ?_
    · norm_num; linarith
    · rw [e10]; norm_num; linarith
    · norm_num at d1 ⊢; linarith
    · norm_num; linarith
  obtain ⟨n3, -⟩ := quot_near n2 (by norm_num) (by norm_num) (by rw [e10]; norm_num at d1 ⊢; linarith) fw hw
  have code : SpikeMF inp p n = .ok (match Ffmath.exp (F32.negate (Arith.absf (F32.div (F32.mul (F32.lit 10) (F32.sub io.value c)) w))) with
      | .ok r => r
      | _ => Ffmath.nan) := by
    simp only [SpikeMF, hx, h0, h1, Out.bind_ok, Out.pure_eq]; rfl
  rw [absf_eq] at code
  generalize F32.div (F32.mul (F32.lit 10) (F32.sub io.value c)) w = q at *
  generalize 10 * ((val io.value : ℝ) - val c) / val w = t at *
  have vq : val (F32.negate (Ffmath.absolute q)) = -|val q| := by rw [val_negate, Ffmath.absolute_val]
  obtain ⟨r, hr, fr, r0, r1, er⟩ := Ffmath.exp_decay (u := -|t|) (finite_negate.2 (Ffmath.absolute_finite.2 n3.fin))
    (by rw [vq]; exact neg_nonpos.2 (abs_nonneg _)) (neg_nonpos.2 (abs_nonneg _))
    (by
      rw [vq]; push_cast
      have := abs_abs_sub_abs_le (val q : ℝ) t
      have e := n3.err
      have z := abs_nonneg t
      rw [show -|(val q : ℝ)| - -|t| = -(|(val q : ℝ)| - |t|) by ring, abs_neg, abs_neg, abs_abs]
      norm_num at e ⊢; linarith)
  refine ⟨r, ?_, fr, r0, r1, er⟩
  rw [code, hr]

/-! ## The sigmoid -/

/-- `1 / (1 + r)` in binary32. -/
theorem logistic_near {r : BitVec 32} (fr : F32.Finite r) (r0 : 0 ≤ val r) (r1 : val r ≤ 3e38) :
    F32.Finite (F32.div (F32.lit 1) (F32.add (F32.lit 1) r)) ∧ 0 ≤ val (F32.div (F32.lit 1) (F32.add (F32.lit 1) r)) ∧
      val (F32.div (F32.lit 1) (F32.add (F32.lit 1) r)) ≤ 1 ∧
      |val (F32.div (F32.lit 1) (F32.add (F32.lit 1) r)) - 1 / (1 + val r)| ≤ 1.3e-7 := by
  have a0 : 0 < 1 + val r := by linarith
  obtain ⟨fs, es⟩ := rnd_mag (s := F32.neg (F32.lit 1) && F32.neg r) (q := 1 + val r)
    (by rw [abs_of_pos a0]; norm_num at r1 ⊢; linarith)
  have s1 := rnd_ge_one (s := F32.neg (F32.lit 1) && F32.neg r) (q := 1 + val r) (by linarith)
  have hadd : F32.add (F32.lit 1) r = rnd (F32.neg (F32.lit 1) && F32.neg r) (1 + val r) := by
    rw [add_fin l0.2.2.1 fr, l0.2.2.2]
  rw [hadd]
  generalize rnd (F32.neg (F32.lit 1) && F32.neg r) (1 + val r) = s at *
  rw [abs_of_pos a0] at es
  have sp : 0 < val s := by linarith
  rw [div_fin l0.2.2.1 fs sp.ne', l0.2.2.2]
  have q0 : 0 ≤ 1 / val s := by positivity
  have q1 : 1 / val s ≤ 1 := by rw [div_le_one sp]; exact s1
  obtain ⟨fq, eq⟩ := rnd_mag (s := F32.neg (F32.lit 1) ^^ F32.neg s) (q := 1 / val s) (by rw [abs_of_nonneg q0]; exact q1.trans (by norm_num))
  refine ⟨fq, rnd_nonneg q0, rnd_le_one q1, ?_⟩
  rw [abs_of_nonneg q0] at eq
  have d : |1 / val s - 1 / (1 + val r)| ≤ 6e-8 := by
    rw [div_sub_div _ _ sp.ne' a0.ne', one_mul, mul_one, abs_div, abs_of_pos (mul_pos sp a0), div_le_iff₀ (mul_pos sp a0), abs_sub_comm]
    have : 1 * (1 + val r) ≤ val s * (1 + val r) := mul_le_mul_of_nonneg_right s1 a0.le
    generalize val s * (1 + val r) = V at *
    norm_num at es ⊢; linarith
  have := abs_sub_le (val (rnd (F32.neg (F32.lit 1) ^^ F32.neg s) (1 / val s))) (1 / val s) (1 / (1 + val r))
  norm_num at eq d this q1 ⊢; linarith

theorem logistic_lip {r E : ℝ} (hr : 0 ≤ r) (hE : 0 ≤ E) : |1 / (1 + r) - 1 / (1 + E)| = |r - E| / ((1 + r) * (1 + E)) := by
  rw [div_sub_div _ _ (by positivity) (by positivity), abs_div, abs_of_pos (by positivity : 0 < (1 + r) * (1 + E)), abs_sub_comm]
  congr 2; ring

end Verif.Fis

namespace Verif.Ffmath

open Verif F32

/-- `exp` of a large number: infinite or large. -/
theorem exp_big {x : BitVec 32} (hx : F32.Finite x) (h : 87 ≤ val x) :
    ∃ r, exp x = .ok r ∧ (r = inf ∨ (F32.Finite r ∧ 1e37 ≤ val r ∧ val r ≤ 3e38)) := by
  have c : F32.Finite (lit 88.8) ∧ val (lit 88.8) ≤ 88.81 := by decide +kernel
  by_cases k1 : val (lit 88.8) ≤ val x
  · exact ⟨inf, (C80_limits x).2 (by rw [le_fin c.1 hx]; exact decide_eq_true k1), .inl rfl⟩
  · rw [not_le] at k1
    have hab : |val x| ≤ 88.81 := by rw [abs_of_nonneg (by linarith)]; linarith [c.2]
    obtain ⟨fy, ey⟩ := exp_arg hx (hab.trans (by norm_num))
    have e100 : 8.6e-8 * |val x| + 1e-45 ≤ 8e-6 := by norm_num at hab ⊢; linarith
    have ey' := _root_.abs_le.1 (ey.trans e100)
    have y0 : 125 ≤ val (mul FFP_LOG2E x) := by norm_num at ey' ⊢; linarith
    change ∃ r, exp2 (mul FFP_LOG2E x) = .ok r ∧ _
    generalize mul FFP_LOG2E x = y at *
    by_cases k2 : val y < 127.5
    · obtain ⟨r, hr, fr, er⟩ := C79_accuracy_partial y fy (by linarith) k2
      refine ⟨r, hr, .inr ⟨fr, ?_⟩⟩
      have e := _root_.abs_le.1 er
      have lo : (4e37 : ℝ) ≤ (2 : ℝ) ^ (val y : ℝ) := by
        have : ((125 : ℤ) : ℝ) ≤ (val y : ℝ) := by exact_mod_cast y0
        refine le_trans ?_ (Real.rpow_le_rpow_of_exponent_le (by norm_num) this)
        rw [Real.rpow_intCast]; norm_num
      have hi : (2 : ℝ) ^ (val y : ℝ) ≤ 2.5e38 := by
        have : (val y : ℝ) ≤ ((127 : ℤ) : ℝ) + 1 / 2 := by
          have : ((val y : ℚ) : ℝ) ≤ ((127.5 : ℚ) : ℝ) := by exact_mod_cast k2.le
          push_cast at this ⊢; norm_num at this ⊢; exact this
        refine (Real.rpow_le_rpow_of_exponent_le (by norm_num) this).trans ?_
        rw [Real.rpow_add (by norm_num), Real.rpow_intCast, ← Real.sqrt_eq_rpow]
        have : √(2 : ℝ) ≤ 1.415 := by rw [Real.sqrt_le_iff]; norm_num
        have := mul_le_mul_of_nonneg_left this (show (0 : ℝ) ≤ 2 ^ (127 : ℤ) by positivity)
        norm_num at this ⊢; linarith
      constructor
      · have : ((1e37 : ℚ) : ℝ) ≤ (val r : ℝ) := by norm_num at e lo ⊢; linarith
        exact_mod_cast this
      · have : (val r : ℝ) ≤ ((3e38 : ℚ) : ℝ) := by norm_num at e hi ⊢; linarith
        exact_mod_cast this
    · rw [not_lt] at k2
      by_cases k3 : 128 < val y
      · exact ⟨inf, (C79_limits y).2 (by rw [lt_fin lit_128.1 fy, lit_128.2]; exact decide_eq_true k3), .inl rfl⟩
      · rw [not_lt] at k3
        obtain ⟨ip, n, h3, h4, h5, h6, h7, h8, h9⟩ := exp2_split fy (by linarith) k3
        refine ⟨_, exp2_eq fy (by linarith) k3 h3 h4 h5 h6 h7, .inl ?_⟩
        have hn : n = 128 := by
          have : val (lit 128) ≤ val (add y (lit 0.5)) := by
            rw [add_fin fy lit_half_val.1]
            exact le_rnd lit_128.1 (by rw [lit_128.2, lit_half_val.2]; linarith)
          rw [lit_128.2] at this
          have : (128 : ℤ) ≤ n := by rw [h9, Int.le_floor]; exact_mod_cast this
          omega
        subst hn
        have h8' : |((val y : ℚ) : ℝ) - (128 : ℤ)| ≤ 0.50001 := by
          have : ((|val y - (128 : ℤ)| : ℚ) : ℝ) ≤ ((0.50001 : ℚ) : ℝ) := by exact_mod_cast h8
          push_cast at this ⊢; norm_num at this ⊢; exact this
        have nf : Near (sub y ip) ((val y : ℝ) - (128 : ℤ)) 3.1e-8 := by
          have := Near.sub (e' := 3.1e-8) 0.50001 (Near.self fy) (Near.self h4) (by rw [h5]; push_cast at h8' ⊢; norm_num at h8' ⊢; linarith)
            (by norm_num) (by norm_num)
          rw [h5] at this; push_cast at this ⊢; exact this
        have np := exp2P_near nf h8'
        have rg := exp2R_range h8'
        generalize exp2P (sub y ip) = P at *
        have Pp : (0 : ℝ) < val P := by
          have := (_root_.abs_le.1 np.err).1
          norm_num at this rg; linarith
        have Pp' : 0 < val P := by exact_mod_cast Pp
        have ce : BitVec.ofInt 32 ((128 + 127) * 8388608) = inf := by decide +kernel
        have ci : IsInf inf ∧ ¬ IsNaN inf ∧ mag inf ≠ 0 ∧ F32.neg inf = false ∧ pack false 2139095040 = inf := by decide +kernel
        have m0 : mag P ≠ 0 := fun hm => Pp'.ne' (val_eq_zero.2 hm)
        have ng : F32.neg P = false := by
          by_contra hc
          have hc : F32.neg P = true := by simpa using hc
          have := val_eq P
          rw [hc] at this
          simp only [if_true] at this
          have h2 : 0 ≤ mval (mag P) := by rw [← abs_val]; exact abs_nonneg _
          linarith
        rw [ce]
        unfold mul
        rw [if_neg (by rintro (k | k); exacts [np.fin.notNaN k, ci.2.1 k]), if_pos (Or.inr ci.1),
          if_neg (by rintro (k | k); exacts [m0 k, ci.2.2.1 k]), ng, ci.2.2.2.1]
        exact ci.2.2.2.2

end Verif.Ffmath

namespace Verif.Fis

open Arith F32

attribute [local instance] expTrans

theorem exp_le_inv {U : ℝ} (h : 87 ≤ U) : 1 / (1 + Real.exp U) ≤ 1e-37 := by
  have p := Real.exp_pos U
  rw [div_le_iff₀ (by linarith)]
  have h1 : Real.exp 1 ^ 87 ≤ Real.exp U := by rw [← Real.exp_nat_mul]; exact Real.exp_le_exp.2 (by norm_num; linarith)
  have := pow_le_pow_left₀ (by norm_num) Real.exp_one_gt_d9.le 87
  have h3 : (1e37 : ℝ) ≤ Real.exp U := by
    refine le_trans ?_ (this.trans h1)
    norm_num
  norm_num at h3 ⊢; linarith

/-- **C154** (sigmoid sets) within `1.2e-6` of the exact membership and in [0, 1]. -/
theorem C154_sig (inp : Nat → Out (IO (BitVec 32))) (p : Nat → Out (BitVec 32)) (n : Nat) (io : IO (BitVec 32))
    (a b : BitVec 32) (hx : inp 0 = .ok io) (h0 : p 0 = .ok a) (h1 : p 1 = .ok b)
    (fx : Fin9 io.value) (fa : Fin9 a) (fb : Fin9 b) :
    ∃ y, SigMF inp p n = .ok y ∧ F32.Finite y ∧ 0 ≤ val y ∧ val y ≤ 1 ∧
      |(val y : ℝ) - 1 / (1 + Real.exp (-val a * ((val io.value : ℝ) - val b)))| ≤ 1.2e-6 := by
  have n1 := fx.near fb
  have d1 := fx.sub fb
  have a1 := fa.2
  obtain ⟨U, hU⟩ : ∃ U : ℝ, U = -val a * ((val io.value : ℝ) - val b) := ⟨_, rfl⟩
  have aU : |U| = |(val a : ℝ)| * |(val io.value : ℝ) - val b| := by rw [hU, abs_mul, abs_neg]
  have U0 := abs_nonneg U
  have UB : |U| ≤ 2e18 := by
    rw [aU]; have := mul_le_mul a1 d1 (abs_nonneg _) (by norm_num); norm_num at this ⊢; linarith
  have nu : F32.Near (F32.mul (F32.negate a) (F32.sub io.value b)) U (1.2e-7 * |U| + 1e-30) := by
    rw [hU]
    refine F32.Near.mul |(val a : ℝ)| |(val io.value : ℝ) - val b| (5.97e-8 * |U| + 1e-35) (1.0000001 * |U| + 1e-35)
      (F32.Near.self fa.1).negate n1 (by rw [abs_neg]) le_rfl ?_ ?_ ?_ ?_
    · rw [aU]
      have e : |(val a : ℝ)| * (5.97e-8 * |(val io.value : ℝ) - val b| + 1e-45) + |(val io.value : ℝ) - val b| * 0 +
        0 * (5.97e-8 * |(val io.value : ℝ) - val b| + 1e-45) =
        5.97e-8 * (|(val a : ℝ)| * |(val io.value : ℝ) - val b|) + 1e-45 * |(val a : ℝ)| := by ring
      rw [e]
      norm_num at a1 ⊢; linarith
    · rw [← hU]; norm_num; linarith
    · norm_num at UB ⊢; linarith
    · rw [← hU]; norm_num; linarith
  have sgn : U ≤ 0 → val (F32.mul (F32.negate a) (F32.sub io.value b)) ≤ 0 := by
    intro h
    have fs := n1.fin
    have hz : F32.Finite 0#32 ∧ val 0#32 = 0 := by decide +kernel
    have hq : -val a * (val io.value - val b) ≤ 0 := by
      have : ((-val a * (val io.value - val b) : ℚ) : ℝ) ≤ 0 := by push_cast; rw [← hU]; exact h
      exact_mod_cast this
    rw [mul_fin (finite_negate.2 fa.1) fs, val_negate, sub_fin fx.1 fb.1]
    have key : -val a * val (rnd (F32.neg io.value && !F32.neg b) (val io.value - val b)) ≤ 0 := by
      rcases lt_trichotomy (val io.value - val b) 0 with k | k | k
      · have g : 0 ≤ -val a := by
          by_contra hc
          have := mul_pos_of_neg_of_neg (not_le.1 hc) k
          linarith
        refine mul_nonpos_of_nonneg_of_nonpos g ?_
        have := rnd_le (s := F32.neg io.value && !F32.neg b) hz.1 (k.le.trans hz.2.ge)
        rwa [hz.2] at this
      · rw [k]
        have u1 := rnd_nonneg (s := F32.neg io.value && !F32.neg b) (q := 0) le_rfl
        have u2 := rnd_le (s := F32.neg io.value && !F32.neg b) (q := 0) hz.1 hz.2.ge
        rw [hz.2] at u2
        rw [le_antisymm u2 u1]; simp
      · have g : -val a ≤ 0 := by
          by_contra hc
          have := mul_pos (not_le.1 hc) k
          linarith
        exact mul_nonpos_of_nonpos_of_nonneg g (rnd_nonneg k.le)
    have := rnd_le (s := F32.neg (F32.negate a) ^^ F32.neg (rnd (F32.neg io.value && !F32.neg b) (val io.value - val b))) hz.1 (key.trans hz.2.ge)
    rwa [hz.2] at this
  have code : ∀ {r : BitVec 32}, Ffmath.exp (F32.mul (F32.negate a) (F32.sub io.value b)) = .ok r →
      SigMF inp p n = .ok (F32.div (F32.lit 1) (F32.add (F32.lit 1) r)) := by
    intro r hr
    simp only [SigMF, hx, h0, h1, Out.bind_ok, Out.pure_eq]
    change Out.ok (F32.div (F32.lit 1) (F32.add (F32.lit 1) (match Ffmath.exp (F32.mul (F32.negate a) (F32.sub io.value b)) with
      | .ok r => r
      | _ => Ffmath.nan))) = _
    rw [hr]
  rw [← hU]
  clear hU aU
  generalize F32.mul (F32.negate a) (F32.sub io.value b) = v at *
  have Ep := Real.exp_pos U
  have conclude : ∀ {r : BitVec 32}, Ffmath.exp v = .ok r → F32.Finite r → 0 ≤ val r → val r ≤ 3e38 →
      |1 / (1 + (val r : ℝ)) - 1 / (1 + Real.exp U)| ≤ 1.05e-6 → ∃ y, SigMF inp p n = .ok y ∧ F32.Finite y ∧ 0 ≤ val y ∧ val y ≤ 1 ∧
      |(val y : ℝ) - 1 / (1 + Real.exp U)| ≤ 1.2e-6 := by
    intro r hr fr r0 r1 he
    obtain ⟨f, y0, y1, ye⟩ := logistic_near fr r0 r1
    refine ⟨_, code hr, f, y0, y1, ?_⟩
    generalize F32.div (F32.lit 1) (F32.add (F32.lit 1) r) = y at *
    have ye' : |(val y : ℝ) - 1 / (1 + val r)| ≤ 1.3e-7 := by
      have : ((|val y - 1 / (1 + val r)| : ℚ) : ℝ) ≤ ((1.3e-7 : ℚ) : ℝ) := by exact_mod_cast ye
      push_cast at this; norm_num at this ⊢; exact this
    have := abs_sub_le (val y : ℝ) (1 / (1 + val r)) (1 / (1 + Real.exp U))
    norm_num at ye' he this ⊢; linarith
  rcases le_or_gt U 0 with k | k
  · obtain ⟨r, hr, fr, r0, r1, er⟩ := Ffmath.exp_decay nu.fin (sgn k) k (nu.err.trans (by norm_num; linarith))
    refine conclude hr fr r0 (r1.trans (by norm_num)) ?_
    have r0' : (0 : ℝ) ≤ val r := by exact_mod_cast r0
    rw [logistic_lip r0' Ep.le]
    have : 1 ≤ (1 + (val r : ℝ)) * (1 + Real.exp U) := by nlinarith
    rw [div_le_iff₀ (by linarith)]
    refine er.trans ?_
    norm_num; linarith
  · rcases le_or_gt U 87.1 with k2 | k2
    · rw [abs_of_pos k] at nu
      have e := _root_.abs_le.1 nu.err
      have lo : (-87.3 : ℚ) ≤ val v := by
        have : ((-87.3 : ℚ) : ℝ) ≤ (val v : ℝ) := by norm_num at e k2 ⊢; linarith
        exact_mod_cast this
      have hi : val v ≤ 87.2 := by
        have : (val v : ℝ) ≤ ((87.2 : ℚ) : ℝ) := by norm_num at e k2 ⊢; linarith
        exact_mod_cast this
      obtain ⟨r, hr, fr, er⟩ := Ffmath.C80_accuracy_partial v nu.fin lo (hi.trans (by norm_num))
      have av : |(val v : ℝ)| ≤ 1.001 * U + 1e-29 := by rw [_root_.abs_le]; norm_num at e ⊢; constructor <;> linarith
      have ev : Real.exp (val v : ℝ) = Real.exp U * Real.exp (val v - U) := by rw [← Real.exp_add]; congr 1; ring
      have ds : |(val v : ℝ) - U| ≤ 1.1e-5 := nu.err.trans (by norm_num at k2 ⊢; linarith)
      have dx := Real.abs_exp_sub_one_sub_id_le (ds.trans (by norm_num))
      have dd : |Real.exp ((val v : ℝ) - U) - 1| ≤ 1.21e-7 * U + 1e-29 := by
        have h2 : ((val v : ℝ) - U) ^ 2 ≤ 1.1e-5 * (1.2e-7 * U + 1e-30) := by
          rw [← sq_abs, sq]; exact mul_le_mul ds nu.err (abs_nonneg _) (by norm_num)
        have := abs_sub_le (Real.exp ((val v : ℝ) - U)) (1 + ((val v : ℝ) - U)) 1
        rw [show Real.exp ((val v : ℝ) - U) - (1 + ((val v : ℝ) - U)) = Real.exp ((val v : ℝ) - U) - 1 - ((val v : ℝ) - U) by ring,
          add_sub_cancel_left] at this
        have h3 := nu.err
        norm_num at h2 h3 ⊢; linarith
      obtain ⟨D, hD⟩ : ∃ D, D = Real.exp ((val v : ℝ) - U) := ⟨_, rfl⟩
      rw [ev, ← hD] at er
      rw [← hD] at dd
      have dd' := _root_.abs_le.1 dd
      obtain ⟨E, hE⟩ : ∃ E, E = Real.exp U := ⟨_, rfl⟩
      have EU : 1 + U ≤ E := by rw [hE]; linarith [Real.add_one_le_exp U]
      have EB : E ≤ 1e38 := by
        rw [hE]
        have q1 : Real.exp U ≤ Real.exp 1 ^ 87 * Real.exp (1 / 10) := by
          rw [← Real.exp_nat_mul, ← Real.exp_add]; exact Real.exp_le_exp.2 (by norm_num at k2 ⊢; linarith)
        have q2 : Real.exp (1 / 10) ≤ 1.2 := by
          have h1 := Real.add_one_le_exp (-(1 / 10) : ℝ)
          rw [Real.exp_neg] at h1
          have h2 := Real.exp_pos (1 / 10 : ℝ)
          rw [← inv_inv (Real.exp (1 / 10)), inv_le_comm₀ (by positivity) (by norm_num)]
          norm_num at h1 ⊢; linarith
        have q3 := pow_le_pow_left₀ (Real.exp_pos 1).le Real.exp_one_lt_d9.le 87
        refine q1.trans ((mul_le_mul q3 q2 (Real.exp_pos _).le (by norm_num)).trans ?_)
        norm_num
      rw [← hE] at er conclude ⊢ Ep
      have Ud : U * 1 ≤ 87.1 := by linarith
      -- the relative error of the exponential
      have hk : |(val r : ℝ) - E| ≤ (3.7e-7 + 2e-7 * U) * E := by
        have h5 : (3.6e-7 + 7.4e-8 * |(val v : ℝ)|) * (E * D) ≤ (3.61e-7 + 7.45e-8 * U) * E := by
          have h6 : 3.6e-7 + 7.4e-8 * |(val v : ℝ)| ≤ 3.6001e-7 + 7.41e-8 * U := by norm_num at av ⊢; linarith
          have h7 : E * D ≤ E * 1.00002 := mul_le_mul_of_nonneg_left (by norm_num at dd' k2 ⊢; linarith) Ep.le
          have h8 := mul_le_mul h6 h7 (by
            have : 0 ≤ D := by rw [hD]; exact (Real.exp_pos _).le
            positivity) (by linarith)
          refine h8.trans ?_
          have : 0 ≤ U * E := by positivity
          have e1 : (3.6001e-7 + 7.41e-8 * U) * (E * 1.00002) = 3.6001e-7 * 1.00002 * E + 7.41e-8 * 1.00002 * (U * E) := by ring
          have e2 : (3.61e-7 + 7.45e-8 * U) * E = 3.61e-7 * E + 7.45e-8 * (U * E) := by ring
          rw [e1, e2]
          norm_num; linarith
        have h9 : |E * D - E| ≤ (1.21e-7 * U + 1e-29) * E := by
          rw [show E * D - E = (D - 1) * E by ring, abs_mul, abs_of_pos Ep]
          exact mul_le_mul_of_nonneg_right dd Ep.le
        have := abs_sub_le (val r : ℝ) (E * D) E
        have h10 := er.trans h5
        have : |(val r : ℝ) - E| ≤ ((3.61e-7 + 7.45e-8 * U) + (1.21e-7 * U + 1e-29)) * E := by
          rw [add_mul]; linarith
        refine this.trans (mul_le_mul_of_nonneg_right ?_ Ep.le)
        norm_num; linarith
      have hk2 : (3.7e-7 + 2e-7 * U) * E ≤ 2e-5 * E := mul_le_mul_of_nonneg_right (by norm_num at k2 ⊢; linarith) Ep.le
      have rl := _root_.abs_le.1 (hk.trans hk2)
      have r0' : (0 : ℝ) ≤ val r := by norm_num at rl; linarith
      refine conclude hr fr (by exact_mod_cast r0') ?_ ?_
      · have : (val r : ℝ) ≤ ((3e38 : ℚ) : ℝ) := by norm_num at rl EB ⊢; linarith
        exact_mod_cast this
      · rw [logistic_lip r0' Ep.le, div_le_iff₀ (by positivity)]
        refine hk.trans ?_
        have h1 : (3.7e-7 + 2e-7 * U) * E ≤ (1.05e-6 * (1 + (val r : ℝ))) * E :=
          mul_le_mul_of_nonneg_right (by norm_num at rl ⊢; linarith) Ep.le
        have h2 : 0 ≤ 1.05e-6 * (1 + (val r : ℝ)) := by positivity
        calc _ ≤ (1.05e-6 * (1 + (val r : ℝ))) * E := h1
          _ ≤ (1.05e-6 * (1 + (val r : ℝ))) * (1 + E) := mul_le_mul_of_nonneg_left (by linarith) h2
          _ = _ := by ring
    · rw [abs_of_pos k] at nu
      have e := (_root_.abs_le.1 nu.err).1
      have lo : (87 : ℚ) ≤ val v := by
        have : ((87 : ℚ) : ℝ) ≤ (val v : ℝ) := by norm_num at e k2 ⊢; linarith
        exact_mod_cast this
      have small := exp_le_inv (show 87 ≤ U by norm_num at k2; linarith)
      have pos : 0 < 1 / (1 + Real.exp U) := by positivity
      obtain ⟨r, hr, rfl | ⟨fr, r0, r1⟩⟩ := Ffmath.exp_big nu.fin lo
      · have ci : F32.div (F32.lit 1) (F32.add (F32.lit 1) Ffmath.inf) = F32.lit 0 := by decide +kernel
        refine ⟨_, code hr, ?_⟩
        rw [ci, l0.2.1]
        refine ⟨l0.1, le_rfl, zero_le_one, ?_⟩
        push_cast
        rw [zero_sub, abs_neg, abs_of_pos pos]
        norm_num at small ⊢; linarith
      · have r0' : (1e37 : ℝ) ≤ val r := by
          have : ((1e37 : ℚ) : ℝ) ≤ (val r : ℝ) := by exact_mod_cast r0
          push_cast at this; norm_num at this ⊢; exact this
        refine conclude hr fr (le_trans (by norm_num) r0) r1 ?_
        have q1 : 0 ≤ 1 / (1 + (val r : ℝ)) := by
          have : (0 : ℝ) ≤ val r := le_trans (by norm_num) r0'
          positivity
        have q2 : 1 / (1 + (val r : ℝ)) ≤ 1e-30 := by
          have : (0 : ℝ) ≤ val r := le_trans (by norm_num) r0'
          rw [div_le_iff₀ (by positivity)]
          norm_num at r0' ⊢; linarith
        rw [_root_.abs_le]
        generalize 1 / (1 + (val r : ℝ)) = A at *
        generalize 1 / (1 + Real.exp U) = B at *
        norm_num at q1 q2 small pos ⊢
        constructor <;> linarith

/-- **C154** (difference and product of two sigmoid sets) within `2.6e-6` of the exact membership and in
[0, 1]. -/
theorem C154_dsig_psig (inp : Nat → Out (IO (BitVec 32))) (p : Nat → Out (BitVec 32)) (n : Nat) (io : IO (BitVec 32))
    (a b c d : BitVec 32) (hx : inp 0 = .ok io) (h0 : p 0 = .ok a) (h1 : p 1 = .ok b) (h2 : p 2 = .ok c) (h3 : p 3 = .ok d)
    (fx : Fin9 io.value) (fa : Fin9 a) (fb : Fin9 b) (fc : Fin9 c) (fd : Fin9 d) :
    (∃ y, DSigMF inp p n = .ok y ∧ F32.Finite y ∧ 0 ≤ val y ∧ val y ≤ 1 ∧
      |(val y : ℝ) - abs (1 / (1 + Real.exp (-val a * ((val io.value : ℝ) - val b))) -
        1 / (1 + Real.exp (-val c * ((val io.value : ℝ) - val d))))| ≤ 2.6e-6) ∧
    (∃ y, PSigMF inp p n = .ok y ∧ F32.Finite y ∧ 0 ≤ val y ∧ val y ≤ 1 ∧
      |(val y : ℝ) - 1 / (1 + Real.exp (-val a * ((val io.value : ℝ) - val b))) *
        (1 / (1 + Real.exp (-val c * ((val io.value : ℝ) - val d))))| ≤ 2.6e-6) := by
  obtain ⟨s, es, fs, s0, s1, se⟩ := C154_sig inp p n io a b hx h0 h1 fx fa fb
  obtain ⟨t, et, ft, t0, t1, te⟩ := C154_sig inp (fun k => p (2 + k)) n io c d hx h2 h3 fx fc fd
  have unit : ∀ w : ℝ, 0 ≤ 1 / (1 + Real.exp w) ∧ 1 / (1 + Real.exp w) ≤ 1 := fun w => by
    have := Real.exp_pos w
    exact ⟨by positivity, (div_le_one (by linarith)).2 (by linarith)⟩
  have u := unit (-val a * ((val io.value : ℝ) - val b))
  have v := unit (-val c * ((val io.value : ℝ) - val d))
  generalize 1 / (1 + Real.exp (-val a * ((val io.value : ℝ) - val b))) = S at *
  generalize 1 / (1 + Real.exp (-val c * ((val io.value : ℝ) - val d))) = T at *
  constructor
  · have m : F32.Near (F32.sub s t) (S - T) 2.6e-6 := by
      refine F32.Near.sub 1.001 ⟨fs, se⟩ ⟨ft, te⟩ ?_ (by norm_num) (by norm_num)
      have : |S - T| ≤ 1 := by rw [_root_.abs_le]; constructor <;> linarith
      norm_num; linarith
    have mb : |val (F32.sub s t)| ≤ 1 := by
      have q : |val s - val t| ≤ 1 := by rw [_root_.abs_le]; constructor <;> linarith
      rw [sub_fin fs ft, _root_.abs_le]
      have q' := _root_.abs_le.1 q
      have n1 : F32.Finite (F32.lit (-1)) ∧ val (F32.lit (-1)) = -1 := by decide +kernel
      refine ⟨?_, rnd_le_one q'.2⟩
      have := le_rnd (s := F32.neg s && !F32.neg t) n1.1 (n1.2.le.trans q'.1)
      rwa [n1.2] at this
    refine ⟨Arith.absf (F32.sub s t), ?_, ?_⟩
    · unfold DSigMF
      rw [es, Out.bind_ok, et, Out.bind_ok]; rfl
    · rw [absf_eq, Ffmath.absolute_val]
      refine ⟨Ffmath.absolute_finite.2 m.fin, abs_nonneg _, mb, ?_⟩
      push_cast
      exact (abs_abs_sub_abs_le _ _).trans m.err
  · have m : F32.Near (F32.mul s t) (S * T) 2.6e-6 := by
      refine F32.Near.mul 1 1 2.41e-6 1.001 ⟨fs, se⟩ ⟨ft, te⟩ ?_ ?_ (by norm_num) ?_ (by norm_num) (by norm_num)
      · rw [abs_of_nonneg u.1]; exact u.2
      · rw [abs_of_nonneg v.1]; exact v.2
      · rw [abs_of_nonneg (mul_nonneg u.1 v.1)]
        have := mul_le_mul u.2 v.2 v.1 zero_le_one
        norm_num at this ⊢; linarith
    have m0 : 0 ≤ val (F32.mul s t) := by rw [mul_fin fs ft]; exact rnd_nonneg (mul_nonneg s0 t0)
    have m1 : val (F32.mul s t) ≤ 1 := by rw [mul_fin fs ft]; exact rnd_le_one (mul_le_one₀ s1 t0 t1)
    refine ⟨Arith.absf (F32.mul s t), ?_, ?_⟩
    · unfold PSigMF
      rw [es, Out.bind_ok, et, Out.bind_ok]; rfl
    · rw [absf_eq, Ffmath.absolute_val, abs_of_nonneg m0]
      exact ⟨Ffmath.absolute_finite.2 m.fin, m0, m1, m.err⟩

theorem ex_fin9 : ∀ q ∈ [(-3 : ℚ), 1, 2, 100, 7], F32.Finite (F32.lit q) ∧ val (F32.lit q) = q := by decide +kernel

theorem fin9_lit {q : ℚ} (h : q ∈ [(-3 : ℚ), 1, 2, 100, 7]) : Fin9 (F32.lit q) := by
  obtain ⟨f, e⟩ := ex_fin9 q h
  refine ⟨f, ?_⟩
  rw [e]
  simp only [List.mem_cons, List.not_mem_nil, or_false] at h
  rcases h with rfl | rfl | rfl | rfl | rfl <;> norm_num

/-- Example: the hypotheses of `C154_sig` hold of the slope −3 and centre 2 at 100, where the exponential
overflows, and those of `C154_gauss` of the width 2 and centre −3 at 7. -/
example : (Fin9 (F32.lit 100) ∧ Fin9 (F32.lit (-3)) ∧ Fin9 (F32.lit 2)) ∧
    Fin9 (F32.lit 7) ∧ Fin9 (F32.lit (-3)) ∧ F32.Finite (F32.lit 2) ∧ 1e-9 ≤ |(val (F32.lit 2) : ℝ)| :=
  ⟨⟨fin9_lit (by decide), fin9_lit (by decide), fin9_lit (by decide)⟩, fin9_lit (by decide), fin9_lit (by decide),
    (ex_fin9 2 (by decide)).1, by rw [(ex_fin9 2 (by decide)).2]; norm_num⟩

end Verif.Fis
