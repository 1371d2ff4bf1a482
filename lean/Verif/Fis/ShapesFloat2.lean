import Verif.Fis.ShapesExp
import Verif.Ffmath.Cos
import Verif.Ffmath.Log

/-!
# The remaining membership functions in binary32 (C168)

Cosine, generalised bell, two-sided Gaussian and concave sets. IEEE binary32 arithmetic; nothing here is a definition of the
repository except where cited.
-/

namespace Verif.Fis

open Arith F32

attribute [local instance] expTrans

/-! ## Cosine sets -/

/-- The cosine set of centre `C` and width `W` (specification). -/
noncomputable def cosSet (C W X : ℝ) : ℝ :=
  if |X - C| ≤ W / 2 then (1 + Real.cos (2 * Real.pi * (X - C) / W)) / 2 else 0

/-- Near the edges of its support the raised cosine is nearly zero. -/
theorem cos_edge {d W : ℝ} (hW : 0 < W) (h : |(|d| - W / 2)| ≤ 6.2e-4 * W) :
    0 ≤ (1 + Real.cos (2 * Real.pi * d / W)) / 2 ∧ (1 + Real.cos (2 * Real.pi * d / W)) / 2 ≤ 4e-6 := by
  have e : 2 * Real.pi * d / W = 2 * (Real.pi * d / W) := by ring
  have c2 : (1 + Real.cos (2 * Real.pi * d / W)) / 2 = Real.cos (Real.pi * |d| / W) ^ 2 := by
    rw [e, Real.cos_two_mul]
    have : Real.cos (Real.pi * d / W) = Real.cos (Real.pi * |d| / W) := by
      rw [← Real.cos_abs, abs_div, abs_mul, abs_of_pos Real.pi_pos, abs_of_pos hW]
    rw [this]; ring
  rw [c2]
  refine ⟨sq_nonneg _, ?_⟩
  have s : Real.cos (Real.pi * |d| / W) = Real.sin (Real.pi / 2 - Real.pi * |d| / W) := by rw [Real.sin_pi_div_two_sub]
  have a : |Real.cos (Real.pi * |d| / W)| ≤ 1.96e-3 := by
    rw [s]
    refine Real.abs_sin_le_abs.trans ?_
    have : Real.pi / 2 - Real.pi * |d| / W = -(Real.pi * ((|d| - W / 2) / W)) := by field_simp; ring
    rw [this, abs_neg, abs_mul, abs_of_pos Real.pi_pos, abs_div, abs_of_pos hW]
    have q : |(|d| - W / 2)| / W ≤ 6.2e-4 := by rw [div_le_iff₀ hW]; exact h
    have p := Real.pi_lt_d20
    have := mul_le_mul p.le q (div_nonneg (abs_nonneg _) hW.le) (by norm_num)
    refine this.trans (by norm_num)
  rw [← sq_abs]
  have := pow_le_pow_left₀ (abs_nonneg _) a 2
  exact this.trans (by norm_num)

theorem pi_near : F32.Near (pi : BitVec 32) Real.pi 9e-8 := by
  have h : F32.Finite (pi : BitVec 32) ∧ val (pi : BitVec 32) = 13176795 / 4194304 := by
    change F32.Finite (F32.lit (13176795 / 2 ^ 22)) ∧ val (F32.lit (13176795 / 2 ^ 22)) = _
    decide +kernel
  refine ⟨h.1, ?_⟩
  rw [h.2]
  push_cast
  have p1 := Real.pi_gt_d20
  have p2 := Real.pi_lt_d20
  rw [_root_.abs_le]
  norm_num at p1 p2 ⊢
  constructor <;> linarith

theorem lit2 : F32.Finite (F32.lit 2) ∧ val (F32.lit 2) = 2 := by decide +kernel

theorem lith : F32.Finite (F32.lit (1 / 2)) ∧ val (F32.lit (1 / 2)) = 1 / 2 := by decide +kernel

/-- The angle handed to the cosine. -/
theorem cos_angle {x c w : BitVec 32} (fx : Fin9 x) (fc : Fin9 c) (fw : F32.Finite w) (w0 : (1e-9 : ℝ) ≤ val w)
    (w1 : (val w : ℝ) ≤ 1e9) (hd : |(val x : ℝ) - val c| ≤ 0.51 * val w) :
    F32.Near (F32.mul (F32.mul (F32.div (F32.lit 2) w) (pi : BitVec 32)) (F32.sub x c))
      (2 * Real.pi * ((val x : ℝ) - val c) / val w) 1e-6 := by
  have n1 := fx.near fc
  have n2 : F32.Near (F32.lit 2) 2 0 := ⟨lit2.1, by rw [lit2.2]; norm_num⟩
  obtain ⟨W, hW⟩ : ∃ W : ℝ, W = val w := ⟨_, rfl⟩
  obtain ⟨d, hd'⟩ : ∃ d : ℝ, d = (val x : ℝ) - val c := ⟨_, rfl⟩
  rw [← hW] at w0 w1 hd
  rw [← hd'] at n1 hd
  rw [← hW, ← hd']
  have wp : 0 < W := by norm_num at w0; linarith
  have iw : (1e-9 : ℝ) ≤ 1 / W ∧ 1 / W ≤ 1e9 := by
    constructor
    · rw [le_div_iff₀ wp]; norm_num at w1 ⊢; linarith
    · rw [div_le_iff₀ wp]; norm_num at w0 ⊢; linarith
  obtain ⟨I, hI⟩ : ∃ I : ℝ, I = 1 / W := ⟨_, rfl⟩
  rw [← hI] at iw
  have n3 : F32.Near (F32.div (F32.lit 2) w) (2 * I) (1.2e-7 * I) := by
    have := F32.Near.div (e' := 1.2e-7 * I) (2 * I) W 0 (2 * I) n2 (F32.Near.self fw) (by rw [← hW]; exact wp.ne') wp
      (by rw [← hW, abs_of_pos wp, add_zero]) (by rw [← hW, abs_of_pos (by positivity), hI]; field_simp; exact le_rfl) (by simp)
      (by linarith) (by norm_num at iw ⊢; linarith) (by norm_num at iw ⊢; linarith)
    rwa [← hW, show 2 / W = 2 * I by rw [hI]; ring] at this
  have p1 := Real.pi_gt_d20
  have p2 := Real.pi_lt_d20
  have I0 : 0 < I := by rw [hI]; positivity
  have n4 : F32.Near (F32.mul (F32.div (F32.lit 2) w) (pi : BitVec 32)) (2 * I * Real.pi) (9.5e-7 * I) := by
    refine F32.Near.mul (2 * I) 3.15 (5.6e-7 * I) (6.3 * I) n3 pi_near (by rw [abs_of_pos (by positivity)])
      (by rw [abs_of_pos Real.pi_pos]; norm_num at p2 ⊢; linarith) (by ring_nf; norm_num; linarith) ?_
      (by norm_num at iw ⊢; linarith) (by norm_num at iw ⊢; linarith)
    rw [abs_of_pos (by positivity)]
    have := mul_le_mul_of_nonneg_left p2.le (by positivity : 0 ≤ 2 * I)
    norm_num at this ⊢; linarith
  have dI : I * |d| ≤ 0.51 := by
    have := mul_le_mul_of_nonneg_left hd I0.le
    refine this.trans (le_of_eq ?_)
    rw [hI]; field_simp
  have dI0 : 0 ≤ I * |d| := by positivity
  rw [show 2 * Real.pi * d / W = 2 * I * Real.pi * d by rw [hI]; ring]
  have eI : |2 * I * Real.pi| = 2 * I * Real.pi := abs_of_pos (by positivity)
  have pI : 2 * I * Real.pi ≤ 6.3 * I := by
    have := mul_le_mul_of_nonneg_left p2.le (by positivity : 0 ≤ 2 * I)
    norm_num at this ⊢; linarith
  have z := abs_nonneg d
  refine F32.Near.mul (6.3 * I) |d| 7.2e-7 3.22 n4 n1 (by rw [eI]; exact pI) le_rfl ?_ ?_ (by norm_num) (by norm_num)
  · have e : 6.3 * I * (5.97e-8 * |d| + 1e-45) + |d| * (9.5e-7 * I) + 9.5e-7 * I * (5.97e-8 * |d| + 1e-45) =
        (6.3 * 5.97e-8 + 9.5e-7 + 9.5e-7 * 5.97e-8) * (I * |d|) + (6.3e-45 + 9.5e-52) * I := by ring
    rw [e]
    generalize I * |d| = V at *
    norm_num at dI iw ⊢; linarith
  · rw [abs_mul, eI]
    have := mul_le_mul_of_nonneg_right pI z
    have e : 6.3 * I * |d| = 6.3 * (I * |d|) := by ring
    rw [e] at this
    generalize I * |d| = V at *
    norm_num at dI this ⊢; linarith

/-- The computed edges of the support. -/
theorem cos_support {c w : BitVec 32} (fc : Fin9 c) (fw : F32.Finite w) (w0 : (1e-9 : ℝ) ≤ val w)
    (w1 : (val w : ℝ) ≤ 1e9) (hc : |(val c : ℝ)| ≤ 1e4 * val w) :
    F32.Near (F32.sub c (F32.mul (F32.lit (1 / 2)) w)) ((val c : ℝ) - val w / 2) (6.1e-4 * val w) ∧
    F32.Near (F32.add c (F32.mul (F32.lit (1 / 2)) w)) ((val c : ℝ) + val w / 2) (6.1e-4 * val w) := by
  have nh : F32.Near (F32.lit (1 / 2)) (1 / 2) 0 := ⟨lith.1, by rw [lith.2]; norm_num⟩
  have wn : (0 : ℝ) ≤ val w := by norm_num at w0; linarith
  have m : F32.Near (F32.mul (F32.lit (1 / 2)) w) (val w / 2) (3e-8 * val w) := by
    have := F32.Near.mul (e' := 3e-8 * (val w : ℝ)) (1 / 2) (val w : ℝ) 0 (val w / 2) nh (F32.Near.self fw) (by norm_num)
      (by rw [abs_of_nonneg wn]) (by simp) (by rw [abs_of_nonneg (by positivity)]; linarith)
      (by norm_num at w1 ⊢; linarith) (by norm_num at w0 ⊢; linarith)
    rwa [show (1 / 2 : ℝ) * val w = val w / 2 by ring] at this
  constructor
  · refine F32.Near.sub (10001 * val w) (F32.Near.self fc.1) m ?_ (by norm_num at w1 ⊢; linarith) (by norm_num at w0 ⊢; linarith)
    have := abs_sub (val c : ℝ) (val w / 2)
    rw [abs_of_nonneg (by linarith : (0 : ℝ) ≤ val w / 2)] at this
    norm_num at hc ⊢; linarith
  · refine F32.Near.add (10001 * val w) (F32.Near.self fc.1) m ?_ (by norm_num at w1 ⊢; linarith) (by norm_num at w0 ⊢; linarith)
    have := abs_add_le (val c : ℝ) (val w / 2)
    rw [abs_of_nonneg (by linarith : (0 : ℝ) ≤ val w / 2)] at this
    norm_num at hc ⊢; linarith

theorem half_one_add {z : BitVec 32} (fz : F32.Finite z) (h : |val z| ≤ 1) :
    F32.Finite (F32.mul (F32.lit (1 / 2)) (F32.add (F32.lit 1) z)) ∧
    0 ≤ val (F32.mul (F32.lit (1 / 2)) (F32.add (F32.lit 1) z)) ∧
    val (F32.mul (F32.lit (1 / 2)) (F32.add (F32.lit 1) z)) ≤ 1 ∧
    |(val (F32.mul (F32.lit (1 / 2)) (F32.add (F32.lit 1) z)) : ℝ) - (1 + val z) / 2| ≤ 1.3e-7 := by
  have h' := _root_.abs_le.1 h
  have hr : |(val z : ℝ)| ≤ 1 := by exact_mod_cast h
  have hr' := _root_.abs_le.1 hr
  have n1 : F32.Near (F32.lit 1) 1 0 := ⟨l0.2.2.1, by rw [l0.2.2.2]; norm_num⟩
  have nh : F32.Near (F32.lit (1 / 2)) (1 / 2) 0 := ⟨lith.1, by rw [lith.2]; norm_num⟩
  have a : F32.Near (F32.add (F32.lit 1) z) (1 + (val z : ℝ)) 1.2e-7 :=
    F32.Near.add 2 n1 (F32.Near.self fz) (by rw [abs_of_nonneg (by linarith)]; linarith) (by norm_num) (by norm_num)
  have a0 : 0 ≤ val (F32.add (F32.lit 1) z) := by
    rw [add_fin l0.2.2.1 fz, l0.2.2.2]; exact rnd_nonneg (by linarith)
  have a2 : val (F32.add (F32.lit 1) z) ≤ 2 := by
    rw [add_fin l0.2.2.1 fz, l0.2.2.2]
    have := rnd_le (s := F32.neg (F32.lit 1) && F32.neg z) (q := 1 + val z) lit2.1 (by rw [lit2.2]; linarith)
    rwa [lit2.2] at this
  have m : F32.Near (F32.mul (F32.lit (1 / 2)) (F32.add (F32.lit 1) z)) (1 / 2 * (1 + (val z : ℝ))) 1.3e-7 :=
    F32.Near.mul (1 / 2) 2 6e-8 1.01 nh a (by norm_num) (by rw [abs_of_nonneg (by linarith)]; linarith) (by norm_num)
      (by rw [abs_of_nonneg (by linarith)]; norm_num; linarith) (by norm_num) (by norm_num)
  refine ⟨m.fin, ?_, ?_, ?_⟩
  · rw [mul_fin lith.1 a.fin, lith.2]; exact rnd_nonneg (by linarith)
  · rw [mul_fin lith.1 a.fin, lith.2]; exact rnd_le_one (by linarith)
  · have := m.err
    rwa [show (1 / 2 : ℝ) * (1 + (val z : ℝ)) = (1 + val z) / 2 by ring] at this

theorem cos_code (inp : Nat → Out (IO (BitVec 32))) (p : Nat → Out (BitVec 32)) (n : Nat) (io : IO (BitVec 32))
    (c w : BitVec 32) (hx : inp 0 = .ok io) (h0 : p 0 = .ok c) (h1 : p 1 = .ok w) :
    CosineMF inp p n = if (F32.lt io.value (F32.sub c (F32.mul (F32.lit (1 / 2)) w)) ||
        F32.lt (F32.add c (F32.mul (F32.lit (1 / 2)) w)) io.value) = true then .ok (F32.lit 0)
      else .ok (F32.mul (F32.lit (1 / 2)) (F32.add (F32.lit 1)
        (Ffmath.cos (F32.mul (F32.mul (F32.div (F32.lit 2) w) (pi : BitVec 32)) (F32.sub io.value c))))) := by
  simp only [CosineMF, hx, h0, h1, Out.bind_ok, Out.pure_eq]
  rfl

/-- **C168** (cosine sets) in [0, 1] and within `5e-4` of the raised cosine on its support and of zero outside it, for every
width from `1e-9` to `1e9` that is not below a ten-thousandth of the centre. -/
theorem C168_cosine (inp : Nat → Out (IO (BitVec 32))) (p : Nat → Out (BitVec 32)) (n : Nat) (io : IO (BitVec 32))
    (c w : BitVec 32) (hx : inp 0 = .ok io) (h0 : p 0 = .ok c) (h1 : p 1 = .ok w)
    (fx : Fin9 io.value) (fc : Fin9 c) (fw : F32.Finite w) (w0 : (1e-9 : ℝ) ≤ val w) (w1 : (val w : ℝ) ≤ 1e9)
    (hc : |(val c : ℝ)| ≤ 1e4 * val w) :
    ∃ y, CosineMF inp p n = .ok y ∧ F32.Finite y ∧ 0 ≤ val y ∧ val y ≤ 1 ∧
      |(val y : ℝ) - cosSet (val c) (val w) (val io.value)| ≤ 5e-4 := by
  rw [cos_code inp p n io c w hx h0 h1]
  obtain ⟨s1, s2⟩ := cos_support fc fw w0 w1 hc
  have e1 := _root_.abs_le.1 s1.err
  have e2 := _root_.abs_le.1 s2.err
  rw [lt_fin fx.1 s1.fin, lt_fin s2.fin fx.1]
  have wp : (0 : ℝ) < val w := by norm_num at w0; linarith
  unfold cosSet
  by_cases hin : val io.value < val (F32.sub c (F32.mul (F32.lit (1 / 2)) w)) ∨
      val (F32.add c (F32.mul (F32.lit (1 / 2)) w)) < val io.value
  · rw [if_pos (by simpa using hin)]
    refine ⟨_, rfl, l0.1, l0.2.1.ge, by rw [l0.2.1]; norm_num, ?_⟩
    rw [l0.2.1]
    push_cast
    rw [zero_sub, abs_neg]
    split
    · rename_i hs
      have far : (val w : ℝ) / 2 - 6.1e-4 * val w ≤ |(val io.value : ℝ) - val c| := by
        rcases hin with h | h
        · have h' : (val io.value : ℝ) < val (F32.sub c (F32.mul (F32.lit (1 / 2)) w)) := by exact_mod_cast h
          have := neg_abs_le ((val io.value : ℝ) - val c)
          linarith
        · have h' : (val (F32.add c (F32.mul (F32.lit (1 / 2)) w)) : ℝ) < val io.value := by exact_mod_cast h
          have := le_abs_self ((val io.value : ℝ) - val c)
          linarith
      have ce := cos_edge (d := (val io.value : ℝ) - val c) wp (by
        rw [_root_.abs_le]
        generalize |(val io.value : ℝ) - val c| = D at *
        norm_num at far ⊢
        constructor <;> linarith)
      rw [abs_of_nonneg ce.1]
      exact ce.2.trans (by norm_num)
    · norm_num
  · rw [if_neg (by simpa using hin)]
    obtain ⟨g1, g2⟩ := not_or.1 hin
    have g1' : (val (F32.sub c (F32.mul (F32.lit (1 / 2)) w)) : ℝ) ≤ val io.value := by exact_mod_cast not_lt.1 g1
    have g2' : (val io.value : ℝ) ≤ val (F32.add c (F32.mul (F32.lit (1 / 2)) w)) := by exact_mod_cast not_lt.1 g2
    have near : |(val io.value : ℝ) - val c| ≤ val w / 2 + 6.1e-4 * val w := by
      rw [_root_.abs_le]; constructor <;> linarith
    have a := cos_angle fx fc fw w0 w1 (near.trans (by norm_num at wp ⊢; linarith))
    obtain ⟨A, hA⟩ : ∃ A, A = F32.mul (F32.mul (F32.div (F32.lit 2) w) (pi : BitVec 32)) (F32.sub io.value c) := ⟨_, rfl⟩
    rw [← hA] at a ⊢
    have ab : |2 * Real.pi * ((val io.value : ℝ) - val c) / val w| ≤ 3.21 := by
      rw [abs_div, abs_mul, abs_of_pos (by positivity : 0 < 2 * Real.pi), abs_of_pos wp, div_le_iff₀ wp]
      have p2 := Real.pi_lt_d20
      have := mul_le_mul p2.le near (abs_nonneg _) (by norm_num)
      generalize |(val io.value : ℝ) - val c| = D at *
      have e : 2 * Real.pi * D = 2 * (Real.pi * D) := by ring
      rw [e]
      generalize Real.pi * D = V at *
      norm_num at this ⊢; linarith
    obtain ⟨θ, hθ⟩ : ∃ θ, θ = 2 * Real.pi * ((val io.value : ℝ) - val c) / val w := ⟨_, rfl⟩
    rw [← hθ] at a ab
    have Ab : |(val A : ℝ)| ≤ 3.22 := by
      have := abs_sub_abs_le_abs_sub (val A : ℝ) θ
      have e := a.err
      norm_num at e ab ⊢; linarith
    have Ab' : |val A| ≤ 2.5e7 := by
      have : ((|val A| : ℚ) : ℝ) ≤ ((2.5e7 : ℚ) : ℝ) := by push_cast; norm_num at Ab ⊢; linarith
      exact_mod_cast this
    obtain ⟨f1, f2⟩ := Ffmath.C87_accuracy_partial A a.fin Ab'
    have f3 := Ffmath.C87_bound_partial A a.fin Ab'
    obtain ⟨q1, q2, q3, q4⟩ := half_one_add f1 f3
    refine ⟨_, rfl, q1, q2, q3, ?_⟩
    have cl : |Real.cos (val A) - Real.cos θ| ≤ 1e-6 := (Real.abs_cos_sub_cos_le _ _).trans a.err
    have main : |(val (F32.mul (F32.lit (1 / 2)) (F32.add (F32.lit 1) (Ffmath.cos A))) : ℝ) - (1 + Real.cos θ) / 2| ≤ 4.78e-4 := by
      have t1 := _root_.abs_le.1 q4
      have t2 := _root_.abs_le.1 f2
      have t3 := _root_.abs_le.1 cl
      clear q4 f2 cl s1 s2 e1 e2 hin g1 g2 g1' g2'
      rw [_root_.abs_le]
      generalize (val (F32.mul (F32.lit (1 / 2)) (F32.add (F32.lit 1) (Ffmath.cos A))) : ℝ) = Y at *
      generalize (val (Ffmath.cos A) : ℝ) = Z at *
      generalize |(val A : ℝ)| = B at *
      norm_num at t1 t2 t3 Ab ⊢
      constructor <;> linarith
    rw [← hθ]
    split
    · exact main.trans (by norm_num)
    · rename_i hs
      have ce := cos_edge (d := (val io.value : ℝ) - val c) wp (by
        rw [_root_.abs_le]
        generalize |(val io.value : ℝ) - val c| = D at *
        norm_num at near hs ⊢
        constructor <;> linarith)
      rw [← hθ] at ce
      have t := _root_.abs_le.1 main
      rw [_root_.abs_le]
      norm_num at ce t ⊢
      constructor <;> linarith

/-! ## Two-sided Gaussian sets -/

/-- The value of one half of `Gauss2MF` (specification). -/
noncomputable def gaussHalf (A C X : ℝ) : ℝ := if X ≤ C then Real.exp (-(1 / 2) * ((X - C) / A) ^ 2) else 1

theorem gaussHalf_range (A C X : ℝ) : 0 ≤ gaussHalf A C X ∧ gaussHalf A C X ≤ 1 := by
  unfold gaussHalf
  split
  · refine ⟨(Real.exp_pos _).le, ?_⟩
    rw [Real.exp_le_one_iff]
    have := sq_nonneg ((X - C) / A)
    linarith
  · exact ⟨zero_le_one, le_rfl⟩

theorem gaussHalf_near (inp : Nat → Out (IO (BitVec 32))) (p : Nat → Out (BitVec 32)) (n : Nat) (io : IO (BitVec 32))
    (a c : BitVec 32) (hx : inp 0 = .ok io) (h0 : p 0 = .ok a) (h1 : p 1 = .ok c)
    (fx : Fin9 io.value) (fc : Fin9 c) (fa : F32.Finite a) (ha : 1e-9 ≤ |(val a : ℝ)|) :
    ∃ y, (if F32.le io.value c = true then GaussMF inp p n else .ok (F32.lit 1)) = .ok y ∧ F32.Finite y ∧ 0 ≤ val y ∧ val y ≤ 1 ∧
      |(val y : ℝ) - gaussHalf (val a) (val c) (val io.value)| ≤ 1e-6 := by
  obtain ⟨y, e, f, y0, y1, ye⟩ := C154_gauss inp p n io a c hx h0 h1 fx fc fa ha
  unfold gaussHalf
  rw [le_fin fx.1 fc.1]
  by_cases h : val io.value ≤ val c
  · rw [if_pos (decide_eq_true h), if_pos (by exact_mod_cast h)]
    exact ⟨y, e, f, y0, y1, ye⟩
  · rw [if_neg (by simpa using h), if_neg (by exact_mod_cast h)]
    refine ⟨_, rfl, l0.2.2.1, by rw [l0.2.2.2]; norm_num, l0.2.2.2.le, ?_⟩
    rw [l0.2.2.2]; norm_num

/-- **C168** (two-sided Gaussian sets) in [0, 1] and within `2.1e-6` of the product of the two halves. -/
theorem C168_gauss2 (inp : Nat → Out (IO (BitVec 32))) (p : Nat → Out (BitVec 32)) (n : Nat) (io : IO (BitVec 32))
    (a c b d : BitVec 32) (hx : inp 0 = .ok io) (h0 : p 0 = .ok a) (h1 : p 1 = .ok c) (h2 : p 2 = .ok b) (h3 : p 3 = .ok d)
    (fx : Fin9 io.value) (fc : Fin9 c) (fd : Fin9 d) (fa : F32.Finite a) (ha : 1e-9 ≤ |(val a : ℝ)|)
    (fb : F32.Finite b) (hb : 1e-9 ≤ |(val b : ℝ)|) :
    ∃ y, Gauss2MF inp p n = .ok y ∧ F32.Finite y ∧ 0 ≤ val y ∧ val y ≤ 1 ∧
      |(val y : ℝ) - gaussHalf (val a) (val c) (val io.value) * gaussHalf (val b) (val d) (val io.value)| ≤ 2.1e-6 := by
  obtain ⟨s, es, fs, s0, s1, se⟩ := gaussHalf_near inp p n io a c hx h0 h1 fx fc fa ha
  obtain ⟨t, et, ft, t0, t1, te⟩ := gaussHalf_near inp (fun k => p (2 + k)) n io b d hx h2 h3 fx fd fb hb
  have code : Gauss2MF inp p n = .ok (F32.mul s t) := by
    simp only [Gauss2MF, hx, h1, h3, Out.bind_ok, Out.pure_eq]
    change Out.bind (if F32.le io.value c = true then GaussMF inp p n else .ok (F32.lit 1)) _ = _
    rw [es]
    change Out.bind (if F32.le io.value d = true then GaussMF inp (fun k => p (2 + k)) n else .ok (F32.lit 1)) _ = _
    rw [et]
    rfl
  have u := gaussHalf_range (val a) (val c) (val io.value)
  have v := gaussHalf_range (val b) (val d) (val io.value)
  generalize gaussHalf (val a) (val c) (val io.value) = S at *
  generalize gaussHalf (val b) (val d) (val io.value) = T at *
  have m : F32.Near (F32.mul s t) (S * T) 2.1e-6 := by
    refine F32.Near.mul 1 1 2.01e-6 1.001 ⟨fs, se⟩ ⟨ft, te⟩ ?_ ?_ (by norm_num) ?_ (by norm_num) (by norm_num)
    · rw [abs_of_nonneg u.1]; exact u.2
    · rw [abs_of_nonneg v.1]; exact v.2
    · rw [abs_of_nonneg (mul_nonneg u.1 v.1)]
      have := mul_le_mul u.2 v.2 v.1 zero_le_one
      norm_num at this ⊢; linarith
  refine ⟨_, code, m.fin, ?_, ?_, m.err⟩
  · rw [mul_fin fs ft]; exact rnd_nonneg (mul_nonneg s0 t0)
  · rw [mul_fin fs ft]; exact rnd_le_one (mul_le_one₀ s1 t0 t1)

/-! ## Generalised bell sets -/

/-- The bell is insensitive to a relative error of the power. -/
theorem bell_lip {r P ρ : ℝ} (hP : 0 < P) (ρ1 : ρ ≤ 1e-3) (h : |r - P| ≤ ρ * P) :
    0 ≤ r ∧ |1 / (1 + r) - 1 / (1 + P)| ≤ 0.2503 * ρ := by
  have ρ0 : 0 ≤ ρ := by
    by_contra hc
    have := mul_neg_of_neg_of_pos (not_le.1 hc) hP
    have := abs_nonneg (r - P)
    linarith
  have hr : (1 - ρ) * P ≤ r := by
    have := (_root_.abs_le.1 h).1
    linarith
  have r0 : 0 ≤ r := le_trans (mul_nonneg (by norm_num at ρ1; linarith) hP.le) hr
  refine ⟨r0, ?_⟩
  rw [logistic_lip r0 hP.le, div_le_iff₀ (by positivity)]
  refine h.trans ?_
  have k1 : (1 - ρ) * (1 + P) ≤ 1 + r := by nlinarith
  have k2 : 4 * P ≤ (1 + P) * (1 + P) := by nlinarith [sq_nonneg (1 - P)]
  have k3 : 0.999 * ((1 + P) * (1 + P)) ≤ (1 + r) * (1 + P) := by
    have : 0.999 * (1 + P) ≤ 1 + r := by
      refine le_trans (mul_le_mul_of_nonneg_right ?_ (by positivity)) k1
      norm_num at ρ1 ⊢; linarith
    have := mul_le_mul_of_nonneg_right this (by positivity : 0 ≤ 1 + P)
    linarith
  have k4 : P ≤ 0.2503 * ((1 + r) * (1 + P)) := by norm_num at k3 ⊢; linarith
  have := mul_le_mul_of_nonneg_left k4 ρ0
  linarith

/-- A small relative error of the base of a power. -/
theorem pow_shift {t T b : ℝ} (hT : 0 < T) (h : |t - T| ≤ 1.3e-7 * T) (hb : |b| ≤ 1000) :
    0 < t ∧ |2 * b * Real.logb 2 t - 2 * b * Real.logb 2 T| ≤ 4e-7 * |b| ∧
      |t ^ (2 * b) - T ^ (2 * b)| ≤ 2.7e-7 * |b| * T ^ (2 * b) := by
  have e := _root_.abs_le.1 h
  have t0 : 0 < t := by norm_num at e; linarith
  obtain ⟨l, hl⟩ : ∃ l, l = Real.log t - Real.log T := ⟨_, rfl⟩
  have lb : |l| ≤ 1.31e-7 := by
    rw [hl, ← Real.log_div t0.ne' hT.ne']
    have q : |t / T - 1| ≤ 1.3e-7 := by
      rw [div_sub_one hT.ne', abs_div, abs_of_pos hT, div_le_iff₀ hT]; exact h
    have q' := _root_.abs_le.1 q
    have u1 := Real.log_le_sub_one_of_pos (div_pos t0 hT)
    have u2 := Real.one_sub_inv_le_log_of_pos (div_pos t0 hT)
    have u3 : -1.31e-7 ≤ 1 - (t / T)⁻¹ := by
      have p : 0 < t / T := div_pos t0 hT
      have : (t / T)⁻¹ ≤ 1 + 1.31e-7 := by
        rw [inv_le_iff_one_le_mul₀ p]
        norm_num at q' ⊢; linarith
      linarith
    rw [_root_.abs_le]
    generalize Real.log (t / T) = w at *
    generalize t / T = v at *
    norm_num at q' u3 ⊢
    constructor <;> linarith
  have b0 := abs_nonneg b
  have L2 := Real.log_two_gt_d9
  refine ⟨t0, ?_, ?_⟩
  · rw [← mul_sub, Real.logb, Real.logb, ← sub_div, ← hl, abs_mul, abs_mul, abs_div, abs_of_pos (lt_trans (by norm_num) L2)]
    have : |l| / Real.log 2 ≤ 2e-7 := by
      rw [div_le_iff₀ (lt_trans (by norm_num) L2)]
      norm_num at lb L2 ⊢; linarith
    have := mul_le_mul_of_nonneg_left this b0
    rw [abs_of_pos (by norm_num : (0 : ℝ) < 2)]
    generalize |l| / Real.log 2 = w at *
    norm_num at this ⊢; linarith
  · have P := Real.rpow_pos_of_pos hT (2 * b)
    have eq : t ^ (2 * b) = T ^ (2 * b) * Real.exp (2 * b * l) := by
      rw [Real.rpow_def_of_pos t0, Real.rpow_def_of_pos hT, ← Real.exp_add, hl]; congr 1; ring
    rw [eq, show T ^ (2 * b) * Real.exp (2 * b * l) - T ^ (2 * b) = (Real.exp (2 * b * l) - 1) * T ^ (2 * b) by ring, abs_mul, abs_of_pos P]
    refine mul_le_mul_of_nonneg_right ?_ P.le
    have xb : |2 * b * l| ≤ 2.62e-7 * |b| := by
      rw [abs_mul, abs_mul, abs_of_pos (by norm_num : (0 : ℝ) < 2)]
      have := mul_le_mul_of_nonneg_left lb b0
      norm_num at this ⊢; linarith
    have x1 : |2 * b * l| ≤ 2.7e-4 := xb.trans (by norm_num at hb ⊢; linarith)
    have := Real.abs_exp_sub_one_sub_id_le (x := 2 * b * l) (x1.trans (by norm_num))
    have t1 := abs_add_le (Real.exp (2 * b * l) - 1 - 2 * b * l) (2 * b * l)
    rw [sub_add_cancel] at t1
    have sq : (2 * b * l) ^ 2 ≤ 2.7e-4 * |2 * b * l| := by
      rw [← sq_abs, sq]; exact mul_le_mul_of_nonneg_right x1 (abs_nonneg _)
    refine t1.trans ?_
    generalize |2 * b * l| = V at *
    norm_num at sq xb ⊢; linarith

theorem bell_code (inp : Nat → Out (IO (BitVec 32))) (p : Nat → Out (BitVec 32)) (n : Nat) (io : IO (BitVec 32))
    (a b c : BitVec 32) (hx : inp 0 = .ok io) (h0 : p 0 = .ok a) (h1 : p 1 = .ok b) (h2 : p 2 = .ok c) {r : BitVec 32}
    (hr : Ffmath.pow (Ffmath.absolute (F32.div (F32.sub io.value c) a)) (F32.mul (F32.lit 2) b) = .ok r) :
    GBellMF inp p n = .ok (F32.div (F32.lit 1) (F32.add (F32.lit 1) r)) := by
  simp only [GBellMF, hx, h0, h1, h2, Out.bind_ok, Out.pure_eq]
  rw [absf_eq]
  change Out.ok (F32.div (F32.lit 1) (F32.add (F32.lit 1)
    (match Ffmath.pow (Ffmath.absolute (F32.div (F32.sub io.value c) a)) (F32.mul (F32.lit 2) b) with
    | .ok r => r
    | _ => Ffmath.nan))) = _
  rw [hr]

theorem double_near {b : BitVec 32} (fb : F32.Finite b) (hb : |(val b : ℝ)| ≤ 1000) :
    F32.Finite (F32.mul (F32.lit 2) b) ∧ val (F32.mul (F32.lit 2) b) = 2 * val b := by
  have : |val b| ≤ 16777215 * 2 ^ (103 : ℤ) := by
    have h : |val b| ≤ 1000 := by exact_mod_cast hb
    exact h.trans (by norm_num)
  obtain ⟨c, fc, ec⟩ := Ffmath.double_exists fb this
  have := Ffmath.mul_exact lit2.1 fb fc (by rw [lit2.2, ec])
  exact ⟨this.1, this.2.trans ec⟩

/-- **C168** (generalised bell sets) in [0, 1] and within `1e-5 + 7e-8 |b|` of `1 / (1 + |(x - c)/a|^(2b))` away from the centre,
as long as the power stays between `2^-120` and `2^120`. -/
theorem C168_gbell (inp : Nat → Out (IO (BitVec 32))) (p : Nat → Out (BitVec 32)) (n : Nat) (io : IO (BitVec 32))
    (a b c : BitVec 32) (hx : inp 0 = .ok io) (h0 : p 0 = .ok a) (h1 : p 1 = .ok b) (h2 : p 2 = .ok c)
    (fx : Fin9 io.value) (fc : Fin9 c) (fa : F32.Finite a) (ha : 1e-9 ≤ |(val a : ℝ)|) (fb : F32.Finite b)
    (hb : |(val b : ℝ)| ≤ 1000) (ht : 1e-24 ≤ |((val io.value : ℝ) - val c) / val a|)
    (hz : |2 * val b * Real.logb 2 (abs (((val io.value : ℝ) - val c) / val a))| ≤ 120) :
    ∃ y, GBellMF inp p n = .ok y ∧ F32.Finite y ∧ 0 ≤ val y ∧ val y ≤ 1 ∧
      |(val y : ℝ) - 1 / (1 + |((val io.value : ℝ) - val c) / val a| ^ (2 * (val b : ℝ)))| ≤ 1e-5 + 7e-8 * |(val b : ℝ)| := by
  have n1 := fx.near fc
  have d1 := fx.sub fc
  obtain ⟨n2, -⟩ := quot_near (k := 5.97e-8) (n1.mono (by norm_num)) (by norm_num) (by norm_num) (d1.trans (by norm_num)) fa ha
  obtain ⟨f2, v2⟩ := double_near fb hb
  have code := fun r => bell_code inp p n io a b c hx h0 h1 h2 (r := r)
  generalize F32.div (F32.sub io.value c) a = q at *
  generalize F32.mul (F32.lit 2) b = b2 at *
  obtain ⟨T, hT⟩ : ∃ T, T = |((val io.value : ℝ) - val c) / val a| := ⟨_, rfl⟩
  have qe : |(val (Ffmath.absolute q) : ℝ) - T| ≤ 1.3e-7 * T := by
    rw [Ffmath.absolute_val]; push_cast
    rw [hT]
    refine (abs_abs_sub_abs_le _ _).trans (n2.err.trans ?_)
    norm_num at ht ⊢; linarith
  have ft := Ffmath.absolute_finite.2 n2.fin
  rw [← hT] at ht hz ⊢
  clear n1 d1 n2 hT
  generalize Ffmath.absolute q = t at *
  have T0 : 0 < T := by norm_num at ht; linarith
  obtain ⟨t0, zs, ps⟩ := pow_shift T0 qe hb
  have P := Real.rpow_pos_of_pos T0 (2 * (val b : ℝ))
  have b0 := abs_nonneg (val b : ℝ)
  have tn : (2 : ℚ) ^ (-126 : ℤ) ≤ val t := by
    have : (1e-25 : ℝ) ≤ val t := by
      have := (_root_.abs_le.1 qe).1
      norm_num at this ht ⊢; linarith
    have h : ((1e-25 : ℚ) : ℝ) ≤ (val t : ℝ) := by push_cast; norm_num at this ⊢; exact this
    have h' : (1e-25 : ℚ) ≤ val t := by exact_mod_cast h
    exact le_trans (by norm_num) h'
  have eb2 : ((val b2 : ℚ) : ℝ) = 2 * val b := by rw [v2]; push_cast; rfl
  have zb : |2 * val b * Real.logb 2 (val t)| ≤ 120.001 := by
    have := abs_sub_abs_le_abs_sub (2 * val b * Real.logb 2 (val t)) (2 * val b * Real.logb 2 T)
    generalize |2 * val b * Real.logb 2 (val t)| = A at *
    generalize |2 * val b * Real.logb 2 T| = B at *
    norm_num at zs this hb ⊢; linarith
  have zb' := _root_.abs_le.1 zb
  obtain ⟨r, hr, fr, er⟩ := Ffmath.C83_pow_partial t b2 ft tn f2 (by rw [eb2]; exact le_trans (by norm_num) zb'.1)
    (by rw [eb2]; exact zb'.2.trans (by norm_num))
  rw [eb2] at er
  have pe : |(val r : ℝ) - T ^ (2 * (val b : ℝ))| ≤ (3.54e-5 + 2.71e-7 * |(val b : ℝ)|) * T ^ (2 * (val b : ℝ)) := by
    have k : (3.6e-7 + 2.9e-7 * |2 * val b * Real.logb 2 (val t)|) ≤ 3.52e-5 := by
      norm_num at zb ⊢; linarith
    have P' := Real.rpow_pos_of_pos t0 (2 * (val b : ℝ))
    have er' := er.trans (mul_le_mul_of_nonneg_right k P'.le)
    have tr := abs_sub_le (val r : ℝ) ((val t : ℝ) ^ (2 * (val b : ℝ))) (T ^ (2 * (val b : ℝ)))
    have up : (val t : ℝ) ^ (2 * (val b : ℝ)) ≤ 1.001 * T ^ (2 * (val b : ℝ)) := by
      have h := (_root_.abs_le.1 ps).2
      have : 2.7e-7 * |(val b : ℝ)| * T ^ (2 * (val b : ℝ)) ≤ 1e-3 * T ^ (2 * (val b : ℝ)) :=
        mul_le_mul_of_nonneg_right (by norm_num at hb ⊢; linarith) P.le
      linarith
    refine tr.trans ?_
    have bP : 0 ≤ |(val b : ℝ)| * T ^ (2 * (val b : ℝ)) := by positivity
    rw [add_mul, show 2.71e-7 * |(val b : ℝ)| * T ^ (2 * (val b : ℝ)) = 2.71e-7 * (|(val b : ℝ)| * T ^ (2 * (val b : ℝ))) by ring]
    rw [show 2.7e-7 * |(val b : ℝ)| * T ^ (2 * (val b : ℝ)) = 2.7e-7 * (|(val b : ℝ)| * T ^ (2 * (val b : ℝ))) by ring] at ps
    generalize |(val b : ℝ)| * T ^ (2 * (val b : ℝ)) = V at *
    norm_num at er' ps up ⊢; linarith
  have ρ1 : 3.54e-5 + 2.71e-7 * |(val b : ℝ)| ≤ 1e-3 := by norm_num at hb ⊢; linarith
  obtain ⟨r0, rl⟩ := bell_lip P ρ1 pe
  have r0' : 0 ≤ val r := by exact_mod_cast r0
  have r1 : val r ≤ 3e38 := by
    have h1 : T ^ (2 * (val b : ℝ)) ≤ 2 ^ (120 : ℝ) := by
      have hz' := (_root_.abs_le.1 hz).2
      have L2 := Real.log_pos (by norm_num : (1 : ℝ) < 2)
      rw [Real.rpow_def_of_pos T0, Real.rpow_def_of_pos (by norm_num), Real.exp_le_exp]
      rw [show Real.log T = Real.log 2 * Real.logb 2 T by rw [Real.logb]; field_simp]
      have := mul_le_mul_of_nonneg_left hz' L2.le
      linarith
    have h2 : (2 : ℝ) ^ (120 : ℝ) = 2 ^ (120 : ℕ) := by
      rw [← Real.rpow_natCast]; norm_num
    rw [h2] at h1
    have h3 := (_root_.abs_le.1 pe).2
    have h4 := mul_le_mul_of_nonneg_right ρ1 P.le
    have : (val r : ℝ) ≤ ((3e38 : ℚ) : ℝ) := by
      push_cast
      norm_num at h1 h4 ⊢; linarith
    exact_mod_cast this
  obtain ⟨f, y0, y1, ye⟩ := logistic_near fr r0' r1
  refine ⟨_, code r hr, f, y0, y1, ?_⟩
  generalize F32.div (F32.lit 1) (F32.add (F32.lit 1) r) = y at *
  have ye' : |(val y : ℝ) - 1 / (1 + val r)| ≤ 1.3e-7 := by
    have : ((|val y - 1 / (1 + val r)| : ℚ) : ℝ) ≤ ((1.3e-7 : ℚ) : ℝ) := by exact_mod_cast ye
    push_cast at this; norm_num at this ⊢; exact this
  have := abs_sub_le (val y : ℝ) (1 / (1 + val r)) (1 / (1 + T ^ (2 * (val b : ℝ))))
  refine this.trans ?_
  generalize |(val y : ℝ) - 1 / (1 + val r)| = A at *
  generalize |1 / (1 + (val r : ℝ)) - 1 / (1 + T ^ (2 * (val b : ℝ)))| = B at *
  norm_num at ye' rl ⊢; linarith

/-- **C168** (generalised bell sets) exactly one at the centre, for every positive exponent. -/
theorem C168_gbell_peak (inp : Nat → Out (IO (BitVec 32))) (p : Nat → Out (BitVec 32)) (n : Nat) (io : IO (BitVec 32))
    (a b c : BitVec 32) (hx : inp 0 = .ok io) (h0 : p 0 = .ok a) (h1 : p 1 = .ok b) (h2 : p 2 = .ok c)
    (fx : F32.Finite io.value) (fc : F32.Finite c) (hxc : val io.value = val c) (fa : F32.Finite a) (ha : val a ≠ 0)
    (fb : F32.Finite b) (b0 : 0 < val b) (hb : |(val b : ℝ)| ≤ 1000) : GBellMF inp p n = .ok (F32.lit 1) := by
  have s0 : F32.Finite (F32.sub io.value c) ∧ val (F32.sub io.value c) = 0 := by
    have := Ffmath.sub_exact fx fc l0.1 (by rw [l0.2.1, hxc, sub_self])
    rwa [l0.2.1] at this
  have q0 : val (F32.div (F32.sub io.value c) a) = 0 := by
    rw [div_fin s0.1 fa ha, s0.2, zero_div]
    have := rnd_int (F32.neg (F32.sub io.value c) != F32.neg a) (k := 0) (by norm_num)
    rw [Int.cast_zero] at this
    exact this.2
  have t0 : Ffmath.absolute (F32.div (F32.sub io.value c) a) = 0#32 := by
    rcases Ffmath.zero_bits q0 with h | h <;> rw [h] <;> decide +kernel
  obtain ⟨f2, v2⟩ := double_near fb hb
  have P : 0 < val (F32.mul (F32.lit 2) b) := by rw [v2]; linarith
  have hr : Ffmath.pow (Ffmath.absolute (F32.div (F32.sub io.value c) a)) (F32.mul (F32.lit 2) b) = .ok (F32.lit 0) := by
    rw [t0]
    unfold Ffmath.pow
    have l : Ffmath.log2 0#32 = F32.negate Ffmath.inf := by decide +kernel
    rw [l]
    generalize F32.mul (F32.lit 2) b = B at *
    have ci : IsInf (F32.negate Ffmath.inf) ∧ ¬ IsNaN (F32.negate Ffmath.inf) ∧ mag (F32.negate Ffmath.inf) ≠ 0 ∧
        F32.neg (F32.negate Ffmath.inf) = true ∧ pack true 2139095040 = F32.negate Ffmath.inf := by decide +kernel
    have m0 : mag B ≠ 0 := fun hm => P.ne' (val_eq_zero.2 hm)
    have ng : F32.neg B = false := by
      by_contra hc
      have hc : F32.neg B = true := by simpa using hc
      have := val_eq B
      rw [hc] at this
      simp only [if_true] at this
      have h2 : 0 ≤ mval (mag B) := by rw [← abs_val]; exact abs_nonneg _
      linarith
    have mi : F32.mul B (F32.negate Ffmath.inf) = F32.negate Ffmath.inf := by
      unfold F32.mul
      rw [if_neg (by rintro (k | k); exacts [f2.notNaN k, ci.2.1 k]), if_pos (Or.inr ci.1),
        if_neg (by rintro (k | k); exacts [m0 k, ci.2.2.1 k]), ng, ci.2.2.2.1]
      exact ci.2.2.2.2
    rw [mi]
    decide +kernel
  rw [bell_code inp p n io a b c hx h0 h1 h2 hr]
  decide +kernel

/-! ## Concave sets -/

/-- The concave set of inflection `I` and end `E` (specification). -/
noncomputable def concaveSet (I E X : ℝ) : ℝ :=
  if I ≤ E then (if X < E then (E - I) / ((E - I) + (E - X)) else 1)
  else if E < X then (I - E) / ((I - E) + (X - E)) else 1

/-- A distance over itself plus another distance, the sum computed with an error. -/
theorem conc_div {u v : BitVec 32} {G D δ : ℝ} (G0 : 0 < G) (GD : G ≤ D) (hG : 1e-9 ≤ G)
    (δ0 : 0 ≤ δ) (δ1 : δ ≤ 0.02)
    (hu : F32.Near u G (5.97e-8 * G + 1e-45)) (hv : F32.Near v D (δ * D)) :
    F32.Near (F32.div u v) (G / D) (1.03 * δ + 1.3e-7) := by
  have D0 : 0 < D := lt_of_lt_of_le G0 GD
  have gd : G / D ≤ 1 := (div_le_one D0).2 GD
  have gd0 : 0 ≤ G / D := by positivity
  have δD : δ * D ≤ 0.02 * D := mul_le_mul_of_nonneg_right δ1 D0.le
  have δD0 : 0 ≤ δ * D := by positivity
  refine F32.Near.div 1 (0.98 * D) (1.025 * δ + 6.2e-8) 1.1 hu hv D0.ne' (by positivity) (by rw [abs_of_pos D0]; linarith)
    (by rw [abs_of_nonneg gd0]; exact gd) ?_ (by norm_num at δ1 ⊢; linarith) (by norm_num) (by norm_num at δ1 ⊢; linarith)
  rw [div_le_iff₀ (by positivity)]
  have e : (1.025 * δ + 6.2e-8) * (0.98 * D) = 1.025 * 0.98 * (δ * D) + 6.2e-8 * 0.98 * D := by ring
  rw [e]
  generalize δ * D = V at *
  norm_num at hG ⊢
  linarith

theorem conc_den {s x : BitVec 32} {K G D S X : ℝ} (hG : G ≤ D) (G0 : 1e-9 ≤ G) (hD : D ≤ 1e12) (hK : K ≤ 1e5) (hK1 : 1 ≤ K)
    (hx : F32.Near x X 0) (hs : F32.Near s S (1.81e-7 * (K * G) + 6e-8 * G)) (hsum : S + X = D) :
    F32.Near (F32.add s x) D ((1.82e-7 * K + 1.3e-7) * D) := by
  have D0 : 0 < D := lt_of_lt_of_le (by norm_num at G0; linarith) hG
  have KG : K * G ≤ K * D := mul_le_mul_of_nonneg_left hG (by linarith)
  have KD : K * D ≤ 1e5 * D := mul_le_mul_of_nonneg_right hK D0.le
  have KG1 : D ≤ K * D := by nlinarith
  rw [← hsum]
  refine F32.Near.add (1.02 * D) hs hx ?_ (by norm_num at hD ⊢; linarith) ?_
  · rw [hsum, abs_of_pos D0]
    norm_num at KG KD ⊢; linarith
  · rw [hsum, add_mul, show 1.82e-7 * K * D = 1.82e-7 * (K * D) by ring]
    generalize K * D = V at *
    generalize K * G = W at *
    norm_num at G0 ⊢; linarith

/-- The branch of `ConcaveMF` for a rising flank. -/
theorem conc_left {x i e : BitVec 32} {K : ℝ} (fx : Fin9 x) (fi : Fin9 i) (fe : Fin9 e) (hK1 : 1 ≤ K) (hK : K ≤ 1e5)
    (hg : (1e-9 : ℝ) ≤ val e - val i) (he : |(val e : ℝ)| ≤ K * (val e - val i)) (hx : (val x : ℝ) ≤ val e) :
    F32.Near (F32.div (F32.sub e i) (F32.sub (F32.sub (F32.mul (F32.lit 2) e) i) x))
      (((val e : ℝ) - val i) / ((val e - val i) + (val e - val x))) (1.9e-7 * K + 3e-7) := by
  obtain ⟨G, hG⟩ : ∃ G : ℝ, G = val e - val i := ⟨_, rfl⟩
  have n1 := fe.near fi
  rw [← hG] at n1 hg he ⊢
  have G0 : 0 < G := by norm_num at hg; linarith
  rw [abs_of_pos G0] at n1
  have b1 := fe.2
  have b2 := fi.2
  have b3 := fx.2
  have e1 := _root_.abs_le.1 b1
  have e2 := _root_.abs_le.1 b2
  have e3 := _root_.abs_le.1 b3
  have n2 : F32.Near (F32.lit 2) 2 0 := ⟨lit2.1, by rw [lit2.2]; norm_num⟩
  have KG0 : G ≤ K * G := by nlinarith
  have n3 : F32.Near (F32.mul (F32.lit 2) e) (2 * (val e : ℝ)) (1.2e-7 * (K * G)) := by
    refine F32.Near.mul 2 |(val e : ℝ)| 0 (2 * |(val e : ℝ)|) n2 (F32.Near.self fe.1) (by norm_num) le_rfl (by simp)
      (by rw [abs_mul]; norm_num) (by norm_num at b1 ⊢; linarith) ?_
    generalize K * G = V at *
    norm_num at hg ⊢; linarith
  have n4 : F32.Near (F32.sub (F32.mul (F32.lit 2) e) i) (2 * (val e : ℝ) - val i) (1.81e-7 * (K * G) + 6e-8 * G) := by
    refine F32.Near.sub (1.0001 * (K * G) + G) n3 (F32.Near.self fi.1) ?_ ?_ ?_
    · have := abs_add_le (val e : ℝ) G
      rw [abs_of_pos G0] at this
      rw [show 2 * (val e : ℝ) - val i = val e + G by rw [hG]; ring]
      norm_num; linarith
    · have : K * G ≤ 1e5 * G := mul_le_mul_of_nonneg_right hK G0.le
      norm_num at this e1 e2 ⊢; linarith
    · norm_num at hg ⊢; linarith
  have n5 := conc_den (x := F32.negate x) (X := -(val x : ℝ)) (D := G + (val e - val x)) (by linarith) hg (by norm_num at *; linarith) hK hK1
    (F32.Near.self fx.1).negate n4 (by rw [hG]; ring)
  have n6 := conc_div (δ := 1.82e-7 * K + 1.3e-7) G0 (by linarith : G ≤ G + (val e - val x)) hg (by norm_num; linarith) (by norm_num at hK ⊢; linarith) n1 n5
  exact n6.mono (by norm_num; linarith)

/-- The branch of `ConcaveMF` for a falling flank. -/
theorem conc_right {x i e : BitVec 32} {K : ℝ} (fx : Fin9 x) (fi : Fin9 i) (fe : Fin9 e) (hK1 : 1 ≤ K) (hK : K ≤ 1e5)
    (hg : (1e-9 : ℝ) ≤ val i - val e) (he : |(val e : ℝ)| ≤ K * (val i - val e)) (hx : (val e : ℝ) ≤ val x) :
    F32.Near (F32.div (F32.sub i e) (F32.add (F32.add (F32.negate (F32.mul (F32.lit 2) e)) i) x))
      (((val i : ℝ) - val e) / ((val i - val e) + (val x - val e))) (1.9e-7 * K + 3e-7) := by
  obtain ⟨G, hG⟩ : ∃ G : ℝ, G = val i - val e := ⟨_, rfl⟩
  have n1 := fi.near fe
  rw [← hG] at n1 hg he ⊢
  have G0 : 0 < G := by norm_num at hg; linarith
  rw [abs_of_pos G0] at n1
  have b1 := fe.2
  have b2 := fi.2
  have b3 := fx.2
  have e1 := _root_.abs_le.1 b1
  have e2 := _root_.abs_le.1 b2
  have e3 := _root_.abs_le.1 b3
  have n2 : F32.Near (F32.lit 2) 2 0 := ⟨lit2.1, by rw [lit2.2]; norm_num⟩
  have KG0 : G ≤ K * G := by nlinarith
  have n3 : F32.Near (F32.mul (F32.lit 2) e) (2 * (val e : ℝ)) (1.2e-7 * (K * G)) := by
    refine F32.Near.mul 2 |(val e : ℝ)| 0 (2 * |(val e : ℝ)|) n2 (F32.Near.self fe.1) (by norm_num) le_rfl (by simp)
      (by rw [abs_mul]; norm_num) (by norm_num at b1 ⊢; linarith) ?_
    generalize K * G = V at *
    norm_num at hg ⊢; linarith
  have n4 : F32.Near (F32.add (F32.negate (F32.mul (F32.lit 2) e)) i) (-(2 * (val e : ℝ)) + val i)
      (1.81e-7 * (K * G) + 6e-8 * G) := by
    refine F32.Near.add (1.0001 * (K * G) + G) n3.negate (F32.Near.self fi.1) ?_ ?_ ?_
    · have := abs_add_le (-(val e : ℝ)) G
      rw [abs_of_pos G0, abs_neg] at this
      rw [show -(2 * (val e : ℝ)) + val i = -val e + G by rw [hG]; ring]
      norm_num; linarith
    · have : K * G ≤ 1e5 * G := mul_le_mul_of_nonneg_right hK G0.le
      norm_num at this e1 e2 ⊢; linarith
    · norm_num at hg ⊢; linarith
  have n5 := conc_den (x := x) (X := (val x : ℝ)) (D := G + (val x - val e)) (by linarith) hg (by norm_num at *; linarith) hK hK1
    (F32.Near.self fx.1) n4 (by rw [hG]; ring)
  have n6 := conc_div (δ := 1.82e-7 * K + 1.3e-7) G0 (by linarith : G ≤ G + (val x - val e)) hg (by norm_num; linarith) (by norm_num at hK ⊢; linarith) n1 n5
  exact n6.mono (by norm_num; linarith)

theorem conc_code (inp : Nat → Out (IO (BitVec 32))) (p : Nat → Out (BitVec 32)) (n : Nat) (io : IO (BitVec 32))
    (i e : BitVec 32) (hx : inp 0 = .ok io) (h0 : p 0 = .ok i) (h1 : p 1 = .ok e) :
    ConcaveMF inp p n =
      if (F32.le i e && F32.lt io.value e) = true then
        .ok (F32.div (F32.sub e i) (F32.sub (F32.sub (F32.mul (F32.lit 2) e) i) io.value))
      else if (F32.lt e i && F32.lt e io.value) = true then
        .ok (F32.div (F32.sub i e) (F32.add (F32.add (F32.negate (F32.mul (F32.lit 2) e)) i) io.value))
      else .ok (F32.lit 1) := by
  simp only [ConcaveMF, hx, h0, h1, Out.bind_ok, Out.pure_eq]
  rfl

/-- **C168** (part, concave sets) within `1.9e-7 K + 3e-7` of the exact membership, where `K` bounds the end of the flank measured in
flank lengths. Missing: the bound by one, which fails in the last place (`C168_concave_false`). -/
theorem C168_concave_partial (inp : Nat → Out (IO (BitVec 32))) (p : Nat → Out (BitVec 32)) (n : Nat) (io : IO (BitVec 32))
    (i e : BitVec 32) (K : ℝ) (hx : inp 0 = .ok io) (h0 : p 0 = .ok i) (h1 : p 1 = .ok e)
    (fx : Fin9 io.value) (fi : Fin9 i) (fe : Fin9 e) (hK1 : 1 ≤ K) (hK : K ≤ 1e5)
    (hg : 1e-9 ≤ |(val e : ℝ) - val i|) (he : |(val e : ℝ)| ≤ K * |(val e : ℝ) - val i|) :
    ∃ y, ConcaveMF inp p n = .ok y ∧ F32.Finite y ∧
      |(val y : ℝ) - concaveSet (val i) (val e) (val io.value)| ≤ 1.9e-7 * K + 3e-7 := by
  rw [conc_code inp p n io i e hx h0 h1, le_fin fi.1 fe.1, lt_fin fx.1 fe.1, lt_fin fe.1 fi.1, lt_fin fe.1 fx.1]
  have one : ∃ y, (Out.ok (F32.lit 1) : Out (BitVec 32)) = .ok y ∧ F32.Finite y ∧ |(val y : ℝ) - 1| ≤ 1.9e-7 * K + 3e-7 :=
    ⟨_, rfl, l0.2.2.1, by rw [l0.2.2.2]; norm_num; linarith⟩
  unfold concaveSet
  by_cases k : val i ≤ val e
  · have k' : (val i : ℝ) ≤ val e := by exact_mod_cast k
    rw [if_pos k']
    rw [abs_of_nonneg (by linarith : (0 : ℝ) ≤ val e - val i)] at hg he
    by_cases kx : val io.value < val e
    · have kx' : (val io.value : ℝ) < val e := by exact_mod_cast kx
      rw [if_pos (by simp [k, kx]), if_pos kx']
      have := conc_left fx fi fe hK1 hK hg he kx'.le
      exact ⟨_, rfl, this.fin, this.err⟩
    · rw [if_neg (by simp [kx]), if_neg (by simp [k]), if_neg (by exact_mod_cast kx)]
      exact one
  · have k' : ¬ (val i : ℝ) ≤ val e := by exact_mod_cast k
    rw [if_neg k']
    have k2 : (val e : ℝ) < val i := not_le.1 k'
    rw [abs_of_neg (by linarith : (val e : ℝ) - val i < 0), neg_sub] at hg he
    by_cases kx : val e < val io.value
    · have kx' : (val e : ℝ) < val io.value := by exact_mod_cast kx
      rw [if_neg (by simp [k]), if_pos (by simp [not_le.1 k, kx]), if_pos kx']
      have := conc_right fx fi fe hK1 hK hg he kx'.le
      exact ⟨_, rfl, this.fin, this.err⟩
    · rw [if_neg (by simp [k]), if_neg (by simp [kx]), if_neg (by exact_mod_cast kx)]
      exact one

/-- **C168** (negation) A concave set may exceed one: the inflection −62.05…, the end −0.0555… and the `float` just below the end
give `1 + 2^-23`. -/
theorem C168_concave_false (inp : Nat → Out (IO (BitVec 32))) (p : Nat → Out (BitVec 32)) (n : Nat) (io : IO (BitVec 32))
    (hx : inp 0 = .ok io) (h0 : p 0 = .ok 0xC2783CFB#32) (h1 : p 1 = .ok 0xBD635DF1#32) (hv : io.value = 0xBD635DF2#32) :
    ∃ y, ConcaveMF inp p n = .ok y ∧ F32.Finite y ∧ 1 < val y := by
  rw [conc_code inp p n io _ _ hx h0 h1, hv]
  rw [if_pos (by decide +kernel)]
  exact ⟨_, rfl, by decide +kernel, by decide +kernel⟩

/-! ## Examples -/

/-- Example: `C168_cosine` at 7 with centre 2 and width 100 (inside), `C168_gbell` at 7 with width 2, exponent 1 and centre −3,
`C168_concave_partial` with inflection −3 and end 2. -/
example : (Fin9 (F32.lit 7) ∧ Fin9 (F32.lit 2) ∧ F32.Finite (F32.lit 100) ∧ (1e-9 : ℝ) ≤ val (F32.lit 100) ∧
      (val (F32.lit 100) : ℝ) ≤ 1e9 ∧ |(val (F32.lit 2) : ℝ)| ≤ 1e4 * val (F32.lit 100)) ∧
    (1e-24 ≤ |((val (F32.lit 7) : ℝ) - val (F32.lit (-3))) / val (F32.lit 2)| ∧
      |2 * val (F32.lit 1) * Real.logb 2 (abs (((val (F32.lit 7) : ℝ) - val (F32.lit (-3))) / val (F32.lit 2)))| ≤ 120) ∧
    1e-9 ≤ |(val (F32.lit 2) : ℝ) - val (F32.lit (-3))| ∧
      |(val (F32.lit 2) : ℝ)| ≤ 1 * |(val (F32.lit 2) : ℝ) - val (F32.lit (-3))| := by
  rw [(ex_fin9 100 (by decide)).2, (ex_fin9 2 (by decide)).2, (ex_fin9 7 (by decide)).2, (ex_fin9 (-3) (by decide)).2,
    (ex_fin9 1 (by decide)).2]
  refine ⟨⟨fin9_lit (by decide), fin9_lit (by decide), (ex_fin9 100 (by decide)).1, by norm_num, by norm_num, by norm_num⟩,
    ⟨by norm_num, ?_⟩, by norm_num, by norm_num⟩
  norm_num
  have h0 : 0 ≤ Real.logb 2 5 := Real.logb_nonneg (by norm_num) (by norm_num)
  have h1 : Real.logb 2 5 ≤ 3 := by
    rw [Real.logb_le_iff_le_rpow (by norm_num) (by norm_num)]
    norm_num
  rw [abs_of_nonneg h0]
  linarith

end Verif.Fis
