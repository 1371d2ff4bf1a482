import Verif.Pid.Windup
import Verif.Pid.Identify
import Verif.F32.Hull

/-!
# The auto-tuner of an idle loop in binary32 (C144)
-/

namespace Verif.Pid

open Arith Numa
open F32 (IsNaN val)

/-! ### Zeros and non-finite values -/

/-- A zero of either sign. Not a definition of the repository. -/
def Z (x : BitVec 32) : Prop := F32.Finite x ∧ val x = 0

theorem rnd_zero (s : Bool) : Z (F32.rnd s 0) := by
  have z : F32.Finite 0#32 ∧ val 0#32 = 0 := by decide +kernel
  have := F32.rnd_exact (s := s) z.1 z.2.symm
  exact ⟨this.1, this.2⟩

theorem Z.add {a b : BitVec 32} (ha : Z a) (hb : Z b) : Z (F32.add a b) := by
  rw [F32.add_fin ha.1 hb.1, ha.2, hb.2, add_zero]; exact rnd_zero _

theorem Z.sub {a b : BitVec 32} (ha : Z a) (hb : Z b) : Z (F32.sub a b) := by
  rw [F32.sub_fin ha.1 hb.1, ha.2, hb.2, sub_zero]; exact rnd_zero _

theorem Z.mul {a b : BitVec 32} (ha : Z a) (hb : F32.Finite b) : Z (F32.mul a b) := by
  rw [F32.mul_fin ha.1 hb, ha.2, zero_mul]; exact rnd_zero _

theorem Z.mul' {a b : BitVec 32} (ha : F32.Finite a) (hb : Z b) : Z (F32.mul a b) := by
  rw [F32.mul_fin ha hb.1, hb.2, mul_zero]; exact rnd_zero _

theorem Z.div {a b : BitVec 32} (ha : Z a) (hb : F32.Finite b) (h : val b ≠ 0) : Z (F32.div a b) := by
  rw [F32.div_fin ha.1 hb h, ha.2, zero_div]; exact rnd_zero _

/-- Adding a zero changes no value. -/
theorem Z.add_val {a b : BitVec 32} (ha : F32.Finite a) (hb : Z b) : F32.Finite (F32.add a b) ∧ val (F32.add a b) = val a := by
  rw [F32.add_fin ha hb.1, hb.2, add_zero]; exact F32.rnd_exact ha rfl

theorem Z.sub_val {a b : BitVec 32} (ha : F32.Finite a) (hb : Z b) : F32.Finite (F32.sub a b) ∧ val (F32.sub a b) = val a := by
  rw [F32.sub_fin ha hb.1, hb.2, sub_zero]; exact F32.rnd_exact ha rfl

theorem fin_cases (a : BitVec 32) : F32.Finite a ∨ IsNaN a ∨ F32.IsInf a := by
  rw [F32.finite_iff, F32.nan_iff, F32.inf_iff]; omega

theorem notFin_nan {a : BitVec 32} (h : IsNaN a) : ¬ F32.Finite a := fun k => k.notNaN h
theorem notFin_inf {a : BitVec 32} (h : F32.IsInf a) : ¬ F32.Finite a := fun k => k.notInf h

theorem notFin_add {a b : BitVec 32} (h : ¬ F32.Finite a) : ¬ F32.Finite (F32.add a b) := by
  have q : ¬ F32.Finite F32.qnan := by decide +kernel
  rcases fin_cases a with k | k | k
  · exact absurd k h
  · exact notFin_nan (F32.add_nan_left k)
  · unfold F32.add
    split_ifs
    · exact q
    · exact q
    · exact h

theorem notFin_negate {a : BitVec 32} (h : ¬ F32.Finite a) : ¬ F32.Finite (F32.negate a) := fun k => h (F32.finite_negate.1 k)

theorem notFin_sub_right {a b : BitVec 32} (h : ¬ F32.Finite b) : ¬ F32.Finite (F32.sub a b) := by
  unfold F32.sub
  rw [F32.add_comm]
  exact notFin_add (notFin_negate h)

theorem notFin_sub_left {a b : BitVec 32} (h : ¬ F32.Finite a) : ¬ F32.Finite (F32.sub a b) := by
  unfold F32.sub
  exact notFin_add h

theorem notFin_mul {a b : BitVec 32} (h : ¬ F32.Finite a) : ¬ F32.Finite (F32.mul a b) := by
  have q : ¬ F32.Finite F32.qnan := by decide +kernel
  have p : ∀ s, ¬ F32.Finite (F32.pack s 2139095040) := by decide +kernel
  rcases fin_cases a with k | k | k
  · exact absurd k h
  · exact notFin_nan (F32.mul_nan_left k)
  · unfold F32.mul
    rw [if_pos (.inl k : F32.IsInf a ∨ F32.IsInf b)]
    split_ifs
    · exact q
    · exact q
    · exact p _

/-- Something that is not finite, times zero, is NaN. -/
theorem notFin_mul_zero {a b : BitVec 32} (h : ¬ F32.Finite a) (hb : Z b) : IsNaN (F32.mul a b) := by
  rcases fin_cases a with k | k | k
  · exact absurd k h
  · exact F32.mul_nan_left k
  · have hn : ¬ IsNaN a := by rw [F32.nan_iff]; rw [F32.inf_iff] at k; omega
    unfold F32.mul
    rw [if_neg (by simp [hn, hb.1.notNaN]), if_pos (.inl k), if_pos (.inr (F32.val_eq_zero.1 hb.2))]
    decide

theorem sub_nan_left {a b : BitVec 32} (h : IsNaN a) : IsNaN (F32.sub a b) := F32.add_nan_left h
theorem sub_nan_right {a b : BitVec 32} (h : IsNaN b) : IsNaN (F32.sub a b) := F32.add_nan_right (F32.nan_negate.2 h)

theorem div_nan_left {a b : BitVec 32} (h : IsNaN a) : IsNaN (F32.div a b) := by
  unfold F32.div; rw [if_pos (.inl h)]; decide

theorem div_nan_right {a b : BitVec 32} (h : IsNaN b) : IsNaN (F32.div a b) := by
  unfold F32.div; rw [if_pos (.inr h)]; decide

/-! ### The identification of an idle plant -/

/-- The memory factor set by `initialize`, `/repo/src/pid.cpp` line 401. -/
def l0 : BitVec 32 := F32.lit (9898 / 10000)

/-- The tuner has seen nothing but zeros; `g` is a lower bound of the covariance. -/
structure Quiet (g : ℚ) (a : AutoTuning (BitVec 32)) : Prop where
  l : a.l = l0
  uk : Z a.uk
  yk : Z a.yk
  p01 : Z a.p01
  p10 : Z a.p10
  p00 : F32.Finite a.p00
  p11 : F32.Finite a.p11
  big : g ≤ val a.p00

/-- The covariance has overflowed. -/
structure Blown (a : AutoTuning (BitVec 32)) : Prop where
  uk : Z a.uk
  yk : Z a.yk
  p : ¬ F32.Finite a.p00 ∨ ¬ F32.Finite a.p11

/-- An idle sample multiplies the covariance by more than 1.01, or it overflows. -/
theorem quiet_step {g : ℚ} (hg : 1 ≤ g) {a : AutoTuning (BitVec 32)} (h : Quiet g a) {u y : BitVec 32} (hu : Z u) (hy : Z y) :
    Quiet (101 / 100 * g) (a.identify u y) ∨ Blown (a.identify u y) := by
  obtain ⟨hl, huk, hyk, h01, h10, f0, f1, hb⟩ := h
  have lf : F32.Finite l0 ∧ val l0 ≠ 0 := by decide +kernel
  have one : F32.Finite (F32.lit 1) ∧ val (F32.lit 1) = 1 := by decide +kernel
  have il : F32.Finite (F32.div (F32.lit 1) l0) ∧ val (F32.div (F32.lit 1) l0) = 4237527 / 4194304 := by decide +kernel
  have eps : F32.Finite (F32.lit (1 / 10 ^ 10)) ∧ 0 ≤ val (F32.lit (1 / 10 ^ 10)) := by decide +kernel
  -- the divisor is the memory factor
  have t1 : Z (F32.mul a.p00 a.uk) := .mul' f0 huk
  have t2 : Z (F32.mul a.p11 a.yk) := .mul' f1 hyk
  have s1 : Z (F32.mul a.uk (F32.sub (F32.mul a.p00 a.uk) (F32.mul a.p10 a.yk))) := huk.mul (t1.sub (h10.mul hyk.1)).1
  have s2 : Z (F32.mul a.yk (F32.sub (F32.mul a.p01 a.uk) (F32.mul a.p11 a.yk))) := hyk.mul ((h01.mul huk.1).sub t2).1
  have r1 := Z.add_val lf.1 s1
  have r2 := Z.sub_val r1.1 s2
  have r0 : val (F32.sub (F32.add l0 (F32.mul a.uk (F32.sub (F32.mul a.p00 a.uk) (F32.mul a.p10 a.yk))))
      (F32.mul a.yk (F32.sub (F32.mul a.p01 a.uk) (F32.mul a.p11 a.yk)))) ≠ 0 := by rw [r2.2, r1.2]; exact lf.2
  have z0 := (t1.sub (h01.mul hyk.1)).div r2.1 r0
  have z1 := ((h10.mul huk.1).sub t2).div r2.1 r0
  generalize hL0 : F32.div (F32.sub (F32.mul a.p00 a.uk) (F32.mul a.p01 a.yk)) (F32.sub (F32.add l0 (F32.mul a.uk
    (F32.sub (F32.mul a.p00 a.uk) (F32.mul a.p10 a.yk)))) (F32.mul a.yk (F32.sub (F32.mul a.p01 a.uk)
    (F32.mul a.p11 a.yk)))) = L0 at z0
  generalize hL1 : F32.div (F32.sub (F32.mul a.p10 a.uk) (F32.mul a.p11 a.yk)) (F32.sub (F32.add l0 (F32.mul a.uk
    (F32.sub (F32.mul a.p00 a.uk) (F32.mul a.p10 a.yk)))) (F32.mul a.yk (F32.sub (F32.mul a.p01 a.uk)
    (F32.mul a.p11 a.yk)))) = L1 at z1
  generalize hil : F32.div (F32.lit 1) l0 = i at il
  have e00 : (a.identify u y).p00 = F32.add (F32.sub (F32.mul (F32.mul L0 (F32.mul i a.p10)) a.yk)
      (F32.mul (F32.mul i a.p00) (F32.sub (F32.mul L0 a.uk) (F32.lit 1)))) (F32.lit (1 / 10 ^ 10)) := by
    rw [← hL0, ← hil, ← hl]; rfl
  have e01 : (a.identify u y).p01 = F32.sub (F32.mul (F32.mul L0 (F32.mul i a.p11)) a.yk)
      (F32.mul (F32.mul i a.p01) (F32.sub (F32.mul L0 a.uk) (F32.lit 1))) := by
    rw [← hL0, ← hil, ← hl]; rfl
  have e10 : (a.identify u y).p10 = F32.sub (F32.mul (F32.mul i a.p10) (F32.add (F32.mul L1 a.yk) (F32.lit 1)))
      (F32.mul (F32.mul L1 (F32.mul i a.p00)) a.uk) := by
    rw [← hL1, ← hil, ← hl]; rfl
  have e11 : (a.identify u y).p11 = F32.add (F32.sub (F32.mul (F32.mul i a.p11) (F32.add (F32.mul L1 a.yk) (F32.lit 1)))
      (F32.mul (F32.mul L1 (F32.mul i a.p01)) a.uk)) (F32.lit (1 / 10 ^ 10)) := by
    rw [← hL1, ← hil, ← hl]; rfl
  by_cases k0 : F32.Finite (F32.mul i a.p00)
  swap
  · exact .inr ⟨hu, hy, .inl (by rw [e00]; exact notFin_add (notFin_sub_right (notFin_mul k0)))⟩
  by_cases k1 : F32.Finite (F32.mul i a.p11)
  swap
  · exact .inr ⟨hu, hy, .inr (by rw [e11]; exact notFin_add (notFin_sub_left (notFin_mul k1)))⟩
  by_cases k2 : F32.Finite (a.identify u y).p00
  swap
  · exact .inr ⟨hu, hy, .inl k2⟩
  by_cases k3 : F32.Finite (a.identify u y).p11
  swap
  · exact .inr ⟨hu, hy, .inr k3⟩
  left
  have m1 : F32.Finite (F32.sub (F32.mul L0 a.uk) (F32.lit 1)) ∧ val (F32.sub (F32.mul L0 a.uk) (F32.lit 1)) = -1 := by
    have z := z0.mul huk.1
    have n1 : F32.Finite (F32.lit (-1)) ∧ val (F32.lit (-1)) = -1 := by decide +kernel
    rw [F32.sub_fin z.1 one.1, z.2, one.2]
    have := F32.rnd_exact (s := F32.neg (F32.mul L0 a.uk) && !F32.neg (F32.lit 1)) n1.1 (by rw [n1.2]; norm_num : (0 : ℚ) - 1 = _)
    exact ⟨this.1, this.2.trans (by norm_num)⟩
  have m2 : F32.Finite (F32.add (F32.mul L1 a.yk) (F32.lit 1)) := by
    have z := z1.mul hyk.1
    rw [F32.add_comm]
    exact (Z.add_val one.1 z).1
  refine ⟨hl, hu, hy, ?_, ?_, k2, k3, ?_⟩
  · rw [e01]
    exact ((z0.mul k1).mul hyk.1).sub ((Z.mul' il.1 h01).mul m1.1)
  · rw [e10]
    exact ((Z.mul' il.1 h10).mul m2).sub ((z1.mul k0).mul huk.1)
  · -- the growth
    have g1 : F32.Finite (F32.mul (F32.mul i a.p00) (F32.sub (F32.mul L0 a.uk) (F32.lit 1))) ∧
        val (F32.mul (F32.mul i a.p00) (F32.sub (F32.mul L0 a.uk) (F32.lit 1))) = -val (F32.mul i a.p00) := by
      rw [F32.mul_fin k0 m1.1, m1.2, mul_neg_one]
      have := F32.rnd_exact (s := F32.neg (F32.mul i a.p00) ^^ F32.neg (F32.sub (F32.mul L0 a.uk) (F32.lit 1)))
        (F32.finite_negate.2 k0) (F32.val_negate (F32.mul i a.p00)).symm
      exact this
    have z2 : Z (F32.mul (F32.mul L0 (F32.mul i a.p10)) a.yk) := (z0.mul (Z.mul' il.1 h10).1).mul hyk.1
    have g2 : F32.Finite (F32.sub (F32.mul (F32.mul L0 (F32.mul i a.p10)) a.yk)
        (F32.mul (F32.mul i a.p00) (F32.sub (F32.mul L0 a.uk) (F32.lit 1)))) ∧
        val (F32.sub (F32.mul (F32.mul L0 (F32.mul i a.p10)) a.yk)
        (F32.mul (F32.mul i a.p00) (F32.sub (F32.mul L0 a.uk) (F32.lit 1)))) = val (F32.mul i a.p00) := by
      rw [F32.sub_fin z2.1 g1.1, z2.2, g1.2, zero_sub, neg_neg]
      exact F32.rnd_exact k0 rfl
    have g3 : val (F32.mul i a.p00) ≤ val (a.identify u y).p00 := by
      rw [e00, F32.add_fin g2.1 eps.1]
      exact F32.le_rnd k0 (by rw [g2.2]; linarith [eps.2])
    have g4 : 101 / 100 * val a.p00 ≤ val (F32.mul i a.p00) := by
      have k0' := k0
      rw [F32.mul_fin il.1 f0, il.2] at k0' ⊢
      have e := F32.rnd_err k0'
      have p0 : 1 ≤ val a.p00 := hg.trans hb
      rw [abs_of_nonneg (by positivity : 0 ≤ 4237527 / 4194304 * val a.p00)] at e
      have e1 : max (4237527 / 4194304 * val a.p00 * 2 ^ (-24 : ℤ)) (2 ^ (-150 : ℤ)) ≤ 1 / 10000 * val a.p00 := by
        apply max_le
        · norm_num; linarith
        · norm_num; linarith
      have e2 := (abs_le.1 (e.trans e1)).1
      linarith
    linarith

/-- An overflown covariance makes the estimate NaN at the next sample. -/
theorem blown_step {a : AutoTuning (BitVec 32)} (h : Blown a) (u y : BitVec 32) : IsNaN (a.identify u y).b1 := by
  have e : (a.identify u y).b1 = F32.add a.b1 (F32.mul (F32.div (F32.sub (F32.mul a.p00 a.uk) (F32.mul a.p01 a.yk))
      (F32.sub (F32.add a.l (F32.mul a.uk (F32.sub (F32.mul a.p00 a.uk) (F32.mul a.p10 a.yk)))) (F32.mul a.yk
      (F32.sub (F32.mul a.p01 a.uk) (F32.mul a.p11 a.yk))))) (F32.sub y (F32.sub (F32.mul a.b1 a.uk) (F32.mul a.a1 a.yk)))) :=
    rfl
  rw [e]
  apply F32.add_nan_right
  apply F32.mul_nan_left
  rcases h.p with k | k
  · exact div_nan_left (sub_nan_left (notFin_mul_zero k h.uk))
  · exact div_nan_right (sub_nan_right (F32.mul_nan_right (sub_nan_right (notFin_mul_zero k h.yk))))

/-- A NaN estimate remains. -/
theorem nan_step {a : AutoTuning (BitVec 32)} (h : IsNaN a.b1) (u y : BitVec 32) : IsNaN (a.identify u y).b1 :=
  F32.add_nan_left h

/-- The tuner with memory factor 1 has seen nothing but zeros: its covariance is the initial one and its estimates are
`b` and `c`. -/
structure Still (b c : ℚ) (a : AutoTuning (BitVec 32)) : Prop where
  l : a.l = F32.lit 1
  uk : Z a.uk
  yk : Z a.yk
  p01 : Z a.p01
  p10 : Z a.p10
  p00 : F32.Finite a.p00 ∧ val a.p00 = 1000
  p11 : F32.Finite a.p11 ∧ val a.p11 = 1000
  b1 : F32.Finite a.b1 ∧ val a.b1 = b
  a1 : F32.Finite a.a1 ∧ val a.a1 = c

/-- With the memory factor 1 an idle sample changes nothing. -/
theorem still_step {b c : ℚ} {a : AutoTuning (BitVec 32)} (h : Still b c a) {u y : BitVec 32} (hu : Z u) (hy : Z y) :
    Still b c (a.identify u y) := by
  obtain ⟨hl, huk, hyk, h01, h10, ⟨f0, v0⟩, ⟨f1, v1⟩, ⟨fb, vb⟩, fa, va⟩ := h
  have hse : a = { a with l := F32.lit 1 } := by rw [← hl]
  have one : F32.Finite (F32.lit 1) ∧ val (F32.lit 1) = 1 := by decide +kernel
  have il : F32.Finite (F32.div (F32.lit 1) (F32.lit 1)) ∧ val (F32.div (F32.lit 1) (F32.lit 1)) = 1 := by decide +kernel
  have eps : F32.Finite (F32.lit (1 / 10 ^ 10)) := by decide +kernel
  have sum : ∀ s, F32.Finite (F32.rnd s (1000 + val (F32.lit (1 / 10 ^ 10)))) ∧
      val (F32.rnd s (1000 + val (F32.lit (1 / 10 ^ 10)))) = 1000 := by decide +kernel
  have t1 : Z (F32.mul a.p00 a.uk) := .mul' f0 huk
  have t2 : Z (F32.mul a.p11 a.yk) := .mul' f1 hyk
  have s1 : Z (F32.mul a.uk (F32.sub (F32.mul a.p00 a.uk) (F32.mul a.p10 a.yk))) := huk.mul (t1.sub (h10.mul hyk.1)).1
  have s2 : Z (F32.mul a.yk (F32.sub (F32.mul a.p01 a.uk) (F32.mul a.p11 a.yk))) := hyk.mul ((h01.mul huk.1).sub t2).1
  have r1 := Z.add_val one.1 s1
  have r2 := Z.sub_val r1.1 s2
  have r0 : val (F32.sub (F32.add (F32.lit 1) (F32.mul a.uk (F32.sub (F32.mul a.p00 a.uk) (F32.mul a.p10 a.yk))))
      (F32.mul a.yk (F32.sub (F32.mul a.p01 a.uk) (F32.mul a.p11 a.yk)))) ≠ 0 := by rw [r2.2, r1.2, one.2]; norm_num
  have z0 := (t1.sub (h01.mul hyk.1)).div r2.1 r0
  have z1 := ((h10.mul huk.1).sub t2).div r2.1 r0
  generalize hL0 : F32.div (F32.sub (F32.mul a.p00 a.uk) (F32.mul a.p01 a.yk)) (F32.sub (F32.add (F32.lit 1) (F32.mul a.uk
    (F32.sub (F32.mul a.p00 a.uk) (F32.mul a.p10 a.yk)))) (F32.mul a.yk (F32.sub (F32.mul a.p01 a.uk)
    (F32.mul a.p11 a.yk)))) = L0 at z0
  generalize hL1 : F32.div (F32.sub (F32.mul a.p10 a.uk) (F32.mul a.p11 a.yk)) (F32.sub (F32.add (F32.lit 1) (F32.mul a.uk
    (F32.sub (F32.mul a.p00 a.uk) (F32.mul a.p10 a.yk)))) (F32.mul a.yk (F32.sub (F32.mul a.p01 a.uk)
    (F32.mul a.p11 a.yk)))) = L1 at z1
  generalize hil : F32.div (F32.lit 1) (F32.lit 1) = i at il
  have e00 : (a.identify u y).p00 = F32.add (F32.sub (F32.mul (F32.mul L0 (F32.mul i a.p10)) a.yk)
      (F32.mul (F32.mul i a.p00) (F32.sub (F32.mul L0 a.uk) (F32.lit 1)))) (F32.lit (1 / 10 ^ 10)) := by
    rw [← hL0, ← hil]; conv_lhs => rw [hse]
    rfl
  have e01 : (a.identify u y).p01 = F32.sub (F32.mul (F32.mul L0 (F32.mul i a.p11)) a.yk)
      (F32.mul (F32.mul i a.p01) (F32.sub (F32.mul L0 a.uk) (F32.lit 1))) := by
    rw [← hL0, ← hil]; conv_lhs => rw [hse]
    rfl
  have e10 : (a.identify u y).p10 = F32.sub (F32.mul (F32.mul i a.p10) (F32.add (F32.mul L1 a.yk) (F32.lit 1)))
      (F32.mul (F32.mul L1 (F32.mul i a.p00)) a.uk) := by
    rw [← hL1, ← hil]; conv_lhs => rw [hse]
    rfl
  have e11 : (a.identify u y).p11 = F32.add (F32.sub (F32.mul (F32.mul i a.p11) (F32.add (F32.mul L1 a.yk) (F32.lit 1)))
      (F32.mul (F32.mul L1 (F32.mul i a.p01)) a.uk)) (F32.lit (1 / 10 ^ 10)) := by
    rw [← hL1, ← hil]; conv_lhs => rw [hse]
    rfl
  have eb : (a.identify u y).b1 = F32.add a.b1 (F32.mul L0 (F32.sub y (F32.sub (F32.mul a.b1 a.uk) (F32.mul a.a1 a.yk)))) := by
    rw [← hL0]; conv_lhs => rw [hse]
    rfl
  have ea : (a.identify u y).a1 = F32.add a.a1 (F32.mul L1 (F32.sub y (F32.sub (F32.mul a.b1 a.uk) (F32.mul a.a1 a.yk)))) := by
    rw [← hL1]; conv_lhs => rw [hse]
    rfl
  have ze : Z (F32.sub y (F32.sub (F32.mul a.b1 a.uk) (F32.mul a.a1 a.yk))) :=
    hy.sub ((Z.mul' fb huk).sub (Z.mul' fa hyk))
  have k0 : F32.Finite (F32.mul i a.p00) ∧ val (F32.mul i a.p00) = 1000 := by
    rw [F32.mul_fin il.1 f0, il.2, one_mul, ← v0]; exact F32.rnd_exact f0 rfl
  have k1 : F32.Finite (F32.mul i a.p11) ∧ val (F32.mul i a.p11) = 1000 := by
    rw [F32.mul_fin il.1 f1, il.2, one_mul, ← v1]; exact F32.rnd_exact f1 rfl
  have m1 : F32.Finite (F32.sub (F32.mul L0 a.uk) (F32.lit 1)) ∧ val (F32.sub (F32.mul L0 a.uk) (F32.lit 1)) = -1 := by
    have z := z0.mul huk.1
    have n1 : F32.Finite (F32.lit (-1)) ∧ val (F32.lit (-1)) = -1 := by decide +kernel
    rw [F32.sub_fin z.1 one.1, z.2, one.2]
    have := F32.rnd_exact (s := F32.neg (F32.mul L0 a.uk) && !F32.neg (F32.lit 1)) n1.1 (by rw [n1.2]; norm_num : (0 : ℚ) - 1 = _)
    exact ⟨this.1, this.2.trans (by norm_num)⟩
  have m2 : F32.Finite (F32.add (F32.mul L1 a.yk) (F32.lit 1)) ∧ val (F32.add (F32.mul L1 a.yk) (F32.lit 1)) = 1 := by
    have z := z1.mul hyk.1
    rw [F32.add_comm]
    have q := Z.add_val one.1 z
    exact ⟨q.1, q.2.trans one.2⟩
  have g1 : F32.Finite (F32.mul (F32.mul i a.p00) (F32.sub (F32.mul L0 a.uk) (F32.lit 1))) ∧
      val (F32.mul (F32.mul i a.p00) (F32.sub (F32.mul L0 a.uk) (F32.lit 1))) = -1000 := by
    rw [F32.mul_fin k0.1 m1.1, m1.2, k0.2]
    have n1 : F32.Finite (F32.lit (-1000)) ∧ val (F32.lit (-1000)) = -1000 := by decide +kernel
    have := F32.rnd_exact (s := F32.neg (F32.mul i a.p00) ^^ F32.neg (F32.sub (F32.mul L0 a.uk) (F32.lit 1))) n1.1
      (by rw [n1.2]; norm_num : (1000 : ℚ) * -1 = _)
    exact ⟨this.1, this.2.trans (by norm_num)⟩
  have g2 : F32.Finite (F32.mul (F32.mul i a.p11) (F32.add (F32.mul L1 a.yk) (F32.lit 1))) ∧
      val (F32.mul (F32.mul i a.p11) (F32.add (F32.mul L1 a.yk) (F32.lit 1))) = 1000 := by
    rw [F32.mul_fin k1.1 m2.1, m2.2, mul_one, ← k1.2]
    exact F32.rnd_exact k1.1 rfl
  refine ⟨hl, hu, hy, ?_, ?_, ?_, ?_, ?_, ?_⟩
  · rw [e01]
    exact ((z0.mul k1.1).mul hyk.1).sub ((Z.mul' il.1 h01).mul m1.1)
  · rw [e10]
    exact ((Z.mul' il.1 h10).mul m2.1).sub ((z1.mul k0.1).mul huk.1)
  · have z2 : Z (F32.mul (F32.mul L0 (F32.mul i a.p10)) a.yk) := (z0.mul (Z.mul' il.1 h10).1).mul hyk.1
    have n1 : F32.Finite (F32.lit 1000) ∧ val (F32.lit 1000) = 1000 := by decide +kernel
    have q := F32.rnd_exact (s := F32.neg (F32.mul (F32.mul L0 (F32.mul i a.p10)) a.yk) &&
      !F32.neg (F32.mul (F32.mul i a.p00) (F32.sub (F32.mul L0 a.uk) (F32.lit 1)))) n1.1
      (by rw [n1.2]; norm_num : (0 : ℚ) - -1000 = _)
    have q2 : F32.Finite (F32.sub (F32.mul (F32.mul L0 (F32.mul i a.p10)) a.yk)
        (F32.mul (F32.mul i a.p00) (F32.sub (F32.mul L0 a.uk) (F32.lit 1)))) ∧
        val (F32.sub (F32.mul (F32.mul L0 (F32.mul i a.p10)) a.yk)
        (F32.mul (F32.mul i a.p00) (F32.sub (F32.mul L0 a.uk) (F32.lit 1)))) = 1000 := by
      rw [F32.sub_fin z2.1 g1.1, z2.2, g1.2]
      exact ⟨q.1, q.2.trans (by norm_num)⟩
    rw [e00, F32.add_fin q2.1 eps, q2.2]
    exact sum _
  · have z2 : Z (F32.mul (F32.mul L1 (F32.mul i a.p01)) a.uk) := (z1.mul (Z.mul' il.1 h01).1).mul huk.1
    have q2 := Z.sub_val g2.1 z2
    rw [e11, F32.add_fin q2.1 eps, q2.2, g2.2]
    exact sum _
  · rw [eb, ← vb]; exact Z.add_val fb (z0.mul ze.1)
  · rw [ea, ← va]; exact Z.add_val fa (z1.mul ze.1)

/-- The rest of `step` leaves the identification alone. -/
theorem step_identify' [Trans (BitVec 32)] (a : AutoTuning (BitVec 32)) (u y dt : BitVec 32) :
    ∃ k tao it, (a.step u y dt).1 = { a.identify u y with k := k, tao := tao, it := it } := by
  unfold AutoTuning.step
  simp only
  split_ifs
  · exact ⟨_, _, _, rfl⟩
  · exact ⟨_, _, _, rfl⟩

/-- The tuner after `n` idle samples. -/
def idleTuner [Trans (BitVec 32)] (a : AutoTuning (BitVec 32)) (dt : BitVec 32) : ℕ → AutoTuning (BitVec 32)
  | 0 => a
  | n + 1 => ((idleTuner a dt n).step 0#32 0#32 dt).1

/-- **C144** (partial) with the memory factor 1 (`setAutoTuningParameters( mu, alpha, 1 )`) an idle loop leaves the estimates and
the covariance alone, for ever. Missing: all other memory factors, for which it is false (`C144_idle_false`). -/
theorem C144_partial [Trans (BitVec 32)] (a : AutoTuning (BitVec 32)) (hl : a.l = F32.lit 1) (h00 : a.p00 = F32.lit 1000)
    (h11 : a.p11 = F32.lit 1000) (h01 : a.p01 = F32.lit 0) (h10 : a.p10 = F32.lit 0) (hu : a.uk = F32.lit 0)
    (hy : a.yk = F32.lit 0) (hb : F32.Finite a.b1) (ha : F32.Finite a.a1) (dt : BitVec 32) (n : ℕ) :
    val (idleTuner a dt n).b1 = val a.b1 ∧ val (idleTuner a dt n).a1 = val a.a1 ∧ val (idleTuner a dt n).p00 = 1000 ∧
      val (idleTuner a dt n).p11 = 1000 := by
  have z : Z (0#32) := by constructor <;> decide +kernel
  have zl : Z (F32.lit 0) := by constructor <;> decide +kernel
  have k : F32.Finite (F32.lit 1000) ∧ val (F32.lit 1000) = 1000 := by decide +kernel
  have key : ∀ n, Still (val a.b1) (val a.a1) (idleTuner a dt n) := by
    intro n
    induction n with
    | zero => exact ⟨hl, by rw [idleTuner, hu]; exact zl, by rw [idleTuner, hy]; exact zl, by rw [idleTuner, h01]; exact zl,
        by rw [idleTuner, h10]; exact zl, by rw [idleTuner, h00]; exact k, by rw [idleTuner, h11]; exact k, ⟨hb, rfl⟩, ha, rfl⟩
    | succ n ih =>
      obtain ⟨k, tao, it, e⟩ := step_identify' (idleTuner a dt n) 0#32 0#32 dt
      have q := still_step ih z z
      rw [idleTuner, e]
      exact ⟨q.l, q.uk, q.yk, q.p01, q.p10, q.p00, q.p11, q.b1, q.a1⟩
  have q := key n
  exact ⟨q.b1.2, q.a1.2, q.p00.2, q.p11.2⟩

/-! ### The controller -/

section Controller
variable [Trans (BitVec 32)]

/-- With a NaN estimate no step completes, and the countdown stops. -/
theorem dead_step {a : AutoTuning (BitVec 32)} (h : IsNaN a.b1) (u y dt : BitVec 32) :
    IsNaN (a.step u y dt).1.b1 ∧ (a.step u y dt).1.it = a.it ∧ (a.step u y dt).2 = false := by
  have k := nan_step h u y
  have v : isValidValue (div (a.identify u y).b1 (add (lit 1) (a.identify u y).a1)) = false := by
    have : IsNaN (div (a.identify u y).b1 (add (lit 1) (a.identify u y).a1)) := div_nan_left k
    unfold isValidValue
    have e : isNan (div (a.identify u y).b1 (add (lit 1) (a.identify u y).a1)) = true := decide_eq_true this
    rw [e]; rfl
  unfold AutoTuning.step
  simp only [v, Bool.and_false, Bool.false_and, Bool.false_eq_true, if_false]
  exact ⟨k, rfl, trivial⟩

/-- **C144** once the estimate is NaN, no call of `control` changes the gains and the auto-tuning is never complete, for ever and
whatever the signals, although `enableAutoTuning` succeeds. -/
theorem C144_dead (s : Ctl (BitVec 32)) (hi : s.isInitialized = true) (a : AutoTuning (BitVec 32)) (ha : s.adapt = some a)
    (hn : IsNaN a.b1) (tEnable : BitVec 32) (w y r : ℕ → BitVec 32) (n : ℕ) :
    (s.enableAutoTuning tEnable).2 = true ∧
    (after (s.enableAutoTuning tEnable).1 w y r n).isAutoTuningComplete = false ∧
      gains (after (s.enableAutoTuning tEnable).1 w y r n) = gains s := by
  have e : s.enableAutoTuning tEnable = ({ s with adapt := some (a.enable tEnable) }, true) := by
    unfold Ctl.enableAutoTuning; rw [ha]
  rw [e]
  refine ⟨rfl, ?_⟩
  have h0 : (a.enable tEnable).it ≠ 0#32 := by
    unfold AutoTuning.enable
    simp only
    split_ifs with h
    · decide
    · exact fun k => h k.symm
  have key : ∀ n, (after { s with adapt := some (a.enable tEnable) } w y r n).isInitialized = true ∧
      gains (after { s with adapt := some (a.enable tEnable) } w y r n) = gains s ∧
      ∃ t, (after { s with adapt := some (a.enable tEnable) } w y r n).adapt = some t ∧ IsNaN t.b1 ∧ t.it ≠ 0#32 := by
    intro n
    induction n with
    | zero => exact ⟨hi, rfl, a.enable tEnable, rfl, hn, h0⟩
    | succ n ih =>
      obtain ⟨i1, i2, t, i3, i4, i5⟩ := ih
      obtain ⟨-, c2, c3, c4⟩ := control_adapt (after { s with adapt := some (a.enable tEnable) } w y r n) (w n) (y n) (r n)
      have c3 := c3 i1
      rw [i3] at c3 c4
      obtain ⟨d1, d2, d3⟩ := dead_step i4
        ((after { s with adapt := some (a.enable tEnable) } w y r n).control (w n) (y n) (r n)).2 (y n)
        (after { s with adapt := some (a.enable tEnable) } w y r n).dt
      simp only [d3, Bool.and_false, Bool.false_eq_true, if_false] at c4
      exact ⟨c2.trans i1, c4.trans i2, _, c3, d1, by rw [d2]; exact i5⟩
  obtain ⟨-, k2, t, k3, -, k5⟩ := key n
  refine ⟨?_, k2⟩
  unfold Ctl.isAutoTuningComplete AutoTuning.isComplete
  rw [k3]
  simp only [Bool.and_eq_false_iff, decide_eq_false_iff_not]
  exact .inl (fun h => k5 h.symm)

/-- The controller is at rest: nothing but zeros in its memory, and finite parameters with limits on both sides of zero. -/
structure Rest (s : Ctl (BitVec 32)) : Prop where
  init : s.isInitialized = true
  mode : s.mode = .automatic
  yr : s.yr = false
  im : s.st.iMethod = .trapezoidal
  dm : s.st.dMethod = .twoPoints
  x0 : Z s.st.x0
  x1 : Z s.st.x1
  D : Z s.D
  u1 : Z s.u1
  Kc : F32.Finite s.Kc
  Ki : F32.Finite s.Ki
  Kd : F32.Finite s.Kd
  b : F32.Finite s.b
  c : F32.Finite s.c
  beta : F32.Finite s.beta
  kw : F32.Finite s.kw
  dt : F32.Finite s.dt ∧ val s.dt ≠ 0
  lo : F32.Finite s.satMin ∧ val s.satMin ≤ 0
  hi : F32.Finite s.satMax ∧ 0 ≤ val s.satMax

/-- What `control` does before it calls the auto-tuner does not depend on the auto-tuner. -/
theorem control_some (s : Ctl (BitVec 32)) (hi : s.isInitialized = true) {a : AutoTuning (BitVec 32)}
    (ha : s.adapt = some a) (w y r : BitVec 32) :
    s.control w y r = (({ ({ s with adapt := none }.control w y r).1 with adapt := some a }).adaptGains a
      ({ s with adapt := none }.control w y r).2 y, ({ s with adapt := none }.control w y r).2) := by
  unfold Ctl.control
  simp only [hi, if_true, ha]
  rfl

omit [Trans (BitVec 32)] in
theorem Z.error {s : Ctl (BitVec 32)} {w y k : BitVec 32} (hw : Z w) (hy : Z y) (hk : F32.Finite k) : Z (s.error w y k) := by
  have h : Z (F32.sub (F32.mul k w) y) := (Z.mul' hk hw).sub hy
  have z : Z (F32.lit 0) := by constructor <;> decide +kernel
  unfold Ctl.error
  simp only
  split_ifs
  · exact z
  · exact h

omit [Trans (BitVec 32)] in
theorem Z.saturate {v lo hi : BitVec 32} (hv : Z v) (h1 : F32.Finite lo ∧ val lo ≤ 0) (h2 : F32.Finite hi ∧ 0 ≤ val hi) :
    Z (saturate v lo hi) := by
  have k1 : F32.lt hi v = false := by rw [F32.lt_fin h2.1 hv.1, hv.2, decide_eq_false_iff_not]; linarith [h2.2]
  have k2 : F32.lt v lo = false := by rw [F32.lt_fin hv.1 h1.1, hv.2, decide_eq_false_iff_not]; linarith [h1.2]
  unfold Pid.saturate
  rw [show (hi <. v) = false from k1, show (v <. lo) = false from k2]
  exact hv

omit [Trans (BitVec 32)] in
theorem effective_fin {s : Ctl (BitVec 32)} (h1 : F32.Finite s.Kc) (h2 : F32.Finite s.Ki) (h3 : F32.Finite s.Kd) :
    F32.Finite s.effective.Kc ∧ F32.Finite s.effective.Ki ∧ F32.Finite s.effective.Kd := by
  have n : ∀ x : BitVec 32, F32.Finite x → F32.Finite (Arith.neg x) := fun x h => F32.finite_negate.2 h
  unfold Ctl.effective
  split
  · refine ⟨?_, ?_, ?_⟩ <;> dsimp only <;> split_ifs
    all_goals first | exact n _ ‹_› | assumption
  · exact ⟨h1, h2, h3⟩

/-- A controller at rest with zero set-point and zero process value remains at rest, as long as no tuning completes. -/
theorem rest_step {s : Ctl (BitVec 32)} (h : Rest s) {a : AutoTuning (BitVec 32)} (ha : s.adapt = some a) {w y : BitVec 32}
    (hw : Z w) (hy : Z y) (r : BitVec 32) (hr : ∀ u, (a.step u y s.dt).2 = false) :
    Z (s.control w y r).2 ∧ Rest (s.control w y r).1 := by
  have e := control_some s h.init ha w y r
  have hA : Auto { s with adapt := none } := ⟨h.init, h.mode, h.yr, rfl, h.im, h.dm⟩
  have q := auto_step { s with adapt := none } hA w y r
  have one : F32.Finite (F32.lit 1) := by decide +kernel
  have half : F32.Finite (F32.lit (1 / 2)) := by decide +kernel
  obtain ⟨f1, f2, f3⟩ := effective_fin h.Kc h.Ki h.Kd
  have zde : Z (F32.div (F32.sub (s.error w y s.c) s.st.x1) s.dt) := ((Z.error hw hy h.c).sub h.x1).div h.dt.1 h.dt.2
  have zx0 : Z (F32.add s.st.x0 (F32.mul (F32.mul (F32.lit (1 / 2)) (F32.add (F32.add (s.error w y (F32.lit 1)) s.u1) s.st.x1))
      s.dt)) := h.x0.add ((Z.mul' half (((Z.error hw hy one).add h.u1).add h.x1)).mul h.dt.1)
  have zD := zde.add (Z.mul' h.beta (h.D.sub zde))
  have zv := ((Z.mul' f1 (Z.error (s := s) hw hy h.b)).add (Z.mul' f2 zx0)).add (Z.mul' f3 zD)
  have zs := Z.saturate zv h.lo h.hi
  obtain ⟨q1, q2, q3, q4, q5, q6, q7⟩ := q
  have qg := (control_adapt { s with adapt := none } w y r).2.2.2
  generalize { s with adapt := none }.control w y r = st at *
  obtain ⟨t, u⟩ := st
  dsimp only at *
  have hu : Z u := by rw [q1]; exact zs
  have e2 : (s.control w y r).1 = { t with adapt := some (a.step u y t.dt).1 } := by
    rw [e]
    unfold Ctl.adaptGains
    simp only
    rw [if_neg]
    have := hr u
    rw [show s.dt = t.dt from q3.dt.symm] at this
    rw [this]; simp
  refine ⟨by rw [e]; exact hu, ?_⟩
  rw [e2]
  have gK : t.Kc = s.Kc := congrArg Gains.Kc qg
  have gI : t.Ki = s.Ki := congrArg Gains.Ki qg
  have gD : t.Kd = s.Kd := congrArg Gains.Kd qg
  exact {
    init := q2.init
    mode := q2.mode
    yr := q2.yr
    im := q2.im
    dm := q2.dm
    x0 := by change Z t.st.x0; rw [q4]; exact zx0
    x1 := by change Z t.st.x1; rw [q5]; exact (Z.error hw hy one).add h.u1
    D := by change Z t.D; rw [q6]; exact zD
    u1 := by change Z t.u1; rw [q7]; exact Z.mul' h.kw (zs.sub zv)
    Kc := by change F32.Finite t.Kc; rw [gK]; exact h.Kc
    Ki := by change F32.Finite t.Ki; rw [gI]; exact h.Ki
    Kd := by change F32.Finite t.Kd; rw [gD]; exact h.Kd
    b := by change F32.Finite t.b; rw [q3.b]; exact h.b
    c := by change F32.Finite t.c; rw [q3.c]; exact h.c
    beta := by change F32.Finite t.beta; rw [q3.beta]; exact h.beta
    kw := by change F32.Finite t.kw; rw [q3.kw]; exact h.kw
    dt := by change F32.Finite t.dt ∧ val t.dt ≠ 0; rw [q3.dt]; exact h.dt
    lo := by change F32.Finite t.satMin ∧ val t.satMin ≤ 0; rw [q3.lo]; exact h.lo
    hi := by change F32.Finite t.satMax ∧ 0 ≤ val t.satMax; rw [q3.hi]; exact h.hi }

/-- The tuner right after `bindAutoTuning`. -/
structure Start32 (a : AutoTuning (BitVec 32)) : Prop where
  l : a.l = F32.lit (9898 / 10000)
  p00 : a.p00 = F32.lit 1000
  p11 : a.p11 = F32.lit 1000
  p01 : a.p01 = F32.lit 0
  p10 : a.p10 = F32.lit 0
  uk : a.uk = F32.lit 0
  yk : a.yk = F32.lit 0
  it : a.it = UNDEFINED

/-- What an idle loop does to the auto-tuner: the covariance grows without end, or the estimate is NaN. -/
theorem idle_run (s : Ctl (BitVec 32)) (h : Rest s) (a : AutoTuning (BitVec 32)) (ha : s.adapt = some a) (h0 : Start32 a)
    (r : ℕ → BitVec 32) (n : ℕ) (hn : n ≤ 10000) :
    Rest (after s (fun _ => 0#32) (fun _ => 0#32) r n) ∧
    ∃ t, (after s (fun _ => 0#32) (fun _ => 0#32) r n).adapt = some t ∧ UNDEFINED.toNat ≤ t.it.toNat + n ∧
      (Quiet (1000 * (101 / 100) ^ n) t ∨ Blown t ∨ IsNaN t.b1) := by
  have z : Z (0#32) := by constructor <;> decide +kernel
  induction n with
  | zero =>
    refine ⟨h, a, ha, by rw [h0.it]; omega, .inl ⟨h0.l, ?_, ?_, ?_, ?_, ?_, ?_, ?_⟩⟩
    · rw [h0.uk]; constructor <;> decide +kernel
    · rw [h0.yk]; constructor <;> decide +kernel
    · rw [h0.p01]; constructor <;> decide +kernel
    · rw [h0.p10]; constructor <;> decide +kernel
    · rw [h0.p00]; decide +kernel
    · rw [h0.p11]; decide +kernel
    · rw [h0.p00]; decide +kernel
  | succ n ih =>
    obtain ⟨i1, t, i2, i3, i4⟩ := ih (by omega)
    have ud : UNDEFINED.toNat = 4294967294 := by decide
    have hr : ∀ u, (t.step u 0#32 (after s (fun _ => 0#32) (fun _ => 0#32) r n).dt).2 = false := by
      intro u
      by_contra hc
      have := ((step_spec t u 0#32 (after s (fun _ => 0#32) (fun _ => 0#32) r n).dt).2.1 (by simpa using hc)).2
      rw [this, ud] at i3
      have : (1#32).toNat = 1 := rfl
      omega
    obtain ⟨c1, c2⟩ := rest_step i1 i2 z z (r n) hr
    have c3 := (control_adapt (after s (fun _ => 0#32) (fun _ => 0#32) r n) 0#32 0#32 (r n)).2.2.1 i1.init
    rw [i2] at c3
    simp only [Option.map_some] at c3
    refine ⟨c2, _, c3, ?_, ?_⟩
    · rw [(step_spec t _ _ _).1]
      split_ifs with k
      · rw [ud] at i3 ⊢
        have : (t.it - 1#32).toNat = t.it.toNat - 1 := by
          rw [BitVec.toNat_sub]
          have e1 : (1#32).toNat = 1 := rfl
          have := t.it.isLt
          rw [e1]
          omega
        rw [this]; omega
      · omega
    · obtain ⟨k, tao, it, e⟩ := step_identify' t
        ((after s (fun _ => 0#32) (fun _ => 0#32) r n).control 0#32 0#32 (r n)).2 0#32
        (after s (fun _ => 0#32) (fun _ => 0#32) r n).dt
      rw [e]
      rcases i4 with i4 | i4 | i4
      · have g1 : (1 : ℚ) ≤ 1000 * (101 / 100) ^ n := by
          have : (1 : ℚ) ≤ (101 / 100) ^ n := one_le_pow₀ (by norm_num)
          linarith
        rcases quiet_step g1 i4 c1 z with q | q
        · left
          have e3 : (1000 : ℚ) * (101 / 100) ^ (n + 1) = 101 / 100 * (1000 * (101 / 100) ^ n) := by rw [pow_succ]; ring
          rw [e3]
          exact ⟨q.l, q.uk, q.yk, q.p01, q.p10, q.p00, q.p11, q.big⟩
        · exact .inr (.inl ⟨q.uk, q.yk, q.p⟩)
      · exact .inr (.inr (blown_step i4
          ((after s (fun _ => 0#32) (fun _ => 0#32) r n).control 0#32 0#32 (r n)).2 0#32))
      · exact .inr (.inr (nan_step i4
          ((after s (fun _ => 0#32) (fun _ => 0#32) r n).control 0#32 0#32 (r n)).2 0#32))

theorem idle_nan (s : Ctl (BitVec 32)) (h : Rest s) (a : AutoTuning (BitVec 32)) (ha : s.adapt = some a)
    (h0 : Start32 a) (r : ℕ → BitVec 32) (N : ℕ) (h1 : 9000 ≤ N) (h2 : N < 10000) :
    Rest (after s (fun _ => 0#32) (fun _ => 0#32) r (N + 1)) ∧
    ∃ t, (after s (fun _ => 0#32) (fun _ => 0#32) r (N + 1)).adapt = some t ∧ IsNaN t.b1 := by
  obtain ⟨i1, t, i2, -, i4⟩ := idle_run s h a ha h0 r N h2.le
  have j := (idle_run s h a ha h0 r (N + 1) h2).1
  have c3 := (control_adapt (after s (fun _ => 0#32) (fun _ => 0#32) r N) 0#32 0#32 (r N)).2.2.1 i1.init
  rw [i2] at c3
  simp only [Option.map_some] at c3
  refine ⟨j, _, c3, ?_⟩
  obtain ⟨k, tao, it, e⟩ := step_identify' t
    ((after s (fun _ => 0#32) (fun _ => 0#32) r N).control 0#32 0#32 (r N)).2 0#32
    (after s (fun _ => 0#32) (fun _ => 0#32) r N).dt
  rw [e]
  rcases i4 with i4 | i4 | i4
  · exfalso
    have b1 := (F32.Finite.abs_lt i4.p00)
    have b2 := (abs_lt.1 b1).2
    have b3 : (2 : ℚ) ^ 128 ≤ 1000 * (101 / 100) ^ N := by
      have a1 : (2 : ℚ) ≤ (101 / 100) ^ 70 := by norm_num
      have a2 : (2 : ℚ) ^ 128 ≤ ((101 / 100) ^ 70) ^ 128 := pow_le_pow_left₀ (by norm_num) a1 128
      have a3 : (((101 : ℚ) / 100) ^ 70) ^ 128 ≤ (101 / 100) ^ N := by
        rw [← pow_mul]
        exact pow_le_pow_right₀ (by norm_num) (by omega)
      have a4 : (0 : ℚ) ≤ (101 / 100) ^ N := pow_nonneg (by norm_num) _
      linarith
    have b4 := i4.big
    rw [show ((2 : ℚ) ^ (128 : ℤ)) = 2 ^ 128 from rfl] at b2
    linarith
  · exact blown_step i4 ((after s (fun _ => 0#32) (fun _ => 0#32) r N).control 0#32 0#32 (r N)).2 0#32
  · exact nan_step i4 ((after s (fun _ => 0#32) (fun _ => 0#32) r N).control 0#32 0#32 (r N)).2 0#32

/-- **C144 is false of the code** in binary32: a controller with an auto-tuner in an idle loop (set-point, process value and so
the output are zero), at any time between 9001 and 10000 samples after the binding, can never tune any more. Whatever `enableAutoTuning` is given and
whatever the signals are from then on, the tuning never completes and the gains never change. -/
theorem C144_idle_false (s : Ctl (BitVec 32)) (h : Rest s) (a : AutoTuning (BitVec 32)) (ha : s.adapt = some a)
    (h0 : Start32 a) (r : ℕ → BitVec 32) (N : ℕ) (h1 : 9000 ≤ N) (h2 : N < 10000) (tEnable : BitVec 32) (w' y' r' : ℕ → BitVec 32) (n : ℕ) :
    let idle := after s (fun _ => 0#32) (fun _ => 0#32) r (N + 1)
    (idle.enableAutoTuning tEnable).2 = true ∧
    (after (idle.enableAutoTuning tEnable).1 w' y' r' n).isAutoTuningComplete = false ∧
      gains (after (idle.enableAutoTuning tEnable).1 w' y' r' n) = gains idle := by
  intro idle
  obtain ⟨j, t, k1, k2⟩ := idle_nan s h a ha h0 r N h1 h2
  exact C144_dead idle j.init t k1 k2 tEnable w' y' r' n

end Controller

section Witness
attribute [local instance] noTrans32

/-- Any `pidAutoTuning` object. -/
def tuner32 : AutoTuning (BitVec 32) :=
  let z := F32.lit 1
  ⟨z, z, z, z, z, z, z, z, z, z, z, z, z, UNDEFINED, .pi⟩

-- the hypotheses of `C144_idle_false` hold right after `setup` and `bindAutoTuning`
example : Rest (pid32.bindAutoTuning tuner32).1 := by
  constructor <;> first | decide +kernel | (constructor <;> decide +kernel)

example : (pid32.bindAutoTuning tuner32).1.adapt = some (tuner32.initialize ⟨pid32.Kc, pid32.Ki, pid32.Kd⟩ pid32.dt) ∧
    Start32 (tuner32.initialize ⟨pid32.Kc, pid32.Ki, pid32.Kd⟩ pid32.dt) := by
  refine ⟨?_, ?_, ?_, ?_, ?_, ?_, ?_, ?_, ?_⟩ <;> decide +kernel

-- the hypotheses of `C144_partial` hold after `setAutoTuningParameters( 0.95, 0.25, 1 )`
example : ∃ a, ((pid32.bindAutoTuning tuner32).1.setAutoTuningParameters (F32.lit (95 / 100)) (F32.lit (1 / 4)) (F32.lit 1)).1.adapt =
    some a ∧ a.l = F32.lit 1 ∧ a.p00 = F32.lit 1000 ∧ a.uk = F32.lit 0 ∧ F32.Finite a.b1 ∧ F32.Finite a.a1 :=
  ⟨{ tuner32.initialize ⟨pid32.Kc, pid32.Ki, pid32.Kd⟩ pid32.dt with l := F32.lit 1 }, by decide +kernel, by decide +kernel,
    by decide +kernel, by decide +kernel, by decide +kernel, by decide +kernel⟩

end Witness

end Verif.Pid
