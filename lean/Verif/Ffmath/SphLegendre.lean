import Verif.Ffmath.SphModel
import Verif.Ffmath.AssocLegendre
import Verif.Ffmath.Elliptic
import Verif.Ffmath.Cos
import Verif.Ffmath.Log
import Verif.Ffmath.Zeta
import Verif.Ffmath.Laguerre
import Mathlib.Analysis.SpecialFunctions.Gaussian.GaussianIntegral
import Mathlib.Analysis.SpecialFunctions.Gamma.Basic

/-!
# Spherical associated Legendre functions (C116, C117)

The reference is the definition of the C++ standard,
`Y_l^m(θ) = (-1)^m √((2l+1)/(4π) (l-m)!/(l+m)!) P_l^m(cos θ)`, where `P_l^m(x) = (1 - x²)^(m/2) d^m/dx^m P_l(x)`.
-/

namespace Verif.Ffmath

open Verif Polynomial

/-- The functions of exact real arithmetic (not a definition of the repository). -/
noncomputable def realSph : SphFns ℝ where
  pi := Real.pi
  lnPi := Real.log Real.pi
  cos := Real.cos
  log := Real.log
  lgamma := fun x => Real.log (Real.Gamma x)
  exp := fun x => .ok (Real.exp x)

/-- The norm of the spherical harmonic (not a definition of the repository). -/
noncomputable def sphNorm (l m : ℕ) : ℝ := √((2 * l + 1) / (4 * Real.pi) * ((l - m).factorial / (l + m).factorial))

theorem sphNorm_pos (l m : ℕ) : 0 < sphNorm l m := Real.sqrt_pos.2 (by positivity)

theorem sphNorm_sq (l m : ℕ) : sphNorm l m ^ 2 = (2 * l + 1) / (4 * Real.pi) * ((l - m).factorial / (l + m).factorial) :=
  Real.sq_sqrt (by positivity)

theorem exact_sqrt [FF ℝ] [ExactFF ℝ] {a : ℝ} (ha : 0 ≤ a) : (FF.sqrt a : ℝ) = √a := by
  obtain ⟨h1, h2⟩ := ExactFF.sqrt_sq a ha
  rw [← h2, Real.sqrt_mul_self h1]; exact (congrArg _ h2)

/-- One step of the norm. -/
theorem sphNorm_step1 (m k : ℕ) :
    √((((m + 2 + k - m : ℕ) : ℝ) / ((m + 2 + k + m : ℕ) : ℝ)) * ((2 * (m + 2 + k) + 1 : ℕ) : ℝ) * ((2 * (m + 2 + k) - 1 : ℕ) : ℝ)) * sphNorm (m + k + 1) m =
      sphNorm (m + k + 2) m * (2 * ((m : ℝ) + k + 2) - 1) := by
  refine (pow_left_inj₀ (mul_nonneg (Real.sqrt_nonneg _) (sphNorm_pos _ _).le)
    (mul_nonneg (sphNorm_pos _ _).le (by have : (0 : ℝ) ≤ m := m.cast_nonneg; have : (0 : ℝ) ≤ k := k.cast_nonneg; linarith)) two_ne_zero).1 ?_
  rw [mul_pow, mul_pow, sphNorm_sq, sphNorm_sq, Real.sq_sqrt (by positivity)]
  have e1 : m + 2 + k - m = k + 2 := by omega
  have e2 : 2 * (m + 2 + k) - 1 = 2 * m + 2 * k + 3 := by omega
  have e3 : m + k + 1 - m = k + 1 := by omega
  have e4 : m + k + 2 - m = (k + 1) + 1 := by omega
  have e5 : m + k + 2 + m = (m + k + 1 + m) + 1 := by omega
  rw [e1, e2, e3, e4, e5, Nat.factorial_succ (k + 1), Nat.factorial_succ (m + k + 1 + m)]
  have f1 : ((k + 1).factorial : ℝ) ≠ 0 := by positivity
  have f2 : ((m + k + 1 + m).factorial : ℝ) ≠ 0 := by positivity
  generalize ((k + 1).factorial) = F at *
  generalize ((m + k + 1 + m).factorial) = G at *
  push_cast
  have p1 : (m : ℝ) + 2 + k + m ≠ 0 := by positivity
  have p2 : (m : ℝ) + k + 1 + m + 1 ≠ 0 := by positivity
  field_simp
  ring

theorem sphNorm_step2 (m k : ℕ) :
    √((((m + 2 + k - m : ℕ) : ℝ) / ((m + 2 + k + m : ℕ) : ℝ)) * (((m + 2 + k - m - 1 : ℕ) : ℝ) / ((m + 2 + k + m - 1 : ℕ) : ℝ)) *
      ((2 * (m + 2 + k) + 1 : ℕ) : ℝ) / ((2 * (m + 2 + k) - 3 : ℕ) : ℝ)) * sphNorm (m + k) m = sphNorm (m + k + 2) m := by
  refine (pow_left_inj₀ (mul_nonneg (Real.sqrt_nonneg _) (sphNorm_pos _ _).le) (sphNorm_pos _ _).le two_ne_zero).1 ?_
  rw [mul_pow, sphNorm_sq, sphNorm_sq, Real.sq_sqrt (by positivity)]
  have e1 : m + 2 + k - m = k + 2 := by omega
  have e2 : m + 2 + k + m - 1 = 2 * m + k + 1 := by omega
  have e3 : m + k - m = k := by omega
  have e4 : m + k + 2 - m = k + 1 + 1 := by omega
  have e5 : m + k + 2 + m = (m + k + m) + 1 + 1 := by omega
  have e6 : k + 2 - 1 = k + 1 := by omega
  have e7 : 2 * (m + 2 + k) - 3 = 2 * m + 2 * k + 1 := by omega
  rw [e1, e2, e3, e4, e5, e6, e7, Nat.factorial_succ (k + 1), Nat.factorial_succ k, Nat.factorial_succ (m + k + m + 1), Nat.factorial_succ (m + k + m)]
  have f1 : (k.factorial : ℝ) ≠ 0 := by positivity
  have f2 : ((m + k + m).factorial : ℝ) ≠ 0 := by positivity
  generalize (k.factorial) = F at *
  generalize ((m + k + m).factorial) = G at *
  push_cast
  have p1 : (m : ℝ) + 2 + k + m ≠ 0 := by positivity
  have p2 : (m : ℝ) + k + m + 1 + 1 ≠ 0 := by positivity
  have p3 : 2 * (m : ℝ) + k + 1 ≠ 0 := by positivity
  have p4 : (m : ℝ) + k + m + 1 ≠ 0 := by positivity
  field_simp
  ring

theorem sphNorm_first (m : ℕ) : √((2 * m + 3 : ℕ) : ℝ) * sphNorm m m = sphNorm (m + 1) m * (2 * (m : ℝ) + 1) := by
  refine (pow_left_inj₀ (mul_nonneg (Real.sqrt_nonneg _) (sphNorm_pos _ _).le) (mul_nonneg (sphNorm_pos _ _).le (by positivity)) two_ne_zero).1 ?_
  rw [mul_pow, mul_pow, sphNorm_sq, sphNorm_sq, Real.sq_sqrt (by positivity)]
  have e1 : m + 1 - m = 1 := by omega
  have e2 : m + 1 + m = m + m + 1 := by omega
  rw [e1, e2, Nat.factorial_succ (m + m), Nat.sub_self]
  have f2 : ((m + m).factorial : ℝ) ≠ 0 := by positivity
  generalize ((m + m).factorial) = G at *
  push_cast
  have p2 : (m : ℝ) + m + 1 ≠ 0 := by positivity
  simp only [Nat.factorial_zero, Nat.factorial_one, Nat.cast_one]
  field_simp
  ring

/-- The loop. -/
theorem sphLegendreLoop_eq [FF ℝ] [ExactFF ℝ] (x c : ℝ) (m k : ℕ) (hm : 1 ≤ m) :
    sphLegendreLoop x m (c * sphNorm m m * eval x (derivative^[m] (legendrePoly ℝ m)),
      c * sphNorm (m + 1) m * eval x (derivative^[m] (legendrePoly ℝ (m + 1)))) k =
    (c * sphNorm (m + k) m * eval x (derivative^[m] (legendrePoly ℝ (m + k))),
      c * sphNorm (m + k + 1) m * eval x (derivative^[m] (legendrePoly ℝ (m + k + 1)))) := by
  induction k with
  | zero => rfl
  | succ k ih =>
    rw [sphLegendreLoop, ih]
    simp only [fSub, fMul, fDiv, fLit, Rat.cast_natCast, Prod.mk.injEq]
    refine ⟨rfl, ?_⟩
    rw [exact_sqrt (by positivity), exact_sqrt (by positivity)]
    have s1 := sphNorm_step1 m k
    have s2 := sphNorm_step2 m k
    obtain ⟨p, rfl⟩ : ∃ p, m = p + 1 := ⟨m - 1, by omega⟩
    have hr := congrArg (eval x) (legendre_iter_rec (K := ℝ) (p + 1 + k) p)
    simp only [eval_mul, eval_sub, eval_add, eval_natCast, eval_ofNat, eval_one, eval_X] at hr
    rw [show p + 1 + (k + 1) + 1 = p + 1 + k + 2 by omega]
    generalize eval x (derivative^[p + 1] (legendrePoly ℝ (p + 1 + k + 2))) = T2 at *
    generalize eval x (derivative^[p + 1] (legendrePoly ℝ (p + 1 + k + 1))) = T1 at *
    generalize eval x (derivative^[p + 1] (legendrePoly ℝ (p + 1 + k))) = T0 at *
    have e1 : (((p + 1 + 2 + k - (p + 1) : ℕ)) : ℝ) = k + 2 := by
      rw [show p + 1 + 2 + k - (p + 1) = k + 2 by omega]; push_cast; ring
    have e2 : (((p + 1 + 2 + k + (p + 1) - 1 : ℕ)) : ℝ) = 2 * p + k + 3 := by
      rw [show p + 1 + 2 + k + (p + 1) - 1 = 2 * p + k + 3 by omega]; push_cast; ring
    generalize √(_ * _ * _) = A at s1 ⊢
    generalize √(_ / _) = B at s2 ⊢
    rw [e1, e2, div_eq_iff (by positivity)]
    push_cast at s1 hr
    linear_combination c * x * T1 * s1 - (2 * p + k + 3) * c * T0 * s2 - c * sphNorm (p + 1 + k + 2) (p + 1) * hr

/-- The first value, `y_mm`. -/
theorem sph_start [FF ℝ] [ExactFF ℝ] (x : ℝ) (m : ℕ) (hm : 1 ≤ m) (hx : 0 < 1 - x * x) :
    √((2 + 1 / (m : ℝ)) / (4 * Real.pi)) * Real.exp (-0.25 * Real.log Real.pi + 0.5 * (Real.log (Real.Gamma (m + 0.5)) - Real.log (Real.Gamma m) +
      m * Real.log (1 - x * x))) = √(1 - x * x) ^ m * sphNorm m m * eval x (derivative^[m] (legendrePoly ℝ m)) := by
  have hm0 : (0 : ℝ) < m := by exact_mod_cast hm
  have hg1 : 0 < Real.Gamma (m + 0.5) := Real.Gamma_pos_of_pos (by positivity)
  have hg2 : 0 < Real.Gamma m := Real.Gamma_pos_of_pos hm0
  have hd : (0 : ℝ) < ((∏ i ∈ Finset.range m, (2 * i + 1) : ℕ) : ℝ) := by
    have : 0 < ∏ i ∈ Finset.range m, (2 * i + 1) := Finset.prod_pos (fun i _ => by omega)
    exact_mod_cast this
  rw [legendre_iter_diag, eval_C]
  have hn := sphNorm_pos m m
  refine (pow_left_inj₀ (by positivity) (by positivity) two_ne_zero).1 ?_
  rw [mul_pow, mul_pow, mul_pow, sphNorm_sq, Real.sq_sqrt (by positivity), ← pow_mul, mul_comm m 2, pow_mul, Real.sq_sqrt hx.le, ← Real.exp_nat_mul]
  have e : ((2 : ℕ) : ℝ) * (-0.25 * Real.log Real.pi + 0.5 * (Real.log (Real.Gamma (m + 0.5)) - Real.log (Real.Gamma m) + m * Real.log (1 - x * x))) =
      Real.log (Real.Gamma (m + 0.5)) - Real.log (Real.Gamma m) + (m * Real.log (1 - x * x) - 1 / 2 * Real.log Real.pi) := by push_cast; ring
  rw [e, Real.exp_add, Real.exp_sub, Real.exp_sub, Real.exp_log hg1, Real.exp_log hg2, Real.exp_nat_mul, Real.exp_log hx,
    show (1 / 2 * Real.log Real.pi) = Real.log √Real.pi by rw [Real.log_sqrt Real.pi_pos.le]; ring, Real.exp_log (Real.sqrt_pos.2 Real.pi_pos)]
  have g1 : Real.Gamma (m + 0.5) = ((∏ i ∈ Finset.range m, (2 * i + 1) : ℕ) : ℝ) * √Real.pi / 2 ^ m := by
    clear * -
    induction m with
    | zero => norm_num [Real.Gamma_one_half_eq]
    | succ m ih =>
      rw [show ((m + 1 : ℕ) : ℝ) + 0.5 = ((m : ℝ) + 0.5) + 1 by push_cast; ring, Real.Gamma_add_one (by positivity), ih, Finset.prod_range_succ]
      push_cast
      field_simp
      norm_num
      ring
  have g2 : Real.Gamma m = (m.factorial : ℝ) / m := by
    obtain ⟨p, rfl⟩ : ∃ p, m = p + 1 := ⟨m - 1, by omega⟩
    rw [show ((p + 1 : ℕ) : ℝ) = (p : ℝ) + 1 by push_cast; ring, Real.Gamma_nat_eq_factorial, Nat.factorial_succ]
    push_cast
    field_simp
  have g3 : ((m + m).factorial : ℝ) = ((∏ i ∈ Finset.range m, (2 * i + 1) : ℕ) : ℝ) * 2 ^ m * (m.factorial : ℝ) := by
    clear * -
    induction m with
    | zero => simp
    | succ m ih =>
      rw [show m + 1 + (m + 1) = m + m + 1 + 1 by omega, Nat.factorial_succ, Nat.factorial_succ (m + m), Nat.factorial_succ m, Finset.prod_range_succ]
      push_cast [ih]
      ring
  rw [g1, g2, g3, Nat.sub_self, Nat.factorial_zero]
  have hp := Real.pi_pos
  have hsp := Real.sqrt_pos.2 hp
  generalize √Real.pi = sp at *
  have hf : (0 : ℝ) < (m.factorial : ℝ) := by positivity
  generalize ((∏ i ∈ Finset.range m, (2 * i + 1) : ℕ) : ℝ) = d at *
  generalize (m.factorial : ℝ) = f at *
  push_cast
  field_simp

/-- **C116** (exact arithmetic) For every degree, order and angle `sph_legendre(l, m, θ)` is the spherical associated Legendre function, and zero
for `m > l`. -/
theorem C116_sph_legendre [FF ℝ] [ExactFF ℝ] (l m : ℕ) (θ : ℝ) :
    sphLegendre realSph l m θ = .ok (if m ≤ l then (-1) ^ m * √((2 * l + 1) / (4 * Real.pi) * ((l - m).factorial / (l + m).factorial)) *
      (|Real.sin θ| ^ m * eval (Real.cos θ) (derivative^[m] (legendrePoly ℝ l))) else 0) := by
  change _ = Out.ok (if m ≤ l then (-1) ^ m * sphNorm l m * (|Real.sin θ| ^ m * eval (Real.cos θ) (derivative^[m] (legendrePoly ℝ l))) else 0)
  unfold sphLegendre
  simp only [fNan, fSub, fAdd, fMul, fDiv, fLit, Bool.false_eq_true, if_false, realSph, gt_iff_lt, Bool.or_eq_true, ExactFF.isEqual_iff, Out.pure_eq]
  by_cases hl : l < m
  · rw [if_pos hl]; rw [if_neg (by omega)]; norm_num
  have hle : m ≤ l := by omega
  rw [if_neg hl]
  simp only [hle, if_true]
  have hpi := Real.pi_pos
  by_cases h0 : 0 = m
  · subst h0
    simp only [if_true]
    have e := C103_legendre (K := ℝ) l ((1 - Real.cos θ) / 2)
    rw [show 1 - 2 * ((1 - Real.cos θ) / 2) = Real.cos θ by ring] at e
    rw [e, exact_sqrt (by positivity)]
    unfold sphNorm
    have f : (l.factorial : ℝ) ≠ 0 := by positivity
    simp only [Nat.sub_zero, Nat.add_zero]
    rw [div_self f, ← legendrePoly_eval]
    congr 1
    simp only [pow_zero, Function.iterate_zero, id]
    push_cast
    ring
  rw [if_neg h0]
  have hm : 1 ≤ m := by omega
  have hr : |Real.sin θ| = √(1 - Real.cos θ * Real.cos θ) := by
    rw [← Real.sqrt_sq_eq_abs]; congr 1; nlinarith [Real.sin_sq_add_cos_sq θ]
  have hc : 0 ≤ 1 - Real.cos θ * Real.cos θ := by nlinarith [Real.sin_sq_add_cos_sq θ, sq_nonneg (Real.sin θ)]
  rw [hr]
  generalize Real.cos θ = x at *
  split
  · rename_i h
    have : 1 - x * x = 0 := by
      rcases h with h | h
      · rw [← h]; norm_num
      · rw [← h]; norm_num
    rw [this, Real.sqrt_zero, zero_pow (by omega)]
    norm_num
  · rename_i h
    have hx : 0 < 1 - x * x := by
      refine lt_of_le_of_ne hc fun h' => h ?_
      have : (1 - x) * (1 + x) = 0 := by linarith
      rcases mul_eq_zero.1 this with h2 | h2
      · left; push_cast; linarith
      · right; push_cast; linarith
    have st := sph_start x m hm hx
    have sg : (if 1 = m % 2 then (((-1 : ℚ)) : ℝ) else ((1 : ℚ) : ℝ)) = (-1) ^ m := by
      split
      · rename_i h; rw [Odd.neg_one_pow (Nat.odd_iff.2 h.symm)]; norm_num
      · rename_i h; rw [Even.neg_one_pow (Nat.even_iff.2 (by omega))]; norm_num
    have hm0 : (0 : ℝ) < m := by exact_mod_cast hm
    have q1 : (FF.sqrt ((((2 : ℚ) : ℝ) + ((1 : ℚ) : ℝ) / (((m : ℚ)) : ℝ)) / (((4 : ℚ) : ℝ) * Real.pi)) : ℝ) = √((2 + 1 / (m : ℝ)) / (4 * Real.pi)) := by
      push_cast
      exact exact_sqrt (by positivity)
    rw [sg, q1, exact_sqrt (by positivity)]
    have lit : ((0.5 : ℚ) : ℝ) = 0.5 ∧ ((-0.25 : ℚ) : ℝ) = -0.25 := by norm_num
    simp only [lit.1, lit.2, Rat.cast_natCast, Rat.cast_one, Out.bind_ok]
    rw [mul_assoc ((-1) ^ m) (√_) (Real.exp _), st]
    generalize hr' : √(1 - x * x) = r
    have hf := sphNorm_first m
    have q2 : x * √((2 * m + 3 : ℕ) : ℝ) * ((-1) ^ m * (r ^ m * sphNorm m m * eval x (derivative^[m] (legendrePoly ℝ m)))) =
        ((-1) ^ m * r ^ m) * sphNorm (m + 1) m * eval x (derivative^[m] (legendrePoly ℝ (m + 1))) := by
      rw [legendre_iter_next, legendre_iter_diag]
      simp only [eval_mul, eval_C, eval_X]
      linear_combination x * (-1) ^ m * r ^ m * ((∏ i ∈ Finset.range m, (2 * i + 1) : ℕ) : ℝ) * hf
    have q3 : (-1) ^ m * (r ^ m * sphNorm m m * eval x (derivative^[m] (legendrePoly ℝ m))) =
        ((-1) ^ m * r ^ m) * sphNorm m m * eval x (derivative^[m] (legendrePoly ℝ m)) := by ring
    rw [q2, q3]
    split
    · rename_i h; rw [h]; congr 1; ring
    split
    · rename_i h; rw [h]; congr 1; ring
    · rename_i h1 h2
      rw [sphLegendreLoop_eq x _ m _ hm]
      simp only []
      rw [show m + (l - m - 1) + 1 = l by omega]
      congr 1; ring

/-- **C116** (binary32) A NaN angle gives NaN for every degree and order; otherwise the result is zero for every `m > l`. -/
theorem C116_special (l m : ℕ) (theta : BitVec 32) :
    (F32.IsNaN theta → sph_legendre l m theta = .ok nan) ∧ (¬ F32.IsNaN theta → l < m → sph_legendre l m theta = .ok (F32.lit 0)) := by
  unfold sph_legendre sphLegendre
  refine ⟨fun h => ?_, fun h hl => ?_⟩
  · rw [if_pos (by exact decide_eq_true h)]; rfl
  · rw [if_neg (by intro h'; exact h (of_decide_eq_true h')), if_pos hl]; rfl

example : F32.IsNaN nan ∧ ¬ F32.IsNaN inf ∧ 2 < 3 ∧ sph_legendre 2 3 inf = .ok (F32.lit 0) := by decide +kernel

/-! ### Definedness -/

open F32 in
/-- `lgamma` is finite between 12 and 171.6. -/
theorem lgamma_fin {y : BitVec 32} (hy : F32.Finite y) (h : 12 < val y) (hu : val y ≤ 171.6) : F32.Finite (lgamma y) ∧ |val (lgamma y)| ≤ 2048 := by
  rw [lgamma_pos hy (by linarith)]
  have c : F32.Finite (lit 171.624) ∧ 171.6 ≤ val (lit 171.624) ∧ val epsilon < 1 ∧ F32.Finite (lit 1.5) ∧ val (lit 1.5) = 1.5 ∧
    F32.Finite (lit 4) ∧ val (lit 4) = 4 ∧ F32.Finite (lit 4294967296.87842273712158203125) ∧
    1000 ≤ val (lit 4294967296.87842273712158203125) := by decide +kernel
  obtain ⟨c1, c2, c3, c4, c5, c6, c7, c8, c9⟩ := c
  norm_num at hu c2
  unfold lgammaPositive
  simp only []
  rw [if_neg (by rw [lt_fin c1 hy, decide_eq_true_eq]; linarith),
    if_neg (by rw [le_fin hy c_eps.1, decide_eq_true_eq]; linarith),
    if_neg (by rw [le_fin hy c4, decide_eq_true_eq, c5]; norm_num; linarith),
    if_neg (by rw [le_fin hy c6, decide_eq_true_eq, c7]; linarith),
    if_neg (by rw [le_fin hy c_twelve.1, decide_eq_true_eq, c_twelve.2]; linarith),
    if_pos (by rw [le_fin hy c8, decide_eq_true_eq]; linarith)]
  have b : F32.Finite (lit 2) ∧ val (lit 2) = 2 ∧ F32.Finite (lit 30000) ∧ val (lit 30000) = 30000 ∧ F32.Finite (lit 0.5) ∧ val (lit 0.5) = 1 / 2 ∧
    F32.Finite FFP_LN_SQRT_2PI ∧ 0 ≤ val FFP_LN_SQRT_2PI ∧ val FFP_LN_SQRT_2PI ≤ 1 ∧ F32.Finite (lit 8) ∧ val (lit 8) = 8 ∧
    F32.Finite (lit (-8)) ∧ val (lit (-8)) = -8 ∧ F32.Finite (lit 16) ∧ val (lit 16) = 16 ∧ F32.Finite (lit (-16)) ∧ val (lit (-16)) = -16 ∧
    F32.Finite (lit 1400) ∧ val (lit 1400) = 1400 ∧ F32.Finite (lit (-1400)) ∧ val (lit (-1400)) = -1400 ∧
    F32.Finite (lit 2048) ∧ val (lit 2048) = 2048 ∧ F32.Finite (lit (-2048)) ∧ val (lit (-2048)) = -2048 := by decide +kernel
  obtain ⟨b1, v1, b2, v2, b4, v4, b6, v6, v6', p8, w8, n8, x8, p16, w16, n16, x16, pA, wA, nA, xA, pB, wB, nB, xB⟩ := b
  obtain ⟨yf, y1, -⟩ := mul_btw hy hy b1 b2 (by rw [v1]; nlinarith) (by rw [v2]; nlinarith)
  rw [v1] at y1
  obtain ⟨hf, hb⟩ := hornerDiv_small yf y1 stirlingC stirling_small.1 _ stirling_small.2.1 stirling_small.2.2
  generalize hornerDiv (F32.mul y y) stirlingC (lit 5.7083835261e-03) = H at *
  obtain ⟨hrf, hrb⟩ := rnd_half (s := neg H ^^ neg y) (q := val H / val y) 2 (by norm_num) (by
    rw [abs_div, abs_of_pos (a := val y) (by linarith), div_le_iff₀ (by linarith)]
    norm_num at hb ⊢; linarith)
  rw [← div_fin hf hy (by linarith)] at hrf hrb
  generalize F32.div H y = R at *
  have hyR : (12 : ℝ) < val y := by exact_mod_cast h
  have huR : (val y : ℝ) ≤ 172 := by exact_mod_cast (by linarith : val y ≤ 172)
  obtain ⟨lf, le⟩ := C82_log_partial y hy (le_trans (by norm_num) h.le)
  have l1 : 0 ≤ Real.log (val y) := Real.log_nonneg (by linarith)
  have l2 := log_172 (by linarith) huR
  have lo : 0 ≤ val (log y) ∧ val (log y) ≤ 7 := by
    rw [abs_of_nonneg l1] at le
    obtain ⟨p, q⟩ := _root_.abs_le.1 le
    constructor
    · have : ((0 : ℚ) : ℝ) ≤ val (log y) := by push_cast; linarith
      exact_mod_cast this
    · have : (val (log y) : ℝ) ≤ ((7 : ℚ) : ℝ) := by push_cast; linarith
      exact_mod_cast this
  obtain ⟨lo1, lo2⟩ := lo
  generalize log y = L at *
  norm_num at hrb
  obtain ⟨r1, r2⟩ := _root_.abs_le.1 hrb
  obtain ⟨f1, g1, g1'⟩ := mul_btw b4 lf n8 p8 (by rw [x8, v4]; linarith) (by rw [v4, w8]; linarith)
  rw [x8] at g1; rw [w8] at g1'
  obtain ⟨f2, g2, g2'⟩ := sub_btw b6 f1 n16 p16 (by rw [x16]; linarith) (by rw [w16]; linarith)
  rw [x16] at g2; rw [w16] at g2'
  obtain ⟨f3, g3, g3'⟩ := add_btw hrf f2 nA pA (by rw [xA]; linarith) (by rw [wA]; linarith)
  have g3 : -32 ≤ val (F32.add R (F32.sub FFP_LN_SQRT_2PI (F32.mul (lit 0.5) L))) ∧ val (F32.add R (F32.sub FFP_LN_SQRT_2PI (F32.mul (lit 0.5) L))) ≤ 32 := by
    have k : F32.Finite (lit 32) ∧ val (lit 32) = 32 ∧ F32.Finite (lit (-32)) ∧ val (lit (-32)) = -32 := by decide +kernel
    have := add_btw hrf f2 k.2.2.1 k.1 (by rw [k.2.2.2]; linarith) (by rw [k.2.1]; linarith)
    rw [k.2.2.2, k.2.1] at this
    exact this.2
  obtain ⟨f4, g4, g4'⟩ := sub_btw lf c_one.1 n8 p8 (by rw [x8, c_one.2]; linarith) (by rw [w8, c_one.2]; linarith)
  rw [x8] at g4; rw [w8] at g4'
  obtain ⟨f5, g5, g5'⟩ := mul_btw hy f4 nA pA (by rw [xA]; nlinarith) (by rw [wA]; nlinarith)
  rw [xA] at g5; rw [wA] at g5'
  obtain ⟨f6, g6, g6'⟩ := add_btw f3 f5 nB pB (by rw [xB]; linarith [g3.1]) (by rw [wB]; linarith [g3.2])
  rw [xB] at g6; rw [wB] at g6'
  exact ⟨f6, _root_.abs_le.2 ⟨g6, g6'⟩⟩

/-- The smaller orders. -/
theorem lgamma_fin_small : ∀ m : Fin 13, m.1 = 0 ∨ (F32.Finite (lgamma (F32.lit (m.1 : ℚ))) ∧ |F32.val (lgamma (F32.lit (m.1 : ℚ)))| ≤ 2048) ∧
    F32.Finite (lgamma (F32.add (F32.lit (m.1 : ℚ)) (F32.lit 0.5))) ∧ |F32.val (lgamma (F32.add (F32.lit (m.1 : ℚ)) (F32.lit 0.5)))| ≤ 2048 := by
  decide +kernel

open F32 in
/-- The difference of the logarithms of the gamma function, for all orders up to 170. -/
theorem lnPoch_all (m : ℕ) (h0 : 0 < m) (hm : m ≤ 170) : F32.Finite (F32.sub (lgamma (F32.add (lit (m : ℚ)) (lit 0.5))) (lgamma (lit (m : ℚ)))) ∧
    |val (F32.sub (lgamma (F32.add (lit (m : ℚ)) (lit 0.5))) (lgamma (lit (m : ℚ))))| ≤ 4096 := by
  have k : F32.Finite (lit 4096) ∧ val (lit 4096) = 4096 ∧ F32.Finite (lit (-4096)) ∧ val (lit (-4096)) = -4096 ∧ F32.Finite (lit 0.5) ∧
    val (lit 0.5) = 1 / 2 := by decide +kernel
  have key : (F32.Finite (lgamma (lit (m : ℚ))) ∧ |val (lgamma (lit (m : ℚ)))| ≤ 2048) ∧
      F32.Finite (lgamma (F32.add (lit (m : ℚ)) (lit 0.5))) ∧ |val (lgamma (F32.add (lit (m : ℚ)) (lit 0.5)))| ≤ 2048 := by
    by_cases hs : m < 13
    · exact (lgamma_fin_small ⟨m, hs⟩).resolve_left (by simp only []; omega)
    · obtain ⟨fm, vm⟩ := lit_nat m (by omega)
      obtain ⟨fn, vn⟩ := lit_nat (m + 1) (by omega)
      have m1 : (13 : ℚ) ≤ m := by exact_mod_cast (by omega : 13 ≤ m)
      have m2 : (m : ℚ) ≤ 170 := by exact_mod_cast hm
      push_cast at vn fn
      obtain ⟨fa, a1, a2⟩ := add_btw fm k.2.2.2.2.1 fm fn (by rw [k.2.2.2.2.2]; linarith) (by rw [vn, vm, k.2.2.2.2.2]; linarith)
      rw [vm] at a1; rw [vn] at a2
      exact ⟨lgamma_fin fm (by rw [vm]; linarith) (by rw [vm]; norm_num; linarith), lgamma_fin fa (by linarith) (by norm_num; linarith)⟩
  obtain ⟨⟨f1, b1⟩, f2, b2⟩ := key
  obtain ⟨p1, p2⟩ := _root_.abs_le.1 b1
  obtain ⟨q1, q2⟩ := _root_.abs_le.1 b2
  have := sub_btw f2 f1 k.2.2.1 k.1 (by rw [k.2.2.2.1]; linarith) (by rw [k.2.1]; linarith)
  rw [k.2.2.2.1, k.2.1] at this
  exact ⟨this.1, _root_.abs_le.2 this.2⟩

open F32 in
/-- **C117** For every degree, every order up to 170 and every angle of at most 2.5e7 in magnitude `sph_legendre` is defined. -/
theorem C117_defined_partial (l m : ℕ) (theta : BitVec 32) (hf : F32.Finite theta) (h : |F32.val theta| ≤ 2.5e7) (hm : m ≤ 170) :
    ∃ r, sph_legendre l m theta = .ok r := by
  unfold sph_legendre sphLegendre
  rw [if_neg (by intro h'; exact hf.notNaN (of_decide_eq_true h'))]
  simp only []
  split
  · exact ⟨_, rfl⟩
  split
  · exact ⟨_, rfl⟩
  split
  · exact ⟨_, rfl⟩
  rename_i h1 h2 h3
  change ¬ ((isEqual (F32.lit 1) (cos theta) || isEqual (F32.lit (-1)) (cos theta)) = true) at h3
  have c : F32.Finite (F32.lit (-1)) ∧ val (F32.lit (-1)) = -1 ∧ F32.Finite (0x3F7FFFFF#32) ∧ val (0x3F7FFFFF#32) = 1 - 1 / 16777216 ∧
    F32.Finite (F32.lit (1 / 16777216)) ∧ val (F32.lit (1 / 16777216)) = 1 / 16777216 ∧ F32.Finite (F32.lit 1) ∧ val (F32.lit 1) = 1 ∧
    F32.Finite (F32.lit 0) ∧ val (F32.lit 0) = 0 ∧ F32.Finite (F32.lit 16384) ∧ val (F32.lit 16384) = 16384 ∧
    F32.Finite (F32.lit (-16384)) ∧ val (F32.lit (-16384)) = -16384 ∧ F32.Finite (F32.lit 0.5) ∧ val (F32.lit 0.5) = 1 / 2 := by decide +kernel
  have c2 : F32.Finite (F32.mul (F32.lit (-0.25)) FFP_LN_PI) ∧ |val (F32.mul (F32.lit (-0.25)) FFP_LN_PI)| ≤ 1 := by decide +kernel
  obtain ⟨c1, v1, d1, w1, d2, w2, d3, w3, d4, w4, d5, w5, d6, w6, d7, w7⟩ := c
  have fx := (C87_accuracy_partial theta hf h).1
  have bx := C87_bound_partial theta hf h
  generalize hx : cos theta = x at *
  -- the cosine is not of magnitude one
  have hlt : |val x| < 1 := by
    refine lt_of_le_of_ne bx fun he => h3 ?_
    rw [Bool.or_eq_true, C88_iff _ _ d3 fx, C88_iff _ _ c1 fx, w3, v1]
    rcases abs_cases (val x) with ⟨a, -⟩ | ⟨a, -⟩
    · left; rw [show (1 : ℚ) - val x = 0 by linarith]; norm_num
    · right; rw [show (-1 : ℚ) - val x = 0 by linarith]; norm_num
  have hb : |val x| ≤ 1 - 1 / 16777216 := by rw [← absolute_val] at hlt ⊢; exact below_one hlt
  obtain ⟨f1, a0, a1⟩ := mul_btw fx fx d4 d1 (by rw [w4]; exact mul_self_nonneg _)
    (by rw [w1, ← abs_mul_abs_self]; nlinarith [abs_nonneg (val x)])
  rw [w4] at a0; rw [w1] at a1
  obtain ⟨f2, b0, b1⟩ := sub_btw d3 f1 d2 d3 (by rw [w2, w3]; linarith) (by rw [w3]; linarith)
  rw [w2] at b0; rw [w3] at b1
  obtain ⟨f3, el⟩ := C82_log_partial _ f2 (le_trans (by norm_num) b0)
  have L : |val (log (F32.sub (F32.lit 1) (F32.mul x x)))| ≤ 25 := by
    generalize F32.sub (F32.lit 1) (F32.mul x x) = y at *
    have b0' : ((1 / 16777216 : ℚ) : ℝ) ≤ (val y : ℝ) := Rat.cast_le.2 b0
    have b1' : (val y : ℝ) ≤ ((1 : ℚ) : ℝ) := Rat.cast_le.2 b1
    push_cast at b0' b1'
    have l1 : Real.log (val y) ≤ 0 := Real.log_nonpos (by linarith) b1'
    have l2 : -24 ≤ Real.log (val y) := by
      have : Real.log (1 / 16777216) = -(24 * Real.log 2) := by
        rw [show (1 / 16777216 : ℝ) = ((2 : ℝ) ^ 24)⁻¹ by norm_num, Real.log_inv, Real.log_pow]; norm_num
      have m1 := Real.log_le_log (by norm_num) b0'
      have m2 := Real.log_two_lt_d9
      rw [this] at m1
      linarith
    rw [abs_of_nonpos l1] at el
    have : |(val (log y) : ℝ)| ≤ 25 := by
      obtain ⟨q1, q2⟩ := _root_.abs_le.1 el
      rw [_root_.abs_le]; constructor <;> linarith
    exact_mod_cast this
  obtain ⟨L1, L2⟩ := _root_.abs_le.1 L
  obtain ⟨fm, vm⟩ := lit_nat m (by omega)
  have m1 : (m : ℚ) ≤ 170 := by exact_mod_cast hm
  have m0 : (0 : ℚ) ≤ m := m.cast_nonneg
  obtain ⟨fp, P⟩ := lnPoch_all m (by omega) hm
  obtain ⟨P1, P2⟩ := _root_.abs_le.1 P
  obtain ⟨g1, e1, e2⟩ := mul_btw fm f3 d6 d5 (by rw [w6, vm]; nlinarith) (by rw [w5, vm]; nlinarith)
  have e1' : -4250 ≤ val (F32.mul (F32.lit (m : ℚ)) (log (F32.sub (F32.lit 1) (F32.mul x x)))) := by
    have k : F32.Finite (F32.lit (-4250)) ∧ val (F32.lit (-4250)) = -4250 := by decide +kernel
    have := (mul_btw fm f3 k.1 d5 (by rw [k.2, vm]; nlinarith) (by rw [w5, vm]; nlinarith)).2.1
    rwa [k.2] at this
  have e2' : val (F32.mul (F32.lit (m : ℚ)) (log (F32.sub (F32.lit 1) (F32.mul x x)))) ≤ 4250 := by
    have k : F32.Finite (F32.lit 4250) ∧ val (F32.lit 4250) = 4250 := by decide +kernel
    have := (mul_btw fm f3 d6 k.1 (by rw [w6, vm]; nlinarith) (by rw [k.2, vm]; nlinarith)).2.2
    rwa [k.2] at this
  obtain ⟨g2, r1, r2⟩ := add_btw fp g1 d6 d5 (by rw [w6]; linarith) (by rw [w5]; linarith)
  rw [w6] at r1; rw [w5] at r2
  obtain ⟨g3, s1, s2⟩ := mul_btw d7 g2 d6 d5 (by rw [w6, w7]; linarith) (by rw [w5, w7]; linarith)
  have g4 : ¬ IsNaN (F32.add (F32.mul (F32.lit (-0.25)) FFP_LN_PI) (F32.mul (F32.lit 0.5)
      (F32.add (F32.sub (lgamma (F32.add (F32.lit (m : ℚ)) (F32.lit 0.5))) (lgamma (F32.lit (m : ℚ))))
        (F32.mul (F32.lit (m : ℚ)) (log (F32.sub (F32.lit 1) (F32.mul x x))))))) := by
    rw [add_fin c2.1 g3]; exact rnd_notNaN _ _
  obtain ⟨r, hr⟩ := C80_defined _ g4
  have hr' : ieeeSph.exp _ = .ok r := hr
  have hx' : ieeeSph.cos theta = x := hx
  rw [hx']
  erw [hr']
  rw [Out.bind_ok]
  split
  · exact ⟨_, rfl⟩
  split
  · exact ⟨_, rfl⟩
  · exact ⟨_, rfl⟩

example : F32.Finite (F32.lit 1) ∧ |F32.val (F32.lit 1)| ≤ 2.5e7 ∧ (match sph_legendre 3 2 (F32.lit 1) with
    | .ok r => decide (0.39 ≤ F32.val r ∧ F32.val r ≤ 0.3911) | _ => false) = true := by decide +kernel

/-- **C117, negation.** Where the cosine of the library leaves `[-1, 1]` the logarithm of a negative number is NaN and its exponential undefined
behaviour. -/
theorem C117_false : sph_legendre 1 1 (F32.lit (-26400006)) = .ub ∧ F32.val (F32.lit (-26400006)) = -26400006 := by decide +kernel

end Verif.Ffmath
