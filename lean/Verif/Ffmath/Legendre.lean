import Verif.Ffmath.PolyModel
import Verif.Ffmath.IsEqual
import Verif.Ffmath.Gamma
import Mathlib.RingTheory.Polynomial.ShiftedLegendre
import Mathlib.RingTheory.Polynomial.Hermite.Basic
import Mathlib.Data.Nat.Choose.Central
import Mathlib.Analysis.SpecialFunctions.Sqrt

/-!
# Legendre and Hermite polynomials (C103, C104)

In exact arithmetic the functions are the polynomials of Mathlib: `Polynomial.shiftedLegendre` (the Legendre polynomial at `1 - 2 y`)
and `Polynomial.hermite` (the probabilists' polynomials, of which the physicists' ones are a rescaling).
-/

namespace Verif.Ffmath

open Verif

/-! ### The recurrence of the Legendre polynomials -/

theorem choose_succ_int (M r : ℕ) : ((r : ℚ) + 1) * (M.choose (r + 1) : ℚ) = ((M : ℚ) - r) * (M.choose r : ℚ) := by
  rcases le_or_gt r M with h | h
  · have := Nat.choose_succ_right_eq M r
    have h2 : ((M.choose (r + 1) * (r + 1) : ℕ) : ℚ) = ((M.choose r * (M - r) : ℕ) : ℚ) := by rw [this]
    push_cast [Nat.cast_sub h] at h2
    linarith
  · rw [Nat.choose_eq_zero_of_lt h, Nat.choose_eq_zero_of_lt (by omega)]; simp

theorem choose_mul_central (n k : ℕ) : n.choose k * (n + k).choose n = (n + k).choose (2 * k) * (2 * k).choose k := by
  rcases le_or_gt k n with h | h
  · rw [Nat.choose_mul (by omega)]
    rw [show n + k - k = n by omega, show 2 * k - k = k by omega, Nat.choose_symm_add, _root_.mul_comm]
  · rw [Nat.choose_eq_zero_of_lt h, Nat.choose_eq_zero_of_lt (by omega : n + k < 2 * k)]; simp

/-- The coefficient of the shifted Legendre polynomial without its sign. -/
theorem legendre_coeff_rec (n k : ℕ) :
    ((n : ℚ) + 2) * ((n + 2).choose (k + 1) * (n + 2 + (k + 1)).choose (n + 2) : ℕ) =
    (2 * (n : ℚ) + 3) * (((n + 1).choose (k + 1) * (n + 1 + (k + 1)).choose (n + 1) : ℕ) +
      2 * ((n + 1).choose k * (n + 1 + k).choose (n + 1) : ℕ)) - (n + 1) * (n.choose (k + 1) * (n + (k + 1)).choose n : ℕ) := by
  rw [choose_mul_central, choose_mul_central, choose_mul_central, choose_mul_central]
  have hc := Nat.succ_mul_centralBinom_succ k
  simp only [Nat.centralBinom] at hc
  have hcq : ((k : ℚ) + 1) * ((2 * (k + 1)).choose (k + 1) : ℚ) = 2 * (2 * k + 1) * ((2 * k).choose k : ℚ) := by exact_mod_cast hc
  generalize ((2 * (k + 1)).choose (k + 1)) = cb' at *
  generalize ((2 * k).choose k) = cb at *
  have e1 : (n + 2 + (k + 1)).choose (2 * (k + 1)) = (n + k + 1).choose (2 * k + 2) + 2 * (n + k + 1).choose (2 * k + 1) + (n + k + 1).choose (2 * k) := by
    rw [show n + 2 + (k + 1) = n + k + 1 + 1 + 1 by ring, show 2 * (k + 1) = 2 * k + 1 + 1 by ring, Nat.choose_succ_succ' (n + k + 1 + 1),
      Nat.choose_succ_succ' (n + k + 1) (2 * k), Nat.choose_succ_succ' (n + k + 1) (2 * k + 1)]
    ring
  have e2 : (n + 1 + (k + 1)).choose (2 * (k + 1)) = (n + k + 1).choose (2 * k + 2) + (n + k + 1).choose (2 * k + 1) := by
    rw [show n + 1 + (k + 1) = n + k + 1 + 1 by ring, show 2 * (k + 1) = 2 * k + 1 + 1 by ring, Nat.choose_succ_succ]
    ring
  have e3 : (n + 1 + k).choose (2 * k) = (n + k + 1).choose (2 * k) := by congr 1; ring
  have e4 : (n + (k + 1)).choose (2 * (k + 1)) = (n + k + 1).choose (2 * k + 2) := by congr 1
  rw [e1, e2, e3, e4]
  have h1 := choose_succ_int (n + k + 1) (2 * k)
  have h2 := choose_succ_int (n + k + 1) (2 * k + 1)
  rw [show 2 * k + 1 + 1 = 2 * k + 2 by ring] at h2
  generalize (n + k + 1).choose (2 * k) = c0 at *
  generalize (n + k + 1).choose (2 * k + 1) = c1 at *
  generalize (n + k + 1).choose (2 * k + 2) = c2 at *
  push_cast at h1 h2 hcq ⊢
  have k0 : (2 * (k : ℚ) + 1) ≠ 0 := by positivity
  have k1 : (2 * (k : ℚ) + 1 + 1) ≠ 0 := by positivity
  have hcb : (cb : ℚ) = (k + 1) * cb' / (2 * (2 * k + 1)) := by field_simp; linarith
  have hc1 : (c1 : ℚ) = ((n : ℚ) + k + 1 - 2 * k) * c0 / (2 * k + 1) := by field_simp; linarith
  have hc2 : (c2 : ℚ) = ((n : ℚ) + k + 1 - (2 * k + 1)) * c1 / (2 * k + 1 + 1) := by field_simp; linarith
  rw [hc2, hc1, hcb]
  field_simp
  ring

open Polynomial in
/-- Bonnet's recurrence for Mathlib's shifted Legendre polynomials. -/
theorem bonnet (n : ℕ) : ((n : ℤ[X]) + 2) * shiftedLegendre (n + 2) =
    (2 * (n : ℤ[X]) + 3) * ((1 - 2 * X) * shiftedLegendre (n + 1)) - ((n : ℤ[X]) + 1) * shiftedLegendre n := by
  have c1 : ((n : ℤ[X]) + 2) = C ((n : ℤ) + 2) := by simp
  have c2 : (2 * (n : ℤ[X]) + 3) = C (2 * (n : ℤ) + 3) := by simp
  have c3 : ((n : ℤ[X]) + 1) = C ((n : ℤ) + 1) := by simp
  have c4 : (1 - 2 * X : ℤ[X]) * shiftedLegendre (n + 1) = shiftedLegendre (n + 1) - C 2 * (X * shiftedLegendre (n + 1)) := by
    simp; ring
  rw [c1, c2, c3, c4]
  ext k
  rw [coeff_sub, coeff_C_mul, coeff_C_mul, coeff_C_mul, coeff_sub, coeff_C_mul]
  cases k with
  | zero =>
    rw [coeff_X_mul_zero]
    simp [coeff_shiftedLegendre]
    ring
  | succ k =>
    rw [coeff_X_mul]
    simp only [coeff_shiftedLegendre]
    have h := legendre_coeff_rec n k
    have h' : ((n : ℤ) + 2) * ((n + 2).choose (k + 1) * (n + 2 + (k + 1)).choose (n + 2) : ℕ) =
      (2 * (n : ℤ) + 3) * (((n + 1).choose (k + 1) * (n + 1 + (k + 1)).choose (n + 1) : ℕ) +
      2 * ((n + 1).choose k * (n + 1 + k).choose (n + 1) : ℕ)) - (n + 1) * (n.choose (k + 1) * (n + (k + 1)).choose n : ℕ) := by
      exact_mod_cast h
    push_cast at h' ⊢
    linear_combination (-1 : ℤ) ^ (k + 1) * h'

section exact
variable {K : Type u} [Field K] [LinearOrder K] [IsStrictOrderedRing K]

open Polynomial in
theorem legendreLoop_eq (y : K) (k : ℕ) :
    legendreLoop (1 - 2 * y) k = (aeval y (shiftedLegendre k), aeval y (shiftedLegendre (k + 1))) := by
  induction k with
  | zero =>
    simp [legendreLoop, shiftedLegendre, Finset.sum_range_succ, Nat.choose]
    ring
  | succ k ih =>
    rw [legendreLoop, ih]
    simp only [fSub, fMul, fDiv, fLit, Prod.mk.injEq, true_and]
    have h := congrArg (aeval y) (bonnet k)
    simp only [map_mul, map_sub, map_add, map_natCast, map_ofNat, map_one, aeval_X] at h
    have hk : ((k : K) + 2) ≠ 0 := by positivity
    have : aeval y (shiftedLegendre (k + 1 + 1)) = ((2 * (k : K) + 3) * ((1 - 2 * y) * aeval y (shiftedLegendre (k + 1))) -
      ((k : K) + 1) * aeval y (shiftedLegendre k)) / (k + 2) := by
      rw [eq_div_iff hk, ← h, _root_.mul_comm]
    rw [this]
    push_cast
    field_simp
    ring

open Polynomial in
/-- **C103** (exact arithmetic) `legendre(n, x)` is the Legendre polynomial of degree `n`, for every degree and every argument
`x = 1 - 2 y`. -/
theorem C103_legendre [FF K] [ExactFF K] (n : ℕ) (y : K) : legendre n (1 - 2 * y) = aeval y (shiftedLegendre n) := by
  have hone : ∀ n : ℕ, aeval (0 : K) (shiftedLegendre n) = 1 := by
    intro n
    rw [aeval_def, eval₂_at_zero, coeff_shiftedLegendre]; simp
  unfold legendre
  simp only [fNan, fLit, Bool.false_eq_true, if_false]
  split
  · rename_i h
    rw [ExactFF.isEqual_iff] at h
    have hy : y = 0 := by push_cast at h; linarith
    rw [hy, hone]; norm_num
  split
  · rename_i h
    rw [ExactFF.isEqual_iff] at h
    have hy : y = 1 := by push_cast at h; linarith
    rw [hy, shiftedLegendre_eval_symm, sub_self, hone]
    rcases Nat.mod_two_eq_zero_or_one n with hn | hn
    · rw [hn]; simp [(Nat.even_iff.2 hn).neg_one_pow]
    · rw [hn]; simp [(Nat.odd_iff.2 hn).neg_one_pow]
  split
  · rename_i h; rw [← h]
    have := congrArg Prod.fst (legendreLoop_eq y 0)
    simpa [legendreLoop] using this
  split
  · rename_i h; rw [← h]
    have := congrArg Prod.snd (legendreLoop_eq y 0)
    simpa [legendreLoop] using this
  · rename_i h0 h1
    rw [legendreLoop_eq, show n - 1 + 1 = n by omega]

open Polynomial in
/-- **C103** (exact arithmetic) The function used by `assoc_legendre` for `m = 0` is the same polynomial. -/
theorem C103_assoc [FF K] [ExactFF K] (n : ℕ) (y : K) : assocLegendre n 0 (1 - 2 * y) = aeval y (shiftedLegendre n) := by
  rw [← C103_legendre]
  unfold assocLegendre polyLegendreP legendre
  simp only [fNan, Bool.false_eq_true, if_false, gt_iff_lt, not_lt_zero, if_true, eq_comm (a := 1) (b := n % 2)]
  by_cases h1 : FF.isEqual (Arith.lit 1 : K) (1 - 2 * y) = true
  · rw [if_pos h1]
    rw [ExactFF.isEqual_iff] at h1
    have hy : y = 0 := by simp only [fLit] at h1; push_cast at h1; linarith
    have hone : ∀ n : ℕ, aeval (0 : K) (shiftedLegendre n) = 1 := by
      intro n
      rw [aeval_def, eval₂_at_zero, coeff_shiftedLegendre]; simp
    rw [if_neg (by rw [ExactFF.isEqual_iff, hy]; simp only [fLit]; push_cast; norm_num)]
    split
    · rfl
    split
    · rw [hy]; simp
    · rw [legendreLoop_eq]
      simp only [hy, hone, fLit]; norm_num
  · rw [if_neg h1]

end exact

/-- The hypotheses on exact arithmetic can be met. -/
example : @ExactFF ℝ _ _ ⟨0, 0, fun a b => decide (a = b), Real.sqrt⟩ := by
  let _ : FF ℝ := ⟨0, 0, fun a b => decide (a = b), Real.sqrt⟩
  exact ⟨fun a b => by simp [FF.isEqual], fun a ha => ⟨Real.sqrt_nonneg a, Real.mul_self_sqrt ha⟩⟩

/-- **C103** (part) In IEEE arithmetic: NaN gives NaN, and the values at one and minus one are exact for every degree. -/
theorem C103_ends (n : ℕ) (x : BitVec 32) :
    (F32.IsNaN x → legendre n x = nan ∧ hermite n x = nan) ∧ legendre n (F32.lit 1) = F32.lit 1 ∧
    legendre n (F32.lit (-1)) = F32.lit ((-1) ^ n) := by
  have e1 : Arith.isNan (F32.lit 1) = false ∧ FF.isEqual (Arith.lit 1) (F32.lit 1) = true ∧ Arith.isNan (F32.lit (-1)) = false ∧
    FF.isEqual (Arith.lit 1) (F32.lit (-1)) = false ∧ FF.isEqual (Arith.lit (-1)) (F32.lit (-1)) = true := by decide +kernel
  refine ⟨fun h => ?_, ?_, ?_⟩
  · have hn : Arith.isNan x = true := decide_eq_true h
    constructor
    · unfold legendre; rw [if_pos hn]; rfl
    · unfold hermite; rw [if_pos hn]; rfl
  · unfold legendre
    rw [e1.1, e1.2.1]; rfl
  · unfold legendre
    rw [e1.2.2.1, e1.2.2.2.1, e1.2.2.2.2]
    simp only [Bool.false_eq_true, if_false, if_true]
    rcases Nat.mod_two_eq_zero_or_one n with hn | hn
    · rw [hn, (Nat.even_iff.2 hn).neg_one_pow]; rfl
    · rw [hn, (Nat.odd_iff.2 hn).neg_one_pow]; rfl

/-! ### Hermite -/

open Polynomial in
theorem derivative_hermite (n : ℕ) : derivative (Polynomial.hermite (n + 1)) = ((n : ℤ[X]) + 1) * Polynomial.hermite n := by
  induction n with
  | zero => simp
  | succ n ih =>
    rw [hermite_succ (n + 1), derivative_sub, derivative_mul, derivative_X, ih, derivative_mul]
    have h := hermite_succ n
    have : derivative ((n : ℤ[X]) + 1) = 0 := by simp
    rw [this]
    push_cast
    linear_combination (-(n : ℤ[X]) - 1) * h

open Polynomial in
theorem hermite_rec (n : ℕ) : Polynomial.hermite (n + 2) = X * Polynomial.hermite (n + 1) - ((n : ℤ[X]) + 1) * Polynomial.hermite n := by
  rw [hermite_succ (n + 1), derivative_hermite]

open Polynomial in
theorem hermiteLoop_eq {K : Type u} [Field K] [LinearOrder K] [IsStrictOrderedRing K] (s : K) (hs : s * s = 2) (x : K) (k : ℕ) :
    hermiteLoop x k = (s ^ k * aeval (s * x) (Polynomial.hermite k), s ^ (k + 1) * aeval (s * x) (Polynomial.hermite (k + 1))) := by
  induction k with
  | zero =>
    simp [hermiteLoop]
    rw [← mul_assoc, hs]
  | succ k ih =>
    rw [hermiteLoop, ih, hermite_rec]
    simp only [fSub, fMul, fLit, Prod.mk.injEq, true_and, map_mul, map_sub, map_add, map_natCast, map_one, aeval_X]
    push_cast
    have : s ^ (k + 1 + 1) = 2 * s ^ k := by rw [pow_succ, pow_succ, mul_assoc, hs]; ring
    have h2 : s ^ (k + 1) = s * s ^ k := by rw [pow_succ]; ring
    rw [this, h2]
    linear_combination (-(2 * x * s ^ k * 0) : K) * hs

open Polynomial in
/-- **C104** (exact arithmetic) `hermite(n, x)` is the physicists' Hermite polynomial of degree `n`, that is, the probabilists'
polynomial `2^(n/2) He_n(sqrt 2 x)`, for every degree and argument. -/
theorem C104_hermite [FF ℝ] (n : ℕ) (x : ℝ) : hermite n x = (√2) ^ n * aeval (√2 * x) (Polynomial.hermite n) := by
  have hs : √2 * √2 = 2 := Real.mul_self_sqrt (by norm_num)
  unfold hermite
  simp only [fNan, Bool.false_eq_true, if_false]
  split
  · rename_i h; rw [← h]; simp
  split
  · rename_i h; rw [← h]; simp; rw [← mul_assoc, hs]
  · rename_i h0 h1
    rw [hermiteLoop_eq (√2) hs, show n - 1 + 1 = n by omega]

/-! ### Hermite polynomials of integers in IEEE arithmetic -/

open F32 in
theorem int_float {q : ℚ} {z : ℤ} (e : q = z) (h : |q| ≤ 2 ^ 24) : ∃ c : BitVec 32, F32.Finite c ∧ val c = q := by
  have hz : |z| ≤ 16777216 := by
    rw [e] at h
    have : ((|z| : ℤ) : ℚ) ≤ ((16777216 : ℤ) : ℚ) := by push_cast; norm_num at h ⊢; exact h
    exact_mod_cast this
  obtain ⟨f, v⟩ := lit_int hz
  exact ⟨_, f, by rw [v, e]⟩

open F32 in
/-- The loop at an integer is exact as long as every product and every value met on the way is at most
`2^24` in magnitude; `hermiteLoop (val x) i` are the exact values. -/
theorem hermiteLoop_float (x : BitVec 32) (hx : F32.Finite x) (z : ℤ) (hz : val x = z) (k : ℕ) (h0 : |2 * val x| ≤ 2 ^ 24)
    (hk : k ≤ 2 ^ 24)
    (hb : ∀ i < k, |val x * (hermiteLoop (val x) i).2| ≤ 2 ^ 24 ∧ |((i : ℚ) + 1) * (hermiteLoop (val x) i).1| ≤ 2 ^ 24 ∧
      |(hermiteLoop (val x) (i + 1)).2| ≤ 2 ^ 24) :
    F32.Finite (hermiteLoop x k).1 ∧ F32.Finite (hermiteLoop x k).2 ∧ val (hermiteLoop x k).1 = (hermiteLoop (val x) k).1 ∧
      val (hermiteLoop x k).2 = (hermiteLoop (val x) k).2 ∧
      ∃ a b : ℤ, (hermiteLoop (val x) k).1 = a ∧ (hermiteLoop (val x) k).2 = b := by
  have c2 : F32.Finite (F32.lit 2) ∧ val (F32.lit 2) = 2 := by decide +kernel
  induction k with
  | zero =>
    have e : (2 : ℚ) * val x = ((2 * z : ℤ) : ℚ) := by rw [hz]; push_cast; rfl
    obtain ⟨c, fc, vc⟩ := int_float e h0
    obtain ⟨f, v⟩ := mul_exact c2.1 hx fc (by rw [c2.2, vc])
    refine ⟨c_one.1, f, c_one.2.trans (by simp [hermiteLoop]), (v.trans vc).trans (by simp [hermiteLoop]), 1, 2 * z, by simp [hermiteLoop], ?_⟩
    rw [← e]; simp [hermiteLoop]
  | succ k ih =>
    obtain ⟨f1, f2, v1, v2, a, b, ea, eb⟩ := ih (by omega) (fun i hi => hb i (by omega))
    obtain ⟨b1, b2, b3⟩ := hb k (by omega)
    have ek : (((k + 1 : ℕ) : ℤ) : ℚ) = (k : ℚ) + 1 := by push_cast; rfl
    have hj : |((k + 1 : ℕ) : ℤ)| ≤ 16777216 := by rw [abs_of_nonneg (by positivity)]; norm_num at hk; omega
    obtain ⟨fj, vj⟩ := lit_int hj
    have e1 : val x * (hermiteLoop (val x) k).2 = ((z * b : ℤ) : ℚ) := by rw [hz] at eb ⊢; rw [eb]; push_cast; rfl
    have e2 : ((k : ℚ) + 1) * (hermiteLoop (val x) k).1 = (((k + 1) * a : ℤ) : ℚ) := by rw [ea]; push_cast; rfl
    have e3 : (hermiteLoop (val x) (k + 1)).2 = 2 * (val x * (hermiteLoop (val x) k).2 - ((k : ℚ) + 1) * (hermiteLoop (val x) k).1) := by
      simp [hermiteLoop]
    have e4 : (hermiteLoop (val x) (k + 1)).2 = ((2 * (z * b - (k + 1) * a) : ℤ) : ℚ) := by rw [e3, e1, e2]; push_cast; rfl
    obtain ⟨p1, fp1, vp1⟩ := int_float e1 b1
    obtain ⟨p2, fp2, vp2⟩ := int_float e2 b2
    obtain ⟨p4, fp4, vp4⟩ := int_float e4 b3
    have h5 : |(((z * b - (k + 1) * a : ℤ)) : ℚ)| ≤ 2 ^ 24 := by
      rw [e4] at b3
      push_cast at b3 ⊢
      rw [abs_mul] at b3
      have := abs_nonneg ((z : ℚ) * b - (k + 1) * a)
      norm_num at b3 ⊢
      linarith
    obtain ⟨p5, fp5, vp5⟩ := int_float rfl h5
    obtain ⟨g1, w1⟩ := mul_exact hx f2 fp1 (by rw [v2, vp1])
    obtain ⟨g2, w2⟩ := mul_exact fj f1 fp2 (by rw [vj, v1, vp2, ek])
    obtain ⟨g3, w3⟩ := sub_exact g1 g2 fp5 (by rw [w1, w2, vp1, vp2, vp5, e1, e2]; push_cast; rfl)
    obtain ⟨g4, w4⟩ := mul_exact c2.1 g3 fp4 (by rw [w3, c2.2, vp5, vp4, e4]; push_cast; rfl)
    exact ⟨f2, g4, v2.trans (by simp [hermiteLoop]), w4.trans vp4, b, _, by rw [← eb]; simp [hermiteLoop], e4⟩

open F32 in
/-- **C104** (IEEE arithmetic) At an integer the result is exact as long as every product and every value met on the way is at most
`2^24` in magnitude; `hermiteLoop (val x) i` are the exact values, in rational arithmetic. -/
theorem C104_int [FF ℚ] (x : BitVec 32) (hx : F32.Finite x) (z : ℤ) (hz : val x = z) (n : ℕ) (hn : n ≤ 2 ^ 24) (h0 : |2 * val x| ≤ 2 ^ 24)
    (hb : ∀ i < n - 1, |val x * (hermiteLoop (val x) i).2| ≤ 2 ^ 24 ∧ |((i : ℚ) + 1) * (hermiteLoop (val x) i).1| ≤ 2 ^ 24 ∧
      |(hermiteLoop (val x) (i + 1)).2| ≤ 2 ^ 24) :
    F32.Finite (hermite n x) ∧ val (hermite n x) = hermite n (val x) := by
  have hnan : Arith.isNan x = false := decide_eq_false hx.notNaN
  obtain ⟨f1, f2, v1, v2, -⟩ := hermiteLoop_float x hx z hz (n - 1) h0 (by omega) hb
  unfold hermite
  simp only [hnan, fNan, Bool.false_eq_true, if_false]
  split
  · exact ⟨c_one.1, c_one.2.trans (by simp)⟩
  split
  · rename_i h; rw [← h] at f2 v2; exact ⟨f2, v2.trans (by simp [hermiteLoop])⟩
  · exact ⟨f2, v2⟩

/-- A case of the theorem above. -/
example : F32.Finite (F32.lit 3) ∧ F32.val (F32.lit 3) = (3 : ℤ) ∧ |2 * F32.val (F32.lit 3)| ≤ 2 ^ 24 ∧
    ∀ i < 6 - 1, |F32.val (F32.lit 3) * (hermiteLoop (F32.val (F32.lit 3)) i).2| ≤ 2 ^ 24 ∧
      |((i : ℚ) + 1) * (hermiteLoop (F32.val (F32.lit 3)) i).1| ≤ 2 ^ 24 ∧
      |(hermiteLoop (F32.val (F32.lit 3)) (i + 1)).2| ≤ 2 ^ 24 := by decide +kernel

end Verif.Ffmath
