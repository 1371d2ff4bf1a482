import Verif.F32.Poly
import Verif.F32.PolyPos
import Mathlib.Analysis.Complex.Exponential
import Mathlib.Analysis.Complex.Trigonometric
import Mathlib.Analysis.Real.Pi.Bounds
import Mathlib.Tactic.IntervalCases

/-!
# Taylor polynomials of sine and cosine

Real analysis for the trigonometric functions of `ffmath`; nothing here is a definition of the repository.
-/

namespace Verif.Ffmath

open Verif F32

/-- Coefficients of the sine series. -/
def sinC (m : ℕ) : ℚ := (if m % 4 = 1 then 1 else if m % 4 = 3 then -1 else 0) / m.factorial

/-- Coefficients of the cosine series. -/
def cosC (m : ℕ) : ℚ := (if m % 4 = 0 then 1 else if m % 4 = 2 then -1 else 0) / m.factorial

/-- The first `n` terms of a series at `c x`, as a polynomial in `x`. -/
def pseries (f : ℕ → ℚ) (c : ℚ) (n : ℕ) : List ℚ := (List.range n).map fun m => f m * c ^ m

theorem peval_append (p q : List ℚ) (x : ℝ) : peval (p ++ q) x = peval p x + x ^ p.length * peval q x := by
  induction p with
  | nil => simp [peval_nil]
  | cons a p ih => rw [List.cons_append, peval_cons, peval_cons, ih, List.length_cons, pow_succ]; ring

theorem peval_pseries (f : ℕ → ℚ) (c : ℚ) (n : ℕ) (x : ℝ) :
    peval (pseries f c n) x = ∑ m ∈ Finset.range n, (f m : ℝ) * (c * x) ^ m := by
  induction n with
  | zero => simp [pseries, peval_nil]
  | succ n ih =>
    have : pseries f c (n + 1) = pseries f c n ++ [f n * c ^ n] := by
      simp [pseries, List.range_succ]
    rw [this, peval_append, ih, Finset.sum_range_succ, peval_cons, peval_nil]
    simp only [pseries, List.length_map, List.length_range]
    push_cast
    ring

theorem I_pow_re_im (m : ℕ) : ((Complex.I ^ m).re : ℝ) / m.factorial = (cosC m : ℝ) ∧
    ((Complex.I ^ m).im : ℝ) / m.factorial = (sinC m : ℝ) := by
  have h : m % 4 < 4 := Nat.mod_lt _ (by norm_num)
  rw [Complex.I_pow_eq_pow_mod]
  unfold cosC sinC
  interval_cases m % 4 <;> simp [pow_succ]

theorem trig_taylor {x : ℝ} {n : ℕ} (h : |x| / (n + 1) ≤ 1 / 2) :
    |Real.sin x - ∑ m ∈ Finset.range n, (sinC m : ℝ) * x ^ m| ≤ |x| ^ n / n.factorial * 2 ∧
    |Real.cos x - ∑ m ∈ Finset.range n, (cosC m : ℝ) * x ^ m| ≤ |x| ^ n / n.factorial * 2 := by
  have hn : ‖(x : ℂ) * Complex.I‖ = |x| := by simp
  have hb := Complex.exp_bound' (x := (x : ℂ) * Complex.I) (n := n) (by rw [hn]; push_cast; exact h)
  rw [hn] at hb
  have term : ∀ m : ℕ, ((x : ℂ) * Complex.I) ^ m / (m.factorial : ℂ) =
      ((x ^ m / m.factorial : ℝ) : ℂ) * Complex.I ^ m := by
    intro m; push_cast; ring
  have hs : (∑ m ∈ Finset.range n, ((x : ℂ) * Complex.I) ^ m / (m.factorial : ℂ)).im =
      ∑ m ∈ Finset.range n, (sinC m : ℝ) * x ^ m := by
    rw [Complex.im_sum]
    refine Finset.sum_congr rfl fun m _ => ?_
    rw [term, Complex.im_ofReal_mul, ← (I_pow_re_im m).2]; ring
  have hc : (∑ m ∈ Finset.range n, ((x : ℂ) * Complex.I) ^ m / (m.factorial : ℂ)).re =
      ∑ m ∈ Finset.range n, (cosC m : ℝ) * x ^ m := by
    rw [Complex.re_sum]
    refine Finset.sum_congr rfl fun m _ => ?_
    rw [term, Complex.re_ofReal_mul, ← (I_pow_re_im m).1]; ring
  constructor
  · have := (Complex.abs_im_le_norm _).trans hb
    rwa [Complex.sub_im, hs, Complex.exp_ofReal_mul_I_im] at this
  · have := (Complex.abs_re_le_norm _).trans hb
    rwa [Complex.sub_re, hc, Complex.exp_ofReal_mul_I_re] at this

theorem sin_poly {c : ℚ} {n : ℕ} {x X e : ℝ} (hx : |(c : ℝ) * x| ≤ X) (h : X / (n + 1) ≤ 1 / 2)
    (he : X ^ n / n.factorial * 2 ≤ e) : |Real.sin (c * x) - peval (pseries sinC c n) x| ≤ e := by
  rw [peval_pseries]
  refine ((trig_taylor (x := c * x) (n := n) ?_).1).trans ?_
  · exact le_trans (by gcongr) h
  · exact le_trans (by gcongr) he

theorem cos_poly {c : ℚ} {n : ℕ} {x X e : ℝ} (hx : |(c : ℝ) * x| ≤ X) (h : X / (n + 1) ≤ 1 / 2)
    (he : X ^ n / n.factorial * 2 ≤ e) : |Real.cos (c * x) - peval (pseries cosC c n) x| ≤ e := by
  rw [peval_pseries]
  refine ((trig_taylor (x := c * x) (n := n) ?_).2).trans ?_
  · exact le_trans (by gcongr) h
  · exact le_trans (by gcongr) he

/-! ## The parabola of `sin` -/

/-- The approximation used by `ffmath::sin` (`/repo/src/ffmath.cpp` lines 460-461) for the reduced
argument. -/
noncomputable def sinR (z : ℝ) : ℝ :=
  z * (|z| - 1) * (3.5841304553896 * |z * (|z| - 1)| + 3.1039673861526)

theorem abs_sin_sub (a b : ℝ) : |Real.sin a - Real.sin b| ≤ |a - b| := by
  have h := Real.sin_sub_sin a b
  rw [h, abs_mul, abs_mul, abs_two]
  have h1 := Real.abs_sin_le_abs (x := (a - b) / 2)
  have h2 := Real.abs_cos_le_one ((a + b) / 2)
  rw [abs_div, abs_two] at h1
  calc 2 * |Real.sin ((a - b) / 2)| * |Real.cos ((a + b) / 2)|
      ≤ 2 * (|a - b| / 2) * 1 := by gcongr
    _ = |a - b| := by ring

theorem sinR_close {z : ℝ} (hz : |z| ≤ 1) : |sinR z + Real.sin (Real.pi * z)| ≤ 9.5e-4 := by
  -- odd: it suffices to treat nonnegative arguments
  have main : ∀ z : ℝ, 0 ≤ z → z ≤ 1 →
      |z * (1 - z) * (3.5841304553896 * (z * (1 - z)) + 3.1039673861526) - Real.sin (Real.pi * z)| ≤ 9.5e-4 := by
    intro z h0 h1
    have hs := sin_poly (c := 355 / 113) (n := 16) (x := z) (X := 3.1416) (e := 9e-6)
      (by push_cast; rw [abs_of_nonneg (by positivity)]; norm_num; linarith) (by norm_num)
      (by norm_num [Nat.factorial])
    have hp := pcheck_sound (p := padd (pmul [0, 1, -1] (padd (psmul 3.5841304553896 [0, 1, -1]) [3.1039673861526]))
      (psmul (-1) (pseries sinC (355 / 113) 16))) (a := 0) (r := 1 / 200) (n := 100) (e := 9.4e-4)
      (by decide +kernel) (by norm_num) z (by push_cast; exact h0) (by norm_num; exact h1)
    rw [peval_padd, peval_pmul, peval_padd, peval_psmul, peval_psmul] at hp
    generalize peval (pseries sinC (355 / 113) 16) z = T at *
    simp only [peval_cons, peval_nil] at hp
    push_cast at hp hs
    have hpi : |Real.sin (355 / 113 * z) - Real.sin (Real.pi * z)| ≤ 3e-7 := by
      refine (abs_sin_sub _ _).trans ?_
      rw [← sub_mul, abs_mul, abs_of_nonneg h0]
      have : |(355 / 113 : ℝ) - Real.pi| ≤ 3e-7 := by
        have a := Real.pi_gt_d20
        have b := Real.pi_lt_d20
        rw [_root_.abs_le]; norm_num at a b ⊢; constructor <;> linarith
      calc |(355 / 113 : ℝ) - Real.pi| * z ≤ 3e-7 * 1 := mul_le_mul this h1 h0 (by norm_num)
        _ = 3e-7 := by norm_num
    generalize Real.sin (355 / 113 * z) = S at *
    generalize Real.sin (Real.pi * z) = S' at *
    rw [_root_.abs_le] at hp hs hpi ⊢
    have e : (0 + z * (1 + z * (-1 + z * 0))) * (3.5841304553896 * (0 + z * (1 + z * (-1 + z * 0))) +
        (3.1039673861526 + z * 0)) = z * (1 - z) * (3.5841304553896 * (z * (1 - z)) + 3.1039673861526) := by ring
    norm_num at hp hs hpi e ⊢
    rw [e] at hp
    constructor <;> linarith [hp.1, hp.2, hs.1, hs.2, hpi.1, hpi.2]
  unfold sinR
  rcases le_total 0 z with h | h
  · rw [abs_of_nonneg h] at hz ⊢
    have := main z h hz
    rw [abs_sub_comm] at this
    have e : |z * (z - 1)| = z * (1 - z) := by
      rw [abs_mul, abs_of_nonneg h, abs_of_nonpos (by linarith)]; ring
    rw [e, show z * (z - 1) * (3.5841304553896 * (z * (1 - z)) + 3.1039673861526) + Real.sin (Real.pi * z) =
      Real.sin (Real.pi * z) - z * (1 - z) * (3.5841304553896 * (z * (1 - z)) + 3.1039673861526) by ring]
    exact this
  · rw [abs_of_nonpos h] at hz ⊢
    have := main (-z) (by linarith) hz
    have e : |z * (-z - 1)| = -z * (1 + z) := by
      rw [abs_mul, abs_of_nonpos h, abs_of_nonpos (by linarith)]; ring
    rw [show Real.pi * -z = -(Real.pi * z) by ring, Real.sin_neg] at this
    rw [e]
    convert this using 2
    ring

end Verif.Ffmath
