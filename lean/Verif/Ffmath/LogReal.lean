import Verif.F32.PolyPos
import Mathlib.Analysis.SpecialFunctions.Log.Deriv

/-!
# The polynomial of `log2` against the real logarithm

Real analysis only; nothing here is a definition of the repository, the coefficients are those of
`/repo/src/ffmath.cpp` lines 576-586.
-/

namespace Verif.Ffmath

open Verif F32

/-- Coefficients of the polynomial that `log2` evaluates (constant first). -/
def logC : List ℚ := [0, 1, -0.5, 3.3333331174e-1, -2.4999993993e-1, 2.0000714765e-1, -1.6668057665e-1,
  1.4249322787e-1, -1.2420140846e-1, 1.1676998740e-1, -1.1514610310e-1, 7.0376836292e-2]

/-- `(1 - s)^k` as coefficients. -/
def oneMinus : ℕ → List ℚ
  | 0 => [1]
  | k + 1 => pmul [1, -1] (oneMinus k)

/-- `(1 - s)^k p(2 s / (1 - s))` for a polynomial of degree at most `k`. -/
def subst2 : List ℚ → ℕ → List ℚ
  | [], _ => []
  | a :: p, k => padd (psmul a (oneMinus k)) (pmul [0, 2] (subst2 p (k - 1)))

theorem peval_oneMinus (k : ℕ) (s : ℝ) : peval (oneMinus k) s = (1 - s) ^ k := by
  induction k with
  | zero => simp [oneMinus, peval_cons, peval_nil]
  | succ k ih =>
    rw [oneMinus, peval_pmul, ih, peval_cons, peval_cons, peval_nil]
    push_cast; ring

theorem peval_subst2 (p : List ℚ) (s : ℝ) (hs : 1 - s ≠ 0) : ∀ k, p.length ≤ k + 1 →
    peval (subst2 p k) s = (1 - s) ^ k * peval p (2 * s / (1 - s)) := by
  induction p with
  | nil => intro k _; simp [subst2, peval_nil]
  | cons a p ih =>
    intro k hk
    rw [subst2, peval_padd, peval_psmul, peval_oneMinus, peval_pmul, peval_cons, peval_cons, peval_cons, peval_nil]
    rcases Nat.eq_zero_or_pos k with h0 | h0
    · subst h0
      have : p = [] := by
        rw [List.length_cons] at hk
        exact List.length_eq_zero_iff.1 (by omega)
      subst this
      simp [subst2, peval_nil]
    · rw [ih (k - 1) (by rw [List.length_cons] at hk; omega)]
      obtain ⟨m, rfl⟩ : ∃ m, k = m + 1 := ⟨k - 1, by omega⟩
      rw [Nat.add_sub_cancel]
      push_cast
      field_simp
      ring

/-- The truncated series of `log((1 + s)/(1 - s))` (twelve terms of each logarithm). -/
def artC : List ℚ := [0, 2, 0, 2 / 3, 0, 2 / 5, 0, 2 / 7, 0, 2 / 9, 0, 2 / 11]

theorem art_close {s : ℝ} (hs : |s| ≤ 0.1717) :
    |Real.log ((1 + s) / (1 - s)) - peval artC s| ≤ 2e-9 * |s| := by
  obtain ⟨s1, s2⟩ := _root_.abs_le.1 hs
  have h1 := Real.abs_log_sub_add_sum_range_le (x := s) (lt_of_le_of_lt hs (by norm_num)) 12
  have h2 := Real.abs_log_sub_add_sum_range_le (x := -s) (by rw [abs_neg]; exact lt_of_le_of_lt hs (by norm_num)) 12
  rw [abs_neg] at h2
  have hb : |s| ^ (12 + 1) / (1 - |s|) ≤ 1e-9 * |s| := by
    rw [div_le_iff₀ (by norm_num at hs ⊢; linarith), pow_succ]
    have := pow_le_pow_left₀ (abs_nonneg s) hs 12
    have h3 : |s| ^ 12 ≤ 1e-9 * (1 - |s|) := by norm_num at this hs ⊢; linarith
    have := mul_le_mul_of_nonneg_right h3 (abs_nonneg s)
    linarith
  have h1 := h1.trans hb
  have h2 := h2.trans hb
  rw [Real.log_div (by norm_num at s1 ⊢; linarith) (by norm_num at s2 ⊢; linarith)]
  rw [sub_neg_eq_add] at h2
  have e : Real.log (1 + s) - Real.log (1 - s) - peval artC s =
      ((∑ i ∈ Finset.range 12, (-s) ^ (i + 1) / ((i : ℝ) + 1)) + Real.log (1 + s)) -
      ((∑ i ∈ Finset.range 12, s ^ (i + 1) / ((i : ℝ) + 1)) + Real.log (1 - s)) := by
    simp only [Finset.sum_range_succ, Finset.sum_range_zero, artC, peval_cons, peval_nil]
    push_cast
    ring
  rw [e]
  have := abs_sub ((∑ i ∈ Finset.range 12, (-s) ^ (i + 1) / ((i : ℝ) + 1)) + Real.log (1 + s))
    ((∑ i ∈ Finset.range 12, s ^ (i + 1) / ((i : ℝ) + 1)) + Real.log (1 - s))
  generalize |s| = A at *
  norm_num at h1 h2 this ⊢
  linarith

/-- The difference of the two polynomials. -/
def logD : List ℚ := padd (subst2 logC 11) (psmul (-1) (pmul (oneMinus 11) artC))

theorem logD_head : ∃ p, logD = 0 :: p ∧ pposc (padd (psmul 2e-8 (oneMinus 10)) p) (-0.17158) 0.0034316 50 = true ∧
    pposc (padd (psmul 2e-8 (oneMinus 10)) (psmul (-1) p)) (-0.17158) 0.0034316 50 = true :=
  ⟨logD.tail, by decide +kernel, by decide +kernel, by decide +kernel⟩

theorem logC_len : logC.length ≤ 11 + 1 := by decide

/-- The polynomial is within `1.2e-8 |x|` of `log(1 + x)` on the interval it is used on. -/
theorem logC_close {x : ℝ} (h1 : -0.292894 ≤ x) (h2 : x ≤ 0.414214) :
    |peval logC x - Real.log (1 + x)| ≤ 1.2e-8 * |x| := by
  have hx2 : 0 < 2 + x := by norm_num at h1; linarith
  obtain ⟨s, hs⟩ : ∃ s, s = x / (2 + x) := ⟨_, rfl⟩
  have hs1 : -0.17158 ≤ s := by rw [hs, le_div_iff₀ hx2]; norm_num at h1 ⊢; linarith
  have hs2 : s ≤ 0.17158 := by rw [hs, div_le_iff₀ hx2]; norm_num at h2 ⊢; linarith
  have hms : 0 < 1 - s := by norm_num at hs2; linarith
  have ex : x = 2 * s / (1 - s) := by rw [hs]; field_simp; ring
  have el : 1 + x = (1 + s) / (1 - s) := by rw [ex]; field_simp; ring
  have hsx : |s| ≤ 0.6 * |x| := by
    rw [hs, abs_div, abs_of_pos hx2, div_le_iff₀ hx2]
    have := mul_nonneg (abs_nonneg x) (show 0 ≤ 0.6 * (2 + x) - 1 by norm_num at h1 ⊢; linarith)
    linarith
  have ha := art_close (s := s) (_root_.abs_le.2 ⟨by norm_num at hs1 ⊢; linarith, by norm_num at hs2 ⊢; linarith⟩)
  rw [← el] at ha
  have key : |peval logC x - peval artC s| ≤ 1e-8 * |x| := by
    obtain ⟨p, hp, c1, c2⟩ := logD_head
    have p1 := pposc_sound c1 (by norm_num) s (by norm_num at hs1 ⊢; linarith) (by norm_num at hs2 ⊢; linarith)
    have p2 := pposc_sound c2 (by norm_num) s (by norm_num at hs1 ⊢; linarith) (by norm_num at hs2 ⊢; linarith)
    rw [peval_padd, peval_psmul, peval_oneMinus] at p1
    rw [peval_padd, peval_psmul, peval_psmul, peval_oneMinus] at p2
    have e : peval logD s = s * peval p s := by rw [hp, peval_cons]; push_cast; ring
    unfold logD at e
    rw [peval_padd, peval_psmul, peval_pmul, peval_oneMinus, peval_subst2 _ _ hms.ne' _ logC_len, ← ex] at e
    have q := pow_pos hms 10
    have hb : |peval p s| ≤ 2e-8 * (1 - s) ^ 10 := by
      rw [_root_.abs_le]
      push_cast at p1 p2
      constructor <;> linarith
    have e2 : (1 - s) ^ 10 * ((1 - s) * (peval logC x - peval artC s)) = s * peval p s := by
      rw [← e]; push_cast; ring
    have e3 : |(1 - s) * (peval logC x - peval artC s)| ≤ 2e-8 * |s| := by
      have h3 : (1 - s) ^ 10 * |(1 - s) * (peval logC x - peval artC s)| ≤ (1 - s) ^ 10 * (2e-8 * |s|) := by
        rw [← abs_of_pos q, ← abs_mul, abs_of_pos q, e2, abs_mul]
        have := mul_le_mul_of_nonneg_left hb (abs_nonneg s)
        linarith
      exact le_of_mul_le_mul_left h3 q
    rw [abs_mul, abs_of_pos hms] at e3
    have hx : (1 - s) * |x| = 2 * |s| := by
      rw [ex, abs_div, abs_mul, abs_of_pos hms, abs_of_pos (by norm_num : (0 : ℝ) < 2)]; field_simp
    have h4 : (1 - s) * |peval logC x - peval artC s| ≤ (1 - s) * (1e-8 * |x|) := by
      have : (1 - s) * (1e-8 * |x|) = 2e-8 * |s| := by
        rw [show (1 - s) * (1e-8 * |x|) = 1e-8 * ((1 - s) * |x|) by ring, hx]; norm_num; ring
      rw [this]; exact e3
    exact le_of_mul_le_mul_left h4 hms
  have t := abs_sub_le (peval logC x) (peval artC s) (Real.log (1 + x))
  rw [abs_sub_comm (peval artC s)] at t
  have hB := abs_nonneg x
  generalize |s| = A at *
  generalize |x| = B at *
  norm_num at t key ha hsx ⊢
  linarith

end Verif.Ffmath
