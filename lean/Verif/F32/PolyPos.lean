import Verif.F32.Poly

/-!
# Nonnegative polynomials on an interval

One-sided companion of `pcheck`. Nothing here is a definition of the repository.
-/

namespace Verif.F32

/-- Lower bound of a polynomial on `[-r, r]`: constant coefficient minus the absolute values of the rest. -/
def plow (r : ℚ) : List ℚ → ℚ
  | [] => 0
  | a :: p => a - r * pbound r p

theorem plow_le {r : ℚ} (p : List ℚ) {x : ℝ} (h : |x| ≤ r) : (plow r p : ℝ) ≤ peval p x := by
  have hr : (0 : ℝ) ≤ (r : ℝ) := (abs_nonneg x).trans h
  cases p with
  | nil => simp [plow, peval_nil]
  | cons a p =>
    rw [peval_cons, plow]
    push_cast
    have h1 := abs_peval_le p h
    have h2 : |x * peval p x| ≤ r * pbound r p := by
      rw [abs_mul]; exact mul_le_mul h h1 (abs_nonneg _) hr
    have := (abs_le.1 h2).1
    linarith

/-- Check `0 ≤ p` on the `n` pieces of width `2 r` from `a` on. -/
def pposc (p : List ℚ) (a r : ℚ) : ℕ → Bool
  | 0 => true
  | n + 1 => decide (0 ≤ plow r (pshift (a + r) p)) && pposc p (a + 2 * r) r n

theorem pposc_sound {p : List ℚ} {r : ℚ} {n : ℕ} : ∀ {a : ℚ},
    pposc p a r n = true → 1 ≤ n → ∀ x : ℝ, (a : ℝ) ≤ x → x ≤ (a : ℝ) + n * (2 * r) → 0 ≤ peval p x := by
  induction n with
  | zero => intro a _ h; omega
  | succ n ih =>
    intro a h _ x h1 h2
    rw [pposc, Bool.and_eq_true, decide_eq_true_eq] at h
    rcases le_or_gt x ((a : ℝ) + 2 * r) with hx | hx
    · have hb : |x - ((a + r : ℚ) : ℝ)| ≤ r := by
        push_cast
        rw [abs_le]; constructor <;> linarith
      have := plow_le (pshift (a + r) p) hb
      rw [peval_pshift, sub_add_cancel] at this
      have h3 : (0 : ℝ) ≤ ((plow r (pshift (a + r) p) : ℚ) : ℝ) := by exact_mod_cast h.1
      exact h3.trans this
    · have hn : 1 ≤ n := by
        by_contra h0
        have : n = 0 := by omega
        subst this
        push_cast at h2
        linarith
      refine ih h.2 hn x (by push_cast; linarith) ?_
      push_cast at h2 ⊢
      linarith

end Verif.F32
