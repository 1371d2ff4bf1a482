import Mathlib.Data.Real.Basic
import Mathlib.Tactic.Linarith
import Mathlib.Tactic.Ring
import Mathlib.Tactic.Positivity

/-!
# Bounds of polynomials on an interval

A polynomial with rational coefficients is bounded on an interval by cutting the interval into
pieces, expanding about the middle of every piece and adding the absolute values. The check is a
computation on rational numbers, `pcheck_sound` turns its success into a statement about all real
numbers of the interval. Nothing here is a definition of the repository.
-/

namespace Verif.F32

/-- Value of the polynomial with the given coefficients (constant first). -/
def peval (p : List ℚ) (x : ℝ) : ℝ := p.foldr (fun c r => (c : ℝ) + x * r) 0

/-- Sum of two polynomials. -/
def padd : List ℚ → List ℚ → List ℚ
  | [], q => q
  | p, [] => p
  | a :: p, b :: q => (a + b) :: padd p q

/-- Multiple of a polynomial. -/
def psmul (c : ℚ) (p : List ℚ) : List ℚ := p.map (c * ·)

/-- Product of two polynomials. -/
def pmul : List ℚ → List ℚ → List ℚ
  | [], _ => []
  | a :: p, q => padd (psmul a q) (0 :: pmul p q)

/-- The polynomial `x ↦ p (x + c)`. -/
def pshift (c : ℚ) : List ℚ → List ℚ
  | [] => []
  | a :: p => padd [a] (padd (0 :: pshift c p) (psmul c (pshift c p)))

/-- Sum of the absolute values on `[-r, r]`. -/
def pbound (r : ℚ) (p : List ℚ) : ℚ := p.foldr (fun c b => |c| + r * b) 0

theorem peval_nil (x : ℝ) : peval [] x = 0 := rfl
theorem peval_cons (a : ℚ) (p : List ℚ) (x : ℝ) : peval (a :: p) x = a + x * peval p x := rfl

theorem peval_padd (p q : List ℚ) (x : ℝ) : peval (padd p q) x = peval p x + peval q x := by
  induction p generalizing q with
  | nil => simp [padd, peval_nil]
  | cons a p ih =>
    cases q with
    | nil => simp [padd, peval_nil]
    | cons b q =>
      rw [padd, peval_cons, peval_cons, peval_cons, ih]
      push_cast; ring

theorem peval_psmul (c : ℚ) (p : List ℚ) (x : ℝ) : peval (psmul c p) x = c * peval p x := by
  induction p with
  | nil => simp [psmul, peval_nil]
  | cons a p ih =>
    rw [psmul, List.map_cons, peval_cons, peval_cons]
    rw [psmul] at ih
    rw [ih]; push_cast; ring

theorem peval_pmul (p q : List ℚ) (x : ℝ) : peval (pmul p q) x = peval p x * peval q x := by
  induction p with
  | nil => simp [pmul, peval_nil]
  | cons a p ih =>
    rw [pmul, peval_padd, peval_psmul, peval_cons, peval_cons, ih]
    push_cast; ring

theorem peval_pshift (c : ℚ) (p : List ℚ) (x : ℝ) : peval (pshift c p) x = peval p (x + c) := by
  induction p with
  | nil => rfl
  | cons a p ih =>
    rw [pshift, peval_padd, peval_padd, peval_psmul, peval_cons, peval_cons, peval_cons, peval_nil, ih]
    push_cast; ring

theorem pbound_nonneg {r : ℚ} (hr : 0 ≤ r) (p : List ℚ) : 0 ≤ pbound r p := by
  induction p with
  | nil => exact le_refl _
  | cons a p ih => show 0 ≤ |a| + r * pbound r p; positivity

theorem abs_peval_le {r : ℚ} (p : List ℚ) {x : ℝ} (h : |x| ≤ r) :
    |peval p x| ≤ (pbound r p : ℝ) := by
  have hr : (0 : ℝ) ≤ (r : ℝ) := (abs_nonneg x).trans h
  have hr' : 0 ≤ r := by exact_mod_cast hr
  induction p with
  | nil => simp [peval_nil, pbound]
  | cons a p ih =>
    rw [peval_cons]
    show _ ≤ ((|a| + r * pbound r p : ℚ) : ℝ)
    push_cast
    refine (abs_add_le _ _).trans ?_
    rw [abs_mul]
    have := mul_le_mul h ih (abs_nonneg _) hr
    linarith

/-- Check `|p| ≤ e` on the `n` pieces of width `2 r` from `a` on. -/
def pcheck (p : List ℚ) (a r : ℚ) : ℕ → ℚ → Bool
  | 0, _ => true
  | n + 1, e => decide (pbound r (pshift (a + r) p) ≤ e) && pcheck p (a + 2 * r) r n e

theorem pcheck_sound {p : List ℚ} {r : ℚ} {n : ℕ} {e : ℚ} : ∀ {a : ℚ},
    pcheck p a r n e = true → 1 ≤ n → ∀ x : ℝ, (a : ℝ) ≤ x → x ≤ (a : ℝ) + n * (2 * r) →
      |peval p x| ≤ e := by
  induction n with
  | zero => intro a _ h; omega
  | succ n ih =>
    intro a h _ x h1 h2
    rw [pcheck, Bool.and_eq_true, decide_eq_true_eq] at h
    rcases le_or_gt x ((a : ℝ) + 2 * r) with hx | hx
    · have hb : |x - ((a + r : ℚ) : ℝ)| ≤ r := by
        push_cast
        rw [abs_le]; constructor <;> linarith
      have := abs_peval_le (pshift (a + r) p) hb
      rw [peval_pshift, sub_add_cancel] at this
      exact this.trans (by exact_mod_cast h.1)
    · have hn : 1 ≤ n := by
        by_contra h0
        have : n = 0 := by omega
        subst this
        push_cast at h2
        linarith
      refine ih h.2 hn x (by push_cast; linarith) ?_
      push_cast at h2 ⊢
      linarith

/-- The same for rational arguments and values. -/
def pevalQ (p : List ℚ) (x : ℚ) : ℚ := p.foldr (fun c r => c + x * r) 0

theorem pevalQ_cast (p : List ℚ) (x : ℚ) : ((pevalQ p x : ℚ) : ℝ) = peval p x := by
  induction p with
  | nil => simp [pevalQ, peval_nil]
  | cons a p ih =>
    rw [peval_cons, ← ih]
    show ((a + x * pevalQ p x : ℚ) : ℝ) = _
    push_cast; ring

theorem pevalQ_nil (x : ℚ) : pevalQ [] x = 0 := rfl
theorem pevalQ_cons (a : ℚ) (p : List ℚ) (x : ℚ) : pevalQ (a :: p) x = a + x * pevalQ p x := rfl

theorem pcheckQ {p : List ℚ} {a r : ℚ} {n : ℕ} {e : ℚ} (h : pcheck p a r n e = true) (hn : 1 ≤ n)
    (x : ℚ) (h1 : a ≤ x) (h2 : x ≤ a + n * (2 * r)) : |pevalQ p x| ≤ e := by
  have := pcheck_sound h hn (x : ℝ) (by exact_mod_cast h1) (by exact_mod_cast h2)
  rw [← pevalQ_cast] at this
  exact_mod_cast this

end Verif.F32
