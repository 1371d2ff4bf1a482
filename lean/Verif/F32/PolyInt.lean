import Verif.F32.PolyPos
import Mathlib.Tactic.FieldSimp

/-!
# Nonnegative polynomials on an interval, in integer arithmetic

A faster version of `pposc`: the polynomial is scaled to integer coefficients first. Nothing here is a definition of the repository.
-/

namespace Verif.F32

/-- Value of a polynomial with integer coefficients. -/
def ieval : List ℤ → ℝ → ℝ
  | [], _ => 0
  | a :: p, x => a + x * ieval p x

/-- `a + (c + X) q`. -/
def istep (c : ℤ) : ℤ → List ℤ → List ℤ
  | a, [] => [a]
  | a, b :: q => (a + c * b) :: istep c b q

theorem ieval_istep (c : ℤ) (q : List ℤ) : ∀ (a : ℤ) (x : ℝ), ieval (istep c a q) x = a + (c + x) * ieval q x := by
  induction q with
  | nil => intro a x; simp [istep, ieval]
  | cons b q ih =>
    intro a x
    rw [istep, ieval, ih, ieval]
    push_cast
    ring

/-- `p (c + X)`. -/
def ishift (c : ℤ) : List ℤ → List ℤ
  | [] => []
  | a :: p => istep c a (ishift c p)

theorem ieval_ishift (c : ℤ) (p : List ℤ) (x : ℝ) : ieval (ishift c p) x = ieval p (c + x) := by
  induction p with
  | nil => rfl
  | cons a p ih => rw [ishift, ieval_istep, ih, ieval]

/-- `p (w X)`. -/
def iwiden (w : ℤ) : ℤ → List ℤ → List ℤ
  | _, [] => []
  | u, a :: p => u * a :: iwiden w (u * w) p

theorem ieval_iwiden (w : ℤ) (p : List ℤ) : ∀ (u : ℤ) (x : ℝ), ieval (iwiden w u p) x = u * ieval p (w * x) := by
  induction p with
  | nil => intro u x; simp [iwiden, ieval]
  | cons a p ih =>
    intro u x
    rw [iwiden, ieval, ih, ieval]
    push_cast
    ring

theorem ieval_append (p : List ℤ) (a : ℤ) (x : ℝ) : ieval (p ++ [a]) x = ieval p x + a * x ^ p.length := by
  induction p with
  | nil => simp [ieval]
  | cons b p ih => rw [List.cons_append, ieval, ih, ieval, List.length_cons, pow_succ]; ring

theorem ieval_reverse (p : List ℤ) {x : ℝ} (hx : x ≠ 0) : ieval p x = x ^ p.length * (x⁻¹ * ieval p.reverse x⁻¹) := by
  induction p with
  | nil => simp [ieval]
  | cons a p ih =>
    rw [List.reverse_cons, ieval_append, ieval, ih, List.length_reverse, List.length_cons, pow_succ, inv_pow]
    have : x ^ p.length ≠ 0 := pow_ne_zero _ hx
    field_simp
    ring

theorem ieval_nonneg (p : List ℤ) (h : ∀ a ∈ p, 0 ≤ a) {x : ℝ} (hx : 0 ≤ x) : 0 ≤ ieval p x := by
  induction p with
  | nil => simp [ieval]
  | cons a p ih =>
    have h1 : (0 : ℝ) ≤ a := by exact_mod_cast h a (by simp)
    have h2 := ih fun b hb => h b (by simp [hb])
    rw [ieval]
    positivity

/-- Check `0 ≤ p` on `[a, b]`: the coefficients of `(1 + s)^n p (a + (b - a) / (1 + s))` are nonnegative. -/
def ibern (p : List ℤ) (a b : ℤ) : Bool := decide (0 ≤ (ishift a p).headD 0) && (ishift 1 (iwiden (b - a) 1 (ishift a p)).reverse).all fun c => decide (0 ≤ c)

theorem ibern_sound {p : List ℤ} {a b : ℤ} (h : ibern p a b = true) (hab : a < b) (x : ℝ) (h1 : (a : ℝ) ≤ x) (h2 : x ≤ b) : 0 ≤ ieval p x := by
  rw [ibern, Bool.and_eq_true, decide_eq_true_eq] at h
  obtain ⟨h0, h⟩ := h
  rcases eq_or_lt_of_le h1 with rfl | h1
  · have e := ieval_ishift a p 0
    rw [add_zero] at e
    rw [← e]
    cases hs : ishift a p with
    | nil => simp [ieval]
    | cons c q =>
      rw [hs] at h0
      rw [ieval, zero_mul, add_zero]
      exact_mod_cast h0
  have hw : (0 : ℝ) < b - a := by have : (a : ℝ) < b := by exact_mod_cast hab
                                  linarith
  have ht : 0 < (x - a) / (b - a) := div_pos (by linarith) hw
  have ht1 : (x - a) / (b - a) ≤ 1 := by rw [div_le_one hw]; linarith
  have e1 : ieval p x = ieval (iwiden (b - a) 1 (ishift a p)) ((x - a) / (b - a)) := by
    rw [ieval_iwiden, ieval_ishift]
    push_cast
    rw [one_mul, mul_div_cancel₀ _ hw.ne', add_sub_cancel]
  rw [e1, ieval_reverse _ ht.ne']
  have e2 := ieval_ishift 1 (iwiden (b - a) 1 (ishift a p)).reverse (((x - a) / (b - a))⁻¹ - 1)
  push_cast at e2
  rw [add_sub_cancel] at e2
  rw [← e2]
  have : 0 ≤ ((x - a) / (b - a))⁻¹ - 1 := by rw [sub_nonneg]; exact (one_le_inv₀ ht).2 ht1
  rw [List.all_eq_true] at h
  have := ieval_nonneg _ (fun c hc => of_decide_eq_true (h c hc)) this
  positivity

/-- The polynomial `K M^(n-1) p (X / M)`, `n` being the number of coefficients. -/
def iscale (K M : ℕ) : List ℚ → List ℤ
  | [] => []
  | a :: p => (a * ((K * M ^ p.length : ℕ) : ℚ)).num :: iscale K M p

/-- Its coefficients are integers. -/
def iint (K M : ℕ) : List ℚ → Bool
  | [] => true
  | a :: p => ((a * ((K * M ^ p.length : ℕ) : ℚ)).den == 1) && iint K M p

theorem ieval_iscale {K M : ℕ} (hM : 0 < M) : ∀ (p : List ℚ), iint K M p = true → ∀ x : ℝ,
    (M : ℝ) * ieval (iscale K M p) x = K * M ^ p.length * peval p (x / M) := by
  have hMr : (0 : ℝ) < M := by exact_mod_cast hM
  intro p
  induction p with
  | nil => intro _ x; simp [iscale, ieval, peval_nil]
  | cons a p ih =>
    intro h x
    rw [iint, Bool.and_eq_true, beq_iff_eq] at h
    have e := ih h.2 x
    rw [iscale, ieval, peval_cons]
    have ec : (((a * ((K * M ^ p.length : ℕ) : ℚ)).num : ℤ) : ℝ) = (a : ℝ) * (K * M ^ p.length) := by
      have h1 : (((a * ((K * M ^ p.length : ℕ) : ℚ)).num : ℤ) : ℚ) = a * ((K * M ^ p.length : ℕ) : ℚ) := by
        conv_rhs => rw [← Rat.num_div_den (a * ((K * M ^ p.length : ℕ) : ℚ)), h.1]
        simp
      have h2 : ((((a * ((K * M ^ p.length : ℕ) : ℚ)).num : ℤ) : ℚ) : ℝ) = ((a * ((K * M ^ p.length : ℕ) : ℚ) : ℚ) : ℝ) := by rw [h1]
      push_cast at h2
      exact_mod_cast h2
    rw [ec, List.length_cons, pow_succ]
    have : (M : ℝ) * (a * (K * M ^ p.length) + x * ieval (iscale K M p) x) = M * (a * (K * M ^ p.length)) + x * (M * ieval (iscale K M p) x) := by ring
    rw [this, e]
    field_simp

/-- Check `0 ≤ p` on `[a / M, b / M]`. -/
def pposi (p : List ℚ) (K M : ℕ) (a b : ℤ) : Bool := iint K M p && ibern (iscale K M p) a b

theorem pposi_sound {p : List ℚ} {K M : ℕ} {a b : ℤ} (h : pposi p K M a b = true) (hK : 0 < K) (hM : 0 < M) (hab : a < b) (x : ℝ)
    (h1 : (a : ℝ) / M ≤ x) (h2 : x ≤ (b : ℝ) / M) : 0 ≤ peval p x := by
  have hKr : (0 : ℝ) < K := by exact_mod_cast hK
  have hMr : (0 : ℝ) < M := by exact_mod_cast hM
  rw [pposi, Bool.and_eq_true] at h
  have e := ieval_iscale hM p h.1 (x * M)
  have q := ibern_sound h.2 hab (x * M) ((div_le_iff₀ hMr).1 h1) ((le_div_iff₀ hMr).1 h2)
  rw [mul_div_cancel_right₀ _ hMr.ne'] at e
  have : 0 ≤ (K : ℝ) * M ^ p.length * peval p x := by rw [← e]; positivity
  exact nonneg_of_mul_nonneg_right this (by positivity)

end Verif.F32
