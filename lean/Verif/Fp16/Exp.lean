import Verif.Fp16.Trig
import Mathlib.Analysis.SpecialFunctions.Exponential
import Mathlib.Analysis.Normed.Algebra.Exponential

/-!
# `fp16::exp` as a pure function, and its rounding errors

None of the definitions of this file is a definition of the repository.
-/

namespace Verif.Fp16

/-- Rounded quotient by a positive integer (not a definition of the repository). -/
def Q (x i : Int) : Int := (2 * x + i) / (2 * i)

/-- The exit test of the loop (not a definition of the repository). -/
def stop (i t : Int) : Bool := decide (t < 500 ∧ (i > 15 ∨ t < 20))

/-- The loop without its overflow tests (not a definition of the repository). -/
def expP (x : Int) : Nat → Int → Int → Int → Int
  | 0, _, _, r => r
  | n + 1, i, t, r =>
    let t' := M (t * Q x i)
    if stop i t' then r + t' else expP x n (i + 1) t' (r + t')

theorem Q_nonneg {x i : Int} (hx : 0 ≤ x) (hi : 0 < i) : 0 ≤ Q x i :=
  Int.ediv_nonneg (by omega) (by omega)

theorem Q_mono {x y i : Int} (h : x ≤ y) (hi : 0 < i) : Q x i ≤ Q y i :=
  Int.ediv_le_ediv (by omega) (by omega)

theorem Q_le {x i : Int} (hx : 0 ≤ x) (hi : 2 ≤ i) : Q x i ≤ x := by
  unfold Q
  have : (2 * x + i) / (2 * i) < x + 1 := by
    rw [Int.ediv_lt_iff_lt_mul (by omega)]; nlinarith
  omega

theorem Q_real {x i : Int} (hi : 0 < i) : |(Q x i : ℝ) - x / i| ≤ 1 / 2 := by
  have h1 : Q x i * (2 * i) ≤ 2 * x + i := Int.ediv_mul_le _ (by omega)
  have h2 : 2 * x + i < (Q x i + 1) * (2 * i) := Int.lt_ediv_add_one_mul_self _ (by omega)
  have h1' : (Q x i : ℝ) * (2 * i) ≤ 2 * x + i := by exact_mod_cast h1
  have h2' : 2 * (x : ℝ) + i ≤ (Q x i + 1) * (2 * i) := by exact_mod_cast h2.le
  have hi' : (0 : ℝ) < i := by exact_mod_cast hi
  have e : (Q x i : ℝ) - x / i = (Q x i * i - x) / i := by field_simp
  rw [e, abs_le, le_div_iff₀ hi', div_le_iff₀ hi']
  constructor <;> linarith

theorem M_mul_mono {p q u v : Int} (hpu : p ≤ u) (hqv : q ≤ v) (hp : 0 ≤ p) (hq : 0 ≤ q) :
    M (p * q) ≤ M (u * v) := M_mono (mul_le_mul hpu hqv hq (hp.trans hpu))

theorem le_expP {x : Int} (hx : 0 ≤ x) : ∀ (n : Nat) (i t r : Int), 0 < i → 0 ≤ t →
    r ≤ expP x n i t r := by
  intro n
  induction n with
  | zero => intro i t r _ _; exact le_rfl
  | succ n ih =>
    intro i t r hi ht
    have h0 : 0 ≤ M (t * Q x i) := M_nonneg (mul_nonneg ht (Q_nonneg hx hi))
    unfold expP
    dsimp only
    split
    · omega
    · have := ih (i + 1) (M (t * Q x i)) (r + M (t * Q x i)) (by omega) h0
      omega

theorem expP_mono {x y : Int} (hx : 0 ≤ x) (hxy : x ≤ y) : ∀ (n : Nat) (i t u r s : Int), 0 < i →
    0 ≤ t → t ≤ u → r ≤ s → expP x n i t r ≤ expP y n i u s := by
  intro n
  induction n with
  | zero => intro i t u r s _ _ _ h; exact h
  | succ n ih =>
    intro i t u r s hi ht htu hrs
    have h0 : 0 ≤ M (t * Q x i) := M_nonneg (mul_nonneg ht (Q_nonneg hx hi))
    have h1 : M (t * Q x i) ≤ M (u * Q y i) :=
      M_mul_mono htu (Q_mono hxy hi) ht (Q_nonneg hx hi)
    unfold expP
    dsimp only
    by_cases hy : stop i (M (u * Q y i)) = true
    · have hx' : stop i (M (t * Q x i)) = true := by
        unfold stop at *; rw [decide_eq_true_eq] at *; omega
      rw [if_pos hx', if_pos hy]; omega
    · rw [if_neg hy]
      split
      · have := le_expP (hx.trans hxy) n (i + 1) (M (u * Q y i)) (s + M (u * Q y i)) (by omega)
          (h0.trans h1)
        omega
      · exact ih _ _ _ _ _ (by omega) h0 h1 (by omega)

theorem fromInt_small {i : Int} (h1 : 2 ≤ i) (h2 : i < 30) : fromInt i = i * 65536 := by
  interval_cases i <;> decide

theorem div_fromInt {x i : Int} (hx : 0 ≤ x ∧ x < 2147483648) (h1 : 2 ≤ i) (h2 : i < 30) :
    div x (fromInt i) = .ok (Q x i) := by
  rw [fromInt_small h1 h2, div_eq x (i * 65536) (by unfold Num; omega) (by unfold Num; omega)
    (by omega), if_pos (by omega), if_neg (by omega), if_pos (by omega)]
  congr 1
  have e1 : ((x.natAbs : Nat) : Int) = x := by omega
  have e2 : (((i * 65536).natAbs : Nat) : Int) = i * 65536 := by omega
  push_cast
  have e1' : |x| = x := abs_of_nonneg hx.1
  have e2' : |i| = i := abs_of_nonneg (by omega)
  simp only [e1', e2', abs_mul]
  unfold Q
  rw [show x * 131072 + i * |65536| = (2 * x + i) * 65536 by norm_num; ring,
    show 2 * (i * |65536|) = 2 * i * 65536 by norm_num; ring,
    Int.mul_ediv_mul_of_pos_left _ _ (by norm_num)]

/-- While the sum stays below `2^31` the loop computes `expP`. -/
theorem expLoop_eq {x : Int} (hx : 0 ≤ x ∧ x < 2147483648) : ∀ (n : Nat) (i t r : Int), 2 ≤ i →
    i + n ≤ 30 → 0 ≤ t → t < 2147483648 → 0 ≤ r → expP x n i t r < 2147483648 →
    expLoop x n i t r = .ok (expP x n i t r) := by
  intro n
  induction n with
  | zero => intro i t r _ _ _ _ _ _; rfl
  | succ n ih =>
    intro i t r hi hin ht ht' hr hb
    have hq0 := Q_nonneg hx.1 (by omega : 0 < i)
    have hq1 := Q_le hx.1 hi
    have h0 : 0 ≤ M (t * Q x i) := M_nonneg (mul_nonneg ht hq0)
    unfold expLoop
    unfold expP at hb ⊢
    dsimp only at hb ⊢
    rw [div_fromInt hx hi (by push_cast at hin; omega), Out.bind_ok]
    have hb' : r + M (t * Q x i) < 2147483648 := by
      split at hb
      · exact hb
      · have := le_expP hx.1 n (i + 1) (M (t * Q x i)) (r + M (t * Q x i)) (by omega) h0
        omega
    have hm := mul_sgn (s := 1) (Or.inl rfl) ⟨ht, ht'⟩ (q := Q x i) (by omega) (by omega)
    rw [one_mul, one_mul] at hm
    rw [hm, Out.bind_ok, chk_ok (by omega), Out.bind_ok]
    by_cases hs : stop i (M (t * Q x i)) = true
    · rw [if_pos hs] at hb ⊢
      unfold stop at hs
      rw [decide_eq_true_eq] at hs
      rw [if_pos hs]
    · rw [if_neg hs] at hb ⊢
      unfold stop at hs
      rw [decide_eq_true_eq] at hs
      rw [if_neg hs]
      exact ih _ _ _ (by omega) (by push_cast at hin ⊢; omega) h0 (by omega) (by omega) hb

/-- The value for a positive argument other than one (not a definition of the repository). -/
def expV (x : Int) : Int := expP x 28 2 x (x + 65536)

theorem expV_mono {x y : Int} (hx : 0 ≤ x) (h : x ≤ y) : expV x ≤ expV y :=
  expP_mono hx h 28 2 x y _ _ (by norm_num) hx h (by omega)

theorem expV_top : expV 681390 = 2147460374 := by decide +kernel

theorem expV_ge {x : Int} (hx : 0 ≤ x) : x + 65536 ≤ expV x :=
  le_expP hx 28 2 x _ (by norm_num) hx

theorem expV_lt {x : Int} (hx : 0 ≤ x) (h : x < 681391) : expV x ≤ 2147460374 := by
  rw [← expV_top]; exact expV_mono hx (by omega)

theorem exp_pos_eq {x : Int} (h0 : 0 < x) (h1 : x < 681391) (h2 : x ≠ 65536) :
    exp x = .ok (expV x) := by
  have hb := expV_lt h0.le h1
  unfold exp expMax one
  rw [if_neg (by omega), if_neg h2, if_neg (by omega), if_neg (by omega)]
  simp only [show decide (x < 0) = false by simp; omega, Bool.false_eq_true, if_false]
  rw [Out.pure_eq, Out.bind_ok, chk_ok (by omega), Out.bind_ok,
    expLoop_eq ⟨h0.le, by omega⟩ 28 2 x (x + 65536) (by norm_num) (by norm_num) h0.le (by omega)
      (by omega) (by unfold expV at hb; omega)]
  rfl

/-- Rounded reciprocal (not a definition of the repository). -/
def recip (r : Int) : Int := (65536 * 131072 + r) / (2 * r)

theorem div_recip {r : Int} (h : 65536 ≤ r) (h' : r < 2147483648) : div 65536 r = .ok (recip r) := by
  rw [div_eq 65536 r (by decide) (by unfold Num; omega)
    (by omega), if_pos (by omega), if_neg (by omega), if_pos (by omega)]
  congr 1
  have e2' : |r| = r := abs_of_nonneg (by omega)
  push_cast
  simp only [e2']
  unfold recip
  norm_num

theorem exp_neg_eq {x : Int} (h0 : 0 < x) (h1 : x < 681391) :
    exp (-x) = .ok (recip (expV x)) := by
  have hb := expV_lt h0.le h1
  have hg := expV_ge h0.le
  unfold exp expMax one
  rw [if_neg (by omega), if_neg (by omega), if_neg (by omega), if_neg (by omega)]
  simp only [show decide (-x < 0) = true by simp; omega, if_true, neg_neg]
  rw [chk_ok (by omega), Out.bind_ok, chk_ok (by omega), Out.bind_ok,
    expLoop_eq ⟨h0.le, by omega⟩ 28 2 x (x + 65536) (by norm_num) (by norm_num) h0.le (by omega)
      (by omega) (by unfold expV at hb; omega), Out.bind_ok]
  exact div_recip (by unfold expV at hg; omega) (by unfold expV at hb; omega)

theorem recip_anti {r s : Int} (hr : 0 < r) (h : r ≤ s) : recip s ≤ recip r := by
  unfold recip
  have h2 : (65536 * 131072 + s) < (recip r + 1) * (2 * s) := by
    have h3 : 65536 * 131072 + r < (recip r + 1) * (2 * r) :=
      Int.lt_ediv_add_one_mul_self _ (by omega)
    have h4 : 0 ≤ recip r := Int.ediv_nonneg (by omega) (by omega)
    nlinarith
  have := (Int.ediv_lt_iff_lt_mul (by omega : 0 < 2 * s)).2 h2
  unfold recip at this
  omega

end Verif.Fp16
