import Verif.Ffmath.FloatModel
import Verif.Ffmath.Props

/-! # Lemmas on the float operators used by `ffmath` -/

namespace Verif.Ffmath
open Verif F32

theorem absolute_spec (x : BitVec 32) : neg (absolute x) = false ∧ mag (absolute x) = mag x := by
  apply neg_mag_of_toNat (mag_lt x)
  unfold absolute
  rw [toNat_noSign]; simp

theorem absolute_finite {x : BitVec 32} : Finite (absolute x) ↔ Finite x := by
  rw [finite_iff, finite_iff, (absolute_spec x).2]

theorem absolute_nan {x : BitVec 32} : IsNaN (absolute x) ↔ IsNaN x := by
  rw [nan_iff, nan_iff, (absolute_spec x).2]

theorem absolute_inf {x : BitVec 32} : IsInf (absolute x) ↔ IsInf x := by
  rw [inf_iff, inf_iff, (absolute_spec x).2]

theorem absolute_val (x : BitVec 32) : val (absolute x) = |val x| := by
  rw [abs_val, val_eq, (absolute_spec x).1, (absolute_spec x).2]; simp

theorem absolute_negate (x : BitVec 32) : absolute (negate x) = absolute x := by
  apply eq_of_neg_mag
  · rw [(absolute_spec _).1, (absolute_spec _).1]
  · rw [(absolute_spec _).2, (absolute_spec _).2, (negate_spec x).2]

theorem classify_zero (x : BitVec 32) : (Class.zero = classify x) ↔ mag x = 0 := by
  have h := (C31_classify x).1
  constructor
  · intro e
    have := h.1 e.symm
    exact val_eq_zero.1 this.2
  · intro e
    exact (h.2 ⟨by rw [finite_iff]; omega, val_eq_zero.2 e⟩).symm

theorem classify_zero' (x : BitVec 32) : (Class.zero = classify x) ↔ val x = 0 := by
  rw [classify_zero, val_eq_zero]

/-! ### Literals -/

theorem lit_int {k : ℤ} (h : |k| ≤ 16777216) : Finite (lit (k : ℚ)) ∧ val (lit (k : ℚ)) = k :=
  rnd_int false h

theorem lit_zero : lit 0 = 0#32 := by decide +kernel
theorem lit_one : lit 1 = 0x3F800000#32 := by decide +kernel
theorem lit_two : lit 2 = 0x40000000#32 := by decide +kernel
theorem lit_half : lit 0.5 = 0x3F000000#32 := by decide +kernel
theorem fin_zero : Finite (lit 0) := by decide +kernel
theorem fin_one : Finite (lit 1) := by decide +kernel
theorem fin_two : Finite (lit 2) := by decide +kernel
theorem fin_half : Finite (lit 0.5) := by decide +kernel
theorem val_zero : val (lit 0) = 0 := by decide +kernel
theorem val_one : val (lit 1) = 1 := by decide +kernel
theorem val_two : val (lit 2) = 2 := by decide +kernel
theorem val_half : val (lit 0.5) = 1 / 2 := by decide +kernel
theorem fin_fltMin : Finite fltMin := by decide +kernel
theorem fin_fltMax : Finite fltMax := by decide +kernel
theorem val_fltMin : val fltMin = 2 ^ (-126 : ℤ) := by decide +kernel
theorem val_fltMax : val fltMax = (16777215 : ℚ) * 2 ^ (104 : ℤ) := by decide +kernel
theorem lit_tol : lit 1.175494351e-38 = fltMin := by decide +kernel

/-! ### Bounds through one operation -/

theorem add_btw {a b lo hi : BitVec 32} (ha : Finite a) (hb : Finite b) (hlo : Finite lo)
    (hhi : Finite hi) (h1 : val lo ≤ val a + val b) (h2 : val a + val b ≤ val hi) :
    Finite (add a b) ∧ val lo ≤ val (add a b) ∧ val (add a b) ≤ val hi := by
  rw [add_fin ha hb]; exact rnd_between hlo hhi h1 h2

theorem sub_btw {a b lo hi : BitVec 32} (ha : Finite a) (hb : Finite b) (hlo : Finite lo)
    (hhi : Finite hi) (h1 : val lo ≤ val a - val b) (h2 : val a - val b ≤ val hi) :
    Finite (sub a b) ∧ val lo ≤ val (sub a b) ∧ val (sub a b) ≤ val hi := by
  rw [sub_fin ha hb]; exact rnd_between hlo hhi h1 h2

theorem mul_btw {a b lo hi : BitVec 32} (ha : Finite a) (hb : Finite b) (hlo : Finite lo)
    (hhi : Finite hi) (h1 : val lo ≤ val a * val b) (h2 : val a * val b ≤ val hi) :
    Finite (mul a b) ∧ val lo ≤ val (mul a b) ∧ val (mul a b) ≤ val hi := by
  rw [mul_fin ha hb]; exact rnd_between hlo hhi h1 h2

theorem div_btw {a b lo hi : BitVec 32} (ha : Finite a) (hb : Finite b) (h0 : val b ≠ 0)
    (hlo : Finite lo) (hhi : Finite hi) (h1 : val lo ≤ val a / val b)
    (h2 : val a / val b ≤ val hi) :
    Finite (div a b) ∧ val lo ≤ val (div a b) ∧ val (div a b) ≤ val hi := by
  rw [div_fin ha hb h0]; exact rnd_between hlo hhi h1 h2

theorem add_exact {a b c : BitVec 32} (ha : Finite a) (hb : Finite b) (hc : Finite c)
    (h : val a + val b = val c) : Finite (add a b) ∧ val (add a b) = val c := by
  obtain ⟨f, g1, g2⟩ := add_btw ha hb hc hc h.ge h.le
  exact ⟨f, le_antisymm g2 g1⟩

theorem sub_exact {a b c : BitVec 32} (ha : Finite a) (hb : Finite b) (hc : Finite c)
    (h : val a - val b = val c) : Finite (sub a b) ∧ val (sub a b) = val c := by
  obtain ⟨f, g1, g2⟩ := sub_btw ha hb hc hc h.ge h.le
  exact ⟨f, le_antisymm g2 g1⟩

theorem mul_exact {a b c : BitVec 32} (ha : Finite a) (hb : Finite b) (hc : Finite c)
    (h : val a * val b = val c) : Finite (mul a b) ∧ val (mul a b) = val c := by
  obtain ⟨f, g1, g2⟩ := mul_btw ha hb hc hc h.ge h.le
  exact ⟨f, le_antisymm g2 g1⟩

/-- Halving is exact above `2^-125`. -/
theorem half_exact {b : BitVec 32} (hb : Finite b) (h : 2 ^ (-125 : ℤ) ≤ |val b|) :
    Finite (mul (lit 0.5) b) ∧ val (mul (lit 0.5) b) = val b / 2 := by
  obtain ⟨k, t, h1, h2, h3, h4, h5⟩ := val_dyadic hb
  have ht : t ≠ -149 := by
    rintro rfl
    rw [h4, abs_mul, abs_of_pos (two_zpow_pos _)] at h
    have h6 : |(k : ℚ)| < 16777216 := by exact_mod_cast h3
    have : |(k : ℚ)| * 2 ^ (-149 : ℤ) < 16777216 * 2 ^ (-149 : ℤ) :=
      mul_lt_mul_of_pos_right h6 (two_zpow_pos _)
    have e : (16777216 : ℚ) * 2 ^ (-149 : ℤ) = 2 ^ (-125 : ℤ) := by norm_num
    linarith
  have e : val b / 2 = (k : ℚ) * 2 ^ (t - 1) := by
    rw [h4, zpow_sub₀ (by norm_num)]; ring
  rw [mul_fin fin_half hb, val_half, show (1 : ℚ) / 2 * val b = val b / 2 by ring, e]
  by_cases ht2 : t - 1 ≤ 103
  · exact rnd_dyadic _ (by omega) ht2 h3.le
  · omega

/-- Doubling stays representable up to half of the largest float. -/
theorem double_exists {b : BitVec 32} (hb : Finite b) (h : |val b| ≤ 16777215 * 2 ^ (103 : ℤ)) :
    ∃ c : BitVec 32, Finite c ∧ val c = 2 * val b := by
  obtain ⟨k, t, h1, h2, h3, h4, h5⟩ := val_dyadic hb
  have e : 2 * val b = (k : ℚ) * 2 ^ (t + 1) := by
    rw [h4, zpow_add₀ (by norm_num)]; ring
  rw [e]
  apply exists_float (by omega) h3.le
  have : |(k : ℚ)| * 2 ^ (t + 1) = 2 * |val b| := by
    rw [← abs_of_pos (two_zpow_pos (t + 1)), ← abs_mul, ← e, abs_mul]; norm_num
  rw [this]
  calc 2 * |val b| ≤ 2 * (16777215 * 2 ^ (103 : ℤ)) := by linarith
    _ < _ := by norm_num

theorem val_le_of_key {a b : BitVec 32} (h : key a ≤ key b) : val a ≤ val b := val_le_iff.2 h

theorem finite_between {x a b : BitVec 32} (ha : Finite a) (hb : Finite b) (h1 : key a ≤ key x)
    (h2 : key x ≤ key b) : Finite x ∧ val a ≤ val x ∧ val x ≤ val b := by
  have := ha.key_lt
  have := hb.key_lt
  exact ⟨finite_of_key (by omega), val_le_iff.2 h1, val_le_iff.2 h2⟩

theorem lt_key {a b : BitVec 32} (h : F32.lt a b = true) : key a < key b :=
  (of_decide_eq_true (show decide (¬ IsNaN a ∧ ¬ IsNaN b ∧ key a < key b) = true from h)).2.2

theorem le_key {a b : BitVec 32} (h : F32.le a b = true) : key a ≤ key b :=
  (of_decide_eq_true (show decide (¬ IsNaN a ∧ ¬ IsNaN b ∧ key a ≤ key b) = true from h)).2.2

/-! ### Errors of one operation -/

theorem add_err {a b : BitVec 32} (ha : Finite a) (hb : Finite b) (h : Finite (add a b)) :
    |val (add a b) - (val a + val b)| ≤ max (|val a + val b| * 2 ^ (-24 : ℤ)) (2 ^ (-150 : ℤ)) := by
  rw [add_fin ha hb] at h ⊢; exact rnd_err h

theorem sub_err {a b : BitVec 32} (ha : Finite a) (hb : Finite b) (h : Finite (sub a b)) :
    |val (sub a b) - (val a - val b)| ≤ max (|val a - val b| * 2 ^ (-24 : ℤ)) (2 ^ (-150 : ℤ)) := by
  rw [sub_fin ha hb] at h ⊢; exact rnd_err h

theorem mul_err {a b : BitVec 32} (ha : Finite a) (hb : Finite b) (h : Finite (mul a b)) :
    |val (mul a b) - val a * val b| ≤ max (|val a * val b| * 2 ^ (-24 : ℤ)) (2 ^ (-150 : ℤ)) := by
  rw [mul_fin ha hb] at h ⊢; exact rnd_err h

theorem div_err {a b : BitVec 32} (ha : Finite a) (hb : Finite b) (h0 : val b ≠ 0)
    (h : Finite (div a b)) :
    |val (div a b) - val a / val b| ≤ max (|val a / val b| * 2 ^ (-24 : ℤ)) (2 ^ (-150 : ℤ)) := by
  rw [div_fin ha hb h0] at h ⊢; exact rnd_err h

theorem max_le_add' {a b : ℚ} (ha : 0 ≤ a) (hb : 0 ≤ b) : max a b ≤ a + b := by
  rcases max_cases a b with ⟨h, _⟩ | ⟨h, _⟩ <;> rw [h] <;> linarith

end Verif.Ffmath
