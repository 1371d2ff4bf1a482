import Mathlib.Data.Rat.Defs
import Mathlib.Algebra.Order.Field.Power
import Mathlib.Algebra.Order.Ring.Rat
import Mathlib.Algebra.Field.Rat
import Mathlib.Tactic.Ring
import Mathlib.Tactic.Linarith
import Mathlib.Tactic.NormNum
import Mathlib.Tactic.Positivity
import Mathlib.Tactic.FieldSimp

/-!
# IEEE-754 binary32

The meaning of a `float` bit pattern (IEEE 754-2008, 3.4). `real_t` is `float`
(`/repo/src/include/qlibs_types.hpp` line 43).
-/

namespace Verif.F32

/-- The sign bit of a pattern (IEEE 754 binary32 encoding; not a definition of the repository). -/
def neg (b : BitVec 32) : Bool := decide (2147483648 ≤ b.toNat)

/-- The 31 bits other than the sign (IEEE 754; not a definition of the repository). -/
def mag (b : BitVec 32) : Nat := b.toNat % 2147483648

/-- The biased exponent field (IEEE 754; not a definition of the repository). -/
def expo (b : BitVec 32) : Nat := mag b / 8388608

/-- The fraction field (IEEE 754; not a definition of the repository). -/
def frac (b : BitVec 32) : Nat := mag b % 8388608

/-- Finite number (IEEE 754; not a definition of the repository). -/
def Finite (b : BitVec 32) : Prop := expo b < 255

/-- Infinity of either sign (IEEE 754; not a definition of the repository). -/
def IsInf (b : BitVec 32) : Prop := expo b = 255 ∧ frac b = 0

/-- Not a number (IEEE 754; not a definition of the repository). -/
def IsNaN (b : BitVec 32) : Prop := expo b = 255 ∧ frac b ≠ 0

instance (b : BitVec 32) : Decidable (Finite b) := inferInstanceAs (Decidable (_ < _))
instance (b : BitVec 32) : Decidable (IsInf b) := inferInstanceAs (Decidable (_ ∧ _))
instance (b : BitVec 32) : Decidable (IsNaN b) := inferInstanceAs (Decidable (_ ∧ _))

/-- Value of the magnitude with exponent field `e` and fraction field `f`: subnormals are
`f * 2^-149`, normals `(1 + f/2^23) * 2^(e-127)` (IEEE 754; not a definition of the repository). -/
def fields (e f : Nat) : ℚ :=
  if e = 0 then (f : ℚ) * 2 ^ (-149 : ℤ) else (1 + (f : ℚ) / 8388608) * 2 ^ ((e : ℤ) - 127)

/-- The value of a finite pattern (IEEE 754; not a definition of the repository). -/
def val (b : BitVec 32) : ℚ :=
  if neg b then - fields (expo b) (frac b) else fields (expo b) (frac b)

/-- Value of the magnitude pattern `m`. -/
def mval (m : Nat) : ℚ := fields (m / 8388608) (m % 8388608)

theorem val_eq (b : BitVec 32) : val b = if neg b then -mval (mag b) else mval (mag b) := rfl

theorem mag_lt (b : BitVec 32) : mag b < 2147483648 := Nat.mod_lt _ (by norm_num)

theorem toNat_eq (b : BitVec 32) : b.toNat = (if neg b then 2147483648 else 0) + mag b := by
  have := b.isLt
  unfold neg mag
  by_cases h : 2147483648 ≤ b.toNat
  · rw [decide_eq_true h, if_pos rfl]; omega
  · rw [decide_eq_false h, if_neg (by simp)]; omega

/-- Assemble a pattern. -/
theorem neg_mag_of_toNat {b : BitVec 32} {s : Bool} {m : Nat} (hm : m < 2147483648)
    (h : b.toNat = (if s then 2147483648 else 0) + m) : neg b = s ∧ mag b = m := by
  unfold neg mag
  rw [h]
  cases s
  · simp; omega
  · simp; omega

theorem finite_iff (b : BitVec 32) : Finite b ↔ mag b < 2139095040 := by
  unfold Finite expo; omega

/-- Linear form of the value inside one binade, including its upper end. -/
theorem mval_lin {e t : Nat} (he : 1 ≤ e) (ht : t ≤ 8388608) :
    mval (e * 8388608 + t) = ((8388608 + t : ℕ) : ℚ) * 2 ^ ((e : ℤ) - 150) := by
  have h2 : (2 : ℚ) ^ ((e : ℤ) - 127) = 8388608 * 2 ^ ((e : ℤ) - 150) := by
    have : ((e : ℤ) - 127) = 23 + ((e : ℤ) - 150) := by ring
    rw [this, zpow_add₀ (by norm_num)]
    norm_num
  unfold mval fields
  rcases Nat.lt_or_ge t 8388608 with h | h
  · rw [show (e * 8388608 + t) / 8388608 = e by omega,
      show (e * 8388608 + t) % 8388608 = t by omega, if_neg (by omega), h2]
    push_cast
    field_simp
  · have : t = 8388608 := by omega
    subst this
    rw [show (e * 8388608 + 8388608) / 8388608 = e + 1 by omega,
      show (e * 8388608 + 8388608) % 8388608 = 0 by omega, if_neg (by omega)]
    have h3 : (2 : ℚ) ^ (((e + 1 : ℕ) : ℤ) - 127) = 2 * 2 ^ ((e : ℤ) - 127) := by
      have : (((e + 1 : ℕ) : ℤ) - 127) = 1 + ((e : ℤ) - 127) := by push_cast; ring
      rw [this, zpow_add₀ (by norm_num)]
      norm_num
    rw [h3, h2]
    push_cast
    ring

/-- Subnormals and the first binade: the pattern counts multiples of `2^-149`. -/
theorem mval_sub {m : Nat} (h : m ≤ 16777216) : mval m = (m : ℚ) * 2 ^ (-149 : ℤ) := by
  rcases Nat.lt_or_ge m 8388608 with h1 | h1
  · unfold mval fields
    rw [if_pos (by omega), Nat.mod_eq_of_lt h1]
  · have := @mval_lin 1 (m - 8388608) (le_refl _) (by omega)
    rw [show 1 * 8388608 + (m - 8388608) = m by omega] at this
    rw [this]; norm_num

theorem mval_succ_lt (m : Nat) : mval m < mval (m + 1) := by
  rcases Nat.lt_or_ge m 8388608 with h | h
  · rw [mval_sub (by omega), mval_sub (by omega)]
    have : (0 : ℚ) < 2 ^ (-149 : ℤ) := by positivity
    push_cast; nlinarith
  · have h1 := @mval_lin (m / 8388608) (m % 8388608) (by omega) (by omega)
    have h2 := @mval_lin (m / 8388608) (m % 8388608 + 1) (by omega) (by omega)
    rw [show m / 8388608 * 8388608 + m % 8388608 = m by omega] at h1
    rw [show m / 8388608 * 8388608 + (m % 8388608 + 1) = m + 1 by omega] at h2
    rw [h1, h2]
    have : (0 : ℚ) < 2 ^ (((m / 8388608 : ℕ) : ℤ) - 150) := by positivity
    generalize (2 : ℚ) ^ (((m / 8388608 : ℕ) : ℤ) - 150) = p at *
    push_cast; nlinarith

theorem mval_strictMono : StrictMono mval := strictMono_nat_of_lt_succ mval_succ_lt

theorem mval_zero : mval 0 = 0 := by rw [mval_sub (by norm_num)]; norm_num

theorem mval_nonneg (m : Nat) : 0 ≤ mval m := by
  rw [← mval_zero]; exact mval_strictMono.monotone (Nat.zero_le m)

theorem mval_lt_iff {m n : Nat} : mval m < mval n ↔ m < n := mval_strictMono.lt_iff_lt
theorem mval_le_iff {m n : Nat} : mval m ≤ mval n ↔ m ≤ n := mval_strictMono.le_iff_le
theorem mval_inj {m n : Nat} : mval m = mval n ↔ m = n := mval_strictMono.injective.eq_iff

/-- Position of a pattern on the number line as an integer. -/
def key (b : BitVec 32) : Int := if neg b then -(mag b : Int) else mag b

/-- The extended value: `⊥`/`⊤` for the infinities. Only meaningful when not a NaN
(IEEE 754; not a definition of the repository). -/
def ext (b : BitVec 32) : WithBot (WithTop ℚ) :=
  if expo b = 255 then (if neg b then ⊥ else ((⊤ : WithTop ℚ) : WithBot (WithTop ℚ)))
  else ((val b : WithTop ℚ) : WithBot (WithTop ℚ))

theorem key_lt_iff {a b : BitVec 32} : key a < key b ↔ val a < val b := by
  rw [val_eq, val_eq]
  unfold key
  have ha := mval_nonneg (mag a)
  have hb := mval_nonneg (mag b)
  by_cases h1 : neg a <;> by_cases h2 : neg b <;> simp only [h1, h2, if_true, if_false, Bool.false_eq_true]
  · rw [neg_lt_neg_iff, neg_lt_neg_iff, mval_lt_iff]; omega
  · constructor
    · intro h
      have : 0 < mag a ∨ 0 < mag b := by omega
      rcases this with h | h
      · have := mval_lt_iff.2 h; rw [mval_zero] at this; linarith
      · have := mval_lt_iff.2 h; rw [mval_zero] at this; linarith
    · intro h
      by_contra hc
      have h3 : mag a = 0 := by omega
      have h4 : mag b = 0 := by omega
      rw [h3, h4, mval_zero] at h; norm_num at h
  · constructor
    · intro h; omega
    · intro h; linarith
  · rw [mval_lt_iff]; omega

theorem val_lt_iff {a b : BitVec 32} : val a < val b ↔ key a < key b := key_lt_iff.symm

theorem val_le_iff {a b : BitVec 32} : val a ≤ val b ↔ key a ≤ key b := by
  rw [← not_lt, val_lt_iff, not_lt]

/-- IEEE `<` on bit patterns: false as soon as one operand is a NaN, otherwise comparison of the
extended values, where both zeros are equal (IEEE 754, 5.11; the C++ operator `<` on `float`). -/
def lt (a b : BitVec 32) : Bool := decide (¬ IsNaN a ∧ ¬ IsNaN b ∧ key a < key b)

/-- IEEE `<=` on bit patterns (IEEE 754, 5.11; the C++ operator `<=` on `float`). -/
def le (a b : BitVec 32) : Bool := decide (¬ IsNaN a ∧ ¬ IsNaN b ∧ key a ≤ key b)

theorem mag_inf_of {a : BitVec 32} (hn : ¬ IsNaN a) (h : expo a = 255) : mag a = 2139095040 := by
  unfold IsNaN frac at hn
  unfold expo at *
  omega

theorem ext_lt_iff {a b : BitVec 32} (ha : ¬ IsNaN a) (hb : ¬ IsNaN b) :
    ext a < ext b ↔ key a < key b := by
  unfold ext
  by_cases h1 : expo a = 255
  · rw [if_pos h1]
    have m1 := mag_inf_of ha h1
    by_cases h2 : expo b = 255
    · rw [if_pos h2]
      have m2 := mag_inf_of hb h2
      unfold key
      rw [m1, m2]
      by_cases s1 : neg a <;> by_cases s2 : neg b <;> simp [s1, s2]
    · rw [if_neg h2]
      have m2 : mag b < 2139095040 := by
        have := mag_lt b
        unfold expo at h2; omega
      unfold key
      rw [m1]
      by_cases s1 : neg a <;> by_cases s2 : neg b <;> simp [s1, s2] <;> omega
  · rw [if_neg h1]
    have m1 : mag a < 2139095040 := by
      have := mag_lt a
      unfold expo at h1; omega
    by_cases h2 : expo b = 255
    · rw [if_pos h2]
      have m2 := mag_inf_of hb h2
      unfold key
      rw [m2]
      have hx : (((val a : WithTop ℚ) : WithBot (WithTop ℚ))) < ⊤ :=
        WithBot.coe_lt_coe.2 (WithTop.coe_lt_top (val a))
      by_cases s1 : neg a <;> by_cases s2 : neg b <;>
        simp [s1, s2, hx] <;> omega
    · rw [if_neg h2, WithBot.coe_lt_coe, WithTop.coe_lt_coe]
      exact val_lt_iff

theorem ext_le_iff {a b : BitVec 32} (ha : ¬ IsNaN a) (hb : ¬ IsNaN b) :
    ext a ≤ ext b ↔ key a ≤ key b := by
  rw [← not_lt, ext_lt_iff hb ha, not_lt]

theorem ext_eq_iff {a b : BitVec 32} (ha : ¬ IsNaN a) (hb : ¬ IsNaN b) :
    ext a = ext b ↔ key a = key b := by
  rw [le_antisymm_iff, ext_le_iff ha hb, ext_le_iff hb ha]; omega

/-- The computable comparison is the IEEE comparison of extended values. -/
theorem lt_iff {a b : BitVec 32} : lt a b = true ↔ ¬ IsNaN a ∧ ¬ IsNaN b ∧ ext a < ext b := by
  unfold lt
  rw [decide_eq_true_iff]
  constructor
  · rintro ⟨h1, h2, h3⟩; exact ⟨h1, h2, (ext_lt_iff h1 h2).2 h3⟩
  · rintro ⟨h1, h2, h3⟩; exact ⟨h1, h2, (ext_lt_iff h1 h2).1 h3⟩

theorem le_iff {a b : BitVec 32} : le a b = true ↔ ¬ IsNaN a ∧ ¬ IsNaN b ∧ ext a ≤ ext b := by
  unfold le
  rw [decide_eq_true_iff]
  constructor
  · rintro ⟨h1, h2, h3⟩; exact ⟨h1, h2, (ext_le_iff h1 h2).2 h3⟩
  · rintro ⟨h1, h2, h3⟩; exact ⟨h1, h2, (ext_le_iff h1 h2).1 h3⟩

end Verif.F32
