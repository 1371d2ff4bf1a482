import Verif.Ffmath.Model
import Mathlib.Tactic.IntervalCases
import Mathlib.Algebra.Order.Floor.Ring
import Mathlib.Data.Rat.Floor

namespace Verif.Ffmath

open Verif F32

theorem toNat_noSign (x : BitVec 32) : (noSignMask &&& x).toNat = mag x := by
  unfold noSignMask mag
  rw [BitVec.toNat_and, Nat.and_comm]
  exact Nat.and_two_pow_sub_one_eq_mod x.toNat 31

theorem toNat_noSign' (x : BitVec 32) : (x &&& noSignMask).toNat = mag x := by
  rw [BitVec.and_comm]; exact toNat_noSign x

theorem toNat_sign (x : BitVec 32) :
    (x &&& signMask).toNat = if neg x then 2147483648 else 0 := by
  have h1 : x &&& signMask = (x >>> 31) <<< 31 := by
    apply BitVec.eq_of_getLsbD_eq
    intro i hi
    simp only [signMask, BitVec.getLsbD_and, BitVec.getLsbD_shiftLeft, BitVec.getLsbD_ushiftRight]
    rcases Nat.lt_or_ge i 31 with h | h
    · have : (0x80000000#32).getLsbD i = false := by interval_cases i <;> rfl
      simp [this, h]
    · have : i = 31 := by omega
      subst this
      simp
  rw [h1, BitVec.toNat_shiftLeft, BitVec.toNat_ushiftRight, Nat.shiftRight_eq_div_pow,
    Nat.shiftLeft_eq]
  have := x.isLt
  unfold neg
  by_cases h : 2147483648 ≤ x.toNat
  · rw [decide_eq_true h, if_pos rfl]; omega
  · rw [decide_eq_false h, if_neg (by simp)]; omega

/-- Or of a sign and a magnitude is their sum. -/
theorem toNat_or_sign {a b : BitVec 32} {s : Bool} (ha : a.toNat = if s then 2147483648 else 0)
    (hb : b.toNat < 2147483648) : (a ||| b).toNat = (if s then 2147483648 else 0) + b.toNat := by
  rw [BitVec.toNat_or, ha]
  cases s
  · simp
  · have := Nat.two_pow_add_eq_or_of_lt (i := 31) (b := b.toNat) hb 1
    simpa using this.symm

theorem toInt_eq (x : BitVec 32) :
    x.toInt = if neg x then (mag x : Int) - 2147483648 else mag x := by
  have h := toNat_eq x
  have hl := mag_lt x
  rw [BitVec.toInt_eq_toNat_cond, h]
  by_cases hn : neg x
  · simp only [hn, if_true]; split <;> omega
  · simp only [hn, Bool.false_eq_true, if_false]; split <;> omega

theorem unbiased_eq (x : BitVec 32) : unbiased x = (expo x : Int) - 127 := by
  have hx := x.isLt
  have key : ((x.sshiftRight 23) &&& 0xFF#32).toNat = expo x := by
    rw [BitVec.toNat_and, show (0xFF#32).toNat = 2 ^ 8 - 1 by rfl,
      Nat.and_two_pow_sub_one_eq_mod]
    unfold expo mag
    by_cases hm : x.msb = true
    · have h2 : 2147483648 ≤ x.toNat := by
        have := BitVec.msb_eq_decide x; rw [hm] at this; simpa using this.symm
      rw [BitVec.sshiftRight_eq_of_msb_true hm, BitVec.toNat_not, BitVec.toNat_ushiftRight,
        BitVec.toNat_not, Nat.shiftRight_eq_div_pow]
      omega
    · have hm : x.msb = false := by simpa using hm
      have h2 : x.toNat < 2147483648 := by
        have := BitVec.msb_eq_decide x; rw [hm] at this; simpa using this.symm
      rw [BitVec.sshiftRight_eq_of_msb_false hm, BitVec.toNat_ushiftRight,
        Nat.shiftRight_eq_div_pow]
      omega
  unfold unbiased
  rw [BitVec.toInt_eq_toNat_cond, key]
  have : expo x < 256 := by have := mag_lt x; unfold expo; omega
  rw [if_pos (by omega)]

theorem mask_shift {j : Nat} (h : j < 23) :
    (0x007FFFFF#32).sshiftRight j = BitVec.ofNat 32 (2 ^ (23 - j) - 1) := by
  interval_cases j <;> rfl

theorem half_shift {j : Nat} (h : j < 23) :
    (0x00400000#32).sshiftRight j = BitVec.ofNat 32 (2 ^ (22 - j)) := by
  interval_cases j <;> rfl

theorem one_shift {j : Nat} (h : j < 23) :
    (0x00800000#32).sshiftRight j = BitVec.ofNat 32 (2 ^ (23 - j)) := by
  interval_cases j <;> rfl

theorem toNat_low (x : BitVec 32) {k : Nat} (hk : k < 32) :
    (x &&& BitVec.ofNat 32 (2 ^ k - 1)).toNat = x.toNat % 2 ^ k := by
  have : 2 ^ k < 2 ^ 32 := Nat.pow_lt_pow_right (by norm_num) hk
  rw [BitVec.toNat_and, BitVec.toNat_ofNat, Nat.mod_eq_of_lt (by omega),
    Nat.and_two_pow_sub_one_eq_mod]

theorem toNat_clear (x : BitVec 32) {k : Nat} (hk : k < 32) :
    (x &&& ~~~(BitVec.ofNat 32 (2 ^ k - 1))).toNat = x.toNat - x.toNat % 2 ^ k := by
  have h1 : x &&& ~~~(BitVec.ofNat 32 (2 ^ k - 1)) = (x >>> k) <<< k := by
    apply BitVec.eq_of_getLsbD_eq
    intro i hi
    simp only [BitVec.getLsbD_and, BitVec.getLsbD_shiftLeft, BitVec.getLsbD_ushiftRight,
      BitVec.getLsbD_not, BitVec.getLsbD_ofNat, Nat.testBit_two_pow_sub_one]
    rcases Nat.lt_or_ge i k with h | h
    · simp [h, hi]
    · simp [show ¬ i < k by omega, hi, show k + (i - k) = i by omega]
  rw [h1, BitVec.toNat_shiftLeft, BitVec.toNat_ushiftRight, Nat.shiftRight_eq_div_pow,
    Nat.shiftLeft_eq]
  have h2 := Nat.div_add_mod x.toNat (2 ^ k)
  have h3 := x.isLt
  have h4 : x.toNat / 2 ^ k * 2 ^ k = x.toNat - x.toNat % 2 ^ k := by
    rw [Nat.mul_comm]; omega
  rw [h4, Nat.mod_eq_of_lt (by omega)]

/-- The three ranges of magnitudes: below one, with a fraction part of `k` bits, integers. -/
theorem mval_small {m : Nat} (h : m / 8388608 < 127) : mval m < 1 := by
  have h1 : mval 1065353216 = 1 := by
    have := @mval_lin 127 0 (by norm_num) (by norm_num)
    norm_num at this ⊢; exact this
  rw [← h1, mval_lt_iff]; omega

theorem mval_half : mval 1056964608 = 1 / 2 := by
  have := @mval_lin 126 0 (by norm_num) (by norm_num)
  norm_num at this ⊢; exact this

theorem mval_one : mval 1065353216 = 1 := by
  have := @mval_lin 127 0 (by norm_num) (by norm_num)
  norm_num at this ⊢; exact this

theorem mval_big {m : Nat} (h : 150 ≤ m / 8388608) : ∃ n : ℕ, mval m = n := by
  refine ⟨(8388608 + m % 8388608) * 2 ^ (m / 8388608 - 150), ?_⟩
  have := @mval_lin (m / 8388608) (m % 8388608) (by omega) (by omega)
  rw [show m / 8388608 * 8388608 + m % 8388608 = m by omega] at this
  rw [this, show (((m / 8388608 : ℕ) : ℤ) - 150) = ((m / 8388608 - 150 : ℕ) : ℤ) by omega,
    zpow_natCast]
  push_cast; ring

/-- In the middle range the value is `q / 2^k`, the low `k` bits are the fraction part. -/
theorem mval_mid {m k : Nat} (hk : k = 150 - m / 8388608) (h1 : 127 ≤ m / 8388608)
    (h2 : m / 8388608 < 150) :
    ∃ n : ℕ, mval (m - m % 2 ^ k) = n ∧ mval (m - m % 2 ^ k + 2 ^ k) = n + 1 ∧
      mval m = n + ((m % 2 ^ k : ℕ) : ℚ) / 2 ^ k := by
  set e := m / 8388608 with he
  set f := m % 8388608 with hf
  have hm : m = e * 8388608 + f := by omega
  have hp : (2 : ℕ) ^ k ∣ 8388608 := by
    rw [show 8388608 = 2 ^ 23 by norm_num]; exact pow_dvd_pow 2 (by omega)
  have hpos : 0 < 2 ^ k := by positivity
  have hfm : m % 2 ^ k = f % 2 ^ k := by
    rw [hf, Nat.mod_mod_of_dvd _ hp]
  obtain ⟨c, hc⟩ := hp
  -- f - f % 2^k + 2^k ≤ 2^23
  have hdm := Nat.div_add_mod f (2 ^ k)
  have hq : f / 2 ^ k < c := by
    rw [Nat.div_lt_iff_lt_mul hpos, Nat.mul_comm, ← hc]; omega
  have hle : 2 ^ k * (f / 2 ^ k + 1) ≤ 8388608 := by
    rw [hc]; exact Nat.mul_le_mul_left _ hq
  rw [Nat.mul_add, Nat.mul_one] at hle
  have hz : (2 : ℚ) ^ ((e : ℤ) - 150) = 1 / 2 ^ k := by
    rw [show ((e : ℤ) - 150) = -(k : ℤ) by omega, zpow_neg, zpow_natCast, one_div]
  have hk0 : (2 : ℚ) ^ k ≠ 0 := by positivity
  have hcq : (8388608 : ℚ) = 2 ^ k * c := by exact_mod_cast hc
  refine ⟨c + f / 2 ^ k, ?_, ?_, ?_⟩
  · have := @mval_lin e (2 ^ k * (f / 2 ^ k)) (by omega) (by omega)
    rw [show e * 8388608 + 2 ^ k * (f / 2 ^ k) = m - m % 2 ^ k by omega] at this
    rw [this, hz]
    push_cast
    rw [hcq]
    field_simp
  · have := @mval_lin e (2 ^ k * (f / 2 ^ k) + 2 ^ k) (by omega) (by omega)
    rw [show e * 8388608 + (2 ^ k * (f / 2 ^ k) + 2 ^ k) = m - m % 2 ^ k + 2 ^ k by omega] at this
    rw [this, hz]
    push_cast
    rw [hcq]
    field_simp
    ring
  · have := @mval_lin e f (by omega) (by omega)
    rw [← hm] at this
    rw [this, hz, hfm]
    push_cast
    rw [hcq]
    have hfq : (f : ℚ) = 2 ^ k * ((f / 2 ^ k : ℕ) : ℚ) + ((f % 2 ^ k : ℕ) : ℚ) := by
      exact_mod_cast hdm.symm
    rw [hfq]
    field_simp
    ring

theorem addI_ok {x : BitVec 32} {k : Nat} (hk : k ≤ 23) (h : expo x < 150) :
    addI x (BitVec.ofNat 32 (2 ^ k)) = .ok (x + BitVec.ofNat 32 (2 ^ k)) ∧
    (x + BitVec.ofNat 32 (2 ^ k)).toNat = x.toNat + 2 ^ k := by
  have h1 : 2 ^ k ≤ 2 ^ 23 := Nat.pow_le_pow_right (by norm_num) hk
  have h2 : (BitVec.ofNat 32 (2 ^ k)).toNat = 2 ^ k := by
    rw [BitVec.toNat_ofNat, Nat.mod_eq_of_lt (by omega)]
  have h3 : (BitVec.ofNat 32 (2 ^ k)).toInt = (2 ^ k : ℕ) := by
    rw [BitVec.toInt_eq_toNat_cond, h2, if_pos (by omega)]
  have hx := toInt_eq x
  have hm : mag x < 150 * 8388608 := by unfold expo at h; omega
  have hn := toNat_eq x
  constructor
  · unfold addI
    rw [if_pos]
    rw [h3, hx]
    generalize 2 ^ k = p at *
    split <;> omega
  · rw [BitVec.toNat_add, h2, Nat.mod_eq_of_lt]
    generalize 2 ^ k = p at *
    rw [hn]
    split <;> omega

theorem ne_zero_iff (x : BitVec 32) : (0#32 ≠ x) ↔ x.toNat ≠ 0 := by
  constructor
  · intro h h2; exact h (BitVec.eq_of_toNat_eq (by rw [h2]; rfl))
  · intro h h2; rw [← h2] at h; exact h rfl

theorem mod_mag (x : BitVec 32) {k : Nat} (hk : k ≤ 31) : x.toNat % 2 ^ k = mag x % 2 ^ k := by
  unfold mag
  rw [show 2147483648 = 2 ^ 31 by norm_num, Nat.mod_mod_of_dvd _ (pow_dvd_pow 2 hk)]

/-- What the four functions do to the magnitude, as natural numbers. -/
theorem trunc_pat (x : BitVec 32) : neg (trunc x) = neg x ∧
    mag (trunc x) = if expo x < 127 then 0 else if expo x < 150 then
      mag x - mag x % 2 ^ (150 - expo x) else mag x := by
  have hm := mag_lt x
  unfold trunc
  simp only [unbiased_eq]
  by_cases h1 : expo x < 127
  · rw [if_pos (by omega), if_pos (by omega), if_pos h1]
    exact neg_mag_of_toNat (by norm_num) (by rw [toNat_sign]; rfl)
  · rw [if_neg h1]
    by_cases h2 : expo x < 150
    · rw [if_pos h2, if_pos (by omega), if_neg (by omega),
        show ((expo x : Int) - 127).toNat = expo x - 127 by omega, mask_shift (by omega),
        show 23 - (expo x - 127) = 150 - expo x by omega]
      set k := 150 - expo x with hk
      apply neg_mag_of_toNat (by omega)
      have hc := toNat_clear x (k := k) (by omega)
      have hmm := mod_mag x (k := k) (by omega)
      have hn := toNat_eq x
      have hle : mag x % 2 ^ k ≤ mag x := Nat.mod_le _ _
      rw [BitVec.toNat_or, hc, toNat_sign, hmm, hn]
      split
      · rw [show 2147483648 + mag x - mag x % 2 ^ k = 2147483648 + (mag x - mag x % 2 ^ k) by omega]
        have := Nat.two_pow_add_eq_or_of_lt (i := 31) (b := mag x - mag x % 2 ^ k) (by omega) 1
        rw [show 2 ^ 31 * 1 = 2147483648 by norm_num] at this
        rw [this, ← Nat.or_assoc, Nat.or_self]
      · simp
    · rw [if_neg h2, if_neg (by omega)]
      exact ⟨rfl, rfl⟩

/-- Clearing the low `k` bits, on the magnitude. -/
theorem clear_pat {x : BitVec 32} {k : Nat} (hk : k ≤ 23) :
    neg (x &&& ~~~(BitVec.ofNat 32 (2 ^ k - 1))) = neg x ∧
    mag (x &&& ~~~(BitVec.ofNat 32 (2 ^ k - 1))) = mag x - mag x % 2 ^ k := by
  have hm := mag_lt x
  apply neg_mag_of_toNat (by omega)
  have hc := toNat_clear x (k := k) (by omega)
  have hmm := mod_mag x (k := k) (by omega)
  have hn := toNat_eq x
  have hle : mag x % 2 ^ k ≤ mag x := Nat.mod_le _ _
  rw [hc, hmm, hn]; omega

theorem add_pat {x : BitVec 32} {k : Nat} (hk : k ≤ 23) (h : expo x < 150) :
    neg (x + BitVec.ofNat 32 (2 ^ k)) = neg x ∧
    mag (x + BitVec.ofNat 32 (2 ^ k)) = mag x + 2 ^ k := by
  have h1 : 2 ^ k ≤ 2 ^ 23 := Nat.pow_le_pow_right (by norm_num) hk
  have hm : mag x < 150 * 8388608 := by unfold expo at h; omega
  apply neg_mag_of_toNat (by omega)
  rw [(addI_ok hk h).2, toNat_eq x]; omega

theorem up_pat {x : BitVec 32} {k : Nat} (hk : k ≤ 23) (h : expo x < 150) :
    neg ((x + BitVec.ofNat 32 (2 ^ k)) &&& ~~~(BitVec.ofNat 32 (2 ^ k - 1))) = neg x ∧
    mag ((x + BitVec.ofNat 32 (2 ^ k)) &&& ~~~(BitVec.ofNat 32 (2 ^ k - 1)))
      = mag x - mag x % 2 ^ k + 2 ^ k := by
  obtain ⟨h1, h2⟩ := clear_pat (x := x + BitVec.ofNat 32 (2 ^ k)) hk
  obtain ⟨h3, h4⟩ := add_pat hk h
  refine ⟨h1.trans h3, ?_⟩
  have hle : mag x % 2 ^ k ≤ mag x := Nat.mod_le _ _
  rw [h2, h4, Nat.add_mod_right]; omega

theorem half_pat {x : BitVec 32} {k : Nat} (hk1 : 1 ≤ k) (hk : k ≤ 23) (h : expo x < 150) :
    neg ((x + BitVec.ofNat 32 (2 ^ (k - 1))) &&& ~~~(BitVec.ofNat 32 (2 ^ k - 1))) = neg x ∧
    mag ((x + BitVec.ofNat 32 (2 ^ (k - 1))) &&& ~~~(BitVec.ofNat 32 (2 ^ k - 1)))
      = if mag x % 2 ^ k < 2 ^ (k - 1) then mag x - mag x % 2 ^ k
        else mag x - mag x % 2 ^ k + 2 ^ k := by
  obtain ⟨h1, h2⟩ := clear_pat (x := x + BitVec.ofNat 32 (2 ^ (k - 1))) hk
  obtain ⟨h3, h4⟩ := add_pat (k := k - 1) (by omega) h
  refine ⟨h1.trans h3, ?_⟩
  have hle : mag x % 2 ^ k ≤ mag x := Nat.mod_le _ _
  have hp : 2 ^ k = 2 * 2 ^ (k - 1) := by
    rw [← pow_succ']; congr 1; omega
  have hpos : 0 < 2 ^ (k - 1) := by positivity
  have hlt : mag x % 2 ^ k < 2 ^ k := Nat.mod_lt _ (by positivity)
  have hdm := Nat.div_add_mod (mag x) (2 ^ k)
  rw [h2, h4]
  split
  · rename_i hs
    have : (mag x + 2 ^ (k - 1)) % 2 ^ k = mag x % 2 ^ k + 2 ^ (k - 1) := by
      rw [← hdm, Nat.add_assoc, Nat.mul_add_mod, Nat.mod_eq_of_lt (by omega)]
      congr 1
      rw [Nat.mul_add_mod, Nat.mod_mod]
    rw [this]; omega
  · rename_i hs
    have : (mag x + 2 ^ (k - 1)) % 2 ^ k = mag x % 2 ^ k + 2 ^ (k - 1) - 2 ^ k := by
      have e1 : mag x + 2 ^ (k - 1) = 2 ^ k * (mag x / 2 ^ k + 1) +
          (mag x % 2 ^ k + 2 ^ (k - 1) - 2 ^ k) := by
        rw [Nat.mul_add, Nat.mul_one]; omega
      rw [e1, Nat.mul_add_mod, Nat.mod_eq_of_lt (by omega)]
    rw [this]; omega

/-- `floor` on patterns: toward zero for positive, away from zero for negative numbers. -/
theorem floor_pat (x : BitVec 32) : ∃ r, floor x = .ok r ∧ (mag r = 0 ∨ neg r = neg x) ∧
    mag r = if expo x < 127 then (if neg x ∧ mag x ≠ 0 then 1065353216 else 0)
      else if expo x < 150 then
        (if mag x % 2 ^ (150 - expo x) = 0 then mag x
        else if neg x then mag x - mag x % 2 ^ (150 - expo x) + 2 ^ (150 - expo x)
        else mag x - mag x % 2 ^ (150 - expo x)) else mag x := by
  have hm := mag_lt x
  unfold floor
  simp only [unbiased_eq]
  by_cases h1 : expo x < 127
  · rw [if_pos (by omega), if_pos (by omega), if_pos h1, toInt_eq]
    by_cases hn : neg x
    · rw [if_pos hn, if_neg (by omega)]
      simp only [ne_zero_iff, toNat_noSign']
      by_cases h0 : mag x = 0
      · rw [if_neg (by omega)]
        exact ⟨x, rfl, Or.inr rfl, by rw [if_neg (by omega)]; exact h0⟩
      · rw [if_pos (by omega)]
        exact ⟨_, rfl, Or.inr (by rw [hn]; rfl), by rw [if_pos ⟨hn, h0⟩]; rfl⟩
    · rw [if_neg hn, if_pos (by omega)]
      exact ⟨_, rfl, Or.inl rfl, by rw [if_neg (by simp [hn])]; rfl⟩
  · rw [if_neg h1]
    by_cases h2 : expo x < 150
    · rw [if_pos h2, if_pos (by omega), if_neg (by omega),
        show ((expo x : Int) - 127).toNat = expo x - 127 by omega, mask_shift (by omega),
        one_shift (by omega), show 23 - (expo x - 127) = 150 - expo x by omega]
      set k := 150 - expo x with hk
      simp only [ne_zero_iff, toNat_low x (k := k) (by omega), mod_mag x (k := k) (by omega)]
      by_cases h0 : mag x % 2 ^ k = 0
      · rw [if_neg (by omega), if_pos h0]
        exact ⟨x, rfl, Or.inr rfl, rfl⟩
      · rw [if_pos h0, if_neg h0, toInt_eq]
        by_cases hn : neg x
        · rw [if_pos hn, if_pos (by omega), if_pos hn, (addI_ok (by omega) h2).1]
          exact ⟨_, rfl, Or.inr (up_pat (by omega) h2).1, (up_pat (by omega) h2).2⟩
        · rw [if_neg hn, if_neg (by omega), if_neg hn]
          exact ⟨_, rfl, Or.inr (clear_pat (by omega)).1, (clear_pat (by omega)).2⟩
    · rw [if_neg h2, if_neg (by omega)]
      exact ⟨x, rfl, Or.inr rfl, rfl⟩

theorem ceil_pat (x : BitVec 32) : ∃ r, ceil x = .ok r ∧ neg r = neg x ∧
    mag r = if expo x < 127 then (if neg x = false ∧ mag x ≠ 0 then 1065353216 else 0)
      else if expo x < 150 then
        (if mag x % 2 ^ (150 - expo x) = 0 then mag x
        else if neg x then mag x - mag x % 2 ^ (150 - expo x)
        else mag x - mag x % 2 ^ (150 - expo x) + 2 ^ (150 - expo x)) else mag x := by
  have hm := mag_lt x
  have hn' := toNat_eq x
  unfold ceil
  simp only [unbiased_eq]
  by_cases h1 : expo x < 127
  · rw [if_pos (by omega), if_pos (by omega), if_pos h1, toInt_eq]
    by_cases hn : neg x
    · rw [if_pos hn, if_pos (by omega)]
      exact ⟨_, rfl, by rw [hn]; rfl, by rw [if_neg (by simp [hn])]; rfl⟩
    · rw [if_neg hn] at hn'
      rw [if_neg hn, if_neg (by omega)]
      simp only [ne_zero_iff, hn']
      by_cases h0 : mag x = 0
      · rw [if_neg (by omega)]
        exact ⟨x, rfl, rfl, by rw [if_neg (by omega)]; exact h0⟩
      · rw [if_pos (by omega)]
        have hf : neg x = false := by simpa using hn
        exact ⟨_, rfl, by rw [hf]; rfl, by rw [if_pos ⟨hf, h0⟩]; rfl⟩
  · rw [if_neg h1]
    by_cases h2 : expo x < 150
    · rw [if_pos h2, if_pos (by omega), if_neg (by omega),
        show ((expo x : Int) - 127).toNat = expo x - 127 by omega, mask_shift (by omega),
        one_shift (by omega), show 23 - (expo x - 127) = 150 - expo x by omega]
      set k := 150 - expo x with hk
      have hpos : 0 < mag x := by unfold expo at h1; omega
      simp only [ne_zero_iff, toNat_low x (k := k) (by omega), mod_mag x (k := k) (by omega)]
      by_cases h0 : mag x % 2 ^ k = 0
      · rw [if_neg (by omega), if_pos h0]
        exact ⟨x, rfl, rfl, rfl⟩
      · rw [if_pos h0, if_neg h0, toInt_eq]
        by_cases hn : neg x
        · rw [if_pos hn, if_neg (by omega), if_pos hn]
          exact ⟨_, rfl, (clear_pat (by omega)).1, (clear_pat (by omega)).2⟩
        · rw [if_neg hn, if_pos (by omega), if_neg hn, (addI_ok (by omega) h2).1]
          exact ⟨_, rfl, (up_pat (by omega) h2).1, (up_pat (by omega) h2).2⟩
    · rw [if_neg h2, if_neg (by omega)]
      exact ⟨x, rfl, rfl, rfl⟩

theorem rounding_pat (x : BitVec 32) : ∃ r, rounding x = .ok r ∧ neg r = neg x ∧
    mag r = if expo x < 126 then 0 else if expo x = 126 then 1065353216
      else if expo x < 150 then
        (if mag x % 2 ^ (150 - expo x) < 2 ^ (149 - expo x) then
          mag x - mag x % 2 ^ (150 - expo x)
        else mag x - mag x % 2 ^ (150 - expo x) + 2 ^ (150 - expo x)) else mag x := by
  have hm := mag_lt x
  unfold rounding
  simp only [unbiased_eq]
  by_cases h1 : expo x < 127
  · rw [if_pos (by omega), if_pos (by omega)]
    by_cases h2 : expo x = 126
    · rw [if_pos (by omega), if_neg (by omega), if_pos h2]
      refine ⟨_, rfl, neg_mag_of_toNat (by norm_num) ?_⟩
      rw [toNat_or_sign (toNat_sign x) (by decide)]; rfl
    · rw [if_neg (by omega), if_pos (by omega)]
      exact ⟨_, rfl, neg_mag_of_toNat (by norm_num) (by rw [toNat_sign]; rfl)⟩
  · rw [if_neg (show ¬ expo x < 126 by omega), if_neg (show ¬ expo x = 126 by omega)]
    by_cases h2 : expo x < 150
    · rw [if_pos h2, if_pos (by omega), if_neg (by omega),
        show ((expo x : Int) - 127).toNat = expo x - 127 by omega, mask_shift (by omega),
        half_shift (by omega), show 23 - (expo x - 127) = 150 - expo x by omega,
        show 22 - (expo x - 127) = (150 - expo x) - 1 by omega,
        show 149 - expo x = (150 - expo x) - 1 by omega]
      set k := 150 - expo x with hk
      simp only [ne_zero_iff, toNat_low x (k := k) (by omega), mod_mag x (k := k) (by omega)]
      by_cases h0 : mag x % 2 ^ k = 0
      · rw [if_neg (by omega), if_pos (by rw [h0]; positivity), h0]
        exact ⟨x, rfl, rfl, rfl⟩
      · rw [if_pos h0, (addI_ok (by omega) h2).1]
        exact ⟨_, rfl, half_pat (by omega) (by omega) h2⟩
    · rw [if_neg h2, if_neg (by omega)]
      exact ⟨x, rfl, rfl, rfl⟩

end Verif.Ffmath
