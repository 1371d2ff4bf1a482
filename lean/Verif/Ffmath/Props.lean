import Verif.Ffmath.Lemmas

/-!
# Properties C30-C35: bit-level functions of ffmath

Values are those of IEEE-754 binary32 (`F32.val`, `F32.ext`), bit patterns range over all of
`BitVec 32`.
-/

namespace Verif.Ffmath

open Verif F32

/-- The integer part structure of a magnitude, in the three ranges. -/
theorem mag_cases (x : BitVec 32) :
    (expo x < 127 ∧ 0 ≤ mval (mag x) ∧ mval (mag x) < 1) ∨
    (127 ≤ expo x ∧ expo x < 150 ∧ ∃ n : ℕ, mval (mag x - mag x % 2 ^ (150 - expo x)) = n ∧
      mval (mag x - mag x % 2 ^ (150 - expo x) + 2 ^ (150 - expo x)) = n + 1 ∧
      mval (mag x) = n + ((mag x % 2 ^ (150 - expo x) : ℕ) : ℚ) / 2 ^ (150 - expo x) ∧
      mag x - mag x % 2 ^ (150 - expo x) + 2 ^ (150 - expo x) < 2139095040) ∨
    (150 ≤ expo x ∧ ∃ n : ℕ, mval (mag x) = n) := by
  rcases Nat.lt_or_ge (expo x) 127 with h1 | h1
  · exact Or.inl ⟨h1, mval_nonneg _, mval_small h1⟩
  · rcases Nat.lt_or_ge (expo x) 150 with h2 | h2
    · refine Or.inr (Or.inl ⟨h1, h2, ?_⟩)
      obtain ⟨n, a, b, c⟩ := mval_mid (m := mag x) rfl h1 h2
      refine ⟨n, a, b, c, ?_⟩
      have : 2 ^ (150 - expo x) ≤ 2 ^ 23 := Nat.pow_le_pow_right (by norm_num) (by omega)
      have : mag x < 150 * 8388608 := by unfold expo at h2; omega
      omega
    · exact Or.inr (Or.inr ⟨h2, mval_big h2⟩)

theorem frac_lt {a k : Nat} : 0 ≤ ((a % 2 ^ k : ℕ) : ℚ) / 2 ^ k ∧ ((a % 2 ^ k : ℕ) : ℚ) / 2 ^ k < 1 := by
  have h : a % 2 ^ k < 2 ^ k := Nat.mod_lt _ (by positivity)
  constructor
  · positivity
  · rw [div_lt_one (by positivity)]; exact_mod_cast h

theorem frac_pos {a k : Nat} (h : a % 2 ^ k ≠ 0) : 0 < ((a % 2 ^ k : ℕ) : ℚ) / 2 ^ k := by
  have : 0 < a % 2 ^ k := by omega
  positivity

theorem eq_floor {a b : ℚ} (z : ℤ) (h : a = z) (h1 : (z : ℚ) ≤ b) (h2 : b < z + 1) :
    a = ((⌊b⌋ : ℤ) : ℚ) := by rw [h, Int.floor_eq_iff.2 ⟨h1, h2⟩]

theorem eq_ceil {a b : ℚ} (z : ℤ) (h : a = z) (h1 : (z : ℚ) - 1 < b) (h2 : b ≤ z) :
    a = ((⌈b⌉ : ℤ) : ℚ) := by rw [h, Int.ceil_eq_iff.2 ⟨h1, h2⟩]

theorem val_of {r x : BitVec 32} (hs : mag r = 0 ∨ neg r = neg x) :
    val r = if neg x then -mval (mag r) else mval (mag r) := by
  rw [val_eq]
  rcases hs with h | h
  · rw [h, mval_zero]; simp
  · rw [h]

theorem mag_zero_of {x : BitVec 32} (h : mval (mag x) = 0) : mag x = 0 := by
  rw [← mval_zero, mval_inj] at h; exact h

/-- **C30** `floor` returns, without undefined behaviour, the float whose value is the
mathematical floor. -/
theorem C30_floor (x : BitVec 32) (h : Finite x) :
    ∃ r, floor x = .ok r ∧ Finite r ∧ val r = ((⌊val x⌋ : ℤ) : ℚ) := by
  obtain ⟨r, hr, hs, hm⟩ := floor_pat x
  refine ⟨r, hr, ?_⟩
  rw [val_of hs, val_eq x, finite_iff]
  have hf := (finite_iff x).1 h
  rcases mag_cases x with ⟨h1, h2, h3⟩ | ⟨h1, h2, n, ha, hb, hc, hd⟩ | ⟨h1, n, hn⟩
  · rw [if_pos h1] at hm
    by_cases hg : neg x
    · simp only [hg, if_true, true_and] at hm ⊢
      by_cases h0 : mag x = 0
      · rw [if_neg (by omega)] at hm
        rw [hm, h0, mval_zero]; norm_num
      · rw [if_pos h0] at hm
        rw [hm, mval_one]
        refine ⟨by norm_num, eq_floor (-1) (by norm_num) (by push_cast; linarith) ?_⟩
        have : mval 0 < mval (mag x) := mval_lt_iff.2 (by omega)
        rw [mval_zero] at this
        push_cast; linarith
    · simp only [hg, if_false, false_and, Bool.false_eq_true] at hm ⊢
      rw [hm, mval_zero]
      exact ⟨by norm_num, eq_floor 0 (by norm_num) (by push_cast; linarith) (by push_cast; linarith)⟩
  · rw [if_neg (by omega), if_pos h2] at hm
    have hfr := @frac_lt (mag x) (150 - expo x)
    by_cases h0 : mag x % 2 ^ (150 - expo x) = 0
    · rw [if_pos h0] at hm
      rw [h0] at hc
      rw [hm, hc]
      refine ⟨hf, ?_⟩
      norm_num
      split
      · exact eq_floor (-n) (by norm_num) (by push_cast; linarith) (by push_cast; linarith)
      · exact eq_floor n (by norm_num) (by push_cast; linarith) (by push_cast; linarith)
    · rw [if_neg h0] at hm
      have hp := frac_pos h0
      by_cases hg : neg x
      · simp only [hg, if_true] at hm ⊢
        rw [hm, hb, hc]
        exact ⟨hd, eq_floor (-(n + 1)) (by push_cast; ring) (by push_cast; linarith)
          (by push_cast; linarith)⟩
      · simp only [hg, if_false, Bool.false_eq_true] at hm ⊢
        rw [hm, ha, hc]
        exact ⟨by omega, eq_floor n (by push_cast; ring) (by push_cast; linarith)
          (by push_cast; linarith)⟩
  · rw [if_neg (by omega), if_neg (by omega)] at hm
    rw [hm, hn]
    refine ⟨hf, ?_⟩
    split
    · exact eq_floor (-n) (by norm_num) (by push_cast; linarith) (by push_cast; linarith)
    · exact eq_floor n (by norm_num) (by push_cast; linarith) (by push_cast; linarith)

/-- **C30** `ceil` returns, without undefined behaviour, the float whose value is the
mathematical ceiling. -/
theorem C30_ceil (x : BitVec 32) (h : Finite x) :
    ∃ r, ceil x = .ok r ∧ Finite r ∧ val r = ((⌈val x⌉ : ℤ) : ℚ) := by
  obtain ⟨r, hr, hs, hm⟩ := ceil_pat x
  refine ⟨r, hr, ?_⟩
  rw [val_of (Or.inr hs), val_eq x, finite_iff]
  have hf := (finite_iff x).1 h
  rcases mag_cases x with ⟨h1, h2, h3⟩ | ⟨h1, h2, n, ha, hb, hc, hd⟩ | ⟨h1, n, hn⟩
  · rw [if_pos h1] at hm
    by_cases hg : neg x
    · simp only [hg, if_true, Bool.true_eq_false, false_and, if_false] at hm ⊢
      rw [hm, mval_zero]
      exact ⟨by norm_num, eq_ceil 0 (by norm_num) (by push_cast; linarith) (by push_cast; linarith)⟩
    · simp only [hg, if_false, true_and, Bool.false_eq_true] at hm ⊢
      by_cases h0 : mag x = 0
      · rw [if_neg (by omega)] at hm
        rw [hm, h0, mval_zero]; norm_num
      · rw [if_pos h0] at hm
        rw [hm, mval_one]
        have : mval 0 < mval (mag x) := mval_lt_iff.2 (by omega)
        rw [mval_zero] at this
        exact ⟨by norm_num, eq_ceil 1 (by norm_num) (by push_cast; linarith) (by push_cast; linarith)⟩
  · rw [if_neg (by omega), if_pos h2] at hm
    have hfr := @frac_lt (mag x) (150 - expo x)
    by_cases h0 : mag x % 2 ^ (150 - expo x) = 0
    · rw [if_pos h0] at hm
      rw [h0] at hc
      rw [hm, hc]
      refine ⟨hf, ?_⟩
      norm_num
      split
      · exact eq_ceil (-n) (by norm_num) (by push_cast; linarith) (by push_cast; linarith)
      · exact eq_ceil n (by norm_num) (by push_cast; linarith) (by push_cast; linarith)
    · rw [if_neg h0] at hm
      have hp := frac_pos h0
      by_cases hg : neg x
      · simp only [hg, if_true] at hm ⊢
        rw [hm, ha, hc]
        exact ⟨by omega, eq_ceil (-n) (by push_cast; ring) (by push_cast; linarith)
          (by push_cast; linarith)⟩
      · simp only [hg, if_false, Bool.false_eq_true] at hm ⊢
        rw [hm, hb, hc]
        exact ⟨hd, eq_ceil (n + 1) (by push_cast; ring) (by push_cast; linarith)
          (by push_cast; linarith)⟩
  · rw [if_neg (by omega), if_neg (by omega)] at hm
    rw [hm, hn]
    refine ⟨hf, ?_⟩
    split
    · exact eq_ceil (-n) (by norm_num) (by push_cast; linarith) (by push_cast; linarith)
    · exact eq_ceil n (by norm_num) (by push_cast; linarith) (by push_cast; linarith)

/-- **C30** `trunc` returns the float whose value is the integer part toward zero, and keeps the
sign bit. -/
theorem C30_trunc (x : BitVec 32) (h : Finite x) :
    Finite (trunc x) ∧ neg (trunc x) = neg x ∧
    val (trunc x) = if 0 ≤ val x then ((⌊val x⌋ : ℤ) : ℚ) else ((⌈val x⌉ : ℤ) : ℚ) := by
  obtain ⟨hs, hm⟩ := trunc_pat x
  have hf := (finite_iff x).1 h
  have hnn := mval_nonneg (mag x)
  have main : mag (trunc x) < 2139095040 ∧ ∃ n : ℕ, mval (mag (trunc x)) = n ∧
      (n : ℚ) ≤ mval (mag x) ∧ mval (mag x) < n + 1 := by
    rcases mag_cases x with ⟨h1, h2, h3⟩ | ⟨h1, h2, n, ha, hb, hc, hd⟩ | ⟨h1, n, hn⟩
    · rw [hm, if_pos h1, mval_zero]
      exact ⟨by norm_num, 0, by norm_num, by push_cast; linarith, by push_cast; linarith⟩
    · have hfr := @frac_lt (mag x) (150 - expo x)
      rw [hm, if_neg (by omega), if_pos h2, ha, hc]
      exact ⟨by omega, n, rfl, by linarith, by linarith⟩
    · rw [hm, if_neg (by omega), if_neg (by omega), hn]
      exact ⟨hf, n, rfl, le_refl _, by linarith⟩
  obtain ⟨h1, n, hn, hl, hu⟩ := main
  refine ⟨(finite_iff _).2 h1, hs, ?_⟩
  rw [val_of (Or.inr hs), val_eq x, hn]
  by_cases hg : neg x
  · simp only [hg, if_true]
    split
    · have : mval (mag x) = 0 := by linarith
      rw [this] at hl ⊢
      have : (n : ℚ) = 0 := le_antisymm hl (by positivity)
      rw [this]; norm_num
    · exact eq_ceil (-n) (by push_cast; ring) (by push_cast; linarith) (by push_cast; linarith)
  · simp only [hg, if_false, Bool.false_eq_true]
    rw [if_pos hnn]
    exact eq_floor n (by push_cast; ring) (by push_cast; linarith) (by push_cast; linarith)

/-- **C30** `rounding` returns, without undefined behaviour, the float whose value is the nearest
integer, ties away from zero. -/
theorem C30_rounding (x : BitVec 32) (h : Finite x) :
    ∃ r, rounding x = .ok r ∧ Finite r ∧ neg r = neg x ∧
    val r = if 0 ≤ val x then ((⌊val x + 1 / 2⌋ : ℤ) : ℚ) else ((⌈val x - 1 / 2⌉ : ℤ) : ℚ) := by
  obtain ⟨r, hr, hs, hm⟩ := rounding_pat x
  have hf := (finite_iff x).1 h
  have hnn := mval_nonneg (mag x)
  have main : mag r < 2139095040 ∧ ∃ n : ℕ, mval (mag r) = n ∧
      (n : ℚ) ≤ mval (mag x) + 1 / 2 ∧ mval (mag x) + 1 / 2 < n + 1 := by
    rcases mag_cases x with ⟨h1, h2, h3⟩ | ⟨h1, h2, n, ha, hb, hc, hd⟩ | ⟨h1, n, hn⟩
    · rcases Nat.lt_or_ge (expo x) 126 with h4 | h4
      · rw [hm, if_pos h4, mval_zero]
        have : mval (mag x) < 1 / 2 := by
          rw [← mval_half, mval_lt_iff]; unfold expo at h4; omega
        exact ⟨by norm_num, 0, by norm_num, by push_cast; linarith, by push_cast; linarith⟩
      · rw [hm, if_neg (by omega), if_pos (by omega), mval_one]
        have : 1 / 2 ≤ mval (mag x) := by
          rw [← mval_half, mval_le_iff]; unfold expo at h4; omega
        exact ⟨by norm_num, 1, by norm_num, by push_cast; linarith, by push_cast; linarith⟩
    · have hfr := @frac_lt (mag x) (150 - expo x)
      have hp : (2 : ℚ) ^ (150 - expo x) = 2 * 2 ^ (149 - expo x) := by
        rw [← pow_succ']; congr 1; omega
      rw [hm, if_neg (by omega), if_neg (by omega), if_pos h2, hc]
      split
      · rename_i hlt
        have : ((mag x % 2 ^ (150 - expo x) : ℕ) : ℚ) / 2 ^ (150 - expo x) < 1 / 2 := by
          rw [div_lt_iff₀ (by positivity), hp]
          have : ((mag x % 2 ^ (150 - expo x) : ℕ) : ℚ) < 2 ^ (149 - expo x) := by
            exact_mod_cast hlt
          linarith
        rw [ha]
        exact ⟨by omega, n, rfl, by linarith, by linarith⟩
      · rename_i hge
        have : 1 / 2 ≤ ((mag x % 2 ^ (150 - expo x) : ℕ) : ℚ) / 2 ^ (150 - expo x) := by
          rw [le_div_iff₀ (by positivity), hp]
          have : (2 : ℚ) ^ (149 - expo x) ≤ ((mag x % 2 ^ (150 - expo x) : ℕ) : ℚ) := by
            exact_mod_cast (not_lt.1 hge)
          linarith
        rw [hb]
        exact ⟨hd, n + 1, by push_cast; ring, by push_cast; linarith, by push_cast; linarith⟩
    · rw [hm, if_neg (by omega), if_neg (by omega), if_neg (by omega), hn]
      exact ⟨hf, n, rfl, by linarith, by linarith⟩
  obtain ⟨h1, n, hn, hl, hu⟩ := main
  refine ⟨r, hr, (finite_iff _).2 h1, hs, ?_⟩
  rw [val_of (Or.inr hs), val_eq x, hn]
  by_cases hg : neg x
  · simp only [hg, if_true]
    split
    · have h0 : mval (mag x) = 0 := by linarith
      rw [h0] at hl ⊢
      have : n = 0 := by
        have : (n : ℚ) < 1 := by linarith
        have : n < 1 := by exact_mod_cast this
        omega
      rw [this]; norm_num
    · exact eq_ceil (-n) (by push_cast; ring) (by push_cast; linarith) (by push_cast; linarith)
  · simp only [hg, if_false, Bool.false_eq_true]
    rw [if_pos hnn]
    exact eq_floor n (by push_cast; ring) (by push_cast; linarith) (by push_cast; linarith)

/-- **C30** infinities and NaNs are returned unchanged. -/
theorem C30_nonfinite (x : BitVec 32) (h : ¬ Finite x) :
    floor x = .ok x ∧ ceil x = .ok x ∧ trunc x = x ∧ rounding x = .ok x := by
  have : 255 ≤ expo x := by unfold F32.Finite at h; omega
  unfold floor ceil trunc rounding
  simp only [unbiased_eq]
  rw [if_neg (by omega), if_neg (by omega), if_neg (by omega), if_neg (by omega)]
  exact ⟨rfl, rfl, rfl, rfl⟩

-- -2.5: floor -3, ceil -2, trunc -2, rounding -3
example : Finite 0xC0200000#32 ∧ floor 0xC0200000#32 = .ok 0xC0400000#32 ∧
    ceil 0xC0200000#32 = .ok 0xC0000000#32 ∧ trunc 0xC0200000#32 = 0xC0000000#32 ∧
    rounding 0xC0200000#32 = .ok 0xC0400000#32 ∧ ¬ Finite 0x7FC00000#32 := by decide

/-- **C31** classification of all bit patterns agrees with the meaning of the encoding: zero
and the finite classes by value (`2^-126` is the smallest normal number), infinities by extended
value. -/
theorem C31_classify (x : BitVec 32) :
    (classify x = .zero ↔ Finite x ∧ val x = 0) ∧
    (classify x = .subnormal ↔ Finite x ∧ 0 < |val x| ∧ |val x| < 2 ^ (-126 : ℤ)) ∧
    (classify x = .normal ↔ Finite x ∧ 2 ^ (-126 : ℤ) ≤ |val x|) ∧
    (classify x = .infinite ↔ IsInf x) ∧ (classify x = .nan ↔ IsNaN x) := by
  have hm := mag_lt x
  have hc : classify x = if mag x = 0 then .zero else if mag x < 8388608 then .subnormal
      else if mag x < 2139095040 then .normal else if mag x = 2139095040 then .infinite
      else .nan := by
    unfold classify
    have h1 : (0#32 = x &&& noSignMask) ↔ mag x = 0 := by
      rw [← toNat_noSign']
      constructor
      · intro h; rw [← h]; rfl
      · intro h; exact BitVec.eq_of_toNat_eq (by rw [h]; rfl)
    have h2 : (0x7F800000#32 = x &&& noSignMask) ↔ mag x = 2139095040 := by
      rw [← toNat_noSign']
      constructor
      · intro h; rw [← h]; rfl
      · intro h; exact BitVec.eq_of_toNat_eq (by rw [h]; rfl)
    have h3 : (x &&& noSignMask < 0x00800000#32) ↔ mag x < 8388608 := by
      rw [← toNat_noSign', BitVec.lt_def]; rfl
    have h4 : (x &&& noSignMask < 0x7F800000#32) ↔ mag x < 2139095040 := by
      rw [← toNat_noSign', BitVec.lt_def]; rfl
    simp only [h1, h2, h3, h4]
  have ha : |val x| = mval (mag x) := by
    rw [val_eq]; have := mval_nonneg (mag x)
    split
    · rw [abs_neg, abs_of_nonneg this]
    · exact abs_of_nonneg this
  have h126 : (2 : ℚ) ^ (-126 : ℤ) = mval 8388608 := by
    rw [mval_sub (by norm_num)]
    rw [show (-126 : ℤ) = 23 + -149 by norm_num, zpow_add₀ (by norm_num)]
    norm_num
  have h0 : val x = 0 ↔ mag x = 0 := by
    rw [← abs_eq_zero, ha, ← mval_zero, mval_inj]
  have hpos : 0 < |val x| ↔ 0 < mag x := by rw [ha, ← mval_zero, mval_lt_iff]
  rw [finite_iff, h0, hpos, ha, h126, mval_lt_iff, mval_le_iff, hc]
  unfold IsInf IsNaN expo frac
  refine ⟨?_, ?_, ?_, ?_, ?_⟩
  · split_ifs <;> simp <;> omega
  · split_ifs <;> simp <;> omega
  · split_ifs <;> simp <;> omega
  · split_ifs <;> simp <;> omega
  · split_ifs <;> simp <;> omega

/-- **C31** the predicates built on `classify`. -/
theorem C31_predicates (x : BitVec 32) :
    (isNan x = true ↔ IsNaN x) ∧ (isInf x = true ↔ IsInf x) ∧ (isFinite x = true ↔ Finite x) ∧
    (isNormal x = true ↔ Finite x ∧ 2 ^ (-126 : ℤ) ≤ |val x|) := by
  obtain ⟨h1, h2, h3, h4, h5⟩ := C31_classify x
  unfold isNan isInf isFinite isNormal
  refine ⟨?_, ?_, ?_, ?_⟩
  · rw [decide_eq_true_iff, eq_comm]; exact h5
  · rw [decide_eq_true_iff, eq_comm]; exact h4
  · rw [decide_eq_true_iff]
    have hi : ¬ (Finite x ∧ IsInf x) := by unfold F32.Finite IsInf; omega
    have hn : ¬ (Finite x ∧ IsNaN x) := by unfold F32.Finite IsNaN; omega
    cases hc : classify x <;> simp only [hc] at h1 h2 h3 h4 h5 <;> simp [Class.toNat] <;> tauto
  · rw [decide_eq_true_iff, eq_comm]; exact h3

example : classify 0x80000000#32 = .zero ∧ classify 0x00000001#32 = .subnormal ∧
    classify 0x3F800000#32 = .normal ∧ classify 0xFF800000#32 = .infinite ∧
    classify 0x7FC00000#32 = .nan := by decide

/-- **C32** with a NaN argument the result is a NaN; on equal values the second argument is
returned. -/
theorem C32_special (x y : BitVec 32) :
    (IsNaN x ∨ IsNaN y → IsNaN (nextAfter x y)) ∧
    (¬ IsNaN x → ¬ IsNaN y → ext x = ext y → nextAfter x y = y) := by
  have hnx := (C31_predicates x).1
  have hny := (C31_predicates y).1
  constructor
  · intro h
    have : (isNan x || isNan y) = true := by rw [Bool.or_eq_true, hnx, hny]; exact h
    unfold nextAfter
    simp only [this, if_true]
    decide
  · intro h1 h2 h3
    rw [ext_eq_iff h1 h2] at h3
    have : ¬ (isNan x || isNan y) = true := by rw [Bool.or_eq_true, hnx, hny]; tauto
    unfold nextAfter
    simp only [this, if_false, Bool.false_eq_true]
    by_cases he : x = y
    · rw [if_pos he]
    · rw [if_neg he]
      have hx := toNat_eq x
      have hy := toNat_eq y
      have hne : x.toNat ≠ y.toNat := fun h => he (BitVec.eq_of_toNat_eq h)
      have h0 : mag x = 0 ∧ mag y = 0 := by
        unfold key at h3
        by_cases a : neg x <;> by_cases b : neg y <;> simp [a, b] at h3 hx hy <;> omega
      rw [if_pos (BitVec.eq_of_toNat_eq (by rw [toNat_noSign', h0.1]; rfl)),
        if_pos (BitVec.eq_of_toNat_eq (by rw [toNat_noSign', h0.2]; rfl))]

theorem key_le_of_notNaN {x : BitVec 32} (h : ¬ IsNaN x) : mag x ≤ 2139095040 := by
  have := mag_lt x
  unfold IsNaN frac expo at h
  omega

theorem key_bounds {x : BitVec 32} (h : ¬ IsNaN x) :
    -2139095040 ≤ key x ∧ key x ≤ 2139095040 := by
  have := key_le_of_notNaN h
  unfold key
  split <;> omega

theorem key_of {b : BitVec 32} {s : Bool} {m : Nat} (hm : m < 2147483648)
    (h : b.toNat = (if s then 2147483648 else 0) + m) :
    key b = (if s then -(m : Int) else m) ∧ mag b = m := by
  obtain ⟨h1, h2⟩ := neg_mag_of_toNat hm h
  unfold key
  rw [h1, h2]
  exact ⟨rfl, rfl⟩

theorem notNaN_of_mag {b : BitVec 32} (h : mag b ≤ 2139095040) : ¬ IsNaN b := by
  unfold IsNaN frac expo
  omega

/-- The sign bits of two patterns differ. -/
theorem xor_sign (x y : BitVec 32) : (0#32 ≠ (x ^^^ y) &&& signMask) ↔ neg x ≠ neg y := by
  rw [ne_zero_iff, toNat_sign]
  have : neg (x ^^^ y) = (neg x ^^ neg y) := by
    have e : ∀ z : BitVec 32, neg z = z.msb := fun z => (BitVec.msb_eq_decide z).symm
    rw [e, e, e, BitVec.msb_xor]
  rw [this]
  cases neg x <;> cases neg y <;> simp

/-- `nextAfter` moves by one position on the number line, toward `y`. -/
theorem nextAfter_key {x y : BitVec 32} (h1 : ¬ IsNaN x) (h2 : ¬ IsNaN y) :
    (key x < key y → key (nextAfter x y) = key x + 1 ∧ ¬ IsNaN (nextAfter x y)) ∧
    (key y < key x → key (nextAfter x y) = key x - 1 ∧ ¬ IsNaN (nextAfter x y)) := by
  have hnx := (C31_predicates x).1
  have hny := (C31_predicates y).1
  have hnn : ¬ (isNan x || isNan y) = true := by rw [Bool.or_eq_true, hnx, hny]; tauto
  have hx := toNat_eq x
  have hy := toNat_eq y
  have mx := key_le_of_notNaN h1
  have my := key_le_of_notNaN h2
  have main : key x ≠ key y → nextAfter x y =
      if mag x = 0 then (if mag y = 0 then y else (y &&& signMask) ||| 1#32)
      else if mag y < mag x ∨ neg x ≠ neg y then x - 1#32 else x + 1#32 := by
    intro hk
    unfold nextAfter
    simp only [hnn, if_false, Bool.false_eq_true]
    rw [if_neg (by rintro rfl; exact hk rfl)]
    have e1 : (0#32 = x &&& noSignMask) ↔ mag x = 0 := by
      rw [← not_iff_not, ← ne_eq, ne_zero_iff, toNat_noSign']
    have e2 : (0#32 = y &&& noSignMask) ↔ mag y = 0 := by
      rw [← not_iff_not, ← ne_eq, ne_zero_iff, toNat_noSign']
    have e3 : (y &&& noSignMask < x &&& noSignMask) ↔ mag y < mag x := by
      rw [BitVec.lt_def, toNat_noSign', toNat_noSign']
    simp only [e1, e2, e3, xor_sign]
  have hzero : mag x = 0 → mag y ≠ 0 → (nextAfter x y).toNat = (if neg y then 2147483648 else 0) + 1 := by
    intro a b
    have hk : key x ≠ key y := by
      unfold key; rw [a]; split <;> split <;> omega
    rw [main hk, if_pos a, if_neg b, toNat_or_sign (toNat_sign y) (by decide)]
    rfl
  have hdown : mag x ≠ 0 → (mag y < mag x ∨ neg x ≠ neg y) →
      (nextAfter x y).toNat = (if neg x then 2147483648 else 0) + (mag x - 1) := by
    intro a b
    have hk : key x ≠ key y := by
      unfold key
      rcases b with b | b
      · split <;> split <;> omega
      · cases hs : neg x <;> cases ht : neg y <;> simp_all
    rw [main hk, if_neg a, if_pos b, BitVec.toNat_sub, hx]
    simp only [BitVec.toNat_ofNat]
    have := mag_lt x
    split <;> omega
  have hup : mag x ≠ 0 → ¬ (mag y < mag x ∨ neg x ≠ neg y) → key x ≠ key y →
      (nextAfter x y).toNat = (if neg x then 2147483648 else 0) + (mag x + 1) := by
    intro a b hk
    rw [main hk, if_neg a, if_neg b, BitVec.toNat_add, hx]
    simp only [BitVec.toNat_ofNat]
    have := mag_lt x
    split <;> omega
  constructor
  · intro hlt
    by_cases a : mag x = 0
    · have b : mag y ≠ 0 ∧ neg y = false := by
        unfold key at hlt; rw [a] at hlt
        cases hs : neg x <;> cases ht : neg y <;> simp_all <;> omega
      obtain ⟨c, d⟩ := key_of (by norm_num) (hzero a b.1)
      refine ⟨?_, notNaN_of_mag (by omega)⟩
      rw [c, b.2]; unfold key; rw [a]; simp
    · by_cases b : mag y < mag x ∨ neg x ≠ neg y
      · obtain ⟨c, d⟩ := key_of (by omega) (hdown a b)
        refine ⟨?_, notNaN_of_mag (by omega)⟩
        rw [c]
        unfold key at hlt ⊢
        cases hs : neg x <;> cases ht : neg y <;> simp_all <;> omega
      · obtain ⟨c, d⟩ := key_of (by omega) (hup a b (by omega))
        have : neg x = false ∧ mag x < mag y := by
          unfold key at hlt
          cases hs : neg x <;> cases ht : neg y <;> simp_all
        refine ⟨?_, notNaN_of_mag (by omega)⟩
        rw [c]
        unfold key at hlt ⊢
        simp [this.1]
  · intro hlt
    by_cases a : mag x = 0
    · have b : mag y ≠ 0 ∧ neg y = true := by
        unfold key at hlt; rw [a] at hlt
        cases hs : neg x <;> cases ht : neg y <;> simp_all <;> omega
      obtain ⟨c, d⟩ := key_of (by norm_num) (hzero a b.1)
      refine ⟨?_, notNaN_of_mag (by omega)⟩
      rw [c, b.2]; unfold key; rw [a]; simp
    · by_cases b : mag y < mag x ∨ neg x ≠ neg y
      · obtain ⟨c, d⟩ := key_of (by omega) (hdown a b)
        refine ⟨?_, notNaN_of_mag (by omega)⟩
        rw [c]
        unfold key at hlt ⊢
        cases hs : neg x <;> cases ht : neg y <;> simp_all <;> omega
      · obtain ⟨c, d⟩ := key_of (by omega) (hup a b (by omega))
        have : neg x = true ∧ mag x < mag y := by
          unfold key at hlt
          cases hs : neg x <;> cases ht : neg y <;> simp_all
        refine ⟨?_, notNaN_of_mag (by omega)⟩
        rw [c]
        unfold key at hlt ⊢
        simp [this.1]; omega

/-- **C32** otherwise the result is the neighbour of `x` on the side of `y`: it lies strictly
beyond `x`, not beyond `y`, and no float value lies strictly between `x` and it. -/
theorem C32_nextAfter (x y : BitVec 32) (h1 : ¬ IsNaN x) (h2 : ¬ IsNaN y) :
    (ext x < ext y → ¬ IsNaN (nextAfter x y) ∧ ext x < ext (nextAfter x y) ∧
      ext (nextAfter x y) ≤ ext y ∧
      ∀ z, ¬ IsNaN z → ¬ (ext x < ext z ∧ ext z < ext (nextAfter x y))) ∧
    (ext y < ext x → ¬ IsNaN (nextAfter x y) ∧ ext (nextAfter x y) < ext x ∧
      ext y ≤ ext (nextAfter x y) ∧
      ∀ z, ¬ IsNaN z → ¬ (ext (nextAfter x y) < ext z ∧ ext z < ext x)) := by
  obtain ⟨hu, hd⟩ := nextAfter_key h1 h2
  constructor
  · intro h
    rw [ext_lt_iff h1 h2] at h
    obtain ⟨hk, hn⟩ := hu h
    refine ⟨hn, (ext_lt_iff h1 hn).2 (by omega), (ext_le_iff hn h2).2 (by omega), ?_⟩
    intro z hz ⟨ha, hb⟩
    rw [ext_lt_iff h1 hz] at ha
    rw [ext_lt_iff hz hn] at hb
    omega
  · intro h
    rw [ext_lt_iff h2 h1] at h
    obtain ⟨hk, hn⟩ := hd h
    refine ⟨hn, (ext_lt_iff hn h1).2 (by omega), (ext_le_iff h2 hn).2 (by omega), ?_⟩
    intro z hz ⟨ha, hb⟩
    rw [ext_lt_iff hz h1] at hb
    rw [ext_lt_iff hn hz] at ha
    omega

-- from 0 toward -1, from FLT_MAX toward infinity, from the smallest subnormal toward 0
example : ¬ IsNaN 0#32 ∧ lt 0xBF800000#32 0#32 = true ∧ nextAfter 0#32 0xBF800000#32 = 0x80000001#32 ∧
    nextAfter 0x7F7FFFFF#32 0x7F800000#32 = 0x7F800000#32 ∧
    nextAfter 0x00000001#32 0xBF800000#32 = 0#32 := by decide

/-- **C33** `copysign` takes the magnitude bits of the first and the sign bit of the second
argument; `absf` clears the sign; for every bit pattern including NaNs and zeros. -/
theorem C33_copysign_abs (x y : BitVec 32) :
    mag (copysign x y) = mag x ∧ neg (copysign x y) = neg y ∧
    mag (absf x) = mag x ∧ neg (absf x) = false ∧ val (absf x) = |val x| := by
  have hm := mag_lt x
  have h1 : neg (copysign x y) = neg y ∧ mag (copysign x y) = mag x := by
    apply neg_mag_of_toNat hm
    unfold copysign
    rw [BitVec.or_comm, toNat_or_sign (toNat_sign y) (by rw [toNat_noSign']; exact hm),
      toNat_noSign']
  have h2 : neg (absf x) = false ∧ mag (absf x) = mag x := by
    apply neg_mag_of_toNat hm
    unfold absf absolute
    rw [toNat_noSign]; simp
  refine ⟨h1.2, h1.1, h2.2, h2.1, ?_⟩
  rw [val_eq, val_eq, h2.1, h2.2]
  have := mval_nonneg (mag x)
  by_cases hs : neg x
  · simp [hs, abs_of_nonneg this]
  · simp [hs, abs_of_nonneg this]

theorem zero_notNaN : ¬ IsNaN 0#32 := by decide

/-- **C33** `sign` is 1, -1, 0 according to the sign of the (extended) value, and a NaN for a NaN. -/
theorem C33_sign (x : BitVec 32) :
    (¬ IsNaN x → ext 0#32 < ext x → val (sign x) = 1) ∧
    (¬ IsNaN x → ext x < ext 0#32 → val (sign x) = -1) ∧
    (Finite x → val x = 0 → sign x = 0#32) ∧ (IsNaN x → IsNaN (sign x)) := by
  have v1 : val 0x3F800000#32 = 1 := by
    rw [val_eq, show neg 0x3F800000#32 = false by decide,
      show mag 0x3F800000#32 = 1065353216 by decide, mval_one]; simp
  have v2 : val 0xBF800000#32 = -1 := by
    rw [val_eq, show neg 0xBF800000#32 = true by decide,
      show mag 0xBF800000#32 = 1065353216 by decide, mval_one]; simp
  have k0 : key 0#32 = 0 := by decide
  have hz := (C31_classify x).1
  unfold sign
  refine ⟨?_, ?_, ?_, ?_⟩
  · intro h1 h2
    rw [if_pos (lt_iff.2 ⟨zero_notNaN, h1, h2⟩), v1]
  · intro h1 h2
    have : ¬ lt 0#32 x = true := by
      rw [lt_iff]; rintro ⟨-, -, h⟩; exact absurd h2 (not_lt.2 h.le)
    rw [if_neg this, if_pos (lt_iff.2 ⟨h1, zero_notNaN, h2⟩), v2]
  · intro h1 h2
    have hn : ¬ IsNaN x := by unfold F32.Finite at h1; unfold IsNaN; omega
    have hk : key x = 0 := by
      have a : ¬ key x < key 0#32 := by
        rw [key_lt_iff, h2, val_eq, show mag 0#32 = 0 by decide, mval_zero]; simp
      have b : ¬ key 0#32 < key x := by
        rw [key_lt_iff, h2, val_eq, show mag 0#32 = 0 by decide, mval_zero]; simp
      omega
    have a : ¬ lt 0#32 x = true := by
      unfold lt; rw [decide_eq_true_iff]; omega
    have b : ¬ lt x 0#32 = true := by
      unfold lt; rw [decide_eq_true_iff]; omega
    rw [if_neg a, if_neg b, if_pos (hz.2 ⟨h1, h2⟩).symm]
  · intro h
    have a : ¬ lt 0#32 x = true := by rw [lt_iff]; tauto
    have b : ¬ lt x 0#32 = true := by rw [lt_iff]; tauto
    have c : ¬ Class.zero = classify x := by
      intro hc
      have := (hz.1 hc.symm).1
      unfold F32.Finite at this; unfold IsNaN at h; omega
    rw [if_neg a, if_neg b, if_neg c]
    decide

example : copysign 0x40490FDB#32 0x80000000#32 = 0xC0490FDB#32 ∧
    absf 0xFFC00000#32 = 0x7FC00000#32 ∧ sign 0xC0490FDB#32 = 0xBF800000#32 := by decide

/-- `x & 0x807FFFFF` keeps the sign and the fraction field. -/
theorem toNat_stripExp (x : BitVec 32) :
    (x &&& 0x807FFFFF#32).toNat = (if neg x then 2147483648 else 0) + frac x := by
  have h : x &&& 0x807FFFFF#32 = (x &&& signMask) ||| (x &&& BitVec.ofNat 32 (2 ^ 23 - 1)) := by
    rw [← BitVec.and_or_distrib_left]; rfl
  have h2 : (x &&& BitVec.ofNat 32 (2 ^ 23 - 1)).toNat = frac x := by
    rw [toNat_low x (by norm_num)]; unfold frac mag; omega
  rw [h, toNat_or_sign (toNat_sign x) (by rw [h2]; unfold frac; omega), h2]

/-- Or of an exponent field into a pattern whose exponent field is empty. -/
theorem toNat_withExp {a : BitVec 32} {s : Bool} {f e : Nat} (hf : f < 8388608) (he : e < 256)
    (ha : a.toNat = (if s then 2147483648 else 0) + f) :
    (a ||| BitVec.ofNat 32 (e * 8388608)).toNat
      = (if s then 2147483648 else 0) + (e * 8388608 + f) := by
  have h1 : (BitVec.ofNat 32 (e * 8388608)).toNat = e * 8388608 := by
    rw [BitVec.toNat_ofNat, Nat.mod_eq_of_lt (by omega)]
  have h2 : (e * 8388608) ||| f = e * 8388608 + f := by
    have := Nat.two_pow_add_eq_or_of_lt (i := 23) (b := f) hf e
    rw [show 2 ^ 23 * e = e * 8388608 by omega] at this
    exact this.symm
  have h3 : a.toNat = (if s then 2147483648 else 0) ||| f := by
    rw [ha]
    cases s
    · simp
    · have := Nat.two_pow_add_eq_or_of_lt (i := 31) (b := f) (by omega) 1
      simpa using this
  rw [BitVec.toNat_or, h1, h3, Nat.or_assoc, Nat.or_comm f, h2]
  cases s
  · simp
  · have := Nat.two_pow_add_eq_or_of_lt (i := 31) (b := e * 8388608 + f) (by omega) 1
    simpa using this.symm

theorem expo_field (x : BitVec 32) : ((x >>> 23) &&& 0x000000FF#32).toNat = expo x := by
  rw [BitVec.toNat_and, show (0xFF#32).toNat = 2 ^ 8 - 1 by rfl,
    Nat.and_two_pow_sub_one_eq_mod, BitVec.toNat_ushiftRight, Nat.shiftRight_eq_div_pow]
  have := x.isLt
  unfold expo mag
  omega

theorem expo_field_int (x : BitVec 32) : ((x >>> 23) &&& 0x000000FF#32).toInt = expo x := by
  rw [BitVec.toInt_eq_toNat_cond, expo_field]
  have := mag_lt x
  rw [if_pos (by unfold expo; omega)]

theorem rexp_pat (x : BitVec 32) : neg (rexp x).1 = neg x ∧
    mag (rexp x).1 = 126 * 8388608 + frac x ∧ (rexp x).2 = (expo x : Int) - 126 := by
  have hf : frac x < 8388608 := by unfold frac; omega
  have h := toNat_withExp (e := 126) hf (by norm_num) (toNat_stripExp x)
  obtain ⟨h1, h2⟩ := neg_mag_of_toNat (by omega) h
  unfold rexp
  refine ⟨h1, h2, ?_⟩
  simp only [expo_field_int]

theorem mag_fields (x : BitVec 32) : mag x = expo x * 8388608 + frac x := by
  unfold expo frac; omega

/-- **C34** (partial) for every *normal* number `rexp` returns a mantissa of magnitude in
`[1/2, 1)` and the exponent with `x = m * 2^e`. Missing: zero and subnormal numbers
(`C34_rexp_false`). -/
theorem C34_rexp_partial (x : BitVec 32) (h : Finite x) (hn : 2 ^ (-126 : ℤ) ≤ |val x|) :
    Finite (rexp x).1 ∧ 1 / 2 ≤ |val (rexp x).1| ∧ |val (rexp x).1| < 1 ∧
    val x = val (rexp x).1 * 2 ^ (rexp x).2 := by
  obtain ⟨h1, h2, h3⟩ := rexp_pat x
  have hf : frac x < 8388608 := by unfold frac; omega
  have hnm : ((C31_classify x).2.2.1).2 ⟨h, hn⟩ = ((C31_classify x).2.2.1).2 ⟨h, hn⟩ := rfl
  have habs : ∀ y : BitVec 32, |val y| = mval (mag y) := by
    intro y
    rw [val_eq]; have := mval_nonneg (mag y)
    split
    · rw [abs_neg, abs_of_nonneg this]
    · exact abs_of_nonneg this
  have he : 1 ≤ expo x := by
    rw [habs] at hn
    have h126 : (2 : ℚ) ^ (-126 : ℤ) = mval 8388608 := by
      rw [mval_sub (by norm_num)]
      rw [show (-126 : ℤ) = 23 + -149 by norm_num, zpow_add₀ (by norm_num)]
      norm_num
    rw [h126, mval_le_iff] at hn
    unfold expo; omega
  have e1 := @mval_lin 126 (frac x) (by norm_num) (by omega)
  have e2 := @mval_lin (expo x) (frac x) he (by omega)
  rw [← mag_fields] at e2
  rw [← h2] at e1
  refine ⟨(finite_iff _).2 (by omega), ?_, ?_, ?_⟩
  · rw [habs, ← mval_half, mval_le_iff]; omega
  · rw [habs, ← mval_one, mval_lt_iff]; omega
  · rw [val_eq, val_eq, h1, e1, e2, h3]
    have : (2 : ℚ) ^ ((expo x : ℤ) - 150) = 2 ^ (((126 : ℕ) : ℤ) - 150) * 2 ^ ((expo x : ℤ) - 126) := by
      rw [← zpow_add₀ (by norm_num)]; congr 1; push_cast; ring
    rw [this]
    split <;> ring

/-- **C34** is false for zero: `rexp(0)` is `0.5` with exponent -126. -/
theorem C34_rexp_false : val 0#32 = 0 ∧ rexp 0#32 = (0x3F000000#32, -126) ∧
    val 0x3F000000#32 = 1 / 2 := by
  refine ⟨?_, by decide, ?_⟩
  · rw [val_eq, show mag 0#32 = 0 by decide, mval_zero]; simp
  · rw [val_eq, show neg 0x3F000000#32 = false by decide,
      show mag 0x3F000000#32 = 1056964608 by decide, mval_half]; simp

theorem ldexp_pat (x p : BitVec 32) (h : (expo x : Int) + p.toInt < 2147483648) :
    ∃ r, ldexp x p = .ok r ∧ neg r = neg x ∧ frac r = frac x ∧
      (expo r : Int) = ((expo x : Int) + p.toInt) % 256 := by
  have hm := mag_lt x
  have hf : frac x < 8388608 := by unfold frac; omega
  have he : expo x < 256 := by unfold expo; omega
  have hp := BitVec.le_toInt p
  norm_num at hp
  unfold ldexp addI
  simp only [expo_field_int]
  rw [if_pos ⟨by omega, h⟩]
  set e := (x >>> 23 &&& 255#32) + p with hee
  have hmod : (e &&& 0xFF#32).toNat = e.toNat % 256 := by
    rw [BitVec.toNat_and, show (0xFF#32).toNat = 2 ^ 8 - 1 by rfl,
      Nat.and_two_pow_sub_one_eq_mod]
  have hpe : (e.toNat : Int) % 256 = ((expo x : Int) + p.toInt) % 256 := by
    rw [hee, BitVec.toNat_add, expo_field, BitVec.toInt_eq_toNat_cond]
    have := p.isLt
    split <;> omega
  have hshift : (e &&& 0xFF#32) <<< 23 = BitVec.ofNat 32 ((e.toNat % 256) * 8388608) := by
    apply BitVec.eq_of_toNat_eq
    rw [BitVec.toNat_shiftLeft, hmod, Nat.shiftLeft_eq, BitVec.toNat_ofNat]
  have ht := toNat_withExp (e := e.toNat % 256) hf (by omega) (toNat_stripExp x)
  obtain ⟨h1, h2⟩ := neg_mag_of_toNat (by omega) ht
  refine ⟨_, rfl, ?_⟩
  rw [hshift, BitVec.or_comm]
  refine ⟨h1, ?_, ?_⟩
  · rw [frac, h2]; omega
  · rw [expo, h2, ← hpe]; omega

/-- **C34** (partial) `ldexp(x, p) = x * 2^p` without undefined behaviour for every *normal* `x`
and every `p` such that `x * 2^p` is in the range of the normal numbers. Missing: zero and
subnormal `x` (`C34_ldexp_false`). -/
theorem C34_ldexp_partial (x p : BitVec 32) (h : Finite x) (hn : 2 ^ (-126 : ℤ) ≤ |val x|)
    (hlo : 2 ^ (-126 : ℤ) ≤ |val x * 2 ^ p.toInt|) (hhi : |val x * 2 ^ p.toInt| < 2 ^ (128 : ℤ)) :
    ∃ r, ldexp x p = .ok r ∧ Finite r ∧ val r = val x * 2 ^ p.toInt := by
  have hf : frac x < 8388608 := by unfold frac; omega
  have hpp : (0 : ℚ) < 2 ^ p.toInt := by positivity
  have habs : |val x| = mval (mag x) := by
    rw [val_eq]; have := mval_nonneg (mag x)
    split
    · rw [abs_neg, abs_of_nonneg this]
    · exact abs_of_nonneg this
  rw [abs_mul, abs_of_pos hpp, habs] at hlo hhi
  have h126 : (2 : ℚ) ^ (-126 : ℤ) = mval 8388608 := by
    rw [mval_sub (by norm_num)]
    rw [show (-126 : ℤ) = 23 + -149 by norm_num, zpow_add₀ (by norm_num)]
    norm_num
  have he : 1 ≤ expo x := by
    rw [habs, h126, mval_le_iff] at hn
    unfold expo; omega
  have he2 : expo x < 255 := h
  have e2 := @mval_lin (expo x) (frac x) he (by omega)
  rw [← mag_fields] at e2
  rw [e2, mul_assoc, ← zpow_add₀ (by norm_num)] at hlo hhi
  have hl1 : ((8388608 + frac x : ℕ) : ℚ) < 2 ^ (24 : ℤ) := by
    norm_num; exact_mod_cast (show 8388608 + frac x < 16777216 by omega)
  have hl2 : (2 : ℚ) ^ (23 : ℤ) ≤ ((8388608 + frac x : ℕ) : ℚ) := by
    norm_num
  have hz1 : (0 : ℚ) < 2 ^ ((expo x : ℤ) - 150 + p.toInt) := by positivity
  have b1 : (-126 : ℤ) < 24 + ((expo x : ℤ) - 150 + p.toInt) := by
    rw [← zpow_lt_zpow_iff_right₀ (show (1 : ℚ) < 2 by norm_num), zpow_add₀ (by norm_num)]
    nlinarith
  have b2 : 23 + ((expo x : ℤ) - 150 + p.toInt) < (128 : ℤ) := by
    rw [← zpow_lt_zpow_iff_right₀ (show (1 : ℚ) < 2 by norm_num), zpow_add₀ (by norm_num)]
    nlinarith
  obtain ⟨r, hr, h1, h2, h3⟩ := ldexp_pat x p (by omega)
  have h4 : (expo r : Int) = (expo x : Int) + p.toInt := by
    rw [h3]; exact Int.emod_eq_of_lt (by omega) (by omega)
  refine ⟨r, hr, by unfold F32.Finite; omega, ?_⟩
  have e3 := @mval_lin (expo r) (frac r) (by omega) (by unfold frac; omega)
  rw [← mag_fields] at e3
  rw [val_eq, val_eq, h1, e2, e3, h2, h4]
  have : (2 : ℚ) ^ ((expo x : ℤ) + p.toInt - 150) = 2 ^ ((expo x : ℤ) - 150) * 2 ^ p.toInt := by
    rw [← zpow_add₀ (by norm_num)]; congr 1; ring
  rw [this]
  split <;> ring

/-- **C34** `ldexp` of zero is not zero, of a large number wraps to a small one, and a large
exponent argument is undefined behaviour. -/
theorem C34_ldexp_false :
    (val 0#32 = 0 ∧ ldexp 0#32 127#32 = .ok 0x3F800000#32) ∧
    ldexp 0x7F000000#32 2#32 = .ok 0x00000000#32 ∧
    ldexp 0x3F800000#32 0x7FFFFFFF#32 = .ub := by
  refine ⟨⟨C34_rexp_false.1, ?_⟩, ?_, ?_⟩ <;> decide

/-- **C34** recomposition: `ldexp(rexp(x))` gives back every bit pattern, including zeros,
subnormals, infinities and NaNs. -/
theorem C34_roundtrip (x : BitVec 32) :
    ldexp (rexp x).1 (BitVec.ofInt 32 (rexp x).2) = .ok x := by
  obtain ⟨h1, h2, h3⟩ := rexp_pat x
  have hm := mag_lt x
  have hf : frac x < 8388608 := by unfold frac; omega
  have he : expo x < 256 := by unfold expo; omega
  have e1 : expo (rexp x).1 = 126 := by unfold expo; rw [h2]; omega
  have f1 : frac (rexp x).1 = frac x := by rw [frac, h2]; omega
  have hp : (BitVec.ofInt 32 (rexp x).2).toInt = (expo x : Int) - 126 := by
    rw [h3, BitVec.toInt_ofInt, Int.bmod_eq_of_le (by norm_num; omega) (by norm_num; omega)]
  obtain ⟨r, hr, g1, g2, g3⟩ := ldexp_pat (rexp x).1 (BitVec.ofInt 32 (rexp x).2)
    (by rw [e1, hp]; push_cast; omega)
  rw [hr]
  congr 1
  apply BitVec.eq_of_toNat_eq
  rw [toNat_eq r, toNat_eq x, g1, h1, mag_fields r, mag_fields x, g2, f1]
  rw [e1, hp] at g3
  push_cast at g3
  have : expo r = expo x := by omega
  rw [this]

example : Finite 0x40490FDB#32 ∧ classify 0x40490FDB#32 = .normal ∧
    rexp 0x40490FDB#32 = (0x3F490FDB#32, 2) ∧
    ldexp 0x3F490FDB#32 2#32 = .ok 0x40490FDB#32 := by decide

/-- **C35** for limits that are not NaN and ordered, `inRangeCoerce` always leaves its argument in
`[low, high]` (so never a NaN), reports `true` exactly for the values already in range, and does
not touch those; a NaN becomes the lower limit, a value below (above) becomes the lower (upper)
limit. -/
theorem C35_inRangeCoerce (x lo hi : BitVec 32) (h1 : ¬ IsNaN lo) (h2 : ¬ IsNaN hi)
    (h3 : ext lo ≤ ext hi) :
    (¬ IsNaN (inRangeCoerce x lo hi).1 ∧ ext lo ≤ ext (inRangeCoerce x lo hi).1 ∧
      ext (inRangeCoerce x lo hi).1 ≤ ext hi) ∧
    ((inRangeCoerce x lo hi).2 = true ↔ ¬ IsNaN x ∧ ext lo ≤ ext x ∧ ext x ≤ ext hi) ∧
    ((inRangeCoerce x lo hi).2 = true → (inRangeCoerce x lo hi).1 = x) ∧
    (IsNaN x → inRangeCoerce x lo hi = (lo, false)) ∧
    (¬ IsNaN x → ext x < ext lo → inRangeCoerce x lo hi = (lo, false)) ∧
    (¬ IsNaN x → ext hi < ext x → inRangeCoerce x lo hi = (hi, false)) := by
  have hx := (C31_predicates x).1
  by_cases hn : IsNaN x
  · have : inRangeCoerce x lo hi = (lo, false) := by
      unfold inRangeCoerce; rw [if_pos (hx.2 hn)]
    rw [this]
    refine ⟨⟨h1, le_refl _, h3⟩, ?_, ?_, fun _ => rfl, fun h => absurd hn h, fun h => absurd hn h⟩
    · simp [hn]
    · simp
  · have hnn : ¬ isNan x = true := by rw [hx]; exact hn
    have hl : lt x lo = true ↔ ext x < ext lo := by rw [lt_iff]; tauto
    have hu : lt hi x = true ↔ ext hi < ext x := by rw [lt_iff]; tauto
    have e : inRangeCoerce x lo hi = if ext x < ext lo then (lo, false)
        else if ext hi < ext x then (hi, false) else (x, true) := by
      unfold inRangeCoerce
      rw [if_neg hnn]
      simp only [hl, hu]
    rw [e]
    by_cases a : ext x < ext lo
    · rw [if_pos a]
      refine ⟨⟨h1, le_refl _, h3⟩, ?_, ?_, fun h => absurd h hn, fun _ _ => rfl, ?_⟩
      · simp only [Bool.false_eq_true, false_iff]
        rintro ⟨-, h, -⟩; exact absurd a (not_lt.2 h)
      · simp
      · intro _ b; exact absurd (lt_of_le_of_lt h3 b) (not_lt.2 a.le)
    · rw [if_neg a]
      by_cases b : ext hi < ext x
      · rw [if_pos b]
        refine ⟨⟨h2, h3, le_refl _⟩, ?_, ?_, fun h => absurd h hn, fun _ c => absurd c a,
          fun _ _ => rfl⟩
        · simp only [Bool.false_eq_true, false_iff]
          rintro ⟨-, -, h⟩; exact absurd b (not_lt.2 h)
        · simp
      · rw [if_neg b]
        refine ⟨⟨hn, not_lt.1 a, not_lt.1 b⟩, ?_, fun _ => rfl, fun h => absurd h hn,
          fun _ c => absurd c a, fun _ c => absurd c b⟩
        simp only [true_iff]
        exact ⟨hn, not_lt.1 a, not_lt.1 b⟩

-- limits -1, 1: 0.5 stays, 2 becomes 1, NaN becomes -1
example : ¬ IsNaN 0xBF800000#32 ∧ le 0xBF800000#32 0x3F800000#32 = true ∧
    inRangeCoerce 0x3F000000#32 0xBF800000#32 0x3F800000#32 = (0x3F000000#32, true) ∧
    inRangeCoerce 0x40000000#32 0xBF800000#32 0x3F800000#32 = (0x3F800000#32, false) ∧
    inRangeCoerce 0x7FC00000#32 0xBF800000#32 0x3F800000#32 = (0xBF800000#32, false) := by decide

end Verif.Ffmath
