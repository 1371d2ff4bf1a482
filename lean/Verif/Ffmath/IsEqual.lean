import Verif.Ffmath.Sin

/-!
# `isEqual` (C88)

IEEE binary32 arithmetic.
-/

namespace Verif.Ffmath

open Verif F32

theorem val_key_le {a b : BitVec 32} (h : F32.le a b = true) : val a ≤ val b := by
  rw [val_le_iff]; exact le_key h

/-- A finite value is an integer multiple of the smallest subnormal. -/
theorem val_sub {b : BitVec 32} (h : Finite b) : ∃ n : ℤ, val b = n * 2 ^ (-149 : ℤ) := by
  obtain ⟨k, t, t1, -, -, h2, -⟩ := val_dyadic h
  refine ⟨k * 2 ^ (t + 149).toNat, ?_⟩
  rw [h2]
  push_cast
  rw [← zpow_natCast, Int.toNat_of_nonneg (by omega), mul_assoc, ← zpow_add₀ (by norm_num)]
  congr 2
  ring

theorem tol_eq : absolute (lit 1.175494351e-38) = fltMin := by decide +kernel

theorem isEqual_le {a b : BitVec 32} (ha : Finite a) (hb : Finite b) (h : isEqual a b = true) :
    fl |val a - val b| ≤ 2 ^ (-126 : ℤ) := by
  unfold isEqual isEqualTol at h
  rw [tol_eq] at h
  have := val_key_le h
  rwa [absolute_val, sub_fin ha hb, val_rnd, fl_abs, val_fltMin] at this

/-- **C88.** With the default tolerance two finite numbers are equal exactly when they differ by at most
`FLT_MIN`: the rounding of the difference has no influence. -/
theorem C88_iff (a b : BitVec 32) (ha : Finite a) (hb : Finite b) :
    isEqual a b = true ↔ |val a - val b| ≤ 2 ^ (-126 : ℤ) := by
  constructor
  · intro h
    have h1 := isEqual_le ha hb h
    by_contra hh
    rw [not_le] at hh
    obtain ⟨n, hn⟩ := val_sub ha
    obtain ⟨m, hm⟩ := val_sub hb
    have e : |val a - val b| = ((|n - m| : ℤ) : ℚ) * 2 ^ (-149 : ℤ) := by
      rw [hn, hm, ← sub_mul, abs_mul, abs_of_pos (two_zpow_pos _)]; push_cast; rfl
    have h2 : 8388609 ≤ |n - m| := by
      by_contra hc
      have : |n - m| ≤ 8388608 := by omega
      have : ((|n - m| : ℤ) : ℚ) ≤ 8388608 := by exact_mod_cast this
      have := mul_le_mul_of_nonneg_right this (two_zpow_pos (-149)).le
      rw [← e] at this
      norm_num at this hh
      linarith
    have h3 : (8388609 : ℚ) * 2 ^ (-149 : ℤ) ≤ |val a - val b| := by
      rw [e]
      have : (8388609 : ℚ) ≤ ((|n - m| : ℤ) : ℚ) := by exact_mod_cast h2
      exact mul_le_mul_of_nonneg_right this (two_zpow_pos (-149)).le
    have hc : Finite 0x00800001#32 ∧ val 0x00800001#32 = 8388609 * 2 ^ (-149 : ℤ) := by decide +kernel
    have h4 : val 0x00800001#32 ≤ fl |val a - val b| := le_fl hc.1 (hc.2.trans_le h3)
    rw [hc.2] at h4
    have := h4.trans h1
    norm_num at this
  · intro h
    unfold isEqual isEqualTol
    rw [tol_eq]
    have hr := rnd_finite (s := neg a && !neg b) (q := val a - val b) (h.trans (zpow_le_iff.2 (by norm_num)))
    rw [sub_fin ha hb, le_fin (absolute_finite.2 hr) fin_fltMin, absolute_val, val_rnd, fl_abs, val_fltMin]
    have := fl_le (q := |val a - val b|) fin_fltMin (by rw [val_fltMin]; exact h)
    rw [val_fltMin] at this
    simpa using this

/-- **C88.** `isEqual` is reflexive on finite numbers and symmetric. -/
theorem C88_refl (a : BitVec 32) (ha : Finite a) : isEqual a a = true := by
  rw [C88_iff a a ha ha, sub_self, abs_zero]; exact (two_zpow_pos _).le

/-- **C88.** -/
theorem C88_symm (a b : BitVec 32) (ha : Finite a) (hb : Finite b) : isEqual a b = isEqual b a := by
  rw [Bool.eq_iff_iff, C88_iff a b ha hb, C88_iff b a hb ha, abs_sub_comm]

/-- **C88.** Away from zero the default tolerance tolerates nothing: once one operand reaches `2^-101`
in magnitude `isEqual` is equality of the values. -/
theorem C88_exact (a b : BitVec 32) (ha : Finite a) (hb : Finite b) (h : 2 ^ (-101 : ℤ) ≤ |val a|) :
    isEqual a b = true ↔ val a = val b := by
  rw [C88_iff a b ha hb]
  constructor
  · intro hd
    have r : ∀ {x : BitVec 32}, Finite x → 2 ^ (-102 : ℤ) ≤ |val x| → ∃ n : ℤ, val x = n * 2 ^ (-125 : ℤ) := by
      intro x hx h
      obtain ⟨k, t, t1, t2, k1, e, k3⟩ := val_dyadic hx
      have ht : -125 ≤ t := by
        by_contra hh
        rw [e, abs_mul, abs_of_pos (two_zpow_pos t)] at h
        have h0 : (2 : ℚ) ^ t ≤ 2 ^ (-126 : ℤ) := zpow_le_iff.2 (by omega)
        have h1 : |(k : ℚ)| ≤ 16777215 := by
          have : |k| ≤ 16777215 := by omega
          exact_mod_cast this
        have := mul_le_mul h1 h0 (two_zpow_pos t).le (by norm_num)
        norm_num at this h
        linarith
      refine ⟨k * 2 ^ (t + 125).toNat, ?_⟩
      rw [e]
      push_cast
      rw [← zpow_natCast, Int.toNat_of_nonneg (by omega), mul_assoc, ← zpow_add₀ (by norm_num)]
      congr 2
      ring
    obtain ⟨n, hn⟩ := r ha (le_trans (zpow_le_iff.2 (by norm_num)) h)
    obtain ⟨m, hm⟩ := r hb (by
      have := abs_sub_abs_le_abs_sub (val a) (val b)
      norm_num at this h hd ⊢
      linarith)
    rw [hn, hm, ← sub_mul, abs_mul, abs_of_pos (two_zpow_pos _)] at hd
    have h1 : |((n - m : ℤ) : ℚ)| < 1 := by
      push_cast
      norm_num at hd ⊢
      linarith
    have h2 : |n - m| < 1 := by exact_mod_cast h1
    have h3 : n = m := by have := Int.abs_lt_one_iff.1 h2; omega
    rw [hn, hm, h3]
  · intro h; rw [h, sub_self, abs_zero]; exact (two_zpow_pos _).le

theorem add_notFinite {a b : BitVec 32} (h : ¬ Finite a ∨ ¬ Finite b) : ¬ Finite (F32.add a b) := by
  have hq : ¬ Finite qnan := by decide +kernel
  unfold F32.add
  by_cases h1 : IsNaN a ∨ IsNaN b
  · rw [if_pos h1]; exact hq
  rw [if_neg h1]
  by_cases h2 : IsInf a
  · rw [if_pos h2]
    by_cases h3 : IsInf b ∧ neg a ≠ neg b
    · rw [if_pos h3]; exact hq
    · rw [if_neg h3]; exact fun hf => hf.notInf h2
  rw [if_neg h2]
  by_cases h3 : IsInf b
  · rw [if_pos h3]; exact fun hf => hf.notInf h3
  · exfalso
    rw [not_or] at h1
    rw [nan_iff, nan_iff] at h1
    rw [inf_iff] at h2 h3
    rw [finite_iff, finite_iff] at h
    omega

/-- **C88.** Infinite operands and NaN are equal to nothing, not even to themselves. -/
theorem C88_special (a b : BitVec 32) (h : ¬ Finite a ∨ ¬ Finite b) : isEqual a b = false := by
  have hnf : ¬ Finite (F32.sub a b) := add_notFinite (h.imp_right fun h hf => h (finite_negate.1 hf))
  rw [Bool.eq_false_iff]
  intro hh
  unfold isEqual isEqualTol at hh
  have h1 := le_key hh
  have h2 : key (absolute (lit 1.175494351e-38)) = 8388608 := by decide +kernel
  rw [h2] at h1
  have h3 : key (absolute (F32.sub a b)) = mag (F32.sub a b) := by
    unfold F32.key; rw [(absolute_spec _).1, (absolute_spec _).2]; simp
  rw [finite_iff] at hnf
  omega

/-- **C88, negation.** The relation is not transitive. -/
theorem C88_trans_false : isEqual (lit 0) fltMin = true ∧ isEqual fltMin (F32.mul (lit 2) fltMin) = true ∧
    isEqual (lit 0) (F32.mul (lit 2) fltMin) = false := by decide +kernel

/-- Cases of the theorems above. -/
example : Finite (lit 0.1) ∧ 2 ^ (-101 : ℤ) ≤ |val (lit 0.1)| ∧ isEqual (F32.sub (lit 0.3) (lit 0.1)) (lit 0.2) = false ∧
    isEqual (F32.add (lit 0.5) (lit 0.25)) (lit 0.75) = true := by decide +kernel

end Verif.Ffmath
