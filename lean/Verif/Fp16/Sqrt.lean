import Verif.Fp16.Lemmas

/-! # Lemmas on the square root loops -/

namespace Verif.Fp16

theorem toU_natCast {n : Nat} (h : n < 4294967296) : toU (n : Int) = n := by unfold toU; omega

/-- The digit loop computes the integer square root of `N = n + s^2`, `p = 2^j`. -/
theorem sqrtLoop_spec (N S : Nat) :
    ∀ j fuel n s, j + 2 ≤ fuel → n + s * s = N → N < (s + 2 * 2 ^ j) * (s + 2 * 2 ^ j) →
      s + 2 * 2 ^ j ≤ S → 2 * 2 ^ j * S < 2147483648 + 3 * (2 ^ j * 2 ^ j) →
      2 ^ j * 2 ^ j ≤ 1073741824 → n < 2147483648 →
      ∃ n' s', sqrtLoop fuel (2 ^ j * 2 ^ j) n ((2 * 2 ^ j * s : Nat) : Int) =
          .ok (((n' : Nat) : Int), ((s' : Nat) : Int)) ∧
        n' + s' * s' = N ∧ N < (s' + 1) * (s' + 1) ∧ s' + 1 ≤ S := by
  intro j
  induction j with
  | zero =>
    intro fuel n s hf h1 h2 h3 h4 h5 h6
    obtain ⟨fuel, rfl⟩ : ∃ f, fuel = f + 2 := ⟨fuel - 2, by omega⟩
    simp only [Nat.pow_zero, Nat.mul_one] at *
    rw [sqrtLoop, if_pos (by decide)]
    have ht : toI (w32 (toU ((2 * s : Nat) : Int) + 1)) = ((2 * s + 1 : Nat) : Int) := by
      rw [toU_natCast (by omega)]
      rw [toI_small (by unfold w32; omega)]
      unfold w32; omega
    simp only [ht]
    by_cases hc : (n : Int) ≥ ((2 * s + 1 : Nat) : Int)
    · rw [if_pos hc, chk_ok (by omega), Out.bind_ok, sqrtLoop, if_neg (by decide)]
      have hr : toI (w32 ((toU ((2 * s : Nat) : Int) >>> 1) + 1)) = ((s + 1 : Nat) : Int) := by
        rw [toU_natCast (by omega), Nat.shiftRight_eq_div_pow,
          toI_small (by unfold w32; omega)]
        unfold w32; omega
      refine ⟨n - (2 * s + 1), s + 1, ?_, ?_, ?_, by omega⟩
      · rw [hr]; congr 2; omega
      · have : (s + 1) * (s + 1) = s * s + (2 * s + 1) := by ring
        rw [this]; omega
      · simpa [Nat.add_assoc] using h2
    · rw [if_neg hc, sqrtLoop, if_neg (by decide)]
      refine ⟨n, s, ?_, h1, ?_, by omega⟩
      · congr 2; omega
      · have : (s + 1) * (s + 1) = s * s + (2 * s + 1) := by ring
        rw [this]; omega
  | succ j ih =>
    intro fuel n s hf h1 h2 h3 h4 h5 h6
    obtain ⟨fuel, rfl⟩ : ∃ f, fuel = f + 1 := ⟨fuel - 1, by omega⟩
    have hp : 0 < 2 ^ j := Nat.pow_pos (by omega)
    have hpp : 0 < 2 ^ j * 2 ^ j := Nat.mul_pos hp hp
    rw [Nat.pow_succ] at *
    have hih := ih fuel
    clear ih
    generalize 2 ^ j = p at *
    have e1 : p * 2 * (p * 2) = 4 * (p * p) := by ring
    have e2 : 2 * (p * 2) * S = 4 * (p * S) := by ring
    have e3 : 2 * (p * 2) * s = 4 * (p * s) := by ring
    have e4 : 2 * p * S = 2 * (p * S) := by ring
    have e5 : 2 * (p * 2) = 4 * p := by ring
    rw [e1] at h5 h4 ⊢
    rw [e2] at h4
    rw [e3]
    rw [e4] at hih
    have hpS : p * s + 4 * (p * p) ≤ p * S := by
      have := Nat.mul_le_mul_left p h3
      rw [e5, Nat.mul_add] at this
      calc p * s + 4 * (p * p) = p * s + p * (4 * p) := by ring
        _ ≤ p * S := this
    rw [sqrtLoop, if_pos (by omega)]
    have hb2 : (4 * (p * p)) >>> 2 = p * p := by rw [Nat.shiftRight_eq_div_pow]; omega
    have ht : toI (w32 (toU ((4 * (p * s) : Nat) : Int) + 4 * (p * p))) =
        ((4 * (p * s) + 4 * (p * p) : Nat) : Int) := by
      rw [toU_natCast (by omega), toI_small (by unfold w32; omega)]
      unfold w32; omega
    simp only [ht, hb2]
    by_cases hc : (n : Int) ≥ ((4 * (p * s) + 4 * (p * p) : Nat) : Int)
    · rw [if_pos hc, chk_ok (by omega), Out.bind_ok]
      have hr : toI (w32 ((toU ((4 * (p * s) : Nat) : Int) >>> 1) + 4 * (p * p))) =
          ((2 * p * (s + 2 * p) : Nat) : Int) := by
        have e : 2 * p * (s + 2 * p) = 2 * (p * s) + 4 * (p * p) := by ring
        rw [e, toU_natCast (by omega), Nat.shiftRight_eq_div_pow,
          toI_small (by unfold w32; omega)]
        unfold w32; omega
      rw [hr]
      have hsub : ((n : Int) - ((4 * (p * s) + 4 * (p * p) : Nat) : Int)) =
          ((n - (4 * (p * s) + 4 * (p * p)) : Nat) : Int) := by omega
      rw [hsub]
      apply hih
      · omega
      · have : (s + 2 * p) * (s + 2 * p) = s * s + (4 * (p * s) + 4 * (p * p)) := by ring
        rw [this]; omega
      · rw [e5] at h2
        have : s + 2 * p + 2 * p = s + 4 * p := by ring
        rw [this]; exact h2
      · omega
      · omega
      · omega
      · omega
    · rw [if_neg hc]
      have hr : ((4 * (p * s) : Nat) : Int) / 2 = ((2 * p * s : Nat) : Int) := by
        have e : 2 * p * s = 2 * (p * s) := by ring
        rw [e]; omega
      rw [hr]
      apply hih
      · omega
      · exact h1
      · have : (s + 2 * p) * (s + 2 * p) = s * s + (4 * (p * s) + 4 * (p * p)) := by ring
        rw [this]; omega
      · omega
      · omega
      · omega
      · exact h6

theorem sqrtBit_spec (x : Nat) (hx : 0 < x) :
    ∀ j fuel, j + 1 ≤ fuel → x < 4 * (2 ^ j * 2 ^ j) →
      ∃ i, i ≤ j ∧ sqrtBit x fuel (2 ^ j * 2 ^ j) = .ok (2 ^ i * 2 ^ i) ∧ x < 4 * (2 ^ i * 2 ^ i) := by
  intro j
  induction j with
  | zero =>
    intro fuel hf h
    obtain ⟨fuel, rfl⟩ : ∃ f, fuel = f + 1 := ⟨fuel - 1, by omega⟩
    refine ⟨0, by omega, ?_, h⟩
    rw [sqrtBit, if_neg (by simp; omega)]
  | succ j ih =>
    intro fuel hf h
    obtain ⟨fuel, rfl⟩ : ∃ f, fuel = f + 1 := ⟨fuel - 1, by omega⟩
    rw [sqrtBit]
    by_cases hc : 2 ^ (j + 1) * 2 ^ (j + 1) > x
    · rw [if_pos hc]
      have e : (2 ^ (j + 1) * 2 ^ (j + 1)) >>> 2 = 2 ^ j * 2 ^ j := by
        have e1 : 2 ^ (j + 1) * 2 ^ (j + 1) = 4 * (2 ^ j * 2 ^ j) := by rw [Nat.pow_succ]; ring
        rw [e1, Nat.shiftRight_eq_div_pow]; omega
      rw [e]
      obtain ⟨i, hi, h1, h2⟩ := ih fuel (by omega) (by
        have e1 : 2 ^ (j + 1) * 2 ^ (j + 1) = 4 * (2 ^ j * 2 ^ j) := by rw [Nat.pow_succ]; ring
        omega)
      exact ⟨i, by omega, h1, h2⟩
    · rw [if_neg hc]
      exact ⟨j + 1, by omega, rfl, h⟩

theorem and_sqrt (n : Nat) (h : n < 4294967296) : n &&& 4293918720 = n / 1048576 * 1048576 := by
  have e : (4293918720 : Nat) = 2 ^ 20 * (2 ^ 12 - 1) := rfl
  have e2 : n / 1048576 * 1048576 = 2 ^ 20 * (n / 1048576) := by omega
  rw [e, e2]
  apply Nat.eq_of_testBit_eq
  intro i
  rw [Nat.testBit_and, Nat.testBit_two_pow_mul, Nat.testBit_two_pow_mul, Nat.testBit_two_pow_sub_one]
  by_cases hi : 20 ≤ i
  · have h2 : (n / 1048576).testBit (i - 20) = n.testBit i := by
      have := Nat.testBit_shiftRight (i := 20) (j := i - 20) n
      rw [Nat.shiftRight_eq_div_pow] at this
      rw [this]; congr 1; omega
    rw [h2]
    by_cases h3 : i - 20 < 12
    · simp [hi, h3]
    · have : n.testBit i = false := by
        apply Nat.testBit_lt_two_pow
        calc n < 2 ^ 32 := h
          _ ≤ 2 ^ i := Nat.pow_le_pow_right (by omega) (by omega)
      simp [this]
  · simp [hi]

/-- First phase: the integer square root `s` of `x` and the remainder. -/
theorem sqrt_phase1 (x : Nat) (h0 : 0 < x) (h1 : x < 2147483648) :
    ∃ bit n s, sqrtBit x 32 (if 0 ≠ x &&& 4293918720 then 1073741824 else 262144) = .ok bit ∧
      sqrtLoop 32 bit (x : Int) 0 = .ok (((n : Nat) : Int), ((s : Nat) : Int)) ∧
      n + s * s = x ∧ x < (s + 1) * (s + 1) := by
  have hb : ∃ j, j ≤ 15 ∧ (if 0 ≠ x &&& 4293918720 then 1073741824 else 262144) = 2 ^ j * 2 ^ j ∧
      x < 4 * (2 ^ j * 2 ^ j) := by
    rw [and_sqrt x (by omega)]
    by_cases h : 0 ≠ x / 1048576 * 1048576
    · exact ⟨15, by omega, by rw [if_pos h]; decide, by omega⟩
    · exact ⟨9, by omega, by rw [if_neg h]; decide, by omega⟩
  obtain ⟨j, hj, hj1, hj2⟩ := hb
  rw [hj1]
  obtain ⟨i, hi, g1, g2⟩ := sqrtBit_spec x h0 j 32 (by omega) hj2
  have hp15 : 2 ^ i ≤ 2 ^ 15 := Nat.pow_le_pow_right (by omega) (by omega)
  have hpp : 2 ^ i * 2 ^ i ≤ 1073741824 := Nat.mul_le_mul hp15 hp15
  have e : (2 * 2 ^ i) * (2 * 2 ^ i) = 4 * (2 ^ i * 2 ^ i) := by ring
  obtain ⟨n, s, k1, k2, k3, _⟩ := sqrtLoop_spec x (2 * 2 ^ i) i 32 x 0 (by omega) (by omega)
    (by rw [Nat.zero_add, e]; exact g2) (by omega) (by rw [e]; omega) hpp h1
  refine ⟨_, n, s, g1, ?_, k2, k3⟩
  simpa using k1

/-- `sqrt` on the inputs whose integer root `s` leaves a remainder below `2^15`. -/
theorem sqrt_eq (x s : Nat) (h0 : 0 < x) (h1 : x < 1073741824) (hs : s * s ≤ x)
    (hs1 : x < (s + 1) * (s + 1)) (hrem : x < s * s + 32768) :
    ∃ r : Nat, sqrt (x : Int) = .ok (r : Int) ∧ NearestSqrt r (x * 65536) := by
  obtain ⟨bit, n, s', g1, g2, g3, g4⟩ := sqrt_phase1 x h0 (by omega)
  have hss : s' = s := by
    have a1 : s < s' + 1 := by
      by_contra h
      have := Nat.mul_le_mul (show s' + 1 ≤ s by omega) (show s' + 1 ≤ s by omega)
      omega
    have a2 : s' < s + 1 := by
      by_contra h
      have := Nat.mul_le_mul (show s + 1 ≤ s' by omega) (show s + 1 ≤ s' by omega)
      omega
    omega
  subst hss
  have hs32 : s' < 32768 := by
    by_contra h
    have := Nat.mul_le_mul (show 32768 ≤ s' by omega) (show 32768 ≤ s' by omega)
    omega
  have hn : n < 32768 := by omega
  obtain ⟨m, r, k1, k2, k3, k4⟩ := sqrtLoop_spec (x * 65536) 8388608 7 32 (n * 65536) (s' * 256)
    (by omega) (by rw [← g3]; ring)
    (by have e : (s' * 256 + 2 * 2 ^ 7) * (s' * 256 + 2 * 2 ^ 7) = (s' + 1) * (s' + 1) * 65536 := by
          ring
        rw [e]; omega)
    (by omega) (by omega) (by omega) (by omega)
  unfold sqrt
  have hu : toU (x : Int) = x := toU_natCast (by omega)
  have e1 : toI (toU ((n : Int) * 65536)) = ((n * 65536 : Nat) : Int) := by
    rw [← toI_toU (z := ((n * 65536 : Nat) : Int)) (by unfold I32; omega)]; congr 2
  have e2 : toI (toU ((s' : Int) * 65536)) = ((2 * 2 ^ 7 * (s' * 256) : Nat) : Int) := by
    rw [← toI_toU (z := ((2 * 2 ^ 7 * (s' * 256) : Nat) : Int)) (by unfold I32; omega)]
    exact congrArg (fun z => toI (toU z)) (by omega)
  have hn2 : ¬ ((n : Int) > 65535) := by omega
  have hb14 : (1 <<< 14 : Nat) = 2 ^ 7 * 2 ^ 7 := by decide
  simp only [hu, g1, g2, if_pos (show (x : Int) > 0 by omega), Out.bind_ok, if_neg hn2,
    Out.pure_eq, e1, e2, hb14, k1, flagRounding]
  have hsq : (r + 1) * (r + 1) = r * r + 2 * r + 1 := by ring
  have hmr : m ≤ 2 * r := by omega
  unfold NearestSqrt
  by_cases hc : (m : Int) > (r : Int)
  · rw [if_pos ⟨trivial, hc⟩, chk_ok (by omega)]
    refine ⟨r + 1, rfl, ?_, ?_⟩
    · have : (2 * (r + 1) - 1) ^ 2 = 4 * (r * r) + 4 * r + 1 := by
        rw [show 2 * (r + 1) - 1 = 2 * r + 1 by omega]; ring
      omega
    · have : (2 * (r + 1) + 1) ^ 2 = 4 * (r * r) + 12 * r + 9 := by ring
      omega
  · rw [if_neg (fun h => hc h.2)]
    refine ⟨r, rfl, ?_, ?_⟩
    · have : (2 * r - 1) ^ 2 ≤ (2 * r) ^ 2 := Nat.pow_le_pow_left (by omega) 2
      have e : (2 * r) ^ 2 = 4 * (r * r) := by ring
      omega
    · have : (2 * r + 1) ^ 2 = 4 * (r * r) + 4 * r + 1 := by ring
      omega

end Verif.Fp16
