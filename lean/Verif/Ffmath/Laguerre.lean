import Verif.Ffmath.Legendre

/-!
# Laguerre polynomials (C106)

The reference is the explicit sum of the associated Laguerre polynomial. The function evaluates it only for `n <= 1`, at `x = 0` and
for `x >= 2 (m + 1) + 4 n`; in between it uses an asymptotic formula whatever `n` is.
-/

namespace Verif.Ffmath

open Verif

variable {K : Type u} [Field K] [LinearOrder K] [IsStrictOrderedRing K]

/-- The associated Laguerre polynomial (not a definition of the repository). -/
def laguerreRef (n m : ℕ) (x : K) : K :=
  ∑ i ∈ Finset.range (n + 1), (-1) ^ i * ((n + m).choose (n - i) : K) * x ^ i / (i.factorial : K)

theorem hypergStart_eq (x : K) (k : ℕ) : hypergStart x k = x ^ k / (k.factorial : K) := by
  induction k with
  | zero => simp [hypergStart]
  | succ k ih =>
    have : (k.factorial : K) ≠ 0 := by exact_mod_cast k.factorial_ne_zero
    have h2 : ((k : K) + 1) ≠ 0 := by exact_mod_cast k.succ_ne_zero
    rw [hypergStart, ih]
    simp only [fMul, fDiv, fLit]
    rw [Nat.factorial_succ]
    push_cast
    rw [pow_succ]
    field_simp

theorem hypergLoop_eq (n m : ℕ) (x : K) (hx : x ≠ 0) (k : ℕ) (hk : k ≤ n) :
    hypergLoop n ((m : K) + 1) (-x) ((-x) ^ n / (n.factorial : K)) k =
    ((-x) ^ (n - k) / ((n - k).factorial : K) * ((n + m).choose k : K),
      ∑ j ∈ Finset.range (k + 1), (-x) ^ (n - j) / ((n - j).factorial : K) * ((n + m).choose j : K)) := by
  induction k with
  | zero => simp [hypergLoop]
  | succ k ih =>
    have e : (-x) ^ (n - k) / ((n - k).factorial : K) * ((n + m).choose k : K) *
        (((((m : K) + 1) + ((n - 1 - k : ℕ) : K)) / ((k + 1 : ℕ) : K) * (((n - 1 - k : ℕ) : K) + 1)) / (-x)) =
        (-x) ^ (n - (k + 1)) / ((n - (k + 1)).factorial : K) * ((n + m).choose (k + 1) : K) := by
      obtain ⟨d, rfl⟩ : ∃ d, n = k + 1 + d := ⟨n - (k + 1), by omega⟩
      rw [show k + 1 + d - k = d + 1 by omega, show k + 1 + d - (k + 1) = d by omega, show k + 1 + d - 1 - k = d by omega]
      have h1 := Nat.choose_succ_right_eq (k + 1 + d + m) k
      rw [show k + 1 + d + m - k = m + 1 + d by omega] at h1
      have h2 : ((k + 1 + d + m).choose (k + 1) : K) * ((k : K) + 1) = ((k + 1 + d + m).choose k : K) * ((m : K) + 1 + d) := by exact_mod_cast h1
      have hd : (d.factorial : K) ≠ 0 := by exact_mod_cast d.factorial_ne_zero
      have hd1 : ((d : K) + 1) ≠ 0 := by exact_mod_cast d.succ_ne_zero
      have hk1 : ((k : K) + 1) ≠ 0 := by exact_mod_cast k.succ_ne_zero
      rw [Nat.factorial_succ]
      push_cast
      rw [pow_succ]
      have hx' : (-x) ≠ 0 := neg_ne_zero.2 hx
      generalize -x = y at *
      field_simp
      linear_combination (-h2)
    rw [hypergLoop, ih (by omega)]
    simp only [fMul, fDiv, fLit, fAdd]
    rw [Finset.sum_range_succ _ (k + 1)]
    push_cast at e ⊢
    rw [e]

theorem hyperg_eq (n m : ℕ) (x : K) (hx : 0 < x) : polyLaguerreHyperg n (m : K) x = laguerreRef n m x := by
  unfold polyLaguerreHyperg
  simp only [fLt, fAdd, fNeg, fMul, fLit, fAbs, abs_of_pos hx]
  have hs : hypergStart x n * (if decide (x < ((0 : ℚ) : K)) = true then ((1 : ℚ) : K) else if 1 = n % 2 then ((-1 : ℚ) : K) else ((1 : ℚ) : K)) =
      (-x) ^ n / (n.factorial : K) := by
    rw [hypergStart_eq, if_neg (by simpa using hx.le)]
    rcases Nat.mod_two_eq_zero_or_one n with h | h
    · rw [if_neg (by omega), (Nat.even_iff.2 h).neg_pow]; simp
    · rw [if_pos h.symm, (Nat.odd_iff.2 h).neg_pow]
      push_cast; ring
  rw [hs]
  have h := hypergLoop_eq n m x hx.ne' n le_rfl
  push_cast
  rw [h]
  simp only
  unfold laguerreRef
  rw [← Finset.sum_range_reflect]
  refine Finset.sum_congr rfl fun i hi => ?_
  have hi' : i ≤ n := by simpa [Nat.lt_succ_iff] using hi
  rw [show n + 1 - 1 - i = n - i by omega, show n - (n - i) = i by omega]
  rw [show (-x) ^ i = (-1) ^ i * x ^ i by rw [← mul_pow]; ring]
  ring

theorem laguerreZero_eq (m k : ℕ) : laguerreZero (m : K) k = ((k + 1 + m).choose m : K) := by
  induction k with
  | zero => simp [laguerreZero, Nat.add_comm 1 m]
  | succ k ih =>
    rw [laguerreZero, ih]
    simp only [fMul, fDiv, fAdd, fLit]
    have h := Nat.choose_mul_succ_eq (k + 1 + m) m
    rw [show k + 1 + m + 1 - m = k + 2 by omega] at h
    have h2 : ((k + 1 + m).choose m : K) * ((k : K) + 1 + m + 1) = ((k + 1 + m + 1).choose m : K) * ((k : K) + 2) := by exact_mod_cast h
    rw [show k + 1 + 1 + m = k + 1 + m + 1 by ring]
    have : ((k : K) + 2) ≠ 0 := by positivity
    push_cast
    field_simp
    linear_combination h2

theorem laguerreRef_zero (n m : ℕ) : laguerreRef n m (0 : K) = ((n + m).choose m : K) := by
  unfold laguerreRef
  rw [Finset.sum_eq_single 0]
  · simp [← Nat.choose_symm_add]
  · intro i _ hi; simp [hi]
  · simp

/-- **C106** (exact arithmetic) For `n <= 1`, for `m = 0` at `x = 0`, and for `x >= 2 (m + 1) + 4 n`, `assoc_laguerre(n, m, x)` is the
associated Laguerre polynomial. -/
theorem C106_assoc_partial [FF K] [ExactFF K] (f : ℕ → K → K → Out K) (n m : ℕ) (x : K) (hx : 0 ≤ x)
    (h : n ≤ 1 ∨ (m = 0 ∧ x = 0) ∨ 2 * ((m : K) + 1) + 4 * (n : K) ≤ x) : assocLaguerre f n m x = .ok (laguerreRef n m x) := by
  unfold assocLaguerre
  simp only [fLt, fNan, fLit, fAdd, fSub, fMul, fNeg]
  rw [if_neg (by simpa using hx)]
  split
  · rename_i h0; rw [← h0]; simp [laguerreRef, Out.pure_eq]
  split
  · rename_i h1; rw [← h1]; simp [laguerreRef, Finset.sum_range_succ, Out.pure_eq, Nat.add_comm 1 m]; ring
  rename_i h0 h1
  rcases h with h | ⟨rfl, rfl⟩ | h
  · omega
  · rw [if_pos (by rw [ExactFF.isEqual_iff]; simp), laguerreRef_zero]
    have := laguerreZero_eq (K := K) 0 (n - 2)
    simp at this
    simp [Out.pure_eq, this]
  · have hm : (0 : K) ≤ m := Nat.cast_nonneg m
    have hn : (0 : K) ≤ n := Nat.cast_nonneg n
    have hx0 : 0 < x := by linarith
    rw [if_neg (by rw [ExactFF.isEqual_iff]; push_cast; exact hx0.ne), if_neg (by push_cast; simp; intro _; linarith),
      if_neg (by push_cast; simp; intro _; linarith)]
    push_cast
    rw [hyperg_eq n m x hx0]; rfl

/-- **C106** (exact arithmetic) A negative argument gives `nan`. -/
theorem C106_negative [FF K] (f : ℕ → K → K → Out K) (n m : ℕ) (x : K) (hx : x < 0) : assocLaguerre f n m x = .ok FF.nan := by
  unfold assocLaguerre
  simp only [fLt, fNan, fLit]
  rw [if_pos (by simpa using hx)]; rfl

/-- **C106, negation.** At `x = 0` the loop omits the last factor: for every `n >= 2` and `m >= 1` the result is the value of the
polynomial of degree `n - 1`, which is too small. -/
theorem C106_false_zero [FF K] [ExactFF K] (f : ℕ → K → K → Out K) (n m : ℕ) (hn : 2 ≤ n) (hm : 1 ≤ m) :
    ∃ y, assocLaguerre f n m (0 : K) = .ok y ∧ y = laguerreRef (n - 1) m 0 ∧ y < laguerreRef n m 0 := by
  refine ⟨((n - 1 + m).choose m : K), ?_, ?_, ?_⟩
  · unfold assocLaguerre
    simp only [fLt, fNan, fLit, fAdd, fSub, fMul, fNeg]
    rw [if_neg (by simp), if_neg (by omega), if_neg (by omega), if_pos (by rw [ExactFF.isEqual_iff]; simp)]
    have := laguerreZero_eq (K := K) m (n - 2)
    rw [show n - 2 + 1 = n - 1 by omega] at this
    push_cast
    rw [this]; rfl
  · rw [laguerreRef_zero]
  · rw [laguerreRef_zero]
    obtain ⟨k, rfl⟩ : ∃ k, m = k + 1 := ⟨m - 1, by omega⟩
    obtain ⟨j, rfl⟩ : ∃ j, n = j + 1 := ⟨n - 1, by omega⟩
    rw [show j + 1 - 1 + (k + 1) = j + k + 1 by omega, show j + 1 + (k + 1) = j + k + 1 + 1 by ring, Nat.choose_succ_succ' (j + k + 1)]
    have : 0 < (j + k + 1).choose k := Nat.choose_pos (by omega)
    exact_mod_cast (by omega : (j + k + 1).choose (k + 1) < (j + k + 1).choose k + (j + k + 1).choose (k + 1))

/-- Cases of the theorems above: `L_2^1(30) = 363`, in the range of the sum; and `L_3^2(0) = 10`, where the result is 6. -/
example : laguerreRef 2 1 (30 : ℚ) = 363 ∧ 2 * (((1 : ℕ) : ℚ) + 1) + 4 * ((2 : ℕ) : ℚ) ≤ 30 ∧ laguerreRef 3 2 (0 : ℚ) = 10 ∧ laguerreRef 2 2 (0 : ℚ) = 6 := by
  decide +kernel

/-! ### Binary32 -/

open F32

/-- **C106, negation.** In binary32 the asymptotic formula gives the wrong sign: `laguerre(3, 2)` is 0.4497 instead of -1/3 and
`assoc_laguerre(3, 2, 1)` is -2.868 instead of 7/3. -/
theorem C106_false_sign : laguerreRef 3 0 (2 : ℚ) = -1 / 3 ∧ laguerre polyLaguerreLargeN 3 (lit 2) = .ok 0x3ee64603#32 ∧
    0.4497 < val 0x3ee64603#32 ∧ laguerreRef 3 2 (1 : ℚ) = 7 / 3 ∧ assocLaguerre polyLaguerreLargeN 3 2 (lit 1) = .ok 0xc0379674#32 ∧
    val 0xc0379674#32 < -2.868 := by decide +kernel

/-- Positive infinity or NaN (not a definition of the repository). -/
def InfNaN (a : BitVec 32) : Prop := a = inf ∨ IsNaN a

theorem infNaN_add {a : BitVec 32} (h : InfNaN a) (b : BitVec 32) : InfNaN (F32.add a b) := by
  unfold InfNaN F32.add
  split
  · exact Or.inr (by decide)
  rename_i hn
  rcases h with rfl | h
  · rw [if_pos (by decide)]
    split
    · exact Or.inr (by decide)
    · exact Or.inl rfl
  · exact absurd (Or.inl h) hn

theorem infNaN_not_finite {a : BitVec 32} (h : InfNaN a) : ¬ F32.Finite a := by
  rcases h with rfl | h
  · decide
  · intro hf; unfold F32.Finite at hf; unfold IsNaN at h; omega

/-- A product with an infinite or NaN factor is not finite. -/
theorem mul_not_finite {a : BitVec 32} (h : ¬ F32.Finite a) (b : BitVec 32) : ¬ F32.Finite (F32.mul a b) := by
  have q : ¬ F32.Finite qnan := by decide
  have p : ∀ s, ¬ F32.Finite (pack s 2139095040) := by decide
  unfold F32.mul
  split
  · exact q
  rename_i hn
  have hi : IsInf a := by
    rw [not_or] at hn
    rcases (trichotomy hn.1).resolve_left h with rfl | rfl <;> decide
  rw [if_pos (Or.inl hi)]
  split
  · exact q
  · exact p _

/-- The exponential of positive infinity or NaN is not a finite number. -/
theorem exp_infNaN {a : BitVec 32} (h : InfNaN a) : ∀ r, exp a = .ok r → ¬ F32.Finite r := by
  intro r hr
  rcases h with rfl | h
  · have : exp inf = .ok inf := by decide +kernel
    rw [this] at hr; cases hr; decide
  · have e : F32.mul FFP_LOG2E a = qnan := by unfold F32.mul; rw [if_pos (Or.inr h)]
    have : exp2 qnan = .ub := by decide +kernel
    unfold exp at hr
    rw [e, this] at hr; cases hr

theorem lit_nat (k : ℕ) (h : k < 65536) : F32.Finite (lit (k : ℚ)) ∧ val (lit (k : ℚ)) = k := by
  have := lit_int (k := (k : ℤ)) (by rw [abs_of_nonneg (by positivity)]; omega)
  exact_mod_cast this

/-- **C106, negation.** For `n + m >= 171`, inside the documented range `n, m < 128`, no argument between `FLT_MIN` and
`2 (m + 1) + 4 n` has a finite result: `lgamma` is infinite. -/
theorem C106_false_large (n m : ℕ) (x : BitVec 32) (hn : n < 128) (hm : m < 128) (h : 171 ≤ n + m) (hx : F32.Finite x)
    (h1 : val fltMin < val x) (h2 : val x < 2 * ((m : ℚ) + 1) + 4 * (n : ℚ)) :
    ∀ y, assocLaguerre polyLaguerreLargeN n m x = .ok y → ¬ F32.Finite y := by
  have c : F32.Finite (lit (-1)) ∧ val (lit (-1)) = -1 ∧ F32.Finite (lit 4) ∧ val (lit 4) = 4 ∧ F32.Finite (lit 2) ∧ val (lit 2) = 2 ∧
    0 < val fltMin := by decide +kernel
  obtain ⟨fm, vm⟩ := lit_nat m (by omega)
  obtain ⟨fn, vn⟩ := lit_nat n (by omega)
  obtain ⟨fb, vb⟩ := add_exact fm c_one.1 (lit_nat (m + 1) (by omega)).1 (by rw [vm, c_one.2, (lit_nat (m + 1) (by omega)).2]; push_cast; rfl)
  rw [(lit_nat (m + 1) (by omega)).2] at vb
  obtain ⟨fg, vg⟩ := add_exact fb fn (lit_nat (m + 1 + n) (by omega)).1 (by rw [vb, vn, (lit_nat (m + 1 + n) (by omega)).2]; push_cast; rfl)
  rw [(lit_nat (m + 1 + n) (by omega)).2] at vg
  obtain ⟨fp, vp⟩ := mul_exact c.2.2.2.2.1 fb (lit_nat (2 * (m + 1)) (by omega)).1 (by rw [vb, c.2.2.2.2.2.1, (lit_nat (2 * (m + 1)) (by omega)).2]; push_cast; rfl)
  rw [(lit_nat (2 * (m + 1)) (by omega)).2] at vp
  obtain ⟨fq, vq⟩ := mul_exact c.2.2.1 fn (lit_nat (4 * n) (by omega)).1 (by rw [vn, c.2.2.2.1, (lit_nat (4 * n) (by omega)).2]; push_cast; rfl)
  rw [(lit_nat (4 * n) (by omega)).2] at vq
  obtain ⟨fs, vs⟩ := add_exact fp fq (lit_nat (2 * (m + 1) + 4 * n) (by omega)).1 (by rw [vp, vq, (lit_nat (2 * (m + 1) + 4 * n) (by omega)).2]; push_cast; rfl)
  rw [(lit_nat (2 * (m + 1) + 4 * n) (by omega)).2] at vs
  have hlg : lgamma (F32.add (F32.add (lit (m : ℚ)) (lit 1)) (lit (n : ℚ))) = inf :=
    C101_false_large _ fg (lt_of_lt_of_le (by decide +kernel : val (lit 171.624) < ((172 : ℕ) : ℚ)) (by rw [vg]; exact_mod_cast (by omega : 172 ≤ m + 1 + n)))
  have hval : assocLaguerre polyLaguerreLargeN n m x = polyLaguerreLargeN n (lit (m : ℚ)) x := by
    unfold assocLaguerre
    have e1 : (F32.lt x (lit 0) || decide (IsNaN x)) = false := by
      rw [lt_fin hx c_zero.1, c_zero.2]
      simp [hx.notNaN, (c.2.2.2.2.2.2.trans h1).le]
    have e2 : ¬ Ffmath.isEqual (lit 0) x = true := by
      intro h'
      have := (C88_iff _ _ c_zero.1 hx).1 h'
      rw [c_zero.2, zero_sub, abs_neg, abs_of_pos (c.2.2.2.2.2.2.trans h1), ← val_fltMin] at this
      exact absurd h1 (not_lt.2 this)
    have e3 : (F32.lt (lit (-1)) (lit (m : ℚ)) &&
        F32.lt x (F32.add (F32.mul (lit 2) (F32.add (lit (m : ℚ)) (lit 1))) (F32.mul (lit 4) (lit (n : ℚ))))) = true := by
      rw [lt_fin c.1 fm, lt_fin hx fs, vs, vm, c.2.1]
      have : (0 : ℚ) ≤ m := Nat.cast_nonneg m
      simp only [Bool.and_eq_true, decide_eq_true_eq]
      exact ⟨by linarith, by push_cast; exact h2⟩
    change (if (F32.lt x (lit 0) || decide (IsNaN x)) = true then pure nan else if 0 = n then _ else if 1 = n then _ else
      if Ffmath.isEqual (lit 0) x = true then _ else if (F32.lt (lit (-1)) (lit (m : ℚ)) &&
        F32.lt x (F32.add (F32.mul (lit 2) (F32.add (lit (m : ℚ)) (lit 1))) (F32.mul (lit 4) (lit (n : ℚ))))) = true then _ else _) = _
    rw [e1, if_neg (by simp), if_neg (by omega), if_neg (by omega), if_neg e2, if_pos e3]
    rfl
  intro y hy
  rw [hval] at hy
  unfold polyLaguerreLargeN at hy
  simp only [hlg] at hy
  rw [Out.bind_eq_ok] at hy
  obtain ⟨v, hv, hy⟩ := hy
  have := exp_infNaN (infNaN_add (infNaN_add (infNaN_add (infNaN_add (Or.inl rfl) _) _) _) _) v hv
  rw [Out.pure_eq] at hy
  cases hy
  exact mul_not_finite this _

/-- For example `L_100^100(100)`, about 5.1e28, is infinite. -/
theorem C106_false_overflow : assocLaguerre polyLaguerreLargeN 100 100 (lit 100) = .ok inf ∧ laguerreRef 100 100 (100 : ℚ) < 5.2e28 ∧
    0 < laguerreRef 100 100 (100 : ℚ) := by decide +kernel

end Verif.Ffmath
