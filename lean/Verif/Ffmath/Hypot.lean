import Verif.Ffmath.Ahyper

/-!
# `hypot` (C93)

IEEE binary32 arithmetic; `rexp` and `ldexp` are exact (C34) as long as no exponent leaves the range of normal numbers.
-/

namespace Verif.Ffmath

open Verif F32

theorem toInt_ofInt_small {e : Int} (h1 : -1000 ≤ e) (h2 : e ≤ 1000) : (BitVec.ofInt 32 e).toInt = e := by
  rw [BitVec.toInt_ofInt, Int.bmod_eq_of_le] <;> norm_num <;> omega

theorem rexp_range (x : BitVec 32) : -126 ≤ (rexp x).2 ∧ (rexp x).2 ≤ 129 := by
  have h := (rexp_pat x).2.2
  have hm := mag_lt x
  have : expo x < 256 := by unfold expo; omega
  omega

/-- `ldexp` with a small exponent is defined. -/
theorem ldexp_defined (x : BitVec 32) {e : Int} (h1 : -1000 ≤ e) (h2 : e ≤ 1000) : ∃ r, ldexp x (BitVec.ofInt 32 e) = .ok r := by
  have hm := mag_lt x
  have he : expo x < 256 := by unfold expo; omega
  obtain ⟨r, h, -⟩ := ldexp_pat x (BitVec.ofInt 32 e) (by rw [toInt_ofInt_small h1 h2]; omega)
  exact ⟨r, h⟩

/-- The computation of `hypot` for finite operands, in the order in which they are used. Not a definition of the
repository; `/repo/src/ffmath.cpp` lines 896-899. -/
def hypotAB (a b : BitVec 32) : Out (BitVec 32) := do
  let bn ← ldexp b (BitVec.ofInt 32 (-(rexp a).2))
  ldexp (sqrt (F32.add (F32.mul (rexp a).1 (rexp a).1) (F32.mul bn bn))) (BitVec.ofInt 32 (rexp a).2)

theorem hypotAB_defined (a b : BitVec 32) : ∃ r, hypotAB a b = .ok r := by
  obtain ⟨h1, h2⟩ := rexp_range a
  obtain ⟨bn, hb⟩ := ldexp_defined b (e := -(rexp a).2) (by omega) (by omega)
  unfold hypotAB
  rw [hb]
  exact ldexp_defined _ (by omega) (by omega)

theorem class_lt (x : BitVec 32) : (classify x).toNat < Class.infinite.toNat ↔ Finite x := by
  obtain ⟨c1, c2, c3, c4, c5⟩ := C31_classify x
  cases h : classify x with
  | zero => simpa [Class.toNat] using (c1.1 h).1
  | subnormal => simpa [Class.toNat] using (c2.1 h).1
  | normal => simpa [Class.toNat] using (c3.1 h).1
  | infinite => simpa [Class.toNat] using fun hf : Finite x => hf.notInf (c4.1 h)
  | nan => simpa [Class.toNat] using fun hf : Finite x => hf.notNaN (c5.1 h)

theorem hypot_fin {x y : BitVec 32} (hx : Finite x) (hy : Finite y) :
    hypot x y = if F32.le y x then hypotAB x y else hypotAB y x := by
  unfold hypot hypotAB
  rw [if_pos ⟨(class_lt x).2 hx, (class_lt y).2 hy⟩]
  by_cases h : F32.le y x = true
  · simp only [h, if_true]
  · simp only [h, if_false, Bool.false_eq_true]

/-- **C93** (part) `hypot` is defined for all arguments. -/
theorem C93_defined (x y : BitVec 32) : ∃ r, hypot x y = .ok r := by
  by_cases h : Finite x ∧ Finite y
  · rw [hypot_fin h.1 h.2]
    split
    · exact hypotAB_defined _ _
    · exact hypotAB_defined _ _
  · unfold hypot
    rw [if_neg (by rw [class_lt, class_lt]; exact h)]
    exact ⟨_, rfl⟩

/-- **C93** (part) An infinite operand gives infinity, whatever the other one is; otherwise a NaN operand gives a NaN. -/
theorem C93_special (x y : BitVec 32) : (IsInf x ∨ IsInf y → hypot x y = .ok inf) ∧
    (¬ (IsInf x ∨ IsInf y) → IsNaN x ∨ IsNaN y → ∃ r, hypot x y = .ok r ∧ IsNaN r) := by
  have ci := fun z => (C31_classify z).2.2.2.1
  constructor
  · intro h
    unfold hypot
    rw [if_neg, if_pos]
    · rfl
    · rcases h with h | h
      · exact .inl ((ci x).2 h).symm
      · exact .inr ((ci y).2 h).symm
    · rw [class_lt, class_lt]
      rintro ⟨h1, h2⟩
      rcases h with h | h
      · exact h1.notInf h
      · exact h2.notInf h
  · intro h hn
    refine ⟨nan, ?_, by decide +kernel⟩
    unfold hypot
    rw [if_neg, if_neg]
    · rfl
    · rintro (hc | hc)
      · exact h (.inl ((ci x).1 hc.symm))
      · exact h (.inr ((ci y).1 hc.symm))
    · rw [class_lt, class_lt]
      rintro ⟨h1, h2⟩
      rcases hn with h | h
      · exact h1.notNaN h
      · exact h2.notNaN h

theorem eq_of_val_ne {a b : BitVec 32} (h : val a = val b) (h0 : val a ≠ 0) : a = b := by
  have hz : val (lit 0) = 0 ∧ key (lit 0) = 0 := by decide +kernel
  rcases lt_or_gt_of_ne h0 with hl | hl
  · have : negate a = negate b := by
      refine eq_of_val_pos (by rw [val_negate, val_negate, h]) ?_
      rw [← hz.2, key_lt_iff, val_negate, hz.1, ← h]; linarith
    rw [← negate_negate a, this, negate_negate]
  · refine eq_of_val_pos h ?_
    rw [← hz.2, key_lt_iff, hz.1, ← h]; exact hl

/-- **C93** (part) `hypot` is symmetric, bit for bit. -/
theorem C93_comm (x y : BitVec 32) : hypot x y = hypot y x := by
  by_cases h : Finite x ∧ Finite y
  · rw [hypot_fin h.1 h.2, hypot_fin h.2 h.1, le_fin h.1 h.2, le_fin h.2 h.1]
    rcases lt_trichotomy (val x) (val y) with hl | he | hl
    · rw [if_neg (by simpa using hl), if_pos (by simpa using hl.le)]
    · rw [if_pos (by simpa using he.ge), if_pos (by simpa using he.le)]
      by_cases h0 : val x = 0
      · rcases zero_bits h0 with e1 | e1 <;> rcases zero_bits (he ▸ h0) with e2 | e2 <;> rw [e1, e2] <;> decide +kernel
      · rw [eq_of_val_ne he h0]
    · rw [if_pos (by simpa using hl.le), if_neg (by simpa using hl)]
  · have h' : ¬ (Finite y ∧ Finite x) := fun hc => h hc.symm
    have hc : ¬ ((classify x).toNat < Class.infinite.toNat ∧ (classify y).toNat < Class.infinite.toNat) := by
      rw [class_lt, class_lt]; exact h
    have hc' : ¬ ((classify y).toNat < Class.infinite.toNat ∧ (classify x).toNat < Class.infinite.toNat) := by
      rw [class_lt, class_lt]; exact h'
    unfold hypot
    simp only [hc, hc', if_false]
    simp only [or_comm]

/-- The rounded sum of two rounded squares. -/
theorem sum_near {A B : BitVec 32} {P Q α β : ℚ} (fA : Finite A) (fB : Finite B) (p1 : 1 / 4 ≤ P) (p2 : P ≤ 1) (q1 : 0 ≤ Q)
    (q2 : Q ≤ 2 ^ (100 : ℤ)) (al : |α| ≤ 1 / 16777216) (be : |β| ≤ 1 / 16777216) (vA : val A = P * (1 + α)) (vB : val B = Q * (1 + β)) :
    Finite (F32.add A B) ∧ 1 / 16 ≤ val (F32.add A B) ∧ |val (F32.add A B) - (P + Q)| ≤ 1.21e-7 * (P + Q) := by
  obtain ⟨al1, al2⟩ := _root_.abs_le.1 al
  obtain ⟨be1, be2⟩ := _root_.abs_le.1 be
  have A1 : 1 / 8 ≤ val A := by rw [vA]; nlinarith
  have A2 : val A ≤ 2 := by rw [vA]; nlinarith
  have B1 : 0 ≤ val B := by rw [vB]; apply mul_nonneg q1; linarith
  have B2 : val B ≤ 2 ^ (100 : ℤ) * 2 := by
    rw [vB]; exact mul_le_mul q2 (by linarith) (by linarith) (by positivity)
  obtain ⟨fS, σ, si, vS⟩ := add_eps fA fB (by rw [abs_of_nonneg (by linarith)]; exact le_trans (by norm_num) (by linarith : (1 / 8 : ℚ) ≤ _))
    (by rw [abs_of_nonneg (by linarith)]; norm_num at B2 ⊢; linarith)
  obtain ⟨si1, si2⟩ := _root_.abs_le.1 si
  refine ⟨fS, ?_, ?_⟩
  · rw [vS]
    have : (1 / 8 : ℚ) * (1 / 2) ≤ (val A + val B) * (1 + σ) := mul_le_mul (by linarith) (by linarith) (by norm_num) (by linarith)
    linarith
  · rw [vS, vA, vB]
    clear A1 A2 B1 B2 vA vB vS q2 fA fB fS
    have k1 : |(1 + α) * (1 + σ) - 1| ≤ 1.2e-7 := by rw [_root_.abs_le]; constructor <;> norm_num <;> nlinarith
    have k2 : |(1 + β) * (1 + σ) - 1| ≤ 1.2e-7 := by rw [_root_.abs_le]; constructor <;> norm_num <;> nlinarith
    rw [show (P * (1 + α) + Q * (1 + β)) * (1 + σ) - (P + Q) = P * ((1 + α) * (1 + σ) - 1) + Q * ((1 + β) * (1 + σ) - 1) by ring]
    refine (abs_add_le _ _).trans ?_
    rw [abs_mul, abs_mul, abs_of_nonneg (by linarith : 0 ≤ P), abs_of_nonneg q1]
    have m1 := mul_le_mul_of_nonneg_left k1 (by linarith : 0 ≤ P)
    have m2 := mul_le_mul_of_nonneg_left k2 q1
    generalize P * |(1 + α) * (1 + σ) - 1| = U at *
    generalize Q * |(1 + β) * (1 + σ) - 1| = W at *
    norm_num at m1 m2 ⊢; linarith

theorem hypotAB_near {a b : BitVec 32} (ha : Finite a) (hb : Finite b) (na : 2 ^ (-126 : ℤ) ≤ |val a|) (nb : 2 ^ (-126 : ℤ) ≤ |val b|)
    (hab : |val a| ≤ 2 ^ (50 : ℤ) * |val b|) (hba : |val b| ≤ 2 ^ (50 : ℤ) * |val a|)
    (hr : Real.sqrt ((val a : ℝ) ^ 2 + (val b : ℝ) ^ 2) ≤ 3.4e38) :
    ∃ r, hypotAB a b = .ok r ∧ Finite r ∧
      |(val r : ℝ) - Real.sqrt ((val a : ℝ) ^ 2 + (val b : ℝ) ^ 2)| ≤ 2e-6 * Real.sqrt ((val a : ℝ) ^ 2 + (val b : ℝ) ^ 2) := by
  obtain ⟨fan, a1, a2, a3⟩ := C34_rexp_partial a ha na
  obtain ⟨e1, e2⟩ := rexp_range a
  unfold hypotAB
  generalize (rexp a).1 = an at *
  generalize (rexp a).2 = e at *
  have t1 : (BitVec.ofInt 32 (-e)).toInt = -e := toInt_ofInt_small (by omega) (by omega)
  have t2 : (BitVec.ofInt 32 e).toInt = e := toInt_ofInt_small (by omega) (by omega)
  have hp : (0 : ℚ) < 2 ^ e := by positivity
  have hpn : (2 : ℚ) ^ (-e) * 2 ^ e = 1 := by rw [← zpow_add₀ (by norm_num)]; simp
  have hpn0 : (0 : ℚ) < 2 ^ (-e) := by positivity
  have ea : |val a| * 2 ^ (-e) = |val an| := by
    rw [a3, abs_mul, abs_of_pos hp, mul_assoc, _root_.mul_comm (2 ^ e), hpn, mul_one]
  have eb : |val b * 2 ^ (-e)| = |val b| * 2 ^ (-e) := by rw [abs_mul, abs_of_pos hpn0]
  have b1 : 2 ^ (-51 : ℤ) ≤ |val b| * 2 ^ (-e) := by
    have := mul_le_mul_of_nonneg_right hab hpn0.le
    rw [ea] at this
    norm_num at this a1 ⊢; linarith
  have b2 : |val b| * 2 ^ (-e) ≤ 2 ^ (50 : ℤ) := by
    have := mul_le_mul_of_nonneg_right hba hpn0.le
    rw [mul_assoc, ea] at this
    norm_num at this a1 ⊢; linarith
  obtain ⟨bn, hbn, fbn, vbn⟩ := C34_ldexp_partial b (BitVec.ofInt 32 (-e)) hb nb
    (by rw [t1, eb]; exact le_trans (by norm_num) b1) (by rw [t1, eb]; exact lt_of_le_of_lt b2 (by norm_num))
  rw [t1] at vbn
  rw [hbn]
  show ∃ r, ldexp (sqrt (F32.add (F32.mul an an) (F32.mul bn bn))) (BitVec.ofInt 32 e) = .ok r ∧ _
  have vb : val b = val bn * 2 ^ e := by rw [vbn, mul_assoc, hpn, mul_one]
  have abn : |val bn| = |val b| * 2 ^ (-e) := by rw [vbn, eb]
  rw [← abn] at b1 b2
  clear hab hba ea eb abn vbn hbn t1
  have sa : val an * val an = |val an| * |val an| := (abs_mul_abs_self _).symm
  have sb : val bn * val bn = |val bn| * |val bn| := (abs_mul_abs_self _).symm
  have qa1 : 1 / 4 ≤ val an * val an := by rw [sa]; nlinarith
  have qa2 : val an * val an ≤ 1 := by rw [sa]; nlinarith [abs_nonneg (val an)]
  have qb1 : 2 ^ (-102 : ℤ) ≤ val bn * val bn := by
    rw [sb]; refine le_trans (by norm_num) (mul_le_mul b1 b1 (by positivity) (abs_nonneg _))
  have qb2 : val bn * val bn ≤ 2 ^ (100 : ℤ) := by
    rw [sb]; refine le_trans (mul_le_mul b2 b2 (abs_nonneg _) (by positivity)) (by norm_num)
  obtain ⟨fA, α, al, vA⟩ := mul_eps fan fan (by rw [abs_of_nonneg (by linarith)]; exact le_trans (by norm_num) qa1)
    (by rw [abs_of_nonneg (by linarith)]; exact qa2.trans (by norm_num))
  obtain ⟨fB, β, be, vB⟩ := mul_eps fbn fbn (by rw [abs_of_nonneg (le_trans (by norm_num) qb1)]; exact le_trans (by norm_num) qb1)
    (by rw [abs_of_nonneg (le_trans (by norm_num) qb1)]; exact qb2.trans (by norm_num))
  obtain ⟨al1, al2⟩ := _root_.abs_le.1 al
  obtain ⟨be1, be2⟩ := _root_.abs_le.1 be
  have qb0 : 0 < val bn * val bn := lt_of_lt_of_le (by norm_num) qb1
  obtain ⟨fS, S1, hT⟩ : Finite (F32.add (F32.mul an an) (F32.mul bn bn)) ∧ 1 / 16 ≤ val (F32.add (F32.mul an an) (F32.mul bn bn)) ∧
      |val (F32.add (F32.mul an an) (F32.mul bn bn)) - (val an ^ 2 + val bn ^ 2)| ≤ 1.21e-7 * (val an ^ 2 + val bn ^ 2) := by
    rw [sq, sq]
    exact sum_near fA fB qa1 qa2 qb0.le qb2 al be vA vB
  have hTR : |(val (F32.add (F32.mul an an) (F32.mul bn bn)) : ℝ) - ((val an : ℝ) ^ 2 + (val bn : ℝ) ^ 2)| ≤
      1.21e-7 * ((val an : ℝ) ^ 2 + (val bn : ℝ) ^ 2) := by
    have : ((|val (F32.add (F32.mul an an) (F32.mul bn bn)) - (val an ^ 2 + val bn ^ 2)| : ℚ) : ℝ) ≤
      ((1.21e-7 * (val an ^ 2 + val bn ^ 2) : ℚ) : ℝ) := by exact_mod_cast hT
    push_cast at this; exact this
  have hpos : (0 : ℝ) < (val an : ℝ) ^ 2 + (val bn : ℝ) ^ 2 := by
    have : (0 : ℚ) < val an ^ 2 + val bn ^ 2 := by nlinarith
    exact_mod_cast this
  have h14 : (1 / 2 : ℝ) ≤ Real.sqrt ((val an : ℝ) ^ 2 + (val bn : ℝ) ^ 2) := by
    apply Real.le_sqrt_of_sq_le
    have : (1 / 2 : ℚ) ^ 2 ≤ val an ^ 2 + val bn ^ 2 := by nlinarith
    have : (((1 / 2 : ℚ) ^ 2 : ℚ) : ℝ) ≤ ((val an ^ 2 + val bn ^ 2 : ℚ) : ℝ) := Rat.cast_le.2 this
    push_cast at this; exact this
  obtain ⟨fs, es⟩ := sqrt_rel fS (le_trans (by norm_num) S1) hpos hTR (by norm_num)
  have scale : Real.sqrt ((val a : ℝ) ^ 2 + (val b : ℝ) ^ 2) = Real.sqrt ((val an : ℝ) ^ 2 + (val bn : ℝ) ^ 2) * 2 ^ e := by
    rw [a3, vb]
    push_cast
    rw [show ((val an : ℝ) * 2 ^ e) ^ 2 + ((val bn : ℝ) * 2 ^ e) ^ 2 = ((val an : ℝ) ^ 2 + (val bn : ℝ) ^ 2) * (2 ^ e) ^ 2 by ring,
      Real.sqrt_mul hpos.le, Real.sqrt_sq (by positivity)]
  have low : 1.4 * 2 ^ (-126 : ℤ) ≤ Real.sqrt ((val a : ℝ) ^ 2 + (val b : ℝ) ^ 2) := by
    apply Real.le_sqrt_of_sq_le
    have ra : (2 : ℚ) ^ (-126 : ℤ) * 2 ^ (-126 : ℤ) ≤ val a ^ 2 := by rw [← sq_abs, sq]; exact mul_le_mul na na (by positivity) (abs_nonneg _)
    have rb : (2 : ℚ) ^ (-126 : ℤ) * 2 ^ (-126 : ℤ) ≤ val b ^ 2 := by rw [← sq_abs, sq]; exact mul_le_mul nb nb (by positivity) (abs_nonneg _)
    have raR : (2 : ℝ) ^ (-126 : ℤ) * 2 ^ (-126 : ℤ) ≤ (val a : ℝ) ^ 2 := by
      have := (Rat.cast_le (K := ℝ)).2 ra
      push_cast at this; exact this
    have rbR : (2 : ℝ) ^ (-126 : ℤ) * 2 ^ (-126 : ℤ) ≤ (val b : ℝ) ^ 2 := by
      have := (Rat.cast_le (K := ℝ)).2 rb
      push_cast at this; exact this
    generalize (2 : ℝ) ^ (-126 : ℤ) = M at *
    nlinarith
  rw [scale] at low hr ⊢
  generalize Real.sqrt ((val an : ℝ) ^ 2 + (val bn : ℝ) ^ 2) = H at *
  generalize sqrt (F32.add (F32.mul an an) (F32.mul bn bn)) = s at *
  have hpR : (0 : ℝ) < 2 ^ e := by positivity
  have es2 : |(val s : ℝ) * 2 ^ e - H * 2 ^ e| ≤ 1.9e-6 * (H * 2 ^ e) := by
    rw [← sub_mul, abs_mul, abs_of_pos hpR, ← mul_assoc]
    gcongr
    refine es.trans ?_
    gcongr; norm_num
  obtain ⟨g1, g2⟩ := _root_.abs_le.1 es2
  obtain ⟨g3, -⟩ := _root_.abs_le.1 es
  have s0 : (0 : ℝ) < (val s : ℝ) := by norm_num at g3 h14; linarith
  have s0Q : 0 < val s := by exact_mod_cast s0
  have low2 : 1.4e0 * (2 : ℝ) ^ (-126 : ℤ) ≤ H * 2 ^ e := by norm_num at low ⊢; exact low
  obtain ⟨r, hr1, fr, vr⟩ := C34_ldexp_partial s (BitVec.ofInt 32 e) fs
    (by
      rw [abs_of_pos s0Q]
      have : (((2 : ℚ) ^ (-126 : ℤ) : ℚ) : ℝ) ≤ (val s : ℝ) := by
        refine le_trans (b := (1 / 4 : ℝ)) (by norm_num) ?_
        norm_num at g3 h14; linarith
      exact_mod_cast this)
    (by
      rw [t2, abs_of_pos (mul_pos s0Q hp)]
      have : (((2 : ℚ) ^ (-126 : ℤ) : ℚ) : ℝ) ≤ ((val s * 2 ^ e : ℚ) : ℝ) := by
        push_cast
        generalize (val s : ℝ) * 2 ^ e = Z at *
        generalize H * 2 ^ e = Y at *
        have hm : (0 : ℝ) < 2 ^ (-126 : ℤ) := by positivity
        generalize (2 : ℝ) ^ (-126 : ℤ) = M at *
        norm_num at g1 low2; linarith
      exact_mod_cast this)
    (by
      rw [t2, abs_of_pos (mul_pos s0Q hp)]
      have : ((val s * 2 ^ e : ℚ) : ℝ) < (((2 : ℚ) ^ (128 : ℤ) : ℚ) : ℝ) := by
        push_cast
        generalize (val s : ℝ) * 2 ^ e = Z at *
        generalize H * 2 ^ e = Y at *
        norm_num at g2 hr ⊢; linarith
      exact_mod_cast this)
  refine ⟨r, hr1, fr, ?_⟩
  rw [vr, t2]
  push_cast
  refine es2.trans ?_
  gcongr
  norm_num

/-- **C93** (part) For normal operands whose magnitudes differ by a factor of at most `2^50`, and a representable result,
`hypot` is within a relative `2e-6` of the length of the vector; no intermediate result overflows or underflows. -/
theorem C93_accuracy_partial (x y : BitVec 32) (hx : Finite x) (hy : Finite y) (nx : 2 ^ (-126 : ℤ) ≤ |val x|)
    (ny : 2 ^ (-126 : ℤ) ≤ |val y|) (hxy : |val x| ≤ 2 ^ (50 : ℤ) * |val y|) (hyx : |val y| ≤ 2 ^ (50 : ℤ) * |val x|)
    (hr : Real.sqrt ((val x : ℝ) ^ 2 + (val y : ℝ) ^ 2) ≤ 3.4e38) :
    ∃ r, hypot x y = .ok r ∧ Finite r ∧
      |(val r : ℝ) - Real.sqrt ((val x : ℝ) ^ 2 + (val y : ℝ) ^ 2)| ≤ 2e-6 * Real.sqrt ((val x : ℝ) ^ 2 + (val y : ℝ) ^ 2) := by
  rw [hypot_fin hx hy]
  split
  · exact hypotAB_near hx hy nx ny hxy hyx hr
  · rw [_root_.add_comm] at hr ⊢
    exact hypotAB_near hy hx ny nx hyx hxy hr

/-- **C93** (negation) With a zero operand, or operands of very different magnitude, the exponent arithmetic of `ldexp` wraps
around: `hypot(1, 0)` is a subnormal, `hypot(0, 0)` is not zero, and `hypot(1e30, 1e-30)` is below one. -/
theorem C93_false : hypot (lit 1) (lit 0) = .ok 0x00400000#32 ∧ val 0x00400000#32 < 1e-38 ∧
    hypot (lit 0) (lit 0) = .ok 0x00350505#32 ∧ 0 < val 0x00350505#32 ∧
    ∃ r, hypot (lit 1e30) (lit 1e-30) = .ok r ∧ val r < 1 := by
  refine ⟨by decide +kernel, by decide +kernel, by decide +kernel, by decide +kernel, ?_⟩
  obtain ⟨r, h⟩ := C93_defined (lit 1e30) (lit 1e-30)
  refine ⟨r, h, ?_⟩
  have : (match hypot (lit 1e30) (lit 1e-30) with | .ok r => decide (val r < 1) | _ => false) = true := by decide +kernel
  rw [h] at this
  simpa using this

/-- A vector that meets the hypotheses, in the third quadrant. -/
example : Finite (lit (-3)) ∧ Finite (lit (-4)) ∧ 2 ^ (-126 : ℤ) ≤ |val (lit (-3))| ∧ |val (lit (-3))| ≤ 2 ^ (50 : ℤ) * |val (lit (-4))| ∧
    hypot (lit (-3)) (lit (-4)) = .ok (lit 5) := by decide +kernel

end Verif.Ffmath
