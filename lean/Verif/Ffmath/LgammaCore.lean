import Verif.Ffmath.LgammaReal

/-!
# The rational functions of `lgamma` (C152)

The rational functions of `/repo/src/ffmath.cpp` lines 1100-1182 with their coefficients rounded to binary32, compared with `log Γ`, and the
rounding errors of their evaluation.
-/

namespace Verif.Ffmath

open Verif.F32

/-- The numerator with the coefficients `lgP1` rounded to binary32, lowest first. Not a definition of the repository (checked by `lgN1_eq`). -/
def lgN1 : List ℚ := [14798467 / 2048, 6752637 / 256, 4926075 / 128, 7310655 / 256, 724459 / 64, 4691637 / 2048, 13225903 / 65536, 5185455 / 1048576, 0]
/-- The denominator with the coefficients `lgQ1` rounded to binary32, lowest first. Not a definition of the repository (checked by `lgD1_eq`). -/
def lgD1 : List ℚ := [8996389 / 1024, 9305927 / 256, 15772473 / 256, 7039117 / 128, 7075807 / 256, 7924487 / 1024, 9120419 / 8192, 8845017 / 131072, 1]
/-- The numerator with the coefficients `lgP2` rounded to binary32, lowest first. Not a definition of the repository (checked by `lgN2_eq`). -/
def lgN2 : List ℚ := [3074109, 10213323 / 2, 3338153, 4352819 / 4, 11826771 / 64, 15879105 / 1024, 8886909 / 16384, 10432509 / 2097152, 0]
/-- The denominator with the coefficients `lgQ2` rounded to binary32, lowest first. Not a definition of the repository (checked by `lgD2_eq`). -/
def lgD2 : List ℚ := [9533096, 17827366, 13467015, 5267964, 9093647 / 8, 1065523 / 8, 15902821 / 2048, 1499405 / 8192, 1]
/-- The numerator with the coefficients `lgP4` rounded to binary32, lowest first. Not a definition of the repository (checked by `lgN4_eq`). -/
def lgN4 : List ℚ := [560625156096, 492612583424, 170266574848, 29403789312, 2663432448, 121475560, 9707253 / 4, 7549451 / 512, 0]
/-- The denominator with the coefficients `lgQ4` rounded to binary32, lowest first. Not a definition of the repository (checked by `lgD4_eq`). -/
def lgD4 : List ℚ := [446315823104, 341747630080, 101680357376, 14886136832, 1120872064, 41356000, 10230217 / 16, 2755103 / 1024, -1]

theorem lgN1_eq : (lgP1.map fun c => val (lit c)).reverse ++ [0] = lgN1 := by decide +kernel
theorem lgD1_eq : (lgQ1.map fun c => val (lit c)).reverse ++ [1] = lgD1 := by decide +kernel
theorem lgN2_eq : (lgP2.map fun c => val (lit c)).reverse ++ [0] = lgN2 := by decide +kernel
theorem lgD2_eq : (lgQ2.map fun c => val (lit c)).reverse ++ [1] = lgD2 := by decide +kernel
theorem lgN4_eq : (lgP4.map fun c => val (lit c)).reverse ++ [0] = lgN4 := by decide +kernel
theorem lgD4_eq : (lgQ4.map fun c => val (lit c)).reverse ++ [-1] = lgD4 := by decide +kernel

/-! ## Comparison with `log Γ` -/

/-- Numerator of the second derivative of `p / q`. Not a definition of the repository. -/
def quoN (p q : List ℚ) : List ℚ := padd (padd (pmul (pder (pder p)) (pmul q q)) (psmul (-2) (pmul (pder p) (pmul q (pder q)))))
  (padd (psmul (-1) (pmul p (pmul q (pder (pder q))))) (psmul 2 (pmul p (pmul (pder q) (pder q)))))
/-- Denominator of the second derivative of `p / q`. Not a definition of the repository. -/
def quoD (q : List ℚ) : List ℚ := pmul q (pmul q q)

theorem quo_three {p q : List ℚ} {s e : ℚ} {K M : ℕ} {a b : ℤ} (hK : 0 < K) (hM : 0 < M) (hab : a < b)
    (hq : pposi (padd [-1] q) K M a b = true)
    (h1 : pposi (diffPoly s e 1 (quoN p q) (quoD q)) K M a b = true) (h2 : pposi (diffPoly s e (-1) (quoN p q) (quoD q)) K M a b = true)
    (has : 0 < (a : ℝ) / M + s) {x y w : ℝ} (hx : (a : ℝ) / M ≤ x) (hxy : x < y) (hyw : y < w) (hw : w ≤ (b : ℝ) / M) :
    |tri x y w fun z => peval p z / peval q z - Real.log (Real.Gamma (z + s))| ≤
      ((e : ℝ) + 1 / (42 * ((a : ℝ) / M + s + 6) ^ 7)) / 2 * ((w - y) * (y - x) * (w - x)) := by
  have pos : ∀ x ∈ Set.Icc ((a : ℝ) / M) (b / M), 0 < peval q x := fun x hx => by
    have := pposi_sound hq hK hM hab x hx.1 hx.2
    rw [peval_padd, peval_cons, peval_nil] at this
    push_cast at this
    linarith
  refine compare_three (f' := fun x => (peval (pder p) x * peval q x - peval p x * peval (pder q) x) / peval q x ^ 2)
    (f'' := fun x => peval (quoN p q) x / peval (quoD q) x) has ?_ ?_ ?_ hx hxy hyw hw
  · intro x hx
    exact (hasDerivAt_peval p x).div (hasDerivAt_peval q x) (pos x hx).ne'
  · intro x hx
    have q0 := pos x hx
    have h := (((hasDerivAt_peval (pder p) x).mul (hasDerivAt_peval q x)).sub ((hasDerivAt_peval p x).mul (hasDerivAt_peval (pder q) x))).div
      ((hasDerivAt_peval q x).pow 2) (pow_pos q0 2).ne'
    refine h.congr_deriv ?_
    simp only [quoN, quoD, peval_padd, peval_psmul, peval_pmul, Pi.mul_apply, Pi.sub_apply, Pi.pow_apply]
    generalize peval (pder (pder p)) x = u2
    generalize peval (pder (pder q)) x = q2
    generalize peval (pder p) x = u1
    generalize peval (pder q) x = q1
    generalize peval p x = u at *
    generalize peval q x = q at *
    push_cast
    field_simp
    ring
  · intro x hx
    have q0 := pos x hx
    exact second_close hK hM hab h1 h2 hx.1 hx.2 (by have := hx.1; linarith) (by simp only [quoD, peval_pmul]; positivity)

/-- Numerator of `z (d + z N / D)`. Not a definition of the repository. -/
def lgF (d : ℚ) (N D : List ℚ) : List ℚ := 0 :: padd (psmul d D) (0 :: N)

theorem lgF_eval {d : ℚ} {N D : List ℚ} {z : ℝ} (h : peval D z ≠ 0) : peval (lgF d N D) z / peval D z = z * (d + z * (peval N z / peval D z)) := by
  rw [lgF, peval_cons, peval_padd, peval_psmul, peval_cons]
  push_cast
  field_simp
  ring

/-- Numerator of `d + z N / D`. Not a definition of the repository. -/
def lgG (d : ℚ) (N D : List ℚ) : List ℚ := padd (psmul d D) (0 :: N)

theorem lgG_eval {d : ℚ} {N D : List ℚ} {z : ℝ} (h : peval D z ≠ 0) : peval (lgG d N D) z / peval D z = d + z * (peval N z / peval D z) := by
  rw [lgG, peval_padd, peval_psmul, peval_cons]
  push_cast
  field_simp
  ring

/-- The constants `d1`, `d2`, `d4` of `lgamma_positive` rounded to binary32 (`/repo/src/ffmath.cpp` lines 1068-1205). Not definitions of the
repository. -/
def lgd1 : ℚ := -1210509 / 2097152
@[inherit_doc lgd1] def lgd2 : ℚ := 886643 / 2097152
@[inherit_doc lgd1] def lgd4 : ℚ := 469699 / 262144

theorem lgA_pos : pposi (padd [-1] lgD1) (2 ^ 80 * 10000000) 128 (-41) 128 = true := by decide +kernel
theorem lgA_1 : pposi (diffPoly 1 1.2e-6 1 (quoN (lgF lgd1 lgN1 lgD1) lgD1) (quoD lgD1)) (2 ^ 80 * 10000000) 128 (-41) 128 = true := by decide +kernel
theorem lgA_2 : pposi (diffPoly 1 1.2e-6 (-1) (quoN (lgF lgd1 lgN1 lgD1) lgD1) (quoD lgD1)) (2 ^ 80 * 10000000) 128 (-41) 128 = true := by decide +kernel
theorem lgA0_pos : pposi (padd [-1] lgD1) (2 ^ 80 * 10000000) 1 0 1 = true := by decide +kernel
theorem lgA0_1 : pposi (diffPoly 1 1e-7 1 (quoN (lgF lgd1 lgN1 lgD1) lgD1) (quoD lgD1)) (2 ^ 80 * 10000000) 1 0 1 = true := by decide +kernel
theorem lgA0_2 : pposi (diffPoly 1 1e-7 (-1) (quoN (lgF lgd1 lgN1 lgD1) lgD1) (quoD lgD1)) (2 ^ 80 * 10000000) 1 0 1 = true := by decide +kernel
theorem lgB_pos : pposi (padd [-1] lgD2) (2 ^ 80 * 10000000) 2 (-1) 4 = true := by decide +kernel
theorem lgB_1 : pposi (diffPoly 2 2e-7 1 (quoN (lgF lgd2 lgN2 lgD2) lgD2) (quoD lgD2)) (2 ^ 80 * 10000000) 2 (-1) 4 = true := by decide +kernel
theorem lgB_2 : pposi (diffPoly 2 2e-7 (-1) (quoN (lgF lgd2 lgN2 lgD2) lgD2) (quoD lgD2)) (2 ^ 80 * 10000000) 2 (-1) 4 = true := by decide +kernel
theorem lgC_pos : pposi (padd [-1] lgD4) (2 ^ 80 * 10000000) 1 0 8 = true := by decide +kernel
theorem lgC_1 : pposi (diffPoly 4 2e-7 1 (quoN (lgG lgd4 lgN4 lgD4) lgD4) (quoD lgD4)) (2 ^ 80 * 10000000) 1 0 8 = true := by decide +kernel
theorem lgC_2 : pposi (diffPoly 4 2e-7 (-1) (quoN (lgG lgd4 lgN4 lgD4) lgD4) (quoD lgD4)) (2 ^ 80 * 10000000) 1 0 8 = true := by decide +kernel

/-- A function vanishing at 0, small at 1, whose second difference is small. -/
theorem tri_bound {G : ℝ → ℝ} {z c k t : ℝ} (h0 : G 0 = 0) (h1 : |G 1| ≤ k) (hz : z < 0 ∨ 0 < z ∧ z < 1 ∨ 1 < z) (hc : 0 ≤ c) (ht : |z - 1| ≤ t)
    (h : ∀ p q r, (p = z ∧ q = 0 ∧ r = 1 ∨ p = 0 ∧ q = z ∧ r = 1 ∨ p = 0 ∧ q = 1 ∧ r = z) → p < q → q < r →
      |tri p q r G| ≤ c * ((r - q) * (q - p) * (r - p))) : |G z| ≤ (k + c * t) * |z| := by
  unfold tri at h
  rcases hz with hz | hz | hz
  · have := h z 0 1 (by simp) hz (by norm_num)
    rw [h0, show (1 - 0) * G z + (0 - z) * G 1 - (1 - z) * 0 = G z - z * G 1 by ring] at this
    rw [abs_of_nonpos (by linarith)] at ht
    rw [abs_of_neg hz]
    have e : |z * G 1| ≤ -z * k := by rw [abs_mul, abs_of_neg hz]; exact mul_le_mul_of_nonneg_left h1 (by linarith)
    have e2 := mul_le_mul_of_nonneg_left ht (mul_nonneg hc (by linarith : 0 ≤ -z))
    rw [abs_le] at this e ⊢
    constructor <;> linarith
  · have := h 0 z 1 (by simp) hz.1 hz.2
    rw [h0, show (1 - z) * 0 + (z - 0) * G 1 - (1 - 0) * G z = z * G 1 - G z by ring] at this
    rw [abs_of_nonpos (by linarith)] at ht
    rw [abs_of_pos hz.1]
    have e : |z * G 1| ≤ z * k := by rw [abs_mul, abs_of_pos hz.1]; exact mul_le_mul_of_nonneg_left h1 hz.1.le
    have e2 := mul_le_mul_of_nonneg_left ht (mul_nonneg hc hz.1.le)
    rw [abs_le] at this e ⊢
    constructor <;> linarith
  · have := h 0 1 z (by simp) (by norm_num) hz
    rw [h0, show (z - 1) * 0 + (1 - 0) * G z - (z - 0) * G 1 = G z - z * G 1 by ring] at this
    rw [abs_of_nonneg (by linarith)] at ht
    rw [abs_of_pos (show 0 < z by linarith)]
    have e : |z * G 1| ≤ z * k := by rw [abs_mul, abs_of_pos (show 0 < z by linarith)]; exact mul_le_mul_of_nonneg_left h1 (by linarith)
    have e2 := mul_le_mul_of_nonneg_left ht (mul_nonneg hc (by linarith : 0 ≤ z))
    rw [abs_le] at this e ⊢
    constructor <;> linarith

theorem pos_of_check {q : List ℚ} {K M : ℕ} {a b : ℤ} (h : pposi (padd [-1] q) K M a b = true) (hK : 0 < K) (hM : 0 < M) (hab : a < b)
    {x : ℝ} (h1 : (a : ℝ) / M ≤ x) (h2 : x ≤ (b : ℝ) / M) : 0 < peval q x := by
  have := pposi_sound h hK hM hab x h1 h2
  rw [peval_padd, peval_cons, peval_nil] at this
  push_cast at this
  linarith

theorem lgA_at_one : |peval (lgF lgd1 lgN1 lgD1) 1 / peval lgD1 1| ≤ 2e-8 := by
  simp only [lgF, lgN1, lgD1, lgd1, padd, psmul, List.map, peval_cons, peval_nil]
  norm_num [abs_le]

theorem lgB_at_one : |peval (lgF lgd2 lgN2 lgD2) 1 / peval lgD2 1 - 0.6931471806| ≤ 3e-8 := by
  simp only [lgF, lgN2, lgD2, lgd2, padd, psmul, List.map, peval_cons, peval_nil]
  norm_num [abs_le]

theorem lgA_zero : peval (lgF lgd1 lgN1 lgD1) 0 / peval lgD1 0 - Real.log (Real.Gamma (0 + (1 : ℚ))) = 0 := by
  simp [lgF, peval_cons]

theorem lgB_zero : peval (lgF lgd2 lgN2 lgD2) 0 / peval lgD2 0 - Real.log (Real.Gamma (0 + (2 : ℚ))) = 0 := by
  simp [lgF, peval_cons]

theorem Gamma_at_two : Real.Gamma (1 + ((1 : ℚ) : ℝ)) = 1 := by norm_num [Real.Gamma_two]

theorem Gamma_at_three : Real.Gamma (1 + ((2 : ℚ) : ℝ)) = 2 := by
  rw [show (1 : ℝ) + ((2 : ℚ) : ℝ) = 2 + 1 by norm_num, Real.Gamma_add_one (by norm_num), Real.Gamma_two]; norm_num

/-- The first rational function below 1. -/
theorem lgA_below {z : ℝ} (h1 : -41 / 128 ≤ z) (h2 : z < 0) :
    |z * (lgd1 + z * (peval lgN1 z / peval lgD1 z)) - Real.log (Real.Gamma (z + 1))| ≤ 8.5e-7 * |z| := by
  have hp : 0 < peval lgD1 z := pos_of_check lgA_pos (by norm_num) (by norm_num) (by norm_num) (by norm_num; linarith) (by norm_num; linarith)
  have := tri_bound (G := fun z => peval (lgF lgd1 lgN1 lgD1) z / peval lgD1 z - Real.log (Real.Gamma (z + (1 : ℚ)))) (z := z)
    (c := ((1.2e-6 : ℚ) + 1 / (42 * (((-41 : ℤ) : ℝ) / (128 : ℕ) + (1 : ℚ) + 6) ^ 7)) / 2) (k := 2e-8) (t := 1.33) lgA_zero
    (by have := lgA_at_one; simp only [Gamma_at_two, Real.log_one, sub_zero]; exact this) (Or.inl h2) (by norm_num)
    (by rw [abs_of_neg (by linarith)]; norm_num; linarith) (fun p q r h hpq hqr => quo_three (by norm_num) (by norm_num) (by norm_num)
      lgA_pos lgA_1 lgA_2 (by norm_num) (by
        rcases h with h | h | h <;> (obtain ⟨rfl, rfl, rfl⟩ := h; norm_num; try linarith)) hpq hqr (by
        rcases h with h | h | h <;> (obtain ⟨rfl, rfl, rfl⟩ := h; norm_num; try linarith)))
  rw [lgF_eval hp.ne', Rat.cast_one] at this
  refine this.trans (mul_le_mul_of_nonneg_right ?_ (abs_nonneg _))
  norm_num

/-- The first rational function above 1. -/
theorem lgA_above {z : ℝ} (h1 : 0 < z) (h2 : z < 1) :
    |z * (lgd1 + z * (peval lgN1 z / peval lgD1 z)) - Real.log (Real.Gamma (z + 1))| ≤ 9e-8 * |z| := by
  have hp : 0 < peval lgD1 z := pos_of_check lgA0_pos (by norm_num) (by norm_num) (by norm_num) (by norm_num; linarith) (by norm_num; linarith)
  have := tri_bound (G := fun z => peval (lgF lgd1 lgN1 lgD1) z / peval lgD1 z - Real.log (Real.Gamma (z + (1 : ℚ)))) (z := z)
    (c := ((1e-7 : ℚ) + 1 / (42 * (((0 : ℤ) : ℝ) / (1 : ℕ) + (1 : ℚ) + 6) ^ 7)) / 2) (k := 2e-8) (t := 1) lgA_zero
    (by have := lgA_at_one; simp only [Gamma_at_two, Real.log_one, sub_zero]; exact this) (Or.inr (Or.inl ⟨h1, h2⟩)) (by norm_num)
    (by rw [abs_of_neg (by linarith)]; linarith) (fun p q r h hpq hqr => quo_three (by norm_num) (by norm_num) (by norm_num)
      lgA0_pos lgA0_1 lgA0_2 (by norm_num) (by
        rcases h with h | h | h <;> (obtain ⟨rfl, rfl, rfl⟩ := h; norm_num; try linarith)) hpq hqr (by
        rcases h with h | h | h <;> (obtain ⟨rfl, rfl, rfl⟩ := h; norm_num; try linarith)))
  rw [lgF_eval hp.ne', Rat.cast_one] at this
  refine this.trans (mul_le_mul_of_nonneg_right ?_ (abs_nonneg _))
  norm_num

/-- The second rational function. -/
theorem lgB_close {z : ℝ} (h1 : -1 / 2 ≤ z) (h2 : z ≤ 2) :
    |z * (lgd2 + z * (peval lgN2 z / peval lgD2 z)) - Real.log (Real.Gamma (z + 2))| ≤ 2e-7 * |z| := by
  have hp : 0 < peval lgD2 z := pos_of_check lgB_pos (by norm_num) (by norm_num) (by norm_num) (by norm_num; linarith) (by norm_num; linarith)
  have one : |peval (lgF lgd2 lgN2 lgD2) 1 / peval lgD2 1 - Real.log 2| ≤ 3.1e-8 := by
    have a := lgB_at_one
    have b1 := Real.log_two_gt_d9
    have b2 := Real.log_two_lt_d9
    rw [abs_le] at a ⊢
    norm_num at a b1 b2 ⊢
    constructor <;> linarith
  rcases eq_or_ne z 0 with rfl | hz0
  · have := lgB_zero
    norm_num [Real.Gamma_two]
  rcases eq_or_ne z 1 with rfl | hz1
  · rw [← lgF_eval hp.ne', show (1 : ℝ) + 2 = 1 + ((2 : ℚ) : ℝ) by norm_num, Gamma_at_three]
    exact one.trans (by norm_num)
  have := tri_bound (G := fun z => peval (lgF lgd2 lgN2 lgD2) z / peval lgD2 z - Real.log (Real.Gamma (z + (2 : ℚ)))) (z := z)
    (c := ((2e-7 : ℚ) + 1 / (42 * (((-1 : ℤ) : ℝ) / (2 : ℕ) + (2 : ℚ) + 6) ^ 7)) / 2) (k := 3.1e-8) (t := 1.5) lgB_zero
    (by simp only [Gamma_at_three]; exact one) (by
      rcases lt_or_gt_of_ne hz0 with h | h
      · exact Or.inl h
      · rcases lt_or_gt_of_ne hz1 with h' | h'
        · exact Or.inr (Or.inl ⟨h, h'⟩)
        · exact Or.inr (Or.inr h')) (by norm_num)
    (by rw [abs_le]; norm_num; constructor <;> linarith) (fun p q r h hpq hqr => quo_three (by norm_num) (by norm_num) (by norm_num)
      lgB_pos lgB_1 lgB_2 (by norm_num) (by
        rcases h with h | h | h <;> (obtain ⟨rfl, rfl, rfl⟩ := h; norm_num; try linarith)) hpq hqr (by
        rcases h with h | h | h <;> (obtain ⟨rfl, rfl, rfl⟩ := h; norm_num; try linarith)))
  rw [lgF_eval hp.ne'] at this
  norm_num at this ⊢
  refine this.trans (mul_le_mul_of_nonneg_right ?_ (abs_nonneg _))
  norm_num

end Verif.Ffmath
