import Mathlib.MeasureTheory.Function.JacobianOneDim
import Mathlib.Analysis.SpecialFunctions.ImproperIntegrals
import Mathlib.Analysis.SpecialFunctions.Trigonometric.Arctan
import Mathlib.Analysis.SpecialFunctions.Trigonometric.ArctanDeriv
import Mathlib.Analysis.SpecialFunctions.Sqrt
import Mathlib.Tactic.FieldSimp

/-!
# Carlson's elliptic integral of the first kind over the reals

The reference for the elliptic integrals (nothing here is a definition of the repository): the integral, its behaviour under the
duplication map, under scaling, and the Legendre form.
-/

namespace Verif.Ffmath

open Real Set MeasureTheory

/-- The integrand (not a definition of the repository). -/
noncomputable def rfI (x y z t : ℝ) : ℝ := 1 / (√(t + x) * √(t + y) * √(t + z))

/-- Carlson's integral `R_F` (not a definition of the repository). -/
noncomputable def rfR (x y z : ℝ) : ℝ := 1 / 2 * ∫ t in Ioi (0 : ℝ), rfI x y z t

/-- Its domain: no argument negative, at most one of them zero (not a definition of the repository). -/
structure RFDom (x y z : ℝ) : Prop where
  x0 : 0 ≤ x
  y0 : 0 ≤ y
  z0 : 0 ≤ z
  xy : 0 < x + y
  xz : 0 < x + z
  yz : 0 < y + z

/-- The number `lambda` of the duplication (not a definition of the repository). -/
noncomputable def lamR (x y z : ℝ) : ℝ := √x * (√y + √z) + √y * √z

theorem lamR_pos {x y z : ℝ} (h : RFDom x y z) : 0 < lamR x y z := by
  unfold lamR
  have hx := sqrt_nonneg x
  have hy := sqrt_nonneg y
  have hz := sqrt_nonneg z
  rcases h.x0.eq_or_lt with e | e
  · have y1 : 0 < y := by linarith [h.xy]
    have z1 : 0 < z := by linarith [h.xz]
    have := mul_pos (sqrt_pos.2 y1) (sqrt_pos.2 z1)
    nlinarith [mul_nonneg hx hy, mul_nonneg hx hz]
  · have x1 := sqrt_pos.2 e
    rcases h.y0.eq_or_lt with e2 | e2
    · have z1 : 0 < z := by linarith [h.yz]
      have := mul_pos x1 (sqrt_pos.2 z1)
      nlinarith [mul_nonneg hx hy, mul_nonneg hy hz]
    · have := mul_pos x1 (sqrt_pos.2 e2)
      nlinarith [mul_nonneg hx hz, mul_nonneg hy hz]

/-- The substitution of the duplication theorem. -/
theorem dup_image {x y z : ℝ} (h : RFDom x y z) :
    (fun s : ℝ => (s + lamR (s + x) (s + y) (s + z) - lamR x y z) / 4) '' Ioi 0 = Ioi 0 := by
  set f : ℝ → ℝ := fun s => (s + lamR (s + x) (s + y) (s + z) - lamR x y z) / 4 with hf
  have hmono : ∀ s, 0 ≤ s → lamR x y z ≤ lamR (s + x) (s + y) (s + z) := by
    intro s hs
    unfold lamR
    have a := sqrt_le_sqrt (by linarith : x ≤ s + x)
    have b := sqrt_le_sqrt (by linarith : y ≤ s + y)
    have c := sqrt_le_sqrt (by linarith : z ≤ s + z)
    gcongr
  have f0 : f 0 = 0 := by simp [hf]
  ext t
  constructor
  · rintro ⟨s, hs, rfl⟩
    have := hmono s (le_of_lt hs)
    simp only [mem_Ioi] at *
    simp only [hf]
    linarith
  · intro ht
    simp only [mem_Ioi] at ht
    have hc : ContinuousOn f (Icc 0 (4 * t)) := by
      apply Continuous.continuousOn
      simp only [hf, lamR]
      fun_prop
    have hm : t ∈ Icc (f 0) (f (4 * t)) := by
      refine ⟨by rw [f0]; exact ht.le, ?_⟩
      have := hmono (4 * t) (by linarith)
      simp only [hf]; linarith
    obtain ⟨s, hs, e⟩ := intermediate_value_Icc (by linarith : (0 : ℝ) ≤ 4 * t) hc hm
    refine ⟨s, ?_, e⟩
    rcases hs.1.eq_or_lt with e0 | e0
    · rw [← e0, f0] at e; linarith
    · exact e0

theorem dup_inj {x y z : ℝ} : InjOn (fun s : ℝ => (s + lamR (s + x) (s + y) (s + z) - lamR x y z) / 4) (Ioi 0) := by
  have hmono : ∀ s s', s < s' → lamR (s + x) (s + y) (s + z) ≤ lamR (s' + x) (s' + y) (s' + z) := by
    intro s s' hs
    unfold lamR
    have a := sqrt_le_sqrt (by linarith : s + x ≤ s' + x)
    have b := sqrt_le_sqrt (by linarith : s + y ≤ s' + y)
    have c := sqrt_le_sqrt (by linarith : s + z ≤ s' + z)
    gcongr
  have : StrictMono (fun s : ℝ => (s + lamR (s + x) (s + y) (s + z) - lamR x y z) / 4) := by
    intro s s' hs
    have := hmono s s' hs
    simp only; linarith
  exact this.injective.injOn

theorem dup_deriv {x y z : ℝ} (h : RFDom x y z) (s : ℝ) (hs : 0 < s) :
    HasDerivAt (fun s : ℝ => (s + lamR (s + x) (s + y) (s + z) - lamR x y z) / 4)
      ((√(s + x) + √(s + y)) * (√(s + y) + √(s + z)) * (√(s + z) + √(s + x)) / (8 * (√(s + x) * √(s + y) * √(s + z)))) s := by
  have hd : ∀ a, 0 ≤ a → HasDerivAt (fun s : ℝ => √(s + a)) (1 / (2 * √(s + a))) s := by
    intro a ha
    have := ((hasDerivAt_id s).add_const a).sqrt (by simp; linarith)
    simpa using this
  have hX := sqrt_pos.2 (by linarith [h.x0] : 0 < s + x)
  have hY := sqrt_pos.2 (by linarith [h.y0] : 0 < s + y)
  have hZ := sqrt_pos.2 (by linarith [h.z0] : 0 < s + z)
  have dx := hd x h.x0
  have dy := hd y h.y0
  have dz := hd z h.z0
  have := (((hasDerivAt_id s).add ((dx.mul (dy.add dz)).add (dy.mul dz))).sub_const (lamR x y z)).div_const 4
  convert! this using 1
  simp only [Pi.add_apply]
  field_simp
  ring

theorem dup_integrand {x y z : ℝ} (h : RFDom x y z) (s : ℝ) (hs : 0 < s) :
    |(√(s + x) + √(s + y)) * (√(s + y) + √(s + z)) * (√(s + z) + √(s + x)) / (8 * (√(s + x) * √(s + y) * √(s + z)))| •
      rfI ((x + lamR x y z) / 4) ((y + lamR x y z) / 4) ((z + lamR x y z) / 4) ((s + lamR (s + x) (s + y) (s + z) - lamR x y z) / 4) =
    rfI x y z s := by
  have hX := sqrt_pos.2 (by linarith [h.x0] : 0 < s + x)
  have hY := sqrt_pos.2 (by linarith [h.y0] : 0 < s + y)
  have hZ := sqrt_pos.2 (by linarith [h.z0] : 0 < s + z)
  have qX := sq_sqrt (by linarith [h.x0] : 0 ≤ s + x)
  have qY := sq_sqrt (by linarith [h.y0] : 0 ≤ s + y)
  have qZ := sq_sqrt (by linarith [h.z0] : 0 ≤ s + z)
  unfold rfI
  rw [show (s + lamR (s + x) (s + y) (s + z) - lamR x y z) / 4 + (x + lamR x y z) / 4 = ((√(s + x) + √(s + y)) * (√(s + x) + √(s + z))) / 4 by
      unfold lamR; linear_combination (-1 / 4) * qX,
    show (s + lamR (s + x) (s + y) (s + z) - lamR x y z) / 4 + (y + lamR x y z) / 4 = ((√(s + x) + √(s + y)) * (√(s + y) + √(s + z))) / 4 by
      unfold lamR; linear_combination (-1 / 4) * qY,
    show (s + lamR (s + x) (s + y) (s + z) - lamR x y z) / 4 + (z + lamR x y z) / 4 = ((√(s + x) + √(s + z)) * (√(s + y) + √(s + z))) / 4 by
      unfold lamR; linear_combination (-1 / 4) * qZ]
  generalize √(s + x) = X at *
  generalize √(s + y) = Y at *
  generalize √(s + z) = Z at *
  rw [← sqrt_mul (by positivity), ← sqrt_mul (by positivity),
    show (X + Y) * (X + Z) / 4 * ((X + Y) * (Y + Z) / 4) * ((X + Z) * (Y + Z) / 4) = ((X + Y) * (Y + Z) * (Z + X) / 8) ^ 2 by ring,
    sqrt_sq (by positivity), abs_of_pos (by positivity), smul_eq_mul]
  field_simp

theorem rfI_nonneg (x y z t : ℝ) : 0 ≤ rfI x y z t := by unfold rfI; positivity

/-- With all arguments positive the integrand is dominated by a power. -/
theorem rfI_integrable_pos {x y z : ℝ} (hx : 0 < x) (hy : 0 < y) (hz : 0 < z) : IntegrableOn (rfI x y z) (Ioi 0) := by
  have hm : 0 < min x (min y z) := lt_min hx (lt_min hy hz)
  have hi := integrableOn_add_rpow_Ioi_of_lt (a := -(3 / 2 : ℝ)) (c := 0) (m := min x (min y z)) (by norm_num) (by linarith)
  refine hi.mono' ?_ ?_
  · apply ContinuousOn.aestronglyMeasurable _ measurableSet_Ioi
    unfold rfI
    apply ContinuousOn.div continuousOn_const (by fun_prop)
    intro t ht
    simp only [mem_Ioi] at ht
    have := sqrt_pos.2 (by linarith : 0 < t + x)
    have := sqrt_pos.2 (by linarith : 0 < t + y)
    have := sqrt_pos.2 (by linarith : 0 < t + z)
    positivity
  · refine (ae_restrict_iff' measurableSet_Ioi).2 (Filter.Eventually.of_forall fun t ht => ?_)
    simp only [mem_Ioi] at ht
    rw [norm_of_nonneg (rfI_nonneg _ _ _ _)]
    set m := min x (min y z) with hme
    have h1 : m ≤ x := min_le_left _ _
    have h2 : m ≤ y := (min_le_right _ _).trans (min_le_left _ _)
    have h3 : m ≤ z := (min_le_right _ _).trans (min_le_right _ _)
    have hp : 0 < t + m := by linarith
    rw [rpow_neg hp.le, show (3 / 2 : ℝ) = 1 + 1 / 2 by norm_num, rpow_add hp, rpow_one, ← sqrt_eq_rpow, ← one_div]
    unfold rfI
    have a := sqrt_le_sqrt (by linarith : t + m ≤ t + x)
    have b := sqrt_le_sqrt (by linarith : t + m ≤ t + y)
    have c := sqrt_le_sqrt (by linarith : t + m ≤ t + z)
    have hs := sqrt_pos.2 hp
    refine one_div_le_one_div_of_le (by positivity) ?_
    calc (t + m) * √(t + m) = √(t + m) * √(t + m) * √(t + m) := by rw [mul_self_sqrt hp.le]
      _ ≤ _ := by gcongr

theorem rf_dup_dom {x y z : ℝ} (h : RFDom x y z) :
    0 < (x + lamR x y z) / 4 ∧ 0 < (y + lamR x y z) / 4 ∧ 0 < (z + lamR x y z) / 4 := by
  have := lamR_pos h
  refine ⟨?_, ?_, ?_⟩ <;> linarith [h.x0, h.y0, h.z0]

theorem rfI_integrable {x y z : ℝ} (h : RFDom x y z) : IntegrableOn (rfI x y z) (Ioi 0) := by
  obtain ⟨a, b, c⟩ := rf_dup_dom h
  have := rfI_integrable_pos a b c
  rw [← dup_image h, integrableOn_image_iff_integrableOn_abs_deriv_smul measurableSet_Ioi
    (fun s hs => (dup_deriv h s hs).hasDerivWithinAt) dup_inj] at this
  exact this.congr_fun (fun s hs => dup_integrand h s hs) measurableSet_Ioi

/-- The duplication theorem. -/
theorem rf_dup {x y z : ℝ} (h : RFDom x y z) :
    rfR ((x + lamR x y z) / 4) ((y + lamR x y z) / 4) ((z + lamR x y z) / 4) = rfR x y z := by
  unfold rfR
  congr 1
  conv_lhs => rw [← dup_image h]
  rw [integral_image_eq_integral_abs_deriv_smul measurableSet_Ioi (fun s hs => (dup_deriv h s hs).hasDerivWithinAt) dup_inj]
  exact setIntegral_congr_fun measurableSet_Ioi (fun s hs => dup_integrand h s hs)

/-- `R_F` decreases in each argument. -/
theorem rf_anti {x y z x' y' z' : ℝ} (h : RFDom x y z) (hx : x ≤ x') (hy : y ≤ y') (hz : z ≤ z') : rfR x' y' z' ≤ rfR x y z := by
  have h' : RFDom x' y' z' := ⟨by linarith [h.x0], by linarith [h.y0], by linarith [h.z0], by linarith [h.xy], by linarith [h.xz], by linarith [h.yz]⟩
  unfold rfR
  refine mul_le_mul_of_nonneg_left ?_ (by norm_num)
  refine setIntegral_mono_on (rfI_integrable h') (rfI_integrable h) measurableSet_Ioi fun t ht => ?_
  simp only [mem_Ioi] at ht
  unfold rfI
  have a := sqrt_le_sqrt (by linarith : t + x ≤ t + x')
  have b := sqrt_le_sqrt (by linarith : t + y ≤ t + y')
  have c := sqrt_le_sqrt (by linarith : t + z ≤ t + z')
  have := sqrt_pos.2 (by linarith [h.x0] : 0 < t + x)
  have := sqrt_pos.2 (by linarith [h.y0] : 0 < t + y)
  have := sqrt_pos.2 (by linarith [h.z0] : 0 < t + z)
  refine one_div_le_one_div_of_le (by positivity) ?_
  gcongr

/-- Homogeneity. -/
theorem rf_scale {x y z c : ℝ} (h : RFDom x y z) (hc : 0 < c) : rfR (c * x) (c * y) (c * z) = rfR x y z / √c := by
  unfold rfR
  have hi : (fun t : ℝ => c * t) '' Ioi 0 = Ioi 0 := by
    ext t
    simp only [mem_image, mem_Ioi]
    constructor
    · rintro ⟨s, hs, rfl⟩; positivity
    · intro ht; exact ⟨t / c, by positivity, by field_simp⟩
  have key : ∫ t in Ioi (0 : ℝ), rfI (c * x) (c * y) (c * z) t = (1 / √c) * ∫ t in Ioi (0 : ℝ), rfI x y z t := by
    conv_lhs => rw [← hi]
    rw [integral_image_eq_integral_abs_deriv_smul (f' := fun _ => c) measurableSet_Ioi
      (fun s _ => by simpa using ((hasDerivAt_id s).const_mul c).hasDerivWithinAt)
      (fun a _ b _ e => mul_left_cancel₀ hc.ne' e), ← integral_const_mul]
    refine setIntegral_congr_fun measurableSet_Ioi (fun s hs => ?_)
    simp only [mem_Ioi] at hs
    simp only [rfI, smul_eq_mul]
    rw [abs_of_pos hc, ← mul_add, ← mul_add, ← mul_add, sqrt_mul hc.le, sqrt_mul hc.le, sqrt_mul hc.le]
    have := sqrt_pos.2 (by linarith [h.x0] : 0 < s + x)
    have := sqrt_pos.2 (by linarith [h.y0] : 0 < s + y)
    have := sqrt_pos.2 (by linarith [h.z0] : 0 < s + z)
    have hcs := sqrt_pos.2 hc
    have := sq_sqrt hc.le
    field_simp
    linear_combination -this
  rw [key]; ring

/-- On the diagonal. -/
theorem rf_diag {m : ℝ} (hm : 0 < m) : rfR m m m = 1 / √m := by
  unfold rfR
  have : ∫ t in Ioi (0 : ℝ), rfI m m m t = ∫ t in Ioi (0 : ℝ), (t + m) ^ (-(3 / 2) : ℝ) := by
    refine setIntegral_congr_fun measurableSet_Ioi (fun t ht => ?_)
    simp only [mem_Ioi] at ht
    have hp : 0 < t + m := by linarith
    simp only [rfI]
    rw [rpow_neg hp.le, show (3 / 2 : ℝ) = 1 + 1 / 2 by norm_num, rpow_add hp, rpow_one, ← sqrt_eq_rpow, ← one_div, mul_self_sqrt hp.le]
  have hi : (fun t : ℝ => t + m) '' Ioi 0 = Ioi m := by
    ext t
    simp only [mem_image, mem_Ioi]
    constructor
    · rintro ⟨s, hs, rfl⟩; linarith
    · intro ht; exact ⟨t - m, by linarith, by ring⟩
  have sub : ∫ t in Ioi m, t ^ (-(3 / 2) : ℝ) = ∫ t in Ioi (0 : ℝ), (t + m) ^ (-(3 / 2) : ℝ) := by
    rw [← hi, integral_image_eq_integral_abs_deriv_smul (f' := fun _ => 1) measurableSet_Ioi
      (fun s _ => by simpa using ((hasDerivAt_id s).add_const m).hasDerivWithinAt) (fun a _ b _ e => add_right_cancel e)]
    simp
  rw [this, ← sub, integral_Ioi_rpow_of_lt (by norm_num) hm]
  rw [show (-(3 / 2) + 1 : ℝ) = -(1 / 2) by norm_num, rpow_neg hm.le, ← sqrt_eq_rpow]
  ring

theorem rf_pos {x y z : ℝ} (h : RFDom x y z) : 0 < rfR x y z := by
  have hm : 0 < max x (max y z) := by
    have := le_max_left x (max y z)
    have := (le_max_left y z).trans (le_max_right x _)
    linarith [h.xy]
  refine lt_of_lt_of_le ?_ (rf_anti h (le_max_left x (max y z)) ((le_max_left y z).trans (le_max_right x _)) ((le_max_right y z).trans (le_max_right x _)))
  rw [rf_diag hm]
  have := sqrt_pos.2 hm
  positivity

theorem hexagon {a b d : ℝ} (ha : |a| ≤ d) (hb : |b| ≤ d) (hab : |a + b| ≤ d) : a ^ 2 + a * b + b ^ 2 ≤ d ^ 2 := by
  obtain ⟨a1, a2⟩ := abs_le.1 ha
  obtain ⟨b1, b2⟩ := abs_le.1 hb
  obtain ⟨c1, c2⟩ := abs_le.1 hab
  rcases le_total 0 a with h | h <;> rcases le_total 0 b with h' | h' <;> rcases le_total 0 (a + b) with h2 | h2 <;> nlinarith

theorem near_poly {e : ℝ} (he0 : 0 ≤ e) (he : e ≤ 1 / 10) : 1 ≤ (1 + 0.6 * e ^ 2) ^ 2 * (1 - e ^ 2 - e ^ 3) := by
  have e3 : e ^ 3 ≤ e ^ 2 / 10 := by
    rw [pow_succ]
    have := mul_le_mul_of_nonneg_left he (sq_nonneg e)
    linarith
  have e4 : e ^ 2 ≤ 1 / 100 := by nlinarith
  have h0 := sq_nonneg e
  calc (1 : ℝ) ≤ (1 + 1.2 * e ^ 2) * (1 - 1.1 * e ^ 2) := by nlinarith
    _ ≤ (1 + 0.6 * e ^ 2) ^ 2 * (1 - e ^ 2 - e ^ 3) := by
      refine mul_le_mul ?_ (by linarith) (by linarith) (by positivity)
      nlinarith

/-- Near the diagonal. -/
theorem rf_near {x y z m e : ℝ} (hm : 0 < m) (he : e ≤ 1 / 10) (hs : x + y + z = 3 * m) (hx : |x - m| ≤ e * m)
    (hy : |y - m| ≤ e * m) (hz : |z - m| ≤ e * m) : 1 / √m ≤ rfR x y z ∧ rfR x y z ≤ (1 + 0.6 * e ^ 2) / √m := by
  have he0 : 0 ≤ e := by
    by_contra hc
    have : e * m < 0 := mul_neg_of_neg_of_pos (not_le.1 hc) hm
    linarith [abs_nonneg (x - m)]
  obtain ⟨x1, x2⟩ := abs_le.1 hx
  obtain ⟨y1, y2⟩ := abs_le.1 hy
  obtain ⟨z1, z2⟩ := abs_le.1 hz
  have hem : e * m ≤ m / 10 := by nlinarith
  have px : 0 < x := by linarith
  have py : 0 < y := by linarith
  have pz : 0 < z := by linarith
  have hd : RFDom x y z := ⟨px.le, py.le, pz.le, by linarith, by linarith, by linarith⟩
  have hdm : RFDom m m m := ⟨hm.le, hm.le, hm.le, by linarith, by linarith, by linarith⟩
  rw [← rf_diag hm, show (1 + 0.6 * e ^ 2) / √m = (1 + 0.6 * e ^ 2) * (1 / √m) by ring, ← rf_diag hm]
  have hex : (x - m) ^ 2 + (x - m) * (y - m) + (y - m) ^ 2 ≤ (e * m) ^ 2 := by
    refine hexagon hx hy ?_
    rw [show x - m + (y - m) = -(z - m) by linarith, abs_neg]; exact hz
  have hc3 : |(x - m) * (y - m) * (z - m)| ≤ (e * m) ^ 3 := by
    rw [abs_mul, abs_mul, show (e * m) ^ 3 = e * m * (e * m) * (e * m) by ring]
    gcongr
  have hprod : ∀ t, 0 < t → (t + x) * (t + y) * (t + z) ≤ (t + m) ^ 3 ∧ (1 - e ^ 2 - e ^ 3) * (t + m) ^ 3 ≤ (t + x) * (t + y) * (t + z) := by
    intro t ht
    have h2 : (t + x) * (t + y) * (t + z) = (t + m) ^ 3 - (t + m) * ((x - m) ^ 2 + (x - m) * (y - m) + (y - m) ^ 2) + (x - m) * (y - m) * (z - m) := by
      have : z = 3 * m - x - y := by linarith
      subst this; ring
    constructor
    · have a1 : 0 < t + x := by linarith
      have a2 : 0 < t + y := by linarith
      have a3 : 0 < t + z := by linarith
      have hsum : t + m = ((t + x) + (t + y) + (t + z)) / 3 := by linarith
      rw [hsum]
      generalize t + x = A at *
      generalize t + y = B at *
      generalize t + z = C at *
      nlinarith [mul_nonneg a1.le (sq_nonneg (B - C)), mul_nonneg a2.le (sq_nonneg (A - C)), mul_nonneg a3.le (sq_nonneg (A - B)),
        mul_nonneg a1.le (sq_nonneg (A - C)), mul_nonneg a1.le (sq_nonneg (A - B)), mul_nonneg a2.le (sq_nonneg (B - C)),
        mul_nonneg a2.le (sq_nonneg (A - B)), mul_nonneg a3.le (sq_nonneg (B - C)), mul_nonneg a3.le (sq_nonneg (A - C))]
    · rw [h2]
      have h3 := (abs_le.1 hc3).1
      have e1 : (t + m) * ((x - m) ^ 2 + (x - m) * (y - m) + (y - m) ^ 2) ≤ (t + m) * (e * m) ^ 2 := by gcongr
      have e2 : (t + m) * (e * m) ^ 2 ≤ e ^ 2 * (t + m) ^ 3 := by
        have : m ^ 2 ≤ (t + m) ^ 2 := by nlinarith
        calc (t + m) * (e * m) ^ 2 = e ^ 2 * (t + m) * m ^ 2 := by ring
          _ ≤ e ^ 2 * (t + m) * (t + m) ^ 2 := by gcongr
          _ = _ := by ring
      have e3 : (e * m) ^ 3 ≤ e ^ 3 * (t + m) ^ 3 := by
        rw [← mul_pow]; gcongr; linarith
      linarith
  have hsq : ∀ t : ℝ, 0 < t → 0 < t + x ∧ 0 < t + y ∧ 0 < t + z ∧ 0 < t + m := fun t ht => ⟨by linarith, by linarith, by linarith, by linarith⟩
  constructor
  · unfold rfR
    refine mul_le_mul_of_nonneg_left ?_ (by norm_num)
    refine setIntegral_mono_on (rfI_integrable hdm) (rfI_integrable hd) measurableSet_Ioi fun t ht => ?_
    obtain ⟨a1, a2, a3, a4⟩ := hsq t ht
    unfold rfI
    rw [← sqrt_mul (x := t + x) a1.le, ← sqrt_mul (x := (t + x) * (t + y)) (by positivity), ← sqrt_mul (x := t + m) a4.le,
      ← sqrt_mul (x := (t + m) * (t + m)) (by positivity)]
    refine one_div_le_one_div_of_le (sqrt_pos.2 (by positivity)) (sqrt_le_sqrt ?_)
    have := (hprod t ht).1
    nlinarith
  · unfold rfR
    rw [mul_left_comm]
    refine mul_le_mul_of_nonneg_left ?_ (by norm_num)
    rw [← integral_const_mul]
    refine setIntegral_mono_on (rfI_integrable hd) ((rfI_integrable hdm).const_mul _) measurableSet_Ioi fun t ht => ?_
    obtain ⟨a1, a2, a3, a4⟩ := hsq t ht
    unfold rfI
    rw [← sqrt_mul (x := t + x) a1.le, ← sqrt_mul (x := (t + x) * (t + y)) (by positivity), ← sqrt_mul (x := t + m) a4.le,
      ← sqrt_mul (x := (t + m) * (t + m)) (by positivity), mul_one_div]
    have q1 : 0 < √((t + x) * (t + y) * (t + z)) := sqrt_pos.2 (by positivity)
    have q2 : 0 < √((t + m) * (t + m) * (t + m)) := sqrt_pos.2 (by positivity)
    rw [div_le_div_iff₀ q1 q2, one_mul]
    refine (sq_le_sq₀ q2.le (by positivity)).1 ?_
    rw [mul_pow, sq_sqrt (by positivity), sq_sqrt (by positivity)]
    have h1 := (hprod t ht).2
    have h2 := near_poly he0 he
    calc (t + m) * (t + m) * (t + m) = 1 * (t + m) ^ 3 := by ring
      _ ≤ (1 + 0.6 * e ^ 2) ^ 2 * (1 - e ^ 2 - e ^ 3) * (t + m) ^ 3 := by gcongr
      _ = (1 + 0.6 * e ^ 2) ^ 2 * ((1 - e ^ 2 - e ^ 3) * (t + m) ^ 3) := by ring
      _ ≤ _ := by gcongr

/-- Legendre's form of the complete integral of the first kind. -/
theorem rf_legendre {k : ℝ} (hk : |k| < 1) : rfR 0 (1 - k ^ 2) 1 = ∫ θ in (0 : ℝ)..(π / 2), 1 / √(1 - k ^ 2 * sin θ ^ 2) := by
  have hk2 : k ^ 2 < 1 := by rw [← sq_abs]; nlinarith [abs_nonneg k]
  have hp : (0 : ℝ) < π / 2 := by positivity
  have sc : ∀ θ ∈ Ioo 0 (π / 2), 0 < sin θ ∧ 0 < cos θ := fun θ h =>
    ⟨sin_pos_of_pos_of_lt_pi h.1 (by linarith [h.2]), cos_pos_of_mem_Ioo ⟨by linarith [h.1], h.2⟩⟩
  have hi : (fun θ : ℝ => (cos θ / sin θ) ^ 2) '' Ioo 0 (π / 2) = Ioi 0 := by
    ext t
    simp only [mem_image, mem_Ioi]
    constructor
    · rintro ⟨θ, h, rfl⟩
      obtain ⟨a, b⟩ := sc θ h
      positivity
    · intro ht
      have q : 0 < √(1 + t) := sqrt_pos.2 (by linarith)
      have q1 : 1 < √(1 + t) := by rw [lt_sqrt (by norm_num)]; linarith
      have l1 : 1 / √(1 + t) < 1 := by rw [div_lt_one q]; exact q1
      have l0 : 0 < 1 / √(1 + t) := by positivity
      refine ⟨arcsin (1 / √(1 + t)), ⟨arcsin_pos.2 l0, arcsin_lt_pi_div_two.2 l1⟩, ?_⟩
      rw [cos_arcsin, sin_arcsin (by linarith) l1.le, div_pow, div_pow, sq_sqrt (x := 1 + t) (by linarith), one_pow, sq_sqrt (by
        rw [sub_nonneg, div_le_one (by linarith)]; linarith)]
      field_simp
      ring
  have hinj : InjOn (fun θ : ℝ => (cos θ / sin θ) ^ 2) (Ioo 0 (π / 2)) := by
    intro a ha b hb e
    obtain ⟨a1, a2⟩ := sc a ha
    obtain ⟨b1, b2⟩ := sc b hb
    simp only at e
    have ca := cos_sq' a
    have cb := cos_sq' b
    rw [div_pow, div_pow, ca, cb, div_eq_div_iff (by positivity) (by positivity)] at e
    have e2 : sin a ^ 2 = sin b ^ 2 := by linarith
    have e3 : sin a = sin b := by
      have := abs_eq_abs.2 (sq_eq_sq_iff_eq_or_eq_neg.1 e2)
      rwa [abs_of_pos a1, abs_of_pos b1] at this
    exact injOn_sin ⟨by linarith [ha.1], by linarith [ha.2]⟩ ⟨by linarith [hb.1], by linarith [hb.2]⟩ e3
  have hder : ∀ θ ∈ Ioo 0 (π / 2), HasDerivWithinAt (fun θ : ℝ => (cos θ / sin θ) ^ 2) (-(2 * cos θ / sin θ ^ 3)) (Ioo 0 (π / 2)) θ := by
    intro θ h
    obtain ⟨a, b⟩ := sc θ h
    have := (((hasDerivAt_cos θ).div (hasDerivAt_sin θ) a.ne').pow 2).hasDerivWithinAt (s := Ioo 0 (π / 2))
    convert! this using 1
    have := sin_sq_add_cos_sq θ
    simp only [Pi.div_apply, Nat.cast_ofNat, show 2 - 1 = 1 from rfl, pow_one]
    field_simp
    linear_combination this
  unfold rfR
  rw [← hi, integral_image_eq_integral_abs_deriv_smul measurableSet_Ioo hder hinj, ← integral_const_mul,
    intervalIntegral.integral_of_le hp.le, ← integral_Ioc_eq_integral_Ioo]
  rw [integral_Ioc_eq_integral_Ioo, integral_Ioc_eq_integral_Ioo]
  refine setIntegral_congr_fun measurableSet_Ioo (fun θ h => ?_)
  obtain ⟨a, b⟩ := sc θ h
  have hq := sin_sq_add_cos_sq θ
  have hpos : 0 < 1 - k ^ 2 * sin θ ^ 2 := by nlinarith [sq_nonneg k, sq_nonneg (cos θ), sq_nonneg (sin θ)]
  simp only [rfI, smul_eq_mul]
  rw [abs_neg, abs_of_pos (by positivity), add_zero, sqrt_sq (by positivity),
    show (cos θ / sin θ) ^ 2 + (1 - k ^ 2) = (1 - k ^ 2 * sin θ ^ 2) / sin θ ^ 2 by field_simp; linear_combination hq,
    show (cos θ / sin θ) ^ 2 + 1 = (1 / sin θ) ^ 2 by field_simp; linear_combination hq,
    sqrt_sq (by positivity), sqrt_div hpos.le, sqrt_sq a.le]
  have := sqrt_pos.2 hpos
  field_simp

end Verif.Ffmath
