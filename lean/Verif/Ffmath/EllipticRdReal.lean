import Verif.Ffmath.EllipticReal
import Mathlib.MeasureTheory.Integral.IntegralEqImproper

/-!
# Carlson's elliptic integral of the second kind over the reals

The reference for the elliptic integrals of the second kind (nothing here is a definition of the repository).
-/

namespace Verif.Ffmath

open Real Set MeasureTheory Filter

/-- The integrand (not a definition of the repository). -/
noncomputable def rdI (x y z t : ℝ) : ℝ := rfI x y z t / (t + z)

/-- Carlson's integral `R_D` (not a definition of the repository). -/
noncomputable def rdR (x y z : ℝ) : ℝ := 3 / 2 * ∫ t in Ioi (0 : ℝ), rdI x y z t

/-- Its domain (not a definition of the repository). -/
structure RDDom (x y z : ℝ) : Prop where
  x0 : 0 ≤ x
  y0 : 0 ≤ y
  xy : 0 < x + y
  z0 : 0 < z

theorem RDDom.rf {x y z : ℝ} (h : RDDom x y z) : RFDom x y z :=
  ⟨h.x0, h.y0, h.z0.le, h.xy, by linarith [h.x0, h.z0], by linarith [h.y0, h.z0]⟩

theorem rdI_nonneg {x y z t : ℝ} (hz : 0 < z) (ht : 0 < t) : 0 ≤ rdI x y z t := div_nonneg (rfI_nonneg _ _ _ _) (by linarith)

theorem rdI_integrable {x y z : ℝ} (h : RDDom x y z) : IntegrableOn (rdI x y z) (Ioi 0) := by
  have hz := h.z0
  refine ((rfI_integrable h.rf).const_mul (1 / z)).mono' ?_ ?_
  · apply ContinuousOn.aestronglyMeasurable _ measurableSet_Ioi
    unfold rdI rfI
    refine ContinuousOn.div (ContinuousOn.div continuousOn_const (by fun_prop) ?_) (by fun_prop) ?_
    · intro t ht
      simp only [mem_Ioi] at ht
      have := sqrt_pos.2 (by linarith [h.x0] : 0 < t + x)
      have := sqrt_pos.2 (by linarith [h.y0] : 0 < t + y)
      have := sqrt_pos.2 (by linarith : 0 < t + z)
      positivity
    · intro t ht
      simp only [mem_Ioi] at ht
      linarith
  · refine (ae_restrict_iff' measurableSet_Ioi).2 (Filter.Eventually.of_forall fun t ht => ?_)
    simp only [mem_Ioi] at ht
    rw [norm_of_nonneg (rdI_nonneg hz ht)]
    unfold rdI
    rw [div_eq_mul_one_div, _root_.mul_comm]
    exact mul_le_mul_of_nonneg_right (one_div_le_one_div_of_le hz (by linarith)) (rfI_nonneg _ _ _ _)

/-- The duplication theorem for `R_D`. -/
theorem rd_dup {x y z : ℝ} (h : RDDom x y z) :
    rdR x y z = 3 / (√z * (z + lamR x y z)) + rdR ((x + lamR x y z) / 4) ((y + lamR x y z) / 4) ((z + lamR x y z) / 4) / 4 := by
  have hz := h.z0
  have hF := h.rf
  obtain ⟨d1, d2, d3⟩ := rf_dup_dom hF
  have hD : RDDom ((x + lamR x y z) / 4) ((y + lamR x y z) / 4) ((z + lamR x y z) / 4) := ⟨d1.le, d2.le, by linarith, d3⟩
  -- the substitution
  have cov : ∀ s, 0 < s → |(√(s + x) + √(s + y)) * (√(s + y) + √(s + z)) * (√(s + z) + √(s + x)) / (8 * (√(s + x) * √(s + y) * √(s + z)))| •
      rdI ((x + lamR x y z) / 4) ((y + lamR x y z) / 4) ((z + lamR x y z) / 4) ((s + lamR (s + x) (s + y) (s + z) - lamR x y z) / 4) =
      4 * (rfI x y z s / ((√(s + x) + √(s + z)) * (√(s + y) + √(s + z)))) := by
    intro s hs
    have hd := dup_integrand hF s hs
    have qZ := sq_sqrt (by linarith : 0 ≤ s + z)
    have hX := sqrt_nonneg (s + x)
    have hY := sqrt_nonneg (s + y)
    have hZ := sqrt_pos.2 (by linarith : 0 < s + z)
    unfold rdI
    rw [show (s + lamR (s + x) (s + y) (s + z) - lamR x y z) / 4 + (z + lamR x y z) / 4 = ((√(s + x) + √(s + z)) * (√(s + y) + √(s + z))) / 4 by
      unfold lamR; linear_combination (-1 / 4) * qZ]
    rw [smul_eq_mul] at hd ⊢
    rw [← mul_div_assoc, hd]
    field_simp
  have himg : ∫ t in Ioi (0 : ℝ), rdI ((x + lamR x y z) / 4) ((y + lamR x y z) / 4) ((z + lamR x y z) / 4) t =
      ∫ s in Ioi (0 : ℝ), 4 * (rfI x y z s / ((√(s + x) + √(s + z)) * (√(s + y) + √(s + z)))) := by
    conv_lhs => rw [← dup_image hF]
    rw [integral_image_eq_integral_abs_deriv_smul measurableSet_Ioi (fun s hs => (dup_deriv hF s hs).hasDerivWithinAt) dup_inj]
    exact setIntegral_congr_fun measurableSet_Ioi (fun s hs => cov s hs)
  have hint : IntegrableOn (fun s => 4 * (rfI x y z s / ((√(s + x) + √(s + z)) * (√(s + y) + √(s + z))))) (Ioi 0) := by
    have := rdI_integrable hD
    rw [← dup_image hF, integrableOn_image_iff_integrableOn_abs_deriv_smul measurableSet_Ioi
      (fun s hs => (dup_deriv hF s hs).hasDerivWithinAt) dup_inj] at this
    exact this.congr_fun (fun s hs => cov s hs) measurableSet_Ioi
  -- the boundary term
  set G : ℝ → ℝ := fun s => -(3 / (√(s + z) * (s + z + lamR (s + x) (s + y) (s + z)))) with hG
  have hl0 : ∀ s, 0 ≤ lamR (s + x) (s + y) (s + z) := fun s => by unfold lamR; positivity
  have hderiv : ∀ s ∈ Ioi (0 : ℝ), HasDerivAt G (3 / 2 * rdI x y z s - 3 / 8 * (4 * (rfI x y z s / ((√(s + x) + √(s + z)) * (√(s + y) + √(s + z)))))) s := by
    intro s hs
    simp only [mem_Ioi] at hs
    have hd : ∀ a, 0 ≤ a → HasDerivAt (fun s : ℝ => √(s + a)) (1 / (2 * √(s + a))) s := by
      intro a ha
      have := ((hasDerivAt_id s).add_const a).sqrt (by simp; linarith)
      simpa using this
    have hX := sqrt_pos.2 (by linarith [h.x0] : 0 < s + x)
    have hY := sqrt_pos.2 (by linarith [h.y0] : 0 < s + y)
    have hZ := sqrt_pos.2 (by linarith : 0 < s + z)
    have dx := hd x h.x0
    have dy := hd y h.y0
    have dz := hd z hz.le
    have qZ := sq_sqrt (by linarith : 0 ≤ s + z)
    have e1 : G = fun s => -(3 / (√(s + z) * (s + z + (√(s + x) * (√(s + y) + √(s + z)) + √(s + y) * √(s + z))))) := by
      rw [hG]; rfl
    rw [e1]
    have dd := (dz.mul (((hasDerivAt_id s).add_const z).add ((dx.mul (dy.add dz)).add (dy.mul dz))))
    have d3 := ((hasDerivAt_const s (3 : ℝ)).div dd (by simp only [Pi.mul_apply, Pi.add_apply, id]; positivity)).neg
    convert! d3 using 1
    simp only [Pi.mul_apply, Pi.add_apply, id, rdI, rfI]
    generalize √(s + x) = X at *
    generalize √(s + y) = Y at *
    generalize √(s + z) = Z at *
    rw [← qZ]
    field_simp
    ring
  have hcont : ContinuousWithinAt G (Ici 0) 0 := by
    apply ContinuousAt.continuousWithinAt
    have hc : ContinuousAt (fun s => √(s + z) * (s + z + lamR (s + x) (s + y) (s + z))) 0 := by
      apply Continuous.continuousAt
      unfold lamR
      fun_prop
    refine (ContinuousAt.div continuousAt_const hc ?_).neg
    have := sqrt_pos.2 hz
    have := hl0 0
    simp only [zero_add] at this ⊢
    positivity
  have htend : Tendsto G atTop (nhds 0) := by
    rw [show (0 : ℝ) = -0 by simp]
    apply Tendsto.neg
    have h1 : Tendsto (fun s : ℝ => 3 / √z * (s)⁻¹) atTop (nhds 0) := by
      simpa using tendsto_inv_atTop_zero.const_mul (3 / √z)
    refine squeeze_zero' ?_ ?_ h1
    · filter_upwards [eventually_gt_atTop 0] with s hs
      have := hl0 s
      have : 0 < s + z := by linarith
      positivity
    · filter_upwards [eventually_gt_atTop 0] with s hs
      have := hl0 s
      have q0 := sqrt_pos.2 hz
      have q1 : √z ≤ √(s + z) := sqrt_le_sqrt (by linarith)
      rw [← one_div, div_mul_div_comm, mul_one]
      refine div_le_div_of_nonneg_left (by norm_num) (by positivity) ?_
      exact mul_le_mul q1 (by linarith) hs.le (by positivity)
  have hFTC := integral_Ioi_of_hasDerivAt_of_tendsto hcont hderiv (((rdI_integrable h).const_mul (3 / 2)).sub (hint.const_mul (3 / 8))) htend
  rw [integral_sub ((rdI_integrable h).const_mul (3 / 2)) (hint.const_mul (3 / 8)), integral_const_mul, integral_const_mul] at hFTC
  have hG0 : G 0 = -(3 / (√z * (z + lamR x y z))) := by simp [hG]
  rw [hG0] at hFTC
  unfold rdR
  rw [himg]
  linarith

/-- `R_D` decreases in each argument. -/
theorem rd_anti {x y z x' y' z' : ℝ} (h : RDDom x y z) (hx : x ≤ x') (hy : y ≤ y') (hz : z ≤ z') : rdR x' y' z' ≤ rdR x y z := by
  have h' : RDDom x' y' z' := ⟨by linarith [h.x0], by linarith [h.y0], by linarith [h.xy], by linarith [h.z0]⟩
  unfold rdR
  refine mul_le_mul_of_nonneg_left ?_ (by norm_num)
  refine setIntegral_mono_on (rdI_integrable h') (rdI_integrable h) measurableSet_Ioi fun t ht => ?_
  simp only [mem_Ioi] at ht
  unfold rdI rfI
  have a := sqrt_le_sqrt (by linarith : t + x ≤ t + x')
  have b := sqrt_le_sqrt (by linarith : t + y ≤ t + y')
  have c := sqrt_le_sqrt (by linarith : t + z ≤ t + z')
  have := sqrt_pos.2 (by linarith [h.x0] : 0 < t + x)
  have := sqrt_pos.2 (by linarith [h.y0] : 0 < t + y)
  have hz0 : 0 < t + z := by linarith [h.z0]
  have := sqrt_pos.2 hz0
  refine div_le_div₀ (by positivity) (one_div_le_one_div_of_le (by positivity) (by gcongr)) hz0 (by linarith)

/-- Homogeneity. -/
theorem rd_scale {x y z c : ℝ} (h : RDDom x y z) (hc : 0 < c) : rdR (c * x) (c * y) (c * z) = rdR x y z / (c * √c) := by
  unfold rdR
  have hi : (fun t : ℝ => c * t) '' Ioi 0 = Ioi 0 := by
    ext t
    simp only [mem_image, mem_Ioi]
    constructor
    · rintro ⟨s, hs, rfl⟩; positivity
    · intro ht; exact ⟨t / c, by positivity, by field_simp⟩
  have key : ∫ t in Ioi (0 : ℝ), rdI (c * x) (c * y) (c * z) t = (1 / (c * √c)) * ∫ t in Ioi (0 : ℝ), rdI x y z t := by
    conv_lhs => rw [← hi]
    rw [integral_image_eq_integral_abs_deriv_smul (f' := fun _ => c) measurableSet_Ioi
      (fun s _ => by simpa using ((hasDerivAt_id s).const_mul c).hasDerivWithinAt)
      (fun a _ b _ e => mul_left_cancel₀ hc.ne' e), ← integral_const_mul]
    refine setIntegral_congr_fun measurableSet_Ioi (fun s hs => ?_)
    simp only [mem_Ioi] at hs
    simp only [rdI, rfI, smul_eq_mul]
    rw [abs_of_pos hc, ← mul_add, ← mul_add, ← mul_add, sqrt_mul hc.le, sqrt_mul hc.le, sqrt_mul hc.le]
    have := sqrt_pos.2 (by linarith [h.x0] : 0 < s + x)
    have := sqrt_pos.2 (by linarith [h.y0] : 0 < s + y)
    have hz0 : 0 < s + z := by linarith [h.z0]
    have := sqrt_pos.2 hz0
    have hcs := sqrt_pos.2 hc
    have := sq_sqrt hc.le
    field_simp
    linear_combination -this
  rw [key]; ring

/-- On the diagonal. -/
theorem rd_diag {m : ℝ} (hm : 0 < m) : rdR m m m = 1 / (m * √m) := by
  unfold rdR
  have : ∫ t in Ioi (0 : ℝ), rdI m m m t = ∫ t in Ioi (0 : ℝ), (t + m) ^ (-(5 / 2) : ℝ) := by
    refine setIntegral_congr_fun measurableSet_Ioi (fun t ht => ?_)
    simp only [mem_Ioi] at ht
    have hp : 0 < t + m := by linarith
    have hs := sqrt_pos.2 hp
    simp only [rdI, rfI]
    rw [rpow_neg hp.le, show (5 / 2 : ℝ) = 1 + 1 + 1 / 2 by norm_num, rpow_add hp, rpow_add hp, rpow_one, ← sqrt_eq_rpow, mul_self_sqrt hp.le]
    field_simp
  have hi : (fun t : ℝ => t + m) '' Ioi 0 = Ioi m := by
    ext t
    simp only [mem_image, mem_Ioi]
    constructor
    · rintro ⟨s, hs, rfl⟩; linarith
    · intro ht; exact ⟨t - m, by linarith, by ring⟩
  have sub : ∫ t in Ioi m, t ^ (-(5 / 2) : ℝ) = ∫ t in Ioi (0 : ℝ), (t + m) ^ (-(5 / 2) : ℝ) := by
    rw [← hi, integral_image_eq_integral_abs_deriv_smul (f' := fun _ => 1) measurableSet_Ioi
      (fun s _ => by simpa using ((hasDerivAt_id s).add_const m).hasDerivWithinAt) (fun a _ b _ e => add_right_cancel e)]
    simp
  rw [this, ← sub, integral_Ioi_rpow_of_lt (by norm_num) hm]
  rw [show (-(5 / 2) + 1 : ℝ) = -(1 + 1 / 2) by norm_num, rpow_neg hm.le, rpow_add hm, rpow_one, ← sqrt_eq_rpow]
  have := sqrt_pos.2 hm
  field_simp
  norm_num

theorem rd_pos {x y z : ℝ} (h : RDDom x y z) : 0 < rdR x y z := by
  have hm : 0 < max x (max y z) := lt_of_lt_of_le h.z0 ((le_max_right y z).trans (le_max_right x _))
  refine lt_of_lt_of_le ?_ (rd_anti h (le_max_left x (max y z)) ((le_max_left y z).trans (le_max_right x _)) ((le_max_right y z).trans (le_max_right x _)))
  rw [rd_diag hm]
  have := sqrt_pos.2 hm
  positivity

theorem rd_prod {u v w e : ℝ} (he : e ≤ 1 / 100) (hs : u + v + 3 * w = 0) (hu : |u| ≤ e) (hv : |v| ≤ e) (hw : |w| ≤ e) :
    (1 + u) * (1 + v) * (1 + w) ^ 3 ≤ 1 ∧ 1 ≤ (1 + 2.6 * e ^ 2) ^ 2 * ((1 + u) * (1 + v) * (1 + w) ^ 3) := by
  have e0 : 0 ≤ e := (abs_nonneg _).trans hu
  have lg : ∀ a : ℝ, |a| ≤ e → 0 < 1 + a ∧ a - 1.0102 * e ^ 2 ≤ log (1 + a) ∧ log (1 + a) ≤ a := by
    intro a ha
    obtain ⟨a1, a2⟩ := abs_le.1 ha
    have p : 0 < 1 + a := by linarith
    refine ⟨p, ?_, ?_⟩
    · refine le_trans ?_ (one_sub_inv_le_log_of_pos p)
      have : 1 - (1 + a)⁻¹ = a - a ^ 2 / (1 + a) := by field_simp; ring
      rw [this]
      have h2 : a ^ 2 ≤ e ^ 2 := sq_le_sq' a1 a2
      have h3 : a ^ 2 / (1 + a) ≤ 1.0102 * e ^ 2 := by
        rw [div_le_iff₀ p]
        nlinarith [sq_nonneg e]
      linarith
    · have := log_le_sub_one_of_pos p
      linarith
  obtain ⟨pu, u1, u2⟩ := lg u hu
  obtain ⟨pv, v1, v2⟩ := lg v hv
  obtain ⟨pw, w1, w2⟩ := lg w hw
  have hl : log ((1 + u) * (1 + v) * (1 + w) ^ 3) = log (1 + u) + log (1 + v) + 3 * log (1 + w) := by
    rw [log_mul (by positivity) (by positivity), log_mul pu.ne' pv.ne', log_pow]; norm_num
  have hP : 0 < (1 + u) * (1 + v) * (1 + w) ^ 3 := by positivity
  generalize (1 + u) * (1 + v) * (1 + w) ^ 3 = P at *
  constructor
  · rw [← log_nonpos_iff hP.le, hl]; linarith
  · have h1 : 1 - 5.06 * e ^ 2 ≤ P := by
      have := add_one_le_exp (log P)
      rw [exp_log hP] at this
      have h2 := sq_nonneg e
      norm_num at u1 v1 w1 ⊢
      linarith
    have h2 : e ^ 2 ≤ 1e-4 := by nlinarith
    have h3 := sq_nonneg e
    calc (1 : ℝ) ≤ (1 + 2.6 * e ^ 2) ^ 2 * (1 - 5.06 * e ^ 2) := by
          generalize e ^ 2 = q at *
          norm_num at h2
          nlinarith [mul_nonneg h3 (sub_nonneg.2 h2), mul_nonneg (mul_nonneg h3 h3) (sub_nonneg.2 h2)]
      _ ≤ _ := mul_le_mul_of_nonneg_left h1 (by positivity)

/-- Near the diagonal. -/
theorem rd_near {x y z m e : ℝ} (hm : 0 < m) (he : e ≤ 1 / 100) (hs : x + y + 3 * z = 5 * m) (hx : |x - m| ≤ e * m)
    (hy : |y - m| ≤ e * m) (hz : |z - m| ≤ e * m) : 1 / (m * √m) ≤ rdR x y z ∧ rdR x y z ≤ (1 + 2.6 * e ^ 2) / (m * √m) := by
  have he0 : 0 ≤ e := by
    by_contra hc
    have : e * m < 0 := mul_neg_of_neg_of_pos (not_le.1 hc) hm
    linarith [abs_nonneg (x - m)]
  have hem : e * m ≤ m / 100 := by nlinarith
  have px : 0 < x := by have := (abs_le.1 hx).1; linarith
  have py : 0 < y := by have := (abs_le.1 hy).1; linarith
  have pz : 0 < z := by have := (abs_le.1 hz).1; linarith
  have hd : RDDom x y z := ⟨px.le, py.le, by linarith, pz⟩
  have hdm : RDDom m m m := ⟨hm.le, hm.le, by linarith, hm⟩
  rw [← rd_diag hm, show (1 + 2.6 * e ^ 2) / (m * √m) = (1 + 2.6 * e ^ 2) * (1 / (m * √m)) by ring, ← rd_diag hm]
  have hprod : ∀ t, 0 < t → (t + x) * (t + y) * (t + z) ^ 3 ≤ (t + m) ^ 5 ∧
      (t + m) ^ 5 ≤ (1 + 2.6 * e ^ 2) ^ 2 * ((t + x) * (t + y) * (t + z) ^ 3) := by
    intro t ht
    have T0 : 0 < t + m := by linarith
    have dv : ∀ w, |w - m| ≤ e * m → |(w - m) / (t + m)| ≤ e := by
      intro w hw
      rw [abs_div, abs_of_pos T0, div_le_iff₀ T0]
      nlinarith
    obtain ⟨h1, h2⟩ := rd_prod he (u := (x - m) / (t + m)) (v := (y - m) / (t + m)) (w := (z - m) / (t + m))
      (by rw [mul_div_assoc', ← add_div, ← add_div, div_eq_zero_iff]; left; linarith) (dv x hx) (dv y hy) (dv z hz)
    have e1 : (t + x) * (t + y) * (t + z) ^ 3 = (t + m) ^ 5 * ((1 + (x - m) / (t + m)) * (1 + (y - m) / (t + m)) * (1 + (z - m) / (t + m)) ^ 3) := by
      field_simp
      ring
    rw [e1]
    generalize (1 + (x - m) / (t + m)) * (1 + (y - m) / (t + m)) * (1 + (z - m) / (t + m)) ^ 3 = P at *
    have T5 : 0 < (t + m) ^ 5 := by positivity
    constructor
    · nlinarith
    · nlinarith
  have form : ∀ {a b c t : ℝ}, 0 < t + a → 0 < t + b → 0 < t + c → 0 < √(t + a) * √(t + b) * √(t + c) * (t + c) ∧
      (√(t + a) * √(t + b) * √(t + c) * (t + c)) ^ 2 = (t + a) * (t + b) * (t + c) ^ 3 ∧
      rdI a b c t = 1 / (√(t + a) * √(t + b) * √(t + c) * (t + c)) := by
    intro a b c t ha hb hc
    have qa := sqrt_pos.2 ha
    have qb := sqrt_pos.2 hb
    have qc := sqrt_pos.2 hc
    refine ⟨by positivity, ?_, ?_⟩
    · rw [mul_pow, mul_pow, mul_pow, sq_sqrt ha.le, sq_sqrt hb.le, sq_sqrt hc.le]; ring
    · unfold rdI rfI; field_simp
  constructor
  · unfold rdR
    refine mul_le_mul_of_nonneg_left ?_ (by norm_num)
    refine setIntegral_mono_on (rdI_integrable hdm) (rdI_integrable hd) measurableSet_Ioi fun t ht => ?_
    simp only [mem_Ioi] at ht
    obtain ⟨a1, a2, a3⟩ := form (a := x) (b := y) (c := z) (t := t) (by linarith) (by linarith) (by linarith)
    obtain ⟨b1, b2, b3⟩ := form (a := m) (b := m) (c := m) (t := t) (by linarith) (by linarith) (by linarith)
    rw [a3, b3]
    refine one_div_le_one_div_of_le a1 ((sq_le_sq₀ a1.le b1.le).1 ?_)
    rw [a2, b2]
    have := (hprod t ht).1
    calc _ ≤ (t + m) ^ 5 := this
      _ = _ := by ring
  · unfold rdR
    rw [mul_left_comm]
    refine mul_le_mul_of_nonneg_left ?_ (by norm_num)
    rw [← integral_const_mul]
    refine setIntegral_mono_on (rdI_integrable hd) ((rdI_integrable hdm).const_mul _) measurableSet_Ioi fun t ht => ?_
    simp only [mem_Ioi] at ht
    obtain ⟨a1, a2, a3⟩ := form (a := x) (b := y) (c := z) (t := t) (by linarith) (by linarith) (by linarith)
    obtain ⟨b1, b2, b3⟩ := form (a := m) (b := m) (c := m) (t := t) (by linarith) (by linarith) (by linarith)
    rw [a3, b3, mul_one_div, div_le_div_iff₀ a1 b1, one_mul]
    refine (sq_le_sq₀ b1.le (by positivity)).1 ?_
    rw [b2, mul_pow, a2]
    calc (t + m) * (t + m) * (t + m) ^ 3 = (t + m) ^ 5 := by ring
      _ ≤ _ := (hprod t ht).2

/-- Legendre's form. -/
theorem rd_legendre {k : ℝ} (hk : |k| < 1) : rdR 0 (1 - k ^ 2) 1 = ∫ θ in (0 : ℝ)..(π / 2), 3 * sin θ ^ 2 / √(1 - k ^ 2 * sin θ ^ 2) := by
  have hk2 : k ^ 2 < 1 := by rw [← sq_abs]; nlinarith [abs_nonneg k]
  have hp : (0 : ℝ) < π / 2 := by positivity
  have sc : ∀ θ ∈ Ioo 0 (π / 2), 0 < sin θ ∧ 0 < cos θ := fun θ h =>
    ⟨sin_pos_of_pos_of_lt_pi h.1 (by linarith [h.2]), cos_pos_of_mem_Ioo ⟨by linarith [h.1], h.2⟩⟩
  have hi : (fun θ : ℝ => (cos θ / sin θ) ^ 2) '' Ioo 0 (π / 2) = Ioi 0 := by
    ext t
    simp only [mem_image, mem_Ioi]
    constructor
    · rintro ⟨θ, h, rfl⟩
      obtain ⟨a, b⟩ := sc θ h
      positivity
    · intro ht
      have q : 0 < √(1 + t) := sqrt_pos.2 (by linarith)
      have q1 : 1 < √(1 + t) := by rw [lt_sqrt (by norm_num)]; linarith
      have l1 : 1 / √(1 + t) < 1 := by rw [div_lt_one q]; exact q1
      have l0 : 0 < 1 / √(1 + t) := by positivity
      refine ⟨arcsin (1 / √(1 + t)), ⟨arcsin_pos.2 l0, arcsin_lt_pi_div_two.2 l1⟩, ?_⟩
      rw [cos_arcsin, sin_arcsin (by linarith) l1.le, div_pow, div_pow, sq_sqrt (x := 1 + t) (by linarith), one_pow, sq_sqrt (by
        rw [sub_nonneg, div_le_one (by linarith)]; linarith)]
      field_simp
      ring
  have hinj : InjOn (fun θ : ℝ => (cos θ / sin θ) ^ 2) (Ioo 0 (π / 2)) := by
    intro a ha b hb e
    obtain ⟨a1, a2⟩ := sc a ha
    obtain ⟨b1, b2⟩ := sc b hb
    simp only at e
    have ca := cos_sq' a
    have cb := cos_sq' b
    rw [div_pow, div_pow, ca, cb, div_eq_div_iff (by positivity) (by positivity)] at e
    have e2 : sin a ^ 2 = sin b ^ 2 := by linarith
    have e3 : sin a = sin b := by
      have := abs_eq_abs.2 (sq_eq_sq_iff_eq_or_eq_neg.1 e2)
      rwa [abs_of_pos a1, abs_of_pos b1] at this
    exact injOn_sin ⟨by linarith [ha.1], by linarith [ha.2]⟩ ⟨by linarith [hb.1], by linarith [hb.2]⟩ e3
  have hder : ∀ θ ∈ Ioo 0 (π / 2), HasDerivWithinAt (fun θ : ℝ => (cos θ / sin θ) ^ 2) (-(2 * cos θ / sin θ ^ 3)) (Ioo 0 (π / 2)) θ := by
    intro θ h
    obtain ⟨a, b⟩ := sc θ h
    have := (((hasDerivAt_cos θ).div (hasDerivAt_sin θ) a.ne').pow 2).hasDerivWithinAt (s := Ioo 0 (π / 2))
    convert! this using 1
    have := sin_sq_add_cos_sq θ
    simp only [Pi.div_apply, Nat.cast_ofNat, show 2 - 1 = 1 from rfl, pow_one]
    field_simp
    linear_combination this
  unfold rdR
  rw [← hi, integral_image_eq_integral_abs_deriv_smul measurableSet_Ioo hder hinj, ← integral_const_mul,
    intervalIntegral.integral_of_le hp.le, ← integral_Ioc_eq_integral_Ioo]
  rw [integral_Ioc_eq_integral_Ioo, integral_Ioc_eq_integral_Ioo]
  refine setIntegral_congr_fun measurableSet_Ioo (fun θ h => ?_)
  obtain ⟨a, b⟩ := sc θ h
  have hq := sin_sq_add_cos_sq θ
  have hpos : 0 < 1 - k ^ 2 * sin θ ^ 2 := by nlinarith [sq_nonneg k, sq_nonneg (cos θ), sq_nonneg (sin θ)]
  simp only [rdI, rfI, smul_eq_mul]
  rw [abs_neg, abs_of_pos (by positivity), add_zero, sqrt_sq (by positivity),
    show (cos θ / sin θ) ^ 2 + (1 - k ^ 2) = (1 - k ^ 2 * sin θ ^ 2) / sin θ ^ 2 by field_simp; linear_combination hq,
    show (cos θ / sin θ) ^ 2 + 1 = (1 / sin θ) ^ 2 by field_simp; linear_combination hq,
    sqrt_sq (by positivity), sqrt_div hpos.le, sqrt_sq a.le]
  have := sqrt_pos.2 hpos
  field_simp

end Verif.Ffmath
