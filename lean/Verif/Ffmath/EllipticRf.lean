import Verif.Ffmath.EllipticStep

/-!
# Accuracy of `ellint_rf` in binary32
-/

namespace Verif.Ffmath

open Verif F32

theorem rf_rel {x y z x' y' z' a b : ℝ} (h : RFDom x y z) (a0 : 0 ≤ a) (ha : a ≤ 1 / 10) (b0 : 0 ≤ b)
    (hx1 : x * (1 - a) ≤ x') (hx2 : x' ≤ x * (1 + b)) (hy1 : y * (1 - a) ≤ y') (hy2 : y' ≤ y * (1 + b))
    (hz1 : z * (1 - a) ≤ z') (hz2 : z' ≤ z * (1 + b)) :
    rfR x y z * (1 - b / 2) ≤ rfR x' y' z' ∧ rfR x' y' z' ≤ rfR x y z * (1 + 0.6 * a) := by
  have hp := rf_pos h
  have ha1 : (0 : ℝ) < 1 - a := by linarith
  have hb1 : (0 : ℝ) < 1 + b := by linarith
  have scale : ∀ c : ℝ, 0 < c → RFDom (c * x) (c * y) (c * z) := fun c hc =>
    ⟨mul_nonneg hc.le h.x0, mul_nonneg hc.le h.y0, mul_nonneg hc.le h.z0, by rw [← mul_add]; exact mul_pos hc h.xy,
      by rw [← mul_add]; exact mul_pos hc h.xz, by rw [← mul_add]; exact mul_pos hc h.yz⟩
  rw [_root_.mul_comm x (1 - a), _root_.mul_comm y (1 - a), _root_.mul_comm z (1 - a), _root_.mul_comm x (1 + b), _root_.mul_comm y (1 + b), _root_.mul_comm z (1 + b)] at *
  have h' : RFDom x' y' z' := by
    have s := scale _ ha1
    exact ⟨by linarith [s.x0], by linarith [s.y0], by linarith [s.z0], by linarith [s.xy], by linarith [s.xz], by linarith [s.yz]⟩
  constructor
  · refine le_trans ?_ (rf_anti h' hx2 hy2 hz2)
    rw [rf_scale h hb1, le_div_iff₀ (Real.sqrt_pos.2 hb1)]
    have hs : Real.sqrt (1 + b) ≤ 1 + b / 2 := by
      rw [Real.sqrt_le_left (by linarith)]; nlinarith
    have hs0 := Real.sqrt_nonneg (1 + b)
    rcases le_total 0 (1 - b / 2) with hb2 | hb2
    · calc rfR x y z * (1 - b / 2) * Real.sqrt (1 + b) ≤ rfR x y z * (1 - b / 2) * (1 + b / 2) := by gcongr
        _ = rfR x y z * (1 - b ^ 2 / 4) := by ring
        _ ≤ rfR x y z * 1 := mul_le_mul_of_nonneg_left (by nlinarith) hp.le
        _ = _ := mul_one _
    · have : rfR x y z * (1 - b / 2) * Real.sqrt (1 + b) ≤ 0 := by
        apply mul_nonpos_of_nonpos_of_nonneg _ hs0
        exact mul_nonpos_of_nonneg_of_nonpos hp.le hb2
      linarith
  · refine (rf_anti (scale _ ha1) hx1 hy1 hz1).trans ?_
    rw [rf_scale h ha1, div_le_iff₀ (Real.sqrt_pos.2 ha1)]
    have hs : 1 - a / 2 - a ^ 2 / 4 ≤ Real.sqrt (1 - a) := by
      refine Real.le_sqrt_of_sq_le ?_
      nlinarith [sq_nonneg a, mul_nonneg a0 (sq_nonneg a), mul_nonneg (sq_nonneg a) (sq_nonneg a)]
    have : 1 ≤ (1 + 0.6 * a) * Real.sqrt (1 - a) := by
      calc (1 : ℝ) ≤ (1 + 0.6 * a) * (1 - a / 2 - a ^ 2 / 4) := by nlinarith [sq_nonneg a, mul_nonneg a0 (sq_nonneg a)]
        _ ≤ _ := by gcongr
    calc rfR x y z = rfR x y z * 1 := (mul_one _).symm
      _ ≤ rfR x y z * ((1 + 0.6 * a) * Real.sqrt (1 - a)) := by gcongr
      _ = _ := by ring

/-- One step of the loop. -/
theorem rf_step {x y z : BitVec 32} (hx : SRange x) (hy : SRange y) (hz : SRange z) (hd : RFDom (val x) (val y) (val z))
    (hl : 1e-4 ≤ lamR (val x) (val y) (val z)) :
    let l := lambdaE x y z
    F32.Finite (quarterE x l) ∧ F32.Finite (quarterE y l) ∧ F32.Finite (quarterE z l) ∧
    rfR (val x) (val y) (val z) * (1 - 1.8e-6) ≤ rfR (val (quarterE x l)) (val (quarterE y l)) (val (quarterE z l)) ∧
    rfR (val (quarterE x l)) (val (quarterE y l)) (val (quarterE z l)) ≤ rfR (val x) (val y) (val z) * (1 + 3.6e-7) := by
  simp only
  have hL := lambda_RN hx hy hz
  have lu : lamR (val x) (val y) (val z) ≤ 100 := by
    obtain ⟨-, ux, x0⟩ := hx.root_range
    obtain ⟨-, uy, y0⟩ := hy.root_range
    obtain ⟨-, uz, z0⟩ := hz.root_range
    unfold lamR
    nlinarith
  generalize lambdaE x y z = l at *
  generalize hlam : lamR (val x) (val y) (val z) = L at *
  have key : ∀ w : BitVec 32, SRange w → F32.Finite (quarterE w l) ∧ ((val w : ℝ) + L) / 4 * (1 - 5.8e-7) ≤ (val (quarterE w l) : ℝ) ∧
      (val (quarterE w l) : ℝ) ≤ ((val w : ℝ) + L) / 4 * (1 + 3.6e-6) := by
    intro w hw
    have w0 := hw.nonneg
    have w0' : (0 : ℝ) ≤ (val w : ℝ) := by exact_mod_cast w0
    have w1 : (val w : ℝ) ≤ 4 := by exact_mod_cast hw.2.2
    have l1 := hL.lo
    have l2 := hL.hi
    have q1 : (1e-30 : ℚ) ≤ val w + val l := by
      have : ((1e-30 : ℚ) : ℝ) ≤ ((val w + val l : ℚ) : ℝ) := by push_cast; nlinarith
      exact_mod_cast this
    have q2 : val w + val l ≤ (1e30 : ℚ) := by
      have : ((val w + val l : ℚ) : ℝ) ≤ ((1e30 : ℚ) : ℝ) := by push_cast; nlinarith
      exact_mod_cast this
    obtain ⟨f, a1, a2⟩ := quarter_val hw.1 hL.fin q1 q2
    have a1' : ((val w : ℝ) + (val l : ℝ)) / 4 * (1 - 6e-8) ≤ (val (quarterE w l) : ℝ) := by
      have : (((val w + val l) / 4 * (1 - 6e-8) : ℚ) : ℝ) ≤ ((val (quarterE w l) : ℚ) : ℝ) := by exact_mod_cast a1
      push_cast at this; exact this
    have a2' : (val (quarterE w l) : ℝ) ≤ ((val w : ℝ) + (val l : ℝ)) / 4 * (1 + 6e-8) := by
      have : ((val (quarterE w l) : ℚ) : ℝ) ≤ (((val w + val l) / 4 * (1 + 6e-8) : ℚ) : ℝ) := by exact_mod_cast a2
      push_cast at this; exact this
    refine ⟨f, le_trans ?_ a1', a2'.trans ?_⟩
    · nlinarith
    · nlinarith
  obtain ⟨fx, x1, x2⟩ := key x hx
  obtain ⟨fy, y1, y2⟩ := key y hy
  obtain ⟨fz, z1, z2⟩ := key z hz
  subst hlam
  obtain ⟨d1, d2, d3⟩ := rf_dup_dom hd
  have hr := rf_rel (a := 5.8e-7) (b := 3.6e-6) (⟨d1.le, d2.le, d3.le, by linarith, by linarith, by linarith⟩ : RFDom _ _ _) (by norm_num) (by norm_num) (by norm_num)
    x1 x2 y1 y2 z1 z2
  rw [rf_dup hd] at hr
  have hp := rf_pos hd
  refine ⟨fx, fy, fz, le_trans ?_ hr.1, hr.2.trans ?_⟩
  · exact mul_le_mul_of_nonneg_left (by norm_num) hp.le
  · exact mul_le_mul_of_nonneg_left (by norm_num) hp.le

/-! ### The stopping rule -/

theorem third_const : F32.Finite (F32.div (lit 1) (lit 3)) ∧ |val (F32.div (lit 1) (lit 3)) - 1 / 3| ≤ 1e-8 := by decide +kernel

theorem mu_val {x y z : BitVec 32} (fx : F32.Finite x) (fy : F32.Finite y) (fz : F32.Finite z) (x0 : 0 ≤ val x) (y0 : 0 ≤ val y) (z0 : 0 ≤ val z)
    (hx : val x ≤ 2) (hy : val y ≤ 2) (hz : val z ≤ 2) (hm : 1e-5 ≤ (val x + val y + val z) / 3) :
    F32.Finite (rfMu x y z) ∧ |val (rfMu x y z) - (val x + val y + val z) / 3| ≤ 2.5e-7 * ((val x + val y + val z) / 3) := by
  obtain ⟨fc, ec⟩ := third_const
  unfold rfMu
  generalize F32.div (lit 1) (lit 3) = c at *
  rw [add_fin fx fy]
  obtain ⟨f1, e1⟩ := rnd_err' (s := neg x && neg y) (q := val x + val y) (by rw [abs_of_nonneg (by linarith)]; linarith)
  rw [abs_of_nonneg (a := val x + val y) (by linarith)] at e1
  generalize F32.rnd (neg x && neg y) (val x + val y) = s1 at *
  obtain ⟨a1, a2⟩ := _root_.abs_le.1 e1
  rw [add_fin f1 fz]
  have hp : |val s1 + val z| ≤ val x + val y + val z + (val x + val y) / 16777216 + 1e-45 := by rw [_root_.abs_le]; constructor <;> linarith
  obtain ⟨f2, e2⟩ := rnd_err' (s := neg s1 && neg z) (q := val s1 + val z) (hp.trans (by linarith))
  generalize F32.rnd (neg s1 && neg z) (val s1 + val z) = s2 at *
  have e2' := e2.trans (add_le_add_left (div_le_div_of_nonneg_right hp (by norm_num)) _)
  obtain ⟨b1, b2⟩ := _root_.abs_le.1 e2'
  obtain ⟨c1, c2⟩ := _root_.abs_le.1 ec
  rw [mul_fin f2 fc]
  have hs2 : 0 ≤ val s2 := by linarith
  have m1 : val s2 * (1 / 3 - 1e-8) ≤ val s2 * val c := mul_le_mul_of_nonneg_left (by linarith) hs2
  have m2 : val s2 * val c ≤ val s2 * (1 / 3 + 1e-8) := mul_le_mul_of_nonneg_left (by linarith) hs2
  generalize val s2 * val c = p at *
  have hpp : |p| ≤ val s2 * (1 / 3 + 1e-8) := by rw [_root_.abs_le]; constructor <;> linarith
  obtain ⟨f3, e3⟩ := rnd_err' (s := neg s2 ^^ neg c) (q := p) (hpp.trans (by linarith))
  have e3' := e3.trans (add_le_add_left (div_le_div_of_nonneg_right hpp (by norm_num)) _)
  obtain ⟨d1, d2⟩ := _root_.abs_le.1 e3'
  refine ⟨f3, _root_.abs_le.2 ⟨?_, ?_⟩⟩ <;> linarith

theorem dev_val {mu x : BitVec 32} (fm : F32.Finite mu) (fx : F32.Finite x) (m0 : 1e-6 ≤ val mu) (m1 : val mu ≤ 10) (x0 : 0 ≤ val x)
    (hx : val x ≤ 3.1 * val mu) : F32.Finite (rfDev mu x) ∧ |val (rfDev mu x) - (1 - val x / val mu)| ≤ 1e-6 := by
  have c2 : F32.Finite (lit 2) ∧ val (lit 2) = 2 := by decide +kernel
  have mp : 0 < val mu := by linarith
  unfold rfDev
  obtain ⟨f1, ε, he, hv⟩ := add_eps fm fx (by rw [abs_of_pos (by linarith)]; linarith) (by rw [abs_of_pos (by linarith)]; linarith)
  generalize F32.add mu x = s at *
  obtain ⟨a1, a2⟩ := _root_.abs_le.1 he
  have hr0 : 0 ≤ val x / val mu := div_nonneg x0 mp.le
  have hr1 : val x / val mu ≤ 3.1 := by rw [div_le_iff₀ mp]; exact hx
  have hq : val s / val mu = (1 + val x / val mu) * (1 + ε) := by rw [hv]; field_simp
  rw [div_fin f1 fm mp.ne', hq]
  generalize val x / val mu = r at *
  have q1 : (1 + r) * (1 + ε) ≤ 4.2 := by nlinarith
  have q0 : 0 ≤ (1 + r) * (1 + ε) := by nlinarith
  have q2 : |(1 + r) * (1 + ε) - (1 + r)| ≤ 2.5e-7 := by
    rw [show (1 + r) * (1 + ε) - (1 + r) = (1 + r) * ε by ring, abs_mul, abs_of_nonneg (by linarith)]
    calc (1 + r) * |ε| ≤ 4.1 * (1 / 16777216) := mul_le_mul (by linarith) he (abs_nonneg _) (by norm_num)
      _ ≤ _ := by norm_num
  generalize (1 + r) * (1 + ε) = q at *
  obtain ⟨f2, e2⟩ := rnd_err' (s := neg s ^^ neg mu) (q := q) (by rw [abs_of_nonneg q0]; linarith)
  rw [abs_of_nonneg q0] at e2
  generalize F32.rnd (neg s ^^ neg mu) q = d at *
  obtain ⟨b1, b2⟩ := _root_.abs_le.1 e2
  obtain ⟨b3, b4⟩ := _root_.abs_le.1 q2
  rw [sub_fin c2.1 f2, c2.2]
  have hd : |2 - val d| ≤ 2.3 := by rw [_root_.abs_le]; constructor <;> linarith
  obtain ⟨f3, e3⟩ := rnd_err' (s := neg (lit 2) && !neg d) (q := 2 - val d) (hd.trans (by norm_num))
  obtain ⟨g1, g2⟩ := _root_.abs_le.1 (e3.trans (add_le_add_left (div_le_div_of_nonneg_right hd (by norm_num)) _))
  refine ⟨f3, _root_.abs_le.2 ⟨?_, ?_⟩⟩ <;> linarith

theorem fmaxE_val {a b : BitVec 32} (fa : F32.Finite a) (fb : F32.Finite b) : F32.Finite (fmaxE a b) ∧ val (fmaxE a b) = max (val a) (val b) := by
  unfold fmaxE
  rw [lt_fin fb fa]
  split
  · rename_i h; rw [decide_eq_true_eq] at h; exact ⟨fa, (max_eq_left h.le).symm⟩
  · rename_i h; rw [decide_eq_true_eq, not_lt] at h; exact ⟨fb, (max_eq_right h).symm⟩

/-- The values of a state of the loop are close to their mean (not a definition of the repository). -/
structure RFClose (x y z : BitVec 32) : Prop where
  fx : F32.Finite x
  fy : F32.Finite y
  fz : F32.Finite z
  m0 : 1e-5 ≤ (val x + val y + val z) / 3
  m1 : (val x + val y + val z) / 3 ≤ 1.9
  dx : |val x - (val x + val y + val z) / 3| ≤ 0.00247 * ((val x + val y + val z) / 3)
  dy : |val y - (val x + val y + val z) / 3| ≤ 0.00247 * ((val x + val y + val z) / 3)
  dz : |val z - (val x + val y + val z) / 3| ≤ 0.00247 * ((val x + val y + val z) / 3)

/-- The stopping rule of the loop and the distance of the numbers from their mean. -/
theorem rf_test {x y z : BitVec 32} (fx : F32.Finite x) (fy : F32.Finite y) (fz : F32.Finite z) (x0 : 0 ≤ val x) (y0 : 0 ≤ val y) (z0 : 0 ≤ val z)
    (hx : val x ≤ 1.9) (hy : val y ≤ 1.9) (hz : val z ≤ 1.9) (hm : 1e-5 ≤ (val x + val y + val z) / 3) :
    let mu := rfMu x y z
    let t := F32.lt (fmaxE (absolute (rfDev mu z)) (fmaxE (absolute (rfDev mu x)) (absolute (rfDev mu y)))) (lit 0.0024607833005759250678823324)
    (t = true → RFClose x y z) ∧
    (|val x - (val x + val y + val z) / 3| ≤ 0.002 * ((val x + val y + val z) / 3) →
     |val y - (val x + val y + val z) / 3| ≤ 0.002 * ((val x + val y + val z) / 3) →
     |val z - (val x + val y + val z) / 3| ≤ 0.002 * ((val x + val y + val z) / 3) → t = true) := by
  have ct : F32.Finite (lit 0.0024607833005759250678823324) ∧ 0.00246 ≤ val (lit 0.0024607833005759250678823324) ∧
      val (lit 0.0024607833005759250678823324) ≤ 0.002461 := by decide +kernel
  simp only
  obtain ⟨fm, em⟩ := mu_val fx fy fz x0 y0 z0 (by linarith) (by linarith) (by linarith) hm
  generalize rfMu x y z = mu at *
  obtain ⟨m1, m2⟩ := _root_.abs_le.1 em
  set M := (val x + val y + val z) / 3 with hM
  have mu0 : 0 < val mu := by linarith
  obtain ⟨gx, ex⟩ := dev_val fm fx (by linarith) (by linarith) x0 (by linarith)
  obtain ⟨gy, ey⟩ := dev_val fm fy (by linarith) (by linarith) y0 (by linarith)
  obtain ⟨gz, ez⟩ := dev_val fm fz (by linarith) (by linarith) z0 (by linarith)
  obtain ⟨h1, v1⟩ := fmaxE_val (absolute_finite.2 gx) (absolute_finite.2 gy)
  obtain ⟨h2, v2⟩ := fmaxE_val (absolute_finite.2 gz) h1
  rw [lt_fin h2 ct.1, decide_eq_true_eq, v2, v1, absolute_val, absolute_val, absolute_val, max_lt_iff, max_lt_iff]
  constructor
  · rintro ⟨tz, tx, ty⟩
    have conv : ∀ w d : ℚ, |d - (1 - w / val mu)| ≤ 1e-6 → |d| < val (lit 0.0024607833005759250678823324) → |w - M| ≤ 0.00247 * M := by
      intro w d h1 h2
      have h3 : |1 - w / val mu| ≤ 0.002463 := by
        have := abs_sub_abs_le_abs_sub (1 - w / val mu) d
        rw [abs_sub_comm (1 - w / val mu) d] at this
        linarith [ct.2.2]
      rw [show 1 - w / val mu = (val mu - w) / val mu by field_simp, abs_div, abs_of_pos mu0, div_le_iff₀ mu0] at h3
      obtain ⟨q1, q2⟩ := _root_.abs_le.1 h3
      rw [_root_.abs_le]; constructor <;> linarith
    exact ⟨fx, fy, fz, hm, by rw [← hM]; linarith, conv _ _ ex tx, conv _ _ ey ty, conv _ _ ez tz⟩
  · intro ax ay az
    have conv : ∀ w d : ℚ, |d - (1 - w / val mu)| ≤ 1e-6 → |w - M| ≤ 0.002 * M → |d| < val (lit 0.0024607833005759250678823324) := by
      intro w d h1 h2
      have h3 : |1 - w / val mu| ≤ 0.00201 := by
        rw [show 1 - w / val mu = (val mu - w) / val mu by field_simp, abs_div, abs_of_pos mu0, div_le_iff₀ mu0]
        obtain ⟨q1, q2⟩ := _root_.abs_le.1 h2
        rw [_root_.abs_le]; constructor <;> linarith
      have := abs_sub_abs_le_abs_sub d (1 - w / val mu)
      linarith [ct.2.1]
    exact ⟨conv _ _ ez az, conv _ _ ex ax, conv _ _ ey ay⟩

/-! ### The series -/

theorem mul_abs {a b : BitVec 32} {A B C : ℚ} (fa : F32.Finite a) (fb : F32.Finite b) (ha : |val a| ≤ A) (hb : |val b| ≤ B)
    (hC : A * B * (1 + 1e-7) + 1e-45 ≤ C) (hC2 : A * B ≤ 1e30) : F32.Finite (F32.mul a b) ∧ |val (F32.mul a b)| ≤ C := by
  rw [mul_fin fa fb]
  have hp : |val a * val b| ≤ A * B := by
    rw [_root_.abs_mul]; exact mul_le_mul ha hb (abs_nonneg _) ((abs_nonneg _).trans ha)
  obtain ⟨f, e⟩ := rnd_err' (s := neg a ^^ neg b) (q := val a * val b) (hp.trans (hC2.trans (by norm_num)))
  refine ⟨f, ?_⟩
  have := abs_sub_abs_le_abs_sub (val (F32.rnd (neg a ^^ neg b) (val a * val b))) (val a * val b)
  generalize A * B = P at *
  have := abs_nonneg (val a * val b)
  linarith

theorem sub_absd {a b : BitVec 32} {m A C : ℚ} (fa : F32.Finite a) (fb : F32.Finite b) (h : |val a - val b - m| ≤ A)
    (hC : A + (A + |m|) / 16777216 + 1e-45 ≤ C) (hC2 : A + |m| ≤ 1e30) : F32.Finite (F32.sub a b) ∧ |val (F32.sub a b) - m| ≤ C := by
  rw [sub_fin fa fb]
  have hp : |val a - val b| ≤ A + |m| := by
    have := abs_sub_abs_le_abs_sub (val a - val b) m
    linarith
  obtain ⟨f, e⟩ := rnd_err' (s := neg a && !neg b) (q := val a - val b) (hp.trans (hC2.trans (by norm_num)))
  refine ⟨f, ?_⟩
  have t := abs_sub_le (val (F32.rnd (neg a && !neg b) (val a - val b))) (val a - val b) m
  linarith

theorem add_absd {a b : BitVec 32} {m A C : ℚ} (fa : F32.Finite a) (fb : F32.Finite b) (h : |val a + val b - m| ≤ A)
    (hC : A + (A + |m|) / 16777216 + 1e-45 ≤ C) (hC2 : A + |m| ≤ 1e30) : F32.Finite (F32.add a b) ∧ |val (F32.add a b) - m| ≤ C := by
  rw [add_fin fa fb]
  have hp : |val a + val b| ≤ A + |m| := by
    have := abs_sub_abs_le_abs_sub (val a + val b) m
    linarith
  obtain ⟨f, e⟩ := rnd_err' (s := neg a && neg b) (q := val a + val b) (hp.trans (hC2.trans (by norm_num)))
  refine ⟨f, ?_⟩
  have t := abs_sub_le (val (F32.rnd (neg a && neg b) (val a + val b))) (val a + val b) m
  linarith

theorem series_val {a b c : BitVec 32} (fa : F32.Finite a) (fb : F32.Finite b) (fc : F32.Finite c) (ha : |val a| ≤ 0.0025) (hb : |val b| ≤ 0.0025)
    (hc : |val c| ≤ 0.0025) : F32.Finite (rfSeries a b c) ∧ |val (rfSeries a b c) - 1| ≤ 1.5e-6 := by
  have k1 : F32.Finite (F32.div (lit 1) (lit 24)) ∧ |val (F32.div (lit 1) (lit 24))| ≤ 0.05 := by decide +kernel
  have k2 : F32.Finite (F32.div (lit 1) (lit 10)) ∧ |val (F32.div (lit 1) (lit 10)) - 0.1| ≤ 1e-8 := by decide +kernel
  have k3 : F32.Finite (F32.div (lit 3) (lit 44)) ∧ |val (F32.div (lit 3) (lit 44))| ≤ 0.07 := by decide +kernel
  have k4 : F32.Finite (F32.div (lit 1) (lit 14)) ∧ |val (F32.div (lit 1) (lit 14))| ≤ 0.08 := by decide +kernel
  unfold rfSeries
  simp only
  generalize F32.div (lit 1) (lit 24) = c1 at *
  generalize F32.div (lit 1) (lit 10) = c2 at *
  generalize F32.div (lit 3) (lit 44) = c3 at *
  generalize F32.div (lit 1) (lit 14) = c4 at *
  have m1 := mul_abs (C := 6.26e-6) fa fb ha hb (by norm_num) (by norm_num)
  generalize F32.mul a b = e2 at *
  have m2 := mul_abs (C := 1.6e-8) m1.1 fc m1.2 hc (by norm_num) (by norm_num)
  generalize F32.mul e2 c = e3 at *
  have m3 := mul_abs (C := 6.26e-6) fc fc hc hc (by norm_num) (by norm_num)
  generalize F32.mul c c = zz at *
  have m4 := sub_absd (m := 0) (A := 1.252e-5) (C := 1.253e-5) m1.1 m3.1 (by rw [sub_zero]; exact (abs_sub _ _).trans (by linarith [m1.2, m3.2])) (by norm_num) (by norm_num)
  rw [sub_zero] at m4
  generalize F32.sub e2 zz = E2 at *
  have m5 := mul_abs (C := 7e-7) k1.1 m4.1 k1.2 m4.2 (by norm_num) (by norm_num)
  generalize F32.mul c1 E2 = p1 at *
  have m6 := sub_absd (m := -0.1) (A := 7.2e-7) (C := 7.5e-7) m5.1 k2.1 (by
    obtain ⟨a1, a2⟩ := _root_.abs_le.1 m5.2
    obtain ⟨b1, b2⟩ := _root_.abs_le.1 k2.2
    rw [_root_.abs_le]; constructor <;> linarith) (by norm_num [abs_of_neg, abs_of_pos]) (by norm_num [abs_of_neg, abs_of_pos])
  generalize F32.sub p1 c2 = p2 at *
  have m7 := mul_abs (C := 2e-9) k3.1 m2.1 k3.2 m2.2 (by norm_num) (by norm_num)
  generalize F32.mul c3 e3 = p3 at *
  have m8 := sub_absd (m := -0.1) (A := 7.6e-7) (C := 8e-7) m6.1 m7.1 (by
    obtain ⟨a1, a2⟩ := _root_.abs_le.1 m6.2
    obtain ⟨b1, b2⟩ := _root_.abs_le.1 m7.2
    rw [_root_.abs_le]; constructor <;> linarith) (by norm_num [abs_of_neg, abs_of_pos]) (by norm_num [abs_of_neg, abs_of_pos])
  generalize F32.sub p2 p3 = p4 at *
  have m9 := mul_abs (A := 0.1001) (C := 1.26e-6) m8.1 m4.1 (by
    obtain ⟨a1, a2⟩ := _root_.abs_le.1 m8.2
    rw [_root_.abs_le]; constructor <;> linarith) m4.2 (by norm_num) (by norm_num)
  generalize F32.mul p4 E2 = p5 at *
  have m10 := add_absd (m := 1) (A := 1.26e-6) (C := 1.33e-6) c_one.1 m9.1 (by rw [c_one.2]; simpa using m9.2) (by norm_num [abs_of_neg, abs_of_pos]) (by norm_num [abs_of_neg, abs_of_pos])
  generalize F32.add (lit 1) p5 = p6 at *
  have m11 := mul_abs (C := 2e-9) k4.1 m2.1 k4.2 m2.2 (by norm_num) (by norm_num)
  generalize F32.mul c4 e3 = p7 at *
  exact add_absd (m := 1) (A := 1.34e-6) m10.1 m11.1 (by
    obtain ⟨a1, a2⟩ := _root_.abs_le.1 m10.2
    obtain ⟨b1, b2⟩ := _root_.abs_le.1 m11.2
    rw [_root_.abs_le]; constructor <;> linarith) (by norm_num [abs_of_neg, abs_of_pos]) (by norm_num [abs_of_neg, abs_of_pos])

end Verif.Ffmath
