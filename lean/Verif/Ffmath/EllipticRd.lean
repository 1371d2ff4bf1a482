import Verif.Ffmath.Elliptic
import Verif.Ffmath.EllipticRdReal
import Verif.Ffmath.Recip

/-!
# Accuracy of `ellint_rd` in binary32
-/

namespace Verif.Ffmath

open Verif F32

theorem rd_rel {x y z x' y' z' a b : ℝ} (h : RDDom x y z) (a0 : 0 ≤ a) (ha : a ≤ 1 / 100) (b0 : 0 ≤ b) (hb : b ≤ 1 / 100)
    (hx1 : x * (1 - a) ≤ x') (hx2 : x' ≤ x * (1 + b)) (hy1 : y * (1 - a) ≤ y') (hy2 : y' ≤ y * (1 + b))
    (hz1 : z * (1 - a) ≤ z') (hz2 : z' ≤ z * (1 + b)) :
    rdR x y z * (1 - 1.52 * b) ≤ rdR x' y' z' ∧ rdR x' y' z' ≤ rdR x y z * (1 + 1.6 * a) := by
  have hp := rd_pos h
  have ha1 : (0 : ℝ) < 1 - a := by linarith
  have hb1 : (0 : ℝ) < 1 + b := by linarith
  have scale : ∀ c : ℝ, 0 < c → RDDom (c * x) (c * y) (c * z) := fun c hc =>
    ⟨mul_nonneg hc.le h.x0, mul_nonneg hc.le h.y0, by rw [← mul_add]; exact mul_pos hc h.xy, mul_pos hc h.z0⟩
  rw [_root_.mul_comm x (1 - a), _root_.mul_comm y (1 - a), _root_.mul_comm z (1 - a), _root_.mul_comm x (1 + b), _root_.mul_comm y (1 + b), _root_.mul_comm z (1 + b)] at *
  have h' : RDDom x' y' z' := by
    have s := scale _ ha1
    exact ⟨by linarith [s.x0], by linarith [s.y0], by linarith [s.xy], by linarith [s.z0]⟩
  constructor
  · refine le_trans ?_ (rd_anti h' hx2 hy2 hz2)
    have q0 := Real.sqrt_pos.2 hb1
    rw [rd_scale h hb1, le_div_iff₀ (by positivity), mul_assoc]
    have hs : Real.sqrt (1 + b) ≤ 1 + b / 2 := by
      rw [Real.sqrt_le_left (by linarith)]; nlinarith
    have : (1 - 1.52 * b) * ((1 + b) * Real.sqrt (1 + b)) ≤ 1 := by
      calc (1 - 1.52 * b) * ((1 + b) * Real.sqrt (1 + b)) ≤ (1 - 1.52 * b) * ((1 + b) * (1 + b / 2)) := by
            refine mul_le_mul_of_nonneg_left (mul_le_mul_of_nonneg_left hs hb1.le) (by linarith)
        _ ≤ 1 := by nlinarith [mul_nonneg b0 b0, mul_nonneg b0 (sub_nonneg.2 hb), mul_nonneg (mul_nonneg b0 b0) b0]
    nlinarith
  · refine (rd_anti (scale _ ha1) hx1 hy1 hz1).trans ?_
    have q0 := Real.sqrt_pos.2 ha1
    rw [rd_scale h ha1, div_le_iff₀ (by positivity), mul_assoc]
    have hs : 1 - a / 2 - a ^ 2 / 4 ≤ Real.sqrt (1 - a) := by
      refine Real.le_sqrt_of_sq_le ?_
      nlinarith [sq_nonneg a, mul_nonneg a0 (sq_nonneg a), mul_nonneg (sq_nonneg a) (sq_nonneg a)]
    have : 1 ≤ (1 + 1.6 * a) * ((1 - a) * Real.sqrt (1 - a)) := by
      calc (1 : ℝ) ≤ (1 + 1.6 * a) * ((1 - a) * (1 - a / 2 - a ^ 2 / 4)) := by
            nlinarith [sq_nonneg a, mul_nonneg a0 (sub_nonneg.2 ha), mul_nonneg (sq_nonneg a) (sub_nonneg.2 ha), mul_nonneg (mul_nonneg a0 (sq_nonneg a)) (sub_nonneg.2 ha)]
        _ ≤ _ := mul_le_mul_of_nonneg_left (mul_le_mul_of_nonneg_left hs ha1.le) (by linarith)
    nlinarith

/-- The three numbers of a step. -/
theorem quarter_RN {x y z w : BitVec 32} (hx : SRange x) (hy : SRange y) (hz : SRange z) (hw : SRange w)
    (hl : 1e-4 ≤ lamR (val x) (val y) (val z)) :
    RN (quarterE w (lambdaE x y z)) (((val w : ℝ) + lamR (val x) (val y) (val z)) / 4) 5.8e-7 3.6e-6 := by
  have hL := lambda_RN hx hy hz
  have lu : lamR (val x) (val y) (val z) ≤ 100 := by
    obtain ⟨-, ux, x0⟩ := hx.root_range
    obtain ⟨-, uy, y0⟩ := hy.root_range
    obtain ⟨-, uz, z0⟩ := hz.root_range
    unfold lamR
    nlinarith
  generalize lambdaE x y z = l at *
  generalize lamR (val x) (val y) (val z) = L at *
  have w0 := hw.nonneg
  have w0' : (0 : ℝ) ≤ (val w : ℝ) := by exact_mod_cast w0
  have w1 : (val w : ℝ) ≤ 4 := by exact_mod_cast hw.2.2
  have l1 := hL.lo
  have l2 := hL.hi
  have q1 : (1e-30 : ℚ) ≤ val w + val l := by
    have : ((1e-30 : ℚ) : ℝ) ≤ ((val w + val l : ℚ) : ℝ) := by push_cast; nlinarith
    exact_mod_cast this
  have q2 : val w + val l ≤ (1e30 : ℚ) := by
    have : ((val w + val l : ℚ) : ℝ) ≤ ((1e30 : ℚ) : ℝ) := by push_cast; nlinarith
    exact_mod_cast this
  obtain ⟨f, a1, a2⟩ := quarter_val hw.1 hL.fin q1 q2
  have a1' : ((val w : ℝ) + (val l : ℝ)) / 4 * (1 - 6e-8) ≤ (val (quarterE w l) : ℝ) := by
    have : (((val w + val l) / 4 * (1 - 6e-8) : ℚ) : ℝ) ≤ ((val (quarterE w l) : ℚ) : ℝ) := by exact_mod_cast a1
    push_cast at this; exact this
  have a2' : (val (quarterE w l) : ℝ) ≤ ((val w : ℝ) + (val l : ℝ)) / 4 * (1 + 6e-8) := by
    have : ((val (quarterE w l) : ℚ) : ℝ) ≤ (((val w + val l) / 4 * (1 + 6e-8) : ℚ) : ℝ) := by exact_mod_cast a2
    push_cast at this; exact this
  refine ⟨f, le_trans ?_ a1', a2'.trans ?_⟩
  · nlinarith
  · nlinarith

theorem RN.div {f g : BitVec 32} {t u a b : ℝ} (hf : F32.Finite f) (ht : (val f : ℝ) = t) (hg : RN g u a b) (h : 1e-30 ≤ t)
    (u0 : 1e-20 ≤ u) (ha : a ≤ 1e-4) (ha0 : 0 ≤ a) (hb0 : 0 ≤ b) (hb : b ≤ 1e-4) (hq : 1e-36 ≤ t / u) (hq2 : t / u ≤ 1e36) :
    RN (F32.div f g) (t / u) (b + 6e-8) (1.001 * a + 6e-8) := by
  have u0' : 0 < u := by linarith
  have t0 : 0 < t := by linarith
  have g0 : (0 : ℝ) < (val g : ℝ) := lt_of_lt_of_le (mul_pos u0' (by linarith)) hg.lo
  have g0' : val g ≠ 0 := by have : 0 < val g := by exact_mod_cast g0
                             exact this.ne'
  rw [div_fin hf hg.fin g0']
  have key := RN.rnd (s := neg f ^^ neg g) (q := val f / val g) (t := t / u) (a := b) (b := 1.001 * a) (.inr hq) (by norm_num at hq2 ⊢; linarith)
    (by linarith) hb0 (by linarith) (by norm_num at ha ⊢; linarith)
    (by
      push_cast; rw [ht, div_mul_eq_mul_div, div_le_div_iff₀ u0' g0]
      calc t * (1 - b) * (val g : ℝ) ≤ t * (1 - b) * (u * (1 + b)) := mul_le_mul_of_nonneg_left hg.hi (mul_nonneg t0.le (by linarith))
        _ = t * u * (1 - b ^ 2) := by ring
        _ ≤ t * u * 1 := mul_le_mul_of_nonneg_left (by nlinarith) (by positivity)
        _ = t * u := mul_one _)
    (by
      push_cast; rw [ht, div_mul_eq_mul_div, div_le_div_iff₀ g0 u0']
      calc t * u = t * u * 1 := (mul_one _).symm
        _ ≤ t * u * ((1 + 1.001 * a) * (1 - a)) := mul_le_mul_of_nonneg_left (by nlinarith) (by positivity)
        _ = t * (1 + 1.001 * a) * (u * (1 - a)) := by ring
        _ ≤ _ := mul_le_mul_of_nonneg_left hg.lo (by positivity))
  exact key.weaken (by positivity) (by linarith) (by linarith)

/-- One step of the loop of `ellint_rd`. -/
theorem rd_step {x y z p σ : BitVec 32} (hx : SRange x) (hy : SRange y) (hz : SRange z) (hz1 : 1e-5 ≤ val z) (hd : RDDom (val x) (val y) (val z))
    (hl : 1e-4 ≤ lamR (val x) (val y) (val z)) (fp : F32.Finite p) (p0 : 1e-9 ≤ val p) (p1 : val p ≤ 1)
    (fs : F32.Finite σ) (s0 : 0 ≤ val σ) (s1 : val σ ≤ 1e8) :
    let l := lambdaE x y z
    let σ' := F32.add σ (F32.div p (F32.mul (sqrt z) (F32.add z l)))
    let R' := rdR (val (quarterE x l)) (val (quarterE y l)) (val (quarterE z l))
    F32.Finite σ' ∧ 0 ≤ val σ' ∧ val σ' ≤ val σ + 4e6 ∧
    (3 * (val σ : ℝ) + val p * rdR (val x) (val y) (val z)) * (1 - 5.6e-6) ≤ 3 * (val σ' : ℝ) + val p / 4 * R' ∧
    3 * (val σ' : ℝ) + val p / 4 * R' ≤ (3 * (val σ : ℝ) + val p * rdR (val x) (val y) (val z)) * (1 + 1e-6) := by
  simp only
  have qx := quarter_RN hx hy hz hx hl
  have qy := quarter_RN hx hy hz hy hl
  have qz := quarter_RN hx hy hz hz hl
  have hL := lambda_RN hx hy hz
  have lu : lamR (val x) (val y) (val z) ≤ 100 := by
    obtain ⟨-, ux, x0⟩ := hx.root_range
    obtain ⟨-, uy, y0⟩ := hy.root_range
    obtain ⟨-, uz, z0⟩ := hz.root_range
    unfold lamR
    nlinarith
  obtain ⟨d1, d2, d3⟩ := rf_dup_dom hd.rf
  have hr := rd_rel (a := 5.8e-7) (b := 3.6e-6) (⟨d1.le, d2.le, by linarith, d3⟩ : RDDom _ _ _) (by norm_num) (by norm_num) (by norm_num) (by norm_num)
    qx.lo qx.hi qy.lo qy.hi qz.lo qz.hi
  have hrp := rd_pos (⟨d1.le, d2.le, by linarith, d3⟩ : RDDom _ _ _)
  have hdup := rd_dup hd
  have hroot := hz.root
  have hz1r : (1e-5 : ℝ) ≤ (val z : ℝ) := by
    have : ((1e-5 : ℚ) : ℝ) ≤ (val z : ℝ) := by exact_mod_cast hz1
    push_cast at this; exact this
  have hz4 : (val z : ℝ) ≤ 4 := by exact_mod_cast hz.2.2
  have r0 : 3e-3 ≤ Real.sqrt (val z : ℝ) := Real.le_sqrt_of_sq_le (by norm_num at hz1r ⊢; linarith)
  have r1 := hz.root_range.2.1
  generalize lambdaE x y z = l at *
  generalize hLe : lamR (val x) (val y) (val z) = L at *
  generalize rdR (((val x : ℝ) + L) / 4) (((val y : ℝ) + L) / 4) (((val z : ℝ) + L) / 4) = R1 at *
  generalize rdR (val (quarterE x l)) (val (quarterE y l)) (val (quarterE z l)) = R' at *
  have zs : RN z (val z) 0 0 := RN.self hz.1
  have n1 := (zs.weaken (a' := 5.1e-7) (b' := 3.51e-6) (by linarith) (by norm_num) (by norm_num)).add hL (.inr (by norm_num at hz1r hl ⊢; linarith)) (by norm_num at lu hz4 ⊢; linarith)
    (by norm_num) (by norm_num) (by norm_num) (by norm_num)
  have den1 : 3e-7 ≤ Real.sqrt (val z : ℝ) * ((val z : ℝ) + L) := by
    calc (3e-7 : ℝ) = 3e-3 * 1e-4 := by norm_num
      _ ≤ _ := mul_le_mul r0 (by linarith) (by norm_num) (by linarith)
  have den2 : Real.sqrt (val z : ℝ) * ((val z : ℝ) + L) ≤ 208 := by
    calc Real.sqrt (val z : ℝ) * ((val z : ℝ) + L) ≤ 2 * 104 := mul_le_mul r1 (by linarith) (by linarith) (by norm_num)
      _ = 208 := by norm_num
  have n2 := hroot.mul n1 (by linarith) (by linarith) (.inr (by norm_num at den1 ⊢; linarith)) (by norm_num at den2 ⊢; linarith)
    (by norm_num) (by norm_num) (by norm_num) (by norm_num) (by norm_num) (by norm_num) (by norm_num) (by norm_num)
  have den0 : 0 < Real.sqrt (val z : ℝ) * ((val z : ℝ) + L) := by linarith
  generalize Real.sqrt (val z : ℝ) * ((val z : ℝ) + L) = den at *
  have p0r : (1e-9 : ℝ) ≤ (val p : ℝ) := by
    have : ((1e-9 : ℚ) : ℝ) ≤ (val p : ℝ) := by exact_mod_cast p0
    push_cast at this; exact this
  have p1r : (val p : ℝ) ≤ 1 := by exact_mod_cast p1
  have t1 : (val p : ℝ) / den ≤ 3.4e6 := by
    rw [div_le_iff₀ den0]
    norm_num at den1 ⊢; linarith
  have t2 : 1e-12 ≤ (val p : ℝ) / den := by
    rw [le_div_iff₀ den0]
    norm_num at den2 p0r ⊢; linarith
  have n3 := RN.div fp rfl n2 (by norm_num at p0r ⊢; linarith) (by norm_num at den1 ⊢; linarith)
    (by norm_num) (by norm_num) (by norm_num) (by norm_num) (by norm_num at t2 ⊢; linarith) (by norm_num at t1 ⊢; linarith)
  have s0r : (0 : ℝ) ≤ (val σ : ℝ) := by exact_mod_cast s0
  have s1r : (val σ : ℝ) ≤ 1e8 := by
    have : (val σ : ℝ) ≤ ((1e8 : ℚ) : ℝ) := by exact_mod_cast s1
    push_cast at this; exact this
  have t0 : 0 ≤ (val p : ℝ) / den := by norm_num at t2; linarith
  have n4 := ((RN.self fs).weaken (a' := 5.4e-6) (b' := 8.6e-7) s0r (by norm_num) (by norm_num)).add
    (n3.weaken (a' := 5.4e-6) (b' := 8.6e-7) t0 (by norm_num) (by norm_num)) (.inr (by norm_num at t2 ⊢; linarith)) (by norm_num at s1r t1 ⊢; linarith)
    (by norm_num) (by norm_num) (by norm_num) (by norm_num)
  have lo := n4.lo
  have hi := n4.hi
  have hdup' : (val p : ℝ) * rdR (val x) (val y) (val z) = 3 * (val p / den) + val p / 4 * R1 := by rw [hdup]; ring
  rw [hdup']
  have w1 : (val p : ℝ) / 4 * (R1 * (1 - 1.52 * 3.6e-6)) ≤ val p / 4 * R' := mul_le_mul_of_nonneg_left hr.1 (by norm_num at p0r; linarith)
  have w2 : (val p : ℝ) / 4 * R' ≤ val p / 4 * (R1 * (1 + 1.6 * 5.8e-7)) := mul_le_mul_of_nonneg_left hr.2 (by norm_num at p0r; linarith)
  rw [← mul_assoc] at w1 w2
  have w0 : 0 ≤ (val p : ℝ) / 4 * R1 := mul_nonneg (by norm_num at p0r; linarith) hrp.le
  generalize (val p : ℝ) / den = t at *
  generalize (val p : ℝ) / 4 * R1 = W at *
  generalize (val p : ℝ) / 4 * R' = W' at *
  have fin := n4.fin
  generalize F32.add σ (F32.div p (F32.mul (sqrt z) (F32.add z l))) = σ' at *
  refine ⟨fin, ?_, ?_, ?_, ?_⟩
  · have : (0 : ℝ) ≤ (val σ' : ℝ) := le_trans (mul_nonneg (by linarith) (by norm_num)) lo
    exact_mod_cast this
  · have : (val σ' : ℝ) ≤ ((val σ + 4e6 : ℚ) : ℝ) := by
      push_cast; norm_num at hi s1r t1 ⊢; linarith
    exact_mod_cast this
  · norm_num at lo w1 ⊢; linarith
  · norm_num at hi w2 ⊢; linarith

end Verif.Ffmath
