import Verif.Ffmath.EllipticModel
import Verif.Ffmath.EllipticReal
import Verif.Ffmath.Ahyper
import Verif.Ffmath.Circle
import Verif.Ffmath.Laguerre

/-!
# One step of the duplication in binary32

Nothing here is a definition of the repository.
-/

namespace Verif.Ffmath

open Verif F32

/-- A float between `t (1 - a)` and `t (1 + b)` (not a definition of the repository). -/
structure RN (f : BitVec 32) (t a b : ℝ) : Prop where
  fin : F32.Finite f
  lo : t * (1 - a) ≤ (val f : ℝ)
  hi : (val f : ℝ) ≤ t * (1 + b)

theorem RN.weaken {f : BitVec 32} {t a b a' b' : ℝ} (h : RN f t a b) (ht : 0 ≤ t) (ha : a ≤ a') (hb : b ≤ b') : RN f t a' b' :=
  ⟨h.fin, le_trans (mul_le_mul_of_nonneg_left (by linarith) ht) h.lo, h.hi.trans (mul_le_mul_of_nonneg_left (by linarith) ht)⟩

theorem RN.self {f : BitVec 32} (h : F32.Finite f) : RN f (val f) 0 0 := ⟨h, by simp, by simp⟩

/-- Rounding a number that is zero or not too small. -/
theorem RN.rnd {s : Bool} {q : ℚ} {t a b : ℝ} (ht : t = 0 ∨ 1e-36 ≤ t) (ht2 : t ≤ 1e37) (ha : a ≤ 1 / 2) (ha0 : 0 ≤ a) (hb0 : 0 ≤ b) (hb : b ≤ 1e-3)
    (h1 : t * (1 - a) ≤ (q : ℝ)) (h2 : (q : ℝ) ≤ t * (1 + b)) : RN (F32.rnd s q) t (a + 5.97e-8) (b + 5.97e-8) := by
  rcases ht with rfl | ht
  · have : (q : ℝ) = 0 := by linarith
    have hq : q = 0 := by exact_mod_cast this
    subst hq
    have e := rnd_between (s := s) (q := 0) c_zero.1 c_zero.1 (by rw [c_zero.2]) (by rw [c_zero.2])
    rw [c_zero.2] at e
    have v : val (F32.rnd s 0) = 0 := le_antisymm e.2.2 e.2.1
    exact ⟨e.1, by rw [v]; simp, by rw [v]; simp⟩
  · have t0 : 0 < t := by linarith
    have q1 : (1.2e-38 : ℝ) ≤ (q : ℝ) := by
      refine le_trans ?_ h1
      have : t * (1 / 2) ≤ t * (1 - a) := mul_le_mul_of_nonneg_left (by linarith) t0.le
      norm_num at *; linarith
    have q2 : (q : ℝ) ≤ 1.7e38 := by
      refine h2.trans ?_
      have : t * (1 + b) ≤ t * 1.1 := mul_le_mul_of_nonneg_left (by linarith) t0.le
      norm_num at *; linarith
    have q1' : (1.2e-38 : ℚ) ≤ q := by
      have : ((1.2e-38 : ℚ) : ℝ) ≤ (q : ℝ) := by push_cast; exact q1
      exact_mod_cast this
    have q2' : q ≤ 1.7e38 := by
      have : (q : ℝ) ≤ ((1.7e38 : ℚ) : ℝ) := by push_cast; exact q2
      exact_mod_cast this
    have q0 : 0 < q := by linarith
    obtain ⟨f, ε, he, hv⟩ := rnd_eps' (s := s) (q := q) (by rw [abs_of_pos q0]; exact q1') (by rw [abs_of_pos q0]; exact q2')
    obtain ⟨e1, e2⟩ := _root_.abs_le.1 he
    have e1' : -(1 / 16777216 : ℝ) ≤ (ε : ℝ) := by
      have : ((-(1 / 16777216) : ℚ) : ℝ) ≤ (ε : ℝ) := by exact_mod_cast e1
      push_cast at this; exact this
    have e2' : (ε : ℝ) ≤ 1 / 16777216 := by
      have : (ε : ℝ) ≤ ((1 / 16777216 : ℚ) : ℝ) := by exact_mod_cast e2
      push_cast at this; exact this
    have hv' : ((val (F32.rnd s q) : ℚ) : ℝ) = (q : ℝ) * (1 + (ε : ℝ)) := by rw [hv]; push_cast; ring
    refine ⟨f, ?_, ?_⟩
    · rw [hv']
      calc t * (1 - (a + 5.97e-8)) ≤ t * ((1 - a) * (1 - 1 / 16777216)) := by
            refine mul_le_mul_of_nonneg_left ?_ t0.le
            nlinarith
        _ = t * (1 - a) * (1 - 1 / 16777216) := by ring
        _ ≤ (q : ℝ) * (1 + (ε : ℝ)) := mul_le_mul h1 (by linarith) (by norm_num) (by exact_mod_cast q0.le)
    · rw [hv']
      calc (q : ℝ) * (1 + (ε : ℝ)) ≤ t * (1 + b) * (1 + 1 / 16777216) := mul_le_mul h2 (by linarith) (by linarith) (by positivity)
        _ = t * ((1 + b) * (1 + 1 / 16777216)) := by ring
        _ ≤ t * (1 + (b + 5.97e-8)) := by
            refine mul_le_mul_of_nonneg_left ?_ t0.le
            nlinarith

theorem RN.add {f g : BitVec 32} {t u a b : ℝ} (hf : RN f t a b) (hg : RN g u a b) (h : t + u = 0 ∨ 1e-36 ≤ t + u) (h2 : t + u ≤ 1e37)
    (ha : a ≤ 1 / 2) (ha0 : 0 ≤ a) (hb0 : 0 ≤ b) (hb : b ≤ 1e-3) : RN (F32.add f g) (t + u) (a + 5.97e-8) (b + 5.97e-8) := by
  rw [add_fin hf.fin hg.fin]
  refine RN.rnd h h2 ha ha0 hb0 hb ?_ ?_
  · push_cast; rw [add_mul]; exact add_le_add hf.lo hg.lo
  · push_cast; rw [add_mul]; exact add_le_add hf.hi hg.hi

theorem RN.mul {f g : BitVec 32} {t u a b a' b' : ℝ} (hf : RN f t a b) (hg : RN g u a' b') (ht : 0 ≤ t) (hu : 0 ≤ u)
    (h : t * u = 0 ∨ 1e-36 ≤ t * u) (h2 : t * u ≤ 1e37)
    (ha : a ≤ 1 / 4) (ha0 : 0 ≤ a) (ha' : a' ≤ 1 / 4) (ha0' : 0 ≤ a') (hb0 : 0 ≤ b) (hb : b ≤ 1e-5) (hb0' : 0 ≤ b') (hb' : b' ≤ 1e-5) :
    RN (F32.mul f g) (t * u) (a + a' + 6e-8) (b + b' + 6e-8) := by
  rw [mul_fin hf.fin hg.fin]
  have hbb : b * b' ≤ 1e-10 := by nlinarith
  have hbb0 : 0 ≤ b * b' := mul_nonneg hb0 hb0'
  have haa0 : 0 ≤ a * a' := mul_nonneg ha0 ha0'
  have f0 : (0 : ℝ) ≤ (val f : ℝ) := le_trans (mul_nonneg ht (by linarith)) hf.lo
  have g0 : (0 : ℝ) ≤ (val g : ℝ) := le_trans (mul_nonneg hu (by linarith)) hg.lo
  have tu : 0 ≤ t * u := mul_nonneg ht hu
  have key := RN.rnd (s := neg f ^^ neg g) (q := val f * val g) (t := t * u) (a := a + a') (b := b + b' + b * b') h h2 (by linarith) (by linarith) (by linarith) (by linarith)
    (by
      push_cast
      calc t * u * (1 - (a + a')) ≤ t * u * ((1 - a) * (1 - a')) := mul_le_mul_of_nonneg_left (by nlinarith) tu
        _ = (t * (1 - a)) * (u * (1 - a')) := by ring
        _ ≤ _ := mul_le_mul hf.lo hg.lo (mul_nonneg hu (by linarith)) f0)
    (by
      push_cast
      calc (val f : ℝ) * (val g : ℝ) ≤ (t * (1 + b)) * (u * (1 + b')) := mul_le_mul hf.hi hg.hi g0 (by positivity)
        _ = t * u * (1 + (b + b' + b * b')) := by ring)
  exact key.weaken tu (by linarith) (by linarith)

/-- The square root of the library. -/
theorem sqrt_RN {f : BitVec 32} (hf : F32.Finite f) (h : val f = 0 ∨ 2 ^ (-126 : ℤ) ≤ val f) : RN (sqrt f) (Real.sqrt (val f)) 1.6e-7 1.66e-6 := by
  rcases h with h | h
  · rw [(C76_special f).2 h hf, h]
    refine ⟨c_zero.1, ?_, ?_⟩ <;> rw [c_zero.2] <;> simp
  · obtain ⟨f1, p, l, u⟩ := sqrt_sq hf h
    have v0 : (0 : ℝ) ≤ (val f : ℝ) := by exact_mod_cast (le_trans (by positivity) h : 0 ≤ val f)
    have hs := Real.sqrt_nonneg (val f : ℝ)
    have hq := Real.sq_sqrt v0
    have l' : ((1 - 0.0000003 : ℝ)) * (val f : ℝ) ≤ (val (sqrt f) : ℝ) ^ 2 := by
      have : (((1 - 0.0000003) * val f : ℚ) : ℝ) ≤ ((val (sqrt f) ^ 2 : ℚ) : ℝ) := by exact_mod_cast l
      push_cast at this; exact this
    have u' : (val (sqrt f) : ℝ) ^ 2 ≤ (1 + 0.0000033 : ℝ) * (val f : ℝ) := by
      have : ((val (sqrt f) ^ 2 : ℚ) : ℝ) ≤ (((1 + 0.0000033) * val f : ℚ) : ℝ) := by exact_mod_cast u
      push_cast at this; exact this
    have p' : (0 : ℝ) ≤ (val (sqrt f) : ℝ) := by exact_mod_cast p.le
    rw [← hq] at l' u'
    suffices H : Real.sqrt (val f : ℝ) * (1 - 1.6e-7) ≤ (val (sqrt f) : ℝ) ∧ (val (sqrt f) : ℝ) ≤ Real.sqrt (val f : ℝ) * (1 + 1.66e-6) from ⟨f1, H.1, H.2⟩
    generalize Real.sqrt (val f : ℝ) = S at *
    generalize (val (sqrt f) : ℝ) = T at *
    constructor
    · refine (sq_le_sq₀ (a := S * (1 - 1.6e-7)) (mul_nonneg hs (by norm_num)) p').1 (le_trans ?_ l')
      nlinarith [sq_nonneg S]
    · refine (sq_le_sq₀ (b := S * (1 + 1.66e-6)) p' (mul_nonneg hs (by norm_num))).1 (le_trans u' ?_)
      nlinarith [sq_nonneg S]

/-- The range of the arguments of a step: zero or not too small, and at most 4 (not a definition of the repository). -/
def SRange (f : BitVec 32) : Prop := F32.Finite f ∧ (val f = 0 ∨ 1e-30 ≤ val f) ∧ val f ≤ 4

theorem SRange.nonneg {f : BitVec 32} (h : SRange f) : 0 ≤ val f := by rcases h.2.1 with h | h <;> linarith

theorem SRange.root {f : BitVec 32} (h : SRange f) : RN (sqrt f) (Real.sqrt (val f)) 1.6e-7 1.66e-6 :=
  sqrt_RN h.1 (h.2.1.imp id fun h => le_trans (by norm_num) h)

theorem SRange.root_range {f : BitVec 32} (h : SRange f) :
    (Real.sqrt (val f : ℝ) = 0 ∨ 1e-15 ≤ Real.sqrt (val f : ℝ)) ∧ Real.sqrt (val f : ℝ) ≤ 2 ∧ 0 ≤ Real.sqrt (val f : ℝ) := by
  refine ⟨?_, ?_, Real.sqrt_nonneg _⟩
  · rcases h.2.1 with h | h
    · left; rw [h]; simp
    · right
      refine Real.le_sqrt_of_sq_le ?_
      have : ((1e-30 : ℚ) : ℝ) ≤ (val f : ℝ) := by exact_mod_cast h
      push_cast at this
      norm_num at *; linarith
  · rw [Real.sqrt_le_left (by norm_num)]
    have : (val f : ℝ) ≤ ((4 : ℚ) : ℝ) := by exact_mod_cast h.2.2
    push_cast at this; norm_num; linarith

theorem prod_range {a b : ℝ} (ha : a = 0 ∨ 1e-15 ≤ a) (hb : b = 0 ∨ 1e-15 ≤ b) : a * b = 0 ∨ 1e-36 ≤ a * b := by
  rcases ha with rfl | ha
  · left; simp
  rcases hb with rfl | hb
  · left; simp
  right
  have := mul_le_mul ha hb (by norm_num) (by linarith)
  norm_num at *; linarith

theorem sum_range {a b c : ℝ} (ha : a = 0 ∨ c ≤ a) (hb : b = 0 ∨ c ≤ b) (a0 : 0 ≤ a) (b0 : 0 ≤ b) : a + b = 0 ∨ c ≤ a + b := by
  rcases ha with rfl | ha
  · rcases hb with rfl | hb
    · left; simp
    · right; linarith
  · right; linarith

/-- `lambda`. -/
theorem lambda_RN {x y z : BitVec 32} (hx : SRange x) (hy : SRange y) (hz : SRange z) :
    RN (lambdaE x y z) (lamR (val x) (val y) (val z)) 5.1e-7 3.51e-6 := by
  obtain ⟨rx, ux, x0⟩ := hx.root_range
  obtain ⟨ry, uy, y0⟩ := hy.root_range
  obtain ⟨rz, uz, z0⟩ := hz.root_range
  have sx := hx.root
  have sy := hy.root
  have sz := hz.root
  unfold lambdaE lamR
  simp only
  have s1 := (sy.add sz ((sum_range ry rz y0 z0).imp id fun h => by norm_num at *; linarith) (by norm_num at *; linarith) (by norm_num) (by norm_num) (by norm_num) (by norm_num))
  have p1 := sx.mul s1 x0 (by linarith) (prod_range rx (sum_range ry rz y0 z0)) (by
    have := mul_le_mul ux (by linarith : Real.sqrt (val y : ℝ) + Real.sqrt (val z : ℝ) ≤ 4) (by linarith) (by norm_num)
    norm_num at *; linarith) (by norm_num) (by norm_num) (by norm_num) (by norm_num) (by norm_num) (by norm_num) (by norm_num) (by norm_num)
  have p2 := sy.mul sz y0 z0 (prod_range ry rz) (by
    have := mul_le_mul uy uz z0 (by norm_num)
    norm_num at *; linarith) (by norm_num) (by norm_num) (by norm_num) (by norm_num) (by norm_num) (by norm_num) (by norm_num) (by norm_num)
  have q1 : 0 ≤ Real.sqrt (val x : ℝ) * (Real.sqrt (val y : ℝ) + Real.sqrt (val z : ℝ)) := by positivity
  have q2 : 0 ≤ Real.sqrt (val y : ℝ) * Real.sqrt (val z : ℝ) := by positivity
  have r := (p1.weaken q1 (a' := 4.4e-7) (b' := 3.44e-6) (by norm_num) (by norm_num)).add (p2.weaken q2 (a' := 4.4e-7) (b' := 3.44e-6) (by norm_num) (by norm_num))
    (sum_range (prod_range rx (sum_range ry rz y0 z0)) (prod_range ry rz) q1 q2)
    (by
      have a1 := mul_le_mul ux (by linarith : Real.sqrt (val y : ℝ) + Real.sqrt (val z : ℝ) ≤ 4) (by linarith) (by norm_num)
      have a2 := mul_le_mul uy uz z0 (by norm_num)
      norm_num at *; linarith) (by norm_num) (by norm_num) (by norm_num) (by norm_num)
  exact r.weaken (by linarith) (by norm_num) (by norm_num)

theorem quarter_const : F32.Finite (F32.div (lit 1) (lit 4)) ∧ val (F32.div (lit 1) (lit 4)) = 1 / 4 := by decide +kernel

/-- Both roundings of `c0*( xn + lambda )`: the second is exact. -/
theorem quarter_val {x l : BitVec 32} (fx : F32.Finite x) (fl : F32.Finite l) (h0 : 1e-30 ≤ val x + val l) (h1 : val x + val l ≤ 1e30) :
    F32.Finite (quarterE x l) ∧ (val x + val l) / 4 * (1 - 6e-8) ≤ val (quarterE x l) ∧ val (quarterE x l) ≤ (val x + val l) / 4 * (1 + 6e-8) := by
  have hp : 0 < val x + val l := by linarith
  obtain ⟨fs, ε, he, hv⟩ := add_eps fx fl (by rw [abs_of_pos hp]; linarith) (by rw [abs_of_pos hp]; linarith)
  obtain ⟨e1, e2⟩ := _root_.abs_le.1 he
  unfold quarterE
  obtain ⟨c1, c2⟩ := quarter_const
  have hs1 : (1e-31 : ℚ) ≤ val (F32.add x l) := by rw [hv]; nlinarith
  have hs2 : val (F32.add x l) ≤ 2e30 := by rw [hv]; nlinarith
  generalize F32.add x l = s at *
  obtain ⟨fq, vq⟩ := half_exact fs (by
    rw [abs_of_pos (by linarith)]
    exact le_trans (by norm_num) hs1)
  obtain ⟨fr, vr⟩ := half_exact fq (by
    rw [vq, abs_of_pos (by linarith)]
    exact le_trans (by norm_num) (div_le_div_of_nonneg_right hs1 (by norm_num)))
  obtain ⟨fm, vm⟩ := mul_exact c1 fs fr (by rw [c2, vr, vq]; ring)
  rw [vr, vq, hv] at vm
  refine ⟨fm, ?_, ?_⟩ <;> rw [vm]
  · nlinarith
  · nlinarith

end Verif.Ffmath
