import Verif.Ffmath.Range
import Verif.Ffmath.Exp

/-!
# `inCircle` (C97)

IEEE binary32 arithmetic.
-/

namespace Verif.Ffmath

open Verif F32

theorem rnd_err' {s : Bool} {q : ℚ} (h : |q| ≤ 3.4e38) : Finite (rnd s q) ∧ |val (rnd s q) - q| ≤ |q| / 16777216 + 1e-45 := by
  have f : Finite (rnd s q) := rnd_finite' h
  refine ⟨f, (rnd_err f).trans (max_le ?_ ?_)⟩
  · have := abs_nonneg q
    norm_num; linarith
  · have h1 : (2 : ℚ) ^ (-150 : ℤ) ≤ 1e-45 := by norm_num
    have := abs_nonneg q
    have : 0 ≤ |q| / 16777216 := by positivity
    linarith

/-- The rounded square of a rounded difference. -/
theorem square_near {a b : BitVec 32} (ha : Finite a) (hb : Finite b) (h : |val a - val b| ≤ 4e18) :
    Finite (mul (sub a b) (sub a b)) ∧
      |val (mul (sub a b) (sub a b)) - (val a - val b) ^ 2| ≤ 1.8e-7 * (val a - val b) ^ 2 + 1e-45 := by
  obtain ⟨fu, eu⟩ := sub_rel ha hb (h.trans (by norm_num))
  generalize sub a b = u at *
  generalize val a - val b = U at *
  have hu : |val u| ≤ 5e18 := by
    have := abs_sub_abs_le_abs_sub (val u) U
    generalize |val u| = A at *
    generalize |U| = B at *
    norm_num at *; linarith
  have hq : |val u * val u| ≤ 2.5e37 := by
    rw [abs_mul]
    exact (mul_le_mul hu hu (abs_nonneg _) (by norm_num)).trans (by norm_num)
  rw [mul_fin fu fu]
  obtain ⟨f, e⟩ := rnd_err' (s := neg u ^^ neg u) (hq.trans (by norm_num))
  refine ⟨f, ?_⟩
  have h1 : |val u * val u - U ^ 2| ≤ 1.1921e-7 * U ^ 2 := by
    rw [show val u * val u - U ^ 2 = (val u - U) * (2 * U + (val u - U)) by ring, abs_mul]
    have h2 : |2 * U + (val u - U)| ≤ |U| * (2 + 1 / 16777216) := by
      refine (abs_add_le _ _).trans ?_
      rw [abs_mul, abs_of_pos (by norm_num : (0 : ℚ) < 2)]
      linarith
    have h3 := mul_le_mul eu h2 (abs_nonneg _) (by positivity)
    refine h3.trans ?_
    rw [← sq_abs U]
    have := sq_nonneg |U|
    rw [show |U| / 16777216 * (|U| * (2 + 1 / 16777216)) = |U| ^ 2 * (1 / 16777216 * (2 + 1 / 16777216)) by ring]
    generalize |U| ^ 2 = Z at *
    norm_num at *; linarith
  rw [abs_of_nonneg (mul_self_nonneg (val u))] at e
  have hs := sq_nonneg U
  generalize U ^ 2 = Z at *
  generalize val (rnd (neg u ^^ neg u) (val u * val u)) = m at *
  generalize val u * val u = q at *
  obtain ⟨a1, a2⟩ := _root_.abs_le.1 h1
  obtain ⟨b1, b2⟩ := _root_.abs_le.1 e
  rw [_root_.abs_le]
  constructor <;> norm_num at * <;> linarith

/-- The computed square of the distance. -/
theorem dist_near {x y cx cy : BitVec 32} (hx : Finite x) (hy : Finite y) (hcx : Finite cx) (hcy : Finite cy)
    (h1 : |val x - val cx| ≤ 4e18) (h2 : |val y - val cy| ≤ 4e18) :
    Finite (add (mul (sub x cx) (sub x cx)) (mul (sub y cy) (sub y cy))) ∧
      |val (add (mul (sub x cx) (sub x cx)) (mul (sub y cy) (sub y cy))) - ((val x - val cx) ^ 2 + (val y - val cy) ^ 2)| ≤
        2.5e-7 * ((val x - val cx) ^ 2 + (val y - val cy) ^ 2) + 4e-45 := by
  obtain ⟨f1, e1⟩ := square_near hx hcx h1
  obtain ⟨f2, e2⟩ := square_near hy hcy h2
  have q1 : (val x - val cx) ^ 2 ≤ 1.6e37 := by
    rw [← sq_abs]; exact (pow_le_pow_left₀ (abs_nonneg _) h1 2).trans (by norm_num)
  have q2 : (val y - val cy) ^ 2 ≤ 1.6e37 := by
    rw [← sq_abs]; exact (pow_le_pow_left₀ (abs_nonneg _) h2 2).trans (by norm_num)
  have p1 := sq_nonneg (val x - val cx)
  have p2 := sq_nonneg (val y - val cy)
  rw [add_fin f1 f2]
  generalize (val x - val cx) ^ 2 = A at *
  generalize (val y - val cy) ^ 2 = B at *
  generalize mul (sub x cx) (sub x cx) = a at *
  generalize mul (sub y cy) (sub y cy) = b at *
  obtain ⟨a1, a2⟩ := _root_.abs_le.1 e1
  obtain ⟨b1, b2⟩ := _root_.abs_le.1 e2
  have hs : |val a + val b| ≤ 1.0001 * (A + B) + 3e-45 := by
    rw [_root_.abs_le]; constructor <;> norm_num at * <;> linarith
  obtain ⟨f, e⟩ := rnd_err' (s := neg a && neg b) (q := val a + val b) (hs.trans (by norm_num at *; linarith))
  refine ⟨f, ?_⟩
  obtain ⟨c1, c2⟩ := _root_.abs_le.1 e
  generalize |val a + val b| = S at *
  rw [_root_.abs_le]
  constructor <;> norm_num at * <;> linarith

/-- **C97** (part) The decision is right for every point that is not within a relative `4e-7` (of the squares) of the circle, for a
radius between `1e-18` and `4e18` in magnitude and coordinates whose differences do not exceed `4e18`. -/
theorem C97_decision_partial (x y cx cy r : BitVec 32) (hx : Finite x) (hy : Finite y) (hcx : Finite cx) (hcy : Finite cy) (hr : Finite r)
    (h1 : |val x - val cx| ≤ 4e18) (h2 : |val y - val cy| ≤ 4e18) (r1 : 1e-18 ≤ |val r|) (r2 : |val r| ≤ 4e18) :
    ((val x - val cx) ^ 2 + (val y - val cy) ^ 2 ≤ (1 - 4e-7) * val r ^ 2 → inCircle x y cx cy r = true) ∧
    ((1 + 4e-7) * val r ^ 2 ≤ (val x - val cx) ^ 2 + (val y - val cy) ^ 2 → inCircle x y cx cy r = false) := by
  obtain ⟨fd, ed⟩ := dist_near hx hy hcx hcy h1 h2
  have p := add_nonneg (sq_nonneg (val x - val cx)) (sq_nonneg (val y - val cy))
  have q1 : 1e-36 ≤ val r ^ 2 := by
    rw [← sq_abs]; exact le_trans (by norm_num) (pow_le_pow_left₀ (by norm_num) r1 2)
  have q2 : val r ^ 2 ≤ 1.6e37 := by
    rw [← sq_abs]; exact (pow_le_pow_left₀ (abs_nonneg _) r2 2).trans (by norm_num)
  have em := mul_fin hr hr
  rw [← sq] at em
  obtain ⟨fR, eR⟩ := rnd_err' (s := neg r ^^ neg r) (q := val r ^ 2) (by rw [abs_of_nonneg (sq_nonneg _)]; exact q2.trans (by norm_num))
  rw [← em, abs_of_nonneg (sq_nonneg (val r))] at eR
  rw [← em] at fR
  unfold inCircle
  simp only []
  rw [le_fin fd fR]
  generalize val (add (mul (sub x cx) (sub x cx)) (mul (sub y cy) (sub y cy))) = d at *
  generalize (val x - val cx) ^ 2 + (val y - val cy) ^ 2 = D at *
  generalize val (mul r r) = R at *
  generalize val r ^ 2 = Q at *
  obtain ⟨a1, a2⟩ := _root_.abs_le.1 ed
  obtain ⟨b1, b2⟩ := _root_.abs_le.1 eR
  constructor
  · intro h
    rw [decide_eq_true_eq]
    norm_num at *; linarith
  · intro h
    rw [decide_eq_false_iff_not, not_le]
    norm_num at *; linarith

/-- **C97** (part) The centre belongs to every circle, also to that of radius zero. -/
theorem C97_center (cx cy r : BitVec 32) (hcx : Finite cx) (hcy : Finite cy) (hr : ¬ IsNaN r) : inCircle cx cy cx cy r = true := by
  have hz : ∀ c : BitVec 32, Finite c → mul (sub c c) (sub c c) = 0#32 := by
    intro c hc
    have : sub c c = 0#32 := by
      rw [sub_fin hc hc, sub_self]
      have e : (neg c && !neg c) = false := by cases neg c <;> rfl
      rw [e]; decide +kernel
    rw [this]; decide +kernel
  unfold inCircle
  simp only []
  rw [hz cx hcx, hz cy hcy]
  have hn : ¬ IsNaN (mul r r) ∧ 0 ≤ val (mul r r) := by
    rcases trichotomy hr with hf | rfl | rfl
    · rw [mul_fin hf hf]
      refine ⟨rnd_notNaN _ _, ?_⟩
      rw [← val_zero]
      exact le_rnd fin_zero (by rw [val_zero]; exact mul_self_nonneg _)
    · decide +kernel
    · decide +kernel
  have c : val (add 0#32 0#32) = 0 ∧ ¬ IsNaN (add 0#32 0#32) := by decide +kernel
  unfold F32.le
  simp only [hn.1, c.2, not_false_eq_true, true_and, decide_eq_true_eq]
  rw [← val_le_iff, c.1]
  exact hn.2

/-- The square of a difference of integers. -/
theorem int_square {a b : ℤ} (ha : |a| ≤ 8388608) (hb : |b| ≤ 8388608) :
    Finite (mul (sub (lit a) (lit b)) (sub (lit a) (lit b))) ∧
      ((a - b) ^ 2 ≤ 16777216 → val (mul (sub (lit a) (lit b)) (sub (lit a) (lit b))) = ((a - b) ^ 2 : ℤ)) ∧
      (16777216 ≤ (a - b) ^ 2 → 16777216 ≤ val (mul (sub (lit a) (lit b)) (sub (lit a) (lit b)))) ∧
      0 ≤ val (mul (sub (lit a) (lit b)) (sub (lit a) (lit b))) ∧ val (mul (sub (lit a) (lit b)) (sub (lit a) (lit b))) ≤ 1e20 := by
  obtain ⟨fa, va⟩ := lit_int (k := a) (by omega)
  obtain ⟨fb, vb⟩ := lit_int (k := b) (by omega)
  have hab : |a - b| ≤ 16777216 := by have := abs_sub a b; omega
  obtain ⟨fc, vc⟩ := lit_int (k := a - b) hab
  obtain ⟨fu, vu⟩ := sub_exact fa fb fc (by rw [va, vb, vc]; push_cast; ring)
  rw [vc] at vu
  have hq : val (sub (lit a) (lit b)) * val (sub (lit a) (lit b)) = (((a - b) ^ 2 : ℤ) : ℚ) := by rw [vu]; push_cast; ring
  have hq2 : (((a - b) ^ 2 : ℤ) : ℚ) ≤ 16777216 ^ 2 := by
    have : (a - b) ^ 2 ≤ 16777216 ^ 2 := by rw [← sq_abs]; exact pow_le_pow_left₀ (abs_nonneg _) hab 2
    exact_mod_cast this
  have hq0 : (0 : ℚ) ≤ (((a - b) ^ 2 : ℤ) : ℚ) := by exact_mod_cast sq_nonneg (a - b)
  rw [mul_fin fu fu, hq]
  have cL : Finite (lit 16777216) ∧ val (lit 16777216) = 16777216 := by decide +kernel
  have cM : Finite (lit 5e14) ∧ 4.9e14 ≤ val (lit 5e14) ∧ val (lit 5e14) ≤ 6e14 := by decide +kernel
  obtain ⟨f, l1, l2⟩ := rnd_between (s := neg (sub (lit a) (lit b)) ^^ neg (sub (lit a) (lit b))) fin_zero cM.1 
    (q := (((a - b) ^ 2 : ℤ) : ℚ)) (by rw [val_zero]; exact hq0)
    (by refine hq2.trans (le_trans (by norm_num) cM.2.1))
  rw [val_zero] at l1
  refine ⟨f, ?_, ?_, l1, (l2.trans cM.2.2).trans (by norm_num)⟩
  · intro h
    exact (rnd_int _ (by rw [abs_of_nonneg (sq_nonneg _)]; exact h)).2
  · intro h
    rw [← cL.2]
    apply le_rnd cL.1
    rw [cL.2]; exact_mod_cast h

/-- **C97** (part) For integer coordinates up to `2^23` and an integer radius up to `4095`, the decision is exact: the point is
inside if and only if its distance from the centre is at most the radius. -/
theorem C97_int (x y cx cy r : ℤ) (hx : |x| ≤ 8388608) (hy : |y| ≤ 8388608) (hcx : |cx| ≤ 8388608) (hcy : |cy| ≤ 8388608)
    (hr : |r| ≤ 4095) :
    inCircle (lit x) (lit y) (lit cx) (lit cy) (lit r) = true ↔ (x - cx) ^ 2 + (y - cy) ^ 2 ≤ r ^ 2 := by
  obtain ⟨f1, a1, a2, a3, a4⟩ := int_square hx hcx
  obtain ⟨f2, b1, b2, b3, b4⟩ := int_square hy hcy
  obtain ⟨fr, vr⟩ := lit_int (k := r) (by omega)
  have hr2 : r ^ 2 ≤ 4095 ^ 2 := by rw [← sq_abs]; exact pow_le_pow_left₀ (abs_nonneg _) hr 2
  have hr2' : r ^ 2 ≤ 16769025 := hr2.trans (by norm_num)
  obtain ⟨fq, vq⟩ := lit_int (k := r ^ 2) (by rw [abs_of_nonneg (sq_nonneg r)]; omega)
  obtain ⟨fR, vR⟩ := mul_exact fr fr fq (by rw [vr, vq]; push_cast; ring)
  rw [vq] at vR
  have p1 := sq_nonneg (x - cx)
  have p2 := sq_nonneg (y - cy)
  have cL : Finite (lit 16777216) ∧ val (lit 16777216) = 16777216 := by decide +kernel
  unfold inCircle
  simp only []
  have es := add_fin f1 f2
  have fS : Finite (add (mul (sub (lit x) (lit cx)) (sub (lit x) (lit cx))) (mul (sub (lit y) (lit cy)) (sub (lit y) (lit cy)))) := by
    rw [es]; apply rnd_finite'; rw [abs_of_nonneg (by linarith)]; refine le_trans (b := 2e20) (by norm_num at *; linarith) (by norm_num)
  rw [le_fin fS fR, decide_eq_true_eq, vR, es]
  by_cases hd : (x - cx) ^ 2 + (y - cy) ^ 2 ≤ 16777216
  · rw [a1 (by omega), b1 (by omega)]
    have := (rnd_int (neg (mul (sub (lit x) (lit cx)) (sub (lit x) (lit cx))) && neg (mul (sub (lit y) (lit cy)) (sub (lit y) (lit cy))))
      (k := (x - cx) ^ 2 + (y - cy) ^ 2) (by rw [abs_of_nonneg (by omega)]; exact hd)).2
    rw [← Int.cast_add, this]
    exact_mod_cast Iff.rfl
  · constructor
    · intro h
      exfalso
      have hb : (16777216 : ℚ) ≤ val (mul (sub (lit x) (lit cx)) (sub (lit x) (lit cx))) + val (mul (sub (lit y) (lit cy)) (sub (lit y) (lit cy))) := by
        by_cases c1 : 16777216 ≤ (x - cx) ^ 2
        · linarith [a2 c1]
        · by_cases c2 : 16777216 ≤ (y - cy) ^ 2
          · linarith [b2 c2]
          · rw [a1 (by omega), b1 (by omega)]
            exact_mod_cast (by omega : (16777216 : ℤ) ≤ (x - cx) ^ 2 + (y - cy) ^ 2)
      have hl := le_rnd (s := neg (mul (sub (lit x) (lit cx)) (sub (lit x) (lit cx))) && neg (mul (sub (lit y) (lit cy)) (sub (lit y) (lit cy)))) cL.1
        (q := val (mul (sub (lit x) (lit cx)) (sub (lit x) (lit cx))) + val (mul (sub (lit y) (lit cy)) (sub (lit y) (lit cy)))) (by rw [cL.2]; exact hb)
      rw [cL.2] at hl
      have : ((r ^ 2 : ℤ) : ℚ) ≤ 16769025 := by exact_mod_cast hr2'
      linarith
    · intro h; omega

/-- **C97** (negation) When the squares overflow or underflow, far points count as inside: `(1e30, 0)` is in the circle of radius
`1e20`, and `(1e-25, 0)` is in that of radius `1e-30`. -/
theorem C97_false : inCircle (lit 1e30) (lit 0) (lit 0) (lit 0) (lit 1e20) = true ∧ val (lit 1e20) < val (lit 1e30) ∧
    inCircle (lit 1e-25) (lit 0) (lit 0) (lit 0) (lit 1e-30) = true ∧ val (lit 1e-30) < val (lit 1e-25) := by decide +kernel

/-- A point on the circle, one just outside, and one inside, with the hypotheses of the theorems. -/
example : inCircle (lit 3) (lit 4) (lit 0) (lit 0) (lit 5) = true ∧ inCircle (lit 3) (lit 5) (lit 0) (lit 0) (lit 5) = false ∧
    inCircle (lit 0.3) (lit (-0.1)) (lit 0.1) (lit 0.1) (lit 0.7) = true ∧ |val (lit 0.3) - val (lit 0.1)| ≤ 4e18 ∧ 1e-18 ≤ |val (lit 0.7)| ∧
    (val (lit 0.3) - val (lit 0.1)) ^ 2 + (val (lit (-0.1)) - val (lit 0.1)) ^ 2 ≤ (1 - 4e-7) * val (lit 0.7) ^ 2 := by decide +kernel

end Verif.Ffmath
