import Verif.F32.Ops
import Mathlib.Data.Real.Basic
import Mathlib.Analysis.SpecialFunctions.Pow.Real

/-!
# Error bounds through rounded operations

`Near c q e`: the float `c` is finite and within `e` of the real number `q`. Every operation has a
lemma that gives the error of its result from the errors of its operands. Nothing here is a
definition of the repository.
-/

namespace Verif.F32

/-- The float `c` is finite and differs from `q` by at most `e`. -/
structure Near (c : BitVec 32) (q e : ℝ) : Prop where
  fin : Finite c
  err : |(val c : ℝ) - q| ≤ e

theorem big_val : Finite 0x7F000000#32 ∧ val 0x7F000000#32 = 2 ^ (127 : ℤ) := by decide +kernel

theorem rnd_finite {s : Bool} {q : ℚ} (h : |q| ≤ 2 ^ (127 : ℤ)) : Finite (rnd s q) := by
  obtain ⟨h1, h2⟩ := abs_le.1 h
  refine (rnd_between (finite_negate.2 big_val.1) big_val.1 ?_ ?_).1
  · rw [val_negate, big_val.2]; exact h1
  · rw [big_val.2]; exact h2

/-- Relative error of rounding in the normal range. -/
theorem rnd_rel {s : Bool} {q : ℚ} (h1 : 2 ^ (-126 : ℤ) ≤ |q|) (h : |q| ≤ 2 ^ (127 : ℤ)) :
    Finite (rnd s q) ∧ |val (rnd s q) - q| ≤ |q| / 16777216 := by
  have f := rnd_finite (s := s) h
  refine ⟨f, (rnd_err f).trans (max_le (le_of_eq ?_) ?_)⟩
  · rw [show (2 : ℚ) ^ (-24 : ℤ) = 1 / 16777216 by norm_num]; ring
  · calc (2 : ℚ) ^ (-150 : ℤ) = 2 ^ (-126 : ℤ) / 16777216 := by norm_num
      _ ≤ _ := by gcongr

/-- Relative error form: the rounded result is the exact one times `1 + ε`. -/
theorem rnd_eps {s : Bool} {q : ℚ} (h1 : 2 ^ (-126 : ℤ) ≤ |q|) (h : |q| ≤ 2 ^ (127 : ℤ)) :
    Finite (rnd s q) ∧ ∃ ε : ℚ, |ε| ≤ 1 / 16777216 ∧ val (rnd s q) = q * (1 + ε) := by
  obtain ⟨f, e⟩ := rnd_rel (s := s) h1 h
  refine ⟨f, (val (rnd s q) - q) / q, ?_, ?_⟩
  · have : 0 < |q| := lt_of_lt_of_le (two_zpow_pos _) h1
    rw [abs_div, div_le_iff₀ this]; linarith
  · have : q ≠ 0 := by
      rintro rfl
      rw [abs_zero] at h1
      exact absurd h1 (not_le.2 (two_zpow_pos _))
    field_simp; ring

theorem rnd_eps' {s : Bool} {q : ℚ} (h1 : 1.2e-38 ≤ |q|) (h : |q| ≤ 1.7e38) :
    Finite (rnd s q) ∧ ∃ ε : ℚ, |ε| ≤ 1 / 16777216 ∧ val (rnd s q) = q * (1 + ε) :=
  rnd_eps (le_trans (by norm_num) h1) (h.trans (by norm_num))

theorem mul_eps {a b : BitVec 32} (ha : Finite a) (hb : Finite b) (h1 : 1.2e-38 ≤ |val a * val b|)
    (h : |val a * val b| ≤ 1.7e38) :
    Finite (mul a b) ∧ ∃ ε : ℚ, |ε| ≤ 1 / 16777216 ∧ val (mul a b) = val a * val b * (1 + ε) := by
  rw [mul_fin ha hb]; exact rnd_eps' h1 h

theorem add_eps {a b : BitVec 32} (ha : Finite a) (hb : Finite b) (h1 : 1.2e-38 ≤ |val a + val b|)
    (h : |val a + val b| ≤ 1.7e38) :
    Finite (add a b) ∧ ∃ ε : ℚ, |ε| ≤ 1 / 16777216 ∧ val (add a b) = (val a + val b) * (1 + ε) := by
  rw [add_fin ha hb]; exact rnd_eps' h1 h

theorem sub_eps {a b : BitVec 32} (ha : Finite a) (hb : Finite b) (h1 : 1.2e-38 ≤ |val a - val b|)
    (h : |val a - val b| ≤ 1.7e38) :
    Finite (sub a b) ∧ ∃ ε : ℚ, |ε| ≤ 1 / 16777216 ∧ val (sub a b) = (val a - val b) * (1 + ε) := by
  rw [sub_fin ha hb]; exact rnd_eps' h1 h

theorem div_eps {a b : BitVec 32} (ha : Finite a) (hb : Finite b) (h0 : val b ≠ 0)
    (h1 : 1.2e-38 ≤ |val a / val b|) (h : |val a / val b| ≤ 1.7e38) :
    Finite (div a b) ∧ ∃ ε : ℚ, |ε| ≤ 1 / 16777216 ∧ val (div a b) = val a / val b * (1 + ε) := by
  rw [div_fin ha hb h0]; exact rnd_eps' h1 h

/-! Bounds of products and sums from bounds of their parts. -/

theorem abs_mul_le' {x y X Y : ℚ} (h1 : |x| ≤ X) (h2 : |y| ≤ Y) : |x * y| ≤ X * Y := by
  rw [abs_mul]; exact mul_le_mul h1 h2 (abs_nonneg _) ((abs_nonneg _).trans h1)

theorem abs_add_le' {x y X Y : ℚ} (h1 : |x| ≤ X) (h2 : |y| ≤ Y) : |x + y| ≤ X + Y :=
  (abs_add_le _ _).trans (add_le_add h1 h2)

theorem abs_sub_le' {x y X Y : ℚ} (h1 : |x| ≤ X) (h2 : |y| ≤ Y) : |x - y| ≤ X + Y :=
  (abs_sub _ _).trans (add_le_add h1 h2)

/-- The combined factor of two roundings. -/
theorem eps_comb {a b A B : ℚ} (ha : |a| ≤ A) (hb : |b| ≤ B) :
    ∃ c, |c| ≤ A + B + A * B ∧ (1 + a) * (1 + b) = 1 + c :=
  ⟨a + b + a * b, abs_add_le' (abs_add_le' ha hb) (abs_mul_le' ha hb), by ring⟩

theorem rnd_near {s : Bool} {q : ℚ} {r e e' : ℝ} (B : ℝ) (h : |(q : ℝ) - r| ≤ e) (hB : |r| + e ≤ B)
    (hB2 : B ≤ 1e38) (he : e + B / 16777216 + 1e-45 ≤ e') : Near (rnd s q) r e' := by
  have hq : |(q : ℝ)| ≤ B := by
    have := abs_add_le ((q : ℝ) - r) r
    rw [sub_add_cancel] at this
    linarith
  have f : Finite (rnd s q) := by
    apply rnd_finite
    have : |(q : ℝ)| ≤ ((2 ^ (127 : ℤ) : ℚ) : ℝ) := hq.trans (hB2.trans (by norm_num))
    exact_mod_cast this
  refine ⟨f, ?_⟩
  have e1 : |((val (rnd s q) : ℚ) : ℝ) - q| ≤ |(q : ℝ)| / 16777216 + 1e-45 := by
    have := rnd_err f
    have h2 : |val (rnd s q) - q| ≤ |q| / 16777216 + 1e-45 := by
      refine this.trans (max_le ?_ ?_)
      · rw [show (2 : ℚ) ^ (-24 : ℤ) = 1 / 16777216 by norm_num]
        have : (0 : ℚ) ≤ 1e-45 := by norm_num
        linarith
      · have : (2 : ℚ) ^ (-150 : ℤ) ≤ 1e-45 := by norm_num
        have : 0 ≤ |q| / 16777216 := by positivity
        linarith
    have h3 : ((|val (rnd s q) - q| : ℚ) : ℝ) ≤ ((|q| / 16777216 + 1e-45 : ℚ) : ℝ) := by
      exact_mod_cast h2
    push_cast at h3
    norm_num at h3 ⊢
    exact h3
  have e2 := abs_add_le (((val (rnd s q) : ℚ) : ℝ) - q) ((q : ℝ) - r)
  rw [sub_add_sub_cancel] at e2
  have : |(q : ℝ)| / 16777216 ≤ B / 16777216 := by gcongr
  linarith

theorem Near.mono {c : BitVec 32} {q e e' : ℝ} (h : Near c q e) (he : e ≤ e') : Near c q e' :=
  ⟨h.fin, h.err.trans he⟩

theorem Near.self {c : BitVec 32} (h : Finite c) : Near c (val c) 0 := ⟨h, by simp⟩

theorem Near.move {c : BitVec 32} {q e r e' : ℝ} (h : Near c q e) (hr : |q - r| ≤ e') :
    Near c r (e + e') :=
  ⟨h.fin, by
    have := abs_add_le ((val c : ℝ) - q) (q - r)
    rw [sub_add_sub_cancel] at this
    linarith [h.err]⟩

theorem Near.abs_le {c : BitVec 32} {q e : ℝ} (h : Near c q e) : |(val c : ℝ)| ≤ |q| + e := by
  have := abs_add_le ((val c : ℝ) - q) q
  rw [sub_add_cancel] at this
  linarith [h.err]

theorem Near.negate {c : BitVec 32} {q e : ℝ} (h : Near c q e) : Near (negate c) (-q) e :=
  ⟨finite_negate.2 h.fin, by
    rw [val_negate]; push_cast
    rw [show -(val c : ℝ) - -q = -((val c : ℝ) - q) by ring, abs_neg]; exact h.err⟩

theorem Near.add {a b : BitVec 32} {p q d e e' : ℝ} (B : ℝ) (ha : Near a p d) (hb : Near b q e)
    (hB : |p + q| + (d + e) ≤ B) (hB2 : B ≤ 1e38) (he : (d + e) + B / 16777216 + 1e-45 ≤ e') :
    Near (add a b) (p + q) e' := by
  rw [add_fin ha.fin hb.fin]
  refine rnd_near B ?_ hB hB2 he
  push_cast
  have := abs_add_le ((val a : ℝ) - p) ((val b : ℝ) - q)
  rw [show (val a : ℝ) + val b - (p + q) = ((val a : ℝ) - p) + ((val b : ℝ) - q) by ring]
  linarith [ha.err, hb.err]

theorem Near.sub {a b : BitVec 32} {p q d e e' : ℝ} (B : ℝ) (ha : Near a p d) (hb : Near b q e)
    (hB : |p - q| + (d + e) ≤ B) (hB2 : B ≤ 1e38) (he : (d + e) + B / 16777216 + 1e-45 ≤ e') :
    Near (sub a b) (p - q) e' := by
  unfold F32.sub
  have := Near.add B ha hb.negate (by rw [← sub_eq_add_neg]; exact hB) hB2 he
  rwa [← sub_eq_add_neg] at this

/-- Product; `P` and `Q` bound the exact factors, `D` bounds the propagated error. -/
theorem Near.mul {a b : BitVec 32} {p q d e e' : ℝ} (P Q D B : ℝ) (ha : Near a p d)
    (hb : Near b q e) (hP : |p| ≤ P) (hQ : |q| ≤ Q) (hD : P * e + Q * d + d * e ≤ D)
    (hB : |p * q| + D ≤ B) (hB2 : B ≤ 1e38) (he : D + B / 16777216 + 1e-45 ≤ e') :
    Near (mul a b) (p * q) e' := by
  rw [mul_fin ha.fin hb.fin]
  refine rnd_near B ?_ hB hB2 he
  push_cast
  have d0 : 0 ≤ d := (abs_nonneg _).trans ha.err
  have e0 : 0 ≤ e := (abs_nonneg _).trans hb.err
  rw [show (val a : ℝ) * val b - p * q =
    p * ((val b : ℝ) - q) + (q * ((val a : ℝ) - p) + ((val a : ℝ) - p) * ((val b : ℝ) - q)) by ring]
  refine (abs_add_le _ _).trans ?_
  have h2 := abs_add_le (q * ((val a : ℝ) - p)) (((val a : ℝ) - p) * ((val b : ℝ) - q))
  rw [abs_mul, abs_mul] at h2
  rw [abs_mul]
  have i1 : |p| * |(val b : ℝ) - q| ≤ P * e := mul_le_mul hP hb.err (abs_nonneg _) ((abs_nonneg _).trans hP)
  have i2 : |q| * |(val a : ℝ) - p| ≤ Q * d := mul_le_mul hQ ha.err (abs_nonneg _) ((abs_nonneg _).trans hQ)
  have i3 : |(val a : ℝ) - p| * |(val b : ℝ) - q| ≤ d * e := mul_le_mul ha.err hb.err (abs_nonneg _) d0
  linarith

/-- Quotient; `P` bounds the exact quotient, `L` is a lower bound of the magnitude of the computed
divisor. -/
theorem Near.div {a b : BitVec 32} {p q d e e' : ℝ} (P L D B : ℝ) (ha : Near a p d)
    (hb : Near b q e) (hq : q ≠ 0) (hL : 0 < L) (hLq : L + e ≤ |q|) (hP : |p / q| ≤ P)
    (hD : (d + P * e) / L ≤ D)
    (hB : P + D ≤ B) (hB2 : B ≤ 1e38) (he : D + B / 16777216 + 1e-45 ≤ e') :
    Near (div a b) (p / q) e' := by
  have hbL : L ≤ |(val b : ℝ)| := by
    have := abs_sub_abs_le_abs_sub q (val b : ℝ)
    rw [abs_sub_comm] at this
    linarith [hb.err]
  have hb0 : (val b : ℝ) ≠ 0 := by
    intro h; rw [h, abs_zero] at hbL; linarith
  have hb0' : val b ≠ 0 := by exact_mod_cast hb0
  rw [div_fin ha.fin hb.fin hb0']
  refine rnd_near B ?_ (by linarith) hB2 he
  push_cast
  have : (val a : ℝ) / val b - p / q =
      (((val a : ℝ) - p) - (p / q) * ((val b : ℝ) - q)) / val b := by field_simp; ring
  rw [this, abs_div]
  refine le_trans ?_ hD
  have hP0 : 0 ≤ P := (abs_nonneg _).trans hP
  have d0 : 0 ≤ d := (abs_nonneg _).trans ha.err
  have e0 : 0 ≤ e := (abs_nonneg _).trans hb.err
  apply div_le_div₀ (by positivity) _ hL hbL
  refine (abs_sub _ _).trans ?_
  rw [abs_mul]
  have := mul_le_mul hP hb.err (abs_nonneg _) hP0
  linarith [ha.err]

end Verif.F32
