import Verif.Ffmath.ZetaModel
import Verif.Ffmath.Elliptic
import Verif.Ffmath.Gamma
import Verif.Ffmath.Laguerre
import Verif.Ffmath.Log
import Verif.Ffmath.IsEqual
import Verif.Ffmath.Circle
import Verif.Ffmath.Hypot
import Verif.Ffmath.ExpintSign
import Mathlib.NumberTheory.LSeries.HurwitzZetaValues
import Mathlib.NumberTheory.LSeries.RiemannZeta

/-!
# The Riemann zeta function (C111, C112)

IEEE binary32 arithmetic; the specification is Mathlib's `riemannZeta`.
-/

namespace Verif.Ffmath

open Verif F32

local infixl:65 " +ᶠ " => F32.add
local infixl:65 " -ᶠ " => F32.sub
local infixl:70 " *ᶠ " => F32.mul
local infixl:70 " /ᶠ " => F32.div
local notation:50 a:51 " <ᶠ " b:51 => F32.lt a b

/-! ### The mathematical function for arguments from 20 on -/

/-- The zeta function differs from `1 + 2^-t` by at most `5e-9` from 20 on. -/
theorem zeta_two_terms {t : ℝ} (ht : 20 ≤ t) : ‖riemannZeta (t : ℂ) - ((1 + (2 : ℝ) ^ (-t) : ℝ) : ℂ)‖ ≤ 5e-9 := by
  have h1 : (1 : ℝ) < (t : ℂ).re := by rw [Complex.ofReal_re]; linarith
  have e1 : riemannZeta (t : ℂ) = ((∑' n : ℕ, 1 / ((n : ℝ) + 1) ^ t : ℝ) : ℂ) := by
    rw [zeta_eq_tsum_one_div_nat_add_one_cpow h1, Complex.ofReal_tsum]
    congr 1
    funext n
    rw [Complex.ofReal_div, Complex.ofReal_cpow (by positivity)]
    push_cast
    rfl
  have s1 : Summable (fun n : ℕ => 1 / ((n : ℝ) + 1) ^ t) := by
    have := (summable_nat_add_iff 1).2 (Real.summable_one_div_nat_rpow.2 (show 1 < t by linarith))
    simpa using this
  have e2 : ∑' n : ℕ, 1 / ((n : ℝ) + 1) ^ t = 1 + (2 : ℝ) ^ (-t) + ∑' n : ℕ, 1 / ((n : ℝ) + 3) ^ t := by
    rw [← s1.sum_add_tsum_nat_add 2, Finset.sum_range_succ, Finset.sum_range_one]
    congr 1
    · rw [Real.rpow_neg (by norm_num)]; norm_num
    · congr 1; funext n; push_cast; ring_nf
  have s2 : Summable (fun n : ℕ => 1 / (n : ℝ) ^ 2) := hasSum_zeta_two.summable
  have t2 := hasSum_zeta_two.tsum_eq
  have s3 : Summable (fun n : ℕ => 1 / ((n : ℝ) + 3) ^ 2) := by
    have := (summable_nat_add_iff 3).2 s2
    simpa using this
  have t3 : ∑' n : ℕ, 1 / ((n : ℝ) + 3) ^ 2 ≤ 1.66 := by
    have := s2.sum_add_tsum_nat_add 3
    rw [t2] at this
    have hp : 0 ≤ ∑ i ∈ Finset.range 3, 1 / (i : ℝ) ^ 2 := Finset.sum_nonneg fun i _ => by positivity
    have hpi : Real.pi ^ 2 / 6 ≤ 1.66 := by
      have := Real.pi_lt_d2
      have := Real.pi_pos
      nlinarith
    have e : ∑' n : ℕ, 1 / ((n : ℝ) + 3) ^ 2 = ∑' n : ℕ, 1 / ((n + 3 : ℕ) : ℝ) ^ 2 := by
      congr 1; funext n; push_cast; rfl
    rw [e]; linarith
  have hb : ∀ n : ℕ, 1 / ((n : ℝ) + 3) ^ t ≤ 1 / 3 ^ 18 * (1 / ((n : ℝ) + 3) ^ 2) := by
    intro n
    have p3 : (3 : ℝ) ≤ n + 3 := by have : (0 : ℝ) ≤ n := n.cast_nonneg; linarith
    have a1 : ((n : ℝ) + 3) ^ (20 : ℝ) ≤ ((n : ℝ) + 3) ^ t := Real.rpow_le_rpow_of_exponent_le (by linarith) ht
    have a2 : ((n : ℝ) + 3) ^ (20 : ℝ) = ((n : ℝ) + 3) ^ 18 * ((n : ℝ) + 3) ^ 2 := by
      rw [← pow_add, show (20 : ℝ) = ((18 + 2 : ℕ) : ℝ) by norm_num, Real.rpow_natCast]
    have a3 : (3 : ℝ) ^ 18 ≤ ((n : ℝ) + 3) ^ 18 := pow_le_pow_left₀ (by norm_num) p3 _
    have a4 : (3 : ℝ) ^ 18 * ((n : ℝ) + 3) ^ 2 ≤ ((n : ℝ) + 3) ^ t :=
      (mul_le_mul_of_nonneg_right a3 (by positivity)).trans (a2 ▸ a1)
    rw [one_div_mul_one_div]
    exact one_div_le_one_div_of_le (by positivity) a4
  have s4 : Summable (fun n : ℕ => 1 / ((n : ℝ) + 3) ^ t) :=
    Summable.of_nonneg_of_le (fun n => by positivity) hb (s3.mul_left _)
  have t4 : ∑' n : ℕ, 1 / ((n : ℝ) + 3) ^ t ≤ 5e-9 := by
    refine (s4.tsum_le_tsum hb (s3.mul_left _)).trans ?_
    rw [tsum_mul_left]
    refine (mul_le_mul_of_nonneg_left t3 (by norm_num)).trans (by norm_num)
  rw [e1, e2, ← Complex.ofReal_sub, Complex.norm_real, Real.norm_eq_abs, add_sub_cancel_left,
    abs_of_nonneg (tsum_nonneg fun n => by positivity)]
  exact t4

/-! ### The product -/

/-- Subtracting a tiny number from one gives one. -/
theorem one_sub_tiny {p : BitVec 32} (hp : F32.Finite p) (h0 : 0 ≤ val p) (h1 : val p ≤ 1 / 67108864) : lit 1 -ᶠ p = lit 1 := by
  have e : lit 1 -ᶠ p = rnd (neg (lit 1) && !neg p) (val (lit 1) - val p) := sub_fin c_one.1 hp
  rw [c_one.2] at e
  have hb := rnd_between (s := neg (lit 1) && !neg p) (q := 1 - val p) (a := lit 0) (b := lit 1) c_zero.1 c_one.1 (by rw [c_zero.2]; linarith) (by rw [c_one.2]; linarith)
  have hn := rnd_nearest hb.1 (lit 1)
  rw [← e, c_one.2] at hb hn
  have hv : val (lit 1 -ᶠ p) = 1 := by
    by_contra hne
    have := below_one (lt_of_le_of_ne hb.2.2 hne)
    rw [show (1 : ℚ) - (1 - val p) = val p by ring, abs_of_nonneg h0] at hn
    have := (_root_.abs_le.1 hn).1
    linarith
  exact eq_of_val_ne (by rw [hv, c_one.2]) (by rw [hv]; norm_num)

theorem log2_two : log2 (lit (2 : ℕ)) = lit 1 := by decide +kernel
theorem log2_three : F32.Finite (log2 (lit (3 : ℕ))) ∧ 1.58 ≤ val (log2 (lit (3 : ℕ))) ∧ val (log2 (lit (3 : ℕ))) ≤ 1.59 := by decide +kernel
theorem c_m126 : F32.Finite (negate (lit 126)) ∧ val (negate (lit 126)) = -126 := by decide +kernel

theorem real_two_pow_le {y : ℝ} (h : y ≤ -30) : (2 : ℝ) ^ y ≤ 1 / 1073741824 := by
  have := Real.rpow_le_rpow_of_exponent_le (x := 2) (by norm_num) h
  refine this.trans (le_of_eq ?_)
  rw [Real.rpow_neg (by norm_num), show (30 : ℝ) = ((30 : ℕ) : ℝ) by norm_num, Real.rpow_natCast]; norm_num

/-- The factor of the prime 3 is exactly one. -/
theorem pow_three {s : BitVec 32} (hs : F32.Finite s) (h1 : 20 ≤ val s) (h2 : val s < 126) :
    ∃ p, pow (lit (3 : ℕ)) (negate s) = .ok p ∧ lit 1 -ᶠ p = lit 1 := by
  obtain ⟨f3, l3, u3⟩ := log2_three
  unfold pow
  generalize log2 (lit (3 : ℕ)) = L at *
  have e : negate s *ᶠ L = rnd (neg (negate s) ^^ neg L) (val (negate s) * val L) := mul_fin (finite_negate.2 hs) f3
  rw [val_negate] at e
  have c : F32.Finite (lit (-30)) ∧ val (lit (-30)) = -30 ∧ F32.Finite (lit (-300)) ∧ val (lit (-300)) = -300 := by decide +kernel
  have hb := rnd_between (s := neg (negate s) ^^ neg L) (q := -val s * val L) (a := lit (-300)) (b := lit (-30)) c.2.2.1 c.1
    (by rw [c.2.2.2]; norm_num at u3 l3; nlinarith) (by rw [c.2.1]; norm_num at u3 l3; nlinarith)
  rw [← e, c.2.1] at hb
  generalize negate s *ᶠ L = y at *
  by_cases hy : val y ≤ -126
  · refine ⟨lit 0, (C79_limits y).1 (by rw [le_fin hb.1 c_m126.1, c_m126.2]; simpa using hy), by decide +kernel⟩
  · obtain ⟨r, hr, fr, er⟩ := C79_accuracy_partial y hb.1 (not_le.1 hy) (by linarith [hb.2.2])
    refine ⟨r, hr, one_sub_tiny fr ?_ ?_⟩
    all_goals
      have hq : (val y : ℝ) ≤ -30 := by exact_mod_cast hb.2.2
      have h2 := real_two_pow_le hq
      have h3 := Real.rpow_pos_of_pos (show (0 : ℝ) < 2 by norm_num) (val y : ℝ)
      obtain ⟨a, b⟩ := _root_.abs_le.1 er
      generalize (2 : ℝ) ^ (val y : ℝ) = T at *
    · have : (0 : ℝ) ≤ val r := by norm_num at a; linarith
      exact_mod_cast this
    · have : (val r : ℝ) ≤ ((1 / 67108864 : ℚ) : ℝ) := by norm_num at b h2 ⊢; linarith
      exact_mod_cast this

theorem mul_one_val {a : BitVec 32} (ha : F32.Finite a) (h0 : val a ≠ 0) : a *ᶠ lit 1 = a := by
  have := mul_exact ha c_one.1 ha (by rw [c_one.2, mul_one])
  exact eq_of_val_ne this.2 (by rw [this.2]; exact h0)

/-- The product for arguments from 20 on. -/
theorem product_large {s : BitVec 32} (hs : F32.Finite s) (h1 : 20 ≤ val s) :
    ∃ p : BitVec 32, pow (lit (2 : ℕ)) (negate s) = .ok p ∧ F32.Finite p ∧ 0 ≤ val p ∧ val p ≤ 9.6e-7 ∧
      |(val p : ℝ) - (2 : ℝ) ^ (-(val s : ℝ))| ≤ 4e-13 ∧ riemannZetaProduct s = .ok (lit 1 /ᶠ (lit 1 -ᶠ p)) := by
  have e2 : pow (lit (2 : ℕ)) (negate s) = exp2 (negate s) := by
    unfold pow
    rw [log2_two, mul_one_val (finite_negate.2 hs) (by rw [val_negate]; linarith)]
  have eL : zetaPrimes = 2 :: 3 :: zetaPrimes.tail.tail := rfl
  have k1 : lit 1 -ᶠ lit 0 = lit 1 := by decide +kernel
  have k2 : (lit 1 -ᶠ lit 1 <ᶠ epsilon) = true := by decide +kernel
  have k3 : lit 1 *ᶠ lit 1 = lit 1 := by decide +kernel
  have hr20 : (20 : ℝ) ≤ val s := by exact_mod_cast h1
  have h20 : (2 : ℝ) ^ (-(val s : ℝ)) ≤ 9.5368e-7 := by
    have := Real.rpow_le_rpow_of_exponent_le (x := 2) (by norm_num) (neg_le_neg hr20)
    refine this.trans ?_
    rw [Real.rpow_neg (by norm_num), show (20 : ℝ) = ((20 : ℕ) : ℝ) by norm_num, Real.rpow_natCast]; norm_num
  have h20' := Real.rpow_pos_of_pos (show (0 : ℝ) < 2 by norm_num) (-(val s : ℝ))
  by_cases hb : 126 ≤ val s
  · have hp : exp2 (negate s) = .ok (lit 0) :=
      (C79_limits _).1 (by rw [le_fin (finite_negate.2 hs) c_m126.1, c_m126.2, val_negate]; simpa using hb)
    refine ⟨lit 0, e2.trans hp, c_zero.1, c_zero.2.ge, by rw [c_zero.2]; norm_num, ?_, ?_⟩
    · rw [c_zero.2, Rat.cast_zero, zero_sub, abs_neg, abs_of_pos h20']
      have : (2 : ℝ) ^ (-(val s : ℝ)) ≤ (2 : ℝ) ^ (-126 : ℝ) :=
        Real.rpow_le_rpow_of_exponent_le (by norm_num) (by have : (126 : ℝ) ≤ val s := by exact_mod_cast hb
                                                           linarith)
      refine this.trans ?_
      rw [Real.rpow_neg (by norm_num), show (126 : ℝ) = ((126 : ℕ) : ℝ) by norm_num, Real.rpow_natCast]; norm_num
    · unfold riemannZetaProduct
      rw [eL]
      unfold productLoop
      rw [e2, hp]
      simp only [Out.bind_ok, Out.pure_eq, k1, k2, k3, if_true]
  · obtain ⟨p, hp, fp, ep⟩ := C79_accuracy_partial (negate s) (finite_negate.2 hs) (by rw [val_negate]; linarith) (by rw [val_negate]; linarith)
    have ev : ((val (negate s) : ℚ) : ℝ) = -(val s : ℝ) := by rw [val_negate]; push_cast; rfl
    rw [ev] at ep
    obtain ⟨a, b⟩ := _root_.abs_le.1 ep
    generalize (2 : ℝ) ^ (-(val s : ℝ)) = T at *
    have p0 : 0 ≤ val p := by
      have : (0 : ℝ) ≤ val p := by norm_num at a; linarith
      exact_mod_cast this
    have p1 : val p ≤ 9.6e-7 := by
      have : (val p : ℝ) ≤ ((9.6e-7 : ℚ) : ℝ) := by norm_num at b h20 ⊢; linarith
      exact_mod_cast this
    refine ⟨p, e2.trans hp, fp, p0, p1, ep.trans (by norm_num at h20 ⊢; linarith), ?_⟩
    obtain ⟨p3, hp3, e3⟩ := pow_three hs h1 (not_le.1 hb)
    have ff : F32.Finite (lit 1 -ᶠ p) ∧ 0.5 ≤ val (lit 1 -ᶠ p) := by
      have c : F32.Finite (lit 0.5) ∧ val (lit 0.5) = 0.5 := by decide +kernel
      have hb := rnd_between (s := neg (lit 1) && !neg p) (q := 1 - val p) (a := lit 0.5) (b := lit 1) c.1 c_one.1
        (by rw [c.2]; norm_num at p1 ⊢; linarith) (by rw [c_one.2]; linarith)
      have e : lit 1 -ᶠ p = rnd (neg (lit 1) && !neg p) (val (lit 1) - val p) := sub_fin c_one.1 fp
      rw [c_one.2] at e
      rw [← e, c.2] at hb
      exact ⟨hb.1, hb.2.1⟩
    have n0 : val (lit 1 -ᶠ p) ≠ 0 := by have := ff.2; norm_num at this; linarith
    unfold riemannZetaProduct
    rw [eL]
    unfold productLoop
    rw [e2, hp]
    simp only [Out.bind_ok, Out.pure_eq]
    rw [F32.mul_comm (lit 1), mul_one_val ff.1 n0]
    split
    · rfl
    · unfold productLoop
      rw [hp3]
      simp only [Out.bind_ok, Out.pure_eq]
      rw [e3, if_pos k2, mul_one_val ff.1 n0]
      rfl

/-- **C111.** From 20 on the result of `riemann_zeta` is a finite number within `1.3e-7` of the zeta function. -/
theorem C111_riemann_zeta_large (s : BitVec 32) (hs : F32.Finite s) (h1 : 20 ≤ val s) :
    ∃ r, riemann_zeta s = .ok r ∧ F32.Finite r ∧ ‖((val r : ℝ) : ℂ) - riemannZeta ((val s : ℝ) : ℂ)‖ ≤ 1.3e-7 := by
  obtain ⟨p, -, fp, p0, p1, ep, hr⟩ := product_large hs h1
  have c : F32.Finite (lit (-19)) ∧ val (lit (-19)) = -19 ∧ F32.Finite (lit 20) ∧ val (lit 20) = 20 := by decide +kernel
  have ez : riemann_zeta s = riemannZetaProduct s := by
    unfold riemann_zeta
    rw [if_neg hs.notNaN, if_neg, if_neg, if_neg]
    · rw [lt_fin hs c.2.2.1, c.2.2.2, decide_eq_true_eq]; linarith
    · rw [lt_fin hs c.1, c.2.1, decide_eq_true_eq]; linarith
    · rw [C88_iff _ _ c_one.1 hs, c_one.2]
      intro h
      have := (_root_.abs_le.1 h).1
      norm_num at this
      linarith
  have e1 : lit 1 -ᶠ p = rnd (neg (lit 1) && !neg p) (val (lit 1) - val p) := sub_fin c_one.1 fp
  rw [c_one.2] at e1
  have r1 := rnd_err' (s := neg (lit 1) && !neg p) (q := 1 - val p) (by rw [abs_of_nonneg] <;> (norm_num at p1 ⊢; linarith))
  rw [← e1] at r1
  obtain ⟨ff, ef⟩ := r1
  have ef' : |val (lit 1 -ᶠ p) - (1 - val p)| ≤ 6e-8 := by
    refine ef.trans ?_
    rw [abs_of_nonneg (by norm_num at p1 ⊢; linarith)]; norm_num; linarith
  rw [ez, hr]
  generalize lit 1 -ᶠ p = f at *
  obtain ⟨f1, f2⟩ := _root_.abs_le.1 ef'
  norm_num at f1 f2 p1
  have f0 : 0.99 ≤ val f := by norm_num; linarith
  have f3 : val f ≤ 1.001 := by norm_num; linarith
  norm_num at f0 f3
  have fpos : 0 < val f := by linarith
  have d1 : 1 / val f ≤ 1.02 := by rw [div_le_iff₀ fpos]; norm_num; linarith
  have d0 : 0 < 1 / val f := by positivity
  have eq : lit 1 /ᶠ f = rnd (neg (lit 1) ^^ neg f) (val (lit 1) / val f) := div_fin c_one.1 ff (by linarith)
  rw [c_one.2] at eq
  have r2 := rnd_err' (s := neg (lit 1) ^^ neg f) (q := 1 / val f) (by rw [abs_of_pos d0]; norm_num at d1 ⊢; linarith)
  rw [← eq, abs_of_pos d0] at r2
  obtain ⟨fr, er⟩ := r2
  refine ⟨_, rfl, fr, ?_⟩
  generalize lit 1 /ᶠ f = r at *
  -- the difference to 1 + p
  have g : |1 / val f - (1 + val p)| ≤ 6.1e-8 := by
    have : 1 / val f - (1 + val p) = (val p ^ 2 - (val f - (1 - val p)) * (1 + val p)) / val f := by field_simp; ring
    rw [this, abs_div, abs_of_pos fpos, div_le_iff₀ fpos, _root_.abs_le]
    have q1 : 0 ≤ val p ^ 2 ∧ val p ^ 2 ≤ 1e-12 := ⟨sq_nonneg _, by norm_num; nlinarith⟩
    have q2 : |(val f - (1 - val p)) * (1 + val p)| ≤ 6e-8 * 1.000001 := by
      rw [abs_mul, abs_of_pos (a := 1 + val p) (by linarith)]
      exact mul_le_mul ef' (by norm_num; linarith) (by linarith) (by norm_num)
    obtain ⟨q3, q4⟩ := _root_.abs_le.1 q2
    obtain ⟨q5, q6⟩ := q1
    generalize (val f - (1 - val p)) * (1 + val p) = M at *
    norm_num at q3 q4 q5 q6 ⊢
    constructor <;> linarith
  have er' : |val r - 1 / val f| ≤ 6.1e-8 := by
    refine er.trans ?_
    norm_num at d1 ⊢; linarith
  have hq : |val r - (1 + val p)| ≤ 1.22e-7 := by
    have := abs_sub_le (val r) (1 / val f) (1 + val p)
    norm_num at g er' this ⊢; linarith
  have hR : |(val r : ℝ) - (1 + (val p : ℝ))| ≤ 1.22e-7 := by
    have : ((|val r - (1 + val p)| : ℚ) : ℝ) ≤ ((1.22e-7 : ℚ) : ℝ) := by exact_mod_cast hq
    push_cast at this; norm_num at this ⊢; exact this
  have hz := zeta_two_terms (t := (val s : ℝ)) (by exact_mod_cast h1)
  have : ((val r : ℝ) : ℂ) - riemannZeta ((val s : ℝ) : ℂ) =
      (((val r : ℝ) - (1 + (val p : ℝ)) + ((val p : ℝ) - (2 : ℝ) ^ (-(val s : ℝ))) : ℝ) : ℂ) -
        (riemannZeta ((val s : ℝ) : ℂ) - ((1 + (2 : ℝ) ^ (-(val s : ℝ)) : ℝ) : ℂ)) := by push_cast; ring
  rw [this]
  refine (norm_sub_le _ _).trans ?_
  rw [Complex.norm_real, Real.norm_eq_abs]
  have h3 := abs_add_le ((val r : ℝ) - (1 + (val p : ℝ))) ((val p : ℝ) - (2 : ℝ) ^ (-(val s : ℝ)))
  norm_num at hR ep hz h3 ⊢
  linarith

/-- A case of the theorem above: `riemann_zeta(20.5)`. -/
example : F32.Finite (lit 20.5) ∧ 20 ≤ val (lit 20.5) ∧ riemann_zeta (lit 20.5) = .ok 0x3F800006#32 := by decide +kernel

/-- **C111** (part) The pole gives infinity, infinity gives one and a NaN a NaN. -/
theorem C111_special (s : BitVec 32) : (IsNaN s → riemann_zeta s = .ok nan) ∧ (F32.Finite s → val s = 1 → riemann_zeta s = .ok inf) ∧
    riemann_zeta inf = .ok (lit 1) := by
  refine ⟨fun h => ?_, fun hs h => ?_, by decide +kernel⟩
  · unfold riemann_zeta; rw [if_pos h]; rfl
  · unfold riemann_zeta
    rw [if_neg hs.notNaN, if_pos (by rw [C88_iff _ _ c_one.1 hs, c_one.2, h]; norm_num)]; rfl

example : F32.Finite (lit 1) ∧ val (lit 1) = 1 ∧ IsNaN nan := by decide +kernel

/-! ### Large negative arguments -/

theorem div_not_finite {a b : BitVec 32} (h : ¬ F32.Finite a) (hb : F32.Finite b) : ¬ F32.Finite (a /ᶠ b) := by
  have q : ¬ F32.Finite qnan := by decide
  have p : ∀ s, ¬ F32.Finite (pack s 2139095040) := by decide
  unfold F32.div
  split
  · exact q
  rename_i hn
  have hi : IsInf a := by
    rw [not_or] at hn
    rcases (trichotomy hn.1).resolve_left h with rfl | rfl <;> decide
  rw [if_pos hi, if_neg hb.notInf]
  exact p _

/-- The series of the Stirling branch stays small. -/
theorem hornerDiv_small {yy : BitVec 32} (hy : F32.Finite yy) (h2 : 2 ≤ val yy) (cs : List ℚ)
    (hc : ∀ c ∈ cs, F32.Finite (lit c) ∧ |val (lit c)| ≤ 0.1) (h : BitVec 32) (hf : F32.Finite h) (hb : |val h| ≤ (1 / 2) ^ 2) :
    F32.Finite (hornerDiv yy cs h) ∧ |val (hornerDiv yy cs h)| ≤ (1 / 2) ^ 2 := by
  induction cs generalizing h with
  | nil => exact ⟨hf, hb⟩
  | cons c cs ih =>
    obtain ⟨fc, bc⟩ := hc c (by simp)
    have q1 : |val h / val yy| ≤ (1 / 2) ^ 3 := by
      rw [abs_div, abs_of_pos (a := val yy) (by linarith), div_le_iff₀ (by linarith)]
      norm_num at hb ⊢; linarith
    obtain ⟨f1, b1⟩ := rnd_half (s := neg h ^^ neg yy) 3 (by norm_num) q1
    rw [← div_fin hf hy (by linarith)] at f1 b1
    have q2 : |val (h /ᶠ yy) + val (lit c)| ≤ (1 / 2) ^ 2 := by
      refine (abs_add_le _ _).trans ?_
      norm_num at b1 bc ⊢; linarith
    obtain ⟨f2, b2⟩ := rnd_half (s := neg (h /ᶠ yy) && neg (lit c)) 2 (by norm_num) q2
    rw [← add_fin f1 fc] at f2 b2
    exact ih (fun c hc' => hc c (by simp [hc'])) _ f2 b2

theorem stirling_small : (∀ c ∈ stirlingC, F32.Finite (lit c) ∧ |val (lit c)| ≤ 0.1) ∧
    F32.Finite (lit 5.7083835261e-03) ∧ |val (lit 5.7083835261e-03)| ≤ (1 / 2) ^ 2 := by decide +kernel

theorem log_36 {y : ℝ} (h : 36 ≤ y) : 3.58 ≤ Real.log y := by
  rw [Real.le_log_iff_exp_le (by linarith)]
  refine le_trans ?_ h
  have h1 : Real.exp 3.58 ^ 50 = Real.exp 1 ^ 179 := by
    rw [← Real.exp_nat_mul, ← Real.exp_nat_mul]; norm_num
  have h2 : Real.exp 1 ^ 179 ≤ 2.7182818286 ^ 179 := pow_le_pow_left₀ (Real.exp_pos _).le Real.exp_one_lt_d9.le _
  have h3 : Real.exp 3.58 ^ 50 ≤ 36 ^ 50 := by rw [h1]; exact h2.trans (by norm_num)
  exact (pow_le_pow_iff_left₀ (Real.exp_pos _).le (by norm_num) (by norm_num)).1 h3

theorem log_172 {y : ℝ} (h0 : 0 < y) (h : y ≤ 172) : Real.log y ≤ 6 := by
  rw [Real.log_le_iff_le_exp h0]
  refine h.trans ?_
  have h1 : Real.exp 6 = Real.exp 1 ^ 6 := by rw [← Real.exp_nat_mul]; norm_num
  have h2 : 2.7 ^ 6 ≤ Real.exp 1 ^ 6 := pow_le_pow_left₀ (by norm_num) (by have := Real.exp_one_gt_d9; norm_num at this ⊢; linarith) _
  rw [h1]; exact le_trans (by norm_num) h2

/-- `lgamma` is at least 88.8 from 36 on. -/
theorem lgamma_36 {y : BitVec 32} (hn : ¬ IsNaN y) (h : 36 ≤ val y) : F32.le (lit 88.8) (lgamma y) = true := by
  have k0 : F32.le (lit 88.8) inf = true := by decide +kernel
  by_cases hi : IsInf y
  · rw [(C101_special y).2.1 hi]; exact k0
  have hy : F32.Finite y := by
    rcases trichotomy hn with h' | rfl | rfl
    · exact h'
    · exact absurd (by decide) hi
    · exact absurd (by decide) hi
  by_cases hl : val (lit 171.624) < val y
  · rw [C101_false_large y hy hl]; exact k0
  rw [lgamma_pos hy (by linarith)]
  have c : F32.Finite (lit 171.624) ∧ val (lit 171.624) ≤ 172 ∧ val epsilon < 1 ∧ F32.Finite (lit 1.5) ∧ val (lit 1.5) = 1.5 ∧
    F32.Finite (lit 4) ∧ val (lit 4) = 4 ∧ F32.Finite (lit 4294967296.87842273712158203125) ∧
    1000 ≤ val (lit 4294967296.87842273712158203125) := by decide +kernel
  obtain ⟨c1, c2, c3, c4, c5, c6, c7, c8, c9⟩ := c
  have hu : val y ≤ 172 := (not_lt.1 hl).trans c2
  unfold lgammaPositive
  simp only []
  rw [if_neg (by rw [lt_fin c1 hy, decide_eq_true_eq]; exact hl),
    if_neg (by rw [le_fin hy c_eps.1, decide_eq_true_eq]; linarith),
    if_neg (by rw [le_fin hy c4, decide_eq_true_eq, c5]; norm_num; linarith),
    if_neg (by rw [le_fin hy c6, decide_eq_true_eq, c7]; linarith),
    if_neg (by rw [le_fin hy c_twelve.1, decide_eq_true_eq, c_twelve.2]; linarith),
    if_pos (by rw [le_fin hy c8, decide_eq_true_eq]; linarith)]
  have b : F32.Finite (lit 2) ∧ val (lit 2) = 2 ∧ F32.Finite (lit 30000) ∧ val (lit 30000) = 30000 ∧
    F32.Finite (lit 3.125) ∧ val (lit 3.125) = 25 / 8 ∧ F32.Finite (lit 0.5) ∧ val (lit 0.5) = 1 / 2 ∧
    F32.Finite (lit (-2.5)) ∧ val (lit (-2.5)) = -(5 / 2) ∧ F32.Finite FFP_LN_SQRT_2PI ∧ 0.9 ≤ val FFP_LN_SQRT_2PI ∧
    val FFP_LN_SQRT_2PI ≤ 0.92 ∧ F32.Finite (lit (-2.75)) ∧ val (lit (-2.75)) = -(11 / 4) ∧ F32.Finite (lit 2.5625) ∧ val (lit 2.5625) = 41 / 16 ∧
    F32.Finite (lit 5.5) ∧ val (lit 5.5) = 11 / 2 ∧ F32.Finite (lit 92) ∧ val (lit 92) = 92 ∧ F32.Finite (lit 89) ∧ val (lit 89) = 89 ∧
    F32.Finite (lit 88.8) ∧ val (lit 88.8) ≤ 89 := by decide +kernel
  obtain ⟨b1, v1, b2, v2, b3, v3, b4, v4, b5, v5, b6, v6, v6', b7, v7, b8, v8, b9, v9, b10, v10, b11, v11, b12, v12⟩ := b
  obtain ⟨yf, y1, -⟩ := mul_btw hy hy b1 b2 (by rw [v1]; nlinarith) (by rw [v2]; nlinarith)
  rw [v1] at y1
  obtain ⟨hf, hb⟩ := hornerDiv_small yf y1 stirlingC stirling_small.1 _ stirling_small.2.1 stirling_small.2.2
  generalize hornerDiv (y *ᶠ y) stirlingC (lit 5.7083835261e-03) = H at *
  obtain ⟨hrf, hrb⟩ := rnd_half (s := neg H ^^ neg y) (q := val H / val y) 2 (by norm_num) (by
    rw [abs_div, abs_of_pos (a := val y) (by linarith), div_le_iff₀ (by linarith)]
    norm_num at hb ⊢; linarith)
  rw [← div_fin hf hy (by linarith)] at hrf hrb
  generalize H /ᶠ y = R at *
  have hyR : (36 : ℝ) ≤ val y := by exact_mod_cast h
  have huR : (val y : ℝ) ≤ 172 := by exact_mod_cast hu
  obtain ⟨lf, le⟩ := C82_log_partial y hy (le_trans (by norm_num) h)
  have l1 := log_36 hyR
  have l2 := log_172 (by linarith) huR
  have lo : 3.57 ≤ val (log y) ∧ val (log y) ≤ 6.25 := by
    rw [abs_of_nonneg (a := Real.log _) (by norm_num at l1; linarith)] at le
    obtain ⟨p, q⟩ := _root_.abs_le.1 le
    constructor
    · have : ((3.57 : ℚ) : ℝ) ≤ val (log y) := by norm_num at l1 p ⊢; linarith
      exact_mod_cast this
    · have : (val (log y) : ℝ) ≤ ((6.25 : ℚ) : ℝ) := by norm_num at q ⊢; linarith
      exact_mod_cast this
  obtain ⟨lo1, lo2⟩ := lo
  generalize log y = L at *
  norm_num at lo1 lo2 hrb v6 v6'
  have bk : F32.Finite (lit 2000) ∧ val (lit 2000) = 2000 := by decide +kernel
  obtain ⟨f1, g1, g1'⟩ := mul_btw b4 lf c_zero.1 b3 (by rw [c_zero.2, v4]; linarith) (by rw [v4, v3]; linarith)
  rw [c_zero.2] at g1
  rw [v3] at g1'
  generalize lit 0.5 *ᶠ L = T1 at *
  obtain ⟨f2, g2, g2'⟩ := sub_btw b6 f1 b5 b3 (by rw [v5]; linarith) (by rw [v3]; linarith)
  rw [v5] at g2
  rw [v3] at g2'
  generalize FFP_LN_SQRT_2PI -ᶠ T1 = T2 at *
  obtain ⟨r1, r2⟩ := _root_.abs_le.1 hrb
  obtain ⟨f3, g3, g3'⟩ := add_btw hrf f2 b7 b9 (by rw [v7]; linarith) (by rw [v9]; linarith)
  rw [v7] at g3
  rw [v9] at g3'
  generalize R +ᶠ T2 = T3 at *
  obtain ⟨f4, g4, g4'⟩ := sub_btw lf c_one.1 b8 b9 (by rw [v8, c_one.2]; linarith) (by rw [v9, c_one.2]; linarith)
  rw [v8] at g4
  rw [v9] at g4'
  generalize L -ᶠ lit 1 = T4 at *
  obtain ⟨f5, g5, g5'⟩ := mul_btw hy f4 b10 bk.1 (by rw [v10]; nlinarith) (by rw [bk.2]; nlinarith)
  rw [v10] at g5
  rw [bk.2] at g5'
  generalize y *ᶠ T4 = T5 at *
  obtain ⟨f6, g6, -⟩ := add_btw f3 f5 b11 b2 (by rw [v11]; linarith) (by rw [v2]; linarith)
  rw [v11] at g6
  rw [le_fin b12 f6, decide_eq_true_eq]
  linarith

/-- **C112, negation.** At every number up to -35 (except negative infinity, where it is a NaN) the result is an infinity or a NaN. -/
theorem C112_false_negative (s : BitVec 32) (hs : F32.Finite s) (h : val s ≤ -35) : ∀ r, riemann_zeta s = .ok r → ¬ F32.Finite r := by
  have c : F32.Finite (lit (-19)) ∧ val (lit (-19)) = -19 ∧ F32.Finite (lit 36) ∧ val (lit 36) = 36 ∧ F32.Finite FFP_PI ∧ ¬ F32.Finite inf := by decide +kernel
  have e : lit 1 -ᶠ s = rnd (neg (lit 1) && !neg s) (val (lit 1) - val s) := sub_fin c_one.1 hs
  have hn : ¬ IsNaN (lit 1 -ᶠ s) := by rw [e]; exact rnd_notNaN _ _
  have h36 : 36 ≤ val (lit 1 -ᶠ s) := by
    rw [e]
    have := le_rnd (s := neg (lit 1) && !neg s) (q := val (lit 1) - val s) c.2.2.1 (by rw [c.2.2.2.1, c_one.2]; linarith)
    rwa [c.2.2.2.1] at this
  have hexp := (C80_limits _).2 (lgamma_36 hn h36)
  intro r hr
  unfold riemann_zeta at hr
  rw [if_neg hs.notNaN, if_neg, if_pos] at hr
  · rw [Out.bind_eq_ok] at hr
    obtain ⟨z, -, hr⟩ := hr
    rw [Out.bind_eq_ok] at hr
    obtain ⟨q, hq, hr⟩ := hr
    unfold zetaReflect at hq
    rw [Out.bind_eq_ok] at hq
    obtain ⟨p, -, hq⟩ := hq
    rw [hexp] at hq
    simp only [Out.bind_ok, Out.pure_eq, Out.ok.injEq] at hq hr
    rw [← hr, F32.mul_comm, ← hq]
    apply mul_not_finite
    apply div_not_finite _ c.2.2.2.2.1
    rw [F32.mul_comm]
    exact mul_not_finite c.2.2.2.2.2 _
  · rw [lt_fin hs c.1, c.2.1, decide_eq_true_eq]; linarith
  · rw [C88_iff _ _ c_one.1 hs, c_one.2]
    intro h'
    have := (_root_.abs_le.1 h').2
    norm_num at this
    linarith

/-- The zeta function at -35 is an ordinary number. -/
theorem zeta_m35 : ‖riemannZeta (-35)‖ ≤ 1e13 := by
  have h1 := riemannZeta_neg_nat_eq_bernoulli 35
  have h2 := riemannZeta_two_mul_nat (k := 18) (by norm_num)
  have h3 := zeta_two_terms (t := 36) (by norm_num)
  have h4 : ‖riemannZeta (36 : ℂ)‖ ≤ 3 := by
    have e : riemannZeta (36 : ℂ) = (riemannZeta ((36 : ℝ) : ℂ) - ((1 + (2 : ℝ) ^ (-36 : ℝ) : ℝ) : ℂ)) + ((1 + (2 : ℝ) ^ (-36 : ℝ) : ℝ) : ℂ) := by
      rw [sub_add_cancel]; norm_num
    rw [e]
    refine (norm_add_le _ _).trans ?_
    rw [Complex.norm_real, Real.norm_eq_abs, abs_of_pos (by positivity)]
    have : (2 : ℝ) ^ (-36 : ℝ) ≤ 1 := Real.rpow_le_one_of_one_le_of_nonpos (by norm_num) (by norm_num)
    norm_num at h3 ⊢; linarith
  have e36 : (2 * ((18 : ℕ) : ℂ)) = 36 := by norm_num
  rw [e36] at h2
  rw [h2] at h4
  have e35 : (-((35 : ℕ) : ℂ)) = -35 := by norm_num
  rw [e35] at h1
  rw [h1]
  simp only [norm_mul, norm_div, norm_pow, norm_neg, norm_one, one_pow, one_mul, Complex.norm_ofNat, Complex.norm_natCast, Complex.norm_real,
    Real.norm_eq_abs, abs_of_pos Real.pi_pos] at h4 ⊢
  rw [show (35 : ℕ) + 1 = 2 * 18 from rfl, show ((35 : ℕ) : ℂ) + 1 = 36 by norm_num, Complex.norm_ofNat]
  have b0 := norm_nonneg ((bernoulli (2 * 18) : ℚ) : ℂ)
  generalize ‖((bernoulli (2 * 18) : ℚ) : ℂ)‖ = b at *
  have p3 : (3 : ℝ) ^ (2 * 18) ≤ Real.pi ^ (2 * 18) := pow_le_pow_left₀ (by norm_num) Real.pi_gt_three.le _
  rw [div_le_iff₀ (by positivity)] at h4
  have h5 : (2 : ℝ) ^ (2 * 18 - 1) * 3 ^ (2 * 18) * b ≤ 3 * ((2 * 18).factorial : ℝ) :=
    (mul_le_mul_of_nonneg_right (mul_le_mul_of_nonneg_left p3 (by positivity)) b0).trans h4
  norm_num [Nat.factorial] at h5 ⊢
  linarith

/-- **C112, negation.** In particular `riemann_zeta(-35)` is not finite though the zeta function there, about `3.8e11`, is below `1e13`. -/
theorem C112_false_witness : (∃ r, riemann_zeta (lit (-35)) = .ok r ∧ ¬ F32.Finite r) ∧ val (lit (-35)) = -35 ∧ ‖riemannZeta (-35)‖ ≤ 1e13 ∧
    1e13 ≤ val fltMax := by
  refine ⟨⟨inf, by decide +kernel, by decide⟩, by decide +kernel, zeta_m35, by decide +kernel⟩

/-- Further cases: the result is an infinity of either sign or a NaN. -/
example : riemann_zeta (lit (-41)) = .ok (negate inf) ∧ F32.Finite (lit (-41)) ∧ val (lit (-41)) ≤ -35 := by decide +kernel

end Verif.Ffmath
