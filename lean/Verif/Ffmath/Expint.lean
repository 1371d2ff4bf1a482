import Verif.Ffmath.ExpintSeries
import Verif.Ffmath.Circle
import Verif.Ffmath.Hyper

/-!
# The exponential integral (C107)

The reference is `eiR`: Euler's constant, the logarithm and the power series.
-/

namespace Verif.Ffmath

open Verif F32

theorem gammaE_val : F32.Finite FFP_GAMMA_E ∧ |val FFP_GAMMA_E - 0.57721566| ≤ 2e-8 := by decide +kernel

theorem ein_nonneg {x : ℝ} (hx : 0 ≤ x) : 0 ≤ einR x := tsum_nonneg fun k => by positivity

theorem ein_le {x : ℚ} (hx : 0 < x) (h : x ≤ 37) : einR x ≤ 1e18 := by
  have hxr : (0 : ℝ) ≤ (x : ℝ) := by exact_mod_cast hx.le
  have h2 : Real.exp x ≤ Real.exp 37 := Real.exp_le_exp.2 (by exact_mod_cast h)
  have h3 : Real.exp 37 ≤ 1e18 := by
    have e : Real.exp 37 = Real.exp 1 ^ 37 := by rw [← Real.exp_nat_mul]; norm_num
    rw [e]
    refine (pow_le_pow_left₀ (Real.exp_pos 1).le Real.exp_one_lt_d9.le 37).trans ?_
    norm_num
  exact (ein_le_exp hxr).trans (h2.trans h3)

/-- **C107** For every float between `2^-20` and 36.044 the result is within `2.2e-5 (Ei(x) - gamma - log x) + 1e-5` of the exponential
integral. -/
theorem C107_accuracy_partial (x : BitVec 32) (hx : F32.Finite x) (h1 : 2 ^ (-20 : ℤ) ≤ val x) (h2 : F32.lt x (lit 36.044) = true) :
    ∃ r, expint x = .ok r ∧ F32.Finite r ∧ |(val r : ℝ) - eiR (val x)| ≤ 2.2e-5 * einR (val x) + 1e-5 := by
  have c36 : F32.Finite (lit 36.044) ∧ val (lit 36.044) ≤ 36.05 := by decide +kernel
  have h1' : 9.5e-7 ≤ val x := le_trans (by norm_num) h1
  have hx0 : 0 < val x := by linarith
  have hlt := h2
  rw [lt_fin hx c36.1, decide_eq_true_eq] at hlt
  have h2' : val x ≤ 36.05 := by linarith [c36.2]
  have hxr : (0 : ℝ) < ((val x : ℚ) : ℝ) := by exact_mod_cast hx0
  have heq : expint x = .ok (expintEiSeries x) := by
    unfold expint expintEi
    rw [if_neg hx.notNaN, if_neg (by rw [lt_fin hx c_zero.1, c_zero.2]; simp [hx0.le]), if_pos h2]; rfl
  refine ⟨_, heq, ?_⟩
  unfold expintEiSeries
  obtain ⟨fs, es⟩ := eiSeries_near hx h1' h2'
  obtain ⟨fl, el⟩ := C82_log_partial x hx (le_trans (by norm_num) h1')
  generalize eiSeriesLoop x 999 1 (lit 1) (lit 0) = S at *
  obtain ⟨fg, eg⟩ := gammaE_val
  have eg' : |((val FFP_GAMMA_E : ℚ) : ℝ) - 0.57721566| ≤ 2e-8 := by
    have : ((|val FFP_GAMMA_E - 0.57721566| : ℚ) : ℝ) ≤ ((2e-8 : ℚ) : ℝ) := by exact_mod_cast eg
    push_cast at this; exact this
  have gn := gamma_near
  have E0 := ein_nonneg hxr.le
  have E1 := ein_le hx0 (by linarith)
  have hL : |Real.log (val x)| ≤ 14 := by
    have l2 := Real.log_two_lt_d9
    have a1 : ((2 : ℝ) ^ (-20 : ℤ)) ≤ ((val x : ℚ) : ℝ) := by
      have : (((2 : ℚ) ^ (-20 : ℤ) : ℚ) : ℝ) ≤ ((val x : ℚ) : ℝ) := by exact_mod_cast h1
      push_cast at this; exact this
    have a2 : ((val x : ℚ) : ℝ) ≤ 64 := by
      have : val x ≤ 64 := by linarith
      exact_mod_cast this
    have b1 := Real.log_le_log (by positivity) a1
    have b2 := Real.log_le_log hxr a2
    rw [Real.log_zpow] at b1
    rw [show (64 : ℝ) = 2 ^ 6 by norm_num, Real.log_pow] at b2
    push_cast at b1 b2
    rw [_root_.abs_le]
    constructor <;> linarith
  obtain ⟨s1, s2⟩ := _root_.abs_le.1 es
  have hsq : |val S| ≤ 2e18 := by
    have : |((val S : ℚ) : ℝ)| ≤ 2e18 := by rw [_root_.abs_le]; constructor <;> linarith
    have : ((|val S| : ℚ) : ℝ) ≤ ((2e18 : ℚ) : ℝ) := by push_cast; exact this
    exact_mod_cast this
  obtain ⟨l1, l2⟩ := _root_.abs_le.1 hL
  obtain ⟨el1, el2⟩ := _root_.abs_le.1 el
  have hlq : |val (log x)| ≤ 15 := by
    have : |((val (log x) : ℚ) : ℝ)| ≤ 15 := by rw [_root_.abs_le]; constructor <;> linarith
    have : ((|val (log x)| : ℚ) : ℝ) ≤ ((15 : ℚ) : ℝ) := by push_cast; exact this
    exact_mod_cast this
  obtain ⟨g1, g2⟩ := _root_.abs_le.1 eg
  obtain ⟨q1, q2⟩ := _root_.abs_le.1 hsq
  obtain ⟨p1, p2⟩ := _root_.abs_le.1 hlq
  rw [add_fin fg fs]
  obtain ⟨fa, ea⟩ := rnd_err' (s := neg FFP_GAMMA_E && neg S) (q := val FFP_GAMMA_E + val S) (by rw [_root_.abs_le]; constructor <;> linarith)
  have eaR := rnd_errR fa
  generalize rnd (neg FFP_GAMMA_E && neg S) (val FFP_GAMMA_E + val S) = A at *
  have hA : |val A| ≤ 3e18 := by
    have h0 : |val FFP_GAMMA_E + val S| ≤ 2.1e18 := by rw [_root_.abs_le]; constructor <;> linarith
    obtain ⟨a1, a2⟩ := _root_.abs_le.1 ea
    obtain ⟨b1, b2⟩ := _root_.abs_le.1 h0
    rw [_root_.abs_le]; constructor <;> linarith
  obtain ⟨A1, A2⟩ := _root_.abs_le.1 hA
  rw [add_fin fa fl]
  obtain ⟨fr, -⟩ := rnd_err' (s := neg A && neg (log x)) (q := val A + val (log x)) (by rw [_root_.abs_le]; constructor <;> linarith)
  have erR := rnd_errR fr
  refine ⟨fr, ?_⟩
  generalize rnd (neg A && neg (log x)) (val A + val (log x)) = r at *
  unfold eiR
  rw [abs_of_pos hxr]
  push_cast at eaR erR
  clear hsq hlq q1 q2 p1 p2 A1 A2 hA ea g1 g2 eg hlt h2 heq
  generalize ((val FFP_GAMMA_E : ℚ) : ℝ) = g at *
  generalize ((val S : ℚ) : ℝ) = sR at *
  generalize ((val A : ℚ) : ℝ) = aR at *
  generalize ((val r : ℚ) : ℝ) = rR at *
  generalize ((val (log x) : ℚ) : ℝ) = lR at *
  generalize Real.log ((val x : ℚ) : ℝ) = L at *
  generalize einR ((val x : ℚ) : ℝ) = E at *
  generalize Real.eulerMascheroniConstant = G at *
  obtain ⟨k1, k2⟩ := _root_.abs_le.1 eg'
  obtain ⟨m1, m2⟩ := _root_.abs_le.1 gn
  have hgs : |g + sR| ≤ 0.6 + 1.001 * E := by rw [_root_.abs_le]; constructor <;> linarith
  have hal : |aR + lR| ≤ 16 + 1.01 * E := by
    obtain ⟨w1, w2⟩ := _root_.abs_le.1 eaR
    obtain ⟨w3, w4⟩ := _root_.abs_le.1 hgs
    rw [_root_.abs_le]; constructor <;> linarith
  obtain ⟨w1, w2⟩ := _root_.abs_le.1 eaR
  obtain ⟨w3, w4⟩ := _root_.abs_le.1 erR
  rw [_root_.abs_le]; constructor <;> linarith

/-! ### Special values -/

/-- **C107** (part) Every argument has a defined result. -/
theorem C107_defined (x : BitVec 32) : ∃ r, expint x = .ok r := by
  unfold expint
  split
  · exact ⟨_, rfl⟩
  rename_i hn
  have hn' : ¬ IsNaN (negate x) := by rwa [nan_negate]
  have hnn : ¬ IsNaN (negate (negate x)) := by rwa [nan_negate, nan_negate]
  unfold expintEi
  simp only []
  split
  · split
    · exact ⟨_, rfl⟩
    split
    · unfold expintE1ContFrac
      obtain ⟨r, hr⟩ := C80_defined (negate (negate x)) hnn
      simp only [hr]
      split <;> exact ⟨_, rfl⟩
    · unfold expintE1Asymp
      obtain ⟨r, hr⟩ := C80_defined (negate (negate x)) hnn
      simp only [hr]
      exact ⟨_, rfl⟩
  · split
    · exact ⟨_, rfl⟩
    · unfold expintEiAsymp
      obtain ⟨r, hr⟩ := C80_defined x hn
      simp only [hr]
      exact ⟨_, rfl⟩

theorem eiSeries_zero {x : BitVec 32} (hx : F32.Finite x) (h0 : val x = 0) : ∀ (fuel i : ℕ) (term sum : BitVec 32), 1 ≤ i → i + fuel ≤ 1000 →
    F32.Finite term → F32.Finite sum → val sum = 0 → F32.Finite (eiSeriesLoop x fuel i term sum) ∧ val (eiSeriesLoop x fuel i term sum) = 0 := by
  intro fuel
  induction fuel with
  | zero => intro i term sum _ _ _ hs v; exact ⟨hs, v⟩
  | succ fuel ih =>
    intro i term sum hi hf ft fs vs
    obtain ⟨fj, vj⟩ := lit_nat i (by omega)
    have hj : val (lit (i : ℚ)) ≠ 0 := by rw [vj]; exact_mod_cast (by omega : i ≠ 0)
    have z : ∀ s, F32.Finite (rnd s 0) ∧ val (rnd s 0) = 0 := by decide +kernel
    have hd := z (neg x ^^ neg (lit (i : ℚ)))
    rw [show (0 : ℚ) = val x / val (lit (i : ℚ)) by rw [h0, zero_div], ← div_fin hx fj hj, h0, zero_div] at hd
    unfold eiSeriesLoop
    simp only []
    generalize F32.div x (lit (i : ℚ)) = d at *
    have hm := z (neg term ^^ neg d)
    rw [show (0 : ℚ) = val term * val d by rw [hd.2, mul_zero], ← mul_fin ft hd.1, hd.2, mul_zero] at hm
    generalize F32.mul term d = t at *
    have hq := z (neg t ^^ neg (lit (i : ℚ)))
    rw [show (0 : ℚ) = val t / val (lit (i : ℚ)) by rw [hm.2, zero_div], ← div_fin hm.1 fj hj, hm.2, zero_div] at hq
    generalize F32.div t (lit (i : ℚ)) = q at *
    have ha := z (neg sum && neg q)
    rw [show (0 : ℚ) = val sum + val q by rw [vs, hq.2, add_zero], ← add_fin fs hq.1, vs, hq.2, add_zero] at ha
    split
    · exact ha
    · exact ih (i + 1) _ _ (by omega) (by omega) hm.1 ha.1 ha.2

/-- **C107** (part) A NaN gives NaN, a zero of either sign negative infinity. -/
theorem C107_special (x : BitVec 32) : (IsNaN x → expint x = .ok nan) ∧ (F32.Finite x → val x = 0 → expint x = .ok (negate inf)) := by
  refine ⟨fun h => by unfold expint; rw [if_pos h]; rfl, fun hx h0 => ?_⟩
  have c36 : F32.Finite (lit 36.044) ∧ 0 < val (lit 36.044) := by decide +kernel
  have hx' : x = lit 0 ∨ x = negate (lit 0) := by
    have hm := val_eq_zero.1 h0
    have hz : (lit 0 : BitVec 32).toNat = 0 ∧ (negate (lit 0)).toNat = 2147483648 := by decide +kernel
    unfold mag at hm
    have := x.isLt
    rcases (by omega : x.toNat = 0 ∨ x.toNat = 2147483648) with h | h
    · exact .inl (BitVec.eq_of_toNat_eq (by rw [h, hz.1]))
    · exact .inr (BitVec.eq_of_toNat_eq (by rw [h, hz.2]))
  have hl : log x = negate inf := by
    have : log (lit 0) = negate inf ∧ log (negate (lit 0)) = negate inf := by decide +kernel
    rcases hx' with rfl | rfl
    · exact this.1
    · exact this.2
  have hs := eiSeries_zero hx h0 999 1 (lit 1) (lit 0) le_rfl le_rfl c_one.1 c_zero.1 c_zero.2
  unfold expint expintEi
  rw [if_neg hx.notNaN, if_neg (by rw [lt_fin hx c_zero.1, c_zero.2]; simp [h0]), if_pos (by rw [lt_fin hx c36.1, h0]; simpa using c36.2)]
  unfold expintEiSeries
  generalize eiSeriesLoop x 999 1 (lit 1) (lit 0) = S at *
  rw [hl]
  obtain ⟨fa, -⟩ := add_exact gammaE_val.1 hs.1 gammaE_val.1 (by rw [hs.2, add_zero])
  generalize F32.add FFP_GAMMA_E S = A at *
  have e : F32.add A (negate inf) = negate inf := by
    unfold F32.add
    rw [if_neg (by rw [not_or]; exact ⟨fa.notNaN, by decide⟩), if_neg fa.notInf, if_pos (by decide)]
  rw [e]; rfl

/-- **C107, negation.** The result at infinity is NaN. -/
theorem C107_false_inf : ∃ r, expint inf = .ok r ∧ IsNaN r := ⟨qnan, by decide +kernel⟩

/-! ### Large arguments -/

/-- **C107, negation.** For every float from 36.044 to 88 the result is more than one percent too small: the sign of the terms of
the asymptotic series is wrong, and the loop ends before it adds the first of them. -/
theorem C107_false_large (x : BitVec 32) (hx : F32.Finite x) (h1 : F32.le (lit 36.044) x = true) (h2 : val x ≤ 88) :
    ∃ r, expint x = .ok r ∧ F32.Finite r ∧ (val r : ℝ) ≤ 0.99 * eiR (val x) := by
  have c36 : F32.Finite (lit 36.044) ∧ 36 ≤ val (lit 36.044) := by decide +kernel
  have h1' := h1
  rw [le_fin c36.1 hx, decide_eq_true_eq] at h1'
  have hx36 : 36 ≤ val x := c36.2.trans h1'
  have hx0 : 0 < val x := by linarith
  have hxr : (36 : ℝ) ≤ ((val x : ℚ) : ℝ) := by exact_mod_cast hx36
  have hxr2 : ((val x : ℚ) : ℝ) ≤ 88 := by exact_mod_cast h2
  obtain ⟨e, he, fe, ee⟩ := C80_accuracy_partial x hx (by linarith) (by linarith)
  have hexp2 : Real.exp (val x) ≤ 2.3e38 := by
    have : Real.exp (val x) ≤ Real.exp 88 := Real.exp_le_exp.2 hxr2
    refine this.trans ?_
    have e : Real.exp 88 = Real.exp 1 ^ 88 := by rw [← Real.exp_nat_mul]; norm_num
    rw [e]
    refine (pow_le_pow_left₀ (Real.exp_pos 1).le Real.exp_one_lt_d9.le 88).trans ?_
    norm_num
  have hloop : eiAsympLoop x 999 1 (lit 1) (lit 1) = lit 1 := by
    have cm : F32.Finite (negate (lit ((1 : ℕ) : ℚ))) ∧ val (negate (lit ((1 : ℕ) : ℚ))) = -1 := by decide +kernel
    have hd : F32.Finite (F32.div (negate (lit ((1 : ℕ) : ℚ))) x) ∧ val (F32.div (negate (lit ((1 : ℕ) : ℚ))) x) ≤ 0 := by
      rw [div_fin cm.1 hx hx0.ne', cm.2]
      have hb : -1 / val x ≤ 0 := div_nonpos_of_nonpos_of_nonneg (by norm_num) hx0.le
      have hb2 : -1 ≤ -1 / val x := by rw [le_div_iff₀ hx0]; linarith
      refine ⟨rnd_finite' (by rw [_root_.abs_le]; constructor <;> linarith), ?_⟩
      have := rnd_le (s := neg (negate (lit ((1 : ℕ) : ℚ))) ^^ neg x) c_zero.1 (q := -1 / val x) (by rw [c_zero.2]; exact hb)
      rwa [c_zero.2] at this
    obtain ⟨fm, vm⟩ := mul_exact c_one.1 hd.1 hd.1 (by rw [c_one.2, one_mul])
    unfold eiAsympLoop
    simp only []
    rw [if_pos]
    rw [lt_fin fm c_eps.1, vm]
    have : val epsilon = 1 / 8388608 := by decide +kernel
    rw [this]
    simp only [Bool.or_eq_true, decide_eq_true_eq]
    exact Or.inl (lt_of_le_of_lt hd.2 (by norm_num))
  have heq : expint x = .ok (F32.div (F32.mul e (lit 1)) x) := by
    unfold expint expintEi
    rw [if_neg hx.notNaN, if_neg (by rw [lt_fin hx c_zero.1, c_zero.2]; simp [hx0.le]),
      if_neg (by rw [lt_fin hx c36.1]; simp [h1'])]
    unfold expintEiAsymp
    rw [he, hloop]; rfl
  refine ⟨_, heq, ?_⟩
  obtain ⟨fm, vm⟩ := mul_exact fe c_one.1 fe (by rw [c_one.2, mul_one])
  generalize F32.mul e (lit 1) = m at *
  have hE := Real.exp_pos (val x)
  have hE1 : 1 ≤ Real.exp (val x) := Real.one_le_exp (by linarith)
  have habs : |((val x : ℚ) : ℝ)| ≤ 88 := by rw [abs_of_nonneg (by linarith)]; exact hxr2
  have hee : |((val e : ℚ) : ℝ) - Real.exp (val x)| ≤ 7e-6 * Real.exp (val x) :=
    ee.trans (mul_le_mul_of_nonneg_right (by norm_num at habs ⊢; linarith) hE.le)
  obtain ⟨ee1, ee2⟩ := _root_.abs_le.1 hee
  have hq : |val m / val x| ≤ 3e38 := by
    rw [vm, abs_div, abs_of_pos hx0]
    refine (div_le_self (abs_nonneg _) (by linarith)).trans ?_
    have : |((val e : ℚ) : ℝ)| ≤ 3e38 := by rw [_root_.abs_le]; constructor <;> linarith
    have : ((|val e| : ℚ) : ℝ) ≤ ((3e38 : ℚ) : ℝ) := by push_cast; exact this
    exact_mod_cast this
  rw [div_fin fm hx hx0.ne']
  have fr : F32.Finite (rnd (neg m ^^ neg x) (val m / val x)) := rnd_finite' (hq.trans (by norm_num))
  have er := rnd_errR fr
  refine ⟨fr, ?_⟩
  have hei := ei_ge hxr
  generalize rnd (neg m ^^ neg x) (val m / val x) = r at *
  push_cast at er
  rw [vm] at er
  generalize ((val r : ℚ) : ℝ) = rR at *
  generalize ((val e : ℚ) : ℝ) = eR at *
  generalize ((val x : ℚ) : ℝ) = X at *
  have hX0 : 0 < X := by linarith
  have hpos : 0 < eR / X := div_pos (by linarith) hX0
  rw [abs_of_pos hpos] at er
  obtain ⟨-, er2⟩ := _root_.abs_le.1 er
  have k1 : eR / X ≤ 1.000007 * (Real.exp X / X) := by
    rw [← mul_div_assoc]; exact div_le_div_of_nonneg_right (by linarith) hX0.le
  have k2 : (1 : ℝ) / 88 ≤ 1 / X := one_div_le_one_div_of_le hX0 hxr2
  have k3 : Real.exp X / X * (1 + 1 / 88) ≤ eiR X := le_trans (mul_le_mul_of_nonneg_left (by linarith) (by positivity)) hei
  have k4 : 1 / 88 ≤ Real.exp X / X := by
    refine k2.trans (div_le_div_of_nonneg_right hE1 hX0.le)
  generalize Real.exp X / X = Q at *
  norm_num at k1 k3 k4 er2 ⊢
  linarith

end Verif.Ffmath
