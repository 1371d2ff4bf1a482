import Verif.Fp16.Hyper
import Verif.Fp16.Atan
import Mathlib.Analysis.Complex.ExponentialBounds

/-!
# `fp16::log` (C129)

Newton's iteration on `exp`, in raw values. With `h` the error of the guess, one step makes it
`h + exp (-h) - 1` up to the errors of `exp` and of the division.
-/

namespace Verif.Fp16

/-! ## One step -/

/-- The quotient of one step. -/
theorem newton_div {x g : Int} (hx : 65536 ≤ x ∧ x ≤ 6553600) (hg : -66 ≤ g ∧ g ≤ 460000) :
    ∃ d : Int, chk (x - expF g) = .ok (x - expF g) ∧ div (x - expF g) (expF g) = .ok d ∧
      -65537 ≤ d ∧ d ≤ 6600000 ∧
      |(d : ℝ) / 65536 - (Real.exp (-((g : ℝ) / 65536 - Real.log ((x : ℝ) / 65536))) - 1)| ≤
        6.03e-5 * Real.exp (-((g : ℝ) / 65536 - Real.log ((x : ℝ) / 65536))) + 7.7e-6 := by
  have k0 : 65469 ≤ expF g := by
    have e : expF (-66) = 65470 := by decide +kernel
    have := expF_mono hg.1
    omega
  have k1 : expF g ≤ 74000000 := by
    have e : expF 460000 ≤ 74000000 := by decide +kernel
    have := expF_mono hg.2
    omega
  obtain ⟨d, hd, gd, -⟩ := div_real (x := x - expF g) (y := expF g) (by unfold Num; omega)
    ⟨by omega, by omega⟩ (by omega)
  have hG : (0.998 : ℝ) ≤ Real.exp ((g : ℝ) / 65536) := by
    have := Real.add_one_le_exp ((g : ℝ) / 65536)
    have h1 : (-66 : ℝ) ≤ g := by exact_mod_cast hg.1
    norm_num at this ⊢
    linarith
  have he : |(expF g : ℝ) - 65536 * Real.exp ((g : ℝ) / 65536)| ≤ 3.95 * Real.exp ((g : ℝ) / 65536) := by
    rcases lt_or_ge g 0 with h | h
    · have := expF_neg h
      norm_num at this hG ⊢
      linarith
    · have := expF_pos h (by omega)
      norm_num at this hG ⊢
      linarith
  have e0 : (65469 : ℝ) ≤ expF g := by exact_mod_cast k0
  have hx0 : (65536 : ℝ) ≤ x := by exact_mod_cast hx.1
  have hx1 : (x : ℝ) ≤ 6553600 := by exact_mod_cast hx.2
  have hL : Real.exp (Real.log ((x : ℝ) / 65536)) = (x : ℝ) / 65536 := Real.exp_log (by positivity)
  have hE : Real.exp (-((g : ℝ) / 65536 - Real.log ((x : ℝ) / 65536))) * Real.exp ((g : ℝ) / 65536) =
      (x : ℝ) / 65536 := by
    rw [← Real.exp_add, neg_sub, sub_add_cancel, hL]
  have hE0 := Real.exp_pos (-((g : ℝ) / 65536 - Real.log ((x : ℝ) / 65536)))
  generalize Real.exp (-((g : ℝ) / 65536 - Real.log ((x : ℝ) / 65536))) = E at *
  generalize Real.exp ((g : ℝ) / 65536) = W at *
  push_cast at gd
  generalize (expF g : ℝ) = e at *
  have epos : 0 < e := by linarith
  have hq : |(x : ℝ) / e - E| ≤ 6.03e-5 * E := by
    have e1 : (x : ℝ) / e - E = E * (65536 * W - e) / e := by
      rw [eq_div_iff epos.ne', sub_mul, div_mul_cancel₀ _ epos.ne']
      linear_combination (-65536) * hE
    rw [e1, abs_div, abs_mul, abs_of_pos hE0, abs_of_pos epos, div_le_iff₀ epos, abs_sub_comm]
    have b1 : E * |e - 65536 * W| ≤ E * (3.95 * W) := mul_le_mul_of_nonneg_left he hE0.le
    have b2 : E * (3.95 * W) ≤ E * (6.03e-5 * e) := by
      apply mul_le_mul_of_nonneg_left _ hE0.le
      rw [abs_le] at he
      norm_num at he ⊢
      linarith [he.1]
    linarith
  have e2 : (65536 * ((x : ℝ) - e) / e) = 65536 * ((x : ℝ) / e - 1) := by
    field_simp
  rw [e2] at gd
  have hxe0 : 0 ≤ (x : ℝ) / e := by positivity
  have hxe1 : (x : ℝ) / e ≤ 100.2 := by
    rw [div_le_iff₀ epos]; norm_num; linarith
  refine ⟨d, chk_ok (by omega), hd, ?_, ?_, ?_⟩
  · rw [abs_le] at gd
    have : (-65537 : ℝ) ≤ d := by linarith [gd.1]
    exact_mod_cast this
  · rw [abs_le] at gd
    norm_num at hxe1
    have : (d : ℝ) ≤ 6600000 := by linarith [gd.2]
    exact_mod_cast this
  · rw [abs_le] at *
    norm_num at gd hq ⊢
    constructor <;> linarith [gd.1, gd.2, hq.1, hq.2]

/-- The shape of one step of the iteration. -/
theorem newton_unfold {x g d : Int} {n : Nat} (h1 : chk (x - expF g) = .ok (x - expF g))
    (h2 : div (x - expF g) (expF g) = .ok d) :
    logNewton x n g = (chk (g + if d > 196608 then 196608 else d)).bind fun g' =>
      match n with
      | 0 => pure g'
      | n + 1 => if (if d > 196608 then 196608 else d) > 1 ∨ (if d > 196608 then 196608 else d) < -1 then
          logNewton x n g' else pure g' := by
  cases n <;>
  · rw [logNewton.eq_def]
    dsimp only
    rw [exp_eq, Out.bind_ok, h1, Out.bind_ok, h2, Out.bind_ok]
    rfl

/-! ## The error of the guess -/

theorem exp_neg_le {h : ℝ} (h1 : -1 < h) : Real.exp (-h) ≤ 1 / (1 + h) := by
  rw [Real.exp_neg, inv_eq_one_div]
  exact one_div_le_one_div_of_le (by linarith) (by linarith [Real.add_one_le_exp h])

theorem exp_neg_ge (h : ℝ) : 1 - h ≤ Real.exp (-h) := by linarith [Real.add_one_le_exp (-h)]

/-- One step never falls far below. -/
theorem step_lower {h D : ℝ} (h1 : -0.0003 ≤ h)
    (hD : |D - (Real.exp (-h) - 1)| ≤ 6.03e-5 * Real.exp (-h) + 7.7e-6) : -7e-5 ≤ h + D := by
  have a := exp_neg_ge h
  norm_num at h1
  have b := exp_neg_le (h := h) (by linarith)
  have c : 1 / (1 + h) ≤ 1.0004 := by
    rw [div_le_iff₀ (by linarith)]; norm_num; linarith
  rw [abs_le] at hD
  norm_num at hD c ⊢
  linarith [hD.1]

theorem step_upper {h D b c : ℝ} (hb : 0 < b) (h1 : -0.0003 ≤ h) (h2 : h ≤ b)
    (hc1 : 0.0003 * 0.0003 ≤ c * (1 - 0.0003)) (hc2 : b * b ≤ c * (1 + b))
    (hD : |D - (Real.exp (-h) - 1)| ≤ 6.03e-5 * Real.exp (-h) + 7.7e-6) : h + D ≤ c + 7e-5 := by
  norm_num at h1
  have b1 := exp_neg_le (h := h) (by linarith)
  have c1 : 1 / (1 + h) ≤ 1.0004 := by
    rw [div_le_iff₀ (by linarith)]; norm_num; linarith
  have c2 : h - 1 + 1 / (1 + h) ≤ c := by
    have e : h - 1 + 1 / (1 + h) = h * h / (1 + h) := by
      have : (1 + h) ≠ 0 := by linarith
      field_simp; ring
    rw [e, div_le_iff₀ (by linarith)]
    norm_num at hc1
    by_contra hc
    have k1 := mul_nonneg (mul_nonneg (by linarith : 0 ≤ b + 3 / 10000) (by linarith : 0 ≤ h + 3 / 10000))
      (by linarith : 0 ≤ b - h)
    have k2 := mul_nonneg (by linarith : 0 ≤ b - h) (sub_nonneg.2 hc1)
    have k3 := mul_nonneg (by linarith : 0 ≤ h + 3 / 10000) (sub_nonneg.2 hc2)
    have k4 := mul_pos (by linarith : 0 < b + 3 / 10000) (sub_pos.2 (not_le.1 hc))
    nlinarith
  have hE := b1.trans c1
  generalize Real.exp (-h) = E at *
  generalize 1 / (1 + h) = F at *
  rw [abs_le] at hD
  norm_num at hD c1 hE ⊢
  linarith [hD.2]

/-- A small correction means a small error. -/
theorem step_small {h D : ℝ} (hs : |D| ≤ 1 / 65536)
    (hD : |D - (Real.exp (-h) - 1)| ≤ 6.03e-5 * Real.exp (-h) + 7.7e-6) : -0.0003 ≤ h ∧ h ≤ 0.0003 := by
  have a := exp_neg_ge h
  rw [abs_le] at hs hD
  norm_num at hD
  have u : Real.exp (-h) ≤ 1.0001 := by norm_num; linarith [hD.1, hs.1, hs.2]
  have l : 0.9999 ≤ Real.exp (-h) := by norm_num at u ⊢; linarith [hD.2, hs.1, hs.2]
  norm_num at u l ⊢
  have h1 : -3 / 10000 ≤ h := by linarith
  refine ⟨by linarith, ?_⟩
  by_contra hc
  have b1 := exp_neg_le (h := h) (by linarith)
  have : 1 / (1 + h) < 9999 / 10000 := by rw [div_lt_iff₀ (by linarith)]; linarith
  linarith

/-- Bounds reached backwards from the end of the iteration. Not a definition of the repository. -/
def newtonB : Nat → ℝ
  | 0 => 0.0014
  | 1 => 0.036
  | 2 => 0.2
  | 3 => 0.55
  | 4 => 1.05
  | 5 => 1.65
  | _ => 2.3

theorem newtonB_le (k : Nat) : newtonB k ≤ 2.3 := by
  unfold newtonB; split <;> norm_num

theorem newtonB_pos (k : Nat) : 0 < newtonB k := by
  unfold newtonB; split <;> norm_num

theorem newtonB_step (k : Nat) (hk : k < 6) : ∃ c : ℝ, 0.0003 * 0.0003 ≤ c * (1 - 0.0003) ∧
    newtonB (k + 1) * newtonB (k + 1) ≤ c * (1 + newtonB (k + 1)) ∧ c + 7e-5 ≤ newtonB k := by
  refine ⟨newtonB k - 7e-5, ?_, ?_, by linarith⟩ <;>
  · interval_cases k <;> norm_num [newtonB]

/-- Range of the logarithm of the scaled argument. -/
theorem log_range {x : Int} (hx : 65536 ≤ x ∧ x ≤ 6553600) :
    0 ≤ Real.log ((x : ℝ) / 65536) ∧ Real.log ((x : ℝ) / 65536) ≤ 4.7 := by
  have hx0 : (65536 : ℝ) ≤ x := by exact_mod_cast hx.1
  have hx1 : (x : ℝ) ≤ 6553600 := by exact_mod_cast hx.2
  refine ⟨Real.log_nonneg (by rw [le_div_iff₀ (by norm_num)]; linarith), ?_⟩
  rw [Real.log_le_iff_le_exp (by positivity)]
  have e : (4.7 : ℝ) = 47 * (1 / 10) := by norm_num
  have e1 : (2.718 : ℝ) ^ 47 ≤ Real.exp 4.7 ^ 10 := by
    rw [← Real.exp_nat_mul, show ((10 : Nat) : ℝ) * 4.7 = ((47 : Nat) : ℝ) * 1 by norm_num, Real.exp_nat_mul]
    exact pow_le_pow_left₀ (by norm_num) (by have := Real.exp_one_gt_d9; norm_num at this ⊢; linarith) 47
  have e2 : (100 : ℝ) ≤ Real.exp 4.7 := by
    by_contra hc
    have := pow_lt_pow_left₀ (not_le.1 hc) (Real.exp_pos _).le (n := 10) (by norm_num)
    norm_num at e1 this
    linarith
  refine le_trans ?_ e2
  rw [div_le_iff₀ (by norm_num)]; linarith

/-- From a guess that is not below and at most `newtonB k` above, `k + 1` steps suffice. -/
theorem newton_conv {x : Int} (hx : 65536 ≤ x ∧ x ≤ 6553600) (n : Nat) : ∀ (k : Nat) (g : Int), k ≤ n →
    k ≤ 6 → -0.0003 ≤ (g : ℝ) / 65536 - Real.log ((x : ℝ) / 65536) →
    (g : ℝ) / 65536 - Real.log ((x : ℝ) / 65536) ≤ newtonB k →
    ∃ r : Int, logNewton x n g = .ok r ∧ |(r : ℝ) / 65536 - Real.log ((x : ℝ) / 65536)| ≤ 7.3e-5 := by
  obtain ⟨l0, l1⟩ := log_range hx
  induction n with
  | zero =>
    intro k g hk _ h1 h2
    obtain rfl : k = 0 := by omega
    have hg : -66 ≤ g ∧ g ≤ 460000 := by
      norm_num [newtonB] at h1 h2 l1
      have a1 : (-66 : ℝ) ≤ g := by linarith
      have a2 : (g : ℝ) ≤ 460000 := by linarith
      exact ⟨by exact_mod_cast a1, by exact_mod_cast a2⟩
    obtain ⟨d, c1, c2, d1, d2, hd⟩ := newton_div hx hg
    have s1 := step_lower h1 hd
    have s2 := step_upper (c := 0.0000021) (by norm_num [newtonB]) h1 h2 (by norm_num) (by norm_num [newtonB]) hd
    have hd3 : d ≤ 196608 := by
      norm_num [newtonB] at s2 h1
      have : (d : ℝ) ≤ 196608 := by linarith
      exact_mod_cast this
    refine ⟨g + d, ?_, ?_⟩
    · rw [newton_unfold c1 c2, if_neg (by omega), chk_ok (by omega)]
      rfl
    · push_cast
      rw [abs_le]
      norm_num at s1 s2 ⊢
      constructor <;> linarith
  | succ n ih =>
    intro k g hk hk6 h1 h2
    have hB := newtonB_le k
    have hg : -66 ≤ g ∧ g ≤ 460000 := by
      norm_num at h1 l1 hB
      have a1 : (-66 : ℝ) ≤ g := by linarith
      have a2 : (g : ℝ) ≤ 460000 := by linarith
      exact ⟨by exact_mod_cast a1, by exact_mod_cast a2⟩
    obtain ⟨d, c1, c2, d1, d2, hd⟩ := newton_div hx hg
    have s1 := step_lower h1 hd
    have hd3 : d ≤ 196608 := by
      have e := exp_neg_le (h := (g : ℝ) / 65536 - Real.log ((x : ℝ) / 65536)) (by norm_num at h1; linarith)
      have e' : 1 / (1 + ((g : ℝ) / 65536 - Real.log ((x : ℝ) / 65536))) ≤ 1.001 := by
        norm_num at h1
        rw [div_le_iff₀ (by linarith)]; norm_num; linarith
      rw [abs_le] at hd
      have hE := e.trans e'
      generalize Real.exp (-((g : ℝ) / 65536 - Real.log ((x : ℝ) / 65536))) = E at *
      norm_num at hd hE
      have : (d : ℝ) ≤ 196608 := by linarith [hd.2]
      exact_mod_cast this
    have hgd : ((g + d : Int) : ℝ) / 65536 - Real.log ((x : ℝ) / 65536) =
        ((g : ℝ) / 65536 - Real.log ((x : ℝ) / 65536)) + (d : ℝ) / 65536 := by push_cast; ring
    rw [newton_unfold c1 c2, if_neg (by omega), chk_ok (by omega)]
    change ∃ r : Int, (if d > 1 ∨ d < -1 then logNewton x n (g + d) else pure (g + d)) = .ok r ∧ _
    by_cases hs : d > 1 ∨ d < -1
    · rw [if_pos hs]
      rcases Nat.eq_zero_or_pos k with rfl | hk0
      · have s2 := step_upper (c := 0.0000021) (by norm_num [newtonB]) h1 h2 (by norm_num) (by norm_num [newtonB]) hd
        refine ih 0 (g + d) (by omega) (by omega) ?_ ?_
        · rw [hgd]; norm_num at s1 ⊢; linarith
        · rw [hgd]; norm_num [newtonB] at s2 ⊢; linarith
      · obtain ⟨j, rfl⟩ : ∃ j, k = j + 1 := ⟨k - 1, by omega⟩
        obtain ⟨c, q1, q2, q3⟩ := newtonB_step j (by omega)
        have s2 := step_upper (newtonB_pos _) h1 h2 q1 q2 hd
        refine ih j (g + d) (by omega) (by omega) ?_ ?_
        · rw [hgd]; norm_num at s1 ⊢; linarith
        · rw [hgd]; linarith
    · rw [if_neg hs]
      have hsm : |(d : ℝ) / 65536| ≤ 1 / 65536 := by
        have a1 : (-1 : ℝ) ≤ d := by exact_mod_cast (by omega : -1 ≤ d)
        have a2 : (d : ℝ) ≤ 1 := by exact_mod_cast (by omega : d ≤ 1)
        rw [abs_div, abs_of_pos (by norm_num : (0 : ℝ) < 65536)]
        exact div_le_div_of_nonneg_right (abs_le.2 ⟨a1, a2⟩) (by norm_num)
      obtain ⟨t1, t2⟩ := step_small hsm hd
      have s2 := step_upper (c := 0.0000021) (by norm_num) t1 t2 (by norm_num) (by norm_num) hd
      refine ⟨g + d, rfl, ?_⟩
      rw [hgd, abs_le]
      norm_num at s1 s2 ⊢
      constructor <;> linarith

/-- The iteration from 2. -/
theorem newton_spec {x : Int} (hx : 65536 ≤ x ∧ x ≤ 6553600) :
    ∃ r : Int, logNewton x 10 f2 = .ok r ∧ |(r : ℝ) / 65536 - Real.log ((x : ℝ) / 65536)| ≤ 7.3e-5 := by
  obtain ⟨l0, l1⟩ := log_range hx
  obtain ⟨d, c1, c2, d1, d2, hd⟩ := newton_div hx (g := f2) (by decide)
  have hf2 : ((f2 : Int) : ℝ) / 65536 = 2 := by unfold f2; norm_num
  rw [hf2] at hd
  have a := exp_neg_ge (2 - Real.log ((x : ℝ) / 65536))
  have hE0 := Real.exp_pos (-(2 - Real.log ((x : ℝ) / 65536)))
  have b := Real.add_one_le_exp (2 - Real.log ((x : ℝ) / 65536))
  have hEE : Real.exp (2 - Real.log ((x : ℝ) / 65536)) * Real.exp (-(2 - Real.log ((x : ℝ) / 65536))) = 1 := by
    rw [← Real.exp_add, add_neg_cancel, Real.exp_zero]
  rw [newton_unfold c1 c2]
  by_cases h3 : d > 196608
  · rw [if_pos h3, chk_ok (by unfold f2; omega)]
    change ∃ r : Int, (if (196608 : Int) > 1 ∨ (196608 : Int) < -1 then logNewton x 9 (f2 + 196608) else pure (f2 + 196608)) = .ok r ∧ _
    rw [if_pos (by norm_num)]
    have hg : ((f2 + 196608 : Int) : ℝ) / 65536 = 5 := by unfold f2; norm_num
    refine newton_conv hx 9 6 _ (by norm_num) (by norm_num) ?_ ?_
    · rw [hg]; norm_num at l1 ⊢; linarith
    · rw [hg]
      have hdr : (196608 : ℝ) < d := by exact_mod_cast h3
      rw [abs_le] at hd
      generalize Real.exp (-(2 - Real.log ((x : ℝ) / 65536))) = E at *
      generalize Real.exp (2 - Real.log ((x : ℝ) / 65536)) = F at *
      norm_num at hd
      norm_num [newtonB]
      by_contra hc
      have e1 : 3.99 ≤ E := by norm_num; linarith [hd.2]
      norm_num at e1
      have e2 : F ≤ 1 / 3.9 := by norm_num; nlinarith
      norm_num at e2
      linarith
  · rw [if_neg h3, chk_ok (by unfold f2; omega)]
    change ∃ r : Int, (if d > 1 ∨ d < -1 then logNewton x 9 (f2 + d) else pure (f2 + d)) = .ok r ∧ _
    have hgd : ((f2 + d : Int) : ℝ) / 65536 - Real.log ((x : ℝ) / 65536) =
        (2 - Real.log ((x : ℝ) / 65536)) + (d : ℝ) / 65536 := by push_cast; rw [← hf2]; ring
    by_cases hs : d > 1 ∨ d < -1
    · rw [if_pos hs]
      have hdr : (d : ℝ) ≤ 196608 := by exact_mod_cast (not_lt.1 h3)
      refine newton_conv hx 9 6 _ (by norm_num) (by norm_num) ?_ ?_ <;> rw [hgd]
      · rw [abs_le] at hd
        generalize Real.exp (-(2 - Real.log ((x : ℝ) / 65536))) = E at *
        norm_num at hd ⊢
        linarith [hd.1, hd.2]
      · norm_num [newtonB]
        rcases le_or_gt 0 (2 - Real.log ((x : ℝ) / 65536)) with h0 | h0
        · have s2 := step_upper (b := 2) (c := 4 / 3) (by norm_num) (by norm_num at h0 ⊢; linarith) (by linarith) (by norm_num) (by norm_num) hd
          norm_num at s2
          linarith
        · rw [abs_le] at hd
          generalize Real.exp (-(2 - Real.log ((x : ℝ) / 65536))) = E at *
          generalize Real.exp (2 - Real.log ((x : ℝ) / 65536)) = F at *
          norm_num at hd
          have e1 : E ≤ 4.0004 := by norm_num; linarith [hd.1]
          have e2 : 1 ≤ E := by linarith
          have e3 : E + F ≤ 4.2505 := by
            norm_num at e1 ⊢
            nlinarith [mul_nonneg (by linarith : 0 ≤ E - 1) (by linarith : 0 ≤ 40004 / 10000 - E)]
          norm_num at e3 e1
          linarith [hd.2]
    · rw [if_neg hs]
      have hsm : |(d : ℝ) / 65536| ≤ 1 / 65536 := by
        have a1 : (-1 : ℝ) ≤ d := by exact_mod_cast (by omega : -1 ≤ d)
        have a2 : (d : ℝ) ≤ 1 := by exact_mod_cast (by omega : d ≤ 1)
        rw [abs_div, abs_of_pos (by norm_num : (0 : ℝ) < 65536)]
        exact div_le_div_of_nonneg_right (abs_le.2 ⟨a1, a2⟩) (by norm_num)
      obtain ⟨t1, t2⟩ := step_small hsm hd
      have s1 := step_lower t1 hd
      have s2 := step_upper (c := 0.0000021) (by norm_num) t1 t2 (by norm_num) (by norm_num) hd
      refine ⟨f2 + d, rfl, ?_⟩
      rw [hgd, abs_le]
      norm_num at s1 s2 ⊢
      constructor <;> linarith

/-! ## The scaling -/

theorem log_near {p q τ : ℝ} (hq : 0 < q) (h : |p - q| ≤ τ * q) (hτ : τ < 1) :
    |Real.log p - Real.log q| ≤ τ / (1 - τ) := by
  rw [abs_le] at h
  have hp : 0 < p := by nlinarith
  have hτ0 : 0 ≤ τ := by
    by_contra hc
    nlinarith
  rw [← Real.log_div hp.ne' hq.ne']
  have hr : 0 < p / q := div_pos hp hq
  have r1 : p / q ≤ 1 + τ := by rw [div_le_iff₀ hq]; linarith
  have r2 : 1 - τ ≤ p / q := by rw [le_div_iff₀ hq]; linarith
  have u := Real.log_le_sub_one_of_pos hr
  have l := Real.one_sub_inv_le_log_of_pos hr
  have l2 : (p / q)⁻¹ ≤ (1 - τ)⁻¹ := inv_anti₀ (by linarith) r2
  have e : 1 - (1 - τ)⁻¹ = -(τ / (1 - τ)) := by
    have : (1 - τ) ≠ 0 := by linarith
    field_simp; ring
  have e2 : τ ≤ τ / (1 - τ) := by rw [le_div_iff₀ (by linarith)]; nlinarith
  rw [abs_le]
  constructor <;> linarith

theorem exp_four : 54.598149 ≤ Real.exp 4 ∧ Real.exp 4 ≤ 54.598151 := by
  have e : Real.exp 4 = Real.exp 1 ^ 4 := by
    rw [← Real.exp_nat_mul]; norm_num
  have h1 := Real.exp_one_gt_d9
  have h2 := Real.exp_one_lt_d9
  rw [e]
  constructor
  · refine le_trans ?_ (pow_le_pow_left₀ (by norm_num) h1.le 4); norm_num
  · refine le_trans (pow_le_pow_left₀ (Real.exp_pos 1).le h2.le 4) ?_; norm_num

theorem up_step {x : Int} (h : 0 < x ∧ x < 65536) :
    ∃ y : Int, mul x 3578144 = .ok y ∧ 54 * x ≤ y ∧ y ≤ 6553600 ∧
      |Real.log y - Real.log x - 4| ≤ 0.00926 / x + 2e-7 := by
  have hx1 : (1 : ℝ) ≤ x := by exact_mod_cast (by omega : 1 ≤ x)
  have hx2 : (x : ℝ) ≤ 65535 := by exact_mod_cast (by omega : x ≤ 65535)
  obtain ⟨y, hy, g⟩ := mul_real (x := x) (y := 3578144) (by omega) (by norm_num) (by
    rw [abs_of_nonneg (by positivity)]; push_cast; linarith)
  obtain ⟨e1, e2⟩ := exp_four
  push_cast at g
  rw [abs_le] at g
  have y1 : (54 * x - 1 : ℝ) < y := by linarith [g.1]
  have y2 : (y : ℝ) ≤ 6553600 := by linarith [g.2]
  have y1' : 54 * x - 1 < y := by exact_mod_cast y1
  have y2' : y ≤ 6553600 := by exact_mod_cast y2
  refine ⟨y, hy, by omega, y2', ?_⟩
  have hq : (0 : ℝ) < x * Real.exp 4 := by positivity
  have hlq : Real.log (x * Real.exp 4) = Real.log x + 4 := by
    rw [Real.log_mul (by positivity) (Real.exp_pos 4).ne', Real.log_exp]
  have hτ : 0.00916 / (x : ℝ) + 1.5e-7 ≤ 0.009161 := by
    have : 0.00916 / (x : ℝ) ≤ 0.00916 := div_le_self (by norm_num) hx1
    norm_num at this ⊢; linarith
  have hn := log_near (p := y) (τ := 0.00916 / (x : ℝ) + 1.5e-7) hq (by
    have e : (0.00916 / (x : ℝ) + 1.5e-7) * (x * Real.exp 4) = (0.00916 + 1.5e-7 * x) * Real.exp 4 := by
      have : (x : ℝ) ≠ 0 := by positivity
      field_simp
    rw [e, abs_le]
    norm_num at e1 e2 ⊢
    constructor <;> nlinarith [g.1, g.2]) (by norm_num at hτ ⊢; linarith)
  rw [hlq] at hn
  have e3 : Real.log y - Real.log x - 4 = Real.log y - (Real.log x + 4) := by ring
  rw [e3]
  refine hn.trans ?_
  rw [div_le_iff₀ (by norm_num at hτ ⊢; linarith)]
  have hv : 0 ≤ 1 / (x : ℝ) := by positivity
  have a1 : 0.00916 / (x : ℝ) = 0.00916 * (1 / (x : ℝ)) := by ring
  have a2 : 0.00926 / (x : ℝ) = 0.00926 * (1 / (x : ℝ)) := by ring
  rw [a1] at hτ
  rw [a1, a2]
  generalize 1 / (x : ℝ) = v at *
  norm_num at hτ ⊢
  nlinarith [mul_nonneg hv (sub_nonneg.2 hτ)]

theorem down_step {x : Int} (h : 6553600 < x ∧ x < 2147483648) :
    ∃ y : Int, div x 3578144 = .ok y ∧ 65536 ≤ y ∧ 54 * y ≤ x ∧
      |Real.log y - Real.log x + 4| ≤ 4.6e-6 := by
  have hx1 : (6553600 : ℝ) ≤ x := by exact_mod_cast (by omega : 6553600 ≤ x)
  obtain ⟨y, hy, g, -⟩ := div_real (x := x) (y := 3578144) (by unfold Num; omega) (by norm_num) (by
    have : (3578144 : Int).natAbs = 3578144 := rfl
    omega)
  obtain ⟨e1, e2⟩ := exp_four
  push_cast at g
  rw [abs_le] at g
  have y1 : (65536 : ℝ) ≤ y := by linarith [g.1]
  have y2 : (54 * y : ℝ) ≤ x := by linarith [g.2]
  refine ⟨y, hy, by exact_mod_cast y1, by exact_mod_cast y2, ?_⟩
  have hq : (0 : ℝ) < x / Real.exp 4 := by positivity
  have hlq : Real.log (x / Real.exp 4) = Real.log x - 4 := by
    rw [Real.log_div (by positivity) (Real.exp_pos 4).ne', Real.log_exp]
  have hqx : (x / Real.exp 4 : ℝ) * Real.exp 4 = x := div_mul_cancel₀ _ (Real.exp_pos 4).ne'
  have hn := log_near (p := y) (τ := 4.5e-6) hq (by
    generalize (x / Real.exp 4 : ℝ) = q at *
    generalize Real.exp 4 = W at *
    rw [abs_le]
    norm_num at e1 e2 ⊢
    have q1 : q * (54598149 / 1000000) ≤ x := by rw [← hqx]; exact mul_le_mul_of_nonneg_left e1 hq.le
    have q2 : (x : ℝ) ≤ q * (54598151 / 1000000) := by rw [← hqx]; exact mul_le_mul_of_nonneg_left e2 hq.le
    constructor <;> linarith [g.1, g.2]) (by norm_num)
  rw [hlq] at hn
  have e3 : Real.log y - Real.log x + 4 = Real.log y - (Real.log x - 4) := by ring
  rw [e3]
  refine hn.trans ?_
  norm_num

theorem logUp_spec (k : Nat) : ∀ (fuel : Nat) (x s : Int), k < fuel → 0 < x → x ≤ 6553600 → 65536 ≤ x * 54 ^ k →
    ∃ (y : Int) (j : Nat), logUp fuel x s = .ok (y, s - 4 * j) ∧ j ≤ k ∧ 65536 ≤ y ∧ y ≤ 6553600 ∧
      (65536 ≤ x → y = x ∧ j = 0) ∧
      |Real.log y - Real.log x - 4 * j| ≤ 0.00944 / x + k * 2e-7 := by
  induction k with
  | zero =>
    intro fuel x s hf h0 h1 hk
    obtain ⟨f, rfl⟩ : ∃ f, fuel = f + 1 := ⟨fuel - 1, by omega⟩
    have hx0 : (0 : ℝ) < x := by exact_mod_cast h0
    refine ⟨x, 0, ?_, le_rfl, by omega, h1, fun _ => ⟨rfl, rfl⟩, ?_⟩
    · rw [logUp, if_neg (by unfold one; omega)]; simp
    · simp; positivity
  | succ k ih =>
    intro fuel x s hf h0 h1 hk
    obtain ⟨f, rfl⟩ : ∃ f, fuel = f + 1 := ⟨fuel - 1, by omega⟩
    have hx0 : (0 : ℝ) < x := by exact_mod_cast h0
    by_cases hx : x < 65536
    · obtain ⟨y, hy, y1, y2, g⟩ := up_step ⟨h0, hx⟩
      have hyk : 65536 ≤ y * 54 ^ k := by
        have : 54 * x * 54 ^ k ≤ y * 54 ^ k := Int.mul_le_mul_of_nonneg_right y1 (by positivity)
        rw [pow_succ] at hk
        linarith
      obtain ⟨z, j, hz, hj, z1, z2, -, gz⟩ := ih f y (s - 4) (by omega) (by omega) y2 hyk
      refine ⟨z, j + 1, ?_, by omega, z1, z2, fun h => by omega, ?_⟩
      · rw [logUp, if_pos (by unfold one; omega), hy, Out.bind_ok, hz]
        congr 2; push_cast; ring
      · have y1r : (54 * x : ℝ) ≤ y := by exact_mod_cast y1
        have e : 0.00944 / (y : ℝ) ≤ 0.000175 / x := by
          rw [div_le_div_iff₀ (by linarith) hx0]
          norm_num; linarith
        have e2 : 0.00944 / (x : ℝ) = 0.00926 / x + 0.00018 / x := by rw [← add_div]; norm_num
        have e3 : 0.000175 / (x : ℝ) ≤ 0.00018 / x := div_le_div_of_nonneg_right (by norm_num) hx0.le
        have e4 : Real.log z - Real.log x - 4 * ((j + 1 : Nat) : ℝ) =
            (Real.log z - Real.log y - 4 * j) + (Real.log y - Real.log x - 4) := by push_cast; ring
        rw [e4, e2]
        refine (abs_add_le _ _).trans ?_
        push_cast
        linarith
    · refine ⟨x, 0, ?_, by omega, by omega, h1, fun _ => ⟨rfl, rfl⟩, ?_⟩
      · rw [logUp, if_neg (by unfold one; omega)]; simp
      · simp; positivity

theorem logDown_spec (k : Nat) : ∀ (fuel : Nat) (x s : Int), k < fuel → 0 < x → x < 2147483648 → x ≤ 6553600 * 54 ^ k →
    ∃ (y : Int) (j : Nat), logDown fuel x s = .ok (y, s + 4 * j) ∧ j ≤ k ∧ 0 < y ∧ y ≤ 6553600 ∧
      (y = x ∧ j = 0 ∨ 65536 ≤ y) ∧ |Real.log y - Real.log x + 4 * j| ≤ k * 4.6e-6 := by
  induction k with
  | zero =>
    intro fuel x s hf h0 h1 hk
    obtain ⟨f, rfl⟩ : ∃ f, fuel = f + 1 := ⟨fuel - 1, by omega⟩
    refine ⟨x, 0, ?_, le_rfl, h0, by omega, .inl ⟨rfl, rfl⟩, by simp⟩
    rw [logDown, if_neg (by omega)]; simp
  | succ k ih =>
    intro fuel x s hf h0 h1 hk
    obtain ⟨f, rfl⟩ : ∃ f, fuel = f + 1 := ⟨fuel - 1, by omega⟩
    by_cases hx : 6553600 < x
    · obtain ⟨y, hy, y1, y2, g⟩ := down_step ⟨hx, h1⟩
      obtain ⟨z, j, hz, hj, z0, z1, z2, gz⟩ := ih f y (s + 4) (by omega) (by omega) (by omega) (by
        rw [pow_succ] at hk; omega)
      refine ⟨z, j + 1, ?_, by omega, z0, z1, .inr (by omega), ?_⟩
      · rw [logDown, if_pos hx, hy, Out.bind_ok, hz]
        congr 2; push_cast; ring
      · have e4 : Real.log z - Real.log x + 4 * ((j + 1 : Nat) : ℝ) =
            (Real.log z - Real.log y + 4 * j) + (Real.log y - Real.log x + 4) := by push_cast; ring
        rw [e4]
        refine (abs_add_le _ _).trans ?_
        push_cast
        linarith
    · refine ⟨x, 0, ?_, by omega, h0, by omega, .inl ⟨rfl, rfl⟩, ?_⟩
      · rw [logDown, if_neg hx]; simp
      · simp; positivity

theorem fromInt_scale {s : Int} (h : -12 ≤ s ∧ s ≤ 8) : fromInt s = s * 65536 := by
  obtain ⟨h1, h2⟩ := h
  interval_cases s <;> decide

/-- **C129.** For every positive argument `log` is defined and its error is below `8.4e-5 + 0.0095 / x`
with `x` the raw argument: below `9.4e-5` from `0.0145` on. For the other arguments it answers the overflow
value. -/
theorem C129_log (x : Int) (h0 : 0 < x) (h1 : x < 2147483648) :
    ∃ r : Int, log x = .ok r ∧
      |(r : ℝ) / 65536 - Real.log ((x : ℝ) / 65536)| ≤ 8.4e-5 + 0.0095 / x := by
  obtain ⟨y, j, hy, hj, y0, y1, y2, gy⟩ := logDown_spec 2 64 x 0 (by norm_num) h0 h1 (by norm_num; omega)
  obtain ⟨z, i, hz, hi, z1, z2, z3, gz⟩ := logUp_spec 3 64 y (0 + 4 * j) (by norm_num) y0 y1 (by norm_num; omega)
  obtain ⟨g, hg, gg⟩ := newton_spec ⟨z1, z2⟩
  have hs : -12 ≤ (0 + 4 * (j : Int) - 4 * (i : Int)) ∧ (0 + 4 * (j : Int) - 4 * (i : Int)) ≤ 8 := by omega
  have hf := fromInt_scale hs
  have hx0 : (0 : ℝ) < x := by exact_mod_cast h0
  have hz0 : (0 : ℝ) < z := by exact_mod_cast (by omega : 0 < z)
  obtain ⟨l0, l1⟩ := log_range ⟨z1, z2⟩
  have hgb : -1000000 < g ∧ g < 1000000 := by
    rw [abs_le] at gg
    norm_num at gg l1
    have a1 : (-1000000 : ℝ) < g := by linarith [gg.1]
    have a2 : (g : ℝ) < 1000000 := by linarith [gg.2]
    exact ⟨by exact_mod_cast a1, by exact_mod_cast a2⟩
  refine ⟨g + (0 + 4 * (j : Int) - 4 * (i : Int)) * 65536, ?_, ?_⟩
  · unfold log
    rw [if_pos h0, hy, Out.bind_ok]
    dsimp only
    rw [hz, Out.bind_ok]
    dsimp only
    rw [hg, Out.bind_ok, hf, chk_ok (by omega)]
  · rw [Real.log_div hz0.ne' (by norm_num)] at gg
    rw [Real.log_div hx0.ne' (by norm_num)]
    have hyx : 0.00944 / (y : ℝ) + (3 : Nat) * 2e-7 ≤ 0.0095 / x + 1e-6 ∨ i = 0 ∧ z = y := by
      rcases y2 with ⟨rfl, -⟩ | h
      · left
        have : 0.00944 / (y : ℝ) ≤ 0.0095 / y := div_le_div_of_nonneg_right (by norm_num) hx0.le
        norm_num at this ⊢
        linarith
      · right; obtain ⟨a, b⟩ := z3 h; exact ⟨b, a⟩
    have gz' : |Real.log z - Real.log y - 4 * i| ≤ 0.0095 / x + 1e-6 := by
      rcases hyx with h | ⟨rfl, rfl⟩
      · exact gz.trans h
      · simp; positivity
    push_cast
    generalize 0.0095 / (x : ℝ) = v at *
    rw [abs_le] at *
    norm_num at gg gy gz' ⊢
    have e : ((g : ℝ) + (4 * j - 4 * i) * 65536) / 65536 = (g : ℝ) / 65536 + (4 * j - 4 * i) := by ring
    rw [e]
    constructor <;> linarith [gg.1, gg.2, gy.1, gy.2, gz'.1, gz'.2]

example : log 65536 = .ok 0 ∧ log 1 = .ok (-726334) := by decide +kernel

/-- **C129.** No logarithm exists for the other arguments; the overflow value says so. -/
theorem C129_nonpositive (x : Int) (h : x ≤ 0) : log x = .ok overflow := by
  unfold log
  rw [if_neg (by omega)]
  rfl

end Verif.Fp16
