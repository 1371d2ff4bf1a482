import Verif.Fp16.Trig

/-!
# Properties C118-C121 (`fp16` trigonometric functions)

A raw value `r` stands for the real number `r / 65536`; `2^-16` is one unit of the last place.
-/

namespace Verif.Fp16

/-- **C118.** `fp16::sin` is defined for every raw argument and differs from the sine of that
argument by less than `0.0217`. -/
theorem C118_all (x : Int) (hx : I32 x) :
    ∃ r : Int, sin x = .ok r ∧ |(r : ℝ) / 65536 - Real.sin (x / 65536)| ≤ 0.0217 := by
  obtain ⟨k, w, hw, e, h1, h2, -⟩ := wrapToPi_spec x hx
  obtain ⟨r, hr, g, -⟩ := sin_reduced hw ⟨by omega, h2⟩
  refine ⟨r, hr, ?_⟩
  have hk : -5216 < k ∧ k < 5216 := by unfold I32 at hx; omega
  have hk' : |(k : ℝ)| ≤ 5215 := by
    rw [abs_le]
    exact ⟨by exact_mod_cast (by omega : -5215 ≤ k), by exact_mod_cast (by omega : k ≤ 5215)⟩
  have hp := wrap_sin x k
  rw [← e] at hp
  rw [abs_le] at g hp ⊢
  norm_num at hp ⊢
  constructor <;> linarith [g.1, g.2, hp.1, hp.2]

/-- **C118.** Within one turn the error is below `0.0083`, and below `9.5e-5` (6.2 units of the
last place) when the magnitude of the argument is at most `168645 / 65536 = 2.5733`. -/
theorem C118_turn (x : Int) (hx : -205887 ≤ x ∧ x ≤ 205887) :
    ∃ r : Int, sin x = .ok r ∧ |(r : ℝ) / 65536 - Real.sin (x / 65536)| ≤ 0.0083 ∧
      (-168645 ≤ x → x ≤ 168645 → |(r : ℝ) / 65536 - Real.sin (x / 65536)| ≤ 9.5e-5) := by
  obtain ⟨k, w, hw, -, -, -, e⟩ := wrapToPi_spec x (by unfold I32; omega)
  have e := e hx.1 hx.2
  subst e
  obtain ⟨r, hr, g, g'⟩ := sin_reduced hw (by omega)
  refine ⟨r, hr, ?_, fun h1 h2 => ?_⟩
  · rw [abs_le] at g ⊢
    norm_num at g ⊢
    constructor <;> linarith [g.1, g.2]
  · have g := g' h1 h2
    rw [abs_le] at g ⊢
    norm_num at g ⊢
    constructor <;> linarith [g.1, g.2]

example : I32 (-2000000) ∧ sin (-2000000) = .ok 51269 := by decide +kernel
example : sin 102944 = .ok 65536 ∧ sin (-168645) = .ok (-35269) := by decide +kernel

/-- **C119, partial.** `sin` is odd for arguments of magnitude at most `168645`. Missing: the
rest of the turn (`C119_false_odd`) and the range of the values (`C119_false_range`). -/
theorem C119_odd_partial (x r : Int) (hx : -168645 ≤ x ∧ x ≤ 168645) (h : sin x = .ok r) :
    sin (-x) = .ok (-r) := by
  have key : ∀ a : Int, 0 ≤ a → a ≤ 168645 → ∃ v, sin a = .ok v ∧ sin (-a) = .ok (-v) := by
    intro a h0 h1
    obtain ⟨-, w, hw, -, -, -, e⟩ := wrapToPi_spec a (by unfold I32; omega)
    have e := e (by omega) (by omega)
    subst e
    obtain ⟨-, w', hw', -, -, -, e⟩ := wrapToPi_spec (-w) (by unfold I32; omega)
    have e := e (by omega) (by omega)
    subst e
    have v1 := sin_val (s := 1) (a := w) (Or.inl rfl) (by omega) (by rw [one_mul]; exact hw)
      rfl rfl rfl rfl rfl rfl
    have v2 := sin_val (s := -1) (a := w) (Or.inr rfl) (by omega) (by rw [neg_one_mul]; exact hw')
      rfl rfl rfl rfl rfl rfl
    rw [if_pos h1] at v1 v2
    refine ⟨_, v1, ?_⟩
    rw [v2]; congr 1; ring
  rcases le_total 0 x with h0 | h0
  · obtain ⟨v, h1, h2⟩ := key x h0 hx.2
    rw [h1] at h
    injection h with h
    rw [h2, h]
  · obtain ⟨v, h1, h2⟩ := key (-x) (by omega) (by omega)
    rw [neg_neg] at h2
    rw [h2] at h
    injection h with h
    rw [h1]; congr 1; omega

example : sin 65536 = .ok 55147 ∧ sin (-65536) = .ok (-55147) := by decide +kernel

/-- **C119 is false** near the ends of the turn: the eleventh power overflows there and the
sentinel is used in its place, with the same sign for both signs of the argument. -/
theorem C119_false_odd : sin 200000 = .ok 6263 ∧ sin (-200000) = .ok (-6157) := by
  decide +kernel

/-- **C119 is false** for the range: a sine above one. -/
theorem C119_false_range : sin 103000 = .ok 65537 ∧ 65537 > one := by decide +kernel

/-- **C120, partial.** For arguments up to `2^31 - 1 - 102944` (32766.4) `fp16::cos` is defined
and differs from the cosine by less than `0.0218`. Missing: the largest arguments
(`C120_false_ub`). -/
theorem C120_cos_partial (x : Int) (hx : I32 x) (h : x ≤ 2147380703) :
    ∃ r : Int, cos x = .ok r ∧ |(r : ℝ) / 65536 - Real.cos (x / 65536)| ≤ 0.0218 := by
  unfold I32 at hx
  obtain ⟨r, hr, g⟩ := C118_all (x + 102944) (by unfold I32; omega)
  refine ⟨r, ?_, ?_⟩
  · unfold cos fPi2
    rw [chk_ok (by omega), Out.bind_ok, hr]
  · have e := Ffmath.abs_sin_sub (((x + 102944 : Int) : ℝ) / 65536) (x / 65536 + Real.pi / 2)
    rw [Real.sin_add_pi_div_two] at e
    have p1 := Real.pi_gt_d6
    have p2 := Real.pi_lt_d6
    have e2 : |((x + 102944 : Int) : ℝ) / 65536 - (x / 65536 + Real.pi / 2)| ≤ 0.00001 := by
      push_cast
      rw [abs_le]; norm_num at p1 p2 ⊢
      constructor <;> linarith
    have e := e.trans e2
    rw [abs_le] at g e ⊢
    norm_num at g e ⊢
    constructor <;> linarith [g.1, g.2, e.1, e.2]

/-- **C120, partial**: `cos` to within `1.0e-4` for arguments from `-4.1441` to `1.0025`
(the interval `[-271589, 65701]` shifted by a quarter turn is the accurate part of `sin`). -/
theorem C120_core_partial (x : Int) (hx : -271589 ≤ x ∧ x ≤ 65701) :
    ∃ r : Int, cos x = .ok r ∧ |(r : ℝ) / 65536 - Real.cos (x / 65536)| ≤ 1.0e-4 := by
  obtain ⟨r, hr, -, g⟩ := C118_turn (x + 102944) (by omega)
  have g := g (by omega) (by omega)
  refine ⟨r, ?_, ?_⟩
  · unfold cos fPi2
    rw [chk_ok (by omega), Out.bind_ok, hr]
  · have e := Ffmath.abs_sin_sub (((x + 102944 : Int) : ℝ) / 65536) (x / 65536 + Real.pi / 2)
    rw [Real.sin_add_pi_div_two] at e
    have p1 := Real.pi_gt_d6
    have p2 := Real.pi_lt_d6
    have e2 : |((x + 102944 : Int) : ℝ) / 65536 - (x / 65536 + Real.pi / 2)| ≤ 0.000005 := by
      push_cast
      rw [abs_le]; norm_num at p1 p2 ⊢
      constructor <;> linarith
    have e := e.trans e2
    rw [abs_le] at g e ⊢
    norm_num at g e ⊢
    constructor <;> linarith [g.1, g.2, e.1, e.2]

example : cos (-271589) = .ok (-35269) ∧ cos 2000000 = .ok 40823 := by decide +kernel

/-- **C120 is false** for every argument above `2^31 - 1 - 102944`: adding a quarter turn
overflows `int32_t`. -/
theorem C120_false_ub (x : Int) (h : 2147380703 < x) : cos x = .ub := by
  unfold cos fPi2
  rw [chk_ub (by omega)]; rfl

/-- **C120 is false**: `cos` is not even. -/
theorem C120_false_even : cos 65536 = .ok 35406 ∧ cos (-65536) = .ok 35410 := by decide +kernel

/-- **C121.** For arguments of magnitude at most one, `fp16::tan` is defined and within
`5.5e-4` of the tangent. -/
theorem C121_tan (x : Int) (hx : -65536 ≤ x ∧ x ≤ 65536) :
    ∃ r : Int, tan x = .ok r ∧ |(r : ℝ) / 65536 - Real.tan (x / 65536)| ≤ 5.5e-4 := by
  obtain ⟨s, hs, -, gs⟩ := C118_turn x (by omega)
  have gs := gs (by omega) (by omega)
  obtain ⟨c, hc, gc⟩ := C120_core_partial x (by omega)
  have hx1 : (-65536 : ℝ) ≤ x := by exact_mod_cast hx.1
  have hx2 : (x : ℝ) ≤ 65536 := by exact_mod_cast hx.2
  have hX : |(x : ℝ) / 65536| ≤ 1 := by
    rw [abs_le]; constructor
    · rw [le_div_iff₀ (by norm_num)]; linarith
    · rw [div_le_iff₀ (by norm_num)]; linarith
  have hC : 0.54 ≤ Real.cos (x / 65536) := by
    have h1 := Real.cos_one_pos
    have h2 : Real.cos 1 ≤ Real.cos (x / 65536) := by
      rw [← Real.cos_abs ((x : ℝ) / 65536)]
      exact Real.cos_le_cos_of_nonneg_of_le_pi (abs_nonneg _) (by linarith [Real.pi_gt_three]) hX
    have h3 : (0.54 : ℝ) ≤ Real.cos 1 := by
      have := (Ffmath.trig_taylor (x := 1) (n := 8) (by norm_num)).2
      simp only [Finset.sum_range_succ, Finset.sum_range_zero, Ffmath.cosC] at this
      norm_num [Nat.factorial] at this
      rw [abs_le] at this
      norm_num at this ⊢
      linarith [this.1]
    linarith
  have hS : |Real.sin (x / 65536)| ≤ 0.842 := by
    have h1 := Real.sin_sq_add_cos_sq ((x : ℝ) / 65536)
    apply abs_le_of_sq_le_sq _ (by norm_num)
    nlinarith
  have hC1 := Real.cos_le_one ((x : ℝ) / 65536)
  have gc' : 0.5399 ≤ (c : ℝ) / 65536 ∧ (c : ℝ) / 65536 ≤ 1.0001 := by
    rw [abs_le] at gc; norm_num at gc hC ⊢
    constructor <;> linarith [gc.1, gc.2]
  have gs' : |(s : ℝ) / 65536| ≤ 0.8421 := by
    rw [abs_le] at gs hS ⊢; norm_num at gs hS ⊢
    constructor <;> linarith [gs.1, gs.2, hS.1, hS.2]
  have c1 : 35382 ≤ c := by
    have : (35382 : ℝ) ≤ c := by norm_num at gc'; linarith [gc'.1]
    exact_mod_cast this
  have c2 : c ≤ 65543 := by
    have : (c : ℝ) ≤ 65543 := by norm_num at gc'; linarith [gc'.2]
    exact_mod_cast this
  have s1 : -55200 ≤ s ∧ s ≤ 55200 := by
    rw [abs_le] at gs'
    norm_num at gs'
    have h1 : (-55200 : ℝ) ≤ s := by linarith [gs'.1]
    have h2 : (s : ℝ) ≤ 55200 := by linarith [gs'.2]
    exact ⟨by exact_mod_cast h1, by exact_mod_cast h2⟩
  obtain ⟨r, hr, g, -⟩ := div_real (x := s) (y := c) (by unfold Num; omega) (by omega) (by omega)
  refine ⟨r, ?_, ?_⟩
  · unfold tan
    rw [hs, Out.bind_ok, hc, Out.bind_ok, hr]
  · rw [Real.tan_eq_sin_div_cos]
    have e0 : (r : ℝ) - 65536 * s / c = 65536 * ((r : ℝ) / 65536 - (s / 65536) / (c / 65536)) := by
      field_simp
    rw [e0, abs_mul, abs_of_pos (by norm_num : (0 : ℝ) < 65536)] at g
    generalize (s : ℝ) / 65536 = s' at *
    generalize (c : ℝ) / 65536 = c' at *
    generalize Real.sin (x / 65536) = S at *
    generalize Real.cos (x / 65536) = C at *
    have hCp : 0 < C := by norm_num at hC; linarith
    have hcp : 0 < c' := by have := gc'.1; norm_num at this; linarith
    have e1 : s' / c' - S / C = ((s' - S) - S / C * (c' - C)) / c' := by field_simp; ring
    have hSC : |S / C| ≤ 1.56 := by
      rw [abs_div, abs_of_pos hCp, div_le_iff₀ hCp]
      norm_num at hC hS ⊢; linarith
    have e2 : |s' / c' - S / C| ≤ 4.8e-4 := by
      rw [e1, abs_div, abs_of_pos hcp, div_le_iff₀ hcp]
      have h1 : |S / C * (c' - C)| ≤ 1.56 * 1.0e-4 := by
        rw [abs_mul]; exact mul_le_mul hSC gc (abs_nonneg _) (by norm_num)
      have h2 := abs_sub (s' - S) (S / C * (c' - C))
      rw [abs_mul] at h2
      have h3 := gc'.1
      norm_num at h1 gs h3 ⊢
      linarith
    have e3 := abs_sub_le ((r : ℝ) / 65536) (s' / c') (S / C)
    norm_num at e2 ⊢
    linarith

example : tan 65536 = .ok 102076 ∧ tan (-65536) = .ok (-102065) := by decide +kernel

end Verif.Fp16
