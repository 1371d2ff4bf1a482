import Verif.Fp16.ExpProps
import Mathlib.Analysis.SpecialFunctions.Trigonometric.DerivHyp

/-!
# Properties C124 and C125 (`fp16::cosh`, `sinh` and `tanh`)
-/

namespace Verif.Fp16

theorem expF_pos {x : Int} (h0 : 0 ≤ x) (h1 : x < 681391) :
    |(expF x : ℝ) - 65536 * Real.exp (x / 65536)| ≤ 3.408 * Real.exp (x / 65536) := by
  obtain ⟨r, hr, g⟩ := C123_positive x h0 h1
  rw [exp_eq] at hr
  injection hr with hr
  rw [hr]
  rw [abs_le] at g ⊢
  norm_num at g ⊢
  have := Real.exp_pos ((x : ℝ) / 65536)
  constructor <;> linarith [g.1, g.2]

theorem expF_neg {x : Int} (h0 : x < 0) :
    |(expF x : ℝ) - 65536 * Real.exp (x / 65536)| ≤ 3.94 := by
  obtain ⟨r, hr, g⟩ := C123_negative x h0
  rw [exp_eq] at hr
  injection hr with hr
  rw [hr]
  rw [abs_le] at g ⊢
  norm_num at g ⊢
  constructor <;> linarith [g.1, g.2]

theorem expF_zero : expF 0 = 65536 := by decide

theorem expF_nonneg (x : Int) : 0 ≤ expF x := by
  obtain ⟨a, b, h1, h2, -, h3, -⟩ := C122_monotone x x le_rfl
  rw [exp_eq] at h1; injection h1 with h1; omega

theorem expF_ge {x : Int} (h : 0 ≤ x) : 65536 ≤ expF x := by
  rw [← expF_zero]; exact expF_mono h

theorem expF_le {x : Int} (h : x ≤ 0) : expF x ≤ 65536 := by
  rw [← expF_zero]; exact expF_mono h

theorem expF_sum {x : Int} (h0 : 0 ≤ x) (h1 : x < 681391) : expF x + expF (-x) ≤ 2147470000 := by
  have e1 : expF 600000 = 620245400 := by decide +kernel
  have e2 : expF (-600000) = 7 := by decide +kernel
  have e3 : expF 681390 = 2147460374 := by decide +kernel
  rcases le_total x 600000 with h | h
  · have := expF_mono h
    have := expF_le (x := -x) (by omega)
    omega
  · have := expF_mono (by omega : -x ≤ -600000)
    have := expF_mono (by omega : x ≤ 681390)
    omega

/-- The two exponentials together, for both signs. -/
theorem expF_range {x : Int} (h : -681391 < x ∧ x < 681391) :
    expF x + expF (-x) ≤ 2147470000 := by
  rcases le_total 0 x with h0 | h0
  · exact expF_sum h0 h.2
  · have := expF_sum (x := -x) (by omega) (by omega)
    rw [neg_neg] at this; omega

theorem cosh_eq {x : Int} (h0 : x ≠ 0) (h : -681391 < x ∧ x < 681391) :
    cosh x = .ok ((expF x + expF (-x)) / 2) := by
  have h1 := expF_nonneg x
  have h2 := expF_nonneg (-x)
  have h3 := expF_range h
  unfold cosh expMax
  rw [if_neg (by omega), if_neg (by omega), exp_eq, exp_eq, Out.bind_ok, Out.bind_ok,
    if_pos (by unfold overflow; omega), chk_ok (by omega), Out.bind_ok]
  rfl

theorem sinh_eq {x : Int} (h0 : x ≠ 0) (h : -681391 < x ∧ x < 681391) :
    sinh x = .ok ((expF x - expF (-x)) / 2) := by
  have h1 := expF_nonneg x
  have h2 := expF_nonneg (-x)
  have h3 := expF_range h
  unfold sinh expMax
  rw [if_neg (by omega), if_neg (by omega), if_neg (by omega), exp_eq, exp_eq, Out.bind_ok,
    Out.bind_ok, if_pos (by unfold overflow; omega), chk_ok (by omega), Out.bind_ok]
  rfl

/-- Errors of the two exponentials, for both signs. -/
theorem exp_pair {x : Int} (h0 : x ≠ 0) (h : -681391 < x ∧ x < 681391) :
    |(expF x : ℝ) - 65536 * Real.exp (x / 65536)| + |(expF (-x) : ℝ) - 65536 * Real.exp (-(x / 65536))|
      ≤ 10.79 * Real.cosh (x / 65536) := by
  have hc := Real.one_le_cosh ((x : ℝ) / 65536)
  have hp : ∀ y : ℝ, Real.exp y ≤ 2 * Real.cosh y := by
    intro y
    rw [Real.cosh_eq]
    have := Real.exp_pos (-y)
    linarith
  rcases lt_or_gt_of_ne h0 with hx | hx
  · have g1 := expF_neg hx
    have g2 := expF_pos (x := -x) (by omega) (by omega)
    push_cast at g2
    rw [neg_div] at g2
    have g3 := hp (-((x : ℝ) / 65536))
    rw [Real.cosh_neg] at g3
    norm_num at g1 g2 ⊢
    linarith
  · have g1 := expF_pos hx.le h.2
    have g2 := expF_neg (x := -x) (by omega)
    push_cast at g2
    rw [neg_div] at g2
    have g3 := hp ((x : ℝ) / 65536)
    norm_num at g1 g2 ⊢
    linarith

/-- **C124.** `cosh` is even, for every argument. -/
theorem C124_cosh_even (x : Int) : cosh (-x) = cosh x := by
  by_cases h0 : x = 0
  · subst h0; rfl
  by_cases h : -681391 < x ∧ x < 681391
  · rw [cosh_eq h0 h, cosh_eq (by omega) (by omega), neg_neg, add_comm]
  · unfold cosh expMax
    rw [if_neg (by omega), if_pos (by omega), if_neg (by omega), if_pos (by omega)]

/-- **C124.** `cosh` is defined for every argument; its relative error is below `1e-4` below the
logarithm of `2^15`, and beyond it is the largest value. -/
theorem C124_cosh (x : Int) :
    (-681391 < x → x < 681391 → ∃ r : Int, cosh x = .ok r ∧
      |(r : ℝ) / 65536 - Real.cosh (x / 65536)| ≤ 1e-4 * Real.cosh (x / 65536)) ∧
    (x ≤ -681391 ∨ 681391 ≤ x → cosh x = .ok 2147483647) := by
  refine ⟨fun h1 h2 => ?_, fun h => ?_⟩
  · by_cases h0 : x = 0
    · subst h0
      refine ⟨65536, rfl, ?_⟩
      norm_num
    · refine ⟨_, cosh_eq h0 ⟨h1, h2⟩, ?_⟩
      have g := exp_pair h0 ⟨h1, h2⟩
      have hc := Real.one_le_cosh ((x : ℝ) / 65536)
      have e := Real.cosh_eq ((x : ℝ) / 65536)
      have d := ediv_real (m := expF x + expF (-x)) 2 (by norm_num)
      push_cast at d
      have a1 := abs_le.1 (le_refl |(expF x : ℝ) - 65536 * Real.exp (x / 65536)|)
      have a2 := abs_le.1 (le_refl |(expF (-x) : ℝ) - 65536 * Real.exp (-(x / 65536))|)
      rw [abs_le]
      norm_num at g ⊢
      constructor <;> linarith [a1.1, a1.2, a2.1, a2.2, d.1, d.2]
  · unfold cosh expMax
    rw [if_neg (by omega), if_pos (by omega)]; rfl

/-- **C124, partial.** `sinh` is defined for every nonzero argument, with an error below
`1e-4 cosh x` below the logarithm of `2^15` and saturation beyond. Missing: zero
(`C124_false_zero`) and the exact antisymmetry (`C124_false_odd`). -/
theorem C124_sinh_partial (x : Int) (h0 : x ≠ 0) :
    (-681391 < x → x < 681391 → ∃ r : Int, sinh x = .ok r ∧
      |(r : ℝ) / 65536 - Real.sinh (x / 65536)| ≤ 1e-4 * Real.cosh (x / 65536)) ∧
    (x ≤ -681391 → sinh x = .ok (-2147483647)) ∧ (681391 ≤ x → sinh x = .ok 2147483647) := by
  refine ⟨fun h1 h2 => ?_, fun h => ?_, fun h => ?_⟩
  · refine ⟨_, sinh_eq h0 ⟨h1, h2⟩, ?_⟩
    have g := exp_pair h0 ⟨h1, h2⟩
    have hc := Real.one_le_cosh ((x : ℝ) / 65536)
    have e := Real.sinh_eq ((x : ℝ) / 65536)
    have d := ediv_real (m := expF x - expF (-x)) 2 (by norm_num)
    push_cast at d
    have a1 := abs_le.1 (le_refl |(expF x : ℝ) - 65536 * Real.exp (x / 65536)|)
    have a2 := abs_le.1 (le_refl |(expF (-x) : ℝ) - 65536 * Real.exp (-(x / 65536))|)
    rw [abs_le]
    norm_num at g ⊢
    constructor <;> linarith [a1.1, a1.2, a2.1, a2.2, d.1, d.2]
  · unfold sinh expMax Max
    rw [if_neg (by omega), if_neg (by omega), if_pos (by omega)]; rfl
  · unfold sinh expMax
    rw [if_neg (by omega), if_pos (by omega)]; rfl

example : cosh 100000 = .ok 157830 ∧ sinh (-100000) = .ok (-143581) := by decide +kernel

/-- **C124 is false** at zero: the hyperbolic sine of zero is one. -/
theorem C124_false_zero : sinh 0 = .ok one ∧ sinh 1 = .ok 1 ∧ sinh (-1) = .ok (-1) := by
  decide +kernel

/-- **C124 is false** for the antisymmetry: the shift rounds toward minus infinity. -/
theorem C124_false_odd : ∃ x a b, sinh x = .ok a ∧ sinh (-x) = .ok b ∧ b ≠ -a :=
  ⟨100000, 143580, -143581, by decide +kernel, by decide +kernel, by decide⟩

/-- Rounded quotient (not a definition of the repository). -/
def rq (n d : Int) : Int := (n * 131072 + d) / (2 * d)

theorem div_rq {n d : Int} (hn : 0 ≤ n) (hd : 0 < d) (h : n ≤ d) (hd' : d < 2147483648) :
    div n d = .ok (rq n d) := by
  rw [div_eq n d (by unfold Num; omega) (by unfold Num; omega) (by omega), if_pos (by omega),
    if_neg (by omega), if_pos (by omega)]
  congr 1
  have e1 : |n| = n := abs_of_nonneg hn
  have e2 : |d| = d := abs_of_pos hd
  push_cast
  rw [e1, e2]; rfl

theorem rq_nonneg {n d : Int} (hn : 0 ≤ n) (hd : 0 < d) : 0 ≤ rq n d :=
  Int.ediv_nonneg (by omega) (by omega)

theorem rq_mono {n d m e : Int} (hd : 0 < d) (he : 0 < e)
    (h : n * e ≤ m * d) : rq n d ≤ rq m e := by
  have h1 : rq n d * (2 * d) ≤ n * 131072 + d := Int.ediv_mul_le _ (by omega)
  show rq n d ≤ (m * 131072 + e) / (2 * e)
  rw [Int.le_ediv_iff_mul_le (by omega)]
  generalize rq n d = q at *
  by_contra hc
  push Not at hc
  -- multiply by `d`
  have h2 : (m * 131072 + e) * d < q * (2 * e) * d := mul_lt_mul_of_pos_right hc hd
  have h3 : q * (2 * d) * e ≤ (n * 131072 + d) * e := mul_le_mul_of_nonneg_right h1 he.le
  nlinarith

theorem rq_le {n d : Int} (hd : 0 < d) (h : n ≤ d) : rq n d ≤ 65536 := by
  have := rq_mono (n := n) (d := d) (m := 1) (e := 1) hd (by norm_num) (by omega)
  exact this.trans (by decide)

/-- The values of `tanh` for positive arguments (not a definition of the repository). -/
def tanhV (x : Int) : Int := rq (expF x - expF (-x)) (expF x + expF (-x))

theorem tanhV_bounds {x : Int} (h : 0 ≤ x) : 0 ≤ tanhV x ∧ tanhV x ≤ 65536 := by
  have h1 := expF_ge h
  have h2 := expF_le (x := -x) (by omega)
  have h3 := expF_nonneg (-x)
  exact ⟨rq_nonneg (by omega) (by omega), rq_le (by omega) (by omega)⟩

theorem tanhV_mono {x y : Int} (h0 : 0 ≤ x) (h : x ≤ y) : tanhV x ≤ tanhV y := by
  have a := expF_mono h
  have b := expF_mono (by omega : -y ≤ -x)
  have h1 := expF_ge h0
  have h2 := expF_le (x := -x) (by omega)
  have h3 := expF_nonneg (-x)
  have h4 := expF_nonneg (-y)
  have h5 := expF_le (x := -y) (by omega)
  unfold tanhV
  refine rq_mono (by omega) (by omega) ?_
  nlinarith

theorem tanh_pos_eq {x : Int} (h0 : 0 < x) (h1 : x ≤ 425984) :
    tanh x = .ok (tanhV x) ∧ tanh (-x) = .ok (-tanhV x) := by
  have h2 := expF_ge h0.le
  have h3 := expF_le (x := -x) (by omega)
  have h4 := expF_nonneg (-x)
  have h5 := expF_sum h0.le (by omega)
  have hb := tanhV_bounds h0.le
  have hd := div_rq (n := expF x - expF (-x)) (d := expF x + expF (-x)) (by omega) (by omega)
    (by omega) (by omega)
  have key : (do
      let n ← chk (expF x - expF (-x))
      let d ← chk (expF x + expF (-x))
      div n d) = .ok (tanhV x) := by
    rw [chk_ok (by omega), Out.bind_ok, chk_ok (by omega), Out.bind_ok, hd]; rfl
  constructor
  · unfold tanh absolute Min
    rw [if_neg (by omega), if_neg (by omega), if_neg (by omega), if_neg (by omega), if_pos (by omega),
      Out.pure_eq, Out.bind_ok, exp_eq, exp_eq, Out.bind_ok, Out.bind_ok, chk_ok (by omega),
      Out.bind_ok, chk_ok (by omega), Out.bind_ok, hd, Out.bind_ok, if_pos (by omega)]
    rfl
  · unfold tanh absolute Min
    rw [if_neg (by omega), if_neg (by omega), if_neg (by omega), if_neg (by omega), if_neg (by omega),
      neg_neg, chk_ok (by omega),
      Out.bind_ok, exp_eq, exp_eq, Out.bind_ok, Out.bind_ok, chk_ok (by omega),
      Out.bind_ok, chk_ok (by omega), Out.bind_ok, hd, Out.bind_ok, if_neg (by omega),
      chk_ok (by unfold tanhV at hb; omega)]
    rfl

/-- The values of `tanh` (not a definition of the repository). -/
def tanhF (x : Int) : Int :=
  if x < -425984 then -65536 else if x < 0 then -tanhV (-x) else if x = 0 then 0
  else if x ≤ 425984 then tanhV x else 65536

theorem tanh_eq (x : Int) : tanh x = .ok (tanhF x) := by
  unfold tanhF
  split_ifs with h1 h2 h3 h4
  · unfold tanh one
    rw [if_neg (by omega), if_neg (by omega), if_pos (by omega)]; rfl
  · have := (tanh_pos_eq (x := -x) (by omega) (by omega)).2
    rwa [neg_neg] at this
  · subst h3; rfl
  · exact (tanh_pos_eq (by omega) h4).1
  · unfold tanh one
    rw [if_neg (by omega), if_pos (by omega)]; rfl

theorem tanhF_mono : Monotone tanhF := by
  intro x y h
  unfold tanhF
  split_ifs with h1 h2 h3 h4 h5 h6 h7 h8 h9 h10 h11 h12 h13 h14 h15
  all_goals try omega
  all_goals first
    | (have := tanhV_bounds (x := -y) (by omega); omega)
    | (have := tanhV_bounds (x := y) (by omega); have := tanhV_bounds (x := -x) (by omega); omega)
    | (have := tanhV_bounds (x := y) (by omega); omega)
    | (have := tanhV_bounds (x := -x) (by omega); omega)
    | (have := tanhV_bounds (x := x) (by omega); omega)
    | (have := tanhV_mono (x := x) (y := y) (by omega) h; omega)
    | (have := tanhV_mono (x := -y) (y := -x) (by omega) (by omega); omega)

/-- **C125.** `tanh` is defined, odd, monotone and within `[-1, 1]`, for all arguments. -/
theorem C125_tanh_shape (x y : Int) (h : x ≤ y) :
    ∃ a b : Int, tanh x = .ok a ∧ tanh y = .ok b ∧ a ≤ b ∧ -65536 ≤ a ∧ b ≤ 65536 ∧
      tanh (-x) = .ok (-a) := by
  have hl : ∀ z, -65536 ≤ tanhF z ∧ tanhF z ≤ 65536 := by
    intro z
    unfold tanhF
    split_ifs
    all_goals try omega
    · have := tanhV_bounds (x := -z) (by omega); omega
    · have := tanhV_bounds (x := z) (by omega); omega
  refine ⟨_, _, tanh_eq x, tanh_eq y, tanhF_mono h, (hl x).1, (hl y).2, ?_⟩
  rw [tanh_eq]
  congr 1
  unfold tanhF
  split_ifs
  all_goals try omega
  all_goals simp

/-- **C125.** The error of `tanh` is below `1e-4` for every argument. -/
theorem C125_tanh (x : Int) :
    ∃ r : Int, tanh x = .ok r ∧ |(r : ℝ) / 65536 - Real.tanh (x / 65536)| ≤ 1e-4 := by
  -- it suffices to treat positive arguments
  have key : ∀ y : Int, 0 < y → |(tanhF y : ℝ) / 65536 - Real.tanh (y / 65536)| ≤ 1e-4 := by
    intro y hy
    have hy' : (0 : ℝ) < y := by exact_mod_cast hy
    have hY : 0 < (y : ℝ) / 65536 := by positivity
    have hA : 1 ≤ Real.exp ((y : ℝ) / 65536) := Real.one_le_exp hY.le
    have hB : Real.exp (-((y : ℝ) / 65536)) = (Real.exp ((y : ℝ) / 65536))⁻¹ := Real.exp_neg _
    have ht : Real.tanh ((y : ℝ) / 65536) = (Real.exp ((y : ℝ) / 65536) - (Real.exp ((y : ℝ) / 65536))⁻¹)
        / (Real.exp ((y : ℝ) / 65536) + (Real.exp ((y : ℝ) / 65536))⁻¹) := by
      rw [Real.tanh_eq_sinh_div_cosh, Real.sinh_eq, Real.cosh_eq, hB]
      have : Real.exp ((y : ℝ) / 65536) + (Real.exp ((y : ℝ) / 65536))⁻¹ ≠ 0 := by positivity
      field_simp
    unfold tanhF
    rw [if_neg (by omega), if_neg (by omega), if_neg (by omega)]
    split_ifs with h1
    · have g1 := expF_pos hy.le (by omega)
      have g2 := expF_neg (x := -y) (by omega)
      push_cast at g2
      rw [neg_div, hB] at g2
      have h2 := expF_ge hy.le
      have h3 := expF_le (x := -y) (by omega)
      have h4 := expF_nonneg (-y)
      have hq : |(tanhV y : ℝ) - 65536 * ((expF y : ℝ) - expF (-y)) / (expF y + expF (-y))| ≤ 1 / 2 := by
        unfold tanhV rq
        have p1 : (expF y - expF (-y)) * 131072 + (expF y + expF (-y))
            < (((expF y - expF (-y)) * 131072 + (expF y + expF (-y))) / (2 * (expF y + expF (-y))) + 1)
              * (2 * (expF y + expF (-y))) := Int.lt_ediv_add_one_mul_self _ (by omega)
        have p2 : (((expF y - expF (-y)) * 131072 + (expF y + expF (-y))) / (2 * (expF y + expF (-y))))
              * (2 * (expF y + expF (-y)))
            ≤ (expF y - expF (-y)) * 131072 + (expF y + expF (-y)) := Int.ediv_mul_le _ (by omega)
        generalize ((expF y - expF (-y)) * 131072 + (expF y + expF (-y))) / (2 * (expF y + expF (-y))) = q at *
        have hd : (0 : ℝ) < (expF y : ℝ) + expF (-y) := by exact_mod_cast (by omega : 0 < expF y + expF (-y))
        have p1' : ((expF y : ℝ) - expF (-y)) * 131072 + (expF y + expF (-y))
            ≤ (q + 1) * (2 * (expF y + expF (-y))) := by exact_mod_cast p1.le
        have p2' : (q : ℝ) * (2 * (expF y + expF (-y)))
            ≤ ((expF y : ℝ) - expF (-y)) * 131072 + (expF y + expF (-y)) := by exact_mod_cast p2
        generalize (expF y : ℝ) = a at *
        generalize (expF (-y) : ℝ) = b at *
        have e : (q : ℝ) - 65536 * (a - b) / (a + b) = (q * (a + b) - 65536 * (a - b)) / (a + b) := by
          field_simp
        rw [e, abs_le, le_div_iff₀ hd, div_le_iff₀ hd]
        constructor <;> linarith
      have ha : (65536 : ℝ) ≤ expF y := by exact_mod_cast h2
      have hb : (0 : ℝ) ≤ expF (-y) := by exact_mod_cast h4
      rw [ht]
      generalize (tanhV y : ℝ) = v at *
      generalize (expF y : ℝ) = a at *
      generalize (expF (-y) : ℝ) = b at *
      generalize Real.exp ((y : ℝ) / 65536) = A at *
      have hA0 : 0 < A := by linarith
      have hd : 0 < a + b := by linarith
      have hD : 0 < A + A⁻¹ := by positivity
      have hDA : A ≤ A + A⁻¹ := by have := inv_pos.2 hA0; linarith
      have hD2 : 2 ≤ A + A⁻¹ := by
        have : 0 ≤ (A - 1) ^ 2 / A := by positivity
        have e : (A - 1) ^ 2 / A = A + A⁻¹ - 2 := by field_simp; ring
        linarith
      have hdD : 65536 * 0.9998 * (A + A⁻¹) ≤ a + b := by
        have l1 := (abs_le.1 g1).1
        have l2 := (abs_le.1 g2).1
        norm_num at l1 l2 ⊢
        linarith
      have e : (a - b) / (a + b) - (A - A⁻¹) / (A + A⁻¹)
          = 2 * ((a - 65536 * A) * A⁻¹ - (b - 65536 * A⁻¹) * A) / ((a + b) * (A + A⁻¹)) := by
        field_simp; ring
      have hnum : |(a - 65536 * A) * A⁻¹ - (b - 65536 * A⁻¹) * A| ≤ 3.408 + 3.94 * A := by
        have k1 : |(a - 65536 * A) * A⁻¹| ≤ 3.408 := by
          rw [abs_mul, abs_of_pos (inv_pos.2 hA0)]
          have := mul_le_mul_of_nonneg_right g1 (inv_pos.2 hA0).le
          rwa [mul_assoc, mul_inv_cancel₀ hA0.ne', mul_one] at this
        have k2 : |(b - 65536 * A⁻¹) * A| ≤ 3.94 * A := by
          rw [abs_mul, abs_of_pos hA0]
          exact mul_le_mul_of_nonneg_right g2 hA0.le
        exact (abs_sub _ _).trans (add_le_add k1 k2)
      have hk : |(a - b) / (a + b) - (A - A⁻¹) / (A + A⁻¹)| ≤ 8.7e-5 := by
        rw [e, abs_div, abs_mul, abs_two, abs_of_pos (mul_pos hd hD), div_le_iff₀ (mul_pos hd hD)]
        have m1 : 65536 * 0.9998 * (A + A⁻¹) * (A + A⁻¹) ≤ (a + b) * (A + A⁻¹) :=
          mul_le_mul_of_nonneg_right hdD hD.le
        have m2 : A * 2 ≤ (A + A⁻¹) * (A + A⁻¹) := mul_le_mul hDA hD2 (by norm_num) hD.le
        have m3 : 2 * 2 ≤ (A + A⁻¹) * (A + A⁻¹) := mul_le_mul hD2 hD2 (by norm_num) hD.le
        norm_num at hnum m1 ⊢
        nlinarith
      have hv : v / 65536 - (A - A⁻¹) / (A + A⁻¹)
          = (v - 65536 * (a - b) / (a + b)) / 65536 + ((a - b) / (a + b) - (A - A⁻¹) / (A + A⁻¹)) := by
        ring
      rw [hv]
      rw [abs_le] at hq hk ⊢
      norm_num at hk ⊢
      constructor <;> linarith [hq.1, hq.2, hk.1, hk.2]
    · -- beyond 6.5
      rw [ht]
      have hy2 : (6.5 : ℝ) ≤ (y : ℝ) / 65536 := by
        have : (425984 : ℝ) ≤ y := by exact_mod_cast (by omega : 425984 ≤ y)
        rw [le_div_iff₀ (by norm_num)]; norm_num; linarith
      have hE : 400 ≤ Real.exp ((y : ℝ) / 65536) := by
        have e1 := Real.exp_one_gt_d9
        have e2 : Real.exp 6 = Real.exp 1 ^ 6 := by rw [← Real.exp_nat_mul]; norm_num
        have e3 : (2.718 : ℝ) ^ 6 ≤ Real.exp 6 := by
          rw [e2]; exact pow_le_pow_left₀ (by norm_num) (by norm_num at e1 ⊢; linarith) 6
        have e4 : Real.exp 6 ≤ Real.exp ((y : ℝ) / 65536) := Real.exp_le_exp.2 (by norm_num at hy2; linarith)
        norm_num at e3
        linarith
      generalize Real.exp ((y : ℝ) / 65536) = A at *
      have hA0 : 0 < A := by linarith
      have hi : A⁻¹ ≤ 1 / 400 := by
        rw [inv_le_comm₀ hA0 (by norm_num)]; norm_num; linarith
      have hi0 := inv_pos.2 hA0
      have e : ((65536 : Int) : ℝ) / 65536 - (A - A⁻¹) / (A + A⁻¹) = 2 * A⁻¹ / (A + A⁻¹) := by
        push_cast; field_simp; ring
      rw [e, abs_of_pos (by positivity), div_le_iff₀ (by positivity)]
      norm_num
      linarith
  refine ⟨_, tanh_eq x, ?_⟩
  rcases lt_trichotomy x 0 with h | h | h
  · have g := key (-x) (by omega)
    obtain ⟨a, b, h1, -, -, -, -, h2⟩ := C125_tanh_shape x x le_rfl
    rw [tanh_eq] at h1 h2
    injection h1 with h1
    injection h2 with h2
    rw [h2, ← h1] at g
    push_cast at g
    rw [neg_div, neg_div, Real.tanh_neg, ← abs_neg] at g
    convert g using 2
    ring
  · subst h
    norm_num [tanhF]
  · exact key x h

example : tanh 30000 = .ok 28066 ∧ tanh (-30000) = .ok (-28066) := by decide +kernel

end Verif.Fp16
