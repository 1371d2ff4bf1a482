import Verif.Fis.Outputs
import Mathlib.Tactic.FieldSimp
import Mathlib.Tactic.Positivity
import Mathlib.Tactic.LinearCombination
import Mathlib.Analysis.SpecialFunctions.Pow.Real
import Mathlib.Analysis.SpecialFunctions.Trigonometric.Bounds

/-!
# Membership functions and rule strengths (C55, C56, C69 - C72)
-/

namespace Verif.Fis

open Arith

/-! ## C56: comparisons only -/

section ord
variable {R : Type} [Arith R] [LawfulOrd R]

theorem one_range : InRange (lit 0 : R) (lit 1) (lit 1) :=
  ⟨le01, LawfulOrd.le_refl (LawfulOrd.le_nan (le01 : ((lit 0 : R) ≤. lit 1) = true)).2⟩

theorem zero_range : InRange (lit 0 : R) (lit 1) (lit 0) :=
  ⟨LawfulOrd.le_refl (LawfulOrd.le_nan (le01 : ((lit 0 : R) ≤. lit 1) = true)).1, le01⟩

/-- **C56** (triangular, trapezoidal, rectangular and singleton sets) the membership is a number in [0, 1] for every input, NaN
and infinities included, every choice of the parameters, ordered or not, and every rounding. -/
theorem C56_shapes (inp : Nat → Out (IO R)) (p : Nat → Out R) (n : Nat) (io : IO R) (a b c d : R)
    (hx : inp 0 = .ok io) (h0 : p 0 = .ok a) (h1 : p 1 = .ok b) (h2 : p 2 = .ok c) (h3 : p 3 = .ok d) :
    ∀ f ∈ [TriMF, TrapMF, RectangleMF, SingletonMF], ∃ y, f inp p n = .ok y ∧ InRange (lit 0) (lit 1) y := by
  intro f hf
  simp only [List.mem_cons, List.not_mem_nil, or_false] at hf
  rcases hf with rfl | rfl | rfl | rfl
  · exact ⟨_, by simp [TriMF, hx, h0, h1, h2]; rfl, (C56_operators .max _ _).1⟩
  · exact ⟨_, by simp [TrapMF, hx, h0, h1, h2, h3]; rfl, (C56_operators .max _ _).1⟩
  · refine ⟨_, by simp [RectangleMF, hx, h0, h1]; rfl, ?_⟩
    split
    · exact one_range
    · exact zero_range
  · refine ⟨_, by simp [SingletonMF, hx, h0]; rfl, ?_⟩
    split
    · exact one_range
    · exact zero_range

omit [LawfulOrd R] in
theorem strength_step (ms : Array (MF R)) (andOp orOp : Op) (l : List (Conn × Term)) (x : R) :
    (∃ o : Op, ∃ a b : R, l.foldl (fun acc ct => (connOp andOp orOp ct.1).app acc (degree ms ct.2)) x = o.app a b) ∨
    (l = [] ∧ l.foldl (fun acc ct => (connOp andOp orOp ct.1).app acc (degree ms ct.2)) x = x) := by
  induction l using List.reverseRecOn with
  | nil => exact .inr ⟨rfl, rfl⟩
  | append_singleton l ct _ =>
    rw [List.foldl_append]
    exact .inl ⟨connOp andOp orOp ct.1, _, degree ms ct.2, rfl⟩

/-- **C56** (strengths) the combination of the degrees of a rule, of any number of terms, is a number in [0, 1],
whatever the cached memberships (NaN included), the operators and the rounding. -/
theorem C56_strength (ms : Array (MF R)) (andOp orOp : Op) (r : Rule) :
    InRange (lit 0) (lit 1) (strength ms andOp orOp r) := by
  unfold strength
  rcases strength_step ms andOp orOp r.tail (Sum (lit 0) (degree ms r.head)) with ⟨o, a, b, h⟩ | ⟨_, h⟩
  · rw [h]; exact (C56_operators o a b).1
  · rw [h]; exact (C56_operators .sum _ _).1

end ord

/-! ## C56: exact arithmetic -/

section field
variable {K : Type} [Field K] [LinearOrder K] [IsStrictOrderedRing K]

/-- A number in [0, 1]. -/
def Unit01 (y : K) : Prop := 0 ≤ y ∧ y ≤ 1

theorem unit_zero : Unit01 (0 : K) := ⟨le_refl _, zero_le_one⟩
theorem unit_one : Unit01 (1 : K) := ⟨zero_le_one, le_refl _⟩

theorem bound01_unit (x : K) : Unit01 (bound01 x) := by
  have h := bound_range x (lit 0) (lit 1) le01
  simp only [InRange, fLit, fLe, Rat.cast_zero, Rat.cast_one, decide_eq_true_eq] at h
  simp only [bound01, fLit, Rat.cast_zero, Rat.cast_one]
  exact h

omit [IsStrictOrderedRing K] in
theorem bound01_self {x : K} (h : Unit01 x) : bound01 x = x := by
  unfold bound01 bound
  simp [not_lt.mpr h.1, not_lt.mpr h.2]

theorem frac_unit {u v : K} (h0 : 0 ≤ u) (h1 : u ≤ v) : Unit01 (u / v) :=
  ⟨div_nonneg h0 (h0.trans h1), div_le_one_of_le₀ h1 (h0.trans h1)⟩

/-- The value of `SMF` in a field. -/
def sCurve (a b x : K) : K :=
  if x ≤ a then 0 else if b ≤ x then 1
  else if x ≤ (a + b) / 2 then 2 * ((x - a) / (b - a)) ^ 2 else 1 - 2 * ((b - x) / (b - a)) ^ 2

theorem SMF_eq (inp : Nat → Out (IO K)) (p : Nat → Out K) (n : Nat) (io : IO K) (a b : K)
    (hx : inp 0 = .ok io) (h0 : p 0 = .ok a) (h1 : p 1 = .ok b) : SMF inp p n = .ok (sCurve a b io.value) := by
  unfold SMF sCurve
  simp only [hx, h0, h1, Out.bind_ok, fLe, fLit, fAdd, fSub, fMul, fDiv, decide_eq_true_eq, Bool.and_eq_true,
    Rat.cast_zero, Rat.cast_one, Out.pure_eq]
  have half : (a + b) * (((1 / 2 : ℚ)) : K) = (a + b) / 2 := by push_cast; ring
  rw [half]
  by_cases c1 : io.value ≤ a
  · simp [c1]
  · by_cases c2 : b ≤ io.value
    · simp [c1, c2]
    · have c3 : a ≤ io.value := le_of_lt (not_le.mp c1)
      have c4 : io.value ≤ b := le_of_lt (not_le.mp c2)
      by_cases c5 : io.value ≤ (a + b) / 2
      · simp only [c1, c2, c3, c5, if_true, if_false, true_and]
        congr 1; push_cast; ring
      · have c6 : (a + b) / 2 ≤ io.value := le_of_lt (not_le.mp c5)
        simp only [c1, c2, c3, c4, c5, c6, if_true, if_false, and_false, and_true]
        congr 1
        have : b - a ≠ 0 := by
          have : a < b := lt_trans (not_le.mp c1) (not_le.mp c2)
          exact sub_ne_zero.mpr (ne_of_gt this)
        push_cast
        field_simp
        ring

theorem ZMF_eq (inp : Nat → Out (IO K)) (p : Nat → Out K) (n : Nat) (io : IO K) (a b : K)
    (hx : inp 0 = .ok io) (h0 : p 0 = .ok a) (h1 : p 1 = .ok b) :
    ZMF inp p n = .ok (1 - sCurve a b io.value) := by
  unfold ZMF sCurve
  simp only [hx, h0, h1, Out.bind_ok, fLe, fLit, fAdd, fSub, fMul, fDiv, decide_eq_true_eq, Bool.and_eq_true,
    Rat.cast_zero, Rat.cast_one, Out.pure_eq]
  have half : (a + b) * (((1 / 2 : ℚ)) : K) = (a + b) / 2 := by push_cast; ring
  rw [half]
  by_cases c1 : io.value ≤ a
  · simp [c1]
  · by_cases c2 : b ≤ io.value
    · simp [c1, c2]
    · have c3 : a ≤ io.value := le_of_lt (not_le.mp c1)
      have c4 : io.value ≤ b := le_of_lt (not_le.mp c2)
      by_cases c5 : io.value ≤ (a + b) / 2
      · simp only [c1, c2, c3, c5, if_true, if_false, true_and]
        congr 1; push_cast; ring
      · have c6 : (a + b) / 2 ≤ io.value := le_of_lt (not_le.mp c5)
        simp only [c1, c2, c3, c4, c5, c6, if_true, if_false, and_false, and_true]
        congr 1
        have : b - a ≠ 0 := by
          have : a < b := lt_trans (not_le.mp c1) (not_le.mp c2)
          exact sub_ne_zero.mpr (ne_of_gt this)
        push_cast
        field_simp
        ring

theorem sCurve_unit (a b x : K) : Unit01 (sCurve a b x) := by
  unfold sCurve
  split
  · exact unit_zero
  · rename_i c1
    split
    · exact unit_one
    · rename_i c2
      have hab : 0 < b - a := sub_pos.mpr (lt_trans (not_le.mp c1) (not_le.mp c2))
      have h1 := not_le.mp c1
      have h2 := not_le.mp c2
      split
      · rename_i c3
        have t1 : 0 ≤ (x - a) / (b - a) := div_nonneg (by linarith) hab.le
        have t2 : (x - a) / (b - a) ≤ 1 / 2 := by rw [div_le_iff₀ hab]; linarith
        constructor <;> nlinarith
      · rename_i c3
        have c3 := not_le.mp c3
        have t1 : 0 ≤ (b - x) / (b - a) := div_nonneg (by linarith) hab.le
        have t2 : (b - x) / (b - a) ≤ 1 / 2 := by rw [div_le_iff₀ hab]; linarith
        constructor <;> nlinarith

/-- **C56** (algebraic sets) in exact arithmetic the membership of the other algebraic sets is in [0, 1] for
every input and all parameters, ordered or not. -/
theorem C56_algebraic (inp : Nat → Out (IO K)) (p : Nat → Out K) (n : Nat) (io : IO K) (a b c d : K)
    (hx : inp 0 = .ok io) (h0 : p 0 = .ok a) (h1 : p 1 = .ok b) (h2 : p 2 = .ok c) (h3 : p 3 = .ok d) :
    ∀ f ∈ [SMF, ZMF, PiMF, LinSMF, LinZMF, ConcaveMF], ∃ y, f inp p n = .ok y ∧ 0 ≤ y ∧ y ≤ 1 := by
  intro f hf
  simp only [List.mem_cons, List.not_mem_nil, or_false] at hf
  have hs := SMF_eq inp p n io a b hx h0 h1
  have us := sCurve_unit a b io.value
  have uz := sCurve_unit c d io.value
  rcases hf with rfl | rfl | rfl | rfl | rfl | rfl
  · exact ⟨_, hs, us⟩
  · exact ⟨_, ZMF_eq inp p n io a b hx h0 h1, by have := us.2; linarith, by have := us.1; linarith⟩
  · have hz := ZMF_eq inp (fun k => p (2 + k)) n io c d hx h2 h3
    refine ⟨_, by unfold PiMF; rw [hs, Out.bind_ok, hz]; rfl, ?_⟩
    simp only [fAbs, fMul]
    have e1 : 0 ≤ 1 - sCurve c d io.value := by have := uz.2; linarith
    have e2 : 1 - sCurve c d io.value ≤ 1 := by have := uz.1; linarith
    rw [abs_of_nonneg (mul_nonneg us.1 e1)]
    exact ⟨mul_nonneg us.1 e1, mul_le_one₀ us.2 e1 e2⟩
  · unfold LinSMF
    simp only [hx, h0, h1, Out.bind_ok, fLt, fLit, fSub, fDiv, decide_eq_true_eq, Rat.cast_zero, Rat.cast_one, Out.pure_eq]
    split
    · split
      · exact ⟨0, rfl, unit_zero⟩
      · split
        · exact ⟨1, rfl, unit_one⟩
        · rename_i c1 c2
          exact ⟨_, rfl, frac_unit (by linarith [not_lt.mp c1]) (by linarith [not_lt.mp c2])⟩
    · split
      · refine ⟨_, rfl, ?_⟩
        split
        · exact unit_zero
        · exact unit_one
      · exact ⟨0, rfl, unit_zero⟩
  · unfold LinZMF
    simp only [hx, h0, h1, Out.bind_ok, fLt, fLit, fSub, fDiv, decide_eq_true_eq, Rat.cast_zero, Rat.cast_one, Out.pure_eq]
    split
    · split
      · exact ⟨1, rfl, unit_one⟩
      · split
        · exact ⟨0, rfl, unit_zero⟩
        · rename_i c1 c2
          refine ⟨_, rfl, ?_⟩
          have : (a - io.value) / (a - b) = (io.value - a) / (b - a) := by
            rw [← neg_sub io.value a, ← neg_sub b a, neg_div_neg_eq]
          rw [this]
          exact frac_unit (by linarith [not_lt.mp c1]) (by linarith [not_lt.mp c2])
    · split
      · refine ⟨_, rfl, ?_⟩
        split
        · exact unit_one
        · exact unit_zero
      · exact ⟨0, rfl, unit_zero⟩
  · unfold ConcaveMF
    simp only [hx, h0, h1, Out.bind_ok, fLt, fLe, fLit, fSub, fDiv, fMul, fAdd, fNeg, decide_eq_true_eq, Bool.and_eq_true,
      Rat.cast_one, Out.pure_eq]
    split
    · rename_i c
      exact ⟨_, rfl, frac_unit (by linarith [c.1]) (by push_cast; linarith [c.1, c.2])⟩
    · split
      · rename_i c
        exact ⟨_, rfl, frac_unit (by linarith [c.1]) (by push_cast; linarith [c.1, c.2])⟩
      · exact ⟨1, rfl, unit_one⟩

example : SMF (fun _ => .ok ⟨0, 10, 3⟩) (rdArr #[(1 : ℚ), 5]) 1 = .ok (1 / 2) ∧
    PiMF (fun _ => .ok ⟨0, 10, 2⟩) (rdArr #[(1 : ℚ), 5, 6, 9]) 1 = .ok (1 / 8) ∧
    ConcaveMF (fun _ => .ok ⟨0, 10, 2⟩) (rdArr #[(1 : ℚ), 5]) 1 = .ok (4 / 7) ∧
    SMF (fun _ => .ok ⟨0, 10, 3⟩) (rdArr #[(5 : ℚ), 1]) 1 = .ok 0 := by
  decide +kernel

/-! ### Sets built from library functions -/

/-- What is assumed of the functions of `ffmath` used by the sets below. -/
structure Bounded (K : Type) [Field K] [LinearOrder K] [Trans K] : Prop where
  exp_pos : ∀ x : K, 0 < Trans.exp x
  exp_le : ∀ x : K, x ≤ 0 → Trans.exp x ≤ 1
  pow_nonneg : ∀ x y : K, 0 ≤ x → 0 ≤ Trans.pow x y
  cos_range : ∀ x : K, -1 ≤ Trans.cos x ∧ Trans.cos x ≤ 1

/-- **C56** (bell, Gaussian, sigmoidal, spike and cosine sets) in exact arithmetic, if the exponential is positive and
at most 1 on the negative numbers, powers are not negative and the cosine is in [-1, 1], the membership is in [0, 1] for
every input and all parameters. -/
theorem C56_transcendental [Trans K] (hB : Bounded K) (inp : Nat → Out (IO K)) (p : Nat → Out K) (n : Nat) (io : IO K)
    (a b c d : K) (hx : inp 0 = .ok io) (h0 : p 0 = .ok a) (h1 : p 1 = .ok b) (h2 : p 2 = .ok c) (h3 : p 3 = .ok d) :
    ∀ f ∈ [GBellMF, GaussMF, Gauss2MF, SigMF, DSigMF, PSigMF, SpikeMF, CosineMF],
      ∃ y, f inp p n = .ok y ∧ 0 ≤ y ∧ y ≤ 1 := by
  have gauss : ∀ (q : Nat → Out K) (s t : K), q 0 = .ok s → q 1 = .ok t → ∃ y, GaussMF inp q n = .ok y ∧ Unit01 y := by
    intro q s t e0 e1
    refine ⟨_, by simp only [GaussMF, hx, e0, e1, Out.bind_ok, Out.pure_eq]; rfl, ?_⟩
    refine ⟨(hB.exp_pos _).le, hB.exp_le _ ?_⟩
    simp only [fMul, fDiv, fSub, fLit]
    have := mul_self_nonneg ((io.value - t) / s)
    push_cast
    nlinarith
  have sig : ∀ (q : Nat → Out K) (s t : K), q 0 = .ok s → q 1 = .ok t → ∃ y, SigMF inp q n = .ok y ∧ Unit01 y := by
    intro q s t e0 e1
    refine ⟨_, by simp only [SigMF, hx, e0, e1, Out.bind_ok, Out.pure_eq]; rfl, ?_⟩
    simp only [fDiv, fAdd, fLit, Rat.cast_one]
    exact frac_unit zero_le_one (by have := hB.exp_pos (-s * (io.value - t)); simpa using this.le)
  intro f hf
  simp only [List.mem_cons, List.not_mem_nil, or_false] at hf
  rcases hf with rfl | rfl | rfl | rfl | rfl | rfl | rfl | rfl
  · refine ⟨_, by simp only [GBellMF, hx, h0, h1, h2, Out.bind_ok, Out.pure_eq]; rfl, ?_⟩
    simp only [fDiv, fAdd, fLit, Rat.cast_one]
    refine frac_unit zero_le_one ?_
    have := hB.pow_nonneg (absf ((io.value -. c) /. a)) (lit 2 *. b) (by simp)
    simpa using this
  · exact gauss p a b h0 h1
  · obtain ⟨y1, e1, u1⟩ := gauss p a b h0 h1
    obtain ⟨y2, e2, u2⟩ := gauss (fun k => p (2 + k)) c d h2 h3
    have key : ∀ (u v : K), Unit01 u → Unit01 v → Unit01 (u * v) := fun u v hu hv =>
      ⟨mul_nonneg hu.1 hv.1, mul_le_one₀ hu.2 hv.1 hv.2⟩
    unfold Gauss2MF
    simp only [hx, h1, h3, Out.bind_ok, e1, e2]
    by_cases k1 : (io.value ≤. b) = true <;> by_cases k2 : (io.value ≤. d) = true <;>
      simp only [k1, k2, if_true, if_false, Out.bind_ok, Out.pure_eq, Bool.false_eq_true]
    · exact ⟨_, rfl, key _ _ u1 u2⟩
    · exact ⟨_, rfl, key _ _ u1 (by simpa using unit_one)⟩
    · exact ⟨_, rfl, key _ _ (by simpa using unit_one) u2⟩
    · exact ⟨_, rfl, key _ _ (by simpa using unit_one) (by simpa using unit_one)⟩
  · exact sig p a b h0 h1
  · obtain ⟨y1, e1, u1⟩ := sig p a b h0 h1
    obtain ⟨y2, e2, u2⟩ := sig (fun k => p (2 + k)) c d h2 h3
    refine ⟨_, by simp only [DSigMF, e1, e2, Out.bind_ok, Out.pure_eq]; rfl, ?_⟩
    simp only [fAbs, fSub]
    refine ⟨abs_nonneg _, abs_le.mpr ⟨?_, ?_⟩⟩ <;> linarith [u1.1, u1.2, u2.1, u2.2]
  · obtain ⟨y1, e1, u1⟩ := sig p a b h0 h1
    obtain ⟨y2, e2, u2⟩ := sig (fun k => p (2 + k)) c d h2 h3
    refine ⟨_, by simp only [PSigMF, e1, e2, Out.bind_ok, Out.pure_eq]; rfl, ?_⟩
    simp only [fAbs, fMul]
    rw [abs_of_nonneg (mul_nonneg u1.1 u2.1)]
    exact ⟨mul_nonneg u1.1 u2.1, mul_le_one₀ u1.2 u2.1 u2.2⟩
  · refine ⟨_, by simp only [SpikeMF, hx, h0, h1, Out.bind_ok, Out.pure_eq]; rfl, (hB.exp_pos _).le, hB.exp_le _ ?_⟩
    simp
  · unfold CosineMF
    simp only [hx, h0, h1, Out.bind_ok, Out.pure_eq]
    split
    · exact ⟨_, rfl, by simp, by simp⟩
    · refine ⟨_, rfl, ?_⟩
      have := hB.cos_range (((lit 2 /. b) *. pi) *. (io.value -. a))
      generalize Trans.cos (((lit 2 /. b) *. pi) *. (io.value -. a)) = z at this ⊢
      simp only [fMul, fAdd, fLit]
      push_cast
      constructor <;> linarith [this.1, this.2]

/-- The hypotheses of `C56_transcendental` hold for the real functions. -/
noncomputable example : letI : Trans ℝ :=
    ⟨Real.exp, Real.log, Real.sqrt, Real.sin, Real.cos, Real.tanh, fun x y => x ^ y⟩
    Bounded ℝ :=
  letI : Trans ℝ := ⟨Real.exp, Real.log, Real.sqrt, Real.sin, Real.cos, Real.tanh, fun x y => x ^ y⟩
  ⟨Real.exp_pos, fun _ h => Real.exp_le_one_iff.mpr h, fun _ y h => Real.rpow_nonneg h y,
    fun x => ⟨Real.neg_one_le_cos x, Real.cos_le_one x⟩⟩

/-! ## C55: exact strengths -/

/-- The textbook operators. Not a definition of the repository. -/
def exact : Op → K → K → K
  | .min, a, b => min a b
  | .prod, a, b => a * b
  | .max, a, b => max a b
  | .probOr, a, b => a + b - a * b
  | .sum, a, b => min 1 (a + b)

theorem app_exact (o : Op) {a b : K} (ha : Unit01 a) (hb : Unit01 b) :
    o.app a b = exact o a b ∧ Unit01 (exact o a b) := by
  obtain ⟨a0, a1⟩ := ha
  obtain ⟨b0, b1⟩ := hb
  have hab := mul_nonneg a0 b0
  cases o
  · have hu : Unit01 (min a b) := ⟨le_min a0 b0, min_le_of_left_le a1⟩
    refine ⟨?_, hu⟩
    simp only [Op.app, Min, exact, fLt, decide_eq_true_eq]
    have : (if a < b then a else b) = min a b := by
      rcases lt_or_ge a b with h | h
      · rw [if_pos h, min_eq_left h.le]
      · rw [if_neg (not_lt.mpr h), min_eq_right h]
    rw [this, bound01_self hu]
  · have hu : Unit01 (a * b) := ⟨hab, mul_le_one₀ a1 b0 b1⟩
    exact ⟨bound01_self hu, hu⟩
  · have hu : Unit01 (max a b) := ⟨le_max_of_le_left a0, max_le a1 b1⟩
    refine ⟨?_, hu⟩
    simp only [Op.app, Max, exact, fLt, decide_eq_true_eq]
    have : (if b < a then a else b) = max a b := by
      rcases lt_or_ge b a with h | h
      · rw [if_pos h, max_eq_left h.le]
      · rw [if_neg (not_lt.mpr h), max_eq_right h]
    rw [this, bound01_self hu]
  · have hu : Unit01 (a + b - a * b) := by constructor <;> nlinarith
    exact ⟨bound01_self hu, hu⟩
  · have hu : Unit01 (min 1 (a + b)) := ⟨le_min zero_le_one (add_nonneg a0 b0), min_le_left _ _⟩
    refine ⟨?_, hu⟩
    simp only [Op.app, Sum, exact, fAdd, bound01, bound, fNan, fLt, fLit, Rat.cast_zero, Rat.cast_one]
    rcases lt_or_ge 1 (a + b) with h | h
    · simp [not_lt.mpr (add_nonneg a0 b0), h, h.le]
    · simp [not_lt.mpr (add_nonneg a0 b0), not_lt.mpr h, h]

theorem degree_unit (ms : Array (MF K)) (t : Term) : Unit01 (degree ms t) := by
  unfold degree
  split
  · simpa using unit_zero
  · rename_i m _
    have := bound01_unit m.fx
    split
    · simp only [fSub, fLit, Rat.cast_one]
      exact ⟨by linarith [this.2], by linarith [this.1]⟩
    · exact this

/-- **C55** (exact strengths) in exact arithmetic the strength of a rule is the combination of the degrees of its
terms, from left to right, with the textbook minimum or product for AND and the textbook maximum or
probabilistic sum for OR, whatever the operators and the number of terms; it is in [0, 1]. -/
theorem C55_exact (ms : Array (MF K)) (andOp orOp : Op) (r : Rule) :
    strength ms andOp orOp r =
      r.tail.foldl (fun acc ct => exact (connOp andOp orOp ct.1) acc (degree ms ct.2)) (degree ms r.head) ∧
    Unit01 (strength ms andOp orOp r) := by
  unfold strength
  have hstart : Sum (lit 0) (degree ms r.head) = degree ms r.head := by
    unfold Sum
    simp only [fAdd, fLit, Rat.cast_zero, zero_add]
    exact bound01_self (degree_unit ms r.head)
  rw [hstart]
  have : ∀ (l : List (Conn × Term)) (x : K), Unit01 x →
      l.foldl (fun acc ct => (connOp andOp orOp ct.1).app acc (degree ms ct.2)) x =
        l.foldl (fun acc ct => exact (connOp andOp orOp ct.1) acc (degree ms ct.2)) x ∧
      Unit01 (l.foldl (fun acc ct => (connOp andOp orOp ct.1).app acc (degree ms ct.2)) x) := by
    intro l
    induction l with
    | nil => intro x hx; exact ⟨rfl, hx⟩
    | cons ct l ih =>
      intro x hx
      obtain ⟨e, u⟩ := app_exact (connOp andOp orOp ct.1) hx (degree_unit ms ct.2)
      simp only [List.foldl_cons]
      rw [e]
      exact ih _ u
  exact this r.tail _ (degree_unit ms r.head)

/-- The strength with a rule weight is in [0, 1] too. -/
theorem C56_weighted (ms : Array (MF K)) (andOp orOp : Op) (r : Rule) (rw' : Option (Array K)) (k : Nat) :
    0 ≤ weighted rw' k (strength ms andOp orOp r) ∧ weighted rw' k (strength ms andOp orOp r) ≤ 1 := by
  have h := (C55_exact ms andOp orOp r).2
  unfold weighted
  split
  · exact h
  · split
    · exact h
    · rename_i b _
      have hb := bound01_unit b
      exact ⟨mul_nonneg h.1 hb.1, mul_le_one₀ h.2 hb.1 hb.2⟩

example : strength (demo 2 2 [] [1 / 2, 1 / 4, 1 / 8] none).inMF .prod .probOr demoRules[0] =
    (1 / 2 * (1 - 1 / 4)) + 1 / 8 - (1 / 2 * (1 - 1 / 4)) * (1 / 8) := by decide +kernel

end field

end Verif.Fis
