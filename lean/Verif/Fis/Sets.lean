import Verif.Fis.ShapesProps

/-!
# Shape of the membership functions (C69) and Tsukamoto consequents (C70)
-/

namespace Verif.Fis

open Arith

section field
variable {K : Type} [Field K] [LinearOrder K] [IsStrictOrderedRing K]

/-- Pointer to one input with the value `x`. -/
def one (x : K) : Nat → Out (IO K) := fun j => if j = 0 then .ok ⟨0, 1, x⟩ else .ub

/-! ## C69 -/

/-- **C69** (triangle) 0 outside `(a, c)`, rising linearly to 1 at `b` and falling linearly after it. -/
theorem C69_tri (a b c x : K) (n : Nat) (hab : a < b) (hbc : b < c) :
    TriMF (one x) (rdArr #[a, b, c]) n =
      .ok (if x ≤ a ∨ c ≤ x then 0 else if x ≤ b then (x - a) / (b - a) else (c - x) / (c - b)) := by
  have d1 : 0 < b - a := sub_pos.mpr hab
  have d2 : 0 < c - b := sub_pos.mpr hbc
  have e : TriMF (one x) (rdArr #[a, b, c]) n =
      .ok (Op.app .max (Op.app .min ((x - a) / (b - a)) ((c - x) / (c - b))) 0) := by
    simp [TriMF, one, rdArr, Op.app]
  rw [e]
  congr 1
  have hmax : ∀ u : K, Unit01 u → Op.app .max u 0 = u := by
    intro u hu
    rw [(app_exact .max hu unit_zero).1]
    simp [exact, hu.1]
  rw [hmax _ (by simp only [Op.app, Min]; exact bound01_unit _)]
  simp only [Op.app, Min, fLt, decide_eq_true_eq]
  by_cases hx : x ≤ a ∨ c ≤ x
  · rw [if_pos hx]
    have : (if (x - a) / (b - a) < (c - x) / (c - b) then (x - a) / (b - a) else (c - x) / (c - b)) ≤ 0 := by
      rcases hx with hx | hx
      · have h1 : (x - a) / (b - a) ≤ 0 := div_nonpos_of_nonpos_of_nonneg (by linarith) d1.le
        split
        · exact h1
        · rename_i h; exact (not_lt.mp h).trans h1
      · have h1 : (c - x) / (c - b) ≤ 0 := div_nonpos_of_nonpos_of_nonneg (by linarith) d2.le
        split
        · rename_i h; exact h.le.trans h1
        · exact h1
    unfold bound01 bound
    generalize (if (x - a) / (b - a) < (c - x) / (c - b) then (x - a) / (b - a) else (c - x) / (c - b)) = z at this
    rcases lt_or_eq_of_le this with h | h
    · simp [h]
    · simp [h]
  · rw [if_neg hx]
    have hx1 : a < x := not_le.mp (fun h => hx (.inl h))
    have hx2 : x < c := not_le.mp (fun h => hx (.inr h))
    by_cases hb : x ≤ b
    · rw [if_pos hb]
      have h1 : (x - a) / (b - a) ≤ 1 := by rw [div_le_one d1]; linarith
      have h2 : 1 ≤ (c - x) / (c - b) := by rw [one_le_div d2]; linarith
      have h3 : 0 ≤ (x - a) / (b - a) := div_nonneg (by linarith) d1.le
      have : (if (x - a) / (b - a) < (c - x) / (c - b) then (x - a) / (b - a) else (c - x) / (c - b)) =
          (x - a) / (b - a) := by
        split
        · rfl
        · rename_i h; exact le_antisymm (not_lt.mp h) (h1.trans h2)
      rw [this]
      exact bound01_self ⟨h3, h1⟩
    · rw [if_neg hb]
      have hb := not_le.mp hb
      have h1 : 1 < (x - a) / (b - a) := by rw [one_lt_div d1]; linarith
      have h2 : (c - x) / (c - b) < 1 := by rw [div_lt_one d2]; linarith
      have h3 : 0 ≤ (c - x) / (c - b) := div_nonneg (by linarith) d2.le
      rw [if_neg (not_lt.mpr (h2.trans h1).le)]
      exact bound01_self ⟨h3, h2.le⟩

/-- **C69** (trapezoid) 0 outside `(a, d)`, 1 on `[b, c]`, linear on the flanks. -/
theorem C69_trap (a b c d x : K) (n : Nat) (hab : a < b) (hbc : b ≤ c) (hcd : c < d) :
    TrapMF (one x) (rdArr #[a, b, c, d]) n =
      .ok (if x ≤ a ∨ d ≤ x then 0 else if x < b then (x - a) / (b - a) else if x ≤ c then 1
        else (d - x) / (d - c)) := by
  have d1 : 0 < b - a := sub_pos.mpr hab
  have d2 : 0 < d - c := sub_pos.mpr hcd
  have e : TrapMF (one x) (rdArr #[a, b, c, d]) n =
      .ok (Op.app .max (Op.app .min (Op.app .min ((x - a) / (b - a)) 1) ((d - x) / (d - c))) 0) := by
    simp [TrapMF, one, rdArr, Op.app]
  rw [e]
  congr 1
  have hmax : ∀ u : K, Unit01 u → Op.app .max u 0 = u := by
    intro u hu
    rw [(app_exact .max hu unit_zero).1]
    simp [exact, hu.1]
  rw [hmax _ (by simp only [Op.app, Min]; exact bound01_unit _)]
  -- the first minimum
  have m1 : Op.app .min ((x - a) / (b - a)) 1 = if x ≤ a then 0 else if x < b then (x - a) / (b - a) else 1 := by
    simp only [Op.app, Min, fLt, decide_eq_true_eq]
    by_cases h1 : x ≤ a
    · have : (x - a) / (b - a) ≤ 0 := div_nonpos_of_nonpos_of_nonneg (by linarith) d1.le
      rw [if_pos h1, if_pos (by linarith)]
      unfold bound01 bound
      rcases lt_or_eq_of_le this with h | h
      · simp [h]
      · simp [h]
    · rw [if_neg h1]
      have h1 := not_le.mp h1
      have h0 : 0 ≤ (x - a) / (b - a) := div_nonneg (by linarith) d1.le
      by_cases h2 : x < b
      · have : (x - a) / (b - a) < 1 := by rw [div_lt_one d1]; linarith
        rw [if_pos h2, if_pos this]
        exact bound01_self ⟨h0, this.le⟩
      · have : 1 ≤ (x - a) / (b - a) := by rw [one_le_div d1]; linarith [not_lt.mp h2]
        rw [if_neg h2, if_neg (not_lt.mpr this)]
        exact bound01_self unit_one
  rw [m1]
  simp only [Op.app, Min, fLt, decide_eq_true_eq]
  by_cases hd : d ≤ x
  · have hq : (d - x) / (d - c) ≤ 0 := div_nonpos_of_nonpos_of_nonneg (by linarith) d2.le
    rw [if_neg (show ¬ x ≤ a by intro h; linarith), if_neg (show ¬ x < b by intro h; linarith),
      if_pos (show x ≤ a ∨ d ≤ x from .inr hd), if_neg (show ¬ (1 : K) < (d - x) / (d - c) by intro h; linarith)]
    unfold bound01 bound
    rcases lt_or_eq_of_le hq with h | h
    · simp [h]
    · simp [h]
  · have hd := not_le.mp hd
    have hq : 0 < (d - x) / (d - c) := div_pos (by linarith) d2
    by_cases h1 : x ≤ a
    · rw [if_pos h1, if_pos hq, if_pos (show x ≤ a ∨ d ≤ x from .inl h1)]
      exact bound01_self unit_zero
    · have h1' := not_le.mp h1
      have h0 : 0 ≤ (x - a) / (b - a) := div_nonneg (by linarith) d1.le
      rw [if_neg h1, if_neg (show ¬ (x ≤ a ∨ d ≤ x) by push Not; exact ⟨h1', hd⟩)]
      by_cases h2 : x < b
      · have e1 : (x - a) / (b - a) < 1 := by rw [div_lt_one d1]; linarith
        have e2 : 1 ≤ (d - x) / (d - c) := by rw [one_le_div d2]; linarith
        rw [if_pos h2, if_pos h2, if_pos (lt_of_lt_of_le e1 e2)]
        exact bound01_self ⟨h0, e1.le⟩
      · rw [if_neg h2, if_neg h2]
        by_cases h3 : x ≤ c
        · have e2 : 1 ≤ (d - x) / (d - c) := by rw [one_le_div d2]; linarith
          rw [if_pos h3]
          rcases lt_or_eq_of_le e2 with h | h
          · rw [if_pos h]; exact bound01_self unit_one
          · rw [← h, if_neg (lt_irrefl _)]; exact bound01_self unit_one
        · have h3 := not_le.mp h3
          have e2 : (d - x) / (d - c) < 1 := by rw [div_lt_one d2]; linarith
          rw [if_neg (not_le.mpr h3), if_neg (not_lt.mpr e2.le)]
          exact bound01_self ⟨hq.le, e2.le⟩

theorem sCurve_mono (a b : K) : Monotone (sCurve a b) := by
  intro x y hxy
  by_cases cx : x ≤ a
  · have : sCurve a b x = 0 := by simp [sCurve, cx]
    rw [this]; exact (sCurve_unit a b y).1
  by_cases cy : b ≤ y
  · have : sCurve a b y = 1 := by
      have : ¬ y ≤ a := fun h => cx (hxy.trans h)
      simp [sCurve, cy, this]
    rw [this]; exact (sCurve_unit a b x).2
  have cx' := not_le.mp cx
  have cy' := not_le.mp cy
  have hab : 0 < b - a := by linarith
  have h1 : ¬ b ≤ x := fun h => cy (h.trans hxy)
  have h2 : ¬ y ≤ a := fun h => cx (hxy.trans h)
  unfold sCurve
  rw [if_neg cx, if_neg h1, if_neg h2, if_neg cy]
  have dx : 0 ≤ (x - a) / (b - a) := div_nonneg (by linarith) hab.le
  have dxy : (x - a) / (b - a) ≤ (y - a) / (b - a) := div_le_div_of_nonneg_right (by linarith) hab.le
  have ey : 0 ≤ (b - y) / (b - a) := div_nonneg (by linarith) hab.le
  have exy : (b - y) / (b - a) ≤ (b - x) / (b - a) := div_le_div_of_nonneg_right (by linarith) hab.le
  by_cases mx : x ≤ (a + b) / 2
  · rw [if_pos mx]
    by_cases my : y ≤ (a + b) / 2
    · rw [if_pos my]; nlinarith
    · rw [if_neg my]
      have my := not_le.mp my
      have t1 : (x - a) / (b - a) ≤ 1 / 2 := by rw [div_le_iff₀ hab]; linarith
      have t2 : (b - y) / (b - a) ≤ 1 / 2 := by rw [div_le_iff₀ hab]; linarith
      nlinarith
  · rw [if_neg mx, if_neg (fun h => mx (hxy.trans h))]
    nlinarith

/-- **C69** (S and Z curves) the S-shaped set never decreases, is 0 up to `a`, 1 from `b` on and 1 / 2 in the middle; the
Z-shaped set is its complement; hence it never increases. -/
theorem C69_sz (a b : K) (n : Nat) (hab : a < b) :
    ∃ S : K → K, (∀ x, SMF (one x) (rdArr #[a, b]) n = .ok (S x)) ∧ (∀ x, ZMF (one x) (rdArr #[a, b]) n = .ok (1 - S x)) ∧
      Monotone S ∧ (∀ x, x ≤ a → S x = 0) ∧ (∀ x, b ≤ x → S x = 1) ∧ S ((a + b) / 2) = 1 / 2 ∧
      ∀ x, S (a + b - x) = 1 - S x := by
  refine ⟨sCurve a b, fun x => SMF_eq _ _ n ⟨0, 1, x⟩ a b rfl rfl rfl, fun x => ZMF_eq _ _ n ⟨0, 1, x⟩ a b rfl rfl rfl,
    sCurve_mono a b, fun x hx => by simp [sCurve, hx], fun x hx => ?_, ?_, fun x => ?_⟩
  · simp [sCurve, hx, show ¬ x ≤ a by intro h; linarith]
  · have hd : b - a ≠ 0 := sub_ne_zero.mpr (ne_of_gt hab)
    unfold sCurve
    rw [if_neg (by intro h; linarith), if_neg (by intro h; linarith), if_pos (le_refl _)]
    field_simp
    ring
  · have hd : b - a ≠ 0 := sub_ne_zero.mpr (ne_of_gt hab)
    unfold sCurve
    rcases lt_trichotomy x ((a + b) / 2) with h | h | h
    · by_cases h1 : x ≤ a
      · rw [if_neg (show ¬ a + b - x ≤ a by intro h; linarith), if_pos (show b ≤ a + b - x by linarith), if_pos h1]; ring
      · rw [if_neg (show ¬ a + b - x ≤ a by intro h'; linarith), if_neg (show ¬ b ≤ a + b - x by intro h'; exact h1 (by linarith)),
          if_neg (show ¬ a + b - x ≤ (a + b) / 2 by intro h'; linarith), if_neg h1, if_neg (show ¬ b ≤ x by intro h'; linarith),
          if_pos h.le]
        congr 3; ring
    · rw [h, show a + b - (a + b) / 2 = (a + b) / 2 by ring, if_neg (by intro h; linarith), if_neg (by intro h; linarith),
        if_pos (le_refl _)]
      field_simp
      ring
    · by_cases h1 : b ≤ x
      · rw [if_pos (show a + b - x ≤ a by linarith), if_neg (show ¬ x ≤ a by intro h'; linarith), if_pos h1]; ring
      · rw [if_neg (show ¬ a + b - x ≤ a by intro h'; exact h1 (by linarith)), if_neg (show ¬ b ≤ a + b - x by intro h'; linarith),
          if_pos (show a + b - x ≤ (a + b) / 2 by linarith), if_neg (show ¬ x ≤ a by intro h'; linarith), if_neg h1,
          if_neg (not_le.mpr h)]
        rw [show a + b - x - a = b - x by ring]
        ring

omit [IsStrictOrderedRing K] in
/-- The ramp of `LinSMF`. -/
theorem linS_eq (a b x : K) (n : Nat) (hab : a < b) :
    LinSMF (one x) (rdArr #[a, b]) n = .ok (if x < a then 0 else if b < x then 1 else (x - a) / (b - a)) := by
  simp [LinSMF, one, rdArr, hab]
  split <;> [rfl; split <;> rfl]

/-- **C69** (linear S) 0 below `a`, 1 above `b`, linear in between. -/
theorem C69_linS (a b : K) (n : Nat) (hab : a < b) :
    ∃ S : K → K, (∀ x, LinSMF (one x) (rdArr #[a, b]) n = .ok (S x)) ∧ Monotone S ∧ (∀ x, x ≤ a → S x = 0) ∧
      (∀ x, b ≤ x → S x = 1) ∧ ∀ t, 0 ≤ t → t ≤ 1 → S (a + t * (b - a)) = t := by
  have hd : 0 < b - a := sub_pos.mpr hab
  have key : ∀ x, (if x < a then 0 else if b < x then 1 else (x - a) / (b - a)) = max 0 (min 1 ((x - a) / (b - a))) := by
    intro x
    by_cases h1 : x < a
    · rw [if_pos h1]
      have : (x - a) / (b - a) ≤ 0 := div_nonpos_of_nonpos_of_nonneg (by linarith) hd.le
      rw [min_eq_right (by linarith), max_eq_left this]
    · rw [if_neg h1]
      have h1 := not_lt.mp h1
      have h0 : 0 ≤ (x - a) / (b - a) := div_nonneg (by linarith) hd.le
      by_cases h2 : b < x
      · have : 1 ≤ (x - a) / (b - a) := by rw [one_le_div hd]; linarith
        rw [if_pos h2, min_eq_left this, max_eq_right zero_le_one]
      · have : (x - a) / (b - a) ≤ 1 := by rw [div_le_one hd]; linarith [not_lt.mp h2]
        rw [if_neg h2, min_eq_right this, max_eq_right h0]
  refine ⟨fun x => max 0 (min 1 ((x - a) / (b - a))), fun x => by rw [linS_eq a b x n hab, key], ?_, ?_, ?_, ?_⟩
  · intro x y hxy
    exact max_le_max (le_refl _) (min_le_min (le_refl _) (div_le_div_of_nonneg_right (by linarith) hd.le))
  · intro x hx
    have : (x - a) / (b - a) ≤ 0 := div_nonpos_of_nonpos_of_nonneg (by linarith) hd.le
    show max 0 (min 1 ((x - a) / (b - a))) = 0
    rw [min_eq_right (by linarith), max_eq_left this]
  · intro x hx
    have : 1 ≤ (x - a) / (b - a) := by rw [one_le_div hd]; linarith
    show max 0 (min 1 ((x - a) / (b - a))) = 1
    rw [min_eq_left this, max_eq_right zero_le_one]
  · intro t h0 h1
    have : (a + t * (b - a) - a) / (b - a) = t := by field_simp; ring
    show max 0 (min 1 ((a + t * (b - a) - a) / (b - a))) = t
    rw [this, min_eq_right h1, max_eq_right h0]

omit [IsStrictOrderedRing K] in
/-- The linear Z-shaped set is not Z-shaped: between `a` and `b` it equals the linear S-shaped set. -/
theorem C69_linZ_false (a b x : K) (n : Nat) (hab : a < b) (h1 : a ≤ x) (h2 : x ≤ b) :
    LinZMF (one x) (rdArr #[a, b]) n = LinSMF (one x) (rdArr #[a, b]) n := by
  rw [linS_eq a b x n hab, if_neg (not_lt.mpr h1), if_neg (not_lt.mpr h2)]
  have : (a - x) / (a - b) = (x - a) / (b - a) := by
    rw [← neg_sub x a, ← neg_sub b a, neg_div_neg_eq]
  simp [LinZMF, one, rdArr, hab, not_lt.mpr h1, not_lt.mpr h2, this]

example : LinZMF (one (1 : ℚ)) (rdArr #[1, 5]) 1 = .ok 0 ∧ LinZMF (one (4 : ℚ)) (rdArr #[1, 5]) 1 = .ok (3 / 4) ∧
    LinZMF (one (1 / 2 : ℚ)) (rdArr #[1, 5]) 1 = .ok 1 ∧ LinZMF (one (6 : ℚ)) (rdArr #[1, 5]) 1 = .ok 0 ∧
    TriMF (one (2 : ℚ)) (rdArr #[1, 5, 6]) 1 = .ok (1 / 4) ∧ TrapMF (one (2 : ℚ)) (rdArr #[1, 2, 5, 6]) 1 = .ok 1 := by
  decide +kernel

/-- The Gaussian combination has no right tail: whatever the deviations, it is 1 at every input above both centres, and
between the centres it is the rising half of the second Gaussian instead of 1. -/
theorem C69_gauss2_false [Trans K] (s1 c1 s2 c2 x : K) (n : Nat) (h : c1 < x) :
    Gauss2MF (one x) (rdArr #[s1, c1, s2, c2]) n =
      .ok (if c2 < x then 1 else Trans.exp (-1 / 2 * ((x - c2) / s2) * ((x - c2) / s2))) := by
  simp only [Gauss2MF, GaussMF, one, rdArr, fLe]
  by_cases h2 : c2 < x
  · simp [not_le.mpr h, not_le.mpr h2, h2]
  · simp [not_le.mpr h, not_lt.mp h2, h2]

/-! ## C70 -/

/-- **C70** (linear) the consequent at the membership `x` is the point of `[a, b]` at which the set has the membership `x`. -/
theorem C70_linS (a b x : K) (n : Nat) (hab : a < b) (h0 : 0 ≤ x) (h1 : x ≤ 1) :
    ∃ z, TLinSMF (one x) (rdArr #[a, b]) n = .ok z ∧ a ≤ z ∧ z ≤ b ∧ LinSMF (one z) (rdArr #[a, b]) n = .ok x := by
  have hd : 0 < b - a := sub_pos.mpr hab
  refine ⟨(b - a) * x + a, by simp [TLinSMF, one, rdArr], by nlinarith, by nlinarith, ?_⟩
  rw [linS_eq a b _ n hab, if_neg (by nlinarith), if_neg (by nlinarith)]
  congr 1
  field_simp
  ring

/-- **C70** (sigmoid) with a logarithm inverse to the exponential. -/
theorem C70_sig [Trans K] (hexp : ∀ u : K, 0 < u → Trans.exp (Trans.log u) = u) (a c x : K) (n : Nat) (ha : a ≠ 0)
    (h0 : 0 < x) (h1 : x < 1) (hn0 : ¬ Near x 0) (hn1 : ¬ Near x 1) :
    ∃ z, TSigMF (one x) (rdArr #[a, c]) n = .ok z ∧ SigMF (one z) (rdArr #[a, c]) n = .ok x := by
  have e1 : isEqual x (lit 1) = false := by
    rw [Bool.eq_false_iff]; intro h; rw [isEqual_iff] at h; exact hn1 (by simpa using h)
  have e0 : isEqual x (lit 0) = false := by
    rw [Bool.eq_false_iff]; intro h; rw [isEqual_iff] at h; exact hn0 (by simpa using h)
  refine ⟨c - Trans.log (1 / x - 1) / a, ?_, ?_⟩
  · simp only [TSigMF, one, rdArr, if_true, Out.bind_ok, e1, e0]
    simp
  · have hpos : 0 < 1 / x - 1 := by
      rw [sub_pos, lt_div_iff₀ h0]; linarith
    have : -a * (c - Trans.log (1 / x - 1) / a - c) = Trans.log (1 / x - 1) := by field_simp; ring
    simp only [SigMF, one, rdArr, if_true, Out.bind_ok, fDiv, fAdd, fSub, fMul, fNeg, fLit, Rat.cast_one]
    simp only [List.size_toArray, List.length_cons, List.length_nil, zero_add, Nat.reduceAdd, Nat.zero_lt_succ,
      Nat.one_lt_two, dite_true, List.getElem_toArray, List.getElem_cons_zero, List.getElem_cons_succ, Out.bind_ok,
      Out.pure_eq, this, hexp _ hpos]
    congr 1
    field_simp
    ring

/-- **C70** (S curve, lower half) with a square root. -/
theorem C70_smf_partial [Trans K] (hs : ∀ u : K, 0 ≤ u → 0 ≤ Trans.sqrt u ∧ Trans.sqrt u * Trans.sqrt u = u)
    (a b x : K) (n : Nat) (hab : a < b) (h0 : 0 ≤ x) (h1 : x ≤ 1 / 2) :
    ∃ z, TSMF (one x) (rdArr #[a, b]) n = .ok z ∧ a ≤ z ∧ z ≤ b ∧ SMF (one z) (rdArr #[a, b]) n = .ok x := by
  have hd : 0 < b - a := sub_pos.mpr hab
  have hd0 : b - a ≠ 0 := ne_of_gt hd
  set D : K := 1 / 2 * (b - a) * (b - a) with hD
  have hDp : 0 ≤ D := by positivity
  obtain ⟨r0, r1⟩ := hs (x * D) (mul_nonneg h0 hDp)
  obtain ⟨q0, _⟩ := hs (-(x - 1) * D) (mul_nonneg (by linarith) hDp)
  set r := Trans.sqrt (x * D) with hr
  set q := Trans.sqrt (-(x - 1) * D) with hq
  have hrle : r ≤ (b - a) / 2 := by
    by_contra hc
    have hc := not_le.mp hc
    have : (b - a) / 2 * ((b - a) / 2) < r * r := by nlinarith
    rw [r1, hD] at this
    nlinarith [mul_pos hd hd]
  have hSa : sCurve a b (a + r) = x := by
    unfold sCurve
    by_cases hz : a + r ≤ a
    · rw [if_pos hz]
      have : r = 0 := le_antisymm (by linarith) r0
      rw [this, mul_zero] at r1
      rcases mul_eq_zero.mp r1.symm with h | h
      · exact h.symm
      · rw [hD] at h
        exact absurd h (by positivity)
    · rw [if_neg hz, if_neg (by intro h; linarith), if_pos (by linarith)]
      have : (a + r - a) / (b - a) = r / (b - a) := by congr 1; ring
      rw [this, div_pow, pow_two r, r1, hD]
      field_simp
  have hSb : sCurve a b (b + q) = 1 := by
    unfold sCurve
    rw [if_neg (by intro h; linarith), if_pos (by linarith)]
  have hma : SMF (tmpPtr (a + r)) (rdArr #[a, b]) n = .ok x := by
    rw [SMF_eq (tmpPtr (a + r)) _ n ⟨lit (-1), lit 1, a + r⟩ a b rfl rfl rfl, hSa]
  have hmb : SMF (tmpPtr (b + q)) (rdArr #[a, b]) n = .ok 1 := by
    rw [SMF_eq (tmpPtr (b + q)) _ n ⟨lit (-1), lit 1, b + q⟩ a b rfl rfl rfl, hSb]
  refine ⟨a + r, ?_, by linarith, by linarith, by
    rw [SMF_eq (one (a + r)) _ n ⟨0, 1, a + r⟩ a b rfl rfl rfl, hSa]⟩
  have half : lit (1 / 2) *. (b -. a) *. (b -. a) = D := by simp [hD]
  unfold TSMF
  simp only [one, if_true, Out.bind_ok]
  rw [show rdArr #[a, b] 0 = Out.ok a from rfl, show rdArr #[a, b] 1 = Out.ok b from rfl]
  simp only [Out.bind_ok, half]
  have g1 : a +. Trans.sqrt (x *. D) = a + r := rfl
  have g2 : b +. Trans.sqrt ((-. (x -. lit 1)) *. D) = b + q := by
    simp [hq]
  rw [g1, g2, hma]
  simp only [Out.bind_ok]
  rw [hmb]
  simp only [Out.bind_ok, fAbs, fSub, fLt, sub_self, abs_zero, decide_eq_true_eq, Out.pure_eq]
  rw [if_pos (abs_pos.mpr (by intro h; linarith))]

/-- In the upper half `TSMF` is not the inverse of `SMF`: for the membership 49 / 50 and the curve from 0 to 1 it
gives 11 / 10, where the curve is 1. -/
theorem C70_smf_false [Trans K] (h1 : Trans.sqrt (49 / 100 : K) = 7 / 10) (h2 : Trans.sqrt (1 / 100 : K) = 1 / 10) (n : Nat) :
    TSMF (one (49 / 50 : K)) (rdArr #[0, 1]) n = .ok (11 / 10) ∧ SMF (one (11 / 10 : K)) (rdArr #[0, 1]) n = .ok 1 := by
  have hma : SMF (tmpPtr (0 + 7 / 10 : K)) (rdArr #[0, 1]) n = .ok (82 / 100) := by
    rw [SMF_eq (tmpPtr (0 + 7 / 10 : K)) (rdArr #[0, 1]) n ⟨lit (-1), lit 1, 0 + 7 / 10⟩ (0 : K) 1 rfl rfl rfl]
    norm_num [sCurve]
  have hmb : SMF (tmpPtr (1 + 1 / 10 : K)) (rdArr #[0, 1]) n = .ok 1 := by
    rw [SMF_eq (tmpPtr (1 + 1 / 10 : K)) (rdArr #[0, 1]) n ⟨lit (-1), lit 1, 1 + 1 / 10⟩ (0 : K) 1 rfl rfl rfl]
    norm_num [sCurve]
  refine ⟨?_, by rw [SMF_eq (one (11 / 10 : K)) (rdArr #[0, 1]) n ⟨0, 1, 11 / 10⟩ (0 : K) 1 rfl rfl rfl]; norm_num [sCurve]⟩
  unfold TSMF
  simp only [one, if_true, Out.bind_ok]
  rw [show rdArr #[(0 : K), 1] 0 = Out.ok 0 from rfl, show rdArr #[(0 : K), 1] 1 = Out.ok 1 from rfl]
  simp only [Out.bind_ok]
  have g1 : (0 : K) +. Trans.sqrt ((49 / 50 : K) *. (lit (1 / 2) *. (1 -. 0) *. (1 -. 0))) = 0 + 7 / 10 := by
    simp only [fAdd, fMul, fSub, fLit]
    rw [← h1]; congr 2; norm_num
  have g2 : (1 : K) +. Trans.sqrt ((-. ((49 / 50 : K) -. lit 1)) *. (lit (1 / 2) *. (1 -. 0) *. (1 -. 0))) = 1 + 1 / 10 := by
    simp only [fAdd, fMul, fSub, fLit, fNeg]
    rw [← h2]; congr 2; norm_num
  rw [g1, g2, hma]
  simp only [Out.bind_ok]
  rw [hmb]
  simp only [Out.bind_ok, fAbs, fSub, fLt, decide_eq_true_eq, Out.pure_eq]
  rw [if_neg (by norm_num [abs_of_pos])]
  norm_num

/-- `TZMF` compares with the S curve instead of the Z curve: for the membership 49 / 50 and the curve from 0 to 1 it gives
17 / 10, where the Z curve is 0. -/
theorem C70_zmf_false [Trans K] (h1 : Trans.sqrt (49 / 100 : K) = 7 / 10) (h2 : Trans.sqrt (1 / 100 : K) = 1 / 10) (n : Nat) :
    TZMF (one (49 / 50 : K)) (rdArr #[0, 1]) n = .ok (17 / 10) ∧ ZMF (one (17 / 10 : K)) (rdArr #[0, 1]) n = .ok 0 := by
  have hma : SMF (tmpPtr (0 + 1 / 10 : K)) (rdArr #[0, 1]) n = .ok (1 / 50) := by
    rw [SMF_eq (tmpPtr (0 + 1 / 10 : K)) (rdArr #[0, 1]) n ⟨lit (-1), lit 1, 0 + 1 / 10⟩ (0 : K) 1 rfl rfl rfl]
    norm_num [sCurve]
  have hmb : SMF (tmpPtr (1 + 7 / 10 : K)) (rdArr #[0, 1]) n = .ok 1 := by
    rw [SMF_eq (tmpPtr (1 + 7 / 10 : K)) (rdArr #[0, 1]) n ⟨lit (-1), lit 1, 1 + 7 / 10⟩ (0 : K) 1 rfl rfl rfl]
    norm_num [sCurve]
  refine ⟨?_, by rw [ZMF_eq (one (17 / 10 : K)) (rdArr #[0, 1]) n ⟨0, 1, 17 / 10⟩ (0 : K) 1 rfl rfl rfl]; norm_num [sCurve]⟩
  unfold TZMF
  simp only [one, if_true, Out.bind_ok]
  rw [show rdArr #[(0 : K), 1] 0 = Out.ok 0 from rfl, show rdArr #[(0 : K), 1] 1 = Out.ok 1 from rfl]
  simp only [Out.bind_ok]
  have g1 : (0 : K) +. Trans.sqrt ((-. ((49 / 50 : K) -. lit 1)) *. (lit (1 / 2) *. (1 -. 0) *. (1 -. 0))) = 0 + 1 / 10 := by
    simp only [fAdd, fMul, fSub, fLit, fNeg]
    rw [← h2]; congr 2; norm_num
  have g2 : (1 : K) +. Trans.sqrt ((49 / 50 : K) *. (lit (1 / 2) *. (1 -. 0) *. (1 -. 0))) = 1 + 7 / 10 := by
    simp only [fAdd, fMul, fSub, fLit]
    rw [← h1]; congr 2; norm_num
  rw [g1, g2, hma]
  simp only [Out.bind_ok]
  rw [hmb]
  simp only [Out.bind_ok, fAbs, fSub, fLt, decide_eq_true_eq, Out.pure_eq]
  rw [if_neg (by norm_num [abs_of_pos])]
  norm_num

/-- `TConcaveMF` is not the inverse of `ConcaveMF` but the identity below `e`. -/
theorem C70_concave_false (i e x : K) (n : Nat) (hie : i < e) (hx : x < e) :
    TConcaveMF (one x) (rdArr #[i, e]) n = .ok x := by
  have h1 : e - i ≠ 0 := sub_ne_zero.mpr (ne_of_gt hie)
  have h2 : 2 * e - i - x ≠ 0 := by
    have : 0 < 2 * e - i - x := by linarith
    exact ne_of_gt this
  have hc : ConcaveMF (one x) (rdArr #[i, e]) n = .ok ((e - i) / (2 * e - i - x)) := by
    simp [ConcaveMF, one, rdArr, hie.le, hx]
  unfold TConcaveMF
  rw [show rdArr #[i, e] 0 = Out.ok i from rfl, show rdArr #[i, e] 1 = Out.ok e from rfl, hc]
  simp only [Out.bind_ok, fDiv, fSub, fAdd, fMul, fLit, Out.pure_eq]
  congr 1
  push_cast
  field_simp
  ring

omit [IsStrictOrderedRing K] in
/-- `TLinZMF` and `TLinSMF` are the same function: the consequent that should decrease with the strength increases. -/
theorem C70_linZ_false (a b x : K) (n : Nat) :
    TLinZMF (one x) (rdArr #[a, b]) n = TLinSMF (one x) (rdArr #[a, b]) n := by
  simp [TLinZMF, TLinSMF, one, rdArr]
  ring

end field

/-- The consequents of a Tsukamoto system are evaluated at the first input instead of at the strength of the rule: one rule
with strength 1 / 2 and the consequent `tlinsmf(0, 10)`, whose value at that strength is 5, gives 10 times the input
(2 here). -/
theorem C70_strength_false :
    (fun s => s.xOutput.toList.map (fun o => o.io.value)) <$>
      deFuzzify { sugeno (program [⟨⟨0, 0, false⟩, [], ⟨0, 0, false⟩, []⟩]) 1 [1 / 2] .wtaver with
        kind := .tsukamoto, outMF := #[⟨some TLinSMF, #[0, 10], 0, 1, 0⟩] } = .ok [20, 0] ∧
    TLinSMF (one (1 / 2 : ℚ)) (rdArr #[0, 10]) 1 = .ok 5 := by
  decide +kernel

end Verif.Fis
