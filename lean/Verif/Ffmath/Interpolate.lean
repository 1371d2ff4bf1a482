import Verif.Ffmath.FloatLemmas

/-! # `ffmath::midpoint` and `ffmath::lerp` in IEEE arithmetic (C73, C74) -/

namespace Verif.Ffmath
open Verif F32

theorem hi_val : Finite (mul (lit 0.5) fltMax) ∧
    val (mul (lit 0.5) fltMax) = 16777215 * 2 ^ (103 : ℤ) := by decide +kernel

theorem lo_val : Finite (mul (lit 2) fltMin) ∧ val (mul (lit 2) fltMin) = 2 ^ (-125 : ℤ) := by
  decide +kernel

/-- Between, for ordered arguments. -/
theorem midpoint_ordered {a b : BitVec 32} (ha : Finite a) (hb : Finite b) (hab : val a ≤ val b) :
    Finite (midpoint a b) ∧ val a ≤ val (midpoint a b) ∧ val (midpoint a b) ≤ val b := by
  unfold midpoint
  simp only
  rw [le_fin (absolute_finite.2 ha) hi_val.1, le_fin (absolute_finite.2 hb) hi_val.1,
    lt_fin (absolute_finite.2 ha) lo_val.1, lt_fin (absolute_finite.2 hb) lo_val.1,
    absolute_val, absolute_val, hi_val.2, lo_val.2]
  by_cases c1 : |val a| ≤ 16777215 * 2 ^ (103 : ℤ) ∧ |val b| ≤ 16777215 * 2 ^ (103 : ℤ)
  · rw [if_pos (by simpa using c1)]
    obtain ⟨a2, fa2, va2⟩ := double_exists ha c1.1
    obtain ⟨b2, fb2, vb2⟩ := double_exists hb c1.2
    obtain ⟨fs, s1, s2⟩ := add_btw ha hb fa2 fb2 (by linarith) (by linarith)
    exact mul_btw fin_half fs ha hb (by rw [val_half]; linarith) (by rw [val_half]; linarith)
  · rw [if_neg (by simpa using c1)]
    have big : (2 : ℚ) ^ (-125 : ℤ) ≤ 16777215 * 2 ^ (103 : ℤ) := by norm_num
    by_cases c2 : |val a| < 2 ^ (-125 : ℤ)
    · rw [if_pos (by simpa using c2)]
      have hb2 : 16777215 * 2 ^ (103 : ℤ) < |val b| := by
        by_contra h; exact c1 ⟨(c2.le.trans big), not_lt.1 h⟩
      obtain ⟨fh, vh⟩ := half_exact hb (by linarith)
      rw [abs_lt] at c2
      have big2 : (2 : ℚ) ^ (-125 : ℤ) ≤ 16777215 * 2 ^ (103 : ℤ) / 2 := by norm_num
      have hp : 0 < val b := by
        rcases lt_abs.1 hb2 with h | h
        · linarith
        · linarith
      rw [abs_of_pos hp] at hb2
      generalize (2 : ℚ) ^ (-125 : ℤ) = p at *
      generalize (16777215 : ℚ) * 2 ^ (103 : ℤ) = q at *
      exact add_btw ha fh ha hb (by rw [vh]; linarith) (by rw [vh]; linarith)
    · rw [if_neg (by simpa using c2)]
      by_cases c3 : |val b| < 2 ^ (-125 : ℤ)
      · rw [if_pos (by simpa using c3)]
        have ha2 : 16777215 * 2 ^ (103 : ℤ) < |val a| := by
          by_contra h; exact c1 ⟨not_lt.1 h, (c3.le.trans big)⟩
        obtain ⟨fh, vh⟩ := half_exact ha (by linarith)
        rw [abs_lt] at c3
        have big2 : (2 : ℚ) ^ (-125 : ℤ) ≤ 16777215 * 2 ^ (103 : ℤ) / 2 := by norm_num
        have hp : val a < 0 := by
          rcases lt_abs.1 ha2 with h | h
          · linarith
          · linarith
        rw [abs_of_neg hp] at ha2
        generalize (2 : ℚ) ^ (-125 : ℤ) = p at *
        generalize (16777215 : ℚ) * 2 ^ (103 : ℤ) = q at *
        exact add_btw fh hb ha hb (by rw [vh]; linarith) (by rw [vh]; linarith)
      · rw [if_neg (by simpa using c3)]
        obtain ⟨fh, vh⟩ := half_exact ha (not_lt.1 c2)
        obtain ⟨fh', vh'⟩ := half_exact hb (not_lt.1 c3)
        exact add_btw fh fh' ha hb (by rw [vh, vh']; linarith) (by rw [vh, vh']; linarith)

/-- **C73** `midpoint` is symmetric, for every pair of patterns (NaN and infinities included). -/
theorem C73_comm (a b : BitVec 32) : midpoint a b = midpoint b a := by
  unfold midpoint
  simp only
  rw [Bool.and_comm, F32.add_comm b a, F32.add_comm b (mul _ a), F32.add_comm (mul _ b) a,
    F32.add_comm (mul _ b) (mul _ a)]
  by_cases c1 : (F32.le (absolute b) (mul (lit 0.5) fltMax) &&
      F32.le (absolute a) (mul (lit 0.5) fltMax)) = true
  · rw [if_pos c1, if_pos c1]
  · rw [if_neg c1, if_neg c1]
    by_cases c2 : F32.lt (absolute a) (mul (lit 2) fltMin) = true <;>
      by_cases c3 : F32.lt (absolute b) (mul (lit 2) fltMin) = true
    · -- both tiny: the first branch would have been taken
      exfalso; apply c1
      have le_of : ∀ x : BitVec 32, F32.lt x (mul (lit 2) fltMin) = true →
          F32.le x (mul (lit 0.5) fltMax) = true := by
        intro x h
        have h' := of_decide_eq_true (show decide (¬ IsNaN x ∧ ¬ IsNaN (mul (lit 2) fltMin) ∧
          key x < key (mul (lit 2) fltMin)) = true from h)
        have k : key (mul (lit 2) fltMin) ≤ key (mul (lit 0.5) fltMax) := by decide +kernel
        exact decide_eq_true (⟨h'.1, hi_val.1.notNaN, by omega⟩ : ¬ IsNaN x ∧
          ¬ IsNaN (mul (lit 0.5) fltMax) ∧ key x ≤ key (mul (lit 0.5) fltMax))
      rw [le_of _ c2, le_of _ c3]; rfl
    · rw [if_pos c2, if_neg c3, if_pos c2]
    · rw [if_neg c2, if_pos c3, if_pos c3]
    · rw [if_neg c2, if_neg c3, if_neg c3, if_neg c2]

/-- **C73** For all finite arguments the result is finite and lies between them: no overflow, and
rounding never leaves the interval. -/
theorem C73_between (a b : BitVec 32) (ha : Finite a) (hb : Finite b) :
    Finite (midpoint a b) ∧ min (val a) (val b) ≤ val (midpoint a b) ∧
    val (midpoint a b) ≤ max (val a) (val b) := by
  rcases le_total (val a) (val b) with h | h
  · rw [min_eq_left h, max_eq_right h]; exact midpoint_ordered ha hb h
  · rw [min_eq_right h, max_eq_left h, C73_comm]; exact midpoint_ordered hb ha h

/-- **C73** Accuracy: within half an ulp of the exact mean, up to `2^-125` absolute. -/
theorem C73_accuracy (a b : BitVec 32) (ha : Finite a) (hb : Finite b) :
    |val (midpoint a b) - (val a + val b) / 2| ≤
      |(val a + val b) / 2| * 2 ^ (-24 : ℤ) + 2 ^ (-125 : ℤ) := by
  -- the branches with one tiny argument
  have tiny : ∀ a b : BitVec 32, Finite a → Finite b → |val a| < 2 ^ (-125 : ℤ) →
      2 ^ (-125 : ℤ) ≤ |val b| → Finite (add a (mul (lit 0.5) b)) →
      |val (add a (mul (lit 0.5) b)) - (val a + val b) / 2| ≤
        |(val a + val b) / 2| * 2 ^ (-24 : ℤ) + 2 ^ (-125 : ℤ) := by
    intro a b ha hb h1 h2 hf
    obtain ⟨fh, vh⟩ := half_exact hb h2
    have e := add_err ha fh hf
    rw [vh] at e
    have e' := e.trans (max_le_add' (by positivity) (by positivity))
    have t1 : |val a + val b / 2| ≤ |(val a + val b) / 2| + |val a| / 2 := by
      calc |val a + val b / 2| = |(val a + val b) / 2 + val a / 2| := by congr 1; ring
        _ ≤ |(val a + val b) / 2| + |val a / 2| := abs_add_le _ _
        _ = _ := by rw [abs_div (val a)]; norm_num
    have t2 : |val (add a (mul (lit 0.5) b)) - (val a + val b) / 2| ≤
        |val (add a (mul (lit 0.5) b)) - (val a + val b / 2)| + |val a| / 2 := by
      calc _ = |(val (add a (mul (lit 0.5) b)) - (val a + val b / 2)) + val a / 2| := by
            congr 1; ring
        _ ≤ _ + |val a / 2| := abs_add_le _ _
        _ = _ := by rw [abs_div (val a)]; norm_num
    have t3 : |val a + val b / 2| * (2 : ℚ) ^ (-24 : ℤ) ≤
        (|(val a + val b) / 2| + |val a| / 2) * 2 ^ (-24 : ℤ) :=
      mul_le_mul_of_nonneg_right t1 (two_zpow_pos _).le
    have c1 : (2 : ℚ) ^ (-125 : ℤ) / 2 * 2 ^ (-24 : ℤ) + 2 ^ (-150 : ℤ) + 2 ^ (-125 : ℤ) / 2 ≤
        2 ^ (-125 : ℤ) := by norm_num
    have c2 : |val a| / 2 * (2 : ℚ) ^ (-24 : ℤ) ≤ (2 : ℚ) ^ (-125 : ℤ) / 2 * 2 ^ (-24 : ℤ) :=
      mul_le_mul_of_nonneg_right (div_le_div_of_nonneg_right h1.le (by norm_num))
        (two_zpow_pos _).le
    have h1' := div_le_div_of_nonneg_right h1.le (by norm_num : (0 : ℚ) ≤ 2)
    rw [add_mul] at t3
    generalize (2 : ℚ) ^ (-125 : ℤ) = p at *
    generalize (2 : ℚ) ^ (-150 : ℤ) = r at *
    generalize (2 : ℚ) ^ (-24 : ℤ) = s at *
    linarith
  have hfin := (C73_between a b ha hb).1
  revert hfin
  unfold midpoint
  simp only
  rw [le_fin (absolute_finite.2 ha) hi_val.1, le_fin (absolute_finite.2 hb) hi_val.1,
    lt_fin (absolute_finite.2 ha) lo_val.1, lt_fin (absolute_finite.2 hb) lo_val.1,
    absolute_val, absolute_val, hi_val.2, lo_val.2]
  have big : (2 : ℚ) ^ (-125 : ℤ) ≤ 16777215 * 2 ^ (103 : ℤ) := by norm_num
  by_cases c1 : |val a| ≤ 16777215 * 2 ^ (103 : ℤ) ∧ |val b| ≤ 16777215 * 2 ^ (103 : ℤ)
  · rw [if_pos (by simpa using c1)]
    intro hf
    have fs : Finite (add a b) := by
      have : |val a + val b| ≤ val fltMax := by
        have e : (16777215 : ℚ) * 2 ^ (104 : ℤ) = 2 * (16777215 * 2 ^ (103 : ℤ)) := by norm_num
        rw [val_fltMax]
        have := abs_add_le (val a) (val b)
        linarith [c1.1, c1.2]
      rw [abs_le] at this
      exact (add_btw ha hb (finite_negate.2 fin_fltMax) fin_fltMax (by rw [val_negate]; exact this.1)
        this.2).1
    have e1 := (add_err ha hb fs).trans (max_le_add' (by positivity) (by positivity))
    -- halving: exact, or an absolute error of `2^-150`
    have e2 : |val (mul (lit 0.5) (add a b)) - val (add a b) / 2| ≤ 2 ^ (-149 : ℤ) := by
      by_cases hs : 2 ^ (-125 : ℤ) ≤ |val (add a b)|
      · rw [(half_exact fs hs).2, sub_self, abs_zero]; positivity
      · have := mul_err fin_half fs hf
        rw [val_half] at this
        rw [show val (add a b) / 2 = 1 / 2 * val (add a b) by ring]
        refine this.trans (max_le ?_ (by norm_num))
        rw [abs_mul]
        have h1 : |val (add a b)| ≤ 2 ^ (-125 : ℤ) := (not_le.1 hs).le
        have h2 : |(1 : ℚ) / 2| * |val (add a b)| * (2 : ℚ) ^ (-24 : ℤ) ≤
            |(1 : ℚ) / 2| * 2 ^ (-125 : ℤ) * 2 ^ (-24 : ℤ) := by gcongr
        refine h2.trans ?_
        rw [abs_of_pos (by norm_num : (0 : ℚ) < 1 / 2)]; norm_num
    have t : |val (mul (lit 0.5) (add a b)) - (val a + val b) / 2| ≤
        |val (mul (lit 0.5) (add a b)) - val (add a b) / 2| +
        |val (add a b) - (val a + val b)| / 2 := by
      calc _ = |(val (mul (lit 0.5) (add a b)) - val (add a b) / 2) +
              (val (add a b) - (val a + val b)) / 2| := by congr 1; ring
        _ ≤ _ + |(val (add a b) - (val a + val b)) / 2| := abs_add_le _ _
        _ = _ := by rw [abs_div (val (add a b) - _)]; norm_num
    have e3 : |(val a + val b) / 2| = |val a + val b| / 2 := by rw [abs_div]; norm_num
    have c : (2 : ℚ) ^ (-149 : ℤ) + 2 ^ (-150 : ℤ) / 2 ≤ 2 ^ (-125 : ℤ) := by norm_num
    rw [e3]
    generalize (2 : ℚ) ^ (-125 : ℤ) = p at *
    generalize (2 : ℚ) ^ (-150 : ℤ) = r at *
    generalize (2 : ℚ) ^ (-24 : ℤ) = s at *
    generalize (2 : ℚ) ^ (-149 : ℤ) = r' at *
    linarith
  · rw [if_neg (by simpa using c1)]
    by_cases c2 : |val a| < 2 ^ (-125 : ℤ)
    · rw [if_pos (by simpa using c2)]
      have hb2 : 2 ^ (-125 : ℤ) ≤ |val b| := by
        by_contra h; exact c1 ⟨(c2.le.trans big), (not_le.1 h).le.trans big⟩
      exact tiny a b ha hb c2 hb2
    · rw [if_neg (by simpa using c2)]
      by_cases c3 : |val b| < 2 ^ (-125 : ℤ)
      · rw [if_pos (by simpa using c3), F32.add_comm, _root_.add_comm (val a)]
        exact tiny b a hb ha c3 (not_lt.1 c2)
      · rw [if_neg (by simpa using c3)]
        intro hf
        obtain ⟨fh, vh⟩ := half_exact ha (not_lt.1 c2)
        obtain ⟨fh', vh'⟩ := half_exact hb (not_lt.1 c3)
        have e := add_err fh fh' hf
        rw [vh, vh', ← add_div] at e
        refine (e.trans (max_le_add' (by positivity) (by positivity))).trans ?_
        have : (2 : ℚ) ^ (-150 : ℤ) ≤ 2 ^ (-125 : ℤ) := by norm_num
        linarith

example : midpoint 0x7F7FFFFF#32 0x7F000000#32 = 0x7F400000#32 := by decide +kernel
example : midpoint (lit 1) (lit 4) = lit 2.5 := by decide +kernel

/-! ### `lerp` -/

/-- **C74** For finite end points and `t` in `[0, 1]` the result is finite and lies between the
end points, for every rounding that occurs. -/
theorem C74_between (a b t : BitVec 32) (ha : Finite a) (hb : Finite b) (ht : Finite t)
    (h0 : 0 ≤ val t) (h1 : val t ≤ 1) :
    Finite (lerp a b t) ∧ min (val a) (val b) ≤ val (lerp a b t) ∧
    val (lerp a b t) ≤ max (val a) (val b) := by
  -- `1 - t` is in `[0, 1]`
  obtain ⟨fo, o1, o2⟩ := sub_btw fin_one ht fin_zero fin_one (by rw [val_zero, val_one]; linarith)
    (by rw [val_one]; linarith)
  rw [val_zero] at o1
  rw [val_one] at o2
  unfold lerp
  rw [le_fin ha fin_zero, le_fin fin_zero hb, le_fin fin_zero ha, le_fin hb fin_zero, val_zero]
  split
  · rename_i h
    have h' : (val a ≤ 0 ∧ 0 ≤ val b) ∨ (0 ≤ val a ∧ val b ≤ 0) := by simpa using h
    rcases h' with ⟨p, q⟩ | ⟨p, q⟩
    · rw [min_eq_left (p.trans q), max_eq_right (p.trans q)]
      obtain ⟨f1, x1, x2⟩ := mul_btw ht hb fin_zero hb (by rw [val_zero]; positivity)
        (by nlinarith)
      obtain ⟨f2, y1, y2⟩ := mul_btw ha fo ha fin_zero (by nlinarith)
        (by rw [val_zero]; nlinarith)
      rw [val_zero] at x1 y2
      exact add_btw f1 f2 ha hb (by linarith) (by linarith)
    · rw [min_eq_right (q.trans p), max_eq_left (q.trans p)]
      obtain ⟨f1, x1, x2⟩ := mul_btw ht hb hb fin_zero (by nlinarith)
        (by rw [val_zero]; nlinarith)
      obtain ⟨f2, y1, y2⟩ := mul_btw ha fo fin_zero ha (by rw [val_zero]; positivity)
        (by nlinarith)
      rw [val_zero] at x2 y1
      exact add_btw f1 f2 hb ha (by linarith) (by linarith)
  · rename_i h
    have hs : (0 < val a ∧ 0 < val b) ∨ (val a < 0 ∧ val b < 0) := by
      have h' : ¬ ((val a ≤ 0 ∧ 0 ≤ val b) ∨ (0 ≤ val a ∧ val b ≤ 0)) := by simpa using h
      rcases lt_trichotomy (val a) 0 with p | p | p <;>
        rcases lt_trichotomy (val b) 0 with q | q | q
      · exact .inr ⟨p, q⟩
      · exact absurd (.inl ⟨p.le, q.ge⟩) h'
      · exact absurd (.inl ⟨p.le, q.le⟩) h'
      · exact absurd (.inr ⟨p.ge, q.le⟩) h'
      · exact absurd (.inr ⟨p.ge, q.le⟩) h'
      · exact absurd (.inl ⟨p.le, q.le⟩) h'
      · exact absurd (.inr ⟨p.le, q.le⟩) h'
      · exact absurd (.inr ⟨p.le, q.le⟩) h'
      · exact .inl ⟨p, q⟩
    split
    · exact ⟨hb, min_le_right _ _, le_max_right _ _⟩
    · -- `b - a` does not overflow as the signs agree
      have fd : Finite (sub b a) := by
        rcases hs with ⟨p, q⟩ | ⟨p, q⟩
        · refine (sub_btw hb ha (finite_negate.2 ha) hb ?_ ?_).1
          · rw [val_negate]; linarith
          · linarith
        · refine (sub_btw hb ha hb (finite_negate.2 ha) ?_ ?_).1
          · linarith
          · rw [val_negate]; linarith
      have ht1 : F32.lt (lit 1) t = false := by
        rw [lt_fin fin_one ht, val_one]; exact decide_eq_false (not_lt.2 h1)
      rw [ht1]
      rw [lt_fin ha hb]
      by_cases hab : val a < val b
      · rw [min_eq_left hab.le, max_eq_right hab.le, decide_eq_true hab, if_neg (by simp)]
        have d1 : val (lit 0) ≤ val (sub b a) := by
          rw [sub_fin hb ha]; exact le_rnd fin_zero (by rw [val_zero]; linarith)
        rw [val_zero] at d1
        obtain ⟨fm, m1, _⟩ := mul_btw ht fd fin_zero fd (by rw [val_zero]; positivity)
          (by nlinarith)
        rw [val_zero] at m1
        split
        · rename_i hx
          refine finite_between ha hb ?_ (lt_key hx).le
          rw [← val_le_iff, add_fin ha fm]
          exact le_rnd ha (by linarith)
        · exact ⟨hb, hab.le, le_refl _⟩
      · have hba := not_lt.1 hab
        rw [min_eq_right hba, max_eq_left hba, decide_eq_false hab, if_pos (by simp)]
        have d1 : val (sub b a) ≤ val (lit 0) := by
          rw [sub_fin hb ha]; exact rnd_le fin_zero (by rw [val_zero]; linarith)
        rw [val_zero] at d1
        obtain ⟨fm, _, m1⟩ := mul_btw ht fd fd fin_zero (by nlinarith)
          (by rw [val_zero]; nlinarith)
        rw [val_zero] at m1
        split
        · rename_i hx
          refine finite_between hb ha (lt_key hx).le ?_
          rw [← val_le_iff, add_fin ha fm]
          exact rnd_le ha (by linarith)
        · exact ⟨hb, le_refl _, hba⟩

theorem isEqual_one_zero {t : BitVec 32} (ht : Finite t) (h : val t = 0) :
    isEqual t (lit 1) = false := by
  have hs := sub_exact ht fin_one (finite_negate.2 fin_one) (by rw [val_negate, val_one, h]; norm_num)
  unfold isEqual isEqualTol
  rw [lit_tol, le_fin (absolute_finite.2 hs.1) (absolute_finite.2 fin_fltMin), absolute_val,
    absolute_val, hs.2, val_negate, val_one, val_fltMin]
  apply decide_eq_false
  rw [abs_of_pos (two_zpow_pos _)]
  norm_num

theorem isEqual_one_one {t : BitVec 32} (ht : Finite t) (h : val t = 1) :
    isEqual t (lit 1) = true := by
  have hs := sub_exact ht fin_one fin_zero (by rw [val_zero, val_one, h]; norm_num)
  unfold isEqual isEqualTol
  rw [lit_tol, le_fin (absolute_finite.2 hs.1) (absolute_finite.2 fin_fltMin), absolute_val,
    absolute_val, hs.2, val_zero, val_fltMin]
  apply decide_eq_true
  simp

/-- **C74** `t = 0` gives exactly the first end point. -/
theorem C74_zero (a b t : BitVec 32) (ha : Finite a) (hb : Finite b) (ht : Finite t)
    (h : val t = 0) : Finite (lerp a b t) ∧ val (lerp a b t) = val a := by
  have o := sub_exact fin_one ht fin_one (by rw [h]; ring)
  have tb := mul_exact ht hb fin_zero (by rw [h, val_zero]; ring)
  have ao := mul_exact ha o.1 ha (by rw [o.2, val_one]; ring)
  unfold lerp
  split
  · have := add_exact tb.1 ao.1 ha (by rw [tb.2, ao.2, val_zero]; ring)
    exact this
  · rename_i hs
    rw [isEqual_one_zero ht h, if_neg (by simp)]
    rw [le_fin ha fin_zero, le_fin fin_zero hb, le_fin fin_zero ha, le_fin hb fin_zero,
      val_zero] at hs
    have h' : ¬ ((val a ≤ 0 ∧ 0 ≤ val b) ∨ (0 ≤ val a ∧ val b ≤ 0)) := by simpa using hs
    have fd : Finite (sub b a) := by
      rcases le_total (val a) 0 with p | p
      · have q : val b < 0 := by
          by_contra q; exact h' (.inl ⟨p, not_lt.1 q⟩)
        refine (sub_btw hb ha hb (finite_negate.2 ha) ?_ ?_).1
        · linarith
        · rw [val_negate]; linarith
      · have q : 0 < val b := by
          by_contra q; exact h' (.inr ⟨p, not_lt.1 q⟩)
        refine (sub_btw hb ha (finite_negate.2 ha) hb ?_ ?_).1
        · rw [val_negate]; linarith
        · linarith
    have td := mul_exact ht fd fin_zero (by rw [h, val_zero]; ring)
    have x := add_exact ha td.1 ha (by rw [td.2, val_zero]; ring)
    have ht1 : F32.lt (lit 1) t = false := by
      rw [lt_fin fin_one ht, val_one, h]; exact decide_eq_false (by norm_num)
    simp only
    rw [ht1, lt_fin ha hb, lt_fin hb x.1, lt_fin x.1 hb, x.2]
    by_cases hab : val a < val b
    · rw [decide_eq_true hab, if_neg (by simp), if_pos rfl]; exact x
    · rw [decide_eq_false hab, if_pos (by simp)]
      split
      · exact x
      · rename_i hba
        have : val b = val a := by
          have : ¬ val b < val a := by simpa using hba
          linarith
        exact ⟨hb, this⟩

/-- **C74** `t = 1` gives exactly the second end point. -/
theorem C74_one (a b t : BitVec 32) (ha : Finite a) (hb : Finite b) (ht : Finite t)
    (h : val t = 1) : Finite (lerp a b t) ∧ val (lerp a b t) = val b := by
  have o := sub_exact fin_one ht fin_zero (by rw [h, val_zero, val_one]; ring)
  have tb := mul_exact ht hb hb (by rw [h]; ring)
  have ao := mul_exact ha o.1 fin_zero (by rw [o.2, val_zero]; ring)
  unfold lerp
  split
  · exact add_exact tb.1 ao.1 hb (by rw [tb.2, ao.2, val_zero]; ring)
  · rw [isEqual_one_one ht h, if_pos rfl]; exact ⟨hb, rfl⟩

/-- **C74** Extrapolation never falls back behind the second end point: with `t > 1` and end
points of the same sign the result is at or beyond `b`, infinite on overflow. -/
theorem C74_extrapolate (a b t : BitVec 32) (ha : Finite a) (hb : Finite b)
    (h : F32.lt (lit 1) t = true) (hs : 0 < val a * val b) :
    (val a < val b → F32.le b (lerp a b t) = true) ∧
    (val b < val a → F32.le (lerp a b t) b = true) := by
  have hrefl : F32.le b b = true := by
    rw [le_fin hb hb]; exact decide_eq_true (le_refl _)
  have of_lt : ∀ {x y : BitVec 32}, F32.lt x y = true → F32.le x y = true :=
    fun h => LawfulOrd.le_of_lt (R := BitVec 32) h
  have hsg : ((F32.le a (lit 0) && F32.le (lit 0) b) || (F32.le (lit 0) a && F32.le b (lit 0)))
      = false := by
    rw [le_fin ha fin_zero, le_fin fin_zero hb, le_fin fin_zero ha, le_fin hb fin_zero, val_zero]
    rcases pos_and_pos_or_neg_and_neg_of_mul_pos hs with ⟨p, q⟩ | ⟨p, q⟩
    · simp [not_le.2 p, not_le.2 q]
    · simp [not_le.2 p, not_le.2 q]
  unfold lerp
  rw [hsg, h, if_neg (by simp), lt_fin ha hb]
  constructor
  · intro hab
    split
    · exact hrefl
    · rw [decide_eq_true hab]
      simp only
      rw [if_pos (by simp)]
      split
      · rename_i hx; exact of_lt hx
      · exact hrefl
  · intro hba
    split
    · exact hrefl
    · rw [decide_eq_false (not_lt.2 hba.le)]
      simp only
      rw [if_neg (by simp)]
      split
      · rename_i hx; exact of_lt hx
      · exact hrefl

example : lerp (lit 1) (lit 3) (lit 0.25) = lit 1.5 := by decide +kernel
example : lerp (lit (-1)) (lit 3) (lit 0.25) = lit 0 := by decide +kernel
example : 0 ≤ val (lit 0.25) ∧ val (lit 0.25) ≤ 1 := by decide +kernel
example : F32.lt (lit 1) (lit 2) = true ∧ 0 < val (lit 1) * val (lit 3) := by decide +kernel

end Verif.Ffmath
