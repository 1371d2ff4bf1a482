import Verif.Ffmath.Expint

/-!
# The sign of the exponential integral between -1 and 0 (C107, negation)
-/

namespace Verif.Ffmath

open Verif F32

/-- `Ei` is negative on `[-1, 0)`. -/
theorem ei_neg {x : ℝ} (h1 : -1 ≤ x) (h2 : x < 0) : eiR x ≤ -0.09 := by
  have hs := ein_summable x
  have hs1 := ein_summable 1
  have e1 : einR 1 ≤ 1.327 := by
    refine (einR_le (by norm_num) 5 (by norm_num)).trans ?_
    simp only [einS, Finset.sum_range_succ, Finset.sum_range_zero]
    norm_num [Nat.factorial]
  have e2 : einR x ≤ x + (einR 1 - 1) := by
    unfold einR
    rw [hs.tsum_eq_zero_add, hs1.tsum_eq_zero_add]
    have : ∑' b : ℕ, x ^ (b + 1 + 1) / ((((b + 1 : ℕ) : ℝ) + 1) * ((b + 1 + 1).factorial : ℝ)) ≤
        ∑' b : ℕ, (1 : ℝ) ^ (b + 1 + 1) / ((((b + 1 : ℕ) : ℝ) + 1) * ((b + 1 + 1).factorial : ℝ)) := by
      refine ((summable_nat_add_iff 1).2 hs).tsum_le_tsum (fun b => ?_) ((summable_nat_add_iff 1).2 hs1)
      refine div_le_div_of_nonneg_right ?_ (by positivity)
      rw [one_pow]
      refine (le_abs_self _).trans ?_
      rw [abs_pow]
      exact pow_le_one₀ (abs_nonneg _) (by rw [_root_.abs_le]; constructor <;> linarith)
    norm_num at this ⊢
    linarith
  have hl : Real.log |x| ≤ |x| - 1 := Real.log_le_sub_one_of_pos (abs_pos.2 h2.ne)
  have hg := (_root_.abs_le.1 gamma_near).2
  unfold eiR
  rw [abs_of_neg h2] at *
  rw [Real.log_neg_eq_log] at *
  norm_num at hg e1 ⊢
  linarith

theorem half_pow (n : ℕ) (h : n < 32) : F32.Finite (lit ((1 / 2) ^ n)) ∧ val (lit ((1 / 2) ^ n)) = (1 / 2) ^ n := by
  have : ∀ n < 32, F32.Finite (lit ((1 / 2) ^ n)) ∧ val (lit ((1 / 2) ^ n)) = (1 / 2) ^ n := by decide +kernel
  exact this n h

/-- Rounding does not cross a power of two. -/
theorem rnd_half {s : Bool} {q : ℚ} (n : ℕ) (hn : n < 32) (h : |q| ≤ (1 / 2) ^ n) : F32.Finite (rnd s q) ∧ |val (rnd s q)| ≤ (1 / 2) ^ n := by
  obtain ⟨f, v⟩ := half_pow n hn
  obtain ⟨h1, h2⟩ := _root_.abs_le.1 h
  obtain ⟨g, a1, a2⟩ := rnd_between (s := s) (q := q) (finite_negate.2 f) f (by rw [val_negate, v]; exact h1) (by rw [v]; exact h2)
  rw [val_negate, v] at a1
  rw [v] at a2
  exact ⟨g, _root_.abs_le.2 ⟨a1, a2⟩⟩

theorem e1_loop {x : BitVec 32} (hx : F32.Finite x) (h0 : 0 < val x) (h1 : val x < 1) :
    ∀ (fuel i : ℕ) (term eSum oSum : BitVec 32), 3 ≤ i → F32.Finite term → F32.Finite eSum → F32.Finite oSum →
    |val term| ≤ (1 / 2) ^ (i - 2) → val epsilon ≤ |val term| → 0 ≤ val eSum → val oSum ≤ -val x →
    val eSum ≤ 0.421875 - (1 / 2) ^ (i - 2) * (11 / 32) + i * 1e-7 → -1.5 + (1 / 2) ^ (i - 2) * (11 / 32) - i * 1e-6 ≤ val oSum →
    F32.Finite (e1SeriesLoop x fuel i term eSum oSum).1 ∧ F32.Finite (e1SeriesLoop x fuel i term eSum oSum).2 ∧
    0 ≤ val (e1SeriesLoop x fuel i term eSum oSum).1 ∧ val (e1SeriesLoop x fuel i term eSum oSum).1 ≤ 0.42188 ∧
    -2 ≤ val (e1SeriesLoop x fuel i term eSum oSum).2 ∧ val (e1SeriesLoop x fuel i term eSum oSum).2 ≤ -val x := by
  have heps : val epsilon = (1 / 2) ^ 23 := by decide +kernel
  have hend : ∀ (i : ℕ) (term eSum oSum : BitVec 32), 3 ≤ i → |val term| ≤ (1 / 2) ^ (i - 2) → val epsilon ≤ |val term| →
      val eSum ≤ 0.421875 - (1 / 2) ^ (i - 2) * (11 / 32) + i * 1e-7 → -1.5 + (1 / 2) ^ (i - 2) * (11 / 32) - i * 1e-6 ≤ val oSum →
      i ≤ 25 ∧ val eSum ≤ 0.42188 ∧ -2 ≤ val oSum := by
    intro i term eSum oSum hi ht ht2 e1 o2
    have hi25 : i ≤ 25 := by
      have h3 : ((1 : ℚ) / 2) ^ 23 ≤ (1 / 2) ^ (i - 2) := by rw [← heps]; exact ht2.trans ht
      by_contra hc
      have : ((1 : ℚ) / 2) ^ (i - 2) ≤ (1 / 2) ^ 24 := pow_le_pow_of_le_one (by norm_num) (by norm_num) (by omega)
      norm_num at h3 this; linarith
    have hiq : (i : ℚ) ≤ 25 := by exact_mod_cast hi25
    have hp : (0 : ℚ) ≤ (1 / 2) ^ (i - 2) := by positivity
    exact ⟨hi25, by linarith, by linarith⟩
  intro fuel
  induction fuel with
  | zero =>
    intro i term eSum oSum hi ft fe fo ht ht2 e0 o1 e1 o2
    obtain ⟨-, b1, b2⟩ := hend i term eSum oSum hi ht ht2 e1 o2
    exact ⟨fe, fo, e0, b1, b2, o1⟩
  | succ fuel ih =>
    intro i term eSum oSum hi ft fe fo ht ht2 e0 o1 e1 o2
    obtain ⟨hi25, b1, b2⟩ := hend i term eSum oSum hi ht ht2 e1 o2
    obtain ⟨fj, vj⟩ := lit_nat i (by omega)
    have hi3 : (3 : ℚ) ≤ i := by exact_mod_cast hi
    have hiq : (i : ℚ) ≤ 25 := by exact_mod_cast hi25
    have hj0 : val (lit (i : ℚ)) ≠ 0 := by rw [vj]; linarith
    have hP : ((1 : ℚ) / 2) ^ (i - 2) = 2 * (1 / 2) ^ (i - 1) := by
      rw [show i - 1 = i - 2 + 1 by omega, pow_succ]; ring
    have hP24 : (5e-8 : ℚ) ≤ (1 / 2) ^ (i - 1) := by
      refine le_trans ?_ (pow_le_pow_of_le_one (by norm_num) (by norm_num) (by omega : i - 1 ≤ 24))
      norm_num
    unfold e1SeriesLoop
    simp only []
    have hd : F32.Finite (F32.div (negate x) (lit (i : ℚ))) ∧ |val (F32.div (negate x) (lit (i : ℚ)))| ≤ (1 / 2) ^ 1 := by
      rw [div_fin (finite_negate.2 hx) fj hj0, vj]
      refine rnd_half 1 (by norm_num) ?_
      rw [val_negate, abs_div, abs_neg, abs_of_pos h0, abs_of_pos (by linarith), div_le_iff₀ (by linarith)]
      linarith
    generalize F32.div (negate x) (lit (i : ℚ)) = d at *
    have hm : F32.Finite (F32.mul term d) ∧ |val (F32.mul term d)| ≤ (1 / 2) ^ (i - 1) := by
      rw [mul_fin ft hd.1]
      refine rnd_half (i - 1) (by omega) ?_
      rw [abs_mul]
      have := mul_le_mul ht hd.2 (abs_nonneg _) (by positivity)
      rw [hP] at this
      linarith
    generalize F32.mul term d = m at *
    rw [lt_fin (absolute_finite.2 hm.1) c_eps.1, absolute_val]
    split
    · exact ⟨fe, fo, e0, b1, b2, o1⟩
    rename_i hne
    rw [decide_eq_true_eq, not_lt] at hne
    obtain ⟨hm1, hm2⟩ := _root_.abs_le.1 hm.2
    have hq0 : |val m / val (lit (i : ℚ))| ≤ (1 / 2) ^ (i - 1) / 3 := by
      rw [vj, abs_div, abs_of_pos (a := (i : ℚ)) (by linarith)]
      exact div_le_div₀ (by positivity) hm.2 (by norm_num) hi3
    have hP1 : ((1 : ℚ) / 2) ^ (i - 1) ≤ 1 := pow_le_one₀ (by norm_num) (by norm_num)
    have hq : F32.Finite (F32.div m (lit (i : ℚ))) ∧ |val (F32.div m (lit (i : ℚ)))| ≤ (1 / 2) ^ (i - 1) * (11 / 32) := by
      rw [div_fin hm.1 fj hj0]
      obtain ⟨f, e⟩ := rnd_err' (s := neg m ^^ neg (lit (i : ℚ))) (q := val m / val (lit (i : ℚ))) (hq0.trans (by linarith))
      refine ⟨f, ?_⟩
      generalize val m / val (lit (i : ℚ)) = w at *
      have := abs_sub_abs_le_abs_sub (val (rnd (neg m ^^ neg (lit (i : ℚ))) w)) w
      linarith
    have hqs : (0 ≤ val m → 0 ≤ val (F32.div m (lit (i : ℚ)))) ∧ (val m ≤ 0 → val (F32.div m (lit (i : ℚ))) ≤ 0) := by
      rw [div_fin hm.1 fj hj0, vj]
      constructor
      · intro h
        have := le_rnd (s := neg m ^^ neg (lit (i : ℚ))) c_zero.1 (q := val m / i) (by rw [c_zero.2]; exact div_nonneg h (by linarith))
        rwa [c_zero.2] at this
      · intro h
        have := rnd_le (s := neg m ^^ neg (lit (i : ℚ))) c_zero.1 (q := val m / i) (by rw [c_zero.2]; exact div_nonpos_of_nonpos_of_nonneg h (by linarith))
        rwa [c_zero.2] at this
    generalize F32.div m (lit (i : ℚ)) = q at *
    obtain ⟨hq1, hq2⟩ := _root_.abs_le.1 hq.2
    rw [le_fin c_zero.1 hm.1, c_zero.2]
    rw [hP] at e1 o2
    split
    · rename_i hs
      rw [decide_eq_true_eq] at hs
      have q0 := hqs.1 hs
      have hsum : |val eSum + val q| ≤ 0.5 := by rw [_root_.abs_le]; constructor <;> linarith
      rw [add_fin fe hq.1]
      obtain ⟨f, e⟩ := rnd_err' (s := neg eSum && neg q) (q := val eSum + val q) (hsum.trans (by norm_num))
      have l0 := le_rnd (s := neg eSum && neg q) c_zero.1 (q := val eSum + val q) (by rw [c_zero.2]; linarith)
      rw [c_zero.2] at l0
      obtain ⟨-, e2⟩ := _root_.abs_le.1 e
      refine ih (i + 1) m _ oSum (by omega) hm.1 f fo (by rw [show i + 1 - 2 = i - 1 by omega]; exact hm.2) hne l0 o1 ?_ ?_
      · rw [show i + 1 - 2 = i - 1 by omega]
        push_cast
        linarith
      · rw [show i + 1 - 2 = i - 1 by omega]
        push_cast
        linarith
    · rename_i hs
      rw [decide_eq_true_eq, not_le] at hs
      have q0 := hqs.2 hs.le
      have hsum : |val oSum + val q| ≤ 3 := by rw [_root_.abs_le]; constructor <;> linarith
      rw [add_fin fo hq.1]
      obtain ⟨f, e⟩ := rnd_err' (s := neg oSum && neg q) (q := val oSum + val q) (hsum.trans (by norm_num))
      have l0 := rnd_le (s := neg oSum && neg q) (finite_negate.2 hx) (q := val oSum + val q) (by rw [val_negate]; linarith)
      rw [val_negate] at l0
      obtain ⟨e2, -⟩ := _root_.abs_le.1 e
      refine ih (i + 1) m eSum _ (by omega) hm.1 fe f (by rw [show i + 1 - 2 = i - 1 by omega]; exact hm.2) hne e0 l0 ?_ ?_
      · rw [show i + 1 - 2 = i - 1 by omega]
        push_cast
        linarith
      · rw [show i + 1 - 2 = i - 1 by omega]
        push_cast
        linarith

theorem e1_sums {x : BitVec 32} (hx : F32.Finite x) (h0 : 0 < val x) (h1 : val x < 1) :
    F32.Finite (e1SeriesLoop x 999 1 (lit 1) (lit 0) (lit 0)).1 ∧ F32.Finite (e1SeriesLoop x 999 1 (lit 1) (lit 0) (lit 0)).2 ∧
    0 ≤ val (e1SeriesLoop x 999 1 (lit 1) (lit 0) (lit 0)).1 ∧ val (e1SeriesLoop x 999 1 (lit 1) (lit 0) (lit 0)).1 ≤ 0.42188 ∧
    -2 ≤ val (e1SeriesLoop x 999 1 (lit 1) (lit 0) (lit 0)).2 ∧ val (e1SeriesLoop x 999 1 (lit 1) (lit 0) (lit 0)).2 ≤ 1.2e-7 - val x := by
  have heps : val epsilon = 1 / 8388608 := by decide +kernel
  have c1 : lit ((1 : ℕ) : ℚ) = lit 1 := by norm_num
  have fn := finite_negate.2 hx
  have ex : ∀ (s : Bool) (b : BitVec 32), F32.Finite b → F32.Finite (rnd s (val b)) ∧ val (rnd s (val b)) = val b := by
    intro s b hb
    obtain ⟨f, a1, a2⟩ := rnd_between (s := s) (q := val b) hb hb le_rfl le_rfl
    exact ⟨f, le_antisymm a2 a1⟩
  have hd : F32.Finite (F32.div (negate x) (lit 1)) ∧ val (F32.div (negate x) (lit 1)) = -val x := by
    rw [div_fin fn c_one.1 (by rw [c_one.2]; norm_num), c_one.2, div_one, ← val_negate]
    exact ex _ _ fn
  obtain ⟨fm, vm⟩ := mul_exact c_one.1 hd.1 hd.1 (by rw [c_one.2, one_mul])
  rw [hd.2] at vm
  rw [e1SeriesLoop]
  simp only [c1]
  generalize F32.mul (lit 1) (F32.div (negate x) (lit 1)) = m at *
  rw [lt_fin (absolute_finite.2 fm) c_eps.1, absolute_val, vm, abs_neg, abs_of_pos h0]
  split
  · rename_i hlt
    rw [decide_eq_true_eq, heps] at hlt
    refine ⟨c_zero.1, c_zero.1, ?_⟩
    simp only [c_zero.2]
    norm_num at hlt ⊢
    linarith
  rename_i hge
  rw [decide_eq_true_eq, not_lt] at hge
  rw [if_neg (by rw [le_fin c_zero.1 fm, c_zero.2, vm]; simpa using h0)]
  have ho : F32.Finite (F32.div m (lit 1)) ∧ val (F32.div m (lit 1)) = -val x := by
    rw [div_fin fm c_one.1 (by rw [c_one.2]; norm_num), c_one.2, div_one, ← vm]
    exact ex _ _ fm
  obtain ⟨fo, vo⟩ := add_exact c_zero.1 ho.1 ho.1 (by rw [c_zero.2, zero_add])
  rw [ho.2] at vo
  generalize F32.add (lit 0) (F32.div m (lit 1)) = o at *
  have c2 : F32.Finite (lit ((1 + 1 : ℕ) : ℚ)) ∧ val (lit ((1 + 1 : ℕ) : ℚ)) = 2 := by decide +kernel
  rw [e1SeriesLoop]
  have hd2 : F32.Finite (F32.div (negate x) (lit ((1 + 1 : ℕ) : ℚ))) ∧ |val (F32.div (negate x) (lit ((1 + 1 : ℕ) : ℚ)))| ≤ (1 / 2) ^ 1 ∧
      val (F32.div (negate x) (lit ((1 + 1 : ℕ) : ℚ))) ≤ 0 := by
    rw [div_fin fn c2.1 (by rw [c2.2]; norm_num), c2.2, val_negate]
    have := rnd_half (s := neg (negate x) ^^ neg (lit ((1 + 1 : ℕ) : ℚ))) (q := -val x / 2) 1 (by norm_num)
      (by rw [abs_div, abs_neg, abs_of_pos h0]; norm_num; linarith)
    have l := rnd_le (s := neg (negate x) ^^ neg (lit ((1 + 1 : ℕ) : ℚ))) c_zero.1 (q := -val x / 2) (by rw [c_zero.2]; linarith)
    rw [c_zero.2] at l
    exact ⟨this.1, this.2, l⟩
  generalize F32.div (negate x) (lit ((1 + 1 : ℕ) : ℚ)) = d at *
  have hm2 : F32.Finite (F32.mul m d) ∧ |val (F32.mul m d)| ≤ (1 / 2) ^ 1 ∧ 0 ≤ val (F32.mul m d) := by
    rw [mul_fin fm hd2.1, vm]
    have := rnd_half (s := neg m ^^ neg d) (q := -val x * val d) 1 (by norm_num)
      (by
        rw [abs_mul, abs_neg, abs_of_pos h0]
        have := mul_le_mul h1.le hd2.2.1 (abs_nonneg _) (by norm_num)
        linarith)
    have l := le_rnd (s := neg m ^^ neg d) c_zero.1 (q := -val x * val d) (by rw [c_zero.2]; nlinarith [hd2.2.2])
    rw [c_zero.2] at l
    exact ⟨this.1, this.2, l⟩
  generalize F32.mul m d = m2 at *
  have fin : ∀ e : BitVec 32, F32.Finite e → 0 ≤ val e → val e ≤ 0.42188 → F32.Finite e ∧ F32.Finite o ∧ 0 ≤ val e ∧ val e ≤ 0.42188 ∧ -2 ≤ val o ∧ val o ≤ 1.2e-7 - val x := by
    intro e fe a b
    exact ⟨fe, fo, a, b, by rw [vo]; linarith, by rw [vo]; linarith⟩
  rw [lt_fin (absolute_finite.2 hm2.1) c_eps.1, absolute_val]
  split
  · exact fin _ c_zero.1 c_zero.2.ge (by rw [c_zero.2]; norm_num)
  rename_i hge2
  rw [decide_eq_true_eq, not_lt] at hge2
  rw [if_pos (by rw [le_fin c_zero.1 hm2.1, c_zero.2]; simpa using hm2.2.2)]
  obtain ⟨a1, a2⟩ := _root_.abs_le.1 hm2.2.1
  have hq : F32.Finite (F32.div m2 (lit ((1 + 1 : ℕ) : ℚ))) ∧ |val (F32.div m2 (lit ((1 + 1 : ℕ) : ℚ)))| ≤ (1 / 2) ^ 2 ∧
      0 ≤ val (F32.div m2 (lit ((1 + 1 : ℕ) : ℚ))) := by
    rw [div_fin hm2.1 c2.1 (by rw [c2.2]; norm_num), c2.2]
    have := rnd_half (s := neg m2 ^^ neg (lit ((1 + 1 : ℕ) : ℚ))) (q := val m2 / 2) 2 (by norm_num)
      (by rw [abs_of_nonneg (by linarith [hm2.2.2])]; norm_num at a2 ⊢; linarith)
    have l := le_rnd (s := neg m2 ^^ neg (lit ((1 + 1 : ℕ) : ℚ))) c_zero.1 (q := val m2 / 2) (by rw [c_zero.2]; linarith [hm2.2.2])
    rw [c_zero.2] at l
    exact ⟨this.1, this.2, l⟩
  obtain ⟨fe, ve⟩ := add_exact c_zero.1 hq.1 hq.1 (by rw [c_zero.2, zero_add])
  generalize F32.div m2 (lit ((1 + 1 : ℕ) : ℚ)) = q at *
  obtain ⟨b1, b2⟩ := _root_.abs_le.1 hq.2.1
  obtain ⟨r1, r2, r3, r4, r5, r6⟩ := e1_loop hx h0 h1 997 3 m2 (F32.add (lit 0) q) o le_rfl hm2.1 fe fo hm2.2.1 hge2 (by rw [ve]; exact hq.2.2) vo.le
    (by rw [ve]; norm_num at b2 ⊢; linarith) (by rw [vo]; norm_num; linarith)
  exact ⟨r1, r2, r3, r4, r5, r6.trans (by linarith)⟩

/-- **C107, negation.** Between -1 and 0 the result has the wrong sign: it is positive, while the exponential integral is below -0.09
there. -/
theorem C107_false_sign (x : BitVec 32) (hx : F32.Finite x) (h1 : -1 < val x) (h2 : val x ≤ -2 ^ (-126 : ℤ)) :
    ∃ r, expint x = .ok r ∧ F32.Finite r ∧ 0 < val r ∧ eiR (val x) ≤ -0.09 := by
  have hz : (0 : ℚ) < 2 ^ (-126 : ℤ) := by positivity
  have hx0 : val x < 0 := by linarith
  have fn := finite_negate.2 hx
  have vn : val (negate x) = -val x := val_negate x
  have heq : expint x = .ok (expintE1Series (negate x)) := by
    unfold expint expintEi
    rw [if_neg hx.notNaN, if_pos (by rw [lt_fin hx c_zero.1, c_zero.2]; simpa using hx0)]
    simp only []
    rw [if_pos (by rw [lt_fin fn c_one.1, c_one.2, vn]; simp; linarith)]; rfl
  refine ⟨_, heq, ?_⟩
  have hei : eiR (val x) ≤ -0.09 := ei_neg (by exact_mod_cast h1.le) (by exact_mod_cast hx0)
  have hl2 : 2 ^ (-126 : ℤ) ≤ val (negate x) := by rw [vn]; linarith
  obtain ⟨s1, s2, s3, s4, s5, s6⟩ := e1_sums fn (by linarith) (by rw [vn]; linarith)
  obtain ⟨fl, el⟩ := C82_log_partial (negate x) fn hl2
  unfold expintE1Series
  generalize e1SeriesLoop (negate x) 999 1 (lit 1) (lit 0) (lit 0) = p at *
  obtain ⟨e, o⟩ := p
  simp only at *
  rw [← and_assoc]
  refine ⟨?_, hei⟩
  have hyr : (0 : ℝ) < ((val (negate x) : ℚ) : ℝ) := by exact_mod_cast (by linarith : 0 < val (negate x))
  have hlog1 : Real.log (val (negate x)) ≤ ((val (negate x) : ℚ) : ℝ) - 1 := Real.log_le_sub_one_of_pos hyr
  have hlog0 : Real.log (val (negate x)) ≤ 0 := Real.log_nonpos hyr.le (by exact_mod_cast (by linarith : val (negate x) ≤ 1))
  have hlog2 : -88 ≤ Real.log (val (negate x)) := by
    have a1 : ((2 : ℝ) ^ (-126 : ℤ)) ≤ ((val (negate x) : ℚ) : ℝ) := by
      have : (((2 : ℚ) ^ (-126 : ℤ) : ℚ) : ℝ) ≤ ((val (negate x) : ℚ) : ℝ) := by exact_mod_cast hl2
      push_cast at this; exact this
    have := Real.log_le_log (by positivity) a1
    rw [Real.log_zpow] at this
    have l2 := Real.log_two_lt_d9
    push_cast at this
    linarith
  rw [abs_of_nonpos hlog0] at el
  obtain ⟨el1, el2⟩ := _root_.abs_le.1 el
  have hlq1 : -89 ≤ val (log (negate x)) := by
    have : ((-89 : ℚ) : ℝ) ≤ ((val (log (negate x)) : ℚ) : ℝ) := by push_cast; linarith
    exact_mod_cast this
  have hlq2 : val (log (negate x)) ≤ val (negate x) - 0.9999 := by
    have : ((val (log (negate x)) : ℚ) : ℝ) ≤ ((val (negate x) - 0.9999 : ℚ) : ℝ) := by push_cast; linarith
    exact_mod_cast this
  obtain ⟨g1, g2⟩ := _root_.abs_le.1 gammaE_val.2
  rw [vn] at *
  rw [sub_fin (finite_negate.2 s1) s2, val_negate]
  obtain ⟨f1, e1⟩ := rnd_err' (s := neg (negate e) && !neg o) (q := -val e - val o) (by rw [_root_.abs_le]; constructor <;> linarith)
  generalize rnd (neg (negate e) && !neg o) (-val e - val o) = A at *
  have hA : |-val e - val o| ≤ 3 := by rw [_root_.abs_le]; constructor <;> linarith
  obtain ⟨a1, a2⟩ := _root_.abs_le.1 e1
  rw [sub_fin f1 gammaE_val.1]
  obtain ⟨f2, e2⟩ := rnd_err' (s := neg A && !neg FFP_GAMMA_E) (q := val A - val FFP_GAMMA_E) (by rw [_root_.abs_le]; constructor <;> linarith)
  generalize rnd (neg A && !neg FFP_GAMMA_E) (val A - val FFP_GAMMA_E) = B at *
  have hB : |val A - val FFP_GAMMA_E| ≤ 4 := by rw [_root_.abs_le]; constructor <;> linarith
  obtain ⟨b1, b2⟩ := _root_.abs_le.1 e2
  rw [sub_fin f2 fl]
  obtain ⟨f3, e3⟩ := rnd_err' (s := neg B && !neg (log (negate x))) (q := val B - val (log (negate x))) (by rw [_root_.abs_le]; constructor <;> linarith)
  refine ⟨f3, ?_⟩
  have hC : |val B - val (log (negate x))| ≤ 100 := by rw [_root_.abs_le]; constructor <;> linarith
  obtain ⟨d1, d2⟩ := _root_.abs_le.1 e3
  linarith

/-- Cases of the theorems: `expint(-0.5)`, `expint(2)` and `expint(50)`. -/
example : -1 < val (lit (-0.5)) ∧ val (lit (-0.5)) ≤ -2 ^ (-126 : ℤ) ∧ 2 ^ (-20 : ℤ) ≤ val (lit 2) ∧ F32.lt (lit 2) (lit 36.044) = true ∧
    F32.le (lit 36.044) (lit 50) = true ∧ val (lit 50) ≤ 88 := by decide +kernel

end Verif.Ffmath
