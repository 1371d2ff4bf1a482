import Verif.Interp1.Linear
import Verif.F32.Hull

/-!
# Linear interpolation in binary32 (C138)
-/

namespace Verif.Interp1

open Arith F32

/-- A rounding relative to a scale `W`. -/
theorem rnd_scale {s : Bool} {q W : ℚ} (B k : ℚ) (hW : 0 < W) (h : |q| ≤ B * W) (h2 : B * W ≤ 3.4e38)
    (hk : B / 16777216 * W + 1e-45 ≤ k * W) :
    F32.Finite (rnd s q) ∧ ∃ d, val (rnd s q) = q + d * W ∧ |d| ≤ k := by
  obtain ⟨f, e⟩ := rnd_mag (s := s) (h.trans h2)
  refine ⟨f, (val (rnd s q) - q) / W, by field_simp; ring, ?_⟩
  rw [abs_div, abs_of_pos hW, div_le_iff₀ hW]
  refine e.trans (le_trans ?_ hk)
  linarith

/-- One segment with rounded operations, for arguments up to `T` segment lengths away from the first
knot. -/
theorem line_err {x x0 x1 y0 y1 : BitVec 32} (hx : F32.Finite x) (h0 : F32.Finite x0)
    (h1 : F32.Finite x1) (g0 : F32.Finite y0) (g1 : F32.Finite y1) {D M T : ℚ}
    (hD : 1e-18 ≤ |D|) (hD2 : |D| ≤ 1e18) (hd : val x1 - val x0 = D)
    (hM : M ≤ 1e18) (k0 : |val y0| ≤ M) (k1 : |val y1| ≤ M) (hT : 1 ≤ T) (hT2 : T ≤ 1e18)
    (ht : |val x - val x0| ≤ T * |D|) :
    F32.Finite (line x x0 x1 y0 y1) ∧
      |val (line x x0 x1 y0 y1) -
        (val y0 + (val y1 - val y0) / (val x1 - val x0) * (val x - val x0))| ≤
        9e-7 * M * T + 1e-25 * T := by
  change F32.Finite (F32.add y0 (F32.mul (F32.div (F32.sub y1 y0) (F32.sub x1 x0)) (F32.sub x x0))) ∧
    |val (F32.add y0 (F32.mul (F32.div (F32.sub y1 y0) (F32.sub x1 x0)) (F32.sub x x0))) - _| ≤ _
  have hDp : 0 < |D| := by norm_num at hD; linarith
  have hD0 : D ≠ 0 := abs_pos.1 hDp
  have hM0 : 0 ≤ M := (abs_nonneg _).trans k0
  obtain ⟨W, hW⟩ : ∃ W, W = 2 * M + 1e-19 := ⟨_, rfl⟩
  have hW0 : 1e-19 ≤ W := by rw [hW]; linarith
  have hWp : 0 < W := by norm_num at hW0; linarith
  have hWu : W ≤ 2.1e18 := by rw [hW]; norm_num at hM ⊢; linarith
  have hTp : 0 < T := by linarith
  -- the difference of the ordinates
  obtain ⟨f1, a, e1, a1, b1⟩ : F32.Finite (F32.sub y1 y0) ∧ ∃ a, val (F32.sub y1 y0) = a * W ∧
      |a| ≤ 1.0000001 ∧ |a - (val y1 - val y0) / W| ≤ 5.97e-8 := by
    have hA : |val y1 - val y0| ≤ 1 * W := by
      rw [hW]; have := abs_sub_le' k1 k0; norm_num at this ⊢; linarith
    obtain ⟨f, d, e, b⟩ := rnd_scale (s := F32.neg y1 && !F32.neg y0) 1 5.97e-8 hWp hA
      (by norm_num at hWu ⊢; linarith) (by norm_num at hW0 ⊢; linarith)
    rw [← sub_fin g1 g0] at f e
    have ha : |(val y1 - val y0) / W| ≤ 1 := by
      rw [abs_div, abs_of_pos hWp, div_le_iff₀ hWp]; exact hA
    refine ⟨f, (val y1 - val y0) / W + d, by rw [e]; field_simp, ?_, by simpa using b⟩
    refine (abs_add_le' ha b).trans (by norm_num)
  -- the length of the segment
  obtain ⟨f2, c, e2, b2⟩ : F32.Finite (F32.sub x1 x0) ∧ ∃ c, val (F32.sub x1 x0) = D * c ∧
      |c - 1| ≤ 5.97e-8 := by
    obtain ⟨f, d, e, b⟩ := rnd_scale (s := F32.neg x1 && !F32.neg x0) (q := val x1 - val x0) 1 5.97e-8
      hDp (by rw [hd, one_mul])
      (by norm_num at hD2 ⊢; linarith) (by norm_num at hD ⊢; linarith)
    rw [← sub_fin h1 h0, hd] at e
    rw [← sub_fin h1 h0] at f
    refine ⟨f, 1 + d * |D| / D, by rw [e]; field_simp, ?_⟩
    rw [add_sub_cancel_left, abs_div, abs_mul, abs_abs, mul_div_assoc, div_self hDp.ne', mul_one]
    exact b
  -- the distance from the knot
  obtain ⟨f3, t, e3, t1, b3⟩ : F32.Finite (F32.sub x x0) ∧ ∃ t, val (F32.sub x x0) = D * t ∧
      |t| ≤ 1.0000001 * T ∧ |t - (val x - val x0) / D| ≤ 5.97e-8 * T := by
    have hP : 0 < T * |D| := by positivity
    have hPl : |D| ≤ T * |D| := by nlinarith
    have hPu : T * |D| ≤ 1e36 := by
      have := mul_le_mul hT2 hD2 hDp.le (by norm_num); norm_num at this ⊢; linarith
    obtain ⟨f, d, e, b⟩ := rnd_scale (s := F32.neg x && !F32.neg x0) (q := val x - val x0) 1 5.97e-8
      hP (by rw [one_mul]; exact ht)
      (by norm_num at hPu ⊢; linarith) (by norm_num at hD ⊢; linarith)
    rw [← sub_fin hx h0] at e f
    have hb : |d * (T * |D|) / D| ≤ 5.97e-8 * T := by
      rw [abs_div, abs_mul, abs_of_pos hP, show |d| * (T * |D|) / |D| = |d| * T by field_simp]
      exact mul_le_mul_of_nonneg_right b hTp.le
    have hv : |(val x - val x0) / D| ≤ T := by rw [abs_div, div_le_iff₀ hDp]; exact ht
    refine ⟨f, (val x - val x0) / D + d * (T * |D|) / D, by rw [e]; field_simp, ?_, ?_⟩
    · refine (abs_add_le' hv hb).trans ?_; norm_num; linarith
    · rw [add_sub_cancel_left]; exact hb
  have hc0 : 0.9999999 ≤ c ∧ c ≤ 1.0000001 := by
    rw [abs_le] at b2; norm_num at b2 ⊢; constructor <;> linarith
  have hcp : 0 < c := by norm_num at hc0; linarith
  -- the slope, in units of `W / D`
  obtain ⟨f4, r, e4, r1, b4⟩ : F32.Finite (F32.div (F32.sub y1 y0) (F32.sub x1 x0)) ∧
      ∃ r, val (F32.div (F32.sub y1 y0) (F32.sub x1 x0)) = W / D * r ∧
        |r| ≤ 1.0000004 ∧ |r - a / c| ≤ 7e-8 := by
    have hac : |a / c| ≤ 1.0000003 := by
      rw [abs_div, abs_of_pos hcp, div_le_iff₀ hcp]
      norm_num at a1 hc0 ⊢; linarith
    have hU : 0 < W / |D| := by positivity
    have hU1 : W / |D| ≤ 2.1e36 := by
      rw [div_le_iff₀ hDp]
      norm_num at hWu hD ⊢; linarith
    have hU0 : 1e-37 ≤ W / |D| := by
      rw [le_div_iff₀ hDp]
      norm_num at hW0 hD2 ⊢; linarith
    have hq : a * W / (D * c) = W / D * (a / c) := by field_simp
    obtain ⟨f, d, e, b⟩ := rnd_scale (s := F32.neg (F32.sub y1 y0) ^^ F32.neg (F32.sub x1 x0))
      (q := W / D * (a / c)) 1.0000003 7e-8 hU
      (by rw [abs_mul, abs_div, abs_of_pos hWp, _root_.mul_comm]
          exact mul_le_mul_of_nonneg_right hac hU.le)
      (by norm_num at hU1 ⊢; linarith) (by norm_num at hU0 ⊢; linarith)
    have e' := div_fin f1 f2 (by rw [e2]; exact mul_ne_zero hD0 hcp.ne')
    rw [e1, e2, hq] at e'
    rw [← e'] at f e
    have hb : |d * |D|⁻¹ * D| ≤ 7e-8 := by
      rw [abs_mul, abs_mul, abs_inv, abs_abs, mul_assoc, inv_mul_cancel₀ hDp.ne', mul_one]; exact b
    refine ⟨f, a / c + d * |D|⁻¹ * D, by rw [e]; field_simp, ?_, ?_⟩
    · refine (abs_add_le' hac hb).trans (by norm_num)
    · rw [add_sub_cancel_left]; exact hb
  -- the product
  have hWT : 0 < W * T := by positivity
  have hWT1 : W ≤ W * T := by nlinarith
  have hWT2 : W * T ≤ 2.1e36 := by
    have := mul_le_mul hWu hT2 hTp.le (by norm_num); norm_num at this ⊢; linarith
  have hrt : |r * t| ≤ 1.0000006 * T := by
    refine (abs_mul_le' r1 t1).trans ?_; norm_num; linarith
  obtain ⟨f5, d5, e5, b5⟩ : F32.Finite (F32.mul (F32.div (F32.sub y1 y0) (F32.sub x1 x0)) (F32.sub x x0)) ∧
      ∃ d, val (F32.mul (F32.div (F32.sub y1 y0) (F32.sub x1 x0)) (F32.sub x x0)) = W * (r * t) + d * (W * T) ∧
        |d| ≤ 5.97e-8 := by
    have hq : W / D * r * (D * t) = W * (r * t) := by field_simp
    obtain ⟨f, d, e, b⟩ := rnd_scale
      (s := F32.neg (F32.div (F32.sub y1 y0) (F32.sub x1 x0)) ^^ F32.neg (F32.sub x x0))
      (q := W * (r * t)) 1.0000006 5.97e-8 hWT
      (by rw [abs_mul, abs_of_pos hWp]
          have := mul_le_mul_of_nonneg_left hrt hWp.le; linarith)
      (by norm_num at hWT2 ⊢; linarith) (by norm_num at hW0 ⊢; linarith)
    have e' := mul_fin f4 f3
    rw [e4, e3, hq] at e'
    rw [← e'] at f e
    exact ⟨f, d, e, b⟩
  -- the sum
  have hp : |val y0 + (W * (r * t) + d5 * (W * T))| ≤ 1.6 * (W * T) := by
    have u1 : |W * (r * t)| ≤ 1.0000006 * (W * T) := by
      rw [abs_mul, abs_of_pos hWp]
      have := mul_le_mul_of_nonneg_left hrt hWp.le; linarith
    have u2 : |d5 * (W * T)| ≤ 5.97e-8 * (W * T) := by
      rw [abs_mul, abs_of_pos hWT]; exact mul_le_mul_of_nonneg_right b5 hWT.le
    have u3 : |val y0| ≤ 0.5 * (W * T) := by
      refine k0.trans ?_
      rw [hW] at hWT1 ⊢; norm_num at hWT1 ⊢; linarith
    refine (abs_add_le' u3 (abs_add_le' u1 u2)).trans ?_
    norm_num; linarith
  obtain ⟨f6, d6, e6, b6⟩ := rnd_scale
    (s := F32.neg y0 && F32.neg (F32.mul (F32.div (F32.sub y1 y0) (F32.sub x1 x0)) (F32.sub x x0)))
    1.6 9.6e-8 hWT hp (by norm_num at hWT2 ⊢; linarith) (by norm_num at hW0 ⊢; linarith)
  have e' := add_fin g0 f5
  rw [e5] at e'
  rw [← e'] at f6 e6
  refine ⟨f6, ?_⟩
  rw [e6, hd]
  obtain ⟨A, hA⟩ : ∃ A, A = (val y1 - val y0) / W := ⟨_, rfl⟩
  obtain ⟨X, hX⟩ : ∃ X, X = (val x - val x0) / D := ⟨_, rfl⟩
  have hX1 : |X| ≤ T := by rw [hX, abs_div, div_le_iff₀ hDp]; exact ht
  have hA1 : |A| ≤ 1 := by
    rw [hA, abs_div, abs_of_pos hWp, div_le_iff₀ hWp, hW]
    have := abs_sub_le' k1 k0; norm_num at this ⊢; linarith
  have et : (val y1 - val y0) / D * (val x - val x0) = W * (A * X) := by
    rw [hA, hX]; field_simp
  rw [← hA] at b1
  rw [← hX] at b3
  have rA : |r - A| ≤ 1.9e-7 := by
    have : |a / c - A| ≤ 1.195e-7 := by
      have : a / c - A = ((a - A) - A * (c - 1)) / c := by field_simp; ring
      rw [this, abs_div, abs_of_pos hcp, div_le_iff₀ hcp]
      have u := abs_sub_le' b1 (abs_mul_le' hA1 b2)
      norm_num at u hc0 ⊢; linarith
    have u := abs_add_le' b4 this
    rw [show r - a / c + (a / c - A) = r - A by ring] at u
    norm_num at u ⊢; linarith
  have h3 : |r * t - A * X| ≤ 2.5e-7 * T := by
    have u := abs_add_le' (abs_mul_le' rA t1) (abs_mul_le' hA1 b3)
    rw [show (r - A) * t + A * (t - X) = r * t - A * X by ring] at u
    norm_num at u ⊢; linarith
  have h4 : |W * (r * t - A * X)| ≤ W * (2.5e-7 * T) := by
    rw [abs_mul, abs_of_pos hWp]; exact mul_le_mul_of_nonneg_left h3 hWp.le
  have h5 : |d5 * (W * T)| ≤ 5.97e-8 * (W * T) := by
    rw [abs_mul, abs_of_pos hWT]; exact mul_le_mul_of_nonneg_right b5 hWT.le
  have h6 : |d6 * (W * T)| ≤ 9.6e-8 * (W * T) := by
    rw [abs_mul, abs_of_pos hWT]; exact mul_le_mul_of_nonneg_right b6 hWT.le
  have u := abs_add_le' (abs_add_le' h4 h5) h6
  rw [et, show val y0 + (W * (r * t) + d5 * (W * T)) + d6 * (W * T) - (val y0 + W * (A * X)) =
    W * (r * t - A * X) + d5 * (W * T) + d6 * (W * T) by ring]
  refine u.trans ?_
  clear * - hW hM0 hTp
  have : 0 ≤ M * T := by positivity
  have e : W * T = 2 * (M * T) + 1e-19 * T := by rw [hW]; ring
  rw [show W * (2.5e-7 * T) = 2.5e-7 * (W * T) by ring, e, mul_assoc (9e-7) M T]
  generalize M * T = z at *
  norm_num
  linarith

/-- A table of `n` knots in binary32: finite numbers, increasing abscissae with gaps between `1e-18` and
`1e18`, ordinates of magnitude at most `M`. Not a definition of the repository. -/
structure TableF (tx ty : Array (BitVec 32)) (n : Nat) (X Y : Nat → BitVec 32) (M : ℚ) : Prop where
  hX : IsTable tx n X
  hY : IsTable ty n Y
  fX : ∀ i, i < n → F32.Finite (X i)
  fY : ∀ i, i < n → F32.Finite (Y i)
  gap : ∀ i, i + 1 < n → 1e-18 ≤ val (X (i + 1)) - val (X i) ∧ val (X (i + 1)) - val (X i) ≤ 1e18
  mag : ∀ i, i < n → |val (Y i)| ≤ M

theorem TableF.mono {tx ty : Array (BitVec 32)} {n : Nat} {X Y : Nat → BitVec 32} {M : ℚ}
    (h : TableF tx ty n X Y M) {i j : Nat} (hij : i ≤ j) (hj : j < n) : val (X i) ≤ val (X j) := by
  induction j with
  | zero => rw [Nat.le_zero.mp hij]
  | succ j ih =>
    rcases Nat.lt_or_eq_of_le hij with h1 | h1
    · have g := (h.gap j hj).1
      have := ih (by omega) (by omega)
      norm_num at g; linarith
    · rw [h1]

theorem TableF.strict {tx ty : Array (BitVec 32)} {n : Nat} {X Y : Nat → BitVec 32} {M : ℚ}
    (h : TableF tx ty n X Y M) {i j : Nat} (hij : i < j) (hj : j < n) : val (X i) < val (X j) := by
  have g := (h.gap i (by omega)).1
  have := h.mono (show i + 1 ≤ j by omega) hj
  norm_num at g; linarith

/-- The loop stops at the first segment that contains the argument. -/
theorem linLoop_float {tx ty : Array (BitVec 32)} {n : Nat} {X Y : Nat → BitVec 32} {M : ℚ}
    (h : TableF tx ty n X Y M) (nan x : BitVec 32) (hx : F32.Finite x) (k i j : Nat) (hb : i + k + 1 ≤ n)
    (hij : i ≤ j) (hj : j < i + k) (h1 : val (X j) ≤ val x) (h2 : val x ≤ val (X (j + 1))) :
    ∃ l, l ≤ j ∧ linLoop nan x tx ty k i = .ok (line x (X l) (X (l + 1)) (Y l) (Y (l + 1))) ∧
      val (X l) ≤ val x ∧ val x ≤ val (X (l + 1)) := by
  induction k generalizing i with
  | zero => omega
  | succ k ih =>
    rw [linLoop, h.hX i (by omega), Out.bind_ok, h.hX (i + 1) (by omega), Out.bind_ok]
    have e : ((X i ≤. x) && (x ≤. X (i + 1))) =
        decide (val (X i) ≤ val x ∧ val x ≤ val (X (i + 1))) := by
      change (F32.le (X i) x && F32.le x (X (i + 1))) = _
      rw [le_fin (h.fX i (by omega)) hx, le_fin hx (h.fX (i + 1) (by omega)), ← Bool.decide_and]
    rw [e]
    by_cases c : val (X i) ≤ val x ∧ val x ≤ val (X (i + 1))
    · rw [if_pos (by simpa using c), h.hY i (by omega), Out.bind_ok, h.hY (i + 1) (by omega), Out.bind_ok,
        Out.pure_eq]
      exact ⟨i, hij, rfl, c⟩
    · rw [if_neg (by simpa using c)]
      refine ih (i + 1) (by omega) ?_ (by omega)
      by_contra hc
      have : j = i := by omega
      subst this
      exact c ⟨h1, h2⟩

/-- **C138** (inside the table). In binary32, between two neighbouring knots, `interp1::linear` returns a
finite number within `9e-7 M + 1e-25` of the point on the straight line through the knots, `M` being the
largest magnitude of the ordinates. -/
theorem C138_inside {tx ty : Array (BitVec 32)} {n : Nat} {X Y : Nat → BitVec 32} {M : ℚ}
    (h : TableF tx ty n X Y M) (hM : M ≤ 1e18) (nan x : BitVec 32) (hx : F32.Finite x)
    (i : Nat) (hi : i + 1 < n) (h1 : val (X i) ≤ val x) (h2 : val x ≤ val (X (i + 1))) :
    ∃ v, linear nan x (some tx) (some ty) n = .ok v ∧ F32.Finite v ∧
      |val v - (val (Y i) + (val (Y (i + 1)) - val (Y i)) / (val (X (i + 1)) - val (X i)) *
        (val x - val (X i)))| ≤ 9e-7 * M + 1e-25 := by
  obtain ⟨l, hl, e, l1, l2⟩ := linLoop_float h nan x hx (n - 1) 0 i (by omega) (by omega) (by omega) h1 h2
  refine ⟨line x (X l) (X (l + 1)) (Y l) (Y (l + 1)), ?_, ?_⟩
  · unfold linear guarded withLines
    simp only [ge_iff_le, if_pos (show 2 ≤ n by omega)]
    rw [h.hX 0 (by omega), Out.bind_ok, if_neg, h.hX (n - 1) (by omega), Out.bind_ok, if_neg]
    · exact e
    · change ¬ F32.lt (X (n - 1)) x = true
      rw [lt_fin (h.fX _ (by omega)) hx, decide_eq_true_eq, not_lt]
      exact h2.trans (h.mono (by omega) (by omega))
    · change ¬ F32.lt x (X 0) = true
      rw [lt_fin hx (h.fX _ (by omega)), decide_eq_true_eq, not_lt]
      exact (h.mono (by omega) (by omega)).trans h1
  · obtain ⟨g0, g1⟩ := h.gap l (by omega)
    have gp : 0 < val (X (l + 1)) - val (X l) := by norm_num at g0; linarith
    obtain ⟨f, b⟩ := line_err hx (h.fX l (by omega)) (h.fX (l + 1) (by omega)) (h.fY l (by omega))
      (h.fY (l + 1) (by omega)) (T := 1) (by rw [abs_of_pos gp]; exact g0)
      (by rw [abs_of_pos gp]; exact g1) rfl hM (h.mag l (by omega)) (h.mag (l + 1) (by omega)) le_rfl
      (by norm_num) (by rw [abs_of_pos gp, abs_of_nonneg (by linarith)]; linarith)
    refine ⟨f, ?_⟩
    rw [mul_one, mul_one] at b
    rcases Nat.lt_or_eq_of_le hl with c | rfl
    · have hx1 : val x = val (X i) :=
        le_antisymm (l2.trans (h.mono (by omega) (by omega))) h1
      have hli : l + 1 = i := by
        by_contra hc
        have := h.strict (show l + 1 < i by omega) (by omega)
        linarith
      rw [hx1, sub_self, mul_zero, add_zero, hli]
      rw [hli, hx1] at b
      rw [hli] at gp
      rwa [div_mul_cancel₀ _ gp.ne', add_sub_cancel] at b
    · exact b

/-- **C138** (extrapolation). Outside the table the result is on the straight line through the two nearest
knots, with an error proportional to the distance `T`, counted in lengths of that segment. -/
theorem C138_outside {tx ty : Array (BitVec 32)} {n : Nat} {X Y : Nat → BitVec 32} {M T : ℚ}
    (hn : 2 ≤ n) (h : TableF tx ty n X Y M) (hM : M ≤ 1e18) (nan x : BitVec 32) (hx : F32.Finite x)
    (hT : 1 ≤ T) (hT2 : T ≤ 1e18) :
    (val x < val (X 0) → val (X 0) - val x ≤ T * (val (X 1) - val (X 0)) →
      ∃ v, linear nan x (some tx) (some ty) n = .ok v ∧ F32.Finite v ∧
        |val v - (val (Y 0) + (val (Y 1) - val (Y 0)) / (val (X 1) - val (X 0)) *
          (val x - val (X 0)))| ≤ 9e-7 * M * T + 1e-25 * T) ∧
    (val (X (n - 1)) < val x → val x - val (X (n - 1)) ≤ T * (val (X (n - 1)) - val (X (n - 2))) →
      ∃ v, linear nan x (some tx) (some ty) n = .ok v ∧ F32.Finite v ∧
        |val v - (val (Y (n - 1)) + (val (Y (n - 1)) - val (Y (n - 2))) /
          (val (X (n - 1)) - val (X (n - 2))) * (val x - val (X (n - 1))))| ≤ 9e-7 * M * T + 1e-25 * T) := by
  constructor
  · intro c1 c2
    obtain ⟨g0, g1⟩ := h.gap 0 (by omega)
    have gp : 0 < val (X (0 + 1)) - val (X 0) := by norm_num at g0 ⊢; linarith
    obtain ⟨f, b⟩ := line_err hx (h.fX 0 (by omega)) (h.fX 1 (by omega)) (h.fY 0 (by omega))
      (h.fY 1 (by omega)) (T := T) (by rw [abs_of_pos gp]; exact g0)
      (by rw [abs_of_pos gp]; exact g1) rfl hM (h.mag 0 (by omega)) (h.mag 1 (by omega)) hT hT2
      (by rw [abs_of_pos gp, abs_of_neg (by linarith)]; linarith)
    refine ⟨_, ?_, f, b⟩
    unfold linear guarded withLines
    simp only [ge_iff_le, if_pos hn]
    rw [h.hX 0 (by omega), Out.bind_ok, if_pos, h.hX 1 (by omega), Out.bind_ok, h.hY 0 (by omega),
      Out.bind_ok, h.hY 1 (by omega), Out.bind_ok]
    · rfl
    · change F32.lt x (X 0) = true
      rw [lt_fin hx (h.fX _ (by omega)), decide_eq_true_eq]; exact c1
  · intro c1 c2
    obtain ⟨g0, g1⟩ := h.gap (n - 2) (by omega)
    rw [show n - 2 + 1 = n - 1 by omega] at g0 g1
    have gp : 0 < val (X (n - 1)) - val (X (n - 2)) := by norm_num at g0 ⊢; linarith
    have ga : |val (X (n - 2)) - val (X (n - 1))| = val (X (n - 1)) - val (X (n - 2)) := by
      rw [abs_sub_comm, abs_of_pos gp]
    obtain ⟨f, b⟩ := line_err hx (h.fX (n - 1) (by omega)) (h.fX (n - 2) (by omega))
      (h.fY (n - 1) (by omega)) (h.fY (n - 2) (by omega)) (T := T) (by rw [ga]; exact g0)
      (by rw [ga]; exact g1) rfl hM (h.mag (n - 1) (by omega)) (h.mag (n - 2) (by omega)) hT hT2
      (by rw [ga, abs_of_pos (by linarith)]; linarith)
    rw [show (val (Y (n - 2)) - val (Y (n - 1))) / (val (X (n - 2)) - val (X (n - 1))) =
      (val (Y (n - 1)) - val (Y (n - 2))) / (val (X (n - 1)) - val (X (n - 2))) by
        rw [← neg_sub, ← neg_sub (val (X (n - 1))), neg_div_neg_eq]] at b
    refine ⟨_, ?_, f, b⟩
    unfold linear guarded withLines
    simp only [ge_iff_le, if_pos hn]
    rw [h.hX 0 (by omega), Out.bind_ok, if_neg, h.hX (n - 1) (by omega), Out.bind_ok, if_pos,
      h.hX (n - 2) (by omega), Out.bind_ok, h.hY (n - 2) (by omega), Out.bind_ok,
      h.hY (n - 1) (by omega), Out.bind_ok]
    · rfl
    · change F32.lt (X (n - 1)) x = true
      rw [lt_fin (h.fX _ (by omega)) hx, decide_eq_true_eq]; exact c1
    · change ¬ F32.lt x (X 0) = true
      rw [lt_fin hx (h.fX _ (by omega)), decide_eq_true_eq, not_lt]
      exact (h.mono (by omega) (by omega)).trans c1.le

/-- **C138**: the result is not always between the neighbouring ordinates, and the knots are not reproduced
exactly: at the second knot of this monotone table the result is above its ordinate 7. -/
theorem C138_exact_false :
    linear 0 (F32.lit 13) (some #[F32.lit 0, F32.lit 13, F32.lit 20])
        (some #[F32.lit 0, F32.lit 7, F32.lit 10]) 3 = .ok 0x40E00001#32 ∧
      val (F32.lit 7) = 7 ∧ 7 < val 0x40E00001#32 := by decide +kernel

-- C138: a table meeting the hypotheses
example : TableF #[F32.lit 0, F32.lit 13, F32.lit 20] #[F32.lit 0, F32.lit 7, F32.lit 10] 3
    (fun i => #[F32.lit 0, F32.lit 13, F32.lit 20].getD i 0)
    (fun i => #[F32.lit 0, F32.lit 7, F32.lit 10].getD i 0) 10 := by
  constructor
  · unfold IsTable; decide +kernel
  · unfold IsTable; decide +kernel
  · decide +kernel
  · decide +kernel
  · intro i hi
    have : i = 0 ∨ i = 1 := by omega
    rcases this with rfl | rfl <;> decide +kernel
  · decide +kernel

end Verif.Interp1
