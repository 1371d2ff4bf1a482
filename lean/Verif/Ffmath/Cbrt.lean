import Verif.Ffmath.Recip
import Verif.F32.Poly

/-!
# Accuracy of `cbrt` and `rCbrt` (C78)

IEEE binary32 arithmetic: a seed from the bit pattern, one step of third order and one correction.
-/

namespace Verif.Ffmath

open Verif F32

theorem mul_cube_form (a b c d : ℚ) : a * b * (c * d) ^ 3 = a * c ^ 3 * (b * (d * d * d)) := by ring

theorem cube_exp {E j s : ℕ} {n : ℤ} (h : (E : ℤ) - 150 + (3 * ((s : ℤ) - j) - 450) = n) (hj : j ≤ s) :
    (2 : ℚ) ^ ((E : ℤ) - 150) * (2 ^ (((s - j : ℕ) : ℤ) - 150) * 2 ^ (((s - j : ℕ) : ℤ) - 150) *
      2 ^ (((s - j : ℕ) : ℤ) - 150)) = 2 ^ n := by
  rw [← zpow_add₀ (by norm_num), ← zpow_add₀ (by norm_num), ← zpow_add₀ (by norm_num)]
  congr 1
  omega

/-- A cubic in `h` plus a small remainder. -/
theorem cubic_rem {A B h r N lo hi M : ℚ} (hr0 : 0 ≤ r) (hr1 : r ≤ 2) (hB0 : 0 ≤ B - h) (hBM : (B - h) ^ 3 ≤ M)
    (hN : 0 ≤ N) (h1 : lo ≤ (A + 3 * h) * (B - h) ^ 3 * N) (h2 : (A + 3 * h) * (B - h) ^ 3 * N ≤ hi) {hi' : ℚ}
    (h3 : hi + 2 * M * N ≤ hi') :
    lo ≤ (A + 3 * h + r) * (B - h) ^ 3 * N ∧ (A + 3 * h + r) * (B - h) ^ 3 * N ≤ hi' := by
  have c0 : 0 ≤ (B - h) ^ 3 := by positivity
  have e : (A + 3 * h + r) * (B - h) ^ 3 * N = (A + 3 * h) * (B - h) ^ 3 * N + r * (B - h) ^ 3 * N := by ring
  have r0 : 0 ≤ r * (B - h) ^ 3 * N := by positivity
  have r1 : r * (B - h) ^ 3 * N ≤ 2 * M * N := by
    apply mul_le_mul_of_nonneg_right _ hN
    exact mul_le_mul hr1 hBM c0 (by norm_num)
  rw [e]
  constructor <;> linarith

/-- The seed of `cbrt`: `x y³` is in a narrow interval. -/
theorem cbrt_seed {m : Nat} (h1 : 8388608 ≤ m) (h2 : m < 2139095040) :
    0.642 ≤ mval m * mval (1418472267 - m / 3) ^ 3 ∧ mval m * mval (1418472267 - m / 3) ^ 3 ≤ 0.7622 := by
  obtain ⟨E, F, hE, hF, rfl⟩ : ∃ E F, 1 ≤ E ∧ F < 8388608 ∧ m = E * 8388608 + F :=
    ⟨m / 8388608, m % 8388608, by omega, Nat.mod_lt _ (by norm_num), by omega⟩
  rw [mval_lin hE hF.le]
  obtain ⟨j, k, hk, hEj⟩ : ∃ j k, k < 3 ∧ E = 3 * j + k := ⟨E / 3, E % 3, by omega, by omega⟩
  obtain ⟨h, r, hr, hF2⟩ : ∃ h r, r < 3 ∧ k * 8388608 + F = 3 * h + r :=
    ⟨(k * 8388608 + F) / 3, (k * 8388608 + F) % 3, by omega, by omega⟩
  have hdiv : (E * 8388608 + F) / 3 = j * 8388608 + h := by omega
  rw [hdiv]
  have hj : j ≤ 85 := by omega
  have r0 : (0 : ℚ) ≤ r := Nat.cast_nonneg r
  have r1 := (Nat.cast_le (α := ℚ)).2 (by omega : r ≤ 2)
  push_cast at r1
  have hq0 : (0 : ℚ) ≤ h := Nat.cast_nonneg h
  have hFq : (F : ℚ) = 3 * h + r - k * 8388608 := by
    have := congrArg (Nat.cast (R := ℚ)) hF2
    push_cast at this; linarith
  rcases le_or_gt h 797515 with hc | hc
  · have hk0 : k = 0 := by omega
    subst hk0
    simp only [Nat.zero_mul, Nat.zero_add, Nat.add_zero] at hF2 hEj
    rw [show 1418472267 - (j * 8388608 + h) = (169 - j) * 8388608 + (797515 - h) by omega,
      mval_lin (by omega) (by omega), mul_cube_form,
      show 8388608 + (797515 - h) = 9186123 - h by omega, Nat.cast_sub (show h ≤ 9186123 by omega)]
    push_cast at hFq
    rw [cube_exp (n := -93) (by omega) (by omega)]
    have hc1 := (Nat.cast_le (α := ℚ)).2 (by omega : 0 ≤ h)
    have hc2 := (Nat.cast_le (α := ℚ)).2 (by omega : h ≤ 797515)
    push_cast at hc1 hc2 ⊢
    have key := pcheckQ (p := padd [-6932464219998129539435095654] (pmul [8388608, 3] (pmul [9186123, -1] (pmul [9186123, -1] [9186123, -1]))))
      (a := 0) (r := 12500) (n := 32) (e := 573413826196988143333274340) (by decide +kernel) (by norm_num) h (by linarith)
      (by norm_num; linarith)
    simp only [pmul, padd, psmul, List.map_cons, List.map_nil, pevalQ_cons, pevalQ_nil] at key
    rw [_root_.abs_le] at key
    rw [hFq, show (8388608 : ℚ) + (3 * h + r - 0 * 8388608) = 8388608 + 3 * h + r by ring,
      show (2 : ℚ) ^ (-93 : ℤ) = 1 / 9903520314283042199192993792 by norm_num]
    refine cubic_rem (lo := 0.642) (hi := 0.762) (M := 9186123 ^ 3) r0 r1 (by linarith)
      (pow_le_pow_left₀ (by linarith) (by linarith) 3) (by norm_num) ?_ ?_ (by norm_num)
    · rw [mul_one_div, le_div_iff₀ (by norm_num)]; linarith [key.1]
    · rw [mul_one_div, div_le_iff₀ (by norm_num)]; linarith [key.2]
  · rw [show 1418472267 - (j * 8388608 + h) = (168 - j) * 8388608 + (9186123 - h) by omega,
      mval_lin (by omega) (by omega), mul_cube_form,
      show 8388608 + (9186123 - h) = 17574731 - h by omega, Nat.cast_sub (show h ≤ 17574731 by omega)]
    obtain rfl | rfl | rfl : k = 0 ∨ k = 1 ∨ k = 2 := by omega
    · push_cast at hFq
      simp only [Nat.zero_mul, Nat.zero_add, Nat.add_zero] at hF2 hEj
      rw [cube_exp (n := -96) (by omega) (by omega)]
      have hc1 := (Nat.cast_le (α := ℚ)).2 (by omega : 797515 ≤ h)
      have hc2 := (Nat.cast_le (α := ℚ)).2 (by omega : h ≤ 2796202)
      push_cast at hc1 hc2 ⊢
      have key := pcheckQ (p := padd [-55459713759985036315480765235] (pmul [8388608, 3] (pmul [17574731, -1] (pmul [17574731, -1] [17574731, -1]))))
        (a := 797515) (r := 7850) (n := 128) (e := 4587310609575905146666194724) (by decide +kernel) (by norm_num) h (by linarith)
        (by norm_num; linarith)
      simp only [pmul, padd, psmul, List.map_cons, List.map_nil, pevalQ_cons, pevalQ_nil] at key
      rw [_root_.abs_le] at key
      rw [hFq, show (8388608 : ℚ) + (3 * h + r - 0 * 8388608) = 8388608 + 3 * h + r by ring,
        show (2 : ℚ) ^ (-96 : ℤ) = 1 / 79228162514264337593543950336 by norm_num]
      refine cubic_rem (lo := 0.642) (hi := 0.762) (M := 17574731 ^ 3) r0 r1 (by linarith)
        (pow_le_pow_left₀ (by linarith) (by linarith) 3) (by norm_num) ?_ ?_ (by norm_num)
      · rw [mul_one_div, le_div_iff₀ (by norm_num)]; linarith [key.1]
      · rw [mul_one_div, div_le_iff₀ (by norm_num)]; linarith [key.2]
    · push_cast at hFq
      rw [cube_exp (n := -95) (by omega) (by omega)]
      have hc1 := (Nat.cast_le (α := ℚ)).2 (by omega : 2796202 ≤ h)
      have hc2 := (Nat.cast_le (α := ℚ)).2 (by omega : h ≤ 5592405)
      push_cast at hc1 hc2 ⊢
      have key := pcheckQ (p := padd [-28621173708277991955667752058] (pmul [0, 3] (pmul [17574731, -1] (pmul [17574731, -1] [17574731, -1]))))
        (a := 2796202) (r := 10950) (n := 128) (e := 1568717617782433884352170216) (by decide +kernel) (by norm_num) h (by linarith)
        (by norm_num; linarith)
      simp only [pmul, padd, psmul, List.map_cons, List.map_nil, pevalQ_cons, pevalQ_nil] at key
      rw [_root_.abs_le] at key
      rw [hFq, show (8388608 : ℚ) + (3 * h + r - 1 * 8388608) = 0 + 3 * h + r by ring,
        show (2 : ℚ) ^ (-95 : ℤ) = 1 / 39614081257132168796771975168 by norm_num]
      refine cubic_rem (lo := 0.642) (hi := 0.76215) (M := 17574731 ^ 3) r0 r1 (by linarith)
        (pow_le_pow_left₀ (by linarith) (by linarith) 3) (by norm_num) ?_ ?_ (by norm_num)
      · rw [mul_one_div, le_div_iff₀ (by norm_num)]; linarith [key.1]
      · rw [mul_one_div, div_le_iff₀ (by norm_num)]; linarith [key.2]
    · push_cast at hFq
      rw [cube_exp (n := -94) (by omega) (by omega)]
      have hc1 := (Nat.cast_le (α := ℚ)).2 (by omega : 5592405 ≤ h)
      have hc2 := (Nat.cast_le (α := ℚ)).2 (by omega : h ≤ 8388607)
      push_cast at hc1 hc2 ⊢
      have key := pcheckQ (p := padd [-14037249693464784013136149400] (pmul [-8388608, 3] (pmul [17574731, -1] (pmul [17574731, -1] [17574731, -1]))))
        (a := 5592405) (r := 10950) (n := 128) (e := 1057695969565428906873811736) (by decide +kernel) (by norm_num) h (by linarith)
        (by norm_num; linarith)
      simp only [pmul, padd, psmul, List.map_cons, List.map_nil, pevalQ_cons, pevalQ_nil] at key
      rw [_root_.abs_le] at key
      rw [hFq, show (8388608 : ℚ) + (3 * h + r - 2 * 8388608) = -8388608 + 3 * h + r by ring,
        show (2 : ℚ) ^ (-94 : ℤ) = 1 / 19807040628566084398385987584 by norm_num]
      refine cubic_rem (lo := 0.642) (hi := 0.76215) (M := 17574731 ^ 3) r0 r1 (by linarith)
        (pow_le_pow_left₀ (by linarith) (by linarith) 3) (by norm_num) ?_ ?_ (by norm_num)
      · rw [mul_one_div, le_div_iff₀ (by norm_num)]; linarith [key.1]
      · rw [mul_one_div, div_le_iff₀ (by norm_num)]; linarith [key.2]


theorem quot_range {c y : ℚ} (hc1 : 0.1 ≤ c) (hc2 : c ≤ 10) (hy1 : 1e-14 ≤ y) (hy2 : y ≤ 1e14) :
    1.2e-37 ≤ c / y ∧ c / y ≤ 1.6e37 ∧ 1.2e-37 ≤ c / y ^ 2 ∧ c / y ^ 2 ≤ 1.6e37 := by
  have y0 : 0 < y := lt_of_lt_of_le (by norm_num) hy1
  have y2a : (1e-28 : ℚ) ≤ y ^ 2 := by
    have := pow_le_pow_left₀ (by norm_num) hy1 2
    exact le_trans (by norm_num) this
  have y2b : y ^ 2 ≤ 1e28 := by
    have := pow_le_pow_left₀ y0.le hy2 2
    exact le_trans this (by norm_num)
  refine ⟨?_, ?_, ?_, ?_⟩
  · rw [le_div_iff₀ y0]
    have : (1.2e-37 : ℚ) * y ≤ 1.2e-37 * 1e14 := mul_le_mul_of_nonneg_left hy2 (by norm_num)
    norm_num at this hc1 ⊢; linarith
  · rw [div_le_iff₀ y0]
    have : (1.6e37 : ℚ) * 1e-14 ≤ 1.6e37 * y := mul_le_mul_of_nonneg_left hy1 (by norm_num)
    norm_num at this hc2 ⊢; linarith
  · rw [le_div_iff₀ (by positivity)]
    have : (1.2e-37 : ℚ) * y ^ 2 ≤ 1.2e-37 * 1e28 := mul_le_mul_of_nonneg_left y2b (by norm_num)
    norm_num at this hc1 ⊢; linarith
  · rw [div_le_iff₀ (by positivity)]
    have : (1.6e37 : ℚ) * 1e-28 ≤ 1.6e37 * y ^ 2 := mul_le_mul_of_nonneg_left y2a (by norm_num)
    norm_num at this hc2 ⊢; linarith

theorem scaled_range {q e : ℚ} (h1 : 1.2e-37 ≤ q) (h2 : q ≤ 1.6e37) (he : |e| ≤ 1 / 2) :
    1.2e-38 ≤ |q * (1 + e)| ∧ |q * (1 + e)| ≤ 1.7e38 := by
  obtain ⟨e1, e2⟩ := _root_.abs_le.1 he
  have q0 : 0 < q := lt_of_lt_of_le (by norm_num) h1
  rw [_root_.abs_of_nonneg (mul_nonneg q0.le (by linarith))]
  have a := mul_le_mul_of_nonneg_left (show 1 + e ≤ 3 / 2 by linarith) q0.le
  have b := mul_le_mul_of_nonneg_left (show 1 / 2 ≤ 1 + e by linarith) q0.le
  norm_num at h1 h2 ⊢
  constructor <;> linarith

/-- The rounded `x*y*y` and `x*y*y*y` when `x y³` is of order one. -/
theorem cube_chain {x y : BitVec 32} (fx : Finite x) (fy : Finite y) (hy1 : 1e-14 ≤ val y) (hy2 : val y ≤ 1e14)
    (hc1 : 0.1 ≤ val x * val y ^ 3) (hc2 : val x * val y ^ 3 ≤ 10) :
    Finite (mul (mul x y) y) ∧ Finite (mul (mul (mul x y) y) y) ∧ ∃ e f : ℚ, |e| ≤ 1.2e-7 ∧ |f| ≤ 1.8e-7 ∧
      val (mul (mul x y) y) = val x * val y ^ 2 * (1 + e) ∧
      val (mul (mul (mul x y) y) y) = val x * val y ^ 3 * (1 + f) := by
  obtain ⟨r1, r2, r3, r4⟩ := quot_range hc1 hc2 hy1 hy2
  have y0 : val y ≠ 0 := by
    intro h; rw [h] at hy1; norm_num at hy1
  have q2 : val x * val y ^ 3 / val y ^ 2 = val x * val y := by field_simp
  have q1 : val x * val y ^ 3 / val y = val x * val y ^ 2 := by field_simp
  rw [q1] at r1 r2
  rw [q2] at r3 r4
  obtain ⟨s1, s2⟩ := scaled_range r3 r4 (e := 0) (by norm_num)
  rw [add_zero, _root_.mul_one] at s1 s2
  obtain ⟨fa, a, ha, va⟩ := mul_eps fx fy s1 s2
  have ha' : |a| ≤ 1 / 2 := ha.trans (by norm_num)
  have w : val (mul x y) * val y = val x * val y ^ 2 * (1 + a) := by rw [va]; ring
  obtain ⟨s1, s2⟩ := scaled_range r1 r2 ha'
  rw [← w] at s1 s2
  obtain ⟨fb, b, hb, vb⟩ := mul_eps fa fy s1 s2
  obtain ⟨c, hc, ec⟩ := eps_comb ha hb
  have vb' : val (mul (mul x y) y) = val x * val y ^ 2 * (1 + c) := by rw [vb, w, ← ec]; ring
  have hc' : |c| ≤ 1.2e-7 := hc.trans (by norm_num)
  have w2 : val (mul (mul x y) y) * val y = val x * val y ^ 3 * (1 + c) := by rw [vb']; ring
  obtain ⟨s1, s2⟩ := scaled_range (q := val x * val y ^ 3) (e := c) (le_trans (by norm_num) hc1)
    (hc2.trans (by norm_num)) (hc'.trans (by norm_num))
  rw [← w2] at s1 s2
  obtain ⟨fd, d, hd, vd⟩ := mul_eps fb fy s1 s2
  obtain ⟨g, hg, eg⟩ := eps_comb hc' hd
  refine ⟨fb, fd, c, g, hc', hg.trans (by norm_num), vb', ?_⟩
  rw [vd, w2, ← eg]; ring

/-- The quadratic factor of the step of `compute_cbrt`, not a definition of the repository
(`/repo/src/ffmath.cpp` line 261). -/
def cbQ (c : BitVec 32) : BitVec 32 := sub (lit 1.752319676) (mul c (sub (lit 1.2509524245) (mul (lit 0.5093818292) c)))

theorem cbrt_consts : Finite (lit 1.752319676) ∧ Finite (lit 1.2509524245) ∧ Finite (lit 0.5093818292) ∧
    Finite (div (lit 1) (lit 3)) ∧ Finite (lit 1) ∧ val (lit 1) = 1 ∧
    |val (lit 1.752319676) - 1.752319676| ≤ 6e-8 ∧ |val (lit 1.2509524245) - 1.2509524245| ≤ 6e-8 ∧
    |val (lit 0.5093818292) - 0.5093818292| ≤ 6e-8 ∧ |val (div (lit 1) (lit 3)) - 1 / 3| ≤ 2e-8 := by
  decide +kernel

theorem near_of_q {c : BitVec 32} {q e : ℚ} (f : Finite c) (h : |val c - q| ≤ e) {q' e' : ℝ} (hq : (q : ℝ) = q')
    (he : (e : ℝ) ≤ e') : Near c q' e' := ⟨f, by
  subst hq
  refine le_trans ?_ he
  exact_mod_cast h⟩

theorem Near.errQ {c : BitVec 32} {q e : ℚ} (h : Near c (q : ℝ) (e : ℝ)) : |val c - q| ≤ e := by
  have := h.err
  exact_mod_cast this

theorem cbrt_poly {c : BitVec 32} {t : ℚ} (fc : Finite c) (hc : |val c - t| ≤ 1.4e-7) (h1 : 0.642 ≤ t) (h2 : t ≤ 0.7622) :
    Finite (cbQ c) ∧ |val (cbQ c) - (1.752319676 - t * (1.2509524245 - 0.5093818292 * t))| ≤ 5.2e-7 := by
  obtain ⟨f0, f1, f2, -, -, -, e0, e1, e2, -⟩ := cbrt_consts
  have t1 : (0.642 : ℝ) ≤ (t : ℝ) := by
    have : ((0.642 : ℚ) : ℝ) ≤ (t : ℝ) := by exact_mod_cast h1
    norm_num at this ⊢; exact this
  have t2 : (t : ℝ) ≤ 0.7622 := by
    have : (t : ℝ) ≤ ((0.7622 : ℚ) : ℝ) := by exact_mod_cast h2
    norm_num at this ⊢; exact this
  have nc : Near c (t : ℝ) 1.4e-7 := near_of_q fc hc rfl (by norm_num)
  have n0 : Near (lit 1.752319676) 1.752319676 6e-8 := near_of_q f0 e0 (by norm_num) (by norm_num)
  have n1 : Near (lit 1.2509524245) 1.2509524245 6e-8 := near_of_q f1 e1 (by norm_num) (by norm_num)
  have n2 : Near (lit 0.5093818292) 0.5093818292 6e-8 := near_of_q f2 e2 (by norm_num) (by norm_num)
  suffices H : Near (cbQ c) (1.752319676 - t * (1.2509524245 - 0.5093818292 * t)) 5.2e-7 by
    refine ⟨H.fin, ?_⟩
    have := H.err
    have h3 : ((|val (cbQ c) - (1.752319676 - t * (1.2509524245 - 0.5093818292 * t))| : ℚ) : ℝ) ≤ ((5.2e-7 : ℚ) : ℝ) := by
      push_cast; norm_num at this ⊢; exact this
    exact_mod_cast h3
  unfold cbQ
  generalize (t : ℝ) = s at *
  have a2 : Near _ (0.5093818292 * s) 1.45e-7 := Near.mul 0.51 0.77 1.2e-7 0.4 n2 nc (by norm_num)
    (by rw [abs_of_pos (by linarith)]; linarith) (by norm_num) (by rw [abs_of_pos (by linarith)]; linarith)
    (by norm_num) (by norm_num)
  have a1 : Near _ (1.2509524245 - 0.5093818292 * s) 2.62e-7 := Near.sub 0.93 n1 a2
    (by rw [abs_of_pos (by linarith)]; linarith) (by norm_num) (by norm_num)
  have u1 : 0.86 ≤ 1.2509524245 - 0.5093818292 * s := by linarith
  have u2 : 1.2509524245 - 0.5093818292 * s ≤ 0.925 := by linarith
  have v1 : 0.55 ≤ s * (1.2509524245 - 0.5093818292 * s) :=
    le_trans (by norm_num) (mul_le_mul t1 u1 (by norm_num) (by linarith))
  have v2 : s * (1.2509524245 - 0.5093818292 * s) ≤ 0.71 :=
    le_trans (mul_le_mul t2 u2 (by linarith) (by norm_num)) (by norm_num)
  have a0 : Near _ (s * (1.2509524245 - 0.5093818292 * s)) 3.78e-7 := Near.mul 0.77 0.93 3.33e-7 0.72 nc a1
    (by rw [abs_of_pos (by linarith)]; linarith) (by rw [abs_of_pos (by linarith)]; linarith) (by norm_num)
    (by rw [abs_of_pos (by linarith)]; linarith) (by norm_num) (by norm_num)
  have := Near.sub (e' := 5.2e-7) 1.21 n0 a0 (by rw [abs_of_pos (by linarith)]; linarith) (by norm_num) (by norm_num)
  exact this

/-- The correction factor `1 + (1 - t)/3`. -/
theorem cbrt_corr {p : BitVec 32} {t f : ℚ} (fp : Finite p) (hp : val p = t * (1 + f)) (hf : |f| ≤ 1.8e-7)
    (ht : |t - 1| ≤ 9.2e-5) :
    Finite (add (lit 1) (mul (div (lit 1) (lit 3)) (sub (lit 1) p))) ∧
    |val (add (lit 1) (mul (div (lit 1) (lit 3)) (sub (lit 1) p))) - (1 + (1 / 3) * (1 - t))| ≤ 1.4e-7 := by
  obtain ⟨-, -, -, f3, f1, v1, -, -, -, e3⟩ := cbrt_consts
  have hpt : |val p - t| ≤ 1.81e-7 := by
    rw [hp, show t * (1 + f) - t = f + (t - 1) * f by ring]
    exact (abs_add_le' hf (abs_mul_le' ht hf)).trans (by norm_num)
  have np : Near p (t : ℝ) 1.81e-7 := near_of_q fp hpt rfl (by norm_num)
  have n1 : Near (lit 1) 1 0 := near_of_q (q := 1) (e := 0) f1 (by rw [v1]; norm_num) (by norm_num) (by norm_num)
  have n3 : Near (div (lit 1) (lit 3)) (1 / 3) 2e-8 := near_of_q f3 e3 (by norm_num) (by norm_num)
  have ht' : |(t : ℝ) - 1| ≤ 9.2e-5 := by
    have : ((|t - 1| : ℚ) : ℝ) ≤ ((9.2e-5 : ℚ) : ℝ) := by exact_mod_cast ht
    push_cast at this; norm_num at this ⊢; exact this
  suffices H : Near (add (lit 1) (mul (div (lit 1) (lit 3)) (sub (lit 1) p))) (1 + (1 / 3) * (1 - t)) 1.4e-7 by
    refine ⟨H.fin, ?_⟩
    have := H.err
    have h3 : ((|val (add (lit 1) (mul (div (lit 1) (lit 3)) (sub (lit 1) p))) - (1 + (1 / 3) * (1 - t))| : ℚ) : ℝ)
        ≤ ((1.4e-7 : ℚ) : ℝ) := by
      push_cast; norm_num at this ⊢; exact this
    exact_mod_cast h3
  generalize (t : ℝ) = s at *
  have hs : |1 - s| ≤ 9.2e-5 := by rw [abs_sub_comm]; exact ht'
  have a : Near _ (1 - s) 1.9e-7 := Near.sub 1e-4 n1 np (by norm_num at hs ⊢; linarith) (by norm_num) (by norm_num)
  have hs3 : |1 / 3 * (1 - s)| ≤ 3.1e-5 := by
    rw [abs_mul, abs_of_pos (by norm_num)]; norm_num at hs ⊢; linarith
  have b : Near _ (1 / 3 * (1 - s)) 6.6e-8 := Near.mul 0.334 1e-4 6.51e-8 1e-4 n3 a (by norm_num)
    (hs.trans (by norm_num)) (by norm_num) (by norm_num at hs3 ⊢; linarith) (by norm_num) (by norm_num)
  refine Near.add 1.001 n1 b ?_ (by norm_num) (by norm_num)
  have := abs_add_le 1 (1 / 3 * (1 - s))
  rw [abs_one] at this
  norm_num at this hs3 ⊢; linarith

/-- One relative factor for an additive error. -/
theorem rel_of_abs {v q e d : ℚ} (hq : 1 / 2 ≤ q) (h : |v - q| ≤ e) (he : e * 2 ≤ d) : ∃ g, |g| ≤ d ∧ v = q * (1 + g) := by
  have q0 : 0 < q := by linarith
  refine ⟨(v - q) / q, ?_, by field_simp; ring⟩
  rw [abs_div, abs_of_pos q0, div_le_iff₀ q0]
  have e0 : 0 ≤ e := (abs_nonneg _).trans h
  have : d * (1 / 2) ≤ d * q := mul_le_mul_of_nonneg_left hq (by linarith)
  linarith

theorem cbrt_step {t : ℚ} (h1 : 0.642 ≤ t) (h2 : t ≤ 0.7622) :
    |t * (1.752319676 - t * (1.2509524245 - 0.5093818292 * t)) ^ 3 - 1| ≤ 8.8e-5 := by
  have key := pcheckQ (p := padd [-1] (pmul [0, 1] (pmul [1.752319676, -1.2509524245, 0.5093818292]
      (pmul [1.752319676, -1.2509524245, 0.5093818292] [1.752319676, -1.2509524245, 0.5093818292]))))
    (a := 0.642) (r := 0.00025) (n := 241) (e := 8.8e-5) (by decide +kernel) (by norm_num) t h1
    (by norm_num at h2 ⊢; linarith)
  simp only [pmul, padd, psmul, List.map_cons, List.map_nil, pevalQ_cons, pevalQ_nil] at key
  refine le_trans (le_of_eq ?_) key
  congr 1; ring

theorem compute_cbrt_pos {x : BitVec 32} (hx : Finite x) (h0 : 0 < val x) (r : Bool) :
    compute_cbrt x r =
      let y := 0x548C2B4B#32 - (x / 3#32)
      let y := mul y (cbQ (mul (mul (mul x y) y) y))
      let d := mul (mul x y) y
      mul (add (lit 1) (mul (div (lit 1) (lit 3)) (sub (lit 1) (mul d y)))) (if r then y else d) := by
  have hng : F32.lt x (lit 0) = false := by
    rw [lt_fin hx fin_zero, val_zero]; simpa using h0.le
  unfold compute_cbrt cbQ
  simp only [hng, Bool.false_eq_true, if_false]


/-- What both branches of `compute_cbrt` compute for a positive normal number. -/
theorem cbrt_core {x : BitVec 32} (hx : Finite x) (h : 2 ^ (-126 : ℤ) ≤ val x) :
    ∃ y t a b : ℚ, 0 < y ∧ val x * y ^ 3 = t ∧ |t - 1| ≤ 9.2e-5 ∧ |a| ≤ 4.7e-7 ∧ |b| ≤ 3.5e-7 ∧
      Finite (compute_cbrt x false) ∧ Finite (compute_cbrt x true) ∧
      val (compute_cbrt x false) = val x * y ^ 2 * (1 + 1 / 3 * (1 - t)) * (1 + a) ∧
      val (compute_cbrt x true) = y * (1 + 1 / 3 * (1 - t)) * (1 + b) := by
  have hx0 : 0 < val x := lt_of_lt_of_le (two_zpow_pos _) h
  have hN := pos_toNat hx0
  have hm2 : mag x < 2139095040 := (finite_iff x).1 hx
  have vx : val x = mval (mag x) := by rw [← abs_val, abs_of_pos hx0]
  have hm1 : 8388608 ≤ mag x := by
    rw [← mval_le_iff, ← vx]
    have : mval 8388608 = 2 ^ (-126 : ℤ) := by decide +kernel
    rw [this]; exact h
  have hs := cbrt_seed hm1 hm2
  have hy : (0x548C2B4B#32 - (x / 3#32)).toNat = 1418472267 - mag x / 3 := by
    rw [BitVec.toNat_sub, BitVec.toNat_udiv, hN]
    simp only [BitVec.toNat_ofNat, Nat.reducePow, Nat.reduceMod]
    omega
  obtain ⟨fy, vy⟩ := nat_spec hy (by omega)
  simp only [compute_cbrt_pos hx hx0, if_true, Bool.false_eq_true, if_false]
  generalize 0x548C2B4B#32 - (x / 3#32) = y at *
  rw [← vy, ← vx] at hs
  have yl : 5e-14 ≤ val y := by
    have c : (5e-14 : ℚ) ≤ mval 705440587 := by decide +kernel
    rw [vy]; exact c.trans (mval_le_iff.2 (by omega))
  have yu : val y ≤ 1e13 := by
    have c : mval 1415676065 ≤ (1e13 : ℚ) := by decide +kernel
    rw [vy]; exact le_trans (mval_le_iff.2 (by omega)) c
  clear hy vy hm1 hm2 hN vx
  have y0 : 0 < val y := lt_of_lt_of_le (by norm_num) yl
  generalize hc0 : val x * val y ^ 3 = c0 at *
  obtain ⟨c1, c2⟩ := hs
  obtain ⟨-, fc, -, f, -, hf, -, vc⟩ := cube_chain hx fy (le_trans (by norm_num) yl) (yu.trans (by norm_num))
    (by rw [hc0]; exact le_trans (by norm_num) c1) (by rw [hc0]; exact c2.trans (by norm_num))
  rw [hc0] at vc
  generalize mul (mul (mul x y) y) y = c at *
  have hce : |val c - c0| ≤ 1.4e-7 := by
    rw [vc, show c0 * (1 + f) - c0 = c0 * f by ring]
    refine (abs_mul_le' (X := 0.7622) ?_ hf).trans (by norm_num)
    rw [abs_of_pos (lt_of_lt_of_le (by norm_num) c1)]; exact c2
  obtain ⟨fq, hq⟩ := cbrt_poly fc hce c1 c2
  have hst := cbrt_step c1 c2
  have q1 : 1.04 ≤ 1.752319676 - c0 * (1.2509524245 - 0.5093818292 * c0) := by nlinarith
  have q2 : 1.752319676 - c0 * (1.2509524245 - 0.5093818292 * c0) ≤ 1.21 := by nlinarith
  generalize 1.752319676 - c0 * (1.2509524245 - 0.5093818292 * c0) = Q at *
  generalize cbQ c = q at *
  obtain ⟨g, hg, vq⟩ := rel_of_abs (d := 1.04e-6) (le_trans (by norm_num) q1) hq (by norm_num)
  -- the improved y
  have yQ1 : 5e-14 ≤ val y * Q := by nlinarith
  have yQ2 : val y * Q ≤ 1.21e13 := by nlinarith
  have w : val y * val q = val y * Q * (1 + g) := by rw [vq]; ring
  obtain ⟨s1, s2⟩ := scaled_range (q := val y * Q) (e := g) (le_trans (by norm_num) yQ1) (yQ2.trans (by norm_num))
    (hg.trans (by norm_num))
  rw [← w] at s1 s2
  obtain ⟨fy1, k, hk, vy1⟩ := mul_eps fy fq s1 s2
  obtain ⟨l, hl, el⟩ := eps_comb hg hk
  have vy1' : val (mul y q) = val y * Q * (1 + l) := by rw [vy1, w, ← el]; ring
  have hl' : |l| ≤ 1.11e-6 := hl.trans (by norm_num)
  generalize mul y q = y1 at *
  have l12 := _root_.abs_le.1 hl'
  have y1l : 1e-14 ≤ val y1 := by
    rw [vy1']
    have := mul_le_mul yQ1 (show (1 / 2 : ℚ) ≤ 1 + l by linarith [l12.1]) (by norm_num) (by linarith)
    exact le_trans (by norm_num) this
  have y1u : val y1 ≤ 1e14 := by
    rw [vy1']
    have := mul_le_mul yQ2 (show 1 + l ≤ (2 : ℚ) by linarith [l12.2]) (by linarith [l12.1]) (by norm_num)
    exact this.trans (by norm_num)
  have ht : |val x * val y1 ^ 3 - 1| ≤ 9.2e-5 := by
    obtain ⟨l2, hl2, el2⟩ := eps_comb hl' hl'
    obtain ⟨l3, hl3, el3⟩ := eps_comb hl2 hl'
    have e : val x * val y1 ^ 3 - 1 = (c0 * Q ^ 3 - 1) + (l3 + (c0 * Q ^ 3 - 1) * l3) := by
      rw [vy1', ← hc0]
      have : (1 + l) ^ 3 = 1 + l3 := by rw [← el3, ← el2]; ring
      have : val x * (val y * Q * (1 + l)) ^ 3 = val x * val y ^ 3 * Q ^ 3 * (1 + l) ^ 3 := by ring
      rw [this, ‹(1 + l) ^ 3 = 1 + l3›]; ring
    rw [e]
    exact (abs_add_le' hst (abs_add_le' hl3 (abs_mul_le' hst hl3))).trans (by norm_num)
  obtain ⟨fd, fe, e, f', he, hf', vd, ve⟩ := cube_chain hx fy1 y1l y1u
    (by linarith [(_root_.abs_le.1 ht).1]) (by linarith [(_root_.abs_le.1 ht).2])
  have y10 : 0 < val y1 := lt_of_lt_of_le (by norm_num) y1l
  obtain ⟨r1, r2, -, -⟩ := quot_range (c := val x * val y1 ^ 3) (by linarith [(_root_.abs_le.1 ht).1])
    (by linarith [(_root_.abs_le.1 ht).2]) y1l y1u
  rw [show val x * val y1 ^ 3 / val y1 = val x * val y1 ^ 2 by field_simp] at r1 r2
  generalize htt : val x * val y1 ^ 3 = t at *
  obtain ⟨fw, hw⟩ := cbrt_corr fe ve hf' ht
  generalize mul (mul x y1) y1 = d at *
  generalize add (lit 1) (mul (div (lit 1) (lit 3)) (sub (lit 1) (mul d y1))) = v at *
  have hq1 : |1 / 3 * (1 - t)| ≤ 1 / 3 * 9.2e-5 := abs_mul_le' (by norm_num) (by rw [abs_sub_comm]; exact ht)
  have hq12 := _root_.abs_le.1 hq1
  obtain ⟨u, hu, vu⟩ := rel_of_abs (d := 2.8e-7) (by linarith [hq12.1]) hw (by norm_num)
  obtain ⟨z, hz, ez⟩ := eps_comb (a := 1 / 3 * (1 - t)) hq1 hu
  have vv : val v = 1 + z := by rw [vu, ez]
  have hz' : |z| ≤ 1 / 4 := hz.trans (by norm_num)
  -- the cube root
  obtain ⟨z2, hz2, ez2⟩ := eps_comb hz' he
  have p1 : val v * val d = val x * val y1 ^ 2 * (1 + z2) := by rw [vv, vd, ← ez2]; ring
  obtain ⟨s1, s2⟩ := scaled_range r1 r2 (hz2.trans (by norm_num))
  rw [← p1] at s1 s2
  obtain ⟨fr, m, hm, vr⟩ := mul_eps fw fd s1 s2
  -- the reciprocal cube root
  have p2 : val v * val y1 = val y1 * (1 + z) := by rw [vv]; ring
  obtain ⟨s1, s2⟩ := scaled_range (q := val y1) (e := z) (le_trans (by norm_num) y1l) (y1u.trans (by norm_num))
    (hz'.trans (by norm_num))
  rw [← p2] at s1 s2
  obtain ⟨fr', m', hm', vr'⟩ := mul_eps fw fy1 s1 s2
  obtain ⟨a1, ha1, ea1⟩ := eps_comb he hu
  obtain ⟨a2, ha2, ea2⟩ := eps_comb ha1 hm
  obtain ⟨b1, hb1, eb1⟩ := eps_comb hu hm'
  refine ⟨val y1, t, a2, b1, y10, htt, ht, ha2.trans (by norm_num), hb1.trans (by norm_num), fr, fr', ?_, ?_⟩
  · rw [vr, vu, vd, ← ea2, ← ea1]; ring
  · rw [vr', vu, ← eb1]; ring

/-- Third powers determine relative errors. -/
theorem cube_rel {r z e d : ℝ} (hz : 0 < z) (hr : 0 ≤ r) (h : |r ^ 3 - z ^ 3| ≤ e * z ^ 3) (hd : 0 ≤ d) (hd1 : d ≤ 1)
    (h1 : (1 - d) ^ 3 ≤ 1 - e) (h2 : 1 + e ≤ (1 + d) ^ 3) : |r - z| ≤ d * z := by
  obtain ⟨a, b⟩ := _root_.abs_le.1 h
  have z3 : 0 < z ^ 3 := by positivity
  rw [_root_.abs_le]
  constructor
  · have : ((1 - d) * z) ^ 3 ≤ r ^ 3 := by
      rw [mul_pow]
      have := mul_le_mul_of_nonneg_right h1 z3.le
      linarith
    have := (pow_le_pow_iff_left₀ (mul_nonneg (by linarith) hz.le) hr (by norm_num : (3 : ℕ) ≠ 0)).1 this
    linarith
  · have : r ^ 3 ≤ ((1 + d) * z) ^ 3 := by
      rw [mul_pow]
      have := mul_le_mul_of_nonneg_right h2 z3.le
      linarith
    have := (pow_le_pow_iff_left₀ hr (mul_nonneg (by linarith) hz.le) (by norm_num : (3 : ℕ) ≠ 0)).1 this
    linarith

/-- **C78** (part) `cbrt` is within a relative error of `3.3e-5` of the cube root of every positive normal
float. Missing: negative numbers (`C78_false`) and subnormals. -/
theorem C78_cbrt_partial (x : BitVec 32) (hx : Finite x) (h : 2 ^ (-126 : ℤ) ≤ val x) :
    Finite (cbrt x) ∧ |(val (cbrt x) : ℝ) - (val x : ℝ) ^ (1 / 3 : ℝ)| ≤ 3.3e-5 * (val x : ℝ) ^ (1 / 3 : ℝ) := by
  obtain ⟨y, t, a, b, y0, hyt, ht, ha, -, f, -, v, -⟩ := cbrt_core hx h
  have hx0 : 0 < val x := lt_of_lt_of_le (two_zpow_pos _) h
  refine ⟨f, ?_⟩
  unfold cbrt
  generalize compute_cbrt x false = r at *
  have t12 := _root_.abs_le.1 ht
  have a12 := _root_.abs_le.1 ha
  have hr0 : 0 ≤ val r := by
    rw [v]
    have : 0 ≤ 1 + 1 / 3 * (1 - t) := by linarith [t12.1, t12.2]
    have : 0 ≤ 1 + a := by linarith [a12.1]
    positivity
  have key : |val r ^ 3 - val x| ≤ 9.6e-5 * val x := by
    have e : val r ^ 3 = val x * (t ^ 2 * (1 + 1 / 3 * (1 - t)) ^ 3 * (1 + a) ^ 3) := by
      rw [v, ← hyt]; ring
    have hp : |t ^ 2 * (1 + 1 / 3 * (1 - t)) ^ 3 - 1| ≤ 9.3e-5 := by
      have := pcheckQ (p := padd [-1] (pmul [0, 0, 1] (pmul [4 / 3, -1 / 3] (pmul [4 / 3, -1 / 3] [4 / 3, -1 / 3]))))
        (a := 1 - 9.2e-5) (r := 9.2e-5) (n := 1) (e := 9.3e-5) (by decide +kernel) (by norm_num) t
        (by linarith [t12.1]) (by norm_num at t12 ⊢; linarith [t12.2])
      simp only [pmul, padd, psmul, List.map_cons, List.map_nil, pevalQ_cons, pevalQ_nil] at this
      refine le_trans (le_of_eq ?_) this
      congr 1; ring
    obtain ⟨l2, hl2, el2⟩ := eps_comb ha ha
    obtain ⟨l3, hl3, el3⟩ := eps_comb hl2 ha
    have e3 : (1 + a) ^ 3 = 1 + l3 := by rw [← el3, ← el2]; ring
    rw [e, e3]
    generalize t ^ 2 * (1 + 1 / 3 * (1 - t)) ^ 3 = w at *
    have e4 : val x * (w * (1 + l3)) - val x = val x * ((w - 1) + (l3 + (w - 1) * l3)) := by ring
    rw [e4, abs_mul, abs_of_pos hx0, _root_.mul_comm]
    refine mul_le_mul_of_nonneg_right ?_ hx0.le
    exact (abs_add_le' hp (abs_add_le' hl3 (abs_mul_le' hp hl3))).trans (by norm_num)
  have hxr : (0 : ℝ) < (val x : ℝ) := by exact_mod_cast hx0
  have hz : (0 : ℝ) < (val x : ℝ) ^ (1 / 3 : ℝ) := Real.rpow_pos_of_pos hxr _
  have hz3 : ((val x : ℝ) ^ (1 / 3 : ℝ)) ^ 3 = (val x : ℝ) := by
    rw [← Real.rpow_natCast, ← Real.rpow_mul hxr.le]; norm_num
  refine cube_rel (e := 9.6e-5) hz (by exact_mod_cast hr0) ?_ (by norm_num) (by norm_num) (by norm_num) (by norm_num)
  rw [hz3]
  have : ((|val r ^ 3 - val x| : ℚ) : ℝ) ≤ ((9.6e-5 * val x : ℚ) : ℝ) := by exact_mod_cast key
  push_cast at this
  norm_num at this ⊢; exact this

/-- **C78** (part) `rCbrt` is within a relative error of `4e-7` of the reciprocal cube root of every positive
normal float. Missing: as for `cbrt`. -/
theorem C78_rCbrt_partial (x : BitVec 32) (hx : Finite x) (h : 2 ^ (-126 : ℤ) ≤ val x) :
    Finite (rCbrt x) ∧ |(val (rCbrt x) : ℝ) * (val x : ℝ) ^ (1 / 3 : ℝ) - 1| ≤ 4e-7 := by
  obtain ⟨y, t, a, b, y0, hyt, ht, -, hb, -, f, -, v⟩ := cbrt_core hx h
  have hx0 : 0 < val x := lt_of_lt_of_le (two_zpow_pos _) h
  unfold rCbrt
  rw [if_neg (by rw [classify_zero']; exact hx0.ne')]
  refine ⟨f, ?_⟩
  generalize compute_cbrt x true = r at *
  have t12 := _root_.abs_le.1 ht
  have b12 := _root_.abs_le.1 hb
  have hr0 : 0 ≤ val r := by
    rw [v]
    have : 0 ≤ 1 + 1 / 3 * (1 - t) := by linarith [t12.1, t12.2]
    have : 0 ≤ 1 + b := by linarith [b12.1]
    positivity
  have key : |val r ^ 3 * val x - 1| ≤ 1.1e-6 := by
    have e : val r ^ 3 * val x = t * (1 + 1 / 3 * (1 - t)) ^ 3 * (1 + b) ^ 3 := by
      rw [v, ← hyt]; ring
    have hp : |t * (1 + 1 / 3 * (1 - t)) ^ 3 - 1| ≤ 1e-8 := by
      have := pcheckQ (p := padd [-1] (pmul [0, 1] (pmul [4 / 3, -1 / 3] (pmul [4 / 3, -1 / 3] [4 / 3, -1 / 3]))))
        (a := 1 - 9.2e-5) (r := 9.2e-5) (n := 1) (e := 1e-8) (by decide +kernel) (by norm_num) t
        (by linarith [t12.1]) (by norm_num at t12 ⊢; linarith [t12.2])
      simp only [pmul, padd, psmul, List.map_cons, List.map_nil, pevalQ_cons, pevalQ_nil] at this
      refine le_trans (le_of_eq ?_) this
      congr 1; ring
    obtain ⟨l2, hl2, el2⟩ := eps_comb hb hb
    obtain ⟨l3, hl3, el3⟩ := eps_comb hl2 hb
    have e3 : (1 + b) ^ 3 = 1 + l3 := by rw [← el3, ← el2]; ring
    rw [e, e3]
    generalize t * (1 + 1 / 3 * (1 - t)) ^ 3 = w at *
    have e4 : w * (1 + l3) - 1 = (w - 1) + (l3 + (w - 1) * l3) := by ring
    rw [e4]
    exact (abs_add_le' hp (abs_add_le' hl3 (abs_mul_le' hp hl3))).trans (by norm_num)
  have hxr : (0 : ℝ) < (val x : ℝ) := by exact_mod_cast hx0
  have hz : (0 : ℝ) < (val x : ℝ) ^ (1 / 3 : ℝ) := Real.rpow_pos_of_pos hxr _
  have hz3 : ((val x : ℝ) ^ (1 / 3 : ℝ)) ^ 3 = (val x : ℝ) := by
    rw [← Real.rpow_natCast, ← Real.rpow_mul hxr.le]; norm_num
  have := cube_rel (r := (val r : ℝ) * (val x : ℝ) ^ (1 / 3 : ℝ)) (z := 1) (e := 1.1e-6) (d := 4e-7) (by norm_num)
    (mul_nonneg (by exact_mod_cast hr0) hz.le) ?_ (by norm_num) (by norm_num) (by norm_num) (by norm_num)
  · rwa [_root_.mul_one] at this
  rw [mul_pow, hz3]
  have : ((|val r ^ 3 * val x - 1| : ℚ) : ℝ) ≤ ((1.1e-6 : ℚ) : ℝ) := by exact_mod_cast key
  push_cast at this
  norm_num at this ⊢; exact this

/-- **C78** (negation) The sign bit takes part in the integer division that makes the seed, so the root of a
negative number is lost: `cbrt(-8)` and `cbrt(-1000000)` are zero, `rCbrt(-8)` is of order `1e-26`; infinity
gives minus infinity. -/
theorem C78_false :
    val (cbrt (lit (-8))) = 0 ∧ val (cbrt (lit (-1000000))) = 0 ∧ |val (rCbrt (lit (-8)))| ≤ 1e-25 ∧
      cbrt inf = negate inf := by decide +kernel

/-- **C78** (part) zero of either sign is mapped to zero and its reciprocal root to infinity. -/
theorem C78_zero (x : BitVec 32) (h : val x = 0) : rCbrt x = inf ∧
    val (cbrt (lit 0)) = 0 ∧ val (cbrt (negate (lit 0))) = 0 := by
  refine ⟨?_, by decide +kernel⟩
  unfold rCbrt
  rw [if_pos (by rw [classify_zero']; exact h)]

example : Finite (lit 27) ∧ 2 ^ (-126 : ℤ) ≤ val (lit 27) ∧ |val (cbrt (lit 27)) - 3| ≤ 1e-4 ∧
    |val (rCbrt (lit 27)) - 1 / 3| ≤ 1e-7 := by decide +kernel

end Verif.Ffmath
