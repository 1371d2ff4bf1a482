import Verif.Ffmath.EllipticRf

/-!
# The complete elliptic integral of the first kind (C108)
-/

namespace Verif.Ffmath

open Verif F32

/-- A state of the loop from which at most `j` further steps are made (not a definition of the repository). -/
structure RFClu (j : ℕ) (m : ℚ) (x y z : BitVec 32) : Prop where
  fx : F32.Finite x
  fy : F32.Finite y
  fz : F32.Finite z
  lo : 4e-5 + j * 1e-10 ≤ m
  x1 : m ≤ val x
  x2 : val x ≤ m * (1 + 0.002 * 3.98 ^ j)
  x3 : val x ≤ 1.1 - j * 1e-5
  y1 : m ≤ val y
  y2 : val y ≤ m * (1 + 0.002 * 3.98 ^ j)
  y3 : val y ≤ 1.1 - j * 1e-5
  z1 : m ≤ val z
  z2 : val z ≤ m * (1 + 0.002 * 3.98 ^ j)
  z3 : val z ≤ 1.1 - j * 1e-5

theorem lamR_bounds {x y z m h : ℝ} (m0 : 0 ≤ m) (x1 : m ≤ x) (x2 : x ≤ h) (y1 : m ≤ y) (y2 : y ≤ h) (z1 : m ≤ z) (z2 : z ≤ h) :
    3 * m ≤ lamR x y z ∧ lamR x y z ≤ 3 * h := by
  have qm := Real.mul_self_sqrt m0
  have qh := Real.mul_self_sqrt (m0.trans (x1.trans x2))
  have a1 := Real.sqrt_le_sqrt x1
  have a2 := Real.sqrt_le_sqrt x2
  have b1 := Real.sqrt_le_sqrt y1
  have b2 := Real.sqrt_le_sqrt y2
  have c1 := Real.sqrt_le_sqrt z1
  have c2 := Real.sqrt_le_sqrt z2
  have s0 := Real.sqrt_nonneg m
  unfold lamR
  generalize Real.sqrt x = X at *
  generalize Real.sqrt y = Y at *
  generalize Real.sqrt z = Z at *
  generalize Real.sqrt m = S at *
  generalize Real.sqrt h = H at *
  constructor
  · have := mul_le_mul a1 b1 s0 (by linarith)
    have := mul_le_mul a1 c1 s0 (by linarith)
    have := mul_le_mul b1 c1 s0 (by linarith)
    linarith
  · have := mul_le_mul a2 b2 (by linarith) (by linarith)
    have := mul_le_mul a2 c2 (by linarith) (by linarith)
    have := mul_le_mul b2 c2 (by linarith) (by linarith)
    linarith

theorem clu_step {j : ℕ} (hj : j ≤ 20) {m : ℚ} {x y z : BitVec 32} (h : RFClu (j + 1) m x y z) :
    ∃ m', RFClu j m' (quarterE x (lambdaE x y z)) (quarterE y (lambdaE x y z)) (quarterE z (lambdaE x y z)) := by
  obtain ⟨fx, fy, fz, lo, x1, x2, x3, y1, y2, y3, z1, z2, z3⟩ := h
  have hj' : (j : ℚ) ≤ 20 := by exact_mod_cast hj
  have hj0 : (0 : ℚ) ≤ j := by positivity
  push_cast at lo x3 y3 z3
  have m0 : 4e-5 ≤ m := by linarith
  have r : ∀ w : BitVec 32, F32.Finite w → m ≤ val w → val w ≤ 1.1 - (j + 1) * 1e-5 → SRange w := fun w fw a b => ⟨fw, .inr (by linarith), by linarith⟩
  have hL := lambda_RN (r x fx x1 x3) (r y fy y1 y3) (r z fz z1 z3)
  obtain ⟨l1, l2⟩ := lamR_bounds (x := (val x : ℝ)) (y := (val y : ℝ)) (z := (val z : ℝ)) (m := (m : ℝ)) (h := ((1.1 - (j + 1) * 1e-5 : ℚ) : ℝ))
    (by exact_mod_cast (by linarith : 0 ≤ m)) (by exact_mod_cast x1) (by exact_mod_cast x3) (by exact_mod_cast y1) (by exact_mod_cast y3)
    (by exact_mod_cast z1) (by exact_mod_cast z3)
  have L1 : 3 * m * (1 - 5.1e-7) ≤ val (lambdaE x y z) := by
    have : ((3 * m * (1 - 5.1e-7) : ℚ) : ℝ) ≤ ((val (lambdaE x y z) : ℚ) : ℝ) := by
      push_cast
      refine le_trans ?_ hL.lo
      exact mul_le_mul_of_nonneg_right l1 (by norm_num)
    exact_mod_cast this
  have L2 : val (lambdaE x y z) ≤ 3 * (1.1 - (j + 1) * 1e-5) * (1 + 3.51e-6) := by
    have : ((val (lambdaE x y z) : ℚ) : ℝ) ≤ ((3 * (1.1 - (j + 1) * 1e-5) * (1 + 3.51e-6) : ℚ) : ℝ) := by
      refine hL.hi.trans ?_
      push_cast at l2 ⊢
      exact mul_le_mul_of_nonneg_right l2 (by norm_num)
    exact_mod_cast this
  have fL := hL.fin
  generalize lambdaE x y z = l at *
  have hR : (0.002 : ℚ) ≤ 0.002 * 3.98 ^ j := by
    have : (1 : ℚ) ≤ 3.98 ^ j := one_le_pow₀ (by norm_num)
    linarith
  have hR2 : (0.002 : ℚ) * 3.98 ^ (j + 1) = 3.98 * (0.002 * 3.98 ^ j) := by rw [pow_succ]; ring
  rw [hR2] at x2 y2 z2
  obtain ⟨R, hRe⟩ : ∃ R : ℚ, (0.002 : ℚ) * 3.98 ^ j = R := ⟨_, rfl⟩
  rw [hRe] at x2 y2 z2 hR
  have key : ∀ w : BitVec 32, F32.Finite w → m ≤ val w → val w ≤ m * (1 + 3.98 * R) → val w ≤ 1.1 - (j + 1) * 1e-5 →
      F32.Finite (quarterE w l) ∧ (m + val l) / 4 * (1 - 6e-8) ≤ val (quarterE w l) ∧
      val (quarterE w l) ≤ (m + val l) / 4 * (1 - 6e-8) * (1 + R) ∧ val (quarterE w l) ≤ 1.1 - j * 1e-5 := by
    intro w fw w1 w2 w3
    obtain ⟨f, a1, a2⟩ := quarter_val fw fL (by linarith) (by linarith)
    refine ⟨f, le_trans ?_ a1, a2.trans ?_, a2.trans ?_⟩
    · linarith
    · have hT : 3.999998 * m ≤ m + val l := by linarith
      generalize hTe : m + val l = T at *
      have e1 : val w + val l ≤ T + m * (3.98 * R) := by linarith
      have e2 : m * (3.98 * R) ≤ T / 3.999998 * (3.98 * R) := mul_le_mul_of_nonneg_right (by rw [le_div_iff₀ (by norm_num)]; linarith) (by linarith)
      have T0 : 0 < T := by linarith
      have e3 : val w + val l ≤ T * (1 + 0.995001 * R) := by
        have : T / 3.999998 * (3.98 * R) ≤ T * (0.995001 * R) := by
          rw [div_mul_eq_mul_div, div_le_iff₀ (by norm_num)]
          nlinarith [mul_nonneg T0.le (by linarith : 0 ≤ R)]
        linarith
      calc (val w + val l) / 4 * (1 + 6e-8) ≤ T * (1 + 0.995001 * R) / 4 * (1 + 6e-8) := by gcongr
        _ = T / 4 * ((1 + 0.995001 * R) * (1 + 6e-8)) := by ring
        _ ≤ T / 4 * ((1 - 6e-8) * (1 + R)) := by
          refine mul_le_mul_of_nonneg_left ?_ (by linarith)
          linarith
        _ = _ := by ring
    · linarith
  obtain ⟨gx, ax, bx, cx⟩ := key x fx x1 x2 x3
  obtain ⟨gy, ay, by', cy⟩ := key y fy y1 y2 y3
  obtain ⟨gz, az, bz, cz⟩ := key z fz z1 z2 z3
  exact ⟨(m + val l) / 4 * (1 - 6e-8), gx, gy, gz, by linarith, ax, by rw [hRe]; exact bx, cx, ay, by rw [hRe]; exact by', cy, az,
    by rw [hRe]; exact bz, cz⟩

/-- The loop from such a state. -/
theorem rf_loop : ∀ (j fuel : ℕ) (m : ℚ) (x y z : BitVec 32), j ≤ 20 → j ≤ fuel → RFClu j m x y z →
    ∃ x' y' z', rfLoop fuel x y z = (x', y', z') ∧ RFClose x' y' z' ∧
      rfR (val x) (val y) (val z) * (1 - j * 1.9e-6) ≤ rfR (val x') (val y') (val z') ∧
      rfR (val x') (val y') (val z') ≤ rfR (val x) (val y) (val z) * (1 + j * 4e-7) := by
  intro j
  induction j with
  | zero =>
    intro fuel m x y z _ _ h
    have h1 : |val x - (val x + val y + val z) / 3| ≤ 0.002 * ((val x + val y + val z) / 3) ∧
        |val y - (val x + val y + val z) / 3| ≤ 0.002 * ((val x + val y + val z) / 3) ∧
        |val z - (val x + val y + val z) / 3| ≤ 0.002 * ((val x + val y + val z) / 3) := by
      obtain ⟨-, -, -, lo, x1, x2, -, y1, y2, -, z1, z2, -⟩ := h
      norm_num at lo x2 y2 z2
      refine ⟨?_, ?_, ?_⟩ <;> rw [_root_.abs_le] <;> constructor <;> linarith
    obtain ⟨fx, fy, fz, lo, x1, x2, x3, y1, y2, y3, z1, z2, z3⟩ := h
    norm_num at lo x3 y3 z3
    have ht := rf_test fx fy fz (by linarith) (by linarith) (by linarith) (by linarith) (by linarith) (by linarith) (by linarith)
    simp only at ht
    have htt := ht.2 h1.1 h1.2.1 h1.2.2
    refine ⟨x, y, z, ?_, ht.1 htt, by simp, by simp⟩
    cases fuel with
    | zero => rfl
    | succ n => rw [rfLoop]; simp only; rw [if_pos htt]
  | succ j ih =>
    intro fuel m x y z hj hf h
    obtain ⟨m', h'⟩ := clu_step (by omega) h
    obtain ⟨fx, fy, fz, lo, x1, x2, x3, y1, y2, y3, z1, z2, z3⟩ := h
    have hjq : ((j + 1 : ℕ) : ℚ) ≤ 20 := by exact_mod_cast hj
    have hjr : ((j + 1 : ℕ) : ℝ) ≤ 20 := by exact_mod_cast hj
    have hj0 : (0 : ℚ) ≤ ((j + 1 : ℕ) : ℚ) := by positivity
    have hj0r : (0 : ℝ) ≤ (j : ℝ) := by positivity
    have m0 : 4e-5 ≤ m := by linarith
    have hd : RFDom (val x) (val y) (val z) := by
      have a1 : (0 : ℝ) < (val x : ℝ) := by exact_mod_cast (by linarith : 0 < val x)
      have a2 : (0 : ℝ) < (val y : ℝ) := by exact_mod_cast (by linarith : 0 < val y)
      have a3 : (0 : ℝ) < (val z : ℝ) := by exact_mod_cast (by linarith : 0 < val z)
      exact ⟨a1.le, a2.le, a3.le, by linarith, by linarith, by linarith⟩
    have hp := rf_pos hd
    have ht := rf_test fx fy fz (by linarith) (by linarith) (by linarith) (by linarith) (by linarith) (by linarith) (by linarith)
    simp only at ht
    obtain ⟨n, rfl⟩ : ∃ n, fuel = n + 1 := ⟨fuel - 1, by omega⟩
    rw [rfLoop]
    simp only
    split
    · rename_i htt
      refine ⟨x, y, z, rfl, ht.1 htt, ?_, ?_⟩
      · nlinarith [(Nat.cast_nonneg (j + 1) : (0 : ℝ) ≤ ((j + 1 : ℕ) : ℝ))]
      · nlinarith [(Nat.cast_nonneg (j + 1) : (0 : ℝ) ≤ ((j + 1 : ℕ) : ℝ))]
    · have hl := (lamR_bounds (x := (val x : ℝ)) (y := (val y : ℝ)) (z := (val z : ℝ)) (m := (m : ℝ)) (h := ((1.1 : ℚ) : ℝ))
        (by exact_mod_cast (by linarith : 0 ≤ m)) (by exact_mod_cast x1) (by exact_mod_cast (by linarith : val x ≤ 1.1)) (by exact_mod_cast y1)
        (by exact_mod_cast (by linarith : val y ≤ 1.1)) (by exact_mod_cast z1) (by exact_mod_cast (by linarith : val z ≤ 1.1))).1
      have hmr : ((4e-5 : ℚ) : ℝ) ≤ (m : ℝ) := by exact_mod_cast m0
      push_cast at hmr
      obtain ⟨-, -, -, s1, s2⟩ := rf_step (x := x) (y := y) (z := z) ⟨fx, .inr (by linarith), by linarith⟩ ⟨fy, .inr (by linarith), by linarith⟩
        ⟨fz, .inr (by linarith), by linarith⟩ hd (by linarith)
      obtain ⟨x', y', z', e, hc, r1, r2⟩ := ih n m' _ _ _ (by omega) (by omega) h'
      refine ⟨x', y', z', e, hc, ?_, ?_⟩
      · refine le_trans ?_ r1
        push_cast at hjr ⊢
        have : (0 : ℝ) ≤ 1 - j * 1.9e-6 := by linarith
        calc rfR (val x) (val y) (val z) * (1 - (j + 1) * 1.9e-6) ≤ rfR (val x) (val y) (val z) * ((1 - 1.8e-6) * (1 - j * 1.9e-6)) := by
              refine mul_le_mul_of_nonneg_left ?_ hp.le
              nlinarith
          _ = rfR (val x) (val y) (val z) * (1 - 1.8e-6) * (1 - j * 1.9e-6) := by ring
          _ ≤ _ := mul_le_mul_of_nonneg_right s1 this
      · refine r2.trans ?_
        push_cast at hjr ⊢
        calc _ ≤ rfR (val x) (val y) (val z) * (1 + 3.6e-7) * (1 + j * 4e-7) := mul_le_mul_of_nonneg_right s2 (by positivity)
          _ = rfR (val x) (val y) (val z) * ((1 + 3.6e-7) * (1 + j * 4e-7)) := by ring
          _ ≤ rfR (val x) (val y) (val z) * (1 + (j + 1) * 4e-7) := by
              refine mul_le_mul_of_nonneg_left ?_ hp.le
              nlinarith

/-- The end of `ellint_rf`. -/
theorem rf_final {x y z : BitVec 32} (h : RFClose x y z) :
    let mu := rfMu x y z
    let r := F32.div (rfSeries (rfDev mu x) (rfDev mu y) (rfDev mu z)) (sqrt mu)
    F32.Finite r ∧ rfR (val x) (val y) (val z) * (1 - 7.4e-6) ≤ (val r : ℝ) ∧ (val r : ℝ) ≤ rfR (val x) (val y) (val z) * (1 + 2e-6) := by
  obtain ⟨fx, fy, fz, m0, m1, dx, dy, dz⟩ := h
  simp only
  obtain ⟨x1, x2⟩ := _root_.abs_le.1 dx
  obtain ⟨y1, y2⟩ := _root_.abs_le.1 dy
  obtain ⟨z1, z2⟩ := _root_.abs_le.1 dz
  obtain ⟨fm, em⟩ := mu_val fx fy fz (by linarith) (by linarith) (by linarith) (by linarith) (by linarith) (by linarith) m0
  generalize rfMu x y z = mu at *
  obtain ⟨e1, e2⟩ := _root_.abs_le.1 em
  have hsum : val x + val y + val z = 3 * ((val x + val y + val z) / 3) := by ring
  generalize (val x + val y + val z) / 3 = M at *
  have mu0 : 0 < val mu := by linarith
  have dv : ∀ w : BitVec 32, F32.Finite w → |val w - M| ≤ 0.00247 * M → F32.Finite (rfDev mu w) ∧ |val (rfDev mu w)| ≤ 0.0025 := by
    intro w fw hw
    obtain ⟨w1, w2⟩ := _root_.abs_le.1 hw
    obtain ⟨f, e⟩ := dev_val fm fw (by linarith) (by linarith) (by linarith) (by linarith)
    refine ⟨f, ?_⟩
    have h3 : |1 - val w / val mu| ≤ 0.00248 := by
      rw [show 1 - val w / val mu = (val mu - val w) / val mu by field_simp, abs_div, abs_of_pos mu0, div_le_iff₀ mu0]
      rw [_root_.abs_le]; constructor <;> linarith
    have := abs_sub_abs_le_abs_sub (val (rfDev mu w)) (1 - val w / val mu)
    linarith
  obtain ⟨gx, bx⟩ := dv x fx dx
  obtain ⟨gy, by'⟩ := dv y fy dy
  obtain ⟨gz, bz⟩ := dv z fz dz
  obtain ⟨fs, es⟩ := series_val gx gy gz bx by' bz
  generalize rfSeries (rfDev mu x) (rfDev mu y) (rfDev mu z) = s at *
  obtain ⟨s1, s2⟩ := _root_.abs_le.1 es
  have hq := sqrt_RN fm (.inr (le_trans (by norm_num) (by linarith : (1e-6 : ℚ) ≤ val mu)))
  have hM0 : (0 : ℝ) < (M : ℝ) := by exact_mod_cast (by linarith : 0 < M)
  have hM5 : (1e-6 : ℝ) ≤ (M : ℝ) := by
    have : ((1e-5 : ℚ) : ℝ) ≤ (M : ℝ) := by exact_mod_cast m0
    push_cast at this; linarith
  have hM2 : (M : ℝ) ≤ 2 := by
    have : (M : ℝ) ≤ ((1.9 : ℚ) : ℝ) := by exact_mod_cast m1
    push_cast at this; linarith
  have hnear := rf_near (x := (val x : ℝ)) (y := (val y : ℝ)) (z := (val z : ℝ)) (m := (M : ℝ)) (e := 0.0025) hM0 (by norm_num) (by exact_mod_cast hsum)
    (by
      have : ((|val x - M| : ℚ) : ℝ) ≤ ((0.00247 * M : ℚ) : ℝ) := by exact_mod_cast dx
      push_cast at this; linarith)
    (by
      have : ((|val y - M| : ℚ) : ℝ) ≤ ((0.00247 * M : ℚ) : ℝ) := by exact_mod_cast dy
      push_cast at this; linarith)
    (by
      have : ((|val z - M| : ℚ) : ℝ) ≤ ((0.00247 * M : ℚ) : ℝ) := by exact_mod_cast dz
      push_cast at this; linarith)
  generalize rfR (val x) (val y) (val z) = F at *
  have e1' : (M : ℝ) * (1 - 2.5e-7) ≤ (val mu : ℝ) := by
    have : ((M * (1 - 2.5e-7) : ℚ) : ℝ) ≤ ((val mu : ℚ) : ℝ) := by exact_mod_cast (by linarith : M * (1 - 2.5e-7) ≤ val mu)
    push_cast at this; exact this
  have e2' : (val mu : ℝ) ≤ (M : ℝ) * (1 + 2.5e-7) := by
    have : ((val mu : ℚ) : ℝ) ≤ ((M * (1 + 2.5e-7) : ℚ) : ℝ) := by exact_mod_cast (by linarith : val mu ≤ M * (1 + 2.5e-7))
    push_cast at this; exact this
  have S0 : 0 < Real.sqrt (M : ℝ) := Real.sqrt_pos.2 hM0
  have SS := Real.sq_sqrt hM0.le
  have q1 : Real.sqrt (M : ℝ) * (1 - 1.3e-7) ≤ Real.sqrt (val mu : ℝ) := by
    refine Real.le_sqrt_of_sq_le (le_trans ?_ e1')
    rw [mul_pow, SS]; exact mul_le_mul_of_nonneg_left (by norm_num) hM0.le
  have q2 : Real.sqrt (val mu : ℝ) ≤ Real.sqrt (M : ℝ) * (1 + 1.3e-7) := by
    refine Real.sqrt_le_iff.2 ⟨by positivity, e2'.trans ?_⟩
    rw [mul_pow, SS]; exact mul_le_mul_of_nonneg_left (by norm_num) hM0.le
  have r1 : Real.sqrt (M : ℝ) * (1 - 3e-7) ≤ (val (sqrt mu) : ℝ) := by
    refine le_trans ?_ hq.lo
    calc Real.sqrt (M : ℝ) * (1 - 3e-7) ≤ Real.sqrt (M : ℝ) * (1 - 1.3e-7) * (1 - 1.6e-7) := by
          rw [mul_assoc]; exact mul_le_mul_of_nonneg_left (by norm_num) S0.le
      _ ≤ _ := mul_le_mul_of_nonneg_right q1 (by norm_num)
  have r2 : (val (sqrt mu) : ℝ) ≤ Real.sqrt (M : ℝ) * (1 + 1.8e-6) := by
    refine hq.hi.trans ?_
    calc _ ≤ Real.sqrt (M : ℝ) * (1 + 1.3e-7) * (1 + 1.66e-6) := mul_le_mul_of_nonneg_right q2 (by norm_num)
      _ ≤ _ := by rw [mul_assoc]; exact mul_le_mul_of_nonneg_left (by norm_num) S0.le
  have fq := hq.fin
  have Slo : 1e-3 ≤ Real.sqrt (M : ℝ) := Real.le_sqrt_of_sq_le (by norm_num at *; linarith)
  have Shi : Real.sqrt (M : ℝ) ≤ 2 := Real.sqrt_le_iff.2 ⟨by norm_num, by linarith⟩
  generalize sqrt mu = q at *
  generalize Real.sqrt (M : ℝ) = S at *
  have q0 : (0 : ℝ) < (val q : ℝ) := by nlinarith
  have q0' : 0 < val q := by exact_mod_cast q0
  have qlo : (9e-4 : ℚ) ≤ val q := by
    have : ((9e-4 : ℚ) : ℝ) ≤ (val q : ℝ) := by push_cast; nlinarith
    exact_mod_cast this
  have qhi : val q ≤ 2.1 := by
    have : (val q : ℝ) ≤ ((2.1 : ℚ) : ℝ) := by push_cast; nlinarith
    exact_mod_cast this
  have d1 : 0.4 ≤ val s / val q := by rw [le_div_iff₀ q0']; linarith
  have d2 : val s / val q ≤ 1200 := by rw [div_le_iff₀ q0']; linarith
  obtain ⟨fr, ε, he, hv⟩ := div_eps fs fq q0'.ne' (by rw [abs_of_pos (by linarith)]; linarith) (by rw [abs_of_pos (by linarith)]; linarith)
  obtain ⟨g1, g2⟩ := _root_.abs_le.1 he
  have g1' : -(1 / 16777216 : ℝ) ≤ (ε : ℝ) := by
    have : ((-(1 / 16777216) : ℚ) : ℝ) ≤ (ε : ℝ) := by exact_mod_cast g1
    push_cast at this; exact this
  have g2' : (ε : ℝ) ≤ 1 / 16777216 := by
    have : (ε : ℝ) ≤ ((1 / 16777216 : ℚ) : ℝ) := by exact_mod_cast g2
    push_cast at this; exact this
  have hv' : ((val (F32.div s q) : ℚ) : ℝ) = (val s : ℝ) / (val q : ℝ) * (1 + (ε : ℝ)) := by rw [hv]; push_cast; ring
  have s1' : (1 - 1.5e-6 : ℝ) ≤ (val s : ℝ) := by
    have : ((1 - 1.5e-6 : ℚ) : ℝ) ≤ (val s : ℝ) := by exact_mod_cast (by linarith : 1 - 1.5e-6 ≤ val s)
    push_cast at this; exact this
  have s2' : (val s : ℝ) ≤ 1 + 1.5e-6 := by
    have : (val s : ℝ) ≤ ((1 + 1.5e-6 : ℚ) : ℝ) := by exact_mod_cast (by linarith : val s ≤ 1 + 1.5e-6)
    push_cast at this; exact this
  refine ⟨fr, ?_, ?_⟩
  · rw [hv']
    have a1 : (1 - 3.31e-6) / S ≤ (val s : ℝ) / (val q : ℝ) := by
      rw [div_le_div_iff₀ S0 q0]
      calc (1 - 3.31e-6) * (val q : ℝ) ≤ (1 - 3.31e-6) * (S * (1 + 1.8e-6)) := mul_le_mul_of_nonneg_left r2 (by norm_num)
        _ = (1 - 3.31e-6) * (1 + 1.8e-6) * S := by ring
        _ ≤ (1 - 1.5e-6) * S := mul_le_mul_of_nonneg_right (by norm_num) S0.le
        _ ≤ _ := mul_le_mul_of_nonneg_right s1' S0.le
    have a0 : (0 : ℝ) ≤ (val s : ℝ) / (val q : ℝ) := div_nonneg (by linarith) q0.le
    calc F * (1 - 7.4e-6) ≤ (1 + 0.6 * 0.0025 ^ 2) / S * (1 - 7.4e-6) := mul_le_mul_of_nonneg_right hnear.2 (by norm_num)
      _ = (1 + 0.6 * 0.0025 ^ 2) * (1 - 7.4e-6) / S := by ring
      _ ≤ (1 - 3.31e-6) * (1 - 1 / 16777216) / S := div_le_div_of_nonneg_right (by norm_num) S0.le
      _ = (1 - 3.31e-6) / S * (1 - 1 / 16777216) := by ring
      _ ≤ (val s : ℝ) / (val q : ℝ) * (1 - 1 / 16777216) := mul_le_mul_of_nonneg_right a1 (by norm_num)
      _ ≤ _ := mul_le_mul_of_nonneg_left (by linarith) a0
  · rw [hv']
    have a1 : (val s : ℝ) / (val q : ℝ) ≤ (1 + 1.81e-6) / S := by
      rw [div_le_div_iff₀ q0 S0]
      calc (val s : ℝ) * S ≤ (1 + 1.5e-6) * S := mul_le_mul_of_nonneg_right s2' S0.le
        _ ≤ (1 + 1.81e-6) * (1 - 3e-7) * S := mul_le_mul_of_nonneg_right (by norm_num) S0.le
        _ = (1 + 1.81e-6) * (S * (1 - 3e-7)) := by ring
        _ ≤ _ := mul_le_mul_of_nonneg_left r1 (by norm_num)
    calc (val s : ℝ) / (val q : ℝ) * (1 + (ε : ℝ)) ≤ (1 + 1.81e-6) / S * (1 + 1 / 16777216) := by
          refine mul_le_mul a1 (by linarith) (by linarith) (div_nonneg (by norm_num) S0.le)
      _ = (1 + 1.81e-6) * (1 + 1 / 16777216) / S := by ring
      _ ≤ (1 * (1 + 2e-6)) / S := div_le_div_of_nonneg_right (by norm_num) S0.le
      _ = 1 / S * (1 + 2e-6) := by ring
      _ ≤ _ := mul_le_mul_of_nonneg_right hnear.1 (by norm_num)

theorem pow_11 : (7900 : ℚ) ≤ 0.002 * 3.98 ^ 11 := by norm_num

theorem one_val : F32.Finite (lit 1) ∧ val (lit 1) = 1 := by decide +kernel

/-- The first step of the loop. -/
theorem rf_first {x y : BitVec 32} (hx : SRange x) (hy : SRange y) (x4 : val x ≤ 1.0001) (y4 : val y ≤ 1.0001) (hxy : 1e-7 ≤ val x + val y) :
    3.1e-4 ≤ lamR (val x) (val y) (val (lit 1)) ∧ (let l := lambdaE x y (lit 1)
    ∃ m, RFClu 11 m (quarterE x l) (quarterE y l) (quarterE (lit 1) l)) := by
  simp only
  have x0 := hx.nonneg
  have y0 := hy.nonneg
  have x0r : (0 : ℝ) ≤ (val x : ℝ) := by exact_mod_cast x0
  have y0r : (0 : ℝ) ≤ (val y : ℝ) := by exact_mod_cast y0
  have hxyr : (1e-7 : ℝ) ≤ (val x : ℝ) + (val y : ℝ) := by
    have : ((1e-7 : ℚ) : ℝ) ≤ ((val x + val y : ℚ) : ℝ) := by exact_mod_cast hxy
    push_cast at this; exact this
  have h1 : SRange (lit 1) := ⟨one_val.1, .inr (by rw [one_val.2]; norm_num), by rw [one_val.2]; norm_num⟩
  have hl : 3.1e-4 ≤ lamR (val x) (val y) (val (lit 1)) := by
    rw [one_val.2]
    unfold lamR
    push_cast
    rw [Real.sqrt_one]
    have ax := Real.sq_sqrt x0r
    have ay := Real.sq_sqrt y0r
    have bx := Real.sqrt_nonneg (val x : ℝ)
    have by' := Real.sqrt_nonneg (val y : ℝ)
    have hp := mul_nonneg bx by'
    have : 3.1e-4 ≤ Real.sqrt (val x : ℝ) + Real.sqrt (val y : ℝ) := by
      by_contra hc
      push Not at hc
      nlinarith
    linarith
  refine ⟨hl, ?_⟩
  have hL := lambda_RN hx hy h1
  have lu : lamR (val x) (val y) (val (lit 1)) ≤ 3.0003 := by
    have := (lamR_bounds (x := (val x : ℝ)) (y := (val y : ℝ)) (z := (val (lit 1) : ℝ)) (m := 0) (h := ((1.0001 : ℚ) : ℝ)) le_rfl x0r (by exact_mod_cast x4) y0r
      (by exact_mod_cast y4) (by rw [one_val.2]; norm_num) (by rw [one_val.2]; norm_num)).2
    refine this.trans ?_
    norm_num
  have L1 : 3.09e-4 ≤ val (lambdaE x y (lit 1)) := by
    have : ((3.09e-4 : ℚ) : ℝ) ≤ ((val (lambdaE x y (lit 1)) : ℚ) : ℝ) := by
      refine le_trans ?_ hL.lo
      push_cast
      calc (3.09e-4 : ℝ) ≤ 3.1e-4 * (1 - 5.1e-7) := by norm_num
        _ ≤ _ := mul_le_mul_of_nonneg_right hl (by norm_num)
    exact_mod_cast this
  have L2 : val (lambdaE x y (lit 1)) ≤ 3.0004 := by
    have : ((val (lambdaE x y (lit 1)) : ℚ) : ℝ) ≤ ((3.0004 : ℚ) : ℝ) := by
      refine hL.hi.trans ?_
      push_cast
      calc _ ≤ 3.0003 * (1 + 3.51e-6) := mul_le_mul_of_nonneg_right lu (by norm_num)
        _ ≤ _ := by norm_num
    exact_mod_cast this
  have fL := hL.fin
  generalize lambdaE x y (lit 1) = l at *
  have key : ∀ w : BitVec 32, F32.Finite w → 0 ≤ val w → val w ≤ 1.0001 →
      F32.Finite (quarterE w l) ∧ val l / 4 * (1 - 6e-8) ≤ val (quarterE w l) ∧
      val (quarterE w l) ≤ val l / 4 * (1 - 6e-8) * (1 + 0.002 * 3.98 ^ 11) ∧ val (quarterE w l) ≤ 1.1 - (11 : ℕ) * 1e-5 := by
    intro w fw w1 w2
    obtain ⟨f, a1, a2⟩ := quarter_val fw fL (by linarith) (by linarith)
    refine ⟨f, le_trans ?_ a1, a2.trans ?_, a2.trans ?_⟩
    · linarith
    · have := pow_11
      calc (val w + val l) / 4 * (1 + 6e-8) ≤ (7900 * val l / 2 + val l) / 4 * (1 + 6e-8) := by
            have : val w ≤ 7900 * val l / 2 := by linarith
            gcongr
        _ = val l / 4 * (3951 * (1 + 6e-8)) := by ring
        _ ≤ val l / 4 * ((1 - 6e-8) * (1 + 0.002 * 3.98 ^ 11)) := by
            refine mul_le_mul_of_nonneg_left ?_ (by linarith)
            linarith
        _ = _ := by ring
    · norm_num; linarith
  obtain ⟨gx, ax, bx, cx⟩ := key x hx.1 x0 x4
  obtain ⟨gy, ay, by', cy⟩ := key y hy.1 y0 y4
  obtain ⟨gz, az, bz, cz⟩ := key (lit 1) one_val.1 (by rw [one_val.2]; norm_num) (by rw [one_val.2]; norm_num)
  exact ⟨val l / 4 * (1 - 6e-8), gx, gy, gz, by norm_num; linarith, ax, bx, cx, ay, by', cy, az, bz, cz⟩

theorem lolim_val : F32.Finite (F32.mul (lit 5) fltMin) ∧ val (F32.mul (lit 5) fltMin) ≤ 1e-37 := by decide +kernel

theorem zero_val : F32.Finite (lit 0) ∧ val (lit 0) = 0 := by decide +kernel

/-- **`ellint_rf( x, y, 1 )` is Carlson's integral to 3.1e-5.** -/
theorem ellintRf_accuracy {x y : BitVec 32} (hx : SRange x) (hy : SRange y) (x4 : val x ≤ 1.0001) (y4 : val y ≤ 1.0001) (hxy : 1e-7 ≤ val x + val y) :
    F32.Finite (ellintRf x y (lit 1)) ∧ rfR (val x) (val y) 1 * (1 - 3.02e-5) ≤ (val (ellintRf x y (lit 1)) : ℝ) ∧
      (val (ellintRf x y (lit 1)) : ℝ) ≤ rfR (val x) (val y) 1 * (1 + 7e-6) := by
  have x0 := hx.nonneg
  have y0 := hy.nonneg
  obtain ⟨f1, v1⟩ := one_val
  have hguard : ¬ (F32.lt x (lit 0) = true ∨ F32.lt y (lit 0) = true ∨ F32.lt (lit 1) (lit 0) = true ∨ F32.lt (F32.add x y) (F32.mul (lit 5) fltMin) = true ∨
      F32.lt (F32.add x (lit 1)) (F32.mul (lit 5) fltMin) = true ∨ F32.lt (F32.add y (lit 1)) (F32.mul (lit 5) fltMin) = true) := by
    have lz : ∀ w : BitVec 32, F32.Finite w → 0 ≤ val w → ¬ F32.lt w (lit 0) = true := by
      intro w fw w0 hc
      rw [lt_fin fw zero_val.1, zero_val.2] at hc
      have := of_decide_eq_true hc
      linarith
    have ls : ∀ a b : BitVec 32, F32.Finite a → F32.Finite b → 1e-7 ≤ val a + val b → val a + val b ≤ 10 → ¬ F32.lt (F32.add a b) (F32.mul (lit 5) fltMin) = true := by
      intro a b fa fb h h2 hc
      obtain ⟨f, ε, he, hv⟩ := add_eps fa fb (by rw [abs_of_pos (by linarith)]; linarith) (by rw [abs_of_pos (by linarith)]; linarith)
      rw [lt_fin f lolim_val.1] at hc
      have := of_decide_eq_true hc
      have h3 := lolim_val.2
      obtain ⟨e1, e2⟩ := _root_.abs_le.1 he
      rw [hv] at this
      have : (val a + val b) * (1 / 2) ≤ (val a + val b) * (1 + ε) := mul_le_mul_of_nonneg_left (by linarith) (by linarith)
      linarith
    push Not
    refine ⟨?_, ?_, ?_, ?_, ?_, ?_⟩
    · simpa using lz x hx.1 x0
    · simpa using lz y hy.1 y0
    · simpa using lz (lit 1) f1 (by rw [v1]; norm_num)
    · simpa using ls x y hx.1 hy.1 hxy (by linarith)
    · simpa using ls x (lit 1) hx.1 f1 (by rw [v1]; linarith) (by rw [v1]; linarith)
    · simpa using ls y (lit 1) hy.1 f1 (by rw [v1]; linarith) (by rw [v1]; linarith)
  have main : ∃ x' y' z', rfLoop 99 x y (lit 1) = (x', y', z') ∧ RFClose x' y' z' ∧
      rfR (val x) (val y) 1 * (1 - 2.279e-5) ≤ rfR (val x') (val y') (val z') ∧
      rfR (val x') (val y') (val z') ≤ rfR (val x) (val y) 1 * (1 + 4.9e-6) := by
    obtain ⟨hl, m, hm⟩ := rf_first hx hy x4 y4 hxy
    have hd : RFDom (val x) (val y) (val (lit 1)) := by
      have a1 : (0 : ℝ) ≤ (val x : ℝ) := by exact_mod_cast x0
      have a2 : (0 : ℝ) ≤ (val y : ℝ) := by exact_mod_cast y0
      have a3 : (0 : ℝ) < (val x : ℝ) + (val y : ℝ) := by exact_mod_cast (by linarith : 0 < val x + val y)
      have a4 : (val (lit 1) : ℝ) = 1 := by rw [v1]; norm_num
      rw [a4]
      exact ⟨a1, a2, by norm_num, a3, by linarith, by linarith⟩
    have hp := rf_pos hd
    obtain ⟨-, -, -, s1, s2⟩ := rf_step hx hy (z := lit 1) ⟨f1, .inr (by rw [v1]; norm_num), by rw [v1]; norm_num⟩ hd (by linarith)
    have e1 : ((val (lit 1) : ℚ) : ℝ) = 1 := by rw [v1]; norm_num
    have ht := rf_test hx.1 hy.1 f1 x0 y0 (by rw [v1]; norm_num) (by linarith) (by linarith) (by rw [v1]; norm_num) (by rw [v1]; linarith)
    simp only at ht
    rw [show rfR (val x) (val y) 1 = rfR (val x) (val y) (val (lit 1)) by rw [e1], rfLoop]
    simp only
    split
    · rename_i htt
      exact ⟨x, y, lit 1, rfl, ht.1 htt, by nlinarith, by nlinarith⟩
    · obtain ⟨x', y', z', e, hc, r1, r2⟩ := rf_loop 11 98 m _ _ _ (by norm_num) (by norm_num) hm
      refine ⟨x', y', z', e, hc, ?_, ?_⟩
      · refine le_trans ?_ r1
        calc _ ≤ rfR (val x) (val y) (val (lit 1)) * ((1 - 1.8e-6) * (1 - ((11 : ℕ) : ℝ) * 1.9e-6)) := mul_le_mul_of_nonneg_left (by norm_num) hp.le
          _ = rfR (val x) (val y) (val (lit 1)) * (1 - 1.8e-6) * (1 - ((11 : ℕ) : ℝ) * 1.9e-6) := by ring
          _ ≤ _ := mul_le_mul_of_nonneg_right s1 (by norm_num)
      · refine r2.trans ?_
        calc _ ≤ rfR (val x) (val y) (val (lit 1)) * (1 + 3.6e-7) * (1 + ((11 : ℕ) : ℝ) * 4e-7) := mul_le_mul_of_nonneg_right s2 (by norm_num)
          _ = rfR (val x) (val y) (val (lit 1)) * ((1 + 3.6e-7) * (1 + ((11 : ℕ) : ℝ) * 4e-7)) := by ring
          _ ≤ _ := mul_le_mul_of_nonneg_left (by norm_num) hp.le
  obtain ⟨x', y', z', e, hc, r1, r2⟩ := main
  have hfin := rf_final hc
  simp only at hfin
  obtain ⟨ff, g1, g2⟩ := hfin
  have heq : ellintRf x y (lit 1) = F32.div (rfSeries (rfDev (rfMu x' y' z') x') (rfDev (rfMu x' y' z') y') (rfDev (rfMu x' y' z') z')) (sqrt (rfMu x' y' z')) := by
    unfold ellintRf
    simp only
    rw [if_neg hguard, e]
  rw [heq]
  have hp : 0 < rfR (val x) (val y) 1 := by
    refine rf_pos ?_
    have a1 : (0 : ℝ) ≤ (val x : ℝ) := by exact_mod_cast x0
    have a2 : (0 : ℝ) ≤ (val y : ℝ) := by exact_mod_cast y0
    have a3 : (0 : ℝ) < (val x : ℝ) + (val y : ℝ) := by exact_mod_cast (by linarith : 0 < val x + val y)
    exact ⟨a1, a2, by norm_num, a3, by linarith, by linarith⟩
  generalize F32.div (rfSeries (rfDev (rfMu x' y' z') x') (rfDev (rfMu x' y' z') y') (rfDev (rfMu x' y' z') z')) (sqrt (rfMu x' y' z')) = r at *
  generalize rfR (val x') (val y') (val z') = G at *
  generalize rfR (val x) (val y) 1 = F at *
  refine ⟨ff, le_trans ?_ g1, g2.trans ?_⟩
  · calc F * (1 - 3.02e-5) ≤ F * ((1 - 2.279e-5) * (1 - 7.4e-6)) := mul_le_mul_of_nonneg_left (by norm_num) hp.le
      _ = F * (1 - 2.279e-5) * (1 - 7.4e-6) := by ring
      _ ≤ _ := mul_le_mul_of_nonneg_right r1 (by norm_num)
  · calc G * (1 + 2e-6) ≤ F * (1 + 4.9e-6) * (1 + 2e-6) := mul_le_mul_of_nonneg_right r2 (by norm_num)
      _ = F * ((1 + 4.9e-6) * (1 + 2e-6)) := by ring
      _ ≤ _ := mul_le_mul_of_nonneg_left (by norm_num) hp.le

/-- The largest float below one. -/
theorem below_one {w : BitVec 32} (h : val w < 1) : val w ≤ 1 - 1 / 16777216 := by
  have e1 : val (0x3F800000#32) = 1 := by decide +kernel
  have e2 : val (0x3F7FFFFF#32) = 1 - 1 / 16777216 := by decide +kernel
  rw [← e1, ← not_le, val_le_iff] at h
  rw [← e2, val_le_iff]
  have k1 : key (0x3F800000#32) = key (0x3F7FFFFF#32) + 1 := by decide +kernel
  omega

/-- The square of a number below one, rounded. -/
theorem comp_arg {k : BitVec 32} (fk : F32.Finite k) (hk : |val k| < 1) :
    let y := F32.sub (lit 1) (F32.mul k k)
    F32.Finite y ∧ 1e-7 ≤ val y ∧ val y ≤ 1 ∧ |val y - (1 - val k ^ 2)| ≤ 6.1e-8 := by
  simp only
  obtain ⟨f1, v1⟩ := one_val
  have k1 : |val k| ≤ 1 - 1 / 16777216 := by
    have h1 := below_one (w := absolute k) (by rw [absolute_val]; exact hk)
    rwa [absolute_val] at h1
  have ksq : val k * val k ≤ (1 - 1 / 16777216) * (1 - 1 / 16777216) := by
    rw [← abs_mul_abs_self (val k)]
    exact mul_le_mul k1 k1 (abs_nonneg _) (by norm_num)
  have k0 : 0 ≤ val k * val k := mul_self_nonneg _
  have hm := mul_fin fk fk
  have e := rnd_err' (s := neg k ^^ neg k) (q := val k * val k) (by rw [abs_of_nonneg k0]; linarith)
  have fp : F32.Finite (F32.mul k k) := by rw [hm]; exact rnd_finite' (by rw [abs_of_nonneg k0]; linarith)
  have hp1 : val (F32.mul k k) ≤ 1 - 1 / 8388608 := by
    rw [hm]
    refine (rnd_mono (t := false) ksq).trans ?_
    decide +kernel
  have hp0 : 0 ≤ val (F32.mul k k) := by
    rw [hm, ← zero_val.2]
    exact le_rnd zero_val.1 (by rw [zero_val.2]; exact k0)
  rw [← hm, abs_of_nonneg k0] at e
  generalize F32.mul k k = p at *
  obtain ⟨fy, ε, he, hv⟩ := sub_eps f1 fp (by rw [v1, abs_of_pos (by linarith)]; linarith) (by rw [v1, abs_of_pos (by linarith)]; linarith)
  obtain ⟨g1, g2⟩ := _root_.abs_le.1 he
  obtain ⟨e1, e2⟩ := _root_.abs_le.1 e.2
  rw [v1] at hv
  have t0 : 0 ≤ 1 - val p := by linarith
  have t1 : (1 - val p) * ε ≤ (1 - val p) * (1 / 16777216) := mul_le_mul_of_nonneg_left g2 t0
  have t2 : (1 - val p) * -(1 / 16777216) ≤ (1 - val p) * ε := mul_le_mul_of_nonneg_left g1 t0
  refine ⟨fy, ?_, ?_, ?_⟩
  · rw [hv]; linarith
  · rw [sub_fin f1 fp]
    exact (rnd_le f1 (by linarith)).trans v1.le
  · rw [hv, _root_.abs_le, pow_two]; constructor <;> linarith

/-- Carlson's integral when its second argument is changed. -/
theorem rf_second {y y' d : ℝ} (y0 : 0 < y) (hd : |y' - y| ≤ d) (h : d ≤ 0.52 * y) :
    rfR 0 y 1 * (1 - 0.9 * (d / y)) ≤ rfR 0 y' 1 ∧ rfR 0 y' 1 ≤ rfR 0 y 1 * (1 + 0.9 * (d / y)) := by
  obtain ⟨a1, a2⟩ := _root_.abs_le.1 hd
  have d0 : 0 ≤ d := (abs_nonneg _).trans hd
  have hdom : RFDom 0 y 1 := ⟨le_rfl, y0.le, by norm_num, by linarith, by norm_num, by linarith⟩
  have hp := rf_pos hdom
  obtain ⟨t, ht⟩ : ∃ t, t = d / y := ⟨_, rfl⟩
  have hdt : d = t * y := by rw [ht]; field_simp
  have t0 : 0 ≤ t := by rw [ht]; positivity
  have t1 : t ≤ 0.52 := by rw [ht, div_le_iff₀ y0]; exact h
  rw [← ht]
  have y0' : 0 < y' := by nlinarith
  have hdom' : RFDom 0 y' 1 := ⟨le_rfl, y0'.le, by norm_num, by linarith, by norm_num, by linarith⟩
  constructor
  · have s := rf_scale hdom (c := 1 + t) (by linarith)
    have hm : rfR ((1 + t) * 0) ((1 + t) * y) ((1 + t) * 1) ≤ rfR 0 y' 1 := rf_anti hdom' (by simp) (by nlinarith) (by linarith)
    rw [s] at hm
    refine le_trans ?_ hm
    have q : √(1 + t) ≤ 1 + t / 2 := Real.sqrt_le_iff.2 ⟨by linarith, by nlinarith⟩
    have q0 : 0 < √(1 + t) := Real.sqrt_pos.2 (by linarith)
    rw [le_div_iff₀ q0, mul_assoc]
    have : (1 - 0.9 * t) * √(1 + t) ≤ 1 := by nlinarith
    nlinarith
  · have hs : RFDom ((1 - t) * 0) ((1 - t) * y) ((1 - t) * 1) := by
      have : 0 < (1 - t) * y := mul_pos (by linarith) y0
      refine ⟨by simp, this.le, by linarith, by linarith, by linarith, by linarith⟩
    have s := rf_scale hdom (c := 1 - t) (by linarith)
    have hm : rfR 0 y' 1 ≤ rfR ((1 - t) * 0) ((1 - t) * y) ((1 - t) * 1) := rf_anti hs (by simp) (by nlinarith) (by linarith)
    rw [s] at hm
    refine hm.trans ?_
    have q0 : 0 < √(1 - t) := Real.sqrt_pos.2 (by linarith)
    rw [div_le_iff₀ q0, mul_assoc]
    have : 1 ≤ (1 + 0.9 * t) * √(1 - t) := by
      have : 1 / (1 + 0.9 * t) ≤ √(1 - t) := by
        refine Real.le_sqrt_of_sq_le ?_
        rw [div_pow, div_le_iff₀ (by positivity)]
        nlinarith [mul_nonneg t0 (sub_nonneg.2 t1), mul_nonneg (mul_nonneg t0 t0) (sub_nonneg.2 t1)]
      rwa [div_le_iff₀' (by positivity)] at this
    nlinarith

/-- **C108, accuracy.** For every float `k` strictly between -1 and 1 the library's complete elliptic integral of the first kind is a
finite number, within `3.1e-5 + 6e-8/(1 - k^2)` of the integral, relatively. -/
theorem C108_comp_ellint_1 {k : BitVec 32} (fk : F32.Finite k) (hk : |val k| < 1) :
    let K := ∫ θ in (0 : ℝ)..(Real.pi / 2), 1 / √(1 - (val k : ℝ) ^ 2 * Real.sin θ ^ 2)
    F32.Finite (comp_ellint_1 k) ∧ |(val (comp_ellint_1 k) : ℝ) - K| ≤ (3.1e-5 + 6e-8 / (1 - (val k : ℝ) ^ 2)) * K := by
  simp only
  obtain ⟨fy, y1, y2, ey⟩ := comp_arg fk hk
  have hkr : |((val k : ℚ) : ℝ)| < 1 := by exact_mod_cast hk
  rw [← rf_legendre hkr]
  have hkm : |val k| ≤ 1 - 1 / 16777216 := by
    have h1 := below_one (w := absolute k) (by rw [absolute_val]; exact hk)
    rwa [absolute_val] at h1
  have kq : 1.19e-7 ≤ 1 - val k ^ 2 := by
    rw [← sq_abs]
    have : |val k| ^ 2 ≤ (1 - 1 / 16777216) ^ 2 := pow_le_pow_left₀ (abs_nonneg _) hkm 2
    linarith
  have kr : (1.19e-7 : ℝ) ≤ 1 - (val k : ℝ) ^ 2 := by
    have : ((1.19e-7 : ℚ) : ℝ) ≤ ((1 - val k ^ 2 : ℚ) : ℝ) := by exact_mod_cast kq
    push_cast at this; exact this
  have eyr : |(val (F32.sub (lit 1) (F32.mul k k)) : ℝ) - (1 - (val k : ℝ) ^ 2)| ≤ 6.1e-8 := by
    have : ((|val (F32.sub (lit 1) (F32.mul k k)) - (1 - val k ^ 2)| : ℚ) : ℝ) ≤ ((6.1e-8 : ℚ) : ℝ) := by exact_mod_cast ey
    push_cast at this; exact this
  have heq : comp_ellint_1 k = ellintRf (lit 0) (F32.sub (lit 1) (F32.mul k k)) (lit 1) := by
    unfold comp_ellint_1
    rw [if_neg]
    rintro (h | h)
    · exact fk.notNaN h
    · rw [le_fin one_val.1 (absolute_finite.2 fk), absolute_val, one_val.2] at h
      have := of_decide_eq_true h
      linarith
  rw [heq]
  obtain ⟨z1, z2⟩ := zero_val
  obtain ⟨ff, g1, g2⟩ := ellintRf_accuracy (x := lit 0) (y := F32.sub (lit 1) (F32.mul k k)) ⟨z1, .inl z2, by rw [z2]; norm_num⟩ ⟨fy, .inr (by linarith), by linarith⟩
    (by rw [z2]; norm_num) (by linarith) (by rw [z2]; linarith)
  have z3 : ((val (lit 0) : ℚ) : ℝ) = 0 := by rw [z2]; norm_num
  rw [z3] at g1 g2
  refine ⟨ff, ?_⟩
  obtain ⟨s1, s2⟩ := rf_second (by linarith) eyr (by linarith)
  have hp : 0 < rfR 0 (1 - (val k : ℝ) ^ 2) 1 := rf_pos ⟨le_rfl, by linarith, by norm_num, by linarith, by norm_num, by linarith⟩
  generalize (val (ellintRf (lit 0) (F32.sub (lit 1) (F32.mul k k)) (lit 1)) : ℝ) = r at *
  generalize rfR 0 (val (F32.sub (lit 1) (F32.mul k k)) : ℝ) 1 = G at *
  generalize rfR 0 (1 - (val k : ℝ) ^ 2) 1 = F at *
  generalize 1 - (val k : ℝ) ^ 2 = w at *
  have w0 : 0 < w := by linarith
  obtain ⟨t, ht⟩ : ∃ t, t = 1e-8 / w := ⟨_, rfl⟩
  have t0 : 0 ≤ t := by rw [ht]; positivity
  have t1 : t ≤ 0.0841 := by rw [ht, div_le_iff₀ w0]; linarith
  rw [show (6.1e-8 : ℝ) / w = 6.1 * t by rw [ht]; ring] at s1 s2
  rw [show (6e-8 : ℝ) / w = 6 * t by rw [ht]; ring]
  rw [_root_.abs_le]
  constructor
  · have : F * (1 - 0.9 * (6.1 * t)) * (1 - 3.02e-5) ≤ r := (mul_le_mul_of_nonneg_right s1 (by norm_num)).trans g1
    have : F * (1 - 3.1e-5 - 6 * t) ≤ F * ((1 - 0.9 * (6.1 * t)) * (1 - 3.02e-5)) := mul_le_mul_of_nonneg_left (by linarith) hp.le
    linarith
  · have : r ≤ F * (1 + 0.9 * (6.1 * t)) * (1 + 7e-6) := g2.trans (mul_le_mul_of_nonneg_right s2 (by norm_num))
    have : F * ((1 + 0.9 * (6.1 * t)) * (1 + 7e-6)) ≤ F * (1 + 3.1e-5 + 6 * t) := mul_le_mul_of_nonneg_left (by linarith) hp.le
    linarith

end Verif.Ffmath
