import Verif.Rms.Props
import Verif.Smoother.FloatDrift
import Verif.Ffmath.Sqrt

/-!
# The RMS estimator in binary32 (C149)
-/

namespace Verif.Rms

open Arith Smoother F32 Ltisys

/-- `ffmath::sqrt` (model in `Ffmath/FloatModel.lean`) as the square root of `rms::update`, `/repo/src/rms.cpp` line 27; the other
functions are not called. Not a definition of the repository. -/
@[reducible] def sqrtTrans : Trans (BitVec 32) where
  exp := id
  log := id
  sqrt := Ffmath.sqrt
  sin := id
  cos := id
  tanh := id
  pow := fun a _ => a

attribute [local instance] sqrtTrans

/-- One mean update keeps the lower bound `L - D`, where `D * G = 2^-20 * L`. -/
theorem expw_low {iw m x : BitVec 32} {G L D : ℚ} (fi : F32.Finite iw) (fm : F32.Finite m)
    (fx : F32.Finite x) (hG0 : 1 / 65536 ≤ G) (hL : 1e-31 ≤ L)
    (hD : D * G = L / 1048576) (i0 : 49 / 100 * G ≤ val iw) (i1 : val iw ≤ 1)
    (hm : L - D ≤ val m) (hm2 : val m ≤ 1e38) (hx : L ≤ val x) (hx2 : val x ≤ 1e38) :
    L - D ≤ val (F32.add (F32.mul m (F32.sub (F32.lit 1) iw)) (F32.mul iw x)) := by
  have i00 : 0 < val iw := by linarith
  have L0 : 0 < L := lt_of_lt_of_le (by norm_num) hL
  have D0 : 0 ≤ D := by
    by_contra hc
    have : D * G < 0 := mul_neg_of_neg_of_pos (not_le.1 hc) (by linarith)
    rw [hD] at this
    linarith
  have D1 : D ≤ L / 16 := by
    have : D * (1 / 65536) ≤ D * G := mul_le_mul_of_nonneg_left hG0 D0
    rw [hD] at this
    linarith
  have m0 : 0 ≤ val m := by linarith
  have x0 : 0 ≤ val x := by linarith
  -- 1 - iw
  have s0 : 0 ≤ 1 - val iw := by linarith
  have s1 : |1 - val iw| ≤ 1 := by rw [abs_of_nonneg s0]; linarith
  obtain ⟨f1, e1⟩ := rnd_mag (s := (neg (F32.lit 1) && !neg iw)) (s1.trans (by norm_num))
  have z1 := rnd_nonneg (s := (neg (F32.lit 1) && !neg iw)) s0
  have o1 := rnd_le_one (s := (neg (F32.lit 1) && !neg iw)) (q := 1 - val iw) (by linarith)
  rw [sub_fin lit01.2.2.1 fi, lit01.2.2.2]
  rw [abs_of_nonneg s0] at e1
  generalize rnd (neg (F32.lit 1) && !neg iw) (1 - val iw) = S at *
  -- m * (1 - iw)
  have p0 : 0 ≤ val m * val S := mul_nonneg m0 z1
  have p1 : val m * val S ≤ 1e38 := (mul_le_of_le_one_right m0 o1).trans hm2
  have pa : |val m * val S| ≤ 1e38 := by rw [abs_of_nonneg p0]; exact p1
  obtain ⟨f2, e2⟩ := rnd_mag (s := (neg m ^^ neg S)) (pa.trans (by norm_num))
  rw [abs_of_nonneg p0] at e2
  rw [mul_fin fm f1]
  -- iw * x
  have r0 : 0 ≤ val iw * val x := mul_nonneg i00.le x0
  have r1 : val iw * val x ≤ 1e38 := (mul_le_of_le_one_left x0 i1).trans hx2
  have ra : |val iw * val x| ≤ 1e38 := by rw [abs_of_nonneg r0]; exact r1
  obtain ⟨f3, e3⟩ := rnd_mag (s := (neg iw ^^ neg x)) (ra.trans (by norm_num))
  rw [abs_of_nonneg r0] at e3
  rw [mul_fin fi fx]
  have P0 := rnd_nonneg (s := (neg m ^^ neg S)) p0
  have Q0 := rnd_nonneg (s := (neg iw ^^ neg x)) r0
  generalize rnd (neg m ^^ neg S) (val m * val S) = P at *
  generalize rnd (neg iw ^^ neg x) (val iw * val x) = Q at *
  rw [add_fin f2 f3]
  have t0 : 0 ≤ val P + val Q := add_nonneg P0 Q0
  rw [_root_.abs_le] at e1 e2 e3
  have ta : |val P + val Q| ≤ 2.1e38 := by
    rw [abs_of_nonneg t0]; norm_num at e2 e3 p1 r1 ⊢; linarith
  obtain ⟨f4, e4⟩ := rnd_mag (s := (neg P && neg Q)) (ta.trans (by norm_num))
  rw [abs_of_nonneg t0, _root_.abs_le] at e4
  have hZ : 49 / 100 * (L / 1048576) ≤ val iw * D := by
    rw [← hD]
    have := mul_le_mul_of_nonneg_right i0 D0
    linarith
  have hY1 : val iw * L ≤ L := mul_le_of_le_one_left L0.le i1
  have hY0 : 0 ≤ val iw * L := by positivity
  have hr : val iw * L ≤ val iw * val x := mul_le_mul_of_nonneg_left hx i00.le
  have hS : (L - D) * ((1 - val iw) - (1 - val iw) / 16777216 - 1e-45) ≤ val m * val S :=
    (mul_le_mul_of_nonneg_left (by linarith [e1.1]) (by linarith)).trans (mul_le_mul_of_nonneg_right hm z1)
  have hX : (L - D) * ((1 - val iw) - (1 - val iw) / 16777216 - 1e-45) =
      (L - D - val iw * L + val iw * D) * (1 - 1 / 16777216) - (L - D) * 1e-45 := by ring
  rw [hX] at hS
  generalize val iw * L = Y at *
  generalize val iw * D = Z at *
  generalize val m * val S = W at *
  generalize val iw * val x = V at *
  have e21 := e2.1
  have e31 := e3.1
  have e41 := e4.1
  norm_num at hL e21 e31 e41 hS ⊢
  linarith

/-- Value of the default weight `0.99F`. -/
theorem lam99 : F32.Finite (F32.lit (99 / 100)) ∧ 0 < val (F32.lit (99 / 100)) ∧ val (F32.lit (99 / 100)) < 1 ∧
    99999 / 10000000 ≤ 1 - val (F32.lit (99 / 100)) ∧ 1 - val (F32.lit (99 / 100)) ≤ 1 / 100 := by decide +kernel

theorem al75 : F32.Finite (F32.lit (75 / 100)) ∧ 0 < val (F32.lit (75 / 100)) ∧ val (F32.lit (75 / 100)) < 1 := by decide +kernel

/-- Invariant of the first stage. Not a definition of the repository. -/
structure First (L M : ℚ) (s : EXPW (BitVec 32)) : Prop where
  lam : s.lambda = F32.lit (99 / 100)
  fw : F32.Finite s.w
  w1 : 1 ≤ val s.w
  wG : val s.w * (1 - val (F32.lit (99 / 100))) ≤ 2
  m : s.init = false → F32.Finite s.m ∧ L * (1 - 1 / 1048576 / (1 - val (F32.lit (99 / 100)))) ≤ val s.m ∧
    val s.m ≤ M * (1 + 1 / 1048576 / (1 - val (F32.lit (99 / 100))))

theorem first_step {L M : ℚ} (hL : 1e-31 ≤ L) (hM : 1e-30 ≤ M) (hM2 : M ≤ 9e37) (s : EXPW (BitVec 32)) (h : First L M s) (x : BitVec 32)
    (fx : F32.Finite x) (x1 : L ≤ val x) (x2 : val x ≤ M) :
    First L M (s.smooth x).1 ∧ F32.Finite (s.smooth x).2 ∧ L * (1 - 1 / 10000) ≤ val (s.smooth x).2 ∧
      val (s.smooth x).2 ≤ M * (1 + 1 / 10000) := by
  obtain ⟨h1, h2, h3, h4, h5⟩ := h
  obtain ⟨fl, l0, l1, g1, g2⟩ := lam99
  generalize hlam : F32.lit (99 / 100) = lam at *
  obtain ⟨G, hG⟩ : ∃ G, G = 1 - val lam := ⟨_, rfl⟩
  rw [← hG] at g1 g2 h4 h5
  have hG0 : 1 / 65536 ≤ G := by linarith
  have Gp : 0 < G := by linarith
  have L0 : 0 < L := lt_of_lt_of_le (by norm_num) hL
  have M0 : 0 < M := lt_of_lt_of_le (by norm_num) hM
  have eL : L * (1 - 1 / 1048576 / G) = L - L / 1048576 / G := by ring
  have eM : M * (1 + 1 / 1048576 / G) = M + M / 1048576 / G := by ring
  have dL : L / 1048576 / G * G = L / 1048576 := by rw [div_mul_cancel₀]; linarith
  have dM : M / 1048576 / G * G = M / 1048576 := by rw [div_mul_cancel₀]; linarith
  have bL0 : 0 ≤ L / 1048576 / G := by positivity
  have bM0 : 0 ≤ M / 1048576 / G := by positivity
  have bL : L / 1048576 / G ≤ L / 10000 := by
    rw [div_le_iff₀ Gp]; nlinarith
  have bM : M / 1048576 / G ≤ M / 10000 := by
    rw [div_le_iff₀ Gp]; nlinarith
  rw [eL, eM] at h5
  have step : ∀ w m : BitVec 32, F32.Finite w → 1 ≤ val w → val w * G ≤ 2 → F32.Finite m →
      L - L / 1048576 / G ≤ val m → val m ≤ M + M / 1048576 / G →
      let w' := F32.add (F32.mul lam w) (F32.lit 1)
      let iw := F32.div (F32.lit 1) w'
      let m' := F32.add (F32.mul m (F32.sub (F32.lit 1) iw)) (F32.mul iw x)
      (F32.Finite m' ∧ L - L / 1048576 / G ≤ val m' ∧ val m' ≤ M + M / 1048576 / G) ∧ F32.Finite w' ∧ 1 ≤ val w' ∧
        val w' * G ≤ 2 := by
    intro w m a1 a2 a3 a4 a5 a6
    obtain ⟨b1, b2, b3⟩ := expw_weight fl l0 hG hG0 a1 a2 a3
    obtain ⟨c1, c2, c3⟩ := expw_recip b1 b2 b3 hG0
    obtain ⟨k1, k2⟩ := expw_mean c1 a4 fx hG0 hM (by norm_num at hM2 ⊢; linarith) dM c2 c3
      (by rw [abs_of_nonneg (by linarith)]; exact a6) (by rw [abs_of_nonneg (by linarith)]; exact x2)
    have k3 := expw_low c1 a4 fx hG0 hL dL c2 c3 a5 (by norm_num at hM2 ⊢; linarith) x1 (by norm_num at hM2 ⊢; linarith)
    exact ⟨⟨k1, k3, (le_abs_self _).trans k2⟩, b1, b2, b3⟩
  have fin : ∀ s' : EXPW (BitVec 32), s'.lambda = lam → (F32.Finite s'.m ∧ L - L / 1048576 / G ≤ val s'.m ∧
      val s'.m ≤ M + M / 1048576 / G) ∧ F32.Finite s'.w ∧ 1 ≤ val s'.w ∧ val s'.w * G ≤ 2 →
      First L M s' ∧ F32.Finite s'.m ∧ L * (1 - 1 / 10000) ≤ val s'.m ∧ val s'.m ≤ M * (1 + 1 / 10000) := by
    rintro s' q0 ⟨⟨q1, q2, q3⟩, q4, q5, q6⟩
    refine ⟨⟨q0.trans hlam.symm, q4, q5, by rw [hlam, ← hG]; exact q6, fun _ => ⟨q1, ?_, ?_⟩⟩, q1, ?_, ?_⟩
    · rw [hlam, ← hG, eL]; exact q2
    · rw [hlam, ← hG, eM]; exact q3
    · linarith
    · linarith
  have e : (s.smooth x).2 = (s.smooth x).1.m := rfl
  rw [e]
  apply fin
  · unfold EXPW.smooth
    cases s.init <;> exact h1
  · unfold EXPW.smooth
    cases hi : s.init with
    | true =>
      have := step (F32.lit 1) x lit01.2.2.1 (by rw [lit01.2.2.2])
        (by rw [lit01.2.2.2, one_mul]; linarith) fx (by linarith) (by linarith)
      rw [← h1] at this
      exact this
    | false =>
      have := step s.w s.m h2 h3 h4 (h5 hi).1 (h5 hi).2.1 (h5 hi).2.2
      rw [← h1] at this
      exact this

/-- The square of a sample. -/
theorem square_range {a A : ℚ} (ha : 1e-15 ≤ a) (hA : A ≤ 1e18) {x : BitVec 32} (fx : F32.Finite x) (h1 : a ≤ |val x|) (h2 : |val x| ≤ A) :
    F32.Finite (F32.mul x x) ∧ a ^ 2 * (1 - 1 / 10000000) ≤ val (F32.mul x x) ∧ val (F32.mul x x) ≤ A ^ 2 * (1 + 1 / 10000000) := by
  have a0 : 0 < a := lt_of_lt_of_le (by norm_num) ha
  have q1 : a ^ 2 ≤ val x * val x := by
    rw [← abs_mul_abs_self, pow_two]; exact mul_le_mul h1 h1 a0.le (abs_nonneg _)
  have q2 : val x * val x ≤ A ^ 2 := by
    rw [← abs_mul_abs_self, pow_two]; exact mul_le_mul h2 h2 (abs_nonneg _) ((abs_nonneg _).trans h2)
  have A0 : 0 ≤ A := (abs_nonneg _).trans h2
  have q3 : A ^ 2 ≤ 1e36 := (pow_le_pow_left₀ A0 hA 2).trans (by norm_num)
  have q4 : 1e-30 ≤ a ^ 2 := le_trans (by norm_num) (pow_le_pow_left₀ (by norm_num) ha 2)
  have q0 : 0 ≤ val x * val x := mul_self_nonneg _
  have qa : |val x * val x| ≤ 1e36 := by rw [abs_of_nonneg q0]; exact q2.trans q3
  obtain ⟨f, e⟩ := rnd_mag (s := (neg x ^^ neg x)) (qa.trans (by norm_num))
  rw [mul_fin fx fx]
  rw [abs_of_nonneg q0, _root_.abs_le] at e
  obtain ⟨e1, e2⟩ := e
  generalize val x * val x = q at *
  generalize a ^ 2 = b at *
  generalize A ^ 2 = c at *
  refine ⟨f, ?_, ?_⟩
  · norm_num at e1 q4 ⊢; linarith
  · norm_num at e2 q4 ⊢; linarith

/-- The square root of the first stage. -/
theorem root_range {a A : ℚ} (ha : 1e-15 ≤ a) (haA : a ≤ A) {m : BitVec 32} (fm : F32.Finite m)
    (h1 : a ^ 2 * (1 - 1 / 10000000) * (1 - 1 / 10000) ≤ val m) (h2 : val m ≤ A ^ 2 * (1 + 1 / 10000000) * (1 + 1 / 10000)) :
    F32.Finite (Ffmath.sqrt m) ∧ a * (9999 / 10000) ≤ val (Ffmath.sqrt m) ∧ val (Ffmath.sqrt m) ≤ A * (10001 / 10000) := by
  have a0 : 0 < a := lt_of_lt_of_le (by norm_num) ha
  have q4 : 1e-30 ≤ a ^ 2 := le_trans (by norm_num) (pow_le_pow_left₀ (by norm_num) ha 2)
  obtain ⟨f, p, l, u⟩ := Ffmath.sqrt_sq fm (by
    refine le_trans ?_ h1
    have : (2 : ℚ) ^ (-126 : ℤ) ≤ 1e-37 := by norm_num
    refine this.trans ?_
    norm_num at q4 ⊢
    linarith)
  refine ⟨f, ?_, ?_⟩
  · refine abs_le_of_sq_le_sq' ?_ p.le |>.2
    refine le_trans ?_ l
    have : 0 ≤ a ^ 2 := by positivity
    rw [mul_pow]
    norm_num at h1 ⊢
    linarith
  · refine abs_le_of_sq_le_sq' ?_ (by linarith) |>.2
    refine u.trans ?_
    have : 0 ≤ A ^ 2 := by positivity
    rw [mul_pow]
    norm_num at h2 ⊢
    linarith

/-- The samples of the second stage. Not a definition of the repository. -/
def InBand (a A : ℚ) (y : BitVec 32) : Prop :=
  F32.Finite y ∧ a * (9999 / 10000) ≤ val y ∧ val y ≤ A * (10001 / 10000)

/-- Invariant of the estimator after `k` calls. Not a definition of the repository. -/
structure Est (area : Array (BitVec 32)) (n : Nat) (a A : ℚ) (k : Nat) (s : Rms (BitVec 32)) : Prop where
  first : First (a ^ 2 * (1 - 1 / 10000000)) (A ^ 2 * (1 + 1 / 10000000)) s.expw
  win : ∃ h : Option (Nat → BitVec 32), Drift (InBand a A) area n (A * (10001 / 10000)) k s.mwm2 h
  alpha : s.lpf1.alpha = F32.lit (75 / 100)
  last : s.lpf1.init = false → F32.Finite s.lpf1.y1 ∧ a * (9999 / 10000) - (k + 2) * (A * (10001 / 10000) / 4194304) ≤ val s.lpf1.y1 ∧
    val s.lpf1.y1 ≤ A * (10001 / 10000) + (k + 2) * (A * (10001 / 10000) / 4194304)

theorem mean_band {n : Nat} (hn : 0 < n) {l u : ℚ} {g : Nat → ℚ} (h : ∀ j, l ≤ g j ∧ g j ≤ u) : l ≤ mean n g ∧ mean n g ≤ u := by
  have n0 : (0 : ℚ) < n := by exact_mod_cast hn
  rw [mean, le_div_iff₀ n0, div_le_iff₀ n0]
  constructor
  · rw [_root_.mul_comm, ← sum_const]; exact Finset.sum_le_sum fun j _ => (h j).1
  · rw [_root_.mul_comm, ← sum_const]; exact Finset.sum_le_sum fun j _ => (h j).2

theorem est_step {area : Array (BitVec 32)} {n : Nat} {a A : ℚ} {k : Nat} {s : Rms (BitVec 32)} (hn : 0 < n) (hn2 : n ≤ 16777216)
    (ha : 1e-15 ≤ a) (haA : a ≤ A) (hA : A ≤ 1e18) (hk : k + 2 ≤ 2097152) (h : Est area n a A k s) (x : BitVec 32) (fx : F32.Finite x)
    (h1 : a ≤ |val x|) (h2 : |val x| ≤ A) :
    ∃ s' y, s.update x = .ok (s', y) ∧ Est area n a A (k + 1) s' ∧ F32.Finite y ∧
      a * (9999 / 10000) - (k + 3) * (A * (10001 / 10000) / 4194304) ≤ val y ∧
      val y ≤ A * (10001 / 10000) + (k + 3) * (A * (10001 / 10000) / 4194304) := by
  obtain ⟨i1, ⟨hh, i2⟩, i3, i4⟩ := h
  have a0 : 0 < a := lt_of_lt_of_le (by norm_num) ha
  have A0 : 0 < A := by linarith
  obtain ⟨f0, c1, c2⟩ := square_range ha hA fx h1 h2
  have q4 : 1e-30 ≤ a ^ 2 := le_trans (by norm_num) (pow_le_pow_left₀ (by norm_num) ha 2)
  have q5 : a ^ 2 ≤ A ^ 2 := pow_le_pow_left₀ a0.le haA 2
  have q3 : A ^ 2 ≤ 1e36 := (pow_le_pow_left₀ A0.le hA 2).trans (by norm_num)
  obtain ⟨j1, f1, d1, d2⟩ := first_step (by norm_num at q4 ⊢; linarith) (by norm_num at q4 ⊢; linarith) (by norm_num at q3 ⊢; linarith)
    s.expw i1 _ f0 c1 c2
  obtain ⟨f2, r1, r2⟩ := root_range ha haA f1 d1 d2
  have hnq : (n : ℚ) ≤ 16777216 := by exact_mod_cast hn2
  have n1 : (1 : ℚ) ≤ n := by exact_mod_cast hn
  have hB2 : n * (A * (10001 / 10000)) ≤ 1e38 := by
    have : n * (A * (10001 / 10000)) ≤ 16777216 * (1e18 * (10001 / 10000)) := by
      refine mul_le_mul hnq ?_ (by positivity) (by norm_num)
      exact mul_le_mul_of_nonneg_right hA (by norm_num)
    exact this.trans (by norm_num)
  obtain ⟨s', y, k1, k2, k3, k4, k5⟩ := drift_step hn hn2 (by norm_num at ha ⊢; linarith) hB2
    (fun x (hx : InBand a A x) => ⟨hx.1, by rw [abs_of_nonneg (by linarith [hx.2.1])]; exact hx.2.2⟩) hk i2 _ (⟨f2, r1, r2⟩ : InBand a A _)
  obtain ⟨m1, m2⟩ := mean_band hn fun j => (k4 j).2
  rw [_root_.abs_le] at k3
  have kq : ((k : ℚ) + 3) * (A * (10001 / 10000) / 4194304) ≤ A := by
    have : (k : ℚ) + 2 ≤ 2097152 := by exact_mod_cast hk
    nlinarith
  have y1 : a * (9999 / 10000) - (k + 3) * (A * (10001 / 10000) / 4194304) ≤ val y := by linarith
  have y2 : val y ≤ A * (10001 / 10000) + (k + 3) * (A * (10001 / 10000) / 4194304) := by linarith
  -- the last stage
  have last : F32.Finite (s.lpf1.smooth y).2 ∧ a * (9999 / 10000) - (k + 3) * (A * (10001 / 10000) / 4194304) ≤ val (s.lpf1.smooth y).2 ∧
      val (s.lpf1.smooth y).2 ≤ A * (10001 / 10000) + (k + 3) * (A * (10001 / 10000) / 4194304) := by
    obtain ⟨p1, p2, p3⟩ := al75
    rw [← i3] at p1 p2 p3
    unfold LPF1.smooth
    cases hi : s.lpf1.init with
    | true =>
      obtain ⟨f, e⟩ := step_self p1 k2
      refine ⟨f, ?_, ?_⟩
      · exact y1.trans e.ge
      · exact e.le.trans y2
    | false =>
      obtain ⟨l0, l1, l2⟩ := i4 hi
      have wk : ((k : ℚ) + 2) * (A * (10001 / 10000) / 4194304) ≤ (k + 3) * (A * (10001 / 10000) / 4194304) := by
        refine mul_le_mul_of_nonneg_right (by linarith) (by positivity)
      obtain ⟨f, e1, e2⟩ := step_between p1 k2 l0 p2.le p3 (by
        rw [_root_.abs_le]
        norm_num at hA ⊢
        constructor <;> linarith)
      refine ⟨f, ?_, ?_⟩
      · exact (le_min y1 (by linarith)).trans e1
      · exact e2.trans (max_le y2 (by linarith))
  refine ⟨⟨(s.expw.smooth (F32.mul x x)).1, s', (s.lpf1.smooth y).1⟩, (s.lpf1.smooth y).2, ?_, ⟨j1, ⟨_, k5⟩, ?_, ?_⟩, last⟩
  · unfold Rms.update
    have k1' : s.mwm2.smooth (Trans.sqrt (s.expw.smooth (x *. x)).2) = .ok (s', y) := k1
    simp only [k1', Out.bind_ok, Out.pure_eq]
    rfl
  · unfold LPF1.smooth
    cases s.lpf1.init <;> exact i3
  · intro _
    obtain ⟨b1, b2, b3⟩ := last
    have e : (s.lpf1.smooth y).1.y1 = (s.lpf1.smooth y).2 := rfl
    rw [e]
    push_cast
    rw [show (k : ℚ) + 1 + 2 = k + 3 by ring]
    exact ⟨b1, b2, b3⟩

theorem est_run {area : Array (BitVec 32)} {n : Nat} {a A : ℚ} (hn : 0 < n) (hn2 : n ≤ 16777216)
    (ha : 1e-15 ≤ a) (haA : a ≤ A) (hA : A ≤ 1e18) (N : Nat) (hN : N ≤ 2097151) (xs : List (BitVec 32)) : ∀ (k : Nat) (s : Rms (BitVec 32)),
      k + xs.length ≤ N → Est area n a A k s →
      (∀ x ∈ xs, F32.Finite x ∧ a ≤ |val x| ∧ |val x| ≤ A) →
      ∃ s' ys, s.run xs = .ok (s', ys) ∧ ys.length = xs.length ∧ ∀ i (hi : i < ys.length), F32.Finite ys[i] ∧
        a * (9999 / 10000) - ((k + i : ℕ) + 3) * (A * (10001 / 10000) / 4194304) ≤ val ys[i] ∧
        val ys[i] ≤ A * (10001 / 10000) + ((k + i : ℕ) + 3) * (A * (10001 / 10000) / 4194304) := by
  induction xs with
  | nil => intro k s _ _ _; exact ⟨s, [], rfl, rfl, by simp⟩
  | cons x xs ih =>
    intro k s hk he hx
    rw [List.length_cons] at hk
    obtain ⟨fx, x1, x2⟩ := hx x List.mem_cons_self
    obtain ⟨t, y, q1, q2, q3⟩ := est_step hn hn2 ha haA hA (by omega) he x fx x1 x2
    obtain ⟨s', ys, r1, r2, r3⟩ := ih (k + 1) t (by omega) q2 fun x hx' => hx x (List.mem_cons_of_mem _ hx')
    refine ⟨s', y :: ys, ?_, by simp [r2], ?_⟩
    · simp only [Rms.run, q1, Out.bind_ok, r1, Out.pure_eq]
    · intro i hi
      cases i with
      | zero => exact q3
      | succ i =>
        have := r3 i (by simpa using hi)
        rw [show k + 1 + i = k + (i + 1) by omega] at this
        exact this

theorem setup_est (s : Rms (BitVec 32)) (area : Array (BitVec 32)) (n : Nat) (hn : 0 < n) (hs : n ≤ area.size) (a A : ℚ) :
    ∃ s0, s.setup (some area) n = .ok (s0, true) ∧ Est area n a A 0 s0 := by
  obtain ⟨m0, hm0, d0⟩ := drift_setup (InBand a A) s.mwm2 area n hn hs (A * (10001 / 10000)) 0
  have e1 : s.expw.setup (Arith.lit (99 / 100)) = (⟨F32.lit (99 / 100), F32.lit 0, F32.lit 1, true⟩, true) := by
    unfold EXPW.setup
    rw [if_pos (by decide +kernel)]; rfl
  have e2 : s.lpf1.setup (Arith.lit (75 / 100)) = (⟨F32.lit (75 / 100), s.lpf1.y1, true⟩, true) := by
    unfold LPF1.setup
    rw [if_pos (by decide +kernel)]; rfl
  refine ⟨⟨⟨F32.lit (99 / 100), F32.lit 0, F32.lit 1, true⟩, m0, ⟨F32.lit (75 / 100), s.lpf1.y1, true⟩⟩, ?_, ?_⟩
  · simp only [Rms.setup, if_pos hn, hm0, e1, e2, Out.bind_ok, Out.pure_eq]
  · refine ⟨⟨rfl, lit01.2.2.1, lit01.2.2.2.ge, ?_, fun h => absurd h (by simp)⟩, ⟨none, d0⟩, rfl, fun h => absurd h (by simp)⟩
    change val (F32.lit 1) * _ ≤ 2
    rw [lit01.2.2.2, one_mul]
    have := lam99.2.2.2.2
    linarith

/-- **C149** (partial: runs of at most two million calls). In binary32 with the library's own square root, when the
magnitudes of all samples lie between `a` and `A`, the `k`-th estimate is finite and lies between `a` and `A` up to a relative error
`1e-4` and a drift `(k + 3) A / 4000000`. Missing: unbounded runs and a bound that forgets an old `A`, which is false
(`C149_false`). -/
theorem C149_partial (s : Rms (BitVec 32)) (area : Array (BitVec 32)) (n : Nat) (hn : 0 < n) (hs : n ≤ area.size) (hn2 : n ≤ 16777216)
    (a A : ℚ) (ha : 1e-15 ≤ a) (haA : a ≤ A) (hA : A ≤ 1e18) (N : Nat) (hN : N ≤ 2097151) :
    ∃ s0, s.setup (some area) n = .ok (s0, true) ∧ ∀ xs : List (BitVec 32), xs.length ≤ N →
      (∀ x ∈ xs, F32.Finite x ∧ a ≤ |val x| ∧ |val x| ≤ A) →
      ∃ s' ys, s0.run xs = .ok (s', ys) ∧ ys.length = xs.length ∧ ∀ k (hk : k < ys.length), F32.Finite ys[k] ∧
        a * (1 - 1 / 10000) - (k + 3) * A / 4000000 ≤ val ys[k] ∧ val ys[k] ≤ A * (1 + 1 / 10000) + (k + 3) * A / 4000000 := by
  obtain ⟨s0, e, h0⟩ := setup_est s area n hn hs a A
  have a0 : 0 < a := lt_of_lt_of_le (by norm_num) ha
  have A0 : 0 < A := by linarith
  refine ⟨s0, e, fun xs hl hx => ?_⟩
  obtain ⟨s', ys, r1, r2, r3⟩ := est_run hn hn2 ha haA hA N hN xs 0 s0 (by omega) h0 hx
  refine ⟨s', ys, r1, r2, fun k hk => ?_⟩
  obtain ⟨b1, b2, b3⟩ := r3 k hk
  have w : ((0 + k : ℕ) + 3 : ℚ) * (A * (10001 / 10000) / 4194304) ≤ (k + 3) * A / 4000000 := by
    rw [zero_add]
    have : (0 : ℚ) ≤ (k + 3) * A := by positivity
    linarith
  exact ⟨b1, by linarith, by linarith⟩

-- C149: samples of magnitude 1 to 100, window of 3 cells: the estimates of three samples
example : (do
    let (s, _) ← (Rms.new (R := BitVec 32) 0#32).setup (some #[0#32, 0#32, 0#32]) 3
    let (_, ys) ← s.run [F32.lit 1, F32.lit (-100), F32.lit 50]
    pure (ys.map fun y => decide (1 - 1 / 10000 ≤ val y ∧ val y ≤ 100)) : Out (List Bool)) = .ok [true, true, true] := by decide +kernel

/-- An estimator with a window of two cells and the weights `setParams( 0.1F, 0.1F )`. Not a definition of the repository. -/
def quick : Out (Rms (BitVec 32)) := do
  let (s, _) ← (Rms.new (R := BitVec 32) 0#32).setup (some #[0#32, 0#32]) 2
  pure (s.setParams (F32.lit (1 / 10)) (F32.lit (1 / 10))).1

/-- What is left of the spike. Not a definition of the repository. -/
def after1e7 (r : Nat) : Rms (BitVec 32) :=
  ⟨⟨F32.lit (1 / 10), 0#32, 0x3F8E38E4#32, false⟩, ⟨⟨#[0#32, 0#32], 2, 1 - r, r, 0#32⟩, 0xBEA311A3#32, false⟩,
    ⟨F32.lit (1 / 10), 0xBE2311A3#32, false⟩⟩

/-- **C149 is false of the code** for longer memories than the signal's: after a single spike of `1e7` followed by silence the
estimated RMS value of the silence is negative, -0.159247, for ever. -/
theorem C149_false : (do
      let s ← quick
      let (s, _) ← s.run (F32.lit 10000000 :: List.replicate 79 0#32)
      pure s) = .ok (after1e7 0) ∧
    (∀ n, ∃ s, (after1e7 0).run (List.replicate n 0#32) = .ok (s, List.replicate n 0xBE2311A3#32)) ∧
    val 0xBE2311A3#32 < -159 / 1000 := by
  refine ⟨by decide +kernel, ?_, by decide +kernel⟩
  have h0 : (after1e7 0).update 0#32 = .ok (after1e7 1, 0xBE2311A3#32) := by decide +kernel
  have h1 : (after1e7 1).update 0#32 = .ok (after1e7 0, 0xBE2311A3#32) := by decide +kernel
  have key : ∀ n, (∃ s, (after1e7 0).run (List.replicate n 0#32) = .ok (s, List.replicate n 0xBE2311A3#32)) ∧
      ∃ s, (after1e7 1).run (List.replicate n 0#32) = .ok (s, List.replicate n 0xBE2311A3#32) := by
    intro n
    induction n with
    | zero => exact ⟨⟨_, rfl⟩, ⟨_, rfl⟩⟩
    | succ n ih =>
      obtain ⟨⟨s, i0⟩, ⟨t, i1⟩⟩ := ih
      refine ⟨⟨t, ?_⟩, ⟨s, ?_⟩⟩
      · simp only [List.replicate_succ, Rms.run, h0, Out.bind_ok, i1, Out.pure_eq]
      · simp only [List.replicate_succ, Rms.run, h1, Out.bind_ok, i0, Out.pure_eq]
  exact fun n => (key n).1

end Verif.Rms
