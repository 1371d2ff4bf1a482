import Verif.Interp1.Float
import Verif.Fis.ShapesFloat2

/-!
# Sine interpolation in binary32 (C169)

IEEE binary32 arithmetic with the library's own cosine; nothing here is a definition of the repository except where cited.
-/

namespace Verif.Interp1

open Arith F32

attribute [local instance] Verif.Fis.expTrans

/-- The half-wave through two knots (specification). -/
noncomputable def halfWave (x0 x1 y0 y1 x : ℝ) : ℝ :=
  y0 + (1 - Real.cos (Real.pi * ((x - x0) / (x1 - x0)))) / 2 * (y1 - y0)

theorem pi_near : F32.Near (pi : BitVec 32) Real.pi 9e-8 := by
  have h : F32.Finite (pi : BitVec 32) ∧ val (pi : BitVec 32) = 13176795 / 4194304 := by
    change F32.Finite (F32.lit (13176795 / 2 ^ 22)) ∧ val (F32.lit (13176795 / 2 ^ 22)) = _
    decide +kernel
  refine ⟨h.1, ?_⟩
  rw [h.2]
  push_cast
  have p1 := Real.pi_gt_d20
  have p2 := Real.pi_lt_d20
  rw [_root_.abs_le]
  norm_num at p1 p2 ⊢
  constructor <;> linarith

/-- The angle handed to the cosine. -/
theorem sine_angle {x x0 x1 : BitVec 32} (fx : F32.Finite x) (f0 : F32.Finite x0) (f1 : F32.Finite x1) {T : ℝ}
    (hT : 1 ≤ T) (hT2 : T ≤ 1e6) (g0 : 1e-18 ≤ |(val x1 : ℝ) - val x0|) (g1 : |(val x1 : ℝ) - val x0| ≤ 1e18)
    (ht : |(val x : ℝ) - val x0| ≤ T * |(val x1 : ℝ) - val x0|) :
    F32.Near (F32.div (F32.mul (pi : BitVec 32) (F32.sub x x0)) (F32.sub x1 x0))
      (Real.pi * (((val x : ℝ) - val x0) / (val x1 - val x0))) (9e-7 * T) ∧
    |Real.pi * (((val x : ℝ) - val x0) / (val x1 - val x0))| ≤ 3.142 * T := by
  obtain ⟨d, hd⟩ : ∃ d : ℝ, d = (val x : ℝ) - val x0 := ⟨_, rfl⟩
  obtain ⟨E, hE⟩ : ∃ E : ℝ, E = (val x1 : ℝ) - val x0 := ⟨_, rfl⟩
  rw [← hE] at g0 g1 ht
  rw [← hd] at ht
  rw [← hd, ← hE]
  have D0 : 0 < |E| := by norm_num at g0; linarith
  have TD : T * |E| ≤ 1e24 := by
    have := mul_le_mul hT2 g1 D0.le (by norm_num)
    norm_num at this ⊢; linarith
  have TD0 : |E| ≤ T * |E| := by nlinarith
  have d0 := abs_nonneg d
  have p1 := Real.pi_gt_d20
  have p2 := Real.pi_lt_d20
  have n1 : F32.Near (F32.sub x x0) d (5.97e-8 * (T * |E|)) := by
    rw [hd] at ht d0 ⊢
    exact F32.Near.sub (T * |E|) (F32.Near.self fx) (F32.Near.self f0) (by linarith) (by norm_num at TD ⊢; linarith)
      (by norm_num at g0 ⊢; linarith)
  have n2 : F32.Near (F32.sub x1 x0) E (5.97e-8 * |E|) := by
    rw [hE] at D0 g0 g1 ⊢
    exact F32.Near.sub |(val x1 : ℝ) - val x0| (F32.Near.self f1) (F32.Near.self f0) (by linarith) (by norm_num at g1 ⊢; linarith)
      (by norm_num at g0 ⊢; linarith)
  have n3 : F32.Near (F32.mul (pi : BitVec 32) (F32.sub x x0)) (Real.pi * d) (4.7e-7 * (T * |E|)) := by
    refine F32.Near.mul 3.1416 (T * |E|) (2.776e-7 * (T * |E|)) (3.142 * (T * |E|)) pi_near n1
      (by rw [abs_of_pos Real.pi_pos]; norm_num at p2 ⊢; linarith) ht ?_ ?_ (by norm_num at TD ⊢; linarith) ?_
    · generalize T * |E| = V at *
      norm_num; linarith
    · rw [abs_mul, abs_of_pos Real.pi_pos]
      have := mul_le_mul p2.le ht d0 (by norm_num)
      generalize T * |E| = V at *
      norm_num at this ⊢; linarith
    · generalize T * |E| = V at *
      norm_num at g0 ⊢; linarith
  have q : |Real.pi * (d / E)| ≤ 3.1416 * T := by
    rw [abs_mul, abs_of_pos Real.pi_pos, abs_div]
    have : |d| / |E| ≤ T := by rw [div_le_iff₀ D0]; exact ht
    have := mul_le_mul p2.le this (by positivity) (by norm_num)
    generalize |d| / |E| = V at *
    norm_num at this ⊢; linarith
  refine ⟨?_, q.trans (by norm_num; linarith)⟩
  rw [show Real.pi * (d / E) = Real.pi * d / E by ring] at q ⊢
  refine F32.Near.div (3.1416 * T) (|E| * (1 - 6e-8)) (6.6e-7 * T) (3.142 * T) n3 n2 (abs_pos.1 D0) (by positivity)
    (by norm_num; linarith) q ?_ (by norm_num; linarith) (by norm_num at hT2 ⊢; linarith) (by norm_num; linarith)
  rw [div_le_iff₀ (by positivity)]
  have e : 6.6e-7 * T * (|E| * (1 - 6e-8)) = 6.6e-7 * (1 - 6e-8) * (T * |E|) := by ring
  rw [e, show 3.1416 * T * (5.97e-8 * |E|) = 3.1416 * 5.97e-8 * (T * |E|) by ring]
  generalize T * |E| = V at *
  norm_num; linarith

/-- The weight `0.5 - 0.5*cos(...)`. -/
theorem sine_weight {A : BitVec 32} {θ T : ℝ} (n : F32.Near A θ (9e-7 * T)) (hθ : |θ| ≤ 3.142 * T) (hT : 1 ≤ T) (hT2 : T ≤ 1e6) :
    F32.Near (F32.sub (F32.lit (1 / 2)) (F32.mul (F32.lit (1 / 2)) (Ffmath.cos A))) ((1 - Real.cos θ) / 2)
      (4.765e-4 + 7.2e-7 * T) := by
  have nh : F32.Near (F32.lit (1 / 2)) (1 / 2) 0 := ⟨Fis.lith.1, by rw [Fis.lith.2]; norm_num⟩
  have Ab : |(val A : ℝ)| ≤ 3.143 * T := by
    have := abs_sub_abs_le_abs_sub (val A : ℝ) θ
    have e := n.err
    norm_num at e hθ ⊢; linarith
  have Ab' : |val A| ≤ 2.5e7 := by
    have : ((|val A| : ℚ) : ℝ) ≤ ((2.5e7 : ℚ) : ℝ) := by push_cast; norm_num at Ab hT2 ⊢; linarith
    exact_mod_cast this
  obtain ⟨f1, f2⟩ := Ffmath.C87_accuracy_partial A n.fin Ab'
  have cl : |Real.cos (val A) - Real.cos θ| ≤ 9e-7 * T := (Real.abs_cos_sub_cos_le _ _).trans n.err
  have c1 : F32.Near (Ffmath.cos A) (Real.cos θ) (9.52e-4 + 1.41e-6 * T) := by
    refine ⟨f1, (abs_sub_le _ (Real.cos (val A)) _).trans ?_⟩
    norm_num at f2 cl Ab ⊢; linarith
  have cb := Real.abs_cos_le_one θ
  have c2 : F32.Near (F32.mul (F32.lit (1 / 2)) (Ffmath.cos A)) (1 / 2 * Real.cos θ) (4.7605e-4 + 7.1e-7 * T) := by
    refine F32.Near.mul (1 / 2) 1 (4.76e-4 + 7.05e-7 * T) (0.6 + 7.05e-7 * T) nh c1 (by norm_num) cb (by norm_num; linarith) ?_
      (by norm_num at hT2 ⊢; linarith) (by norm_num; linarith)
    rw [abs_mul, abs_of_pos (by norm_num : (0 : ℝ) < 1 / 2)]
    norm_num at cb ⊢; linarith
  have c3 := F32.Near.sub (e' := 4.765e-4 + 7.2e-7 * T) (1.1 + 7.1e-7 * T) nh c2 (by
      have h := _root_.abs_le.1 cb
      have : |1 / 2 - 1 / 2 * Real.cos θ| ≤ 1 := by rw [_root_.abs_le]; constructor <;> linarith
      norm_num at this ⊢; linarith) (by norm_num at hT2 ⊢; linarith) (by norm_num; linarith)
  rwa [show 1 / 2 - 1 / 2 * Real.cos θ = (1 - Real.cos θ) / 2 by ring] at c3

/-- One half-wave with rounded operations, for arguments up to `T` segment lengths away from the first knot. -/
theorem sineSeg_err {x x0 x1 y0 y1 : BitVec 32} (fx : F32.Finite x) (f0 : F32.Finite x0) (f1 : F32.Finite x1)
    (h0 : F32.Finite y0) (h1 : F32.Finite y1) {M T : ℝ}
    (hT : 1 ≤ T) (hT2 : T ≤ 1e6) (g0 : 1e-18 ≤ |(val x1 : ℝ) - val x0|) (g1 : |(val x1 : ℝ) - val x0| ≤ 1e18)
    (ht : |(val x : ℝ) - val x0| ≤ T * |(val x1 : ℝ) - val x0|)
    (hM : M ≤ 1e18) (k0 : |(val y0 : ℝ)| ≤ M) (k1 : |(val y1 : ℝ)| ≤ M) :
    F32.Near (sineSeg x x0 x1 y0 y1) (halfWave (val x0) (val x1) (val y0) (val y1) (val x))
      ((9.6e-4 + 1.5e-6 * T) * M + 1e-43) := by
  obtain ⟨n1, q1⟩ := sine_angle fx f0 f1 hT hT2 g0 g1 ht
  have n2 := sine_weight n1 q1 hT hT2
  have M0 : 0 ≤ M := (abs_nonneg _).trans k0
  have dy : |(val y1 : ℝ) - val y0| ≤ 2 * M := by
    refine (abs_sub _ _).trans (by linarith)
  have n3 : F32.Near (F32.sub y1 y0) ((val y1 : ℝ) - val y0) (1.2e-7 * M + 1e-45) :=
    F32.Near.sub (2 * M) (F32.Near.self h1) (F32.Near.self h0) (by linarith) (by norm_num at hM ⊢; linarith) (by norm_num; linarith)
  change F32.Near (F32.add y0 (F32.mul (F32.sub (F32.lit (1 / 2)) (F32.mul (F32.lit (1 / 2)) (Ffmath.cos
    (F32.div (F32.mul (pi : BitVec 32) (F32.sub x x0)) (F32.sub x1 x0))))) (F32.sub y1 y0))) _ _
  unfold halfWave
  generalize Real.pi * (((val x : ℝ) - val x0) / (val x1 - val x0)) = θ at *
  generalize F32.div (F32.mul (pi : BitVec 32) (F32.sub x x0)) (F32.sub x1 x0) = A at *
  generalize F32.sub (F32.lit (1 / 2)) (F32.mul (F32.lit (1 / 2)) (Ffmath.cos A)) = w at *
  generalize F32.sub y1 y0 = v at *
  have cb := _root_.abs_le.1 (Real.abs_cos_le_one θ)
  have wb : |(1 - Real.cos θ) / 2| ≤ 1 := by rw [_root_.abs_le]; constructor <;> linarith
  have TM : T * M ≤ 1e6 * M := mul_le_mul_of_nonneg_right hT2 M0
  have TM0 : M ≤ T * M := by nlinarith
  obtain ⟨δ, hδ⟩ : ∃ δ : ℝ, δ = (val y1 : ℝ) - val y0 := ⟨_, rfl⟩
  rw [← hδ] at dy n3 ⊢
  have pb : |(1 - Real.cos θ) / 2 * δ| ≤ 2 * M := by
    rw [abs_mul]
    have := mul_le_mul wb dy (abs_nonneg _) zero_le_one
    linarith
  generalize (1 - Real.cos θ) / 2 = ω at *
  have n4 : F32.Near (F32.mul w v) (ω * δ) (9.54e-4 * M + 1.45e-6 * (T * M) + 1e-44) := by
    refine F32.Near.mul 1 (2 * M) (9.535e-4 * M + 1.441e-6 * (T * M) + 2e-45) (3.5 * M + 1.5e-6 * (T * M) + 3e-45) n2 n3 wb dy ?_ ?_ ?_ ?_
    · have e : 1 * (1.2e-7 * M + 1e-45) + 2 * M * (4.765e-4 + 7.2e-7 * T) + (4.765e-4 + 7.2e-7 * T) * (1.2e-7 * M + 1e-45) =
        (1.2e-7 + 2 * 4.765e-4 + 4.765e-4 * 1.2e-7) * M + (2 * 7.2e-7 + 7.2e-7 * 1.2e-7) * (T * M) +
          (1e-45 + 4.765e-4 * 1e-45 + 7.2e-52 * T) := by ring
      rw [e]
      generalize T * M = V at *
      norm_num at hT2 ⊢; linarith
    · generalize |ω * δ| = Q at *
      generalize T * M = V at *
      norm_num; linarith
    · generalize T * M = V at *
      norm_num at hM TM ⊢; linarith
    · generalize T * M = V at *
      norm_num at TM ⊢; linarith
  refine F32.Near.add (5 * M + 1.5e-6 * (T * M) + 1e-43) (F32.Near.self h0) n4 ?_ ?_ ?_
  · have := abs_add_le (val y0 : ℝ) (ω * δ)
    generalize T * M = V at *
    norm_num; linarith
  · generalize T * M = V at *
    norm_num at hM TM ⊢; linarith
  · rw [add_mul, show 1.5e-6 * T * M = 1.5e-6 * (T * M) by ring]
    generalize T * M = V at *
    norm_num at TM ⊢; linarith

/-- The loop of `sine` ends with the last segment. -/
theorem sineLoop_float {tx ty : Array (BitVec 32)} {n : Nat} {X Y : Nat → BitVec 32} {M : ℚ} (h : TableF tx ty n X Y M)
    (x : BitVec 32) (hx : F32.Finite x) (hr : val x ≤ val (X (n - 1))) (k i : Nat) (y : BitVec 32) (h1 : 1 ≤ i) (hk : 1 ≤ k)
    (hik : i + k = n) :
    sineLoop x tx ty k i y = .ok (sineSeg x (X (n - 2)) (X (n - 1)) (Y (n - 2)) (Y (n - 1))) := by
  induction k generalizing i y with
  | zero => omega
  | succ k ih =>
    rw [sineLoop, h.hX i (by omega), Out.bind_ok]
    cases k with
    | zero =>
      obtain rfl : i = n - 1 := by omega
      rw [if_pos, h.hX (n - 1 - 1) (by omega), Out.bind_ok, h.hY (n - 1 - 1) (by omega), Out.bind_ok,
        h.hY (n - 1) (by omega), Out.bind_ok, show n - 1 - 1 = n - 2 by omega]
      · rfl
      · change F32.le x (X (n - 1)) = true
        rw [le_fin hx (h.fX _ (by omega)), decide_eq_true_eq]; exact hr
    | succ k =>
      split_ifs with c
      · rw [h.hX (i - 1) (by omega), Out.bind_ok, h.hY (i - 1) (by omega), Out.bind_ok,
          h.hY i (by omega), Out.bind_ok]
        exact ih (i + 1) _ (by omega) (by omega) (by omega)
      · exact ih (i + 1) _ (by omega) (by omega) (by omega)

theorem TableF.gapR {tx ty : Array (BitVec 32)} {n : Nat} {X Y : Nat → BitVec 32} {M : ℚ} (h : TableF tx ty n X Y M) {i : Nat}
    (hi : i + 1 < n) : (0 : ℝ) < (val (X (i + 1)) : ℝ) - val (X i) ∧ (1e-18 : ℝ) ≤ (val (X (i + 1)) : ℝ) - val (X i) ∧
      (val (X (i + 1)) : ℝ) - val (X i) ≤ 1e18 := by
  obtain ⟨g0, g1⟩ := h.gap i hi
  have a : ((1e-18 : ℚ) : ℝ) ≤ ((val (X (i + 1)) - val (X i) : ℚ) : ℝ) := by exact_mod_cast g0
  have b : ((val (X (i + 1)) - val (X i) : ℚ) : ℝ) ≤ ((1e18 : ℚ) : ℝ) := by exact_mod_cast g1
  push_cast at a b
  norm_num at a b ⊢
  exact ⟨by linarith, a, b⟩

theorem TableF.magR {tx ty : Array (BitVec 32)} {n : Nat} {X Y : Nat → BitVec 32} {M : ℚ} (h : TableF tx ty n X Y M) {i : Nat}
    (hi : i < n) : |(val (Y i) : ℝ)| ≤ (M : ℝ) := by exact_mod_cast h.mag i hi

/-- **C169** (part, sine interpolation). In binary32 the result is finite and within `(9.6e-4 + 1.5e-6 T) M` of a half-wave, `T` being the
distance to its first knot in segment lengths and `M` the largest magnitude of the ordinates: below the table the half-wave of the
first segment, above the table that of the last one, and inside the table **always** that of the last one.
Missing: the half-wave of the segment that contains the argument (`C169_sine_false`). -/
theorem C169_sine_partial {tx ty : Array (BitVec 32)} {n : Nat} {X Y : Nat → BitVec 32} {M : ℚ} {T : ℝ}
    (hn : 2 ≤ n) (h : TableF tx ty n X Y M) (hM : M ≤ 1e18) (nan x : BitVec 32) (hx : F32.Finite x)
    (hT : 1 ≤ T) (hT2 : T ≤ 1e6) :
    (val x < val (X 0) → (val (X 0) : ℝ) - val x ≤ T * (val (X 1) - val (X 0)) →
      ∃ v, sine nan x (some tx) (some ty) n = .ok v ∧ F32.Finite v ∧
        |(val v : ℝ) - halfWave (val (X 0)) (val (X 1)) (val (Y 0)) (val (Y 1)) (val x)| ≤ (9.6e-4 + 1.5e-6 * T) * M + 1e-43) ∧
    (val (X 0) ≤ val x → val x ≤ val (X (n - 1)) →
      |(val x : ℝ) - val (X (n - 2))| ≤ T * (val (X (n - 1)) - val (X (n - 2))) →
      ∃ v, sine nan x (some tx) (some ty) n = .ok v ∧ F32.Finite v ∧
        |(val v : ℝ) - halfWave (val (X (n - 2))) (val (X (n - 1))) (val (Y (n - 2))) (val (Y (n - 1))) (val x)| ≤
          (9.6e-4 + 1.5e-6 * T) * M + 1e-43) ∧
    (val (X (n - 1)) < val x → (val x : ℝ) - val (X (n - 1)) ≤ T * (val (X (n - 1)) - val (X (n - 2))) →
      ∃ v, sine nan x (some tx) (some ty) n = .ok v ∧ F32.Finite v ∧
        |(val v : ℝ) - halfWave (val (X (n - 1))) (val (X (n - 2))) (val (Y (n - 1))) (val (Y (n - 2))) (val x)| ≤
          (9.6e-4 + 1.5e-6 * T) * M + 1e-43) := by
  have hM' : (M : ℝ) ≤ 1e18 := by
    have : (M : ℝ) ≤ ((1e18 : ℚ) : ℝ) := by exact_mod_cast hM
    push_cast at this; norm_num at this ⊢; exact this
  refine ⟨?_, ?_, ?_⟩
  · intro c1 c2
    obtain ⟨gp, g0, g1⟩ := h.gapR (i := 0) (by omega)
    have c1' : (val x : ℝ) < val (X 0) := by exact_mod_cast c1
    have e := sineSeg_err hx (h.fX 0 (by omega)) (h.fX 1 (by omega)) (h.fY 0 (by omega)) (h.fY 1 (by omega)) hT hT2
      (by rw [abs_of_pos gp]; exact g0) (by rw [abs_of_pos gp]; exact g1)
      (by rw [abs_of_pos gp, abs_of_neg (by linarith)]; linarith) hM' (h.magR (by omega)) (h.magR (by omega))
    refine ⟨_, ?_, e.fin, e.err⟩
    unfold sine guarded
    simp only [ge_iff_le, if_pos hn]
    rw [h.hX 0 (by omega), Out.bind_ok, if_pos, h.hX 1 (by omega), Out.bind_ok, h.hY 0 (by omega),
      Out.bind_ok, h.hY 1 (by omega), Out.bind_ok]
    · rfl
    · change F32.lt x (X 0) = true
      rw [lt_fin hx (h.fX _ (by omega)), decide_eq_true_eq]; exact c1
  · intro c1 c2 c3
    obtain ⟨gp, g0, g1⟩ := h.gapR (i := n - 2) (by omega)
    rw [show n - 2 + 1 = n - 1 by omega] at gp g0 g1
    have e := sineSeg_err hx (h.fX (n - 2) (by omega)) (h.fX (n - 1) (by omega)) (h.fY (n - 2) (by omega)) (h.fY (n - 1) (by omega)) hT hT2
      (by rw [abs_of_pos gp]; exact g0) (by rw [abs_of_pos gp]; exact g1)
      (by rw [abs_of_pos gp]; exact c3) hM' (h.magR (by omega)) (h.magR (by omega))
    refine ⟨_, ?_, e.fin, e.err⟩
    unfold sine guarded
    simp only [ge_iff_le, if_pos hn]
    rw [h.hX 0 (by omega), Out.bind_ok, if_neg, h.hX (n - 1) (by omega), Out.bind_ok, if_neg]
    · exact sineLoop_float h x hx c2 (n - 1) 1 nan le_rfl (by omega) (by omega)
    · change ¬ F32.lt (X (n - 1)) x = true
      rw [lt_fin (h.fX _ (by omega)) hx, decide_eq_true_eq, not_lt]; exact c2
    · change ¬ F32.lt x (X 0) = true
      rw [lt_fin hx (h.fX _ (by omega)), decide_eq_true_eq, not_lt]; exact c1
  · intro c1 c2
    obtain ⟨gp, g0, g1⟩ := h.gapR (i := n - 2) (by omega)
    rw [show n - 2 + 1 = n - 1 by omega] at gp g0 g1
    have c1' : (val (X (n - 1)) : ℝ) < val x := by exact_mod_cast c1
    have ga : |(val (X (n - 2)) : ℝ) - val (X (n - 1))| = val (X (n - 1)) - val (X (n - 2)) := by
      rw [abs_sub_comm, abs_of_pos gp]
    have e := sineSeg_err hx (h.fX (n - 1) (by omega)) (h.fX (n - 2) (by omega)) (h.fY (n - 1) (by omega)) (h.fY (n - 2) (by omega)) hT hT2
      (by rw [ga]; exact g0) (by rw [ga]; exact g1)
      (by rw [ga, abs_of_pos (by linarith)]; linarith) hM' (h.magR (by omega)) (h.magR (by omega))
    refine ⟨_, ?_, e.fin, e.err⟩
    unfold sine guarded
    simp only [ge_iff_le, if_pos hn]
    rw [h.hX 0 (by omega), Out.bind_ok, if_neg, h.hX (n - 1) (by omega), Out.bind_ok, if_pos,
      h.hX (n - 2) (by omega), Out.bind_ok, h.hY (n - 2) (by omega), Out.bind_ok,
      h.hY (n - 1) (by omega), Out.bind_ok]
    · rfl
    · change F32.lt (X (n - 1)) x = true
      rw [lt_fin (h.fX _ (by omega)) hx, decide_eq_true_eq]; exact c1
    · change ¬ F32.lt x (X 0) = true
      rw [lt_fin hx (h.fX _ (by omega)), decide_eq_true_eq, not_lt]
      exact (h.mono (by omega) (by omega)).trans c1.le

/-- **C169** (negation) With the table (0, 100), (1, 0), (2, 0) the sine method gives 0 at the first knot. -/
theorem C169_sine_false : sine 0 (F32.lit 0) (some #[F32.lit 0, F32.lit 1, F32.lit 2])
    (some #[F32.lit 100, F32.lit 0, F32.lit 0]) 3 = .ok (F32.lit 0) := by decide +kernel

/-- Example: a table and an argument inside its last segment that meet the hypotheses of `C169_sine_partial` with `T = 1`. -/
example : TableF #[F32.lit 0, F32.lit 13, F32.lit 20] #[F32.lit 0, F32.lit 7, F32.lit 10] 3
    (fun i => #[F32.lit 0, F32.lit 13, F32.lit 20].getD i 0)
    (fun i => #[F32.lit 0, F32.lit 7, F32.lit 10].getD i 0) 10 ∧ F32.Finite (F32.lit 15) ∧
    |(val (F32.lit 15) : ℝ) - val (F32.lit 13)| ≤ 1 * (val (F32.lit 20) - val (F32.lit 13)) := by
  refine ⟨?_, by decide +kernel, ?_⟩
  · constructor
    · unfold IsTable; decide +kernel
    · unfold IsTable; decide +kernel
    · decide +kernel
    · decide +kernel
    · intro i hi
      have : i = 0 ∨ i = 1 := by omega
      rcases this with rfl | rfl <;> decide +kernel
    · decide +kernel
  · have v : val (F32.lit 15) = 15 ∧ val (F32.lit 13) = 13 ∧ val (F32.lit 20) = 20 := by decide +kernel
    rw [v.1, v.2.1, v.2.2]; norm_num

end Verif.Interp1
