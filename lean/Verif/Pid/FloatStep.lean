import Verif.Pid.Transfer
import Verif.Pid.Windup
import Verif.Fis.ShapesExp
import Mathlib.Tactic.Linarith

/-!
# One call of the PID controller in binary32 (C177)
-/

namespace Verif.Pid

open Arith F32 Numa

/-- A computed number near `q`, with a bound of `q` (not a definition of the repository). -/
structure NB (c : BitVec 32) (q Q d : ℝ) : Prop where
  near : F32.Near c q d
  bound : |q| ≤ Q

theorem NB.weak {c : BitVec 32} {q Q d Q' d' : ℝ} (h : NB c q Q d) (h1 : Q ≤ Q') (h2 : d ≤ d') : NB c q Q' d' :=
  ⟨h.near.mono h2, h.bound.trans h1⟩

theorem NB.self {c : BitVec 32} {Q : ℝ} (h : F32.Finite c) (hq : |(val c : ℝ)| ≤ Q) : NB c (val c) Q 0 := ⟨F32.Near.self h, hq⟩

theorem NB.add {a b : BitVec 32} {p P d q Q e : ℝ} (ha : NB a p P d) (hb : NB b q Q e) (hB : P + Q + (d + e) ≤ 1e38) :
    NB (F32.add a b) (p + q) (P + Q) (d + e + (P + Q + (d + e)) / 16777216 + 1e-45) := by
  have h := (abs_add_le p q).trans (add_le_add ha.bound hb.bound)
  exact ⟨F32.Near.add (P + Q + (d + e)) ha.near hb.near (by linarith) hB le_rfl, h⟩

theorem NB.sub {a b : BitVec 32} {p P d q Q e : ℝ} (ha : NB a p P d) (hb : NB b q Q e) (hB : P + Q + (d + e) ≤ 1e38) :
    NB (F32.sub a b) (p - q) (P + Q) (d + e + (P + Q + (d + e)) / 16777216 + 1e-45) := by
  have h := (abs_sub p q).trans (add_le_add ha.bound hb.bound)
  exact ⟨F32.Near.sub (P + Q + (d + e)) ha.near hb.near (by linarith) hB le_rfl, h⟩

/-- A product with a stored number. -/
theorem NB.mul {g c : BitVec 32} {q Q d G : ℝ} (fg : F32.Finite g) (hg : |(val g : ℝ)| ≤ G) (h : NB c q Q d) (hB : G * Q + G * d ≤ 1e38) :
    NB (F32.mul g c) (val g * q) (G * Q) (G * d + (G * Q + G * d) / 16777216 + 1e-45) := by
  have hp : |(val g : ℝ) * q| ≤ G * Q := by
    rw [abs_mul]; exact mul_le_mul hg h.bound (abs_nonneg _) ((abs_nonneg _).trans hg)
  exact ⟨F32.Near.mul G Q (G * d) (G * Q + G * d) (F32.Near.self fg) h.near hg h.bound (by linarith) (by linarith) hB le_rfl, hp⟩

theorem NB.mul' {g c : BitVec 32} {q Q d G : ℝ} (fg : F32.Finite g) (hg : |(val g : ℝ)| ≤ G) (h : NB c q Q d) (hB : G * Q + G * d ≤ 1e38) :
    NB (F32.mul c g) (q * val g) (G * Q) (G * d + (G * Q + G * d) / 16777216 + 1e-45) := by
  have hp : |q * (val g : ℝ)| ≤ G * Q := by
    rw [abs_mul, _root_.mul_comm]; exact mul_le_mul hg h.bound (abs_nonneg _) ((abs_nonneg _).trans hg)
  exact ⟨F32.Near.mul Q G (G * d) (G * Q + G * d) h.near (F32.Near.self fg) h.bound hg (by linarith) (by linarith) hB le_rfl, hp⟩

/-- A quotient by a stored positive number. -/
theorem NB.div {g c : BitVec 32} {q Q d : ℝ} (fg : F32.Finite g) (hg : 0 < (val g : ℝ)) (h : NB c q Q d)
    (hB : Q / val g + d / val g ≤ 1e38) :
    NB (F32.div c g) (q / val g) (Q / val g) (d / val g + (Q / val g + d / val g) / 16777216 + 1e-45) := by
  have hp : |q / (val g : ℝ)| ≤ Q / val g := by
    rw [abs_div, abs_of_pos hg]; exact div_le_div_of_nonneg_right h.bound hg.le
  refine ⟨F32.Near.div (Q / val g) (val g) (d / val g) (Q / val g + d / val g) h.near (F32.Near.self fg) hg.ne' hg ?_ hp ?_ le_rfl hB le_rfl, hp⟩
  · rw [abs_of_pos hg]; linarith
  · rw [mul_zero, add_zero]

/-- The error with its dead band. -/
theorem error_near (s : Ctl (BitVec 32)) (w y k : BitVec 32) {M E : ℝ} (fw : F32.Finite w) (fy : F32.Finite y) (fk : F32.Finite k)
    (fe : F32.Finite s.epsilon) (hw : |(val w : ℝ)| ≤ M) (hy : |(val y : ℝ)| ≤ M) (hk : |(val k : ℝ)| ≤ 1) (he : (val s.epsilon : ℝ) ≤ E)
    (e0 : 0 ≤ (val s.epsilon : ℝ)) (m0 : 1e-6 ≤ M) (m1 : M ≤ 1e9) : NB (s.error w y k) (val k * val w - val y) (2 * M) (1.8e-7 * M + E) := by
  have h1 := NB.mul fk hk (NB.self fw hw) (by norm_num at m1 ⊢; linarith)
  have h2 := h1.sub (NB.self fy hy) (by norm_num at m1 ⊢; linarith)
  replace h2 := h2.weak (Q' := 2 * M) (d' := 1.8e-7 * M) (by linarith) (by norm_num at m0 ⊢; linarith)
  have code : s.error w y k = if F32.le (Arith.absf (F32.sub (F32.mul k w) y)) s.epsilon then F32.lit 0 else F32.sub (F32.mul k w) y := rfl
  rw [code, Fis.absf_eq]
  generalize F32.sub (F32.mul k w) y = c at *
  generalize (val k : ℝ) * val w - val y = q at *
  have fa := Ffmath.absolute_finite.2 h2.near.fin
  split
  · rename_i hl
    rw [le_fin fa fe, Ffmath.absolute_val, decide_eq_true_eq] at hl
    have hl' : |(val c : ℝ)| ≤ val s.epsilon := by exact_mod_cast hl
    refine ⟨⟨Fis.l0.1, ?_⟩, h2.bound⟩
    rw [Fis.l0.2.1]
    have t := abs_sub_abs_le_abs_sub q (val c : ℝ)
    have e := h2.near.err
    rw [abs_sub_comm] at e
    have : |((0 : ℚ) : ℝ) - q| = |q| := by rw [Rat.cast_zero, zero_sub, abs_neg]
    rw [this]; linarith
  · exact h2.weak le_rfl (by linarith)

/-- The filtered derivative. -/
theorem deriv_near {ec x1 D beta dt : BitVec 32} {q M E : ℝ} (h : NB ec q (2 * M) (1.8e-7 * M + E)) (f1 : F32.Finite x1)
    (h1 : |(val x1 : ℝ)| ≤ M) (fd : F32.Finite dt) (d0 : 1e-6 ≤ (val dt : ℝ)) (d1 : (val dt : ℝ) ≤ 1e6) (fD : F32.Finite D)
    (hD : |(val D : ℝ)| ≤ 3 * (M / val dt)) (fb : F32.Finite beta) (hb : |(val beta : ℝ)| ≤ 1)
    (m0 : 1e-6 ≤ M) (m1 : M ≤ 1e9) (E0 : 0 ≤ E) (E1 : E ≤ M) :
    NB (F32.add (F32.div (F32.sub ec x1) dt) (F32.mul beta (F32.sub D (F32.div (F32.sub ec x1) dt))))
      ((q - val x1) / val dt + val beta * (val D - (q - val x1) / val dt)) (9 * (M / val dt)) (2.83e-6 * (M / val dt) + 2 * (E / val dt)) := by
  have dp : 0 < (val dt : ℝ) := by norm_num at d0; linarith
  have s1 := (h.sub (NB.self f1 h1) (by norm_num at m1 ⊢; linarith)).weak (Q' := 3 * M) (d' := 4.2e-7 * M + E) (by linarith)
    (by norm_num at m0 ⊢; linarith)
  obtain ⟨P, hP⟩ : ∃ P, P = M / val dt := ⟨_, rfl⟩
  obtain ⟨F, hF⟩ : ∃ F, F = E / val dt := ⟨_, rfl⟩
  have e3 : 3 * M / val dt = 3 * P := by rw [hP, mul_div_assoc]
  have e4 : (4.2e-7 * M + E) / val dt = 4.2e-7 * P + F := by rw [hP, hF, add_div, mul_div_assoc]
  have P0 : 1e-12 ≤ P := by
    rw [hP, le_div_iff₀ dp]; norm_num at m0 d1 ⊢; linarith
  have P1 : P ≤ 1e15 := by
    rw [hP, div_le_iff₀ dp]; norm_num at m1 d0 ⊢; linarith
  have F0 : 0 ≤ F := hF ▸ div_nonneg E0 dp.le
  have F1 : F ≤ P := by rw [hF, hP]; exact div_le_div_of_nonneg_right E1 dp.le
  have s2 := s1.div fd dp (by rw [e3, e4]; norm_num at P1 ⊢; linarith)
  rw [e3, e4] at s2
  replace s2 := s2.weak (Q' := 3 * P) (d' := 6.6e-7 * P + F) le_rfl (by norm_num at P0 ⊢; linarith)
  rw [← hP, ← hF]
  rw [← hP] at hD
  generalize F32.div (F32.sub ec x1) dt = z at *
  generalize (q - val x1) / (val dt : ℝ) = r at *
  have s3 := ((NB.self fD hD).sub s2 (by norm_num at P1 ⊢; linarith)).weak (Q' := 6 * P) (d' := 1.08e-6 * P + F) (by linarith)
    (by norm_num at P0 ⊢; linarith)
  have s4 := (NB.mul fb hb s3 (by norm_num at P1 ⊢; linarith)).weak (Q' := 6 * P) (d' := 1.5e-6 * P + F) (by linarith)
    (by norm_num at P0 ⊢; linarith)
  exact (s2.add s4 (by norm_num at P1 ⊢; linarith)).weak (by linarith) (by norm_num at P0 ⊢; linarith)

/-- The trapezoidal integral. -/
theorem integral_near {e u1 x1 x0 dt : BitVec 32} {q M E I : ℝ} (h : NB e q (2 * M) (1.8e-7 * M + E)) (f1 : F32.Finite x1)
    (h1 : |(val x1 : ℝ)| ≤ M) (fu : F32.Finite u1) (hu : |(val u1 : ℝ)| ≤ M) (f0 : F32.Finite x0) (h0 : |(val x0 : ℝ)| ≤ I)
    (fd : F32.Finite dt) (d0 : 1e-6 ≤ (val dt : ℝ)) (d1 : (val dt : ℝ) ≤ 1e6)
    (m0 : 1e-6 ≤ M) (m1 : M ≤ 1e9) (E0 : 0 ≤ E) (E1 : E ≤ M) (I1 : I ≤ 1e20) :
    NB (F32.add x0 (F32.mul (F32.mul (F32.lit (1 / 2)) (F32.add (F32.add e u1) x1)) dt))
      (val x0 + 1 / 2 * (q + val u1 + val x1) * val dt) (I + 2 * (val dt * M)) (8.3e-7 * (val dt * M) + val dt * E / 2 + 6e-8 * I) := by
  have dp : 0 < (val dt : ℝ) := by norm_num at d0; linarith
  have I0 : 0 ≤ I := (abs_nonneg _).trans h0
  have s1 := (h.add (NB.self fu hu) (by norm_num at m1 ⊢; linarith)).weak (Q' := 3 * M) (d' := 4.2e-7 * M + E) (by linarith)
    (by norm_num at m0 ⊢; linarith)
  have s2 := (s1.add (NB.self f1 h1) (by norm_num at m1 ⊢; linarith)).weak (Q' := 4 * M) (d' := 7.2e-7 * M + E) (by linarith)
    (by norm_num at m0 ⊢; linarith)
  have ch : F32.Finite (F32.lit (1 / 2)) ∧ val (F32.lit (1 / 2)) = 1 / 2 := by decide +kernel
  have ch' : |(val (F32.lit (1 / 2)) : ℝ)| ≤ 1 / 2 := by rw [ch.2]; norm_num
  have s3 := (NB.mul ch.1 ch' s2 (by norm_num at m1 ⊢; linarith)).weak (Q' := 2 * M) (d' := 5.1e-7 * M + E / 2) (by linarith)
    (by norm_num at m0 ⊢; linarith)
  have S0 : 1e-12 ≤ (val dt : ℝ) * M := by
    have := mul_le_mul d0 m0 (by norm_num) dp.le
    norm_num at this ⊢; linarith
  have S1 : (val dt : ℝ) * M ≤ 1e15 := by
    have := mul_le_mul d1 m1 (by norm_num at m0; linarith) (by norm_num)
    norm_num at this ⊢; linarith
  have Z0 : 0 ≤ (val dt : ℝ) * E := mul_nonneg dp.le E0
  have Z1 : (val dt : ℝ) * E ≤ val dt * M := mul_le_mul_of_nonneg_left E1 dp.le
  have r1 : (val dt : ℝ) * (2 * M) = 2 * (val dt * M) := by ring
  have r2 : (val dt : ℝ) * (5.1e-7 * M + E / 2) = 5.1e-7 * (val dt * M) + val dt * E / 2 := by ring
  have hdt : |(val dt : ℝ)| ≤ val dt := (abs_of_pos dp).le
  have s4 := NB.mul' fd hdt s3 (by rw [r1, r2]; norm_num at S1 ⊢; linarith)
  rw [r1, r2] at s4
  replace s4 := s4.weak (Q' := 2 * (val dt * M)) (d' := 6.7e-7 * (val dt * M) + val dt * E / 2) le_rfl (by norm_num at S0 ⊢; linarith)
  have ce : ((val (F32.lit (1 / 2)) : ℚ) : ℝ) = 1 / 2 := by rw [ch.2]; norm_num
  rw [ce] at s4
  exact ((NB.self f0 h0).add s4 (by norm_num at S1 I1 ⊢; linarith)).weak (by linarith) (by norm_num at S0 ⊢; linarith)

/-- The limiter on computed numbers. -/
theorem saturate_near {c lo hi : BitVec 32} {q d : ℝ} (h : F32.Near c q d) (fl : F32.Finite lo) (fh : F32.Finite hi)
    (hl : (val lo : ℝ) ≤ val hi) : F32.Near (saturate c lo hi) (max (val lo : ℝ) (min q (val hi))) d := by
  have e : (val (saturate c lo hi) : ℝ) = saturate (val c : ℝ) (val lo) (val hi) ∧ F32.Finite (saturate c lo hi) := by
    have k : saturate c lo hi = if F32.lt hi c then hi else if F32.lt c lo then lo else c := rfl
    rw [k, lt_fin fh h.fin, lt_fin h.fin fl]
    simp only [saturate, fLt, decide_eq_true_eq, Rat.cast_lt]
    split
    · exact ⟨rfl, fh⟩
    · split
      · exact ⟨rfl, fl⟩
      · exact ⟨rfl, h.fin⟩
  refine ⟨e.2, ?_⟩
  rw [e.1, ← saturate_eq q _ _ hl]
  exact (saturate_lip _ _ _ _ hl).trans h.err

/-- The three terms of the control action. -/
theorem action_near {gc gi gd eb ie D : BitVec 32} {q1 q2 q3 M E I S Z P F Gc Gi Gd : ℝ} (h1 : NB eb q1 (2 * M) (1.8e-7 * M + E))
    (h2 : NB ie q2 (I + 2 * S) (8.3e-7 * S + Z / 2 + 6e-8 * I)) (h3 : NB D q3 (9 * P) (2.83e-6 * P + 2 * F))
    (f1 : F32.Finite gc) (f2 : F32.Finite gi) (f3 : F32.Finite gd) (b1 : |(val gc : ℝ)| ≤ Gc) (b2 : |(val gi : ℝ)| ≤ Gi)
    (b3 : |(val gd : ℝ)| ≤ Gd) (G1 : Gc ≤ 1e9) (G2 : Gi ≤ 1e9) (G3 : Gd ≤ 1e9)
    (m0 : 0 ≤ M) (m1 : M ≤ 1e9) (E0 : 0 ≤ E) (E1 : E ≤ M) (S0 : 0 ≤ S) (S1 : S ≤ 1e15) (Z0 : 0 ≤ Z) (Z1 : Z ≤ S) (P0 : 0 ≤ P) (P1 : P ≤ 1e15)
    (F0 : 0 ≤ F) (F1 : F ≤ P) (I0 : 0 ≤ I) (I1 : I ≤ 1e20) :
    F32.Near (F32.add (F32.add (F32.mul gc eb) (F32.mul gi ie)) (F32.mul gd D)) (val gc * q1 + val gi * q2 + val gd * q3)
      (1e-6 * (Gc * M) + 2e-6 * (Gi * S) + 3e-7 * (Gi * I) + 5e-6 * (Gd * P) + Gc * E + Gi * Z / 2 + 2 * (Gd * F) + 1e-42) := by
  have g1 : 0 ≤ Gc := (abs_nonneg _).trans b1
  have g2 : 0 ≤ Gi := (abs_nonneg _).trans b2
  have g3 : 0 ≤ Gd := (abs_nonneg _).trans b3
  have x1 : 0 ≤ Gc * M := mul_nonneg g1 m0
  have x1' : Gc * M ≤ 1e9 * 1e9 := mul_le_mul G1 m1 m0 (by norm_num)
  have x2 : 0 ≤ Gi * S := mul_nonneg g2 S0
  have x2' : Gi * S ≤ 1e9 * 1e15 := mul_le_mul G2 S1 S0 (by norm_num)
  have x3 : 0 ≤ Gd * P := mul_nonneg g3 P0
  have x3' : Gd * P ≤ 1e9 * 1e15 := mul_le_mul G3 P1 P0 (by norm_num)
  have x4 : 0 ≤ Gi * I := mul_nonneg g2 I0
  have x4' : Gi * I ≤ 1e9 * 1e20 := mul_le_mul G2 I1 I0 (by norm_num)
  have y1 : 0 ≤ Gc * E := mul_nonneg g1 E0
  have y1' : Gc * E ≤ Gc * M := mul_le_mul_of_nonneg_left E1 g1
  have y2 : 0 ≤ Gi * Z := mul_nonneg g2 Z0
  have y2' : Gi * Z ≤ Gi * S := mul_le_mul_of_nonneg_left Z1 g2
  have y3 : 0 ≤ Gd * F := mul_nonneg g3 F0
  have y3' : Gd * F ≤ Gd * P := mul_le_mul_of_nonneg_left F1 g3
  have r1 : Gc * (2 * M) = 2 * (Gc * M) := by ring
  have r1' : Gc * (1.8e-7 * M + E) = 1.8e-7 * (Gc * M) + Gc * E := by ring
  have r2 : Gi * (I + 2 * S) = Gi * I + 2 * (Gi * S) := by ring
  have r2' : Gi * (8.3e-7 * S + Z / 2 + 6e-8 * I) = 8.3e-7 * (Gi * S) + Gi * Z / 2 + 6e-8 * (Gi * I) := by ring
  have r3 : Gd * (9 * P) = 9 * (Gd * P) := by ring
  have r3' : Gd * (2.83e-6 * P + 2 * F) = 2.83e-6 * (Gd * P) + 2 * (Gd * F) := by ring
  generalize Gc * M = X1 at *
  generalize Gi * S = X2 at *
  generalize Gd * P = X3 at *
  generalize Gi * I = J at *
  generalize Gc * E = Y1 at *
  generalize Gi * Z = Y2 at *
  generalize Gd * F = Y3 at *
  have s1 := NB.mul f1 b1 h1 (by rw [r1, r1']; norm_num at x1' ⊢; linarith)
  have s2 := NB.mul f2 b2 h2 (by rw [r2, r2']; norm_num at x2' x4' ⊢; linarith)
  have s3 := NB.mul f3 b3 h3 (by rw [r3, r3']; norm_num at x3' ⊢; linarith)
  rw [r1, r1'] at s1
  rw [r2, r2'] at s2
  rw [r3, r3'] at s3
  replace s1 := s1.weak (Q' := 2 * X1) (d' := 3.6e-7 * X1 + Y1 + 1e-44) le_rfl (by norm_num; linarith)
  replace s2 := s2.weak (Q' := J + 2 * X2) (d' := 9.9e-7 * X2 + Y2 / 2 + 1.2e-7 * J + 1e-44) le_rfl (by norm_num; linarith)
  replace s3 := s3.weak (Q' := 9 * X3) (d' := 3.5e-6 * X3 + 2 * Y3 + 1e-44) le_rfl (by norm_num; linarith)
  have s4 := (s1.add s2 (by norm_num at x1' x2' x4' ⊢; linarith)).weak (Q' := 2 * X1 + (J + 2 * X2))
    (d' := 5.5e-7 * X1 + Y1 + 1.2e-6 * X2 + Y2 / 2 + 1.9e-7 * J + 3e-44) le_rfl (by norm_num; linarith)
  exact (s4.add s3 (by norm_num at x1' x2' x3' x4' ⊢; linarith)).near.mono (by norm_num; linarith)

/-- **C177** in binary32, in automatic mode and forward direction without a model reference, a call of `control` returns the limited PID action
of the stored state up to rounding: the error is a few units of rounding of the size of the three terms, plus the effect of the dead band.
`M` bounds the set-point, the process value, the previous integrand and the anti-windup feedback, `I` the integral and `E` the dead band. -/
theorem C177_control [Trans (BitVec 32)] (s : Ctl (BitVec 32)) (w y r : BitVec 32) {M E I Gc Gi Gd : ℝ} (hi : s.isInitialized = true) (hm : s.mode = .automatic)
    (hd : s.dir = .forward) (hr : s.yr = false) (hi1 : s.st.iMethod = .trapezoidal) (hi2 : s.st.dMethod = .twoPoints)
    (fw : F32.Finite w) (fy : F32.Finite y) (hw : |(val w : ℝ)| ≤ M) (hy : |(val y : ℝ)| ≤ M)
    (fe : F32.Finite s.epsilon) (e0 : 0 ≤ (val s.epsilon : ℝ)) (e1 : (val s.epsilon : ℝ) ≤ E) (E1 : E ≤ M)
    (fb : F32.Finite s.b) (hb : |(val s.b : ℝ)| ≤ 1) (fc : F32.Finite s.c) (hc : |(val s.c : ℝ)| ≤ 1)
    (fβ : F32.Finite s.beta) (hβ : |(val s.beta : ℝ)| ≤ 1)
    (fd : F32.Finite s.dt) (d0 : 1e-6 ≤ (val s.dt : ℝ)) (d1 : (val s.dt : ℝ) ≤ 1e6)
    (f1 : F32.Finite s.st.x1) (h1 : |(val s.st.x1 : ℝ)| ≤ M) (fu : F32.Finite s.u1) (hu : |(val s.u1 : ℝ)| ≤ M)
    (f0 : F32.Finite s.st.x0) (h0 : |(val s.st.x0 : ℝ)| ≤ I) (fD : F32.Finite s.D) (hD : |(val s.D : ℝ)| ≤ 3 * (M / val s.dt))
    (fl : F32.Finite s.satMin) (fh : F32.Finite s.satMax) (hl : (val s.satMin : ℝ) ≤ val s.satMax)
    (k1 : F32.Finite s.Kc) (k2 : F32.Finite s.Ki) (k3 : F32.Finite s.Kd) (b1 : |(val s.Kc : ℝ)| ≤ Gc) (b2 : |(val s.Ki : ℝ)| ≤ Gi)
    (b3 : |(val s.Kd : ℝ)| ≤ Gd) (G1 : Gc ≤ 1e9) (G2 : Gi ≤ 1e9) (G3 : Gd ≤ 1e9) (m0 : 1e-6 ≤ M) (m1 : M ≤ 1e9) (I1 : I ≤ 1e20) :
    let h : ℝ := val s.dt
    let de : ℝ := (val s.c * val w - val y - val s.st.x1) / h
    let v : ℝ := val s.Kc * (val s.b * val w - val y) + val s.Ki * (val s.st.x0 + 1 / 2 * (val w - val y + val s.u1 + val s.st.x1) * h) +
      val s.Kd * (de + val s.beta * (val s.D - de))
    F32.Near (s.control w y r).2 (max (val s.satMin : ℝ) (min v (val s.satMax)))
      (1e-6 * (Gc * M) + 2e-6 * (Gi * (h * M)) + 3e-7 * (Gi * I) + 5e-6 * (Gd * (M / h)) +
        Gc * E + Gi * (h * E) / 2 + 2 * (Gd * (E / h)) + 1e-42) := by
  intro h de v
  have dp : 0 < (val s.dt : ℝ) := by norm_num at d0; linarith
  have M0 : 0 ≤ M := (abs_nonneg _).trans hw
  have E0 : 0 ≤ E := e0.trans e1
  have l1 : |(val (F32.lit 1) : ℝ)| ≤ 1 := by rw [Fis.l0.2.2.2]; norm_num
  have n1 := error_near s w y (F32.lit 1) fw fy Fis.l0.2.2.1 fe hw hy l1 e1 e0 m0 m1
  have n2 := error_near s w y s.c fw fy fc fe hw hy hc e1 e0 m0 m1
  have n3 := error_near s w y s.b fw fy fb fe hw hy hb e1 e0 m0 m1
  rw [Fis.l0.2.2.2, Rat.cast_one, one_mul] at n1
  have a1 := integral_near n1 f1 h1 fu hu f0 h0 fd d0 d1 m0 m1 E0 E1 I1
  have a2 := deriv_near n2 f1 h1 fd d0 d1 fD hD fβ hβ m0 m1 E0 E1
  have S1 : (val s.dt : ℝ) * M ≤ 1e15 := by
    have := mul_le_mul d1 m1 M0 (by norm_num)
    norm_num at this ⊢; linarith
  have P1 : M / (val s.dt : ℝ) ≤ 1e15 := by
    rw [div_le_iff₀ dp]; norm_num at m1 d0 ⊢; linarith
  have a3 := action_near n3 a1 a2 k1 k2 k3 b1 b2 b3 G1 G2 G3 M0 m1 E0 E1 (mul_nonneg dp.le M0) S1 (mul_nonneg dp.le E0)
    (mul_le_mul_of_nonneg_left E1 dp.le) (div_nonneg M0 dp.le) P1 (div_nonneg E0 dp.le) (div_le_div_of_nonneg_right E1 dp.le)
    ((abs_nonneg _).trans h0) I1
  have code : (s.control w y r).2 = saturate (F32.add (F32.add (F32.mul s.Kc (s.error w y s.b))
      (F32.mul s.Ki (F32.add s.st.x0 (F32.mul (F32.mul (F32.lit (1 / 2)) (F32.add (F32.add (s.error w y (F32.lit 1)) s.u1) s.st.x1)) s.dt))))
      (F32.mul s.Kd (F32.add (F32.div (F32.sub (s.error w y s.c) s.st.x1) s.dt)
        (F32.mul s.beta (F32.sub s.D (F32.div (F32.sub (s.error w y s.c) s.st.x1) s.dt)))))) s.satMin s.satMax := by
    unfold Ctl.control
    rw [if_pos hi]
    simp only [Ctl.effective, hd, NState.derive, hi2, NState.integrate, hi1, Ctl.mrac, hr, hm, Bool.false_eq_true, if_false]
    cases s.adapt <;> rfl
  rw [code]
  exact saturate_near a3 fl fh hl

attribute [local instance] noTrans32 in
/-- Non-vacuity: the controller of `C142` (`Kc = 2`, `Ki = 1`, `Kd = 10`, 10 ms) right after `setup`, with `M = 50`, `I = 0`, `E = 1e-6`; the error
is at most one part in two hundred thousand of the derivative term. -/
example : pid32.isInitialized = true ∧ pid32.mode = .automatic ∧ pid32.dir = .forward ∧ pid32.yr = false ∧ pid32.st.iMethod = .trapezoidal ∧
    pid32.st.dMethod = .twoPoints ∧ F32.Finite pid32.epsilon ∧ 0 ≤ val pid32.epsilon ∧ val pid32.epsilon ≤ 1e-6 ∧
    F32.Finite pid32.b ∧ |val pid32.b| ≤ 1 ∧ F32.Finite pid32.c ∧ |val pid32.c| ≤ 1 ∧ F32.Finite pid32.beta ∧ |val pid32.beta| ≤ 1 ∧
    F32.Finite pid32.dt ∧ 1e-6 ≤ val pid32.dt ∧ val pid32.dt ≤ 1e6 ∧ val pid32.st.x1 = 0 ∧ val pid32.st.x0 = 0 ∧ val pid32.u1 = 0 ∧
    val pid32.D = 0 ∧ val pid32.satMin ≤ val pid32.satMax ∧ val pid32.Kc = 2 ∧ val pid32.Ki = 1 ∧ val pid32.Kd = 10 := by
  decide +kernel

end Verif.Pid
