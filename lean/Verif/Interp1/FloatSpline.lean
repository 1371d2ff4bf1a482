import Verif.Interp1.FloatSine
import Verif.Interp1.Smooth

/-!
# Spline interpolation in binary32 (C170)

IEEE binary32 arithmetic; nothing here is a definition of the repository except where cited.
-/

namespace Verif.Interp1

open Arith F32

attribute [local instance] Verif.Fis.expTrans

/-- A slope: the quotient of a difference of ordinates and a difference of abscissas. -/
theorem slope_near {x0 x1 y0 y1 : BitVec 32} (f0 : F32.Finite x0) (f1 : F32.Finite x1) (h0 : F32.Finite y0)
    (h1 : F32.Finite y1) {M E : ℝ} (hM0 : 1e-18 ≤ M) (hM : M ≤ 1e18) (k0 : |(val y0 : ℝ)| ≤ M) (k1 : |(val y1 : ℝ)| ≤ M)
    (hE : (val x1 : ℝ) - val x0 = E) (g0 : 1e-18 ≤ E) (g1 : E ≤ 2e18) :
    F32.Near (F32.div (F32.sub y1 y0) (F32.sub x1 x0)) (((val y1 : ℝ) - val y0) / E) (4e-7 * (M / E)) ∧
      |((val y1 : ℝ) - val y0) / E| ≤ 2 * (M / E) := by
  have E0 : 0 < E := by norm_num at g0; linarith
  have M0 : 0 < M := by norm_num at hM0; linarith
  have dy : |(val y1 : ℝ) - val y0| ≤ 2 * M := (abs_sub _ _).trans (by linarith)
  have n1 : F32.Near (F32.sub y1 y0) ((val y1 : ℝ) - val y0) (1.2e-7 * M) :=
    F32.Near.sub (2 * M) (F32.Near.self h1) (F32.Near.self h0) (by linarith) (by norm_num at hM ⊢; linarith)
      (by norm_num at hM0 ⊢; linarith)
  have n2 : F32.Near (F32.sub x1 x0) E (5.97e-8 * E) := by
    have := F32.Near.sub (e' := 5.97e-8 * E) E (F32.Near.self f1) (F32.Near.self f0) (by rw [hE, abs_of_pos E0]; linarith)
      (by norm_num at g1 ⊢; linarith) (by norm_num at g0 ⊢; linarith)
    rwa [hE] at this
  have q : |((val y1 : ℝ) - val y0) / E| ≤ 2 * (M / E) := by
    rw [abs_div, abs_of_pos E0, div_le_iff₀ E0]
    have : 2 * (M / E) * E = 2 * M := by field_simp
    rw [this]; exact dy
  refine ⟨?_, q⟩
  have r0 : 5e-37 ≤ M / E := by
    rw [le_div_iff₀ E0]; norm_num at g1 hM0 ⊢; linarith
  have r1 : M / E ≤ 1e36 := by
    rw [div_le_iff₀ E0]; norm_num at g0 hM ⊢; linarith
  have rE : M / E * E = M := by field_simp
  obtain ⟨Q, hQ⟩ : ∃ Q, Q = M / E := ⟨_, rfl⟩
  rw [← hQ] at q r0 r1 rE ⊢
  refine F32.Near.div (2 * Q) (E * (1 - 6e-8)) (2.41e-7 * Q) (2.01 * Q) n1 n2 E0.ne' (by positivity)
    (by rw [abs_of_pos E0]; norm_num; linarith) q ?_ (by norm_num; linarith) (by norm_num at r1 ⊢; linarith)
    (by norm_num at r0 ⊢; linarith)
  rw [div_le_iff₀ (by positivity)]
  rw [show 2 * Q * (5.97e-8 * E) = 2 * 5.97e-8 * (Q * E) by ring,
    show 2.41e-7 * Q * (E * (1 - 6e-8)) = 2.41e-7 * (1 - 6e-8) * (Q * E) by ring, rE]
  norm_num; linarith

theorem lit3 : F32.Finite (F32.lit 3) ∧ val (F32.lit 3) = 3 := by decide +kernel

/-- The four polynomials of the Hermite form. -/
theorem basis_near {t : BitVec 32} {τ : ℝ} (n : F32.Near t τ 1.9e-7) (t0 : 0 ≤ τ) (t1 : τ ≤ 1) :
    let t2 := F32.mul t t
    let t3 := F32.mul t2 t
    let h01 := F32.sub (F32.mul (F32.lit 3) t2) (F32.mul (F32.lit 2) t3)
    F32.Near h01 (3 * τ ^ 2 - 2 * τ ^ 3) 3.4e-6 ∧
    F32.Near (F32.sub (F32.lit 1) h01) (1 - (3 * τ ^ 2 - 2 * τ ^ 3)) 3.5e-6 ∧
    F32.Near (F32.add (F32.sub t3 (F32.mul (F32.lit 2) t2)) t) (τ ^ 3 - 2 * τ ^ 2 + τ) 2.2e-6 ∧
    F32.Near (F32.sub t3 t2) (τ ^ 3 - τ ^ 2) 1.3e-6 := by
  intro t2 t3 h01
  have n1 : F32.Near (F32.lit 1) 1 0 := ⟨Fis.l0.2.2.1, by rw [Fis.l0.2.2.2]; norm_num⟩
  have n2 : F32.Near (F32.lit 2) 2 0 := ⟨Fis.lit2.1, by rw [Fis.lit2.2]; norm_num⟩
  have n3 : F32.Near (F32.lit 3) 3 0 := ⟨lit3.1, by rw [lit3.2]; norm_num⟩
  have s0 : 0 ≤ τ ^ 2 := by positivity
  have s1 : τ ^ 2 ≤ 1 := pow_le_one₀ t0 t1
  have c0 : 0 ≤ τ ^ 3 := by positivity
  have c1 : τ ^ 3 ≤ τ ^ 2 := pow_le_pow_of_le_one t0 t1 (by norm_num)
  have d1 : τ ^ 2 ≤ τ := by nlinarith
  have ht : |τ| ≤ 1 := by rw [abs_of_nonneg t0]; exact t1
  have m2 : F32.Near t2 (τ ^ 2) 4.5e-7 := by
    have := F32.Near.mul (e' := 4.5e-7) 1 1 3.81e-7 1.01 n n ht ht (by norm_num)
      (by rw [← sq, abs_of_nonneg s0]; norm_num; linarith) (by norm_num) (by norm_num)
    rwa [← sq] at this
  have m3 : F32.Near t3 (τ ^ 3) 7.1e-7 := by
    have := F32.Near.mul (e' := 7.1e-7) 1 1 6.41e-7 1.01 m2 n (by rw [abs_of_nonneg s0]; exact s1) ht (by norm_num)
      (by rw [← pow_succ, abs_of_nonneg c0]; norm_num; linarith) (by norm_num) (by norm_num)
    rwa [← pow_succ] at this
  have a3 : F32.Near (F32.mul (F32.lit 2) t3) (2 * τ ^ 3) 1.55e-6 :=
    F32.Near.mul 2 1 1.42e-6 2.01 n2 m3 (by norm_num) (by rw [abs_of_nonneg c0]; linarith) (by norm_num)
      (by rw [abs_of_nonneg (by positivity)]; norm_num; linarith) (by norm_num) (by norm_num)
  have a2 : F32.Near (F32.mul (F32.lit 3) t2) (3 * τ ^ 2) 1.54e-6 :=
    F32.Near.mul 3 1 1.35e-6 3.01 n3 m2 (by norm_num) (by rw [abs_of_nonneg s0]; linarith) (by norm_num)
      (by rw [abs_of_nonneg (by positivity)]; norm_num; linarith) (by norm_num) (by norm_num)
  have b2 : F32.Near (F32.mul (F32.lit 2) t2) (2 * τ ^ 2) 1.03e-6 :=
    F32.Near.mul 2 1 9e-7 2.01 n2 m2 (by norm_num) (by rw [abs_of_nonneg s0]; linarith) (by norm_num)
      (by rw [abs_of_nonneg (by positivity)]; norm_num; linarith) (by norm_num) (by norm_num)
  have u : 0 ≤ 3 * τ ^ 2 - 2 * τ ^ 3 ∧ 3 * τ ^ 2 - 2 * τ ^ 3 ≤ 1 := by
    refine ⟨by linarith, ?_⟩
    nlinarith [mul_nonneg (sq_nonneg (1 - τ)) (by linarith : 0 ≤ 1 + 2 * τ)]
  have r01 : F32.Near h01 (3 * τ ^ 2 - 2 * τ ^ 3) 3.4e-6 :=
    F32.Near.sub 2 a2 a3 (by rw [abs_of_nonneg u.1]; norm_num; linarith) (by norm_num) (by norm_num)
  refine ⟨r01, ?_, ?_, ?_⟩
  · exact F32.Near.sub 1.1 n1 r01 (by rw [abs_of_nonneg (by linarith)]; norm_num; linarith) (by norm_num) (by norm_num)
  · have q1 : F32.Near (F32.sub t3 (F32.mul (F32.lit 2) t2)) (τ ^ 3 - 2 * τ ^ 2) 1.9e-6 :=
      F32.Near.sub 2.1 m3 b2 (by rw [abs_of_nonpos (by linarith)]; norm_num; linarith) (by norm_num) (by norm_num)
    refine F32.Near.add 1.1 q1 n ?_ (by norm_num) (by norm_num)
    have : |τ ^ 3 - 2 * τ ^ 2 + τ| ≤ 1 := by rw [_root_.abs_le]; constructor <;> linarith
    norm_num at this ⊢; linarith
  · refine F32.Near.sub 1.1 m3 m2 ?_ (by norm_num) (by norm_num)
    have : |τ ^ 3 - τ ^ 2| ≤ 1 := by rw [_root_.abs_le]; constructor <;> linarith
    norm_num at this ⊢; linarith

/-- A tangent term: a polynomial times the length of the segment times a slope. -/
theorem term_near {b l m : BitVec 32} {β h μ Q M e : ℝ} (nb : F32.Near b β e) (nl : F32.Near l h (5.97e-8 * h))
    (nm : F32.Near m μ (4e-7 * Q)) (hβ : |β| ≤ 1) (e0 : 0 ≤ e) (e1 : e ≤ 1e-5) (h0 : 1e-18 ≤ h) (h1 : h ≤ 1e18) (hμ : |μ| ≤ 2 * Q)
    (hQ : h * Q ≤ M) (Q0 : 0 ≤ Q) (hM0 : 1e-18 ≤ M) (hM : M ≤ 1e18) :
    F32.Near (F32.mul (F32.mul b l) m) (β * h * μ) ((2.001 * e + 9e-7) * M) ∧ |β * h * μ| ≤ 2 * M := by
  have hp : 0 < h := by norm_num at h0; linarith
  have hh : |h| = h := abs_of_pos hp
  have eh : e * h ≤ 1e-5 * h := mul_le_mul_of_nonneg_right e1 hp.le
  have eh0 : 0 ≤ e * h := by positivity
  have βh : |β * h| ≤ h := by
    rw [abs_mul, hh]; nlinarith
  have a : F32.Near (F32.mul b l) (β * h) (e * h + 1.21e-7 * h) := by
    refine F32.Near.mul 1 h (e * h + 5.98e-8 * h) (1.001 * h) nb nl hβ (by rw [hh]) ?_ ?_ ?_ ?_
    · rw [show 1 * (5.97e-8 * h) + h * e + e * (5.97e-8 * h) = 5.97e-8 * h + e * h + 5.97e-8 * (e * h) by ring]
      generalize e * h = V at *
      norm_num at eh ⊢; linarith
    · norm_num at eh βh ⊢; linarith
    · norm_num at h1 ⊢; linarith
    · norm_num at h0 ⊢; linarith
  have hQ0 : 0 ≤ h * Q := by positivity
  have pb : |β * h * μ| ≤ 2 * (h * Q) := by
    rw [abs_mul]
    have := mul_le_mul βh hμ (abs_nonneg _) hp.le
    linarith
  have eM : e * (h * Q) ≤ e * M := mul_le_mul_of_nonneg_left hQ e0
  have eM1 : e * M ≤ 1e-5 * M := mul_le_mul_of_nonneg_right e1 (by norm_num at hM0; linarith)
  have eQ0 : 0 ≤ e * (h * Q) := by positivity
  refine ⟨?_, pb.trans (by linarith)⟩
  refine F32.Near.mul h (2 * Q) (2.0001 * (e * M) + 7e-7 * M) (2.1 * M) a nm βh hμ ?_ ?_ (by norm_num at hM ⊢; linarith) ?_
  · have id : h * (4e-7 * Q) + 2 * Q * (e * h + 1.21e-7 * h) + (e * h + 1.21e-7 * h) * (4e-7 * Q) =
      (4e-7 + 2.42e-7 + 1.21e-7 * 4e-7) * (h * Q) + (2 + 4e-7) * (e * (h * Q)) := by ring
    rw [id]
    generalize e * (h * Q) = V at *
    generalize h * Q = W at *
    generalize e * M = U at *
    norm_num at eM ⊢; linarith
  · generalize |β * h * μ| = P at *
    norm_num at eM1 ⊢; linarith
  · rw [add_mul, mul_assoc]
    generalize e * M = U at *
    norm_num at hM0 ⊢; linarith

/-- The cubic through two knots with given tangents (specification). -/
noncomputable def hermiteCubic (x0 x1 y0 y1 m0 m1 x : ℝ) : ℝ :=
  let τ := (x - x0) / (x1 - x0)
  (1 - (3 * τ ^ 2 - 2 * τ ^ 3)) * y0 + (3 * τ ^ 2 - 2 * τ ^ 3) * y1 + (τ ^ 3 - 2 * τ ^ 2 + τ) * (x1 - x0) * m0 +
    (τ ^ 3 - τ ^ 2) * (x1 - x0) * m1

/-- A product of a weight in [0, 1] with an ordinate. -/
theorem wt_near {b y : BitVec 32} {β M e : ℝ} (nb : F32.Near b β e) (fy : F32.Finite y) (hβ : |β| ≤ 1) (e1 : e ≤ 1e-5)
    (ky : |(val y : ℝ)| ≤ M) (hM0 : 1e-18 ≤ M) (hM : M ≤ 1e18) :
    F32.Near (F32.mul b y) (β * val y) ((e + 6.1e-8) * M) ∧ |β * val y| ≤ M := by
  have M0 : 0 < M := by norm_num at hM0; linarith
  have eM : e * M ≤ 1e-5 * M := mul_le_mul_of_nonneg_right e1 M0.le
  have pb : |β * val y| ≤ M := by
    rw [abs_mul]; nlinarith [abs_nonneg (val y : ℝ), abs_nonneg β]
  refine ⟨F32.Near.mul 1 M (e * M) (1.001 * M) nb (F32.Near.self fy) hβ ky (by linarith) ?_ (by norm_num at hM ⊢; linarith) ?_, pb⟩
  · generalize |β * (val y : ℝ)| = P at *
    norm_num at eM ⊢; linarith
  · rw [add_mul]
    generalize e * M = U at *
    norm_num at hM0 ⊢; linarith

/-- One cubic with rounded operations. -/
theorem splineSeg_err {x x0 x1 y0 y1 m0 m1 : BitVec 32} (fx : F32.Finite x) (f0 : F32.Finite x0) (f1 : F32.Finite x1)
    (h0 : F32.Finite y0) (h1 : F32.Finite y1) {M h Q0 Q1 μ0 μ1 : ℝ} (hh : (val x1 : ℝ) - val x0 = h)
    (g0 : 1e-18 ≤ h) (g1 : h ≤ 1e18) (ha : (val x0 : ℝ) ≤ val x) (hb : (val x : ℝ) ≤ val x1)
    (hM0 : 1e-18 ≤ M) (hM : M ≤ 1e18) (k0 : |(val y0 : ℝ)| ≤ M) (k1 : |(val y1 : ℝ)| ≤ M)
    (nm0 : F32.Near m0 μ0 (4e-7 * Q0)) (nm1 : F32.Near m1 μ1 (4e-7 * Q1)) (b0 : |μ0| ≤ 2 * Q0) (b1 : |μ1| ≤ 2 * Q1)
    (hQ0 : h * Q0 ≤ M) (hQ1 : h * Q1 ≤ M) (q0 : 0 ≤ Q0) (q1 : 0 ≤ Q1) :
    F32.Near (splineSeg x x0 x1 y0 y1 m0 m1) (hermiteCubic (val x0) (val x1) (val y0) (val y1) μ0 μ1 (val x)) (1.8e-5 * M) := by
  have hp : 0 < h := by norm_num at g0; linarith
  have M0 : 0 < M := by norm_num at hM0; linarith
  have nt := Fis.ratio_near fx f0 f1 f0 ((val x : ℝ) - val x0) h rfl hh
    (by rw [abs_of_nonneg (by linarith)]; norm_num at g1 ⊢; linarith) (by rw [abs_of_pos hp]; exact g0)
    (by rw [abs_of_pos hp]; norm_num at g1 ⊢; linarith)
  unfold hermiteCubic
  rw [hh]
  have τ0 : 0 ≤ ((val x : ℝ) - val x0) / h := div_nonneg (by linarith) hp.le
  have τ1 : ((val x : ℝ) - val x0) / h ≤ 1 := by rw [div_le_one hp]; linarith
  have nl : F32.Near (F32.sub x1 x0) h (5.97e-8 * h) := by
    have := F32.Near.sub (e' := 5.97e-8 * h) h (F32.Near.self f1) (F32.Near.self f0) (by rw [hh, abs_of_pos hp]; linarith)
      (by norm_num at g1 ⊢; linarith) (by norm_num at g0 ⊢; linarith)
    rwa [hh] at this
  generalize ((val x : ℝ) - val x0) / h = τ at *
  rw [abs_of_nonneg τ0] at nt
  obtain ⟨r01, r00, r10, r11⟩ := basis_near (nt.mono (by norm_num; linarith)) τ0 τ1
  have s0 : 0 ≤ τ ^ 2 := by positivity
  have s1 : τ ^ 2 ≤ 1 := pow_le_one₀ τ0 τ1
  have c0 : 0 ≤ τ ^ 3 := by positivity
  have c1 : τ ^ 3 ≤ τ ^ 2 := pow_le_pow_of_le_one τ0 τ1 (by norm_num)
  have d1 : τ ^ 2 ≤ τ := by nlinarith
  have u : 0 ≤ 3 * τ ^ 2 - 2 * τ ^ 3 ∧ 3 * τ ^ 2 - 2 * τ ^ 3 ≤ 1 := by
    refine ⟨by linarith, ?_⟩
    nlinarith [mul_nonneg (sq_nonneg (1 - τ)) (by linarith : 0 ≤ 1 + 2 * τ)]
  have a10 : |τ ^ 3 - 2 * τ ^ 2 + τ| ≤ 1 := by rw [_root_.abs_le]; constructor <;> linarith
  have a11 : |τ ^ 3 - τ ^ 2| ≤ 1 := by rw [_root_.abs_le]; constructor <;> linarith
  have a01 : |3 * τ ^ 2 - 2 * τ ^ 3| ≤ 1 := by rw [_root_.abs_le]; constructor <;> linarith
  have a00 : |1 - (3 * τ ^ 2 - 2 * τ ^ 3)| ≤ 1 := by rw [_root_.abs_le]; constructor <;> linarith
  change F32.Near (F32.add (F32.add (F32.add (F32.mul (F32.sub (F32.lit 1) (F32.sub (F32.mul (F32.lit 3) _) (F32.mul (F32.lit 2) _))) y0)
    (F32.mul (F32.sub (F32.mul (F32.lit 3) _) (F32.mul (F32.lit 2) _)) y1))
    (F32.mul (F32.mul (F32.add (F32.sub _ (F32.mul (F32.lit 2) _)) _) (F32.sub x1 x0)) m0))
    (F32.mul (F32.mul (F32.sub _ _) (F32.sub x1 x0)) m1)) _ _
  clear nt s0 s1 c0 c1 d1 u
  obtain ⟨w0, v0⟩ := wt_near r00 h0 a00 (by norm_num) k0 hM0 hM
  obtain ⟨w1, v1⟩ := wt_near r01 h1 a01 (by norm_num) k1 hM0 hM
  obtain ⟨w2, v2⟩ := term_near r10 nl nm0 a10 (by norm_num) (by norm_num) g0 g1 b0 hQ0 q0 hM0 hM
  obtain ⟨w3, v3⟩ := term_near r11 nl nm1 a11 (by norm_num) (by norm_num) g0 g1 b1 hQ1 q1 hM0 hM
  have z1 := F32.Near.add (e' := 7.3e-6 * M) (2.1 * M) w0 w1 (by
    refine le_trans (add_le_add (abs_add_le _ _) le_rfl) ?_
    norm_num at v0 v1 ⊢; linarith) (by norm_num at hM ⊢; linarith) (by norm_num at hM0 ⊢; linarith)
  have v01 := (abs_add_le ((1 - (3 * τ ^ 2 - 2 * τ ^ 3)) * (val y0 : ℝ)) ((3 * τ ^ 2 - 2 * τ ^ 3) * val y1)).trans (add_le_add v0 v1)
  have z2 := F32.Near.add (e' := 1.3e-5 * M) (4.1 * M) z1 w2 (by
    refine le_trans (add_le_add (abs_add_le _ _) le_rfl) ?_
    norm_num at v01 v2 ⊢; linarith) (by norm_num at hM ⊢; linarith) (by norm_num at hM0 ⊢; linarith)
  have v012 := (abs_add_le ((1 - (3 * τ ^ 2 - 2 * τ ^ 3)) * (val y0 : ℝ) + (3 * τ ^ 2 - 2 * τ ^ 3) * val y1)
    ((τ ^ 3 - 2 * τ ^ 2 + τ) * h * μ0)).trans (add_le_add v01 v2)
  exact F32.Near.add (6.1 * M) z2 w3 (by
    refine le_trans (add_le_add (abs_add_le _ _) le_rfl) ?_
    norm_num at v012 v3 ⊢; linarith) (by norm_num at hM ⊢; linarith) (by norm_num at hM0 ⊢; linarith)

/-- `isEqual` in terms of values. -/
theorem isEqual_val {a b : BitVec 32} (hf : F32.Finite (F32.sub a b)) : isEqual a b = decide (|val (F32.sub a b)| ≤ 1 / 2 ^ 126) := by
  have l : F32.Finite (Ffmath.absolute (F32.lit (1 / 2 ^ 126))) ∧ val (Ffmath.absolute (F32.lit (1 / 2 ^ 126))) = 1 / 2 ^ 126 := by
    decide +kernel
  have e : isEqual a b = F32.le (Arith.absf (F32.sub a b)) (Arith.absf (F32.lit (1 / 2 ^ 126))) := rfl
  rw [e, Fis.absf_eq, Fis.absf_eq, le_fin (Ffmath.absolute_finite.2 hf) l.1, l.2, Ffmath.absolute_val]

/-- `isEqual` on numbers that are not far apart: equal only within 1.3e-38. -/
theorem isEqual_close {a b : BitVec 32} (fa : F32.Finite a) (fb : F32.Finite b) (hr : |(val a : ℝ) - val b| ≤ 1e37)
    (he : isEqual a b = true) : |(val a : ℝ) - val b| ≤ 1.3e-38 := by
  have n := F32.Near.sub (e' := |(val a : ℝ) - val b| / 16777216 + 1e-45) (|(val a : ℝ) - val b|) (F32.Near.self fa) (F32.Near.self fb)
    (by linarith) (by norm_num at hr ⊢; linarith) (by linarith)
  rw [isEqual_val n.fin, decide_eq_true_eq] at he
  have e' : |(val (F32.sub a b) : ℝ)| ≤ 1 / 2 ^ 126 := by
    have q : ((|val (F32.sub a b)| : ℚ) : ℝ) ≤ ((1 / 2 ^ 126 : ℚ) : ℝ) := by exact_mod_cast he
    push_cast at q; exact q
  have k := n.err
  have t := abs_sub_abs_le_abs_sub ((val a : ℝ) - val b) (val (F32.sub a b))
  rw [abs_sub_comm _ (val (F32.sub a b) : ℝ)] at t
  generalize |(val (F32.sub a b) : ℝ) - _| = U at *
  generalize |(val a : ℝ) - val b| = V at *
  norm_num at e' k ⊢; linarith

/-- Knots of a table over the reals. -/
theorem TableF.monoR {tx ty : Array (BitVec 32)} {n : Nat} {X Y : Nat → BitVec 32} {M : ℚ} (h : TableF tx ty n X Y M) {i j : Nat}
    (hij : i ≤ j) (hj : j < n) : (val (X i) : ℝ) ≤ val (X j) := by exact_mod_cast h.mono hij hj

/-- A chord over one or two segments, one of them the segment `i`. -/
theorem chord_near {tx ty : Array (BitVec 32)} {n : Nat} {X Y : Nat → BitVec 32} {M : ℚ} (h : TableF tx ty n X Y M)
    (hM0 : (1e-18 : ℝ) ≤ M) (hM : (M : ℝ) ≤ 1e18) {i lo hi : Nat} (h1 : lo ≤ i) (h2 : i + 1 ≤ hi) (h3 : hi ≤ lo + 2) (h4 : hi < n) :
    ∃ Q : ℝ, F32.Near (F32.div (F32.sub (Y hi) (Y lo)) (F32.sub (X hi) (X lo)))
        (((val (Y hi) : ℝ) - val (Y lo)) / ((val (X hi) : ℝ) - val (X lo))) (4e-7 * Q) ∧
      |((val (Y hi) : ℝ) - val (Y lo)) / ((val (X hi) : ℝ) - val (X lo))| ≤ 2 * Q ∧
      ((val (X (i + 1)) : ℝ) - val (X i)) * Q ≤ M ∧ 0 ≤ Q := by
  have a1 := h.monoR h1 (by omega)
  have a2 := h.monoR h2 h4
  obtain ⟨gp, g0, g1⟩ := h.gapR (i := i) (by omega)
  have up : (val (X hi) : ℝ) - val (X lo) ≤ 2e18 := by
    by_cases c : hi = lo + 1
    · subst c
      have := (h.gapR (i := lo) (by omega)).2.2
      norm_num at this ⊢; linarith
    · obtain rfl : hi = lo + 1 + 1 := by omega
      have u := (h.gapR (i := lo) (by omega)).2.2
      have v := (h.gapR (i := lo + 1) (by omega)).2.2
      norm_num at u v ⊢; linarith
  obtain ⟨E, hE⟩ : ∃ E, E = (val (X hi) : ℝ) - val (X lo) := ⟨_, rfl⟩
  have Eh : (val (X (i + 1)) : ℝ) - val (X i) ≤ E := by linarith
  have E0 : 0 < E := by linarith
  have M0 : (0 : ℝ) < M := by norm_num at hM0; linarith
  obtain ⟨r1, r2⟩ := slope_near (h.fX lo (by omega)) (h.fX hi h4) (h.fY lo (by omega)) (h.fY hi h4) hM0 hM (h.magR (by omega)) (h.magR h4)
    hE.symm (g0.trans Eh) (by rw [hE]; exact up)
  rw [← hE]
  refine ⟨M / E, r1, r2, ?_, by positivity⟩
  rw [mul_div_assoc', div_le_iff₀ E0, _root_.mul_comm]
  exact mul_le_mul_of_nonneg_left Eh M0.le

/-- The search finds the segment that contains the argument. -/
theorem segment_float {tx ty : Array (BitVec 32)} {n : Nat} {X Y : Nat → BitVec 32} {M : ℚ} (h : TableF tx ty n X Y M)
    {x : BitVec 32} (hx : F32.Finite x) {i : Nat} (hi : i + 1 < n) (h1 : val (X i) ≤ val x) (h2 : val x < val (X (i + 1))) :
    segment x tx n = .ok i := by
  have loop : ∀ k j, j ≤ i → i < j + k → segLoop x tx k j = .ok i := by
    intro k
    induction k with
    | zero => intro j _ _; omega
    | succ k ih =>
      intro j hj hk
      rw [segLoop, h.hX (j + 1) (by omega), Out.bind_ok]
      have e : (X (j + 1) ≤. x) = decide (val (X (j + 1)) ≤ val x) := le_fin (h.fX _ (by omega)) hx
      rw [e]
      by_cases c : j = i
      · subst c
        rw [if_neg (by simpa using h2)]; rfl
      · rw [if_pos (by simpa using (h.mono (show j + 1 ≤ i by omega) (by omega)).trans h1)]
        exact ih (j + 1) (by omega) (by omega)
  have sz : n ≤ tx.size := by
    by_contra hc
    have := h.hX (n - 1) (by omega)
    unfold rdArr at this
    rw [dif_neg (by omega)] at this
    cases this
  unfold segment
  rw [h.hX 0 (by omega), Out.bind_ok]
  have e0 : (x ≤. X 0) = decide (val x ≤ val (X 0)) := le_fin hx (h.fX _ (by omega))
  rw [e0]
  by_cases c : val x ≤ val (X 0)
  · have : i = 0 := by
      by_contra hc
      have := h.strict (show 0 < i by omega) (by omega)
      linarith
    rw [if_pos (by simpa using c), this]; rfl
  · rw [if_neg (by simpa using c), h.hX (n - 1) (by omega), Out.bind_ok]
    have e1 : (X (n - 1) ≤. x) = decide (val (X (n - 1)) ≤ val x) := le_fin (h.fX _ (by omega)) hx
    rw [e1, if_neg]
    · exact loop _ 0 (by omega) (by omega)
    · have := h.mono (show i + 1 ≤ n - 1 by omega) (by omega)
      simp only [decide_eq_true_eq]; linarith

theorem chord_float {tx ty : Array (BitVec 32)} {n : Nat} {X Y : Nat → BitVec 32} {M : ℚ} (h : TableF tx ty n X Y M)
    {j i : Nat} (hj : j < n) (hi : i < n) : chord tx ty j i = .ok (F32.div (F32.sub (Y j) (Y i)) (F32.sub (X j) (X i))) := by
  unfold chord
  rw [h.hY j hj, Out.bind_ok, h.hY i hi, Out.bind_ok, h.hX j hj, Out.bind_ok, h.hX i hi, Out.bind_ok]
  rfl

theorem slope_float {tx ty : Array (BitVec 32)} {n : Nat} {X Y : Nat → BitVec 32} {M : ℚ} (h : TableF tx ty n X Y M)
    {i : Nat} (hi : i + 2 < n) :
    slope tx ty (i + 1) = .ok (F32.div (F32.sub (Y (i + 2)) (Y i)) (F32.sub (X (i + 2)) (X i))) := by
  unfold slope
  rw [h.hX (i + 1 + 1) hi, Out.bind_ok, h.hX (i + 1 - 1) (by omega), Out.bind_ok, if_neg, h.hY (i + 1 + 1) hi, Out.bind_ok,
    h.hY (i + 1 - 1) (by omega), Out.bind_ok]
  · rfl
  · intro c
    obtain ⟨p0, u0, u1⟩ := h.gapR (i := i) (by omega)
    obtain ⟨p1, v0, v1⟩ := h.gapR (i := i + 1) (by omega)
    have ab : |(val (X (i + 1 + 1)) : ℝ) - val (X (i + 1 - 1))| = (val (X (i + 1 + 1)) : ℝ) - val (X i) := by
      rw [show i + 1 - 1 = i by omega]; exact abs_of_pos (by linarith)
    have := isEqual_close (h.fX _ hi) (h.fX _ (by omega)) (by rw [ab]; norm_num at u1 v1 ⊢; linarith) c
    rw [ab] at this
    norm_num at this u0; linarith

/-- What `spline` computes inside the table. -/
theorem spline_float {tx ty : Array (BitVec 32)} {n : Nat} {X Y : Nat → BitVec 32} {M : ℚ} (hn : 4 ≤ n) (h : TableF tx ty n X Y M)
    (nan x : BitVec 32) {i : Nat} (hi : i + 1 < n) (hs : segment x tx n = .ok i) :
    spline nan x (some tx) (some ty) n =
      if isEqual x (X (i + 1)) then .ok (Y (i + 1))
      else .ok (splineSeg x (X i) (X (i + 1)) (Y i) (Y (i + 1))
        (F32.div (F32.sub (Y (i + 1)) (Y (i - 1))) (F32.sub (X (i + 1)) (X (i - 1))))
        (F32.div (F32.sub (Y (if i + 2 < n then i + 2 else i + 1)) (Y i)) (F32.sub (X (if i + 2 < n then i + 2 else i + 1)) (X i)))) := by
  unfold spline guarded
  simp only [ge_iff_le, if_pos hn]
  rw [hs, Out.bind_ok, h.hX (i + 1) hi, Out.bind_ok]
  by_cases c : isEqual x (X (i + 1)) = true
  · rw [if_pos c, if_pos c, h.hY (i + 1) hi]
  · rw [if_neg c, if_neg c, h.hX i (by omega), Out.bind_ok, h.hY i (by omega), Out.bind_ok, h.hY (i + 1) hi, Out.bind_ok]
    rcases Nat.eq_zero_or_pos i with c0 | c0
    · subst c0
      rw [if_pos rfl, chord_float h (by omega) (by omega), Out.bind_ok, chord_float h (by omega) (by omega), Out.bind_ok,
        Out.pure_eq, Out.bind_ok, Out.pure_eq, if_pos (by omega)]
    · rw [if_neg (by omega)]
      by_cases c1 : n - 2 = i
      · subst c1
        rw [if_pos rfl, chord_float h (by omega) (by omega), Out.bind_ok, chord_float h (by omega) (by omega), Out.bind_ok,
          Out.pure_eq, Out.bind_ok, Out.pure_eq, if_neg (by omega), show n - 2 + 1 = n - 1 by omega, show n - 2 - 1 = n - 3 by omega]
      · obtain ⟨k, rfl⟩ : ∃ k, i = k + 1 := ⟨i - 1, by omega⟩
        rw [if_neg c1, slope_float h (by omega), Out.bind_ok, slope_float h (by omega), Out.bind_ok, Out.pure_eq, Out.bind_ok,
          Out.pure_eq, if_pos (by omega)]
        rfl

/-- Near the right end the cubic is near the ordinate there. -/
theorem hermite_end {x x0 x1 y0 y1 m0 m1 h Q0 Q1 M : ℝ} (hh : x1 - x0 = h) (hp : 0 < h) (a : x0 ≤ x) (b : x ≤ x1)
    (k0 : |y0| ≤ M) (k1 : |y1| ≤ M) (b0 : |m0| ≤ 2 * Q0) (b1 : |m1| ≤ 2 * Q1) (hQ0 : h * Q0 ≤ M) (hQ1 : h * Q1 ≤ M) :
    |y1 - hermiteCubic x0 x1 y0 y1 m0 m1 x| ≤ 10 * M * ((x1 - x) / h) := by
  unfold hermiteCubic
  rw [hh]
  have e : (x1 - x) / h = 1 - (x - x0) / h := by
    rw [eq_sub_iff_add_eq, ← add_div, div_eq_one_iff_eq hp.ne']; linarith
  have τ0 : 0 ≤ (x - x0) / h := div_nonneg (by linarith) hp.le
  have τ1 : (x - x0) / h ≤ 1 := by rw [div_le_one hp]; linarith
  rw [e]
  generalize (x - x0) / h = τ at *
  have M0 : 0 ≤ M := (abs_nonneg _).trans k0
  obtain ⟨δ, hδ⟩ : ∃ δ, δ = 1 - τ := ⟨_, rfl⟩
  have d0 : 0 ≤ δ := by linarith
  have d1 : δ ≤ 1 := by linarith
  have id : y1 - ((1 - (3 * τ ^ 2 - 2 * τ ^ 3)) * y0 + (3 * τ ^ 2 - 2 * τ ^ 3) * y1 + (τ ^ 3 - 2 * τ ^ 2 + τ) * h * m0 +
      (τ ^ 3 - τ ^ 2) * h * m1) = δ * ((δ * (1 + 2 * τ)) * (y1 - y0)) - δ * ((τ * δ) * (h * m0)) + δ * ((τ ^ 2) * (h * m1)) := by
    rw [hδ]; ring
  rw [id, ← hδ, show ∀ A B C : ℝ, δ * A - δ * B + δ * C = δ * (A - B + C) by intros; ring, abs_mul, abs_of_nonneg d0]
  rw [_root_.mul_comm (10 * M)]
  refine mul_le_mul_of_nonneg_left ?_ d0
  have p1 : |h * m0| ≤ 2 * M := by
    rw [abs_mul, abs_of_pos hp]; nlinarith
  have p2 : |h * m1| ≤ 2 * M := by
    rw [abs_mul, abs_of_pos hp]; nlinarith
  have p3 : |y1 - y0| ≤ 2 * M := (abs_sub _ _).trans (by linarith)
  have w1 : |δ * (1 + 2 * τ)| ≤ 3 := by rw [abs_of_nonneg (by positivity)]; nlinarith
  have w2 : |τ * δ| ≤ 1 := by rw [abs_of_nonneg (by positivity)]; nlinarith
  have w3 : |τ ^ 2| ≤ 1 := by rw [abs_of_nonneg (by positivity)]; nlinarith
  have z1 : |δ * (1 + 2 * τ) * (y1 - y0)| ≤ 3 * (2 * M) := by
    rw [abs_mul]; exact mul_le_mul w1 p3 (abs_nonneg _) (by norm_num)
  have z2 : |τ * δ * (h * m0)| ≤ 1 * (2 * M) := by
    rw [abs_mul]; exact mul_le_mul w2 p1 (abs_nonneg _) (by norm_num)
  have z3 : |τ ^ 2 * (h * m1)| ≤ 1 * (2 * M) := by
    rw [abs_mul]; exact mul_le_mul w3 p2 (abs_nonneg _) (by norm_num)
  refine (abs_add_le _ _).trans (le_trans (add_le_add (abs_sub _ _) le_rfl) ?_)
  linarith

/-- The tangents in terms of neighbouring knots. -/
theorem tangent_left (X Y : Nat → ℝ) {n i : Nat} (hi : i + 1 < n) :
    tangent X Y n i = (Y (i + 1) - Y (i - 1)) / (X (i + 1) - X (i - 1)) := by
  unfold tangent
  rcases Nat.eq_zero_or_pos i with c | c
  · subst c; rw [if_pos rfl]
  · rw [if_neg (by omega), if_neg (by omega)]

theorem tangent_right (X Y : Nat → ℝ) {n i : Nat} (hi : i + 1 < n) :
    tangent X Y n (i + 1) = (Y (if i + 2 < n then i + 2 else i + 1) - Y i) / (X (if i + 2 < n then i + 2 else i + 1) - X i) := by
  unfold tangent
  rw [if_neg (by omega)]
  by_cases c : i + 2 < n
  · rw [if_neg (by omega), if_pos c]; rfl
  · rw [if_pos (by omega), if_neg c, show n - 1 = i + 1 by omega, show n - 2 = i by omega]

/-- **C170** (inside the table). With rounded arithmetic the spline is finite and within `1.8e-5 M` of the exact cubic of the segment
that contains the argument, `M` being the largest magnitude of the ordinates. -/
theorem C170_spline {tx ty : Array (BitVec 32)} {n : Nat} {X Y : Nat → BitVec 32} {M : ℚ} (hn : 4 ≤ n) (h : TableF tx ty n X Y M)
    (hM0 : 1e-18 ≤ M) (hM : M ≤ 1e18) (nan x : BitVec 32) (hx : F32.Finite x) (i : Nat) (hi : i + 1 < n)
    (h1 : val (X i) ≤ val x) (h2 : val x < val (X (i + 1))) :
    ∃ v, spline nan x (some tx) (some ty) n = .ok v ∧ F32.Finite v ∧
      |(val v : ℝ) - hermiteCubic (val (X i)) (val (X (i + 1))) (val (Y i)) (val (Y (i + 1)))
        (tangent (fun j => (val (X j) : ℝ)) (fun j => (val (Y j) : ℝ)) n i)
        (tangent (fun j => (val (X j) : ℝ)) (fun j => (val (Y j) : ℝ)) n (i + 1)) (val x)| ≤ 1.8e-5 * M := by
  have hM' : (M : ℝ) ≤ 1e18 := by
    have : (M : ℝ) ≤ ((1e18 : ℚ) : ℝ) := by exact_mod_cast hM
    push_cast at this; norm_num at this ⊢; exact this
  have hM0' : (1e-18 : ℝ) ≤ M := by
    have : ((1e-18 : ℚ) : ℝ) ≤ (M : ℝ) := by exact_mod_cast hM0
    push_cast at this; norm_num at this ⊢; exact this
  have h1' : (val (X i) : ℝ) ≤ val x := by exact_mod_cast h1
  have h2' : (val x : ℝ) ≤ val (X (i + 1)) := by exact_mod_cast h2.le
  obtain ⟨gp, g0, g1⟩ := h.gapR hi
  have Mp : (0 : ℝ) < M := by norm_num at hM0'; linarith
  obtain ⟨Q0, n0, b0, hq0, q0⟩ := chord_near h hM0' hM' (i := i) (lo := i - 1) (hi := i + 1) (by omega) le_rfl (by omega) hi
  obtain ⟨Q1, n1, b1, hq1, q1⟩ := chord_near h hM0' hM' (i := i) (lo := i) (hi := if i + 2 < n then i + 2 else i + 1) le_rfl
    (by split_ifs <;> omega) (by split_ifs <;> omega) (by split_ifs <;> omega)
  rw [spline_float hn h nan x hi (segment_float h hx hi h1 h2), tangent_left _ _ hi, tangent_right _ _ hi]
  by_cases c : isEqual x (X (i + 1)) = true
  · rw [if_pos c]
    refine ⟨_, rfl, h.fY _ hi, ?_⟩
    have cl := isEqual_close hx (h.fX _ hi) (by rw [abs_sub_comm, abs_of_nonneg (by linarith)]; norm_num at g1 ⊢; linarith) c
    rw [abs_sub_comm, abs_of_nonneg (by linarith)] at cl
    refine (hermite_end rfl gp h1' h2' (h.magR (by omega)) (h.magR hi) b0 b1 hq0 hq1).trans ?_
    have : ((val (X (i + 1)) : ℝ) - val x) / ((val (X (i + 1)) : ℝ) - val (X i)) ≤ 1e-7 := by
      rw [div_le_iff₀ gp]; norm_num at cl g0 ⊢; linarith
    have := mul_le_mul_of_nonneg_left this (show (0 : ℝ) ≤ 10 * M by positivity)
    norm_num at this ⊢; linarith
  · rw [if_neg c]
    have e := splineSeg_err hx (h.fX i (by omega)) (h.fX _ hi) (h.fY i (by omega)) (h.fY _ hi) rfl g0 g1 h1' h2' hM0' hM'
      (h.magR (by omega)) (h.magR hi) n0 n1 b0 b1 hq0 hq1 q0 q1
    exact ⟨_, rfl, e.fin, e.err⟩

/-- **C170** (last knot). At the last knot the spline is the last ordinate, bit for bit. -/
theorem C170_spline_last {tx ty : Array (BitVec 32)} {n : Nat} {X Y : Nat → BitVec 32} {M : ℚ} (hn : 4 ≤ n) (h : TableF tx ty n X Y M)
    (nan x : BitVec 32) (hx : F32.Finite x) (hv : val x = val (X (n - 1))) :
    spline nan x (some tx) (some ty) n = .ok (Y (n - 1)) := by
  have hs : segment x tx n = .ok (n - 2) := by
    unfold segment
    rw [h.hX 0 (by omega), Out.bind_ok]
    have e0 : (x ≤. X 0) = decide (val x ≤ val (X 0)) := le_fin hx (h.fX _ (by omega))
    have e1 : (X (n - 1) ≤. x) = decide (val (X (n - 1)) ≤ val x) := le_fin (h.fX _ (by omega)) hx
    have := h.strict (show 0 < n - 1 by omega) (by omega)
    rw [e0, if_neg (by rw [decide_eq_true_eq, hv]; linarith), h.hX (n - 1) (by omega), Out.bind_ok, e1,
      if_pos (by rw [decide_eq_true_eq, hv])]
    rfl
  rw [spline_float hn h nan x (by omega) hs, show n - 2 + 1 = n - 1 by omega, if_pos]
  have sf := sub_fin hx (h.fX (n - 1) (by omega))
  rw [hv, sub_self] at sf
  have z := rnd_int (neg x && !neg (X (n - 1))) (k := 0) (by norm_num)
  rw [Int.cast_zero, ← sf] at z
  rw [isEqual_val z.1, decide_eq_true_eq, z.2]
  norm_num

/-- Example: a table and an argument inside its second segment that meet the hypotheses of `C170_spline`. -/
example : TableF #[F32.lit 0, F32.lit 13, F32.lit 20, F32.lit 21] #[F32.lit 0, F32.lit 7, F32.lit 10, F32.lit (-3)] 4
    (fun i => #[F32.lit 0, F32.lit 13, F32.lit 20, F32.lit 21].getD i 0)
    (fun i => #[F32.lit 0, F32.lit 7, F32.lit 10, F32.lit (-3)].getD i 0) 10 ∧ F32.Finite (F32.lit 15) ∧
    val (F32.lit 13) ≤ val (F32.lit 15) ∧ val (F32.lit 15) < val (F32.lit 20) := by
  refine ⟨?_, by decide +kernel, by decide +kernel, by decide +kernel⟩
  constructor
  · unfold IsTable; decide +kernel
  · unfold IsTable; decide +kernel
  · decide +kernel
  · decide +kernel
  · intro i hi
    have : i = 0 ∨ i = 1 ∨ i = 2 := by omega
    rcases this with rfl | rfl | rfl <;> decide +kernel
  · decide +kernel

end Verif.Interp1
