import Verif.Ffmath.EllipticRd

/-!
# The loop of `ellint_rd` in binary32
-/

namespace Verif.Ffmath

open Verif F32

/-- The mean of a state of `ellint_rd`, `/repo/src/ffmath.cpp` line 1631 (the variable `mu`). -/
def rdMu (x y z : BitVec 32) : BitVec 32 := F32.mul (F32.add (F32.add x y) (F32.mul (lit 3) z)) (lit 0.2)

/-- The deviation of a number of a state, `/repo/src/ffmath.cpp` lines 1632-1634. -/
def rdDev (mu x : BitVec 32) : BitVec 32 := F32.div (F32.sub mu x) mu

/-- The stopping rule of `ellint_rd`, `/repo/src/ffmath.cpp` lines 1635-1640. -/
def rdTest (x y z : BitVec 32) : Bool :=
  F32.lt (fmaxE (absolute (rdDev (rdMu x y z) z)) (fmaxE (absolute (rdDev (rdMu x y z) x)) (absolute (rdDev (rdMu x y z) y))))
    (lit 0.0017400365588678507952624663346341549)

theorem rdLoop_zero (x y z s p : BitVec 32) (h : rdTest x y z = true) : ∀ n, rdLoop n x y z s p = (x, y, z, s, p) := by
  intro n
  unfold rdLoop
  simp only
  exact if_pos h

theorem rdLoop_succ (x y z s p : BitVec 32) (n : ℕ) (h : ¬ rdTest x y z = true) : rdLoop (n + 1) x y z s p =
    rdLoop n (quarterE x (lambdaE x y z)) (quarterE y (lambdaE x y z)) (quarterE z (lambdaE x y z))
      (F32.add s (F32.div p (F32.mul (sqrt z) (F32.add z (lambdaE x y z))))) (F32.mul p (F32.div (lit 1) (lit 4))) := by
  rw [rdLoop]
  simp only
  exact if_neg h

theorem fifth_const : F32.Finite (lit 0.2) ∧ |val (lit 0.2) - 0.2| ≤ 4e-9 := by decide +kernel
theorem three_const : F32.Finite (lit 3) ∧ val (lit 3) = 3 := by decide +kernel

theorem rdMu_val {x y z : BitVec 32} (fx : F32.Finite x) (fy : F32.Finite y) (fz : F32.Finite z) (x0 : 0 ≤ val x) (y0 : 0 ≤ val y) (z0 : 0 ≤ val z)
    (hx : val x ≤ 2) (hy : val y ≤ 2) (hz : val z ≤ 2) (hm : 1e-5 ≤ (val x + val y + 3 * val z) / 5) :
    F32.Finite (rdMu x y z) ∧ |val (rdMu x y z) - (val x + val y + 3 * val z) / 5| ≤ 2.5e-7 * ((val x + val y + 3 * val z) / 5) := by
  obtain ⟨fc, ec⟩ := fifth_const
  obtain ⟨f3, e3⟩ := three_const
  unfold rdMu
  generalize lit 0.2 = c at *
  generalize lit 3 = t at *
  rw [add_fin fx fy, mul_fin f3 fz, e3]
  obtain ⟨f1, e1⟩ := rnd_err' (s := neg x && neg y) (q := val x + val y) (by rw [abs_of_nonneg (by linarith)]; linarith)
  rw [abs_of_nonneg (a := val x + val y) (by linarith)] at e1
  generalize F32.rnd (neg x && neg y) (val x + val y) = s1 at *
  obtain ⟨a1, a2⟩ := _root_.abs_le.1 e1
  obtain ⟨f1', e1'⟩ := rnd_err' (s := neg t ^^ neg z) (q := 3 * val z) (by rw [abs_of_nonneg (by linarith)]; linarith)
  rw [abs_of_nonneg (a := 3 * val z) (by linarith)] at e1'
  generalize F32.rnd (neg t ^^ neg z) (3 * val z) = z3 at *
  obtain ⟨a3, a4⟩ := _root_.abs_le.1 e1'
  rw [add_fin f1 f1']
  have hp : |val s1 + val z3| ≤ val x + val y + 3 * val z + (val x + val y + 3 * val z) / 16777216 + 2e-45 := by rw [_root_.abs_le]; constructor <;> linarith
  obtain ⟨f2, e2⟩ := rnd_err' (s := neg s1 && neg z3) (q := val s1 + val z3) (hp.trans (by linarith))
  generalize F32.rnd (neg s1 && neg z3) (val s1 + val z3) = s2 at *
  have e2' := e2.trans (add_le_add_left (div_le_div_of_nonneg_right hp (by norm_num)) _)
  obtain ⟨b1, b2⟩ := _root_.abs_le.1 e2'
  obtain ⟨c1, c2⟩ := _root_.abs_le.1 ec
  rw [mul_fin f2 fc]
  have hs2 : 0 ≤ val s2 := by linarith
  have m1 : val s2 * (0.2 - 4e-9) ≤ val s2 * val c := mul_le_mul_of_nonneg_left (by linarith) hs2
  have m2 : val s2 * val c ≤ val s2 * (0.2 + 4e-9) := mul_le_mul_of_nonneg_left (by linarith) hs2
  generalize val s2 * val c = p at *
  have hpp : |p| ≤ val s2 * (0.2 + 4e-9) := by rw [_root_.abs_le]; constructor <;> linarith
  obtain ⟨f3, e3⟩ := rnd_err' (s := neg s2 ^^ neg c) (q := p) (hpp.trans (by linarith))
  have e3' := e3.trans (add_le_add_left (div_le_div_of_nonneg_right hpp (by norm_num)) _)
  obtain ⟨d1, d2⟩ := _root_.abs_le.1 e3'
  refine ⟨f3, _root_.abs_le.2 ⟨?_, ?_⟩⟩ <;> linarith

theorem rdDev_val {mu x : BitVec 32} (fm : F32.Finite mu) (fx : F32.Finite x) (m0 : 1e-6 ≤ val mu) (m1 : val mu ≤ 10) (x0 : 0 ≤ val x)
    (hx : val x ≤ 5.1 * val mu) : F32.Finite (rdDev mu x) ∧ |val (rdDev mu x) - (1 - val x / val mu)| ≤ 1e-6 := by
  have mp : 0 < val mu := by linarith
  unfold rdDev
  rw [sub_fin fm fx]
  have hd : |val mu - val x| ≤ 4.1 * val mu := by rw [_root_.abs_le]; constructor <;> linarith
  obtain ⟨f1, e1⟩ := rnd_err' (s := neg mu && !neg x) (q := val mu - val x) (hd.trans (by linarith))
  have e1' := e1.trans (add_le_add_left (div_le_div_of_nonneg_right hd (by norm_num)) _)
  generalize F32.rnd (neg mu && !neg x) (val mu - val x) = s at *
  rw [div_fin f1 fm mp.ne']
  have hr : |val s / val mu - (1 - val x / val mu)| ≤ 2.5e-7 := by
    rw [show val s / val mu - (1 - val x / val mu) = (val s - (val mu - val x)) / val mu by field_simp, abs_div, abs_of_pos mp, div_le_iff₀ mp]
    linarith
  have hr0 : 0 ≤ val x / val mu := div_nonneg x0 mp.le
  have hr1 : val x / val mu ≤ 5.1 := by rw [div_le_iff₀ mp]; exact hx
  generalize val x / val mu = r at *
  generalize val s / val mu = q at *
  obtain ⟨b1, b2⟩ := _root_.abs_le.1 hr
  have hq : |q| ≤ 4.2 := by rw [_root_.abs_le]; constructor <;> linarith
  obtain ⟨f2, e2⟩ := rnd_err' (s := neg s ^^ neg mu) (q := q) (hq.trans (by norm_num))
  obtain ⟨g1, g2⟩ := _root_.abs_le.1 (e2.trans (add_le_add_left (div_le_div_of_nonneg_right hq (by norm_num)) _))
  refine ⟨f2, _root_.abs_le.2 ⟨?_, ?_⟩⟩ <;> linarith

/-- The numbers of a state are close to their weighted mean (not a definition of the repository). -/
structure RDClose (x y z : BitVec 32) : Prop where
  fx : F32.Finite x
  fy : F32.Finite y
  fz : F32.Finite z
  m0 : 1e-5 ≤ (val x + val y + 3 * val z) / 5
  m1 : (val x + val y + 3 * val z) / 5 ≤ 1.9
  dx : |val x - (val x + val y + 3 * val z) / 5| ≤ 0.00175 * ((val x + val y + 3 * val z) / 5)
  dy : |val y - (val x + val y + 3 * val z) / 5| ≤ 0.00175 * ((val x + val y + 3 * val z) / 5)
  dz : |val z - (val x + val y + 3 * val z) / 5| ≤ 0.00175 * ((val x + val y + 3 * val z) / 5)

theorem rd_test {x y z : BitVec 32} (fx : F32.Finite x) (fy : F32.Finite y) (fz : F32.Finite z) (x0 : 0 ≤ val x) (y0 : 0 ≤ val y) (z0 : 0 ≤ val z)
    (hx : val x ≤ 1.9) (hy : val y ≤ 1.9) (hz : val z ≤ 1.9) (hm : 1e-5 ≤ (val x + val y + 3 * val z) / 5) :
    (rdTest x y z = true → RDClose x y z) ∧
    (|val x - (val x + val y + 3 * val z) / 5| ≤ 0.00161 * ((val x + val y + 3 * val z) / 5) →
     |val y - (val x + val y + 3 * val z) / 5| ≤ 0.00161 * ((val x + val y + 3 * val z) / 5) →
     |val z - (val x + val y + 3 * val z) / 5| ≤ 0.00161 * ((val x + val y + 3 * val z) / 5) → rdTest x y z = true) := by
  have ct : F32.Finite (lit 0.0017400365588678507952624663346341549) ∧ 0.00174 ≤ val (lit 0.0017400365588678507952624663346341549) ∧
      val (lit 0.0017400365588678507952624663346341549) ≤ 0.001741 := by decide +kernel
  unfold rdTest
  obtain ⟨fm, em⟩ := rdMu_val fx fy fz x0 y0 z0 (by linarith) (by linarith) (by linarith) hm
  generalize rdMu x y z = mu at *
  obtain ⟨m1, m2⟩ := _root_.abs_le.1 em
  set M := (val x + val y + 3 * val z) / 5 with hM
  have mu0 : 0 < val mu := by linarith
  obtain ⟨gx, ex⟩ := rdDev_val fm fx (by linarith) (by linarith) x0 (by linarith)
  obtain ⟨gy, ey⟩ := rdDev_val fm fy (by linarith) (by linarith) y0 (by linarith)
  obtain ⟨gz, ez⟩ := rdDev_val fm fz (by linarith) (by linarith) z0 (by linarith)
  obtain ⟨h1, v1⟩ := fmaxE_val (absolute_finite.2 gx) (absolute_finite.2 gy)
  obtain ⟨h2, v2⟩ := fmaxE_val (absolute_finite.2 gz) h1
  rw [lt_fin h2 ct.1, decide_eq_true_eq, v2, v1, absolute_val, absolute_val, absolute_val, max_lt_iff, max_lt_iff]
  constructor
  · rintro ⟨tz, tx, ty⟩
    have conv : ∀ w d : ℚ, |d - (1 - w / val mu)| ≤ 1e-6 → |d| < val (lit 0.0017400365588678507952624663346341549) → |w - M| ≤ 0.00175 * M := by
      intro w d h1 h2
      have h3 : |1 - w / val mu| ≤ 0.001743 := by
        have := abs_sub_abs_le_abs_sub (1 - w / val mu) d
        rw [abs_sub_comm (1 - w / val mu) d] at this
        linarith [ct.2.2]
      rw [show 1 - w / val mu = (val mu - w) / val mu by field_simp, abs_div, abs_of_pos mu0, div_le_iff₀ mu0] at h3
      obtain ⟨q1, q2⟩ := _root_.abs_le.1 h3
      rw [_root_.abs_le]; constructor <;> linarith
    exact ⟨fx, fy, fz, hm, by rw [← hM]; linarith, conv _ _ ex tx, conv _ _ ey ty, conv _ _ ez tz⟩
  · intro ax ay az
    have conv : ∀ w d : ℚ, |d - (1 - w / val mu)| ≤ 1e-6 → |w - M| ≤ 0.00161 * M → |d| < val (lit 0.0017400365588678507952624663346341549) := by
      intro w d h1 h2
      have h3 : |1 - w / val mu| ≤ 0.00162 := by
        rw [show 1 - w / val mu = (val mu - w) / val mu by field_simp, abs_div, abs_of_pos mu0, div_le_iff₀ mu0]
        obtain ⟨q1, q2⟩ := _root_.abs_le.1 h2
        rw [_root_.abs_le]; constructor <;> linarith
      have := abs_sub_abs_le_abs_sub d (1 - w / val mu)
      linarith [ct.2.1]
    exact ⟨conv _ _ ez az, conv _ _ ex ax, conv _ _ ey ay⟩

theorem power4_val {p : BitVec 32} {i : ℕ} (fp : F32.Finite p) (hp : val p = (1 / 4) ^ i) (hi : i ≤ 20) :
    F32.Finite (F32.mul p (F32.div (lit 1) (lit 4))) ∧ val (F32.mul p (F32.div (lit 1) (lit 4))) = (1 / 4) ^ (i + 1) := by
  obtain ⟨fc, ec⟩ := quarter_const
  rw [mul_fin fp fc, hp, ec, ← pow_succ]
  have he : ((1 / 4 : ℚ)) ^ (i + 1) = ((1 : ℤ) : ℚ) * 2 ^ (-(2 * (i + 1) : ℤ)) := by
    rw [zpow_neg, zpow_mul, Int.cast_one, one_mul, show ((i : ℤ) + 1) = ((i + 1 : ℕ) : ℤ) by push_cast; ring, zpow_natCast, one_div, inv_pow]
    norm_num
  rw [he]
  exact rnd_dyadic _ (by omega) (by omega) (by norm_num)

/-- A state of the loop of `ellint_rd` after `i` steps (not a definition of the repository). The weight `power4` stays below the distance
of `zn` and `xn`. -/
structure RDState (i : ℕ) (x z s p : BitVec 32) : Prop where
  fs : F32.Finite s
  s0 : 0 ≤ val s
  s1 : val s ≤ i * 4e6
  fp : F32.Finite p
  hp : val p = (1 / 4) ^ i
  pz : val p ≤ val z - val x + i * 1.3e-7 * val z

theorem rd_state_step {i : ℕ} (hi : i ≤ 14) {x y z s p : BitVec 32} (h : RDState i x z s p) (hx : SRange x) (hy : SRange y) (hz : SRange z)
    (hz1 : 1e-5 ≤ val z) (hd : RDDom (val x) (val y) (val z)) (hl : 1e-4 ≤ lamR (val x) (val y) (val z)) :
    let l := lambdaE x y z
    let s' := F32.add s (F32.div p (F32.mul (sqrt z) (F32.add z l)))
    let p' := F32.mul p (F32.div (lit 1) (lit 4))
    RDState (i + 1) (quarterE x l) (quarterE z l) s' p' ∧
    (3 * (val s : ℝ) + val p * rdR (val x) (val y) (val z)) * (1 - 5.6e-6) ≤
      3 * (val s' : ℝ) + val p' * rdR (val (quarterE x l)) (val (quarterE y l)) (val (quarterE z l)) ∧
    3 * (val s' : ℝ) + val p' * rdR (val (quarterE x l)) (val (quarterE y l)) (val (quarterE z l)) ≤
      (3 * (val s : ℝ) + val p * rdR (val x) (val y) (val z)) * (1 + 1e-6) := by
  obtain ⟨fs, s0, s1, fp, hp, pz⟩ := h
  simp only
  have hiq : (i : ℚ) ≤ 15 := by exact_mod_cast (by omega : i ≤ 15)
  have hi0 : (0 : ℚ) ≤ i := by positivity
  have p1 : val p ≤ 1 := by rw [hp]; exact pow_le_one₀ (by norm_num) (by norm_num)
  have p0 : 1e-9 ≤ val p := by
    rw [hp]
    calc (1e-9 : ℚ) ≤ (1 / 4) ^ 14 := by norm_num
      _ ≤ _ := pow_le_pow_of_le_one (by norm_num) (by norm_num) hi
  obtain ⟨a1, a2, a3, a4, a5⟩ := rd_step hx hy hz hz1 hd hl fp p0 p1 fs s0 (by linarith)
  obtain ⟨b1, b2⟩ := power4_val fp hp (by omega)
  have hpq : val (F32.mul p (F32.div (lit 1) (lit 4))) = val p / 4 := by rw [b2, hp, pow_succ]; ring
  have hL := lambda_RN hx hy hz
  have L1 : 9e-5 ≤ val (lambdaE x y z) := by
    have : ((9e-5 : ℚ) : ℝ) ≤ ((val (lambdaE x y z) : ℚ) : ℝ) := by
      refine le_trans ?_ hL.lo
      push_cast
      calc (9e-5 : ℝ) ≤ 1e-4 * (1 - 5.1e-7) := by norm_num
        _ ≤ _ := mul_le_mul_of_nonneg_right hl (by norm_num)
    exact_mod_cast this
  have lu : lamR (val x) (val y) (val z) ≤ 100 := by
    obtain ⟨-, ux, x0⟩ := hx.root_range
    obtain ⟨-, uy, y0⟩ := hy.root_range
    obtain ⟨-, uz, z0⟩ := hz.root_range
    unfold lamR
    nlinarith
  have L2 : val (lambdaE x y z) ≤ 101 := by
    have : ((val (lambdaE x y z) : ℚ) : ℝ) ≤ ((101 : ℚ) : ℝ) := by
      refine hL.hi.trans ?_
      push_cast
      calc _ ≤ (100 : ℝ) * (1 + 3.51e-6) := mul_le_mul_of_nonneg_right lu (by norm_num)
        _ ≤ _ := by norm_num
    exact_mod_cast this
  have fL := hL.fin
  have x0 := hx.nonneg
  have x4 := hx.2.2
  have z4 := hz.2.2
  obtain ⟨-, x1, x2⟩ := quarter_val hx.1 fL (by linarith) (by linarith)
  obtain ⟨-, z1, z2⟩ := quarter_val hz.1 fL (by linarith) (by linarith)
  refine ⟨⟨a1, a2, ?_, b1, b2, ?_⟩, ?_, ?_⟩
  · push_cast; linarith
  · rw [hpq]
    push_cast
    generalize lambdaE x y z = l at *
    generalize val (quarterE x l) = X at *
    generalize val (quarterE z l) = Z at *
    have hZ : (val z + val l) / 4 ≤ Z * (1 + 7e-8) := by nlinarith
    have hZ0 : 0 ≤ Z := by nlinarith
    have hz0 : 0 ≤ val z := by linarith
    have hxz : val x ≤ 1.00001 * val z := by
      have : (i : ℚ) * 1.3e-7 * val z ≤ 15 * 1.3e-7 * val z := by gcongr
      norm_num at this p0 pz ⊢; linarith
    have hX : (val x + val l) / 4 ≤ 1.00001 * ((val z + val l) / 4) := by linarith
    have hw : (i : ℚ) * 1.3e-7 * val z / 4 ≤ (i : ℚ) * 1.3e-7 * (Z * (1 + 7e-8)) := by
      have : val z / 4 ≤ Z * (1 + 7e-8) := by linarith
      calc (i : ℚ) * 1.3e-7 * val z / 4 = (i : ℚ) * 1.3e-7 * (val z / 4) := by ring
        _ ≤ _ := mul_le_mul_of_nonneg_left this (by positivity)
    have hw2 : (i : ℚ) * Z ≤ 15 * Z := mul_le_mul_of_nonneg_right hiq hZ0
    have e1 : (i : ℚ) * 1.3e-7 * (Z * (1 + 7e-8)) = 1.3e-7 * (1 + 7e-8) * ((i : ℚ) * Z) := by ring
    have e2 : ((i : ℚ) + 1) * 1.3e-7 * Z = 1.3e-7 * ((i : ℚ) * Z) + 1.3e-7 * Z := by ring
    rw [e2]
    rw [e1] at hw
    have e3 : (i : ℚ) * 1.3e-7 * val z / 4 = (i * 1.3e-7 * val z) / 4 := by ring
    rw [e3] at hw
    generalize (i : ℚ) * 1.3e-7 * val z = w1 at *
    generalize (i : ℚ) * Z = w2 at *
    linarith
  · rw [hpq]; push_cast; exact a4
  · rw [hpq]; push_cast; exact a5

/-- The loop of `ellint_rd`. -/
theorem rd_loop : ∀ (j fuel i : ℕ) (m : ℚ) (x y z s p : BitVec 32), i + j ≤ 14 → j ≤ fuel → RFClu j m x y z → RDState i x z s p →
    ∃ i' x' y' z' s' p', rdLoop fuel x y z s p = (x', y', z', s', p') ∧ i' ≤ i + j ∧ RDClose x' y' z' ∧ RDState i' x' z' s' p' ∧
      rfR (val x') (val y') (val z') ≤ rfR (val x) (val y) (val z) * (1 + j * 4e-7) ∧
      (3 * (val s : ℝ) + val p * rdR (val x) (val y) (val z)) * (1 - j * 5.6e-6) ≤ 3 * (val s' : ℝ) + val p' * rdR (val x') (val y') (val z') ∧
      3 * (val s' : ℝ) + val p' * rdR (val x') (val y') (val z') ≤ (3 * (val s : ℝ) + val p * rdR (val x) (val y) (val z)) * (1 + j * 1.1e-6) := by
  intro j
  induction j with
  | zero =>
    intro fuel i m x y z s p _ _ h hs
    have h1 : |val x - (val x + val y + 3 * val z) / 5| ≤ 0.00161 * ((val x + val y + 3 * val z) / 5) ∧
        |val y - (val x + val y + 3 * val z) / 5| ≤ 0.00161 * ((val x + val y + 3 * val z) / 5) ∧
        |val z - (val x + val y + 3 * val z) / 5| ≤ 0.00161 * ((val x + val y + 3 * val z) / 5) := by
      obtain ⟨-, -, -, lo, x1, x2, -, y1, y2, -, z1, z2, -⟩ := h
      norm_num at lo x2 y2 z2
      refine ⟨?_, ?_, ?_⟩ <;> rw [_root_.abs_le] <;> constructor <;> linarith
    obtain ⟨fx, fy, fz, lo, x1, x2, x3, y1, y2, y3, z1, z2, z3⟩ := h
    norm_num at lo x3 y3 z3
    have ht := rd_test fx fy fz (by linarith) (by linarith) (by linarith) (by linarith) (by linarith) (by linarith) (by linarith)
    have htt := ht.2 h1.1 h1.2.1 h1.2.2
    exact ⟨i, x, y, z, s, p, rdLoop_zero x y z s p htt fuel, le_rfl, ht.1 htt, hs, by simp, by simp, by simp⟩
  | succ j ih =>
    intro fuel i m x y z s p hij hf h hs
    obtain ⟨m', h'⟩ := clu_step (by omega) h
    obtain ⟨fx, fy, fz, lo, x1, x2, x3, y1, y2, y3, z1, z2, z3⟩ := h
    have hjq : ((j + 1 : ℕ) : ℚ) ≤ 15 := by exact_mod_cast (by omega : j + 1 ≤ 15)
    have hjr : ((j + 1 : ℕ) : ℝ) ≤ 15 := by exact_mod_cast (by omega : j + 1 ≤ 15)
    have hj0 : (0 : ℚ) ≤ ((j + 1 : ℕ) : ℚ) := by positivity
    have hj0r : (0 : ℝ) ≤ (j : ℝ) := by positivity
    have m0 : 4e-5 ≤ m := by linarith
    have a1 : (0 : ℝ) < (val x : ℝ) := by exact_mod_cast (by linarith : 0 < val x)
    have a2 : (0 : ℝ) < (val y : ℝ) := by exact_mod_cast (by linarith : 0 < val y)
    have a3 : (0 : ℝ) < (val z : ℝ) := by exact_mod_cast (by linarith : 0 < val z)
    have hd : RDDom (val x) (val y) (val z) := ⟨a1.le, a2.le, by linarith, a3⟩
    have hp := rf_pos hd.rf
    have s0 : (0 : ℝ) ≤ (val s : ℝ) := by exact_mod_cast hs.s0
    have p0 : (0 : ℝ) ≤ (val p : ℝ) := by
      have : 0 ≤ val p := by rw [hs.hp]; positivity
      exact_mod_cast this
    have hT : 0 ≤ 3 * (val s : ℝ) + val p * rdR (val x) (val y) (val z) := add_nonneg (by linarith) (mul_nonneg p0 (rd_pos hd).le)
    have ht := rd_test fx fy fz (by linarith) (by linarith) (by linarith) (by linarith) (by linarith) (by linarith) (by linarith)
    obtain ⟨n, rfl⟩ : ∃ n, fuel = n + 1 := ⟨fuel - 1, by omega⟩
    have hjn : (0 : ℝ) ≤ ((j + 1 : ℕ) : ℝ) := Nat.cast_nonneg _
    by_cases htt : rdTest x y z = true
    · refine ⟨i, x, y, z, s, p, rdLoop_zero x y z s p htt _, by omega, ht.1 htt, hs, ?_, ?_, ?_⟩
      · nlinarith
      · nlinarith
      · nlinarith
    · rw [rdLoop_succ _ _ _ _ _ _ htt]
      have hl := (lamR_bounds (x := (val x : ℝ)) (y := (val y : ℝ)) (z := (val z : ℝ)) (m := (m : ℝ)) (h := ((1.1 : ℚ) : ℝ))
        (by exact_mod_cast (by linarith : 0 ≤ m)) (by exact_mod_cast x1) (by exact_mod_cast (by linarith : val x ≤ 1.1)) (by exact_mod_cast y1)
        (by exact_mod_cast (by linarith : val y ≤ 1.1)) (by exact_mod_cast z1) (by exact_mod_cast (by linarith : val z ≤ 1.1))).1
      have hmr : ((4e-5 : ℚ) : ℝ) ≤ (m : ℝ) := by exact_mod_cast m0
      push_cast at hmr
      have rx : SRange x := ⟨fx, .inr (by linarith), by linarith⟩
      have ry : SRange y := ⟨fy, .inr (by linarith), by linarith⟩
      have rz : SRange z := ⟨fz, .inr (by linarith), by linarith⟩
      obtain ⟨-, -, -, -, f2⟩ := rf_step rx ry rz hd.rf (by linarith)
      obtain ⟨hs', s1, s2⟩ := rd_state_step (by omega) hs rx ry rz (by linarith) hd (by linarith)
      obtain ⟨i', x', y', z', s', p', e, hi', hc, hst, q, r1, r2⟩ := ih n (i + 1) m' _ _ _ _ _ (by omega) (by omega) h' hs'
      generalize 3 * (val s : ℝ) + val p * rdR (val x) (val y) (val z) = T at *
      refine ⟨i', x', y', z', s', p', e, by omega, hc, hst, ?_, ?_, ?_⟩
      · refine q.trans ?_
        push_cast at hjr ⊢
        calc _ ≤ rfR (val x) (val y) (val z) * (1 + 3.6e-7) * (1 + j * 4e-7) := mul_le_mul_of_nonneg_right f2 (by positivity)
          _ = rfR (val x) (val y) (val z) * ((1 + 3.6e-7) * (1 + j * 4e-7)) := by ring
          _ ≤ rfR (val x) (val y) (val z) * (1 + (j + 1) * 4e-7) := by
              refine mul_le_mul_of_nonneg_left ?_ hp.le
              nlinarith
      · refine le_trans ?_ r1
        push_cast at hjr ⊢
        have : (0 : ℝ) ≤ 1 - j * 5.6e-6 := by linarith
        calc T * (1 - (j + 1) * 5.6e-6) ≤ T * ((1 - 5.6e-6) * (1 - j * 5.6e-6)) := by
              refine mul_le_mul_of_nonneg_left ?_ hT
              nlinarith
          _ = T * (1 - 5.6e-6) * (1 - j * 5.6e-6) := by ring
          _ ≤ _ := mul_le_mul_of_nonneg_right s1 this
      · refine r2.trans ?_
        push_cast at hjr ⊢
        calc _ ≤ T * (1 + 1e-6) * (1 + j * 1.1e-6) := mul_le_mul_of_nonneg_right s2 (by positivity)
          _ = T * ((1 + 1e-6) * (1 + j * 1.1e-6)) := by ring
          _ ≤ T * (1 + (j + 1) * 1.1e-6) := by
              refine mul_le_mul_of_nonneg_left ?_ hT
              nlinarith

end Verif.Ffmath
