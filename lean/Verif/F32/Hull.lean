import Verif.F32.Error

/-!
# Interpolation steps in binary32

Lemmas on `x + a * (y - x)` with rounded operations. Nothing here is a definition of the repository.
-/

namespace Verif.F32

theorem maxF : Finite 0x7F7FFFFF#32 ∧ val 0x7F7FFFFF#32 = 16777215 * 2 ^ (104 : ℤ) := by
  decide +kernel

theorem rnd_fin_max {s : Bool} {q : ℚ} (h : |q| ≤ 3.4e38) : Finite (rnd s q) := by
  obtain ⟨h1, h2⟩ := abs_le.1 h
  have e : (3.4e38 : ℚ) ≤ 16777215 * 2 ^ (104 : ℤ) := by norm_num
  refine (rnd_between (finite_negate.2 maxF.1) maxF.1 ?_ ?_).1
  · rw [val_negate, maxF.2]; linarith
  · rw [maxF.2]; linarith

theorem val_rnd_neg (s t : Bool) (q : ℚ) : val (rnd s (-q)) = -val (rnd t q) := by
  have h1 := val_kval (rnd s (-q))
  have h2 := val_kval (rnd t q)
  rw [key_rnd] at h1 h2
  rw [h1, h2, rkey_neg, kval_neg]

/-- The largest float below one. -/
theorem below_one {a : BitVec 32} (h : val a < 1) : val a ≤ 1 - 2 ^ (-24 : ℤ) := by
  have e1 : val 0x3F800000#32 = 1 := by decide +kernel
  have e2 : val 0x3F7FFFFF#32 = 1 - 2 ^ (-24 : ℤ) := by decide +kernel
  have k1 : key 0x3F800000#32 = 1065353216 := by decide +kernel
  have k2 : key 0x3F7FFFFF#32 = 1065353215 := by decide +kernel
  rw [← e1, val_lt_iff, k1] at h
  rw [← e2, val_le_iff, k2]
  omega

/-- The gap below a normal number. -/
theorem gap_lt {m : Nat} (h : 8388608 ≤ m) :
    mval (m + 1) - mval m < mval (m + 1) * 2 ^ (-23 : ℤ) := by
  have h1 := mval_lin (e := m / 8388608) (t := m % 8388608) (by omega) (by omega)
  have h2 := mval_lin (e := m / 8388608) (t := m % 8388608 + 1) (by omega) (by omega)
  rw [show m / 8388608 * 8388608 + m % 8388608 = m by omega] at h1
  rw [show m / 8388608 * 8388608 + (m % 8388608 + 1) = m + 1 by omega] at h2
  have hp := two_zpow_pos (((m / 8388608 : ℕ) : ℤ) - 150)
  rw [h1, h2]
  generalize (2 : ℚ) ^ (((m / 8388608 : ℕ) : ℤ) - 150) = P at *
  have e : (2 : ℚ) ^ (-23 : ℤ) = 1 / 8388608 := by norm_num
  rw [e]
  push_cast
  have : (0 : ℚ) ≤ ((m % 8388608 : ℕ) : ℚ) := Nat.cast_nonneg _
  nlinarith [mul_nonneg this hp.le]

/-- Scaling a normal float by a factor below one moves it at least to its predecessor. -/
theorem rmag_scaled {m : Nat} {a : ℚ} (h : 8388608 ≤ m) (h0 : 0 ≤ a) (ha : a ≤ 1 - 2 ^ (-24 : ℤ)) :
    rmag (a * mval (m + 1)) ≤ m := by
  by_contra hc
  have hp : 0 ≤ mval (m + 1) := mval_nonneg _
  have hle : a * mval (m + 1) ≤ mval (m + 1) := by
    have : a ≤ 1 := by have := two_zpow_pos (-24); linarith
    nlinarith
  have h1 : rmag (a * mval (m + 1)) = m + 1 := by
    have := rmag_le_of_le hle
    omega
  have hn := rmag_nearest (q := a * mval (m + 1)) (by positivity) m
  rw [h1] at hn
  rcases le_total (a * mval (m + 1)) (mval m) with h2 | h2
  · have := rmag_le_of_le h2
    omega
  · rw [abs_of_nonneg (by linarith), abs_of_nonpos (by linarith)] at hn
    have hg := gap_lt h
    have e : (2 : ℚ) ^ (-23 : ℤ) = 2 * 2 ^ (-24 : ℤ) := by norm_num
    rw [e] at hg
    have : mval (m + 1) * 2 ^ (-24 : ℤ) ≤ mval (m + 1) * (1 - a) := by
      apply mul_le_mul_of_nonneg_left _ hp
      linarith
    nlinarith

/-- A difference of floats that is rounded to a subnormal (or the first normal number) is exact. -/
theorem sub_exact_small {x y : BitVec 32} (hx : Finite x) (hy : Finite y)
    (h : rmag (val y - val x) ≤ 8388608) (h0 : 0 ≤ val y - val x) :
    mval (rmag (val y - val x)) = val y - val x := by
  have dy : ∀ {b : BitVec 32}, Finite b → ∃ k : ℤ, val b = k * 2 ^ (-149 : ℤ) := by
    intro b hb
    obtain ⟨k, t, ht, _, _, hv, _⟩ := val_dyadic hb
    refine ⟨k * 2 ^ (t + 149).toNat, ?_⟩
    rw [hv]
    push_cast
    rw [mul_assoc, ← zpow_natCast, ← zpow_add₀ (by norm_num)]
    congr 2
    omega
  obtain ⟨kx, ex⟩ := dy hx
  obtain ⟨ky, ey⟩ := dy hy
  have e : val y - val x = ((ky - kx : ℤ) : ℚ) * 2 ^ (-149 : ℤ) := by
    rw [ex, ey]; push_cast; ring
  have hp := two_zpow_pos (-149)
  have hk0 : 0 ≤ ky - kx := by
    rw [e] at h0
    have := nonneg_of_mul_nonneg_left h0 hp
    exact_mod_cast this
  have hk1 : ky - kx ≤ 8388609 := by
    by_contra hc
    have : mval 8388609 ≤ val y - val x := by
      rw [mval_sub (by norm_num), e]
      apply mul_le_mul_of_nonneg_right _ hp.le
      have : (8388609 : ℤ) ≤ ky - kx := by omega
      exact_mod_cast this
    have := le_rmag_of_le this
    omega
  have e2 : val y - val x = mval (ky - kx).toNat := by
    rw [mval_sub (by omega), e]
    congr 1
    have : ((ky - kx).toNat : ℤ) = ky - kx := Int.toNat_of_nonneg hk0
    exact_mod_cast this.symm
  rw [e2, rmag_mval]

/-- `a * (y - x)` with rounded operations and `0 <= a < 1` does not exceed the exact difference. -/
theorem scaled_diff {a x y : BitVec 32} (ha : Finite a) (hx : Finite x) (hy : Finite y)
    (a0 : 0 ≤ val a) (a1 : val a < 1) (h : val x ≤ val y) (hb : |val y - val x| ≤ 3.4e38) :
    Finite (sub y x) ∧ Finite (mul a (sub y x)) ∧ 0 ≤ val (mul a (sub y x)) ∧
      val (mul a (sub y x)) ≤ val y - val x := by
  have q0 : 0 ≤ val y - val x := by linarith
  rw [sub_fin hy hx]
  generalize hs : (neg y && !neg x) = s
  have f : Finite (rnd s (val y - val x)) := rnd_fin_max hb
  have hm : min (rmag (val y - val x)) 2139095040 = rmag (val y - val x) := by
    have := (finite_iff _).1 f
    rw [(rnd_spec s _).2, abs_of_nonneg q0] at this
    omega
  have hv : val (rnd s (val y - val x)) = mval (rmag (val y - val x)) := by
    rw [val_kval, key_rnd, rkey_nonneg q0, hm, kval_natCast]
  have r0 : 0 ≤ val (rnd s (val y - val x)) := by rw [hv]; exact mval_nonneg _
  rw [mul_fin ha f]
  have zf : Finite 0#32 ∧ val 0#32 = 0 := by decide +kernel
  have p0 : 0 ≤ val a * val (rnd s (val y - val x)) := mul_nonneg a0 r0
  have p1 : val a * val (rnd s (val y - val x)) ≤ val (rnd s (val y - val x)) := by nlinarith
  obtain ⟨g1, g2, g3⟩ := rnd_between (s := (neg a ^^ neg (rnd s (val y - val x)))) zf.1 f
    (by rw [zf.2]; exact p0) p1
  rw [zf.2] at g2
  refine ⟨f, g1, g2, ?_⟩
  rcases le_or_gt (val (rnd s (val y - val x))) (val y - val x) with hr | hr
  · exact g3.trans hr
  · obtain ⟨m, hmm⟩ : ∃ m, rmag (val y - val x) = m + 1 := by
      refine ⟨rmag (val y - val x) - 1, ?_⟩
      have : rmag (val y - val x) ≠ 0 := by
        intro h0
        rw [hv, h0, mval_zero] at hr
        linarith
      omega
    rcases Nat.lt_or_ge m 8388608 with h1 | h1
    · have := sub_exact_small hx hy (by omega) q0
      rw [hv] at hr
      linarith
    · have e := rmag_scaled h1 a0 (below_one a1)
      have e1 : mval m ≤ val y - val x := by
        by_contra hc
        have := rmag_le_of_le (le_of_not_ge hc)
        omega
      refine le_trans ?_ e1
      rw [val_kval, key_rnd, rkey_nonneg p0, kval_natCast, mval_le_iff, hv, hmm]
      omega

/-- **The step `x + a * (y - x)` stays between `x` and `y`**, all operations rounded. -/
theorem step_between {a x y : BitVec 32} (ha : Finite a) (hx : Finite x) (hy : Finite y)
    (a0 : 0 ≤ val a) (a1 : val a < 1) (hb : |val y - val x| ≤ 3.4e38) :
    Finite (add x (mul a (sub y x))) ∧
      min (val x) (val y) ≤ val (add x (mul a (sub y x))) ∧
      val (add x (mul a (sub y x))) ≤ max (val x) (val y) := by
  rcases le_total (val x) (val y) with h | h
  · obtain ⟨_, f, h0, h1⟩ := scaled_diff ha hx hy a0 a1 h hb
    rw [min_eq_left h, max_eq_right h, add_fin hx f]
    exact rnd_between hx hy (by linarith) (by linarith)
  · obtain ⟨f1, f, h0, h1⟩ := scaled_diff ha (finite_negate.2 hx) (finite_negate.2 hy) a0 a1
      (by rw [val_negate, val_negate]; linarith)
      (by rw [val_negate, val_negate, abs_sub_comm]; convert hb using 2; ring)
    have e : val (mul a (sub y x)) = -val (mul a (sub (negate y) (negate x))) ∧
        Finite (mul a (sub y x)) := by
      have s1 : val (sub y x) = -val (sub (negate y) (negate x)) ∧ Finite (sub y x) := by
        rw [sub_fin hy hx, sub_fin (finite_negate.2 hy) (finite_negate.2 hx), val_negate, val_negate,
          show -val y - -val x = -(val y - val x) by ring]
        refine ⟨?_, rnd_fin_max hb⟩
        rw [val_rnd_neg _ (neg y && !neg x), neg_neg]
      have g : Finite (rnd (neg a ^^ neg (sub y x)) (val a * val (sub y x))) := by
        have := f
        rw [mul_fin ha f1] at this
        apply finite_of_key
        have t := this.key_lt
        rw [key_rnd] at t ⊢
        rw [s1.1, mul_neg, rkey_neg]
        omega
      rw [mul_fin ha s1.2, mul_fin ha f1]
      refine ⟨?_, g⟩
      rw [s1.1, mul_neg]
      exact val_rnd_neg _ _ _
    rw [val_negate, val_negate] at h1
    rw [min_eq_right h, max_eq_left h, add_fin hx e.2]
    exact rnd_between hy hx (by rw [e.1]; linarith) (by rw [e.1]; linarith)

theorem rnd_nonneg {s : Bool} {q : ℚ} (h : 0 ≤ q) : 0 ≤ val (rnd s q) := by
  have zf : Finite 0#32 ∧ val 0#32 = 0 := by decide +kernel
  have := le_rnd (s := s) (q := q) zf.1 (by rw [zf.2]; exact h)
  rwa [zf.2] at this

theorem rnd_ge_one {s : Bool} {q : ℚ} (h : 1 ≤ q) : 1 ≤ val (rnd s q) := by
  have zf : Finite 0x3F800000#32 ∧ val 0x3F800000#32 = 1 := by decide +kernel
  have := le_rnd (s := s) (q := q) zf.1 (by rw [zf.2]; exact h)
  rwa [zf.2] at this

theorem rnd_le_one {s : Bool} {q : ℚ} (h : q ≤ 1) : val (rnd s q) ≤ 1 := by
  have zf : Finite 0x3F800000#32 ∧ val 0x3F800000#32 = 1 := by decide +kernel
  have := rnd_le (s := s) (q := q) zf.1 (by rw [zf.2]; exact h)
  rwa [zf.2] at this

/-- Error of a rounding, absolute and relative part added. -/
theorem rnd_mag {s : Bool} {q : ℚ} (h : |q| ≤ 3.4e38) :
    Finite (rnd s q) ∧ |val (rnd s q) - q| ≤ |q| / 16777216 + 1e-45 := by
  have f := rnd_fin_max (s := s) h
  refine ⟨f, (rnd_err f).trans (max_le ?_ ?_)⟩
  · rw [show (2 : ℚ) ^ (-24 : ℤ) = 1 / 16777216 by norm_num]
    have : (0 : ℚ) ≤ 1e-45 := by norm_num
    linarith
  · have : (2 : ℚ) ^ (-150 : ℤ) ≤ 1e-45 := by norm_num
    have : 0 ≤ |q| / 16777216 := by positivity
    linarith

theorem rnd_mag_le {s : Bool} {q B : ℚ} (h : |q| ≤ B) (hB : B ≤ 3.4e38) :
    Finite (rnd s q) ∧ |val (rnd s q)| ≤ B + B / 16777216 + 1e-45 := by
  obtain ⟨f, e⟩ := rnd_mag (s := s) (h.trans hB)
  refine ⟨f, ?_⟩
  have e1 := abs_add_le (val (rnd s q) - q) q
  rw [sub_add_cancel] at e1
  have : |q| / 16777216 ≤ B / 16777216 := by gcongr
  linarith

/-- The step from a point to itself does not move. -/
theorem step_self {a x : BitVec 32} (ha : Finite a) (hx : Finite x) :
    Finite (add x (mul a (sub x x))) ∧ val (add x (mul a (sub x x))) = val x := by
  have zf : Finite 0#32 ∧ val 0#32 = 0 := by decide +kernel
  have h1 : Finite (sub x x) ∧ val (sub x x) = 0 := by
    rw [sub_fin hx hx, sub_self]
    exact rnd_exact zf.1 zf.2.symm
  have h2 : Finite (mul a (sub x x)) ∧ val (mul a (sub x x)) = 0 := by
    rw [mul_fin ha h1.1, h1.2, mul_zero]
    exact rnd_exact zf.1 zf.2.symm
  rw [add_fin hx h2.1, h2.2, add_zero]
  exact rnd_exact hx rfl

end Verif.F32
