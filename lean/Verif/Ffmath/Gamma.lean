import Verif.Ffmath.Factorial
import Verif.Ffmath.Hypot
import Verif.Ffmath.Log
import Verif.Ffmath.IsEqual

/-!
# `tgamma`, `lgamma` and `beta` (C100-C102)

IEEE binary32 arithmetic.
-/

namespace Verif.Ffmath

open Verif F32

/-! ### Exactness of small integer shifts -/

/-- A number minus an integer that does not exceed it is representable, below `2^24`. -/
theorem sub_int_exists {x : BitVec 32} (hx : Finite x) {m : ℤ} (h0 : 0 ≤ m) (h1 : (m : ℚ) ≤ val x) (h2 : val x < 16777216) :
    ∃ c : BitVec 32, F32.Finite c ∧ val c = val x - m := by
  obtain ⟨k, t, t1, t2, k1, e, k2⟩ := val_dyadic hx
  have ht : t ≤ 0 := by
    by_contra hc
    have hk : 8388608 ≤ |k| := by rcases k2 with h | h <;> omega
    have hk0 : 0 ≤ k := by
      by_contra hn
      have : (k : ℚ) < 0 := by exact_mod_cast not_le.1 hn
      have := mul_neg_of_neg_of_pos this (two_zpow_pos t)
      have : (0 : ℚ) ≤ m := by exact_mod_cast h0
      linarith
    rw [abs_of_nonneg hk0] at hk
    have a : (8388608 : ℚ) ≤ k := by exact_mod_cast hk
    have b : (2 : ℚ) ^ (1 : ℤ) ≤ 2 ^ t := zpow_le_zpow_right₀ (by norm_num) (by omega)
    have := mul_le_mul a b (by norm_num) (by linarith)
    rw [← e] at this
    norm_num at this; linarith
  have hm : (m : ℚ) = ((m * 2 ^ (-t).toNat : ℤ) : ℚ) * 2 ^ t := by
    push_cast
    rw [← zpow_natCast, Int.toNat_of_nonneg (by omega), mul_assoc, ← zpow_add₀ (by norm_num)]
    simp
  have hs : val x - m = ((k - m * 2 ^ (-t).toNat : ℤ) : ℚ) * 2 ^ t := by
    rw [e, hm]; push_cast; ring
  have h3 : 0 ≤ k - m * 2 ^ (-t).toNat := by
    have h4 : 0 ≤ val x - m := by linarith
    rw [hs] at h4
    have := nonneg_of_mul_nonneg_left h4 (two_zpow_pos t)
    exact_mod_cast this
  have h4 : 0 ≤ m * 2 ^ (-t).toNat := mul_nonneg h0 (by positivity)
  have h5 : k - m * 2 ^ (-t).toNat ≤ 16777216 := by
    have := le_abs_self k
    omega
  obtain ⟨f, v⟩ := rnd_dyadic false t1 (by omega : t ≤ 103) (k := k - m * 2 ^ (-t).toNat) (by rw [abs_of_nonneg h3]; exact h5)
  exact ⟨_, f, by rw [v, hs]⟩

theorem c_one : Finite (lit 1) ∧ val (lit 1) = 1 := by decide +kernel
theorem c_zero : Finite (lit 0) ∧ val (lit 0) = 0 := by decide +kernel
theorem c_twelve : Finite (lit 12) ∧ val (lit 12) = 12 := by decide +kernel
theorem c_eps : Finite epsilon ∧ val epsilon = 2 ^ (-23 : ℤ) := by decide +kernel

theorem toI32_pos {x : BitVec 32} (hx : Finite x) (h0 : 0 < val x) (h1 : val x < 2147483648) : toI32 x = .ok ⌊val x⌋ := by
  have hn : neg x = false := by
    cases hn : neg x with
    | false => rfl
    | true =>
      have : val x ≤ 0 := by rw [val_eq, hn]; simpa using mval_nonneg _
      linarith
  have b0 : 0 ≤ ⌊val x⌋ := Int.floor_nonneg.2 h0.le
  have b1 : ⌊val x⌋ < 2147483648 := by
    have : ((⌊val x⌋ : ℤ) : ℚ) < 2147483648 := lt_of_le_of_lt (Int.floor_le _) h1
    exact_mod_cast this
  unfold toI32
  simp only [hn, Bool.false_eq_true, if_false]
  rw [if_pos ⟨hx, by omega, b1⟩]

/-! ### The loop -/

theorem gammaLoop_succ (n : Nat) (s : BitVec 32 × BitVec 32) :
    gammaLoop (n + 1) s = (mul (gammaLoop n s).1 (gammaLoop n s).2, add (gammaLoop n s).2 (lit 1)) := by
  induction n generalizing s with
  | zero => rfl
  | succ n ih =>
    rw [gammaLoop, ih]
    rfl

theorem gammaLoop_snd {x y : BitVec 32} (hx : Finite x) (h2 : val x < 16777216) (N : ℕ) (hy : Finite y) (e : val y = val x - N) (h1 : 0 ≤ val y)
    (r : BitVec 32) (j : ℕ) (hj : j ≤ N) : Finite (gammaLoop j (r, y)).2 ∧ val (gammaLoop j (r, y)).2 = val y + j := by
  induction j with
  | zero => exact ⟨hy, by simp [gammaLoop]⟩
  | succ j ih =>
    obtain ⟨f, v⟩ := ih (by omega)
    rw [gammaLoop_succ]
    obtain ⟨c, fc, vc⟩ := sub_int_exists hx (m := (N : ℤ) - (j + 1)) (by omega)
      (by push_cast; have : (0 : ℚ) ≤ j := Nat.cast_nonneg _; linarith) h2
    obtain ⟨f', v'⟩ := add_exact f c_one.1 fc (by rw [v, vc, c_one.2, e]; push_cast; ring)
    refine ⟨f', ?_⟩
    rw [v', vc, e]; push_cast; ring

/-- The rational approximation on `[1, 2]`, as a function of `z = y - 1`: lines 1008-1025. -/
def gammaCore (z : BitVec 32) : BitVec 32 :=
  add (div (hornerMul z gammaP (lit 0)) (hornerAdd z gammaQ (lit 1))) (lit 1)

/-- From one on. -/
theorem gammaMid_ge_one {x : BitVec 32} (hx : Finite x) (h1 : 1 ≤ val x) (h2 : val x < 12) :
    ∃ y : BitVec 32, F32.Finite y ∧ val y = val x - (⌊val x⌋ - 1) ∧ gammaMid x = .ok (gammaLoop (⌊val x⌋ - 1).toNat (gammaCore (sub y (lit 1)), y)).1 := by
  have hb : 1 ≤ ⌊val x⌋ := Int.le_floor.2 (by exact_mod_cast h1)
  have hb2 : ⌊val x⌋ < 12 := Int.floor_lt.2 (by exact_mod_cast h2)
  have hfl := Int.floor_le (val x)
  obtain ⟨c, fc, vc⟩ := sub_int_exists hx (m := ⌊val x⌋ - 1) (by omega) (by push_cast; linarith) (by linarith)
  obtain ⟨fn, vn⟩ := lit_int (k := ⌊val x⌋ - 1) (by rw [abs_of_nonneg (by omega)]; omega)
  obtain ⟨fy, vy⟩ := sub_exact hx fn fc (by rw [vn, vc])
  replace vy : val (sub x (lit ((⌊val x⌋ - 1 : ℤ) : ℚ))) = val x - (⌊val x⌋ - 1) := by rw [vy, vc]; push_cast; rfl
  refine ⟨sub x (lit ((⌊val x⌋ - 1 : ℤ) : ℚ)), fy, vy, ?_⟩
  have e1 : F32.lt x (lit 1) = false := by
    rw [lt_fin hx c_one.1, c_one.2, decide_eq_false_iff_not]; linarith
  have b1 : (1 : ℚ) ≤ (⌊val x⌋ : ℚ) := by exact_mod_cast hb
  have e2 : F32.lt x (sub x (lit ((⌊val x⌋ - 1 : ℤ) : ℚ))) = false := by
    rw [lt_fin hx fy, vy, decide_eq_false_iff_not]; linarith
  unfold gammaMid
  simp only [e1, Bool.false_eq_true, if_false]
  rw [toI32_pos hx (by linarith) (by linarith)]
  simp only [Out.bind_ok, Out.pure_eq]
  rw [if_neg (by rw [e2]; simp)]
  split
  · rfl
  · rename_i h3
    rw [lt_fin fy hx, vy, decide_eq_true_eq, not_lt] at h3
    have : (⌊val x⌋ : ℚ) ≤ 1 := by linarith
    have : ⌊val x⌋ ≤ 1 := by exact_mod_cast this
    have : (⌊val x⌋ - 1).toNat = 0 := by omega
    rw [this]; rfl

/-- Below one. -/
theorem gammaMid_lt_one {x : BitVec 32} (hx : Finite x) (h0 : 0 < val x) (h1 : val x < 1) :
    gammaMid x = .ok (div (gammaCore x) x) := by
  have e1 : F32.lt x (lit 1) = true := by rw [lt_fin hx c_one.1, c_one.2, decide_eq_true_eq]; exact h1
  have c2 : Finite (lit 2) ∧ val (lit 2) = 2 := by decide +kernel
  obtain ⟨fs, s1, s2⟩ := add_btw hx c_one.1 c_one.1 c2.1 (by rw [c_one.2]; linarith) (by rw [c_one.2, c2.2]; linarith)
  have e2 : F32.lt x (add x (lit 1)) = true := by
    rw [lt_fin hx fs, decide_eq_true_eq]; rw [c_one.2] at s1; linarith
  unfold gammaMid
  simp only [e1, if_true, Out.bind_ok, Out.pure_eq, e2]
  rfl

/-- `tgamma` of a positive number. -/
theorem tgamma_pos {x : BitVec 32} (hx : Finite x) (h0 : 0 < val x) : tgamma x = gammaPos x x := by
  obtain ⟨h1, h2, h3, h4, h5⟩ := C31_classify x
  unfold tgamma
  simp only []
  rw [if_neg (by rw [eq_comm, h5]; exact hx.notNaN), if_neg (by rw [eq_comm, h1]; rintro ⟨-, h⟩; linarith),
    if_neg (by rw [eq_comm, h4]; exact hx.notInf), if_neg (by rw [le_fin hx c_zero.1, c_zero.2, decide_eq_true_eq]; linarith)]

theorem gammaPos_mid {x : BitVec 32} (hx : Finite x) (h0 : 2 ^ (-23 : ℤ) ≤ val x) (h1 : val x < 12) (w : BitVec 32) : gammaPos w x = gammaMid x := by
  unfold gammaPos
  rw [if_neg (by rw [lt_fin hx c_eps.1, c_eps.2, decide_eq_true_eq]; linarith),
    if_pos (by rw [lt_fin hx c_twelve.1, c_twelve.2, decide_eq_true_eq]; exact h1)]

/-- **C100** (part) The functional equation of the gamma function, bit for bit: if `x` is in `[1, 11)` and `x + 1` is computed without
rounding, then `tgamma(x + 1)` is the rounded product of `x` and `tgamma(x)`. -/
theorem C100_recurrence (x : BitVec 32) (hx : Finite x) (h1 : 1 ≤ val x) (h2 : val x < 11) (he : val (add x (lit 1)) = val x + 1) :
    ∃ g, tgamma x = .ok g ∧ tgamma (add x (lit 1)) = .ok (mul g x) := by
  have e23 : (2 : ℚ) ^ (-23 : ℤ) ≤ 1 := by norm_num
  have fx1 : Finite (add x (lit 1)) := by
    rw [add_fin hx c_one.1]; apply rnd_finite'; rw [c_one.2, abs_of_nonneg (by linarith)]; refine le_trans (b := 12) (by linarith) (by norm_num)
  obtain ⟨y, fy, vy, ey⟩ := gammaMid_ge_one hx h1 (by linarith)
  obtain ⟨y', fy', vy', ey'⟩ := gammaMid_ge_one fx1 (by rw [he]; linarith) (by rw [he]; linarith)
  have hb : 1 ≤ ⌊val x⌋ := Int.le_floor.2 (by exact_mod_cast h1)
  have hfl : ⌊val (add x (lit 1))⌋ = ⌊val x⌋ + 1 := by rw [he, Int.floor_add_one]
  have hfl2 := Int.floor_le (val x)
  have hv : val y' = val y := by rw [vy', vy, hfl, he]; push_cast; ring
  have hyp : 1 ≤ val y := by rw [vy]; linarith
  have hyy : y' = y := eq_of_val_ne hv (by rw [hv]; intro h; linarith)
  subst hyy
  have hN : (⌊val x⌋ + 1 - 1).toNat = (⌊val x⌋ - 1).toNat + 1 := by omega
  rw [hfl, hN, gammaLoop_succ] at ey'
  have hNc : (((⌊val x⌋ - 1).toNat : ℕ) : ℚ) = (⌊val x⌋ : ℚ) - 1 := by
    have : (((⌊val x⌋ - 1).toNat : ℕ) : ℤ) = ⌊val x⌋ - 1 := Int.toNat_of_nonneg (by omega)
    have := congrArg (Int.cast (R := ℚ)) this
    push_cast at this
    exact this
  obtain ⟨f, v⟩ := gammaLoop_snd hx (by linarith) (⌊val x⌋ - 1).toNat fy (by rw [hNc]; exact vy) (by linarith)
    (gammaCore (sub y' (lit 1))) (⌊val x⌋ - 1).toNat le_rfl
  rw [hNc, vy] at v
  have hxe : (gammaLoop (⌊val x⌋ - 1).toNat (gammaCore (sub y' (lit 1)), y')).2 = x :=
    eq_of_val_ne (by rw [v]; ring) (by rw [v]; intro h; linarith)
  rw [hxe] at ey'
  refine ⟨(gammaLoop (⌊val x⌋ - 1).toNat (gammaCore (sub y' (lit 1)), y')).1, ?_, ?_⟩
  · rw [tgamma_pos hx (by linarith), gammaPos_mid hx (by linarith) (by linarith)]; exact ey
  · rw [tgamma_pos fx1 (by rw [he]; linarith), gammaPos_mid fx1 (by rw [he]; linarith) (by rw [he]; linarith)]; exact ey'

/-- **C100** (part) Below one: if `x + 1` is computed without rounding, then `tgamma(x)` is the rounded quotient of `tgamma(x + 1)`
and `x`. -/
theorem C100_recurrence_below (x : BitVec 32) (hx : Finite x) (h1 : 2 ^ (-23 : ℤ) ≤ val x) (h2 : val x < 1)
    (he : val (add x (lit 1)) = val x + 1) :
    ∃ g, tgamma (add x (lit 1)) = .ok g ∧ tgamma x = .ok (div g x) := by
  have e23 : (0 : ℚ) < 2 ^ (-23 : ℤ) := by norm_num
  have fx1 : Finite (add x (lit 1)) := by
    rw [add_fin hx c_one.1]; apply rnd_finite'; rw [c_one.2, abs_of_nonneg (by linarith)]; refine le_trans (b := 12) (by linarith) (by norm_num)
  obtain ⟨y, fy, vy, ey⟩ := gammaMid_ge_one fx1 (by rw [he]; linarith) (by rw [he]; linarith)
  have hfl : ⌊val (add x (lit 1))⌋ = 1 := by rw [he, Int.floor_eq_iff]; constructor <;> push_cast <;> linarith
  rw [hfl] at vy ey
  have hyx : y = add x (lit 1) := eq_of_val_ne (by rw [vy]; push_cast; ring) (by rw [vy, he]; push_cast; intro h; linarith)
  have hz : sub y (lit 1) = x := by
    obtain ⟨fz, vz⟩ := sub_exact fy c_one.1 hx (by rw [hyx, he, c_one.2]; ring)
    exact eq_of_val_ne vz (by rw [vz]; intro h; linarith)
  rw [hz] at ey
  refine ⟨gammaCore x, ?_, ?_⟩
  · rw [tgamma_pos fx1 (by rw [he]; linarith), gammaPos_mid fx1 (by rw [he]; linarith [show (2 : ℚ) ^ (-23 : ℤ) ≤ 1 by norm_num]) (by rw [he]; linarith)]; exact ey
  · rw [tgamma_pos hx (by linarith), gammaPos_mid hx h1 (by linarith), gammaMid_lt_one hx (by linarith) h2]

/-! ### Absence of undefined behaviour -/

theorem two_pow_float (k : ℕ) (hk : k ≤ 100) : ∃ b : BitVec 32, F32.Finite b ∧ val b = 2 ^ k := by
  obtain ⟨f, v⟩ := rnd_dyadic false (t := (k : ℤ)) (by omega) (by omega) (k := 1) (by norm_num)
  exact ⟨_, f, by rw [v]; simp⟩

/-- Rounding does not cross a power of two. -/
theorem rnd_abs_le {s : Bool} {q : ℚ} (k : ℕ) (hk : k ≤ 100) (h : |q| ≤ 2 ^ k) : Finite (rnd s q) ∧ |val (rnd s q)| ≤ 2 ^ k := by
  obtain ⟨b, fb, vb⟩ := two_pow_float k hk
  obtain ⟨h1, h2⟩ := _root_.abs_le.1 h
  obtain ⟨f, a1, a2⟩ := rnd_between (s := s) (q := q) (finite_negate.2 fb) fb (by rw [val_negate, vb]; exact h1) (by rw [vb]; exact h2)
  rw [val_negate, vb] at a1
  rw [vb] at a2
  exact ⟨f, _root_.abs_le.2 ⟨a1, a2⟩⟩

theorem stirling_lits : ∀ c ∈ stirlingC, Finite (lit c) ∧ |val (lit c)| ≤ 1 / 2 := by decide +kernel

theorem hornerDiv_bound {yy : BitVec 32} (fy : Finite yy) (hy : 2 ≤ val yy) (cs : List ℚ) (hc : ∀ c ∈ cs, Finite (lit c) ∧ |val (lit c)| ≤ 1 / 2) :
    ∀ s : BitVec 32, Finite s → |val s| ≤ 1 → Finite (hornerDiv yy cs s) ∧ |val (hornerDiv yy cs s)| ≤ 1 := by
  have hh : Finite (lit 0.5) ∧ val (lit 0.5) = 1 / 2 := by decide +kernel
  induction cs with
  | nil => intro s fs hs; exact ⟨fs, hs⟩
  | cons c cs ih =>
    intro s fs hs
    obtain ⟨fc, vc⟩ := hc c (by simp)
    have hq : |val s / val yy| ≤ 1 / 2 := by
      rw [abs_div, abs_of_pos (a := val yy) (by linarith), div_le_iff₀ (by linarith)]; linarith
    obtain ⟨q1, q2⟩ := _root_.abs_le.1 hq
    obtain ⟨fd, d1, d2⟩ := div_btw fs fy (by intro h; linarith) (finite_negate.2 hh.1) hh.1 (by rw [val_negate, hh.2]; exact q1) (by rw [hh.2]; exact q2)
    rw [val_negate, hh.2] at d1
    rw [hh.2] at d2
    obtain ⟨e1, e2⟩ := _root_.abs_le.1 vc
    have hs' : |val (div s yy) + val (lit c)| ≤ 2 ^ 0 := _root_.abs_le.2 ⟨by norm_num; linarith, by norm_num; linarith⟩
    obtain ⟨fa, va⟩ := rnd_abs_le (s := neg (div s yy) && neg (lit c)) 0 (by norm_num) hs'
    rw [← add_fin fd fc] at fa va
    exact ih (fun c hc' => hc c (by simp [hc'])) _ fa (by simpa using va)

theorem c_small : Finite (lit 5.7083835261e-03) ∧ |val (lit 5.7083835261e-03)| ≤ 1 ∧ Finite FFP_LN_SQRT_2PI ∧ |val FFP_LN_SQRT_2PI| ≤ 1 ∧
    Finite (lit 0.5) ∧ |val (lit 0.5)| ≤ 1 := by decide +kernel

/-- The branch of the large arguments is defined. -/
theorem gammaLarge_defined (x : BitVec 32) {y : BitVec 32} (fy : Finite y) (h1 : 12 ≤ val y) (h2 : val y ≤ 2 ^ 24) : ∃ g, gammaLarge x y = .ok g := by
  unfold gammaLarge
  split
  · obtain ⟨fs0, vs0, fc, vc, fh, vh⟩ := c_small
    simp only []
    have hay : |val y| ≤ 2 ^ 24 := by rw [abs_of_nonneg (by linarith)]; exact h2
    have fyy : Finite (mul y y) ∧ 2 ≤ val (mul y y) := by
      have hm : |val y * val y| ≤ 2 ^ 48 := by
        rw [abs_mul]
        calc |val y| * |val y| ≤ 2 ^ 24 * 2 ^ 24 := mul_le_mul hay hay (abs_nonneg _) (by positivity)
          _ = 2 ^ 48 := by norm_num
      obtain ⟨b, fb, vb⟩ := two_pow_float 48 (by norm_num)
      obtain ⟨c, fc, vc⟩ := two_pow_float 1 (by norm_num)
      obtain ⟨f, a, -⟩ := mul_btw fy fy fc fb (by rw [vc]; norm_num; nlinarith) (by rw [vb]; exact (le_abs_self _).trans hm)
      exact ⟨f, by rw [vc] at a; simpa using a⟩
    obtain ⟨f1, v1⟩ := hornerDiv_bound fyy.1 fyy.2 stirlingC stirling_lits _ fs0 vs0
    generalize hornerDiv (mul y y) stirlingC (lit 5.7083835261e-03) = s1 at f1 v1
    have hq : |val s1 / val y| ≤ 2 ^ 0 := by
      rw [abs_div, abs_of_pos (a := val y) (by linarith), div_le_iff₀ (by linarith)]; norm_num; linarith
    have h2' := rnd_abs_le (s := neg s1 ^^ neg y) 0 (by norm_num) hq
    rw [← div_fin f1 fy (by intro h; linarith)] at h2'
    generalize div s1 y = s2 at h2'
    obtain ⟨f2, v2⟩ := h2'
    have h3' := rnd_abs_le (s := neg s2 && !neg y) (q := val s2 - val y) 25 (by norm_num) ((abs_sub _ _).trans (by norm_num at v2 hay ⊢; linarith))
    rw [← sub_fin f2 fy] at h3'
    generalize sub s2 y = s3 at h3'
    obtain ⟨f3, v3⟩ := h3'
    have h4' := rnd_abs_le (s := neg s3 && neg FFP_LN_SQRT_2PI) (q := val s3 + val FFP_LN_SQRT_2PI) 26 (by norm_num)
      ((abs_add_le _ _).trans (by norm_num at v3 ⊢; linarith))
    rw [← add_fin f3 fc] at h4'
    generalize add s3 FFP_LN_SQRT_2PI = s4 at h4'
    obtain ⟨f4, v4⟩ := h4'
    have h5' := rnd_abs_le (s := neg y && !neg (lit 0.5)) (q := val y - val (lit 0.5)) 25 (by norm_num)
      ((abs_sub _ _).trans (by norm_num at hay ⊢; linarith))
    rw [← sub_fin fy fh] at h5'
    generalize sub y (lit 0.5) = s5 at h5'
    obtain ⟨f5, v5⟩ := h5'
    -- the logarithm
    obtain ⟨fl, vl⟩ := C82_log_partial y fy (le_trans (by norm_num) h1)
    have hyR : (12 : ℝ) ≤ (val y : ℝ) := by exact_mod_cast h1
    have hyR2 : (val y : ℝ) ≤ 2 ^ 24 := by exact_mod_cast h2
    have l0 : 0 ≤ Real.log (val y) := Real.log_nonneg (by linarith)
    have l1 : Real.log (val y) ≤ val y := (Real.log_le_sub_one_of_pos (by linarith)).trans (by linarith)
    have hl : |val (log y)| ≤ 2 ^ 25 := by
      rw [abs_of_nonneg l0] at vl
      obtain ⟨w1, w2⟩ := _root_.abs_le.1 vl
      rw [_root_.abs_le]
      constructor
      · have : ((-(2 ^ 25) : ℚ) : ℝ) ≤ (val (log y) : ℝ) := by push_cast; nlinarith
        exact_mod_cast this
      · have : (val (log y) : ℝ) ≤ ((2 ^ 25 : ℚ) : ℝ) := by push_cast; norm_num at hyR2 ⊢; nlinarith
        exact_mod_cast this
    have h6' := rnd_abs_le (s := neg s5 ^^ neg (log y)) (q := val s5 * val (log y)) 50 (by norm_num) (by
      rw [abs_mul]
      calc |val s5| * |val (log y)| ≤ 2 ^ 25 * 2 ^ 25 := mul_le_mul v5 hl (abs_nonneg _) (by positivity)
        _ = 2 ^ 50 := by norm_num)
    rw [← mul_fin f5 fl] at h6'
    generalize mul s5 (log y) = s6 at h6'
    obtain ⟨f6, v6⟩ := h6'
    have h7' := rnd_abs_le (s := neg s4 && neg s6) (q := val s4 + val s6) 51 (by norm_num)
      ((abs_add_le _ _).trans (by norm_num at v4 v6 ⊢; linarith))
    rw [← add_fin f4 f6] at h7'
    exact C80_defined _ h7'.1.notNaN
  · exact ⟨_, rfl⟩

theorem gammaPos_defined (x : BitVec 32) {y : BitVec 32} (fy : Finite y) (h0 : 0 < val y) (h2 : val y ≤ 2 ^ 24) : ∃ g, gammaPos x y = .ok g := by
  unfold gammaPos
  split
  · exact ⟨_, rfl⟩
  · split
    · rename_i h
      rw [lt_fin fy c_twelve.1, c_twelve.2, decide_eq_true_eq] at h
      rcases lt_or_ge (val y) 1 with h3 | h3
      · exact ⟨_, gammaMid_lt_one fy h0 h3⟩
      · obtain ⟨w, -, -, e⟩ := gammaMid_ge_one fy h3 h
        exact ⟨_, e⟩
    · rename_i h
      rw [lt_fin fy c_twelve.1, c_twelve.2, decide_eq_true_eq, not_lt] at h
      exact gammaLarge_defined x fy h h2

/-- Numbers of magnitude `2^23` and above are integers. -/
theorem big_int {x : BitVec 32} (hx : Finite x) (h : 2 ^ 23 ≤ val x) : ∃ n : ℤ, val x = n := by
  obtain ⟨k, t, t1, t2, k1, e, k2⟩ := val_dyadic hx
  have ht : 0 ≤ t := by
    by_contra hc
    have hk : (k : ℚ) < 16777216 := by
      have : k < 16777216 := lt_of_le_of_lt (le_abs_self k) (by simpa using k1)
      exact_mod_cast this
    have b : (2 : ℚ) ^ t ≤ 2 ^ (-1 : ℤ) := zpow_le_zpow_right₀ (by norm_num) (by omega)
    have : (k : ℚ) * 2 ^ t < 2 ^ 23 := by
      rcases le_or_gt (k : ℚ) 0 with hk0 | hk0
      · have := mul_nonpos_of_nonpos_of_nonneg hk0 (two_zpow_pos t).le
        exact lt_of_le_of_lt this (by norm_num)
      · have := mul_le_mul_of_nonneg_left b hk0.le
        norm_num at this ⊢; linarith
    linarith
  refine ⟨k * 2 ^ t.toNat, ?_⟩
  rw [e]; push_cast
  rw [← zpow_natCast, Int.toNat_of_nonneg ht]

theorem trunc_of_int {x : BitVec 32} (hx : Finite x) (h0 : 0 ≤ val x) {n : ℤ} (e : val x = n) : Finite (trunc x) ∧ val (trunc x) = val x := by
  obtain ⟨f, -, v⟩ := C30_trunc x hx
  rw [if_pos h0, e, Int.floor_intCast] at v
  exact ⟨f, by rw [v, e]⟩

/-- **C100** (part) `tgamma` of a negative integer is NaN. -/
theorem C100_negint (x : BitVec 32) (hx : Finite x) (n : ℤ) (hn : n < 0) (e : val x = n) : tgamma x = .ok nan := by
  have hneg : val x < 0 := by rw [e]; exact_mod_cast hn
  obtain ⟨h1, h2, h3, h4, h5⟩ := C31_classify x
  obtain ⟨ft, vt⟩ := trunc_of_int (finite_negate.2 hx) (n := -n) (by rw [val_negate]; linarith) (by rw [val_negate, e]; push_cast; rfl)
  obtain ⟨fs, vs⟩ := sub_exact (finite_negate.2 hx) ft c_zero.1 (by rw [vt, c_zero.2]; ring)
  have hq : isEqual (lit 0) (sub (negate x) (trunc (negate x))) = true := by
    rw [C88_iff _ _ c_zero.1 fs, vs, sub_self, abs_zero]; positivity
  unfold tgamma
  simp only []
  rw [if_neg (by rw [eq_comm, h5]; exact hx.notNaN), if_neg (by rw [eq_comm, h1]; rintro ⟨-, h⟩; linarith),
    if_neg (by rw [eq_comm, h4]; exact hx.notInf), if_pos (by rw [le_fin hx c_zero.1, c_zero.2, decide_eq_true_eq]; linarith), hq]
  rfl

/-- **C100** (part) `tgamma` is defined for every argument. -/
theorem C100_defined (x : BitVec 32) : ∃ g, tgamma x = .ok g := by
  by_cases hbig : Finite x ∧ 2 ^ 24 < val x
  · obtain ⟨hx, hb⟩ := hbig
    have h0 : 0 < val x := lt_trans (by norm_num) hb
    have h171 : Finite (lit 171.624) ∧ val (lit 171.624) ≤ 200 := by decide +kernel
    refine ⟨inf, ?_⟩
    rw [tgamma_pos hx h0]
    unfold gammaPos gammaLarge
    rw [if_neg (by rw [lt_fin hx c_eps.1, c_eps.2, decide_eq_true_eq]; norm_num at hb ⊢; linarith),
      if_neg (by rw [lt_fin hx c_twelve.1, c_twelve.2, decide_eq_true_eq]; norm_num at hb ⊢; linarith),
      if_neg (by rw [le_fin hx h171.1, decide_eq_true_eq]; norm_num at hb ⊢; linarith [h171.2])]
    rfl
  obtain ⟨h1, h2, h3, h4, h5⟩ := C31_classify x
  unfold tgamma
  simp only []
  split
  · exact ⟨_, rfl⟩
  split
  · exact ⟨_, rfl⟩
  split
  · exact ⟨_, rfl⟩
  rename_i n1 n2 n3
  rw [eq_comm, h5] at n1
  rw [eq_comm, h4] at n3
  have hx : Finite x := by
    rcases trichotomy n1 with h | h | h
    · exact h
    · exact absurd (by rw [h]; decide) n3
    · exact absurd (by rw [h]; decide) n3
  have hle : val x ≤ 2 ^ 24 := by
    by_contra hc; exact hbig ⟨hx, not_le.1 hc⟩
  have hz : val x ≠ 0 := by rw [eq_comm, h1] at n2; exact fun h => n2 ⟨hx, h⟩
  split
  · rename_i hneg
    rw [le_fin hx c_zero.1, c_zero.2, decide_eq_true_eq] at hneg
    have hneg' : val x < 0 := lt_of_le_of_ne hneg hz
    split
    · rename_i hq
      have hy := finite_negate.2 hx
      have hlt : val (negate x) < 2 ^ 23 := by
        by_contra hc
        obtain ⟨n, e⟩ := big_int hy (not_lt.1 hc)
        obtain ⟨ft, vt⟩ := trunc_of_int hy (by rw [val_negate]; linarith) e
        obtain ⟨fs, vs⟩ := sub_exact hy ft c_zero.1 (by rw [vt, c_zero.2]; ring)
        have : isEqual (lit 0) (sub (negate x) (trunc (negate x))) = true := by
          rw [C88_iff _ _ c_zero.1 fs, vs, sub_self, abs_zero]; positivity
        rw [this] at hq
        exact absurd hq (by simp)
      obtain ⟨b, fb, vb⟩ := two_pow_float 24 (by norm_num)
      obtain ⟨fa, a1, a2⟩ := add_btw hy c_one.1 c_one.1 fb (by rw [c_one.2, val_negate]; linarith)
        (by rw [c_one.2, vb]; norm_num at hlt ⊢; linarith)
      rw [c_one.2] at a1
      rw [vb] at a2
      obtain ⟨g, hg⟩ := gammaPos_defined x fa (by linarith) a2
      rw [hg]
      exact ⟨_, rfl⟩
    · exact ⟨_, rfl⟩
  · rename_i hneg
    rw [le_fin hx c_zero.1, c_zero.2, decide_eq_true_eq, not_le] at hneg
    exact gammaPos_defined x hx hneg hle

/-- **C100** (part) The special values: NaN for NaN, infinity for both zeros, for infinity and for every number above 171.624, NaN for
the negative infinity. -/
theorem C100_special (x : BitVec 32) :
    (IsNaN x → tgamma x = .ok nan) ∧ (Finite x ∧ val x = 0 → tgamma x = .ok inf) ∧ (x = inf → tgamma x = .ok inf) ∧
    (x = negate inf → tgamma x = .ok nan) ∧ (Finite x ∧ val (lit 171.624) < val x → tgamma x = .ok inf) := by
  obtain ⟨h1, h2, h3, h4, h5⟩ := C31_classify x
  refine ⟨fun h => ?_, fun h => ?_, fun h => ?_, fun h => ?_, fun h => ?_⟩
  · unfold tgamma; simp only []
    rw [if_pos (by rw [eq_comm, h5]; exact h)]; rfl
  · unfold tgamma; simp only []
    rw [if_neg (by rw [eq_comm, h5]; exact h.1.notNaN), if_pos (by rw [eq_comm, h1]; exact h)]; rfl
  · subst h; decide +kernel
  · subst h; decide +kernel
  · obtain ⟨hx, hb⟩ := h
    have h171 : Finite (lit 171.624) ∧ 100 ≤ val (lit 171.624) := by decide +kernel
    have h100 : 100 < val x := lt_of_le_of_lt h171.2 hb
    rw [tgamma_pos hx (by linarith)]
    unfold gammaPos gammaLarge
    rw [if_neg (by rw [lt_fin hx c_eps.1, c_eps.2, decide_eq_true_eq]; norm_num; linarith),
      if_neg (by rw [lt_fin hx c_twelve.1, c_twelve.2, decide_eq_true_eq]; linarith),
      if_neg (by rw [le_fin hx h171.1, decide_eq_true_eq]; linarith)]
    rfl

/-- The value of a defined outcome (not a definition of the repository). -/
def okOr (o : Out (BitVec 32)) : BitVec 32 :=
  match o with
  | .ok a => a
  | _ => nan

/-- The bit patterns of `tgamma` at 1, ..., 34 (not a definition of the repository; checked by `gammaTab_spec`). -/
def gammaTab : List ℕ := [1065353216, 1065353216, 1073741824, 1086324736, 1103101952, 1123024896, 1144258560, 1167949824, 1193115648, 1219571712,
  1247640576, 1276659004, 1306814409, 1337562194, 1369596380, 1402485696, 1436040128, 1470218112, 1505097590,
  1540887964, 1577520501, 1613840821, 1651751629, 1689202164, 1728275008, 1766672948, 1806093326, 1846328383,
  1886800270, 1927230022, 1968258997, 2009773396, 2051716366, 2094074635]

theorem gammaTab_spec : ∀ k : Fin 34, tgamma (lit (((k : ℕ) + 1 : ℕ) : ℚ)) = .ok (BitVec.ofNat 32 (gammaTab.getD k 0)) := by decide +kernel

theorem gammaTab_near : ∀ k : Fin 34, Finite (BitVec.ofNat 32 (gammaTab.getD k 0)) ∧
    |val (BitVec.ofNat 32 (gammaTab.getD k 0)) - ((k : ℕ).factorial : ℚ)| ≤ 1e-5 * ((k : ℕ).factorial : ℚ) ∧
    ((k : ℕ) ≤ 10 → val (BitVec.ofNat 32 (gammaTab.getD k 0)) = ((k : ℕ).factorial : ℚ)) := by decide +kernel

/-- **C100** (part) At the integers from 1 to 34 the result is within one part in a hundred thousand of the factorial; up to 11 it is the
factorial itself. -/
theorem C100_integer (n : ℕ) (hn : n < 34) :
    ∃ g, tgamma (lit ((n + 1 : ℕ) : ℚ)) = .ok g ∧ Finite g ∧ |val g - (n.factorial : ℚ)| ≤ 1e-5 * (n.factorial : ℚ) ∧
      (n ≤ 10 → val g = (n.factorial : ℚ)) :=
  ⟨_, gammaTab_spec ⟨n, hn⟩, gammaTab_near ⟨n, hn⟩⟩

/-- **C100, negation.** `tgamma(35)` is infinite although the factorial of 34 is representable (and `factorial` returns it); the
negative integers give NaN where the documentation promises infinity; so does a tiny negative number, whose gamma function is a
large negative number. -/
theorem C100_false :
    tgamma (lit 35) = .ok inf ∧ (∃ g, factorial (lit 34) = .ok g ∧ Finite g) ∧ tgamma (lit (-1)) = .ok nan ∧
    tgamma (negate fltMin) = .ok nan := by
  refine ⟨by decide +kernel, ⟨okOr (factorial (lit 34)), by decide +kernel, by decide +kernel⟩, by decide +kernel, by decide +kernel⟩

/-- Cases of the theorems above. -/
example : Finite (lit 2.5) ∧ 1 ≤ val (lit 2.5) ∧ val (lit 2.5) < 11 ∧ val (add (lit 2.5) (lit 1)) = val (lit 2.5) + 1 ∧
    Finite (lit 0.5) ∧ 2 ^ (-23 : ℤ) ≤ val (lit 0.5) ∧ val (lit 0.5) < 1 ∧ val (add (lit 0.5) (lit 1)) = val (lit 0.5) + 1 ∧
    Finite (lit 200) ∧ val (lit 171.624) < val (lit 200) ∧ Finite (lit (-3)) ∧ val (lit (-3)) = (-3 : ℤ) := by decide +kernel

/-! ### `lgamma` -/

theorem lgamma_pos {x : BitVec 32} (hx : Finite x) (h0 : 0 < val x) : lgamma x = lgammaPositive x := by
  obtain ⟨h1, h2, h3, h4, h5⟩ := C31_classify x
  unfold lgamma
  simp only []
  rw [if_neg (by rw [eq_comm, h5]; exact hx.notNaN), if_neg (by rintro (h | h); linarith [(h1.1 h.symm).2]; exact hx.notInf (h4.1 h.symm)),
    if_neg (by rw [lt_fin hx c_zero.1, c_zero.2, decide_eq_true_eq]; linarith)]

/-- **C101** (part) The special values: NaN for NaN; infinity for both zeros, for both infinities and for every negative integer; zero at
one and at two. -/
theorem C101_special (x : BitVec 32) :
    (IsNaN x → lgamma x = nan) ∧ (IsInf x → lgamma x = inf) ∧ (∀ n : ℤ, Finite x → n ≤ 0 → val x = n → lgamma x = inf) ∧
    (Finite x → val x = 1 ∨ val x = 2 → Finite (lgamma x) ∧ val (lgamma x) = 0) := by
  obtain ⟨h1, h2, h3, h4, h5⟩ := C31_classify x
  refine ⟨fun h => ?_, fun h => ?_, fun n hx hn e => ?_, fun hx h => ?_⟩
  · unfold lgamma; simp only []
    rw [if_pos (by rw [eq_comm, h5]; exact h)]
  · unfold lgamma; simp only []
    rw [if_neg (by rw [eq_comm, h5]; intro h'; rw [h5.2 h'] at h4; exact absurd (h4.2 h) (by simp)), if_pos (Or.inr (by rw [eq_comm, h4]; exact h))]
  · rcases eq_or_lt_of_le hn with h | hn
    · unfold lgamma; simp only []
      rw [if_neg (by rw [eq_comm, h5]; exact hx.notNaN), if_pos (Or.inl (by rw [eq_comm, h1]; exact ⟨hx, by rw [e, h]; rfl⟩))]
    · have hneg : val x < 0 := by rw [e]; exact_mod_cast hn
      obtain ⟨ft, vt⟩ := trunc_of_int (finite_negate.2 hx) (n := -n) (by rw [val_negate]; linarith) (by rw [val_negate, e]; push_cast; rfl)
      obtain ⟨fs, vs⟩ := sub_exact (finite_negate.2 hx) ft c_zero.1 (by rw [vt, c_zero.2]; ring)
      have hq : isEqual (lit 0) (sub (negate x) (trunc (negate x))) = true := by
        rw [C88_iff _ _ c_zero.1 fs, vs, sub_self, abs_zero]; positivity
      unfold lgamma; simp only []
      rw [if_neg (by rw [eq_comm, h5]; exact hx.notNaN), if_neg (by rintro (h | h); linarith [(h1.1 h.symm).2]; exact hx.notInf (h4.1 h.symm)),
        if_pos (by rw [lt_fin hx c_zero.1, c_zero.2, decide_eq_true_eq]; exact hneg), hq]
      simp
  · have c2 : Finite (lit 2) ∧ val (lit 2) = 2 := by decide +kernel
    rcases h with h | h
    · have : x = lit 1 := eq_of_val_ne (by rw [h, c_one.2]) (by rw [h]; norm_num)
      subst this; decide +kernel
    · have : x = lit 2 := eq_of_val_ne (by rw [h, c2.2]) (by rw [h]; norm_num)
      subst this; decide +kernel

/-- **C101, negation.** Every finite number above 171.624 gives infinity: the bound is the one of `tgamma` in double precision, whereas the
logarithm of the gamma function is representable up to about 4e36. -/
theorem C101_false_large (x : BitVec 32) (hx : Finite x) (h : val (lit 171.624) < val x) : lgamma x = inf := by
  have h171 : Finite (lit 171.624) ∧ 100 ≤ val (lit 171.624) := by decide +kernel
  rw [lgamma_pos hx (by linarith [h171.2])]
  unfold lgammaPositive
  simp only []
  rw [if_pos (by rw [lt_fin h171.1 hx, decide_eq_true_eq]; exact h)]

/-- **C101, negation.** The same bound makes `lgamma(-200.5)`, about -860, negative infinity. -/
theorem C101_false_neg : lgamma (lit (-200.5)) = negate inf := by decide +kernel

/-! ### `beta` -/

/-- **C102** (part) `beta` is symmetric, bit for bit and in its undefined behaviour. -/
theorem C102_symm (x y : BitVec 32) : beta x y = beta y x := by
  unfold beta
  rw [F32.add_comm (lgamma x), F32.add_comm x]
  simp only [or_comm]

/-- **C102** (part) A NaN argument gives NaN. -/
theorem C102_nan (x y : BitVec 32) (h : IsNaN x ∨ IsNaN y) : beta x y = .ok nan := by
  obtain ⟨-, -, -, -, h5⟩ := C31_classify x
  obtain ⟨-, -, -, -, h5'⟩ := C31_classify y
  unfold beta
  rw [if_pos (by rw [eq_comm, h5, eq_comm, h5']; exact h)]
  rfl

/-- **C102, negation.** If one argument is above 171.624 and the other is not negative, `beta` has undefined behaviour: the difference of
the logarithms is NaN and `exp` converts it to an integer. -/
theorem C102_false (x y : BitVec 32) (hx : Finite x) (h : val (lit 171.624) < val x) (hy : Finite y) (h0 : 0 ≤ val y) :
    beta x y = .ub ∧ beta y x = .ub := by
  refine (fun h => ⟨h, by rw [C102_symm]; exact h⟩) ?_
  obtain ⟨-, -, -, -, h5⟩ := C31_classify x
  obtain ⟨-, -, -, -, h5'⟩ := C31_classify y
  have hs : lgamma (add x y) = inf := by
    rw [add_fin hx hy]
    rcases trichotomy (rnd_notNaN (neg x && neg y) (val x + val y)) with hf | hf | hf
    · refine C101_false_large _ hf (lt_of_lt_of_le h ?_)
      exact le_rnd hx (by linarith)
    · rw [hf]; decide +kernel
    · rw [hf]; decide +kernel
  unfold beta
  rw [if_neg (by rw [eq_comm, h5, eq_comm, h5']; rintro (h | h); exact hx.notNaN h; exact hy.notNaN h)]
  simp only []
  rw [C101_false_large x hx h, hs]
  have key1 : ∀ a : BitVec 32, sub (add inf a) inf = qnan := by
    intro a
    by_cases hn : IsNaN a
    · have : add inf a = qnan := by unfold add; rw [if_pos (Or.inr hn)]
      rw [this]; decide +kernel
    · rcases trichotomy hn with hf | hf | hf
      · have : add inf a = inf := by
          unfold add
          rw [if_neg (by rintro (h | h); exact absurd h (by decide); exact hn h), if_pos (by decide), if_neg (fun h => hf.notInf h.1)]
        rw [this]; decide +kernel
      · subst hf; decide +kernel
      · subst hf; decide +kernel
  rw [key1]
  decide +kernel

/-- Cases of the theorems above. -/
example : Finite (lit 200) ∧ val (lit 171.624) < val (lit 200) ∧ Finite (lit 1) ∧ 0 ≤ val (lit 1) ∧ IsNaN nan ∧ IsInf inf ∧
    Finite (lit (-7)) ∧ val (lit (-7)) = (-7 : ℤ) ∧ Finite (lit 2) ∧ val (lit 2) = 2 := by decide +kernel

/-- **C102, negation.** The sign of the beta function is lost: at (-1/2, 2) it is -4, the code returns a positive number. -/
theorem C102_sign_false : ∃ g, beta (lit (-0.5)) (lit 2) = .ok g ∧ 3.99 < val g ∧ val g < 4.01 := by
  exact ⟨okOr (beta (lit (-0.5)) (lit 2)), by decide +kernel, by decide +kernel, by decide +kernel⟩

end Verif.Ffmath
