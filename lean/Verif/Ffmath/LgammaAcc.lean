import Verif.Ffmath.LgammaCore
import Verif.Ffmath.GammaAcc

/-!
# Accuracy of `lgamma` for positive arguments (C152)

IEEE binary32 arithmetic against the logarithm of the gamma function of the real numbers.
-/

namespace Verif.Ffmath

open Verif Verif.F32

/-! ## The evaluation of the rational functions -/

theorem foldl_peval (l : List ℚ) (x : ℝ) : ∀ q : ℝ,
    l.foldl (fun (d : ℝ) (c : ℚ) => d * x + c) q = peval l.reverse x + x ^ l.length * q := by
  induction l with
  | nil => intro q; simp [peval_nil]
  | cons c l ih =>
    intro q
    rw [List.foldl_cons, ih, List.reverse_cons, peval_append, List.length_cons, List.length_reverse, peval_cons, peval_nil, pow_succ]
    ring

theorem horner_peval {l : List ℚ} {s : ℚ} {D : List ℚ} (h : l.reverse ++ [s] = D) (x : ℝ) :
    l.foldl (fun (d : ℝ) (c : ℚ) => d * x + c) (s : ℝ) = peval D x := by
  rw [foldl_peval, ← h, peval_append, peval_cons, peval_nil, List.length_reverse]
  ring

/-- The numbers of one interval of arguments `[a / M, b / M]`: `L` is below the denominator, `R` above the quotient, `E1` and `E2` above the
rounding errors of numerator and denominator, and `d + z N / D`, which is between `vlo` and `vhi`, is computed up to `e`. Not a definition of
the repository. -/
def cellOk (cs1 cs2 N D : List ℚ) (d : ℚ) (M : ℕ) (a b : ℤ) (Z L R E1 E2 vlo vhi e : ℚ) : Bool :=
  let D0 := (E1 + R * E2) / (L - E2)
  let e1 := D0 + (R + D0) / 16777216 + 1e-45
  let e2 := Z * e1 + (Z * R + Z * e1) / 16777216 + 1e-45
  (addErr Z cs1 0 0).any (fun p => decide (p.2 ≤ E1)) && (addErr Z cs2 1 0).any (fun p => decide (p.2 ≤ E2)) &&
  (pposi (padd [-L] D) (2 ^ 80 * 10000000) M a b && pposi (padd (psmul R D) N) (2 ^ 80 * 10000000) M a b &&
  pposi (padd (psmul R D) (psmul (-1) N)) (2 ^ 80 * 10000000) M a b) &&
  (pposi (padd (lgG d N D) (psmul (-vlo) D)) (2 ^ 80 * 10000000) M a b && pposi (padd (psmul vhi D) (psmul (-1) (lgG d N D))) (2 ^ 80 * 10000000) M a b) &&
  decide (0 < M ∧ a < b ∧ |(a : ℚ) / M| ≤ Z ∧ |(b : ℚ) / M| ≤ Z ∧ E2 < L ∧ 0 ≤ E1 ∧ 0 ≤ E2 ∧ 0 ≤ R ∧ R + D0 ≤ 1e38 ∧ Z * R + Z * e1 ≤ 1e38 ∧
    max |vlo| |vhi| + e2 ≤ 1e38 ∧ e2 + (max |vlo| |vhi| + e2) / 16777216 + 1e-45 ≤ e)

theorem cell_near {cs1 cs2 N D : List ℚ} {d s0 : ℚ} {M : ℕ} {a b : ℤ} {Z L R E1 E2 vlo vhi e : ℚ}
    (h : cellOk cs1 cs2 N D d M a b Z L R E1 E2 vlo vhi e = true) {df sf z : BitVec 32} (hd : F32.Finite df ∧ val df = d)
    (hs : F32.Finite sf ∧ val sf = s0) (hs1 : |s0| ≤ 1) (hN : (cs1.map fun c => val (lit c)).reverse ++ [0] = N)
    (hD : (cs2.map fun c => val (lit c)).reverse ++ [s0] = D) (fz : F32.Finite z) (z1 : (a : ℚ) / M ≤ val z) (z2 : val z ≤ (b : ℚ) / M) :
    Near (add df (mul z (div (hornerAdd z cs1 (lit 0)) (hornerAdd z cs2 sf)))) (d + val z * (peval N (val z) / peval D (val z))) e ∧
    (vlo : ℝ) ≤ d + val z * (peval N (val z) / peval D (val z)) ∧ d + val z * (peval N (val z) / peval D (val z)) ≤ vhi := by
  unfold cellOk at h
  simp only [Bool.and_eq_true, Option.any_eq_true, decide_eq_true_eq] at h
  obtain ⟨⟨⟨⟨⟨⟨B1, F1⟩, a1, a2⟩, ⟨B2, F2⟩, b1, b2⟩, ⟨p1, p2⟩, p3⟩, p4, p5⟩, hM, hab, ha, hb, hL, hE1, hE2, hR, n1, n2, n3, n4⟩ := h
  have hz : |val z| ≤ Z := by
    rw [abs_le] at ha hb ⊢
    constructor <;> linarith
  have zr1 : (a : ℝ) / M ≤ val z := by exact_mod_cast z1
  have zr2 : (val z : ℝ) ≤ (b : ℝ) / M := by exact_mod_cast z2
  have hzr : |(val z : ℝ)| ≤ Z := by exact_mod_cast hz
  have P1 := pposi_sound p1 (by norm_num) hM hab _ zr1 zr2
  have P2 := pposi_sound p2 (by norm_num) hM hab _ zr1 zr2
  have P3 := pposi_sound p3 (by norm_num) hM hab _ zr1 zr2
  have P4 := pposi_sound p4 (by norm_num) hM hab _ zr1 zr2
  have P5 := pposi_sound p5 (by norm_num) hM hab _ zr1 zr2
  simp only [lgG, peval_padd, peval_psmul, peval_cons, peval_nil] at P1 P2 P3 P4 P5
  have m1 := hornerAdd_near fz hz cs1 (lit 0) 0 0 0 B1 F1 (by simpa [c_zero.2] using Near.self c_zero.1) (by simp) a1
  have m2 := hornerAdd_near fz hz cs2 sf s0 1 0 B2 F2 (by simpa [hs.2] using Near.self hs.1) (by exact_mod_cast hs1) b1
  have e0 := horner_peval hN (val z : ℝ)
  rw [Rat.cast_zero] at e0
  rw [e0] at m1
  rw [horner_peval hD] at m2
  generalize hornerAdd z cs1 (lit 0) = nf at *
  generalize hornerAdd z cs2 sf = qf at *
  push_cast at P1 P2 P3 P4 P5
  generalize hn : peval N (val z : ℝ) = n at *
  generalize hq : peval D (val z : ℝ) = q at *
  generalize hzz : (val z : ℝ) = zz at *
  have nz : Near z zz 0 := by rw [← hzz]; exact Near.self fz
  have nd : Near df d 0 := by rw [← hd.2]; exact Near.self hd.1
  have a2r : (F1 : ℝ) ≤ E1 := by exact_mod_cast a2
  have b2r : (F2 : ℝ) ≤ E2 := by exact_mod_cast b2
  have hLr : (E2 : ℝ) < L := by exact_mod_cast hL
  have hE2r : (0 : ℝ) ≤ E2 := by exact_mod_cast hE2
  have hRr : (0 : ℝ) ≤ R := by exact_mod_cast hR
  have q0 : 0 < q := by linarith
  have hnq : |n / q| ≤ R := by
    rw [abs_div, abs_of_pos q0, div_le_iff₀ q0, abs_le]
    constructor <;> linarith
  have v1 : (vlo : ℝ) ≤ d + zz * (n / q) := by
    have : (vlo : ℝ) * q ≤ (d + zz * (n / q)) * q := by
      rw [show (d + zz * (n / q)) * q = d * q + zz * n by field_simp]; linarith
    exact le_of_mul_le_mul_right this q0
  have v2 : d + zz * (n / q) ≤ vhi := by
    have : (d + zz * (n / q)) * q ≤ vhi * q := by
      rw [show (d + zz * (n / q)) * q = d * q + zz * n by field_simp]; linarith
    exact le_of_mul_le_mul_right this q0
  refine ⟨?_, v1, v2⟩
  set D0 : ℚ := (E1 + R * E2) / (L - E2) with hD0
  set e1 : ℚ := D0 + (R + D0) / 16777216 + 1e-45 with he1
  set e2 : ℚ := Z * e1 + (Z * R + Z * e1) / 16777216 + 1e-45 with he2
  have n1r : ((R + D0 : ℚ) : ℝ) ≤ ((1e38 : ℚ) : ℝ) := by exact_mod_cast n1
  have n2r : ((Z * R + Z * e1 : ℚ) : ℝ) ≤ ((1e38 : ℚ) : ℝ) := by exact_mod_cast n2
  have n3r : ((max |vlo| |vhi| + e2 : ℚ) : ℝ) ≤ ((1e38 : ℚ) : ℝ) := by exact_mod_cast n3
  have n4r : ((e2 + (max |vlo| |vhi| + e2) / 16777216 + 1e-45 : ℚ) : ℝ) ≤ (e : ℝ) := by exact_mod_cast n4
  have hZ : (0 : ℝ) ≤ Z := (abs_nonneg _).trans hzr
  have k1 : Near (div nf qf) (n / q) e1 :=
    Near.div R (L - E2) D0 (R + D0) (m1.mono a2r) (m2.mono b2r) q0.ne' (by linarith) (by rw [abs_of_pos q0]; linarith) hnq
      (by rw [hD0]; push_cast; exact le_rfl) (le_refl _) (by push_cast at n1r; norm_num at n1r ⊢; exact n1r) (by rw [he1]; push_cast; norm_num)
  have k2 : Near (mul z (div nf qf)) (zz * (n / q)) e2 :=
    Near.mul Z R (Z * e1) (Z * R + Z * e1) nz k1 hzr hnq (by simp) (by
      rw [abs_mul]; linarith [mul_le_mul hzr hnq (abs_nonneg _) hZ]) (by push_cast at n2r; norm_num at n2r ⊢; exact n2r) (by rw [he2]; push_cast; norm_num)
  have hv : |d + zz * (n / q)| ≤ max |(vlo : ℝ)| |(vhi : ℝ)| := abs_le_max_abs_abs v1 v2
  refine Near.add (max |(vlo : ℝ)| |(vhi : ℝ)| + e2) nd k2 (by linarith) (by push_cast at n3r; norm_num at n3r ⊢; exact n3r) ?_
  push_cast at n4r
  norm_num at n4r ⊢
  exact n4r

theorem cell_A0 : cellOk lgP1 lgQ1 lgN1 lgD1 lgd1 128 (-41) 0 (41 / 128) 1900 (993 / 1000) (181 / 50000) (137 / 25000) (-179 / 200) (-72 / 125) (163 / 100000000) = true := by decide +kernel
theorem cell_A1 : cellOk lgP1 lgQ1 lgN1 lgD1 lgd1 4 0 1 (1 / 4) 8690 (827 / 1000) (257 / 100000) (47 / 12500) (-289 / 500) (-49 / 125) (223 / 1000000000) = true := by decide +kernel
theorem cell_A2 : cellOk lgP1 lgQ1 lgN1 lgD1 lgd1 4 1 2 (1 / 2) 22400 (741 / 1000) (383 / 50000) (1 / 80) (-197 / 500) (-241 / 1000) (223 / 500000000) = true := by decide +kernel
theorem cell_B0 : cellOk lgP2 lgQ2 lgN2 lgD2 lgd2 16 (-8) (-5) (1 / 2) 3360000 (73 / 200) (481 / 500) (88 / 25) (241 / 1000) (79 / 250) (47 / 125000000) = true := by decide +kernel
theorem cell_B1 : cellOk lgP2 lgQ2 lgN2 lgD2 lgd2 16 (-5) 0 (5 / 16) 5070000 (87 / 250) (587 / 1000) (41 / 20) (157 / 500) (53 / 125) (119 / 1000000000) = true := by decide +kernel
theorem cell_B2 : cellOk lgP2 lgQ2 lgN2 lgD2 lgd2 2 0 1 (1 / 2) 9430000 (13 / 40) (481 / 500) (88 / 25) (211 / 500) (57 / 100) (83 / 500000000) = true := by decide +kernel
theorem cell_B3 : cellOk lgP2 lgQ2 lgN2 lgD2 lgd2 2 1 2 1 22300000 (59 / 200) (269 / 100) (54 / 5) (71 / 125) (347 / 500) (341 / 1000000000) = true := by decide +kernel
theorem cell_B4 : cellOk lgP2 lgQ2 lgN2 lgD2 lgd2 1 1 2 2 46800000 (34 / 125) (117 / 10) (541 / 10) (173 / 250) (897 / 1000) (1 / 800000) = true := by decide +kernel
theorem cell_C0 : cellOk lgP4 lgQ4 lgN4 lgD4 lgd4 1 0 1 1 441000000000 (7 / 5) 188000 127000 (1791 / 1000) (3179 / 1000) (119 / 100000000) = true := by decide +kernel
theorem cell_C1 : cellOk lgP4 lgQ4 lgN4 lgD4 lgd4 1 1 2 2 896000000000 (151 / 100) 542000 334000 (3177 / 1000) (1197 / 250) (299 / 100000000) = true := by decide +kernel
theorem cell_C2 : cellOk lgP4 lgQ4 lgN4 lgD4 lgd4 1 2 4 4 1650000000000 (17 / 10) 2470000 1360000 (2393 / 500) (4263 / 500) (13 / 1000000) = true := by decide +kernel
theorem cell_C3 : cellOk lgP4 lgQ4 lgN4 lgD4 lgd4 1 4 6 6 4670000000000 (37 / 20) 7680000 3880000 (2131 / 250) (12803 / 1000) (53 / 2500000) = true := by decide +kernel
theorem cell_C4 : cellOk lgP4 lgQ4 lgN4 lgD4 lgd4 1 6 8 8 11000000000000 (99 / 50) 19500000 9220000 (12801 / 1000) (17503 / 1000) (61 / 2000000) = true := by decide +kernel

theorem c_d1 : F32.Finite (lit (-5.772156649015328605195174e-1)) ∧ val (lit (-5.772156649015328605195174e-1)) = lgd1 := by decide +kernel
theorem c_d2 : F32.Finite (lit 4.227843350984671393993777e-1) ∧ val (lit 4.227843350984671393993777e-1) = lgd2 := by decide +kernel
theorem c_d4 : F32.Finite (lit 1.791759469228055000094023e+0) ∧ val (lit 1.791759469228055000094023e+0) = lgd4 := by decide +kernel
theorem c_minus : F32.Finite (negate (lit 1)) ∧ val (negate (lit 1)) = -1 := by decide +kernel

/-- Multiplication by the distance from the zero. -/
theorem times_near {z f : BitVec 32} {v G e V W κ c : ℝ} (fz : F32.Finite z) (n : Near f v e) (hV : |v| ≤ V) (hW : W ≤ |v|)
    (hG : |val z * v - G| ≤ κ * |(val z : ℝ)|) (h0 : 1 / 33554432 ≤ |(val z : ℝ)|) (h2 : |(val z : ℝ)| ≤ 2) (hV1 : V + e ≤ 2)
    (hc : e + (V + e) / 16777216 + κ + 1e-30 ≤ c) :
    Near (mul z f) G (c * |(val z : ℝ)|) ∧ (W - κ) * |(val z : ℝ)| ≤ |G| ∧ |G| ≤ (V + κ) * |(val z : ℝ)| := by
  have nz := Near.self fz
  generalize (val z : ℝ) = x at *
  have he := n.err
  have e0 : 0 ≤ e := (abs_nonneg _).trans he
  have m := Near.mul (e' := |x| * e + |x| * (V + e) / 16777216 + 1e-45) |x| V (|x| * e) (|x| * (V + e)) nz n le_rfl hV (by linarith) (by
    rw [abs_mul]; linarith [mul_le_mul_of_nonneg_left hV (abs_nonneg x)]) (by
    have : |x| * (V + e) ≤ 2 * 2 := mul_le_mul h2 hV1 (by linarith [abs_nonneg v]) (by norm_num)
    norm_num; linarith) (by norm_num)
  have a1 : W * |x| ≤ |x * v| := by rw [abs_mul]; linarith [mul_le_mul_of_nonneg_left hW (abs_nonneg x)]
  have a2 : |x * v| ≤ V * |x| := by rw [abs_mul]; linarith [mul_le_mul_of_nonneg_left hV (abs_nonneg x)]
  have b1 := abs_sub_abs_le_abs_sub (x * v) G
  have b2 := abs_sub_abs_le_abs_sub G (x * v)
  rw [abs_sub_comm G] at b2
  refine ⟨⟨m.fin, ?_⟩, by linarith, by linarith⟩
  have me := m.err
  have := mul_le_mul_of_nonneg_right hc (abs_nonneg x)
  rw [abs_le] at me hG ⊢
  norm_num at me this h0 ⊢
  constructor <;> linarith

/-- A number is a multiple of the distance of the floats of its size. -/
theorem val_multiple {b : BitVec 32} (h : F32.Finite b) (n : ℤ) (h1 : 2 ^ n ≤ val b) : ∃ k : ℤ, val b = k * 2 ^ (n - 23) := by
  obtain ⟨k, t, a1, a2, a3, a4, a5⟩ := val_dyadic h
  have ht : n - 23 ≤ t := by
    by_contra hc
    have : t ≤ n - 24 := by omega
    have h2 : (2 : ℚ) ^ t ≤ 2 ^ (n - 24) := zpow_le_zpow_right₀ (by norm_num) this
    have h3 : (k : ℚ) < 16777216 := by exact_mod_cast lt_of_le_of_lt (le_abs_self k) a3
    have h4 := two_zpow_pos t
    rw [a4] at h1
    have : (k : ℚ) * 2 ^ t < 16777216 * 2 ^ (n - 24) := by
      calc (k : ℚ) * 2 ^ t < 16777216 * 2 ^ t := by gcongr
        _ ≤ _ := by gcongr
    rw [zpow_sub₀ (by norm_num)] at this
    norm_num at this; linarith
  refine ⟨k * 2 ^ (t - (n - 23)).toNat, ?_⟩
  rw [a4]
  push_cast
  rw [mul_assoc, ← zpow_natCast, ← zpow_add₀ (by norm_num)]
  congr 2
  omega

/-- Differences of multiples are exact. -/
theorem sub_multiple {a b : BitVec 32} (ha : F32.Finite a) (hb : F32.Finite b) {t k l : ℤ} (h1 : val a = k * 2 ^ t) (h2 : val b = l * 2 ^ t)
    (ht : -149 ≤ t) (ht2 : t ≤ 103) (h : |k - l| ≤ 16777216) :
    F32.Finite (sub a b) ∧ val (sub a b) = val a - val b := by
  have e : val a - val b = ((k - l : ℤ) : ℚ) * 2 ^ t := by rw [h1, h2]; push_cast; ring
  rw [sub_fin ha hb, e]
  exact rnd_dyadic _ ht ht2 h

/-- Subtraction of `c` from a number `x` of size at least `2^n` with `|x - c| ≤ 2^(n + 1)`. -/
theorem sub_const {x c : BitVec 32} (hx : F32.Finite x) (hc : F32.Finite c) (n : ℤ) (h : 2 ^ n ≤ val x) {l : ℤ} (hl : val c = l * 2 ^ (n - 23))
    (hn : -126 ≤ n) (hn2 : n ≤ 126) (hd : |val x - val c| ≤ 2 ^ (n + 1)) :
    F32.Finite (sub x c) ∧ val (sub x c) = val x - val c ∧ (val x - val c = 0 ∨ 2 ^ (n - 23) ≤ |val x - val c|) := by
  obtain ⟨k, hk⟩ := val_multiple hx n h
  have hp := two_zpow_pos (n - 23)
  have e : val x - val c = ((k - l : ℤ) : ℚ) * 2 ^ (n - 23) := by rw [hk, hl]; push_cast; ring
  have hkl : |k - l| ≤ 16777216 := by
    rw [e, abs_mul, abs_of_pos hp, show n + 1 = 24 + (n - 23) by ring, zpow_add₀ (by norm_num)] at hd
    have := le_of_mul_le_mul_right hd hp
    norm_num at this
    exact_mod_cast this
  obtain ⟨f, v⟩ := sub_multiple hx hc hk hl (by omega) (by omega) hkl
  refine ⟨f, v, ?_⟩
  rcases eq_or_ne (k - l) 0 with h0 | h0
  · left; rw [e, h0]; simp
  · right
    rw [e, abs_mul, abs_of_pos hp]
    have : (1 : ℤ) ≤ |k - l| := Int.one_le_abs h0
    have : (1 : ℚ) ≤ |((k - l : ℤ) : ℚ)| := by exact_mod_cast this
    linarith [mul_le_mul_of_nonneg_right this hp.le]

/-! ## The three rational functions in binary32 -/

/-- The terms of `/repo/src/ffmath.cpp` lines 1098-1116. Not a definition of the repository. -/
def ratA (z : BitVec 32) : BitVec 32 := add (lit (-5.772156649015328605195174e-1)) (mul z (div (hornerAdd z lgP1 (lit 0)) (hornerAdd z lgQ1 (lit 1))))
/-- The terms of `/repo/src/ffmath.cpp` lines 1120-1138 and 1143-1161. Not a definition of the repository. -/
def ratB (z : BitVec 32) : BitVec 32 := add (lit 4.227843350984671393993777e-1) (mul z (div (hornerAdd z lgP2 (lit 0)) (hornerAdd z lgQ2 (lit 1))))
/-- The terms of `/repo/src/ffmath.cpp` lines 1165-1183. Not a definition of the repository. -/
def ratC (z : BitVec 32) : BitVec 32 :=
  add (lit 1.791759469228055000094023e+0) (mul z (div (hornerAdd z lgP4 (lit 0)) (hornerAdd z lgQ4 (negate (lit 1)))))

theorem abs_between {v a b : ℝ} (h1 : a ≤ v) (h2 : v ≤ b) (hb : b ≤ 0) : |v| ≤ -a ∧ -b ≤ |v| := by
  rw [abs_of_nonpos (by linarith)]
  constructor <;> linarith

theorem abs_between' {v a b : ℝ} (h1 : a ≤ v) (h2 : v ≤ b) (ha : 0 ≤ a) : |v| ≤ b ∧ a ≤ |v| := by
  rw [abs_of_nonneg (by linarith)]
  exact ⟨h2, h1⟩

/-- Below 1. -/
theorem ratA_neg {z : BitVec 32} (fz : F32.Finite z) (h1 : -41 / 128 ≤ val z) (h2 : val z ≤ -1 / 33554432) :
    Near (mul z (ratA z)) (Real.log (Real.Gamma (val z + 1))) (4.5e-6 * |Real.log (Real.Gamma (val z + 1))|) := by
  have r1 : (-41 / 128 : ℝ) ≤ (val z : ℝ) := by
    have : ((-41 / 128 : ℚ) : ℝ) ≤ ((val z : ℚ) : ℝ) := by exact_mod_cast h1
    norm_num at this ⊢; linarith
  have r2 : (val z : ℝ) ≤ -1 / 33554432 := by
    have : ((val z : ℚ) : ℝ) ≤ ((-1 / 33554432 : ℚ) : ℝ) := by exact_mod_cast h2
    norm_num at this ⊢; linarith
  obtain ⟨n, v1, v2⟩ := cell_near cell_A0 c_d1 c_one (by norm_num) lgN1_eq lgD1_eq fz (by norm_num; linarith) (by norm_num; linarith)
  obtain ⟨u1, u2⟩ := abs_between v1 v2 (by norm_num)
  have hz : |(val z : ℝ)| = -val z := abs_of_neg (by linarith)
  obtain ⟨m, l, -⟩ := times_near (c := 2.54e-6) fz n u1 u2 (lgA_below r1 (by linarith)) (by rw [hz]; linarith) (by rw [hz]; linarith) (by norm_num) (by norm_num)
  refine m.mono ?_
  have := abs_nonneg (val z : ℝ)
  norm_num at l ⊢
  linarith

/-- Above 1. -/
theorem ratA_pos {z : BitVec 32} (fz : F32.Finite z) (h1 : 1 / 33554432 ≤ val z) (h2 : val z ≤ 1 / 2) :
    Near (mul z (ratA z)) (Real.log (Real.Gamma (val z + 1))) (5.7e-7 * val z) ∧ 0.24 * (val z : ℝ) ≤ |Real.log (Real.Gamma (val z + 1))| ∧
    |Real.log (Real.Gamma (val z + 1))| ≤ 0.2 := by
  have r1 : (1 / 33554432 : ℝ) ≤ (val z : ℝ) := by
    have : ((1 / 33554432 : ℚ) : ℝ) ≤ ((val z : ℚ) : ℝ) := by exact_mod_cast h1
    norm_num at this ⊢; linarith
  have r2 : (val z : ℝ) ≤ 1 / 2 := by
    have : ((val z : ℚ) : ℝ) ≤ ((1 / 2 : ℚ) : ℝ) := by exact_mod_cast h2
    norm_num at this ⊢; linarith
  have hz : |(val z : ℝ)| = val z := abs_of_pos (by linarith)
  have real := lgA_above (z := (val z : ℝ)) (by linarith) (by linarith)
  rcases le_total (val z) (1 / 4) with hq | hq
  · have rq : (val z : ℝ) ≤ 1 / 4 := by
      have : ((val z : ℚ) : ℝ) ≤ ((1 / 4 : ℚ) : ℝ) := by exact_mod_cast hq
      norm_num at this ⊢; linarith
    obtain ⟨n, v1, v2⟩ := cell_near cell_A1 c_d1 c_one (by norm_num) lgN1_eq lgD1_eq fz (by norm_num; linarith) (by norm_num; linarith)
    obtain ⟨u1, u2⟩ := abs_between v1 v2 (by norm_num)
    obtain ⟨m, l, l2⟩ := times_near (c := 3.6e-7) fz n u1 u2 real (by rw [hz]; linarith) (by rw [hz]; linarith) (by norm_num) (by norm_num)
    rw [hz] at m l l2
    refine ⟨m.mono (by norm_num; linarith), ?_, ?_⟩ <;> norm_num at l l2 ⊢ <;> linarith
  · have rq : 1 / 4 ≤ (val z : ℝ) := by
      have : ((1 / 4 : ℚ) : ℝ) ≤ ((val z : ℚ) : ℝ) := by exact_mod_cast hq
      norm_num at this ⊢; linarith
    obtain ⟨n, v1, v2⟩ := cell_near cell_A2 c_d1 c_one (by norm_num) lgN1_eq lgD1_eq fz (by norm_num; linarith) (by norm_num; linarith)
    obtain ⟨u1, u2⟩ := abs_between v1 v2 (by norm_num)
    obtain ⟨m, l, l2⟩ := times_near (c := 5.7e-7) fz n u1 u2 real (by rw [hz]; linarith) (by rw [hz]; linarith) (by norm_num) (by norm_num)
    rw [hz] at m l l2
    refine ⟨m, ?_, ?_⟩ <;> norm_num at l l2 ⊢ <;> linarith

theorem ratB_cell {a b : ℤ} {M : ℕ} {Z L R E1 E2 vlo vhi e : ℚ} (h : cellOk lgP2 lgQ2 lgN2 lgD2 lgd2 M a b Z L R E1 E2 vlo vhi e = true)
    {z : BitVec 32} (fz : F32.Finite z) (h1 : -1 / 2 ≤ val z) (h2 : val z ≤ 2) (h0 : 1 / 33554432 ≤ |val z|) (k1 : (a : ℚ) / M ≤ val z)
    (k2 : val z ≤ (b : ℚ) / M) {c : ℝ} (hv : 0 ≤ vlo) (hv2 : vhi + e ≤ 2) (hc : (e : ℝ) + (vhi + e) / 16777216 + 2e-7 + 1e-30 ≤ c) :
    Near (mul z (ratB z)) (Real.log (Real.Gamma (val z + 2))) (c * |(val z : ℝ)|) ∧
    ((vlo : ℝ) - 2e-7) * |(val z : ℝ)| ≤ |Real.log (Real.Gamma (val z + 2))| ∧
    |Real.log (Real.Gamma (val z + 2))| ≤ ((vhi : ℝ) + 2e-7) * |(val z : ℝ)| := by
  have r1 : (-1 / 2 : ℝ) ≤ (val z : ℝ) := by
    have : ((-1 / 2 : ℚ) : ℝ) ≤ ((val z : ℚ) : ℝ) := by exact_mod_cast h1
    norm_num at this ⊢; linarith
  have r2 : (val z : ℝ) ≤ 2 := by exact_mod_cast h2
  have r0 : (1 / 33554432 : ℝ) ≤ |(val z : ℝ)| := by
    have : ((1 / 33554432 : ℚ) : ℝ) ≤ ((|val z| : ℚ) : ℝ) := by exact_mod_cast h0
    push_cast at this; exact this
  obtain ⟨n, v1, v2⟩ := cell_near h c_d2 c_one (by norm_num) lgN2_eq lgD2_eq fz k1 k2
  obtain ⟨u1, u2⟩ := abs_between' v1 v2 (by exact_mod_cast hv)
  exact times_near fz n u1 u2 (lgB_close r1 r2) r0 (by rw [abs_le]; constructor <;> linarith) (by exact_mod_cast hv2) hc

/-- Between 1.5 and 1.6875. -/
theorem ratB_low {z : BitVec 32} (fz : F32.Finite z) (h1 : -1 / 2 ≤ val z) (h2 : val z ≤ -5 / 16) :
    Near (mul z (ratB z)) (Real.log (Real.Gamma (val z + 2))) (6e-7 * |(val z : ℝ)|) ∧
    0.24 * |(val z : ℝ)| ≤ |Real.log (Real.Gamma (val z + 2))| ∧ |Real.log (Real.Gamma (val z + 2))| ≤ 0.317 * |(val z : ℝ)| := by
  obtain ⟨m, l1, l2⟩ := ratB_cell (c := 6e-7) cell_B0 fz h1 (by linarith) (by rw [abs_of_neg (by linarith)]; linarith) (by norm_num; linarith)
    (by norm_num; linarith) (by norm_num) (by norm_num) (by norm_num)
  have := abs_nonneg (val z : ℝ)
  refine ⟨m, ?_, ?_⟩ <;> norm_num at l1 l2 ⊢ <;> linarith

/-- Between 1.5 and 4. -/
theorem ratB_near {z : BitVec 32} (fz : F32.Finite z) (h1 : -1 / 2 ≤ val z) (h2 : val z ≤ 2) (h0 : 1 / 33554432 ≤ |val z|) :
    Near (mul z (ratB z)) (Real.log (Real.Gamma (val z + 2))) (2.6e-6 * |Real.log (Real.Gamma (val z + 2))|) := by
  have := abs_nonneg (val z : ℝ)
  rcases le_total (val z) (-5 / 16) with k | k
  · obtain ⟨m, l, -⟩ := ratB_low fz h1 k
    refine m.mono ?_
    norm_num at l ⊢; linarith
  rcases le_total (val z) 0 with k' | k'
  · obtain ⟨m, l, -⟩ := ratB_cell (c := 3.6e-7) cell_B1 fz h1 h2 h0 (by norm_num; linarith) (by norm_num; linarith) (by norm_num) (by norm_num) (by norm_num)
    refine m.mono ?_
    norm_num at l ⊢; linarith
  rcases le_total (val z) (1 / 2) with k2 | k2
  · obtain ⟨m, l, -⟩ := ratB_cell (c := 4.2e-7) cell_B2 fz h1 h2 h0 (by norm_num; linarith) (by norm_num; linarith) (by norm_num) (by norm_num) (by norm_num)
    refine m.mono ?_
    norm_num at l ⊢; linarith
  rcases le_total (val z) 1 with k3 | k3
  · obtain ⟨m, l, -⟩ := ratB_cell (c := 6e-7) cell_B3 fz h1 h2 h0 (by norm_num; linarith) (by norm_num; linarith) (by norm_num) (by norm_num) (by norm_num)
    refine m.mono ?_
    norm_num at l ⊢; linarith
  · obtain ⟨m, l, -⟩ := ratB_cell (c := 1.6e-6) cell_B4 fz h1 h2 h0 (by norm_num; linarith) (by norm_num; linarith) (by norm_num) (by norm_num) (by norm_num)
    refine m.mono ?_
    norm_num at l ⊢; linarith

theorem log_six : |Real.log 6 - lgd4| ≤ 9e-7 := by
  have k : F32.Finite (lit 6) ∧ val (lit 6) = 6 ∧ |val (log (lit 6)) - lgd4| ≤ 1e-7 := by decide +kernel
  obtain ⟨f, e⟩ := C82_log_partial (lit 6) k.1 (by rw [k.2.1]; norm_num)
  rw [k.2.1, Rat.cast_ofNat] at e
  have k2 : ((|val (log (lit 6)) - lgd4| : ℚ) : ℝ) ≤ ((1e-7 : ℚ) : ℝ) := by exact_mod_cast k.2.2
  have hp : 0 ≤ Real.log 6 := Real.log_nonneg (by norm_num)
  have hd : (lgd4 : ℝ) ≤ 1.8 := by unfold lgd4; norm_num
  push_cast at k2
  rw [abs_of_nonneg hp] at e
  rw [abs_le] at e k2 ⊢
  norm_num at e k2 hd ⊢
  constructor <;> linarith

theorem log_fac : |Real.log 39916800 - (lgd4 + 8 * (peval lgN4 8 / peval lgD4 8))| ≤ 9.5e-6 := by
  have k : F32.Finite (lit 39916800) ∧ val (lit 39916800) = 39916800 ∧ |val (log (lit 39916800)) - 17.5023078| ≤ 1e-6 := by decide +kernel
  obtain ⟨f, e⟩ := C82_log_partial (lit 39916800) k.1 (by rw [k.2.1]; norm_num)
  rw [k.2.1, Rat.cast_ofNat] at e
  have k2 : ((|val (log (lit 39916800)) - 17.5023078| : ℚ) : ℝ) ≤ ((1e-6 : ℚ) : ℝ) := by exact_mod_cast k.2.2
  have hp : 0 ≤ Real.log 39916800 := Real.log_nonneg (by norm_num)
  have hd : |lgd4 + 8 * (peval lgN4 8 / peval lgD4 8) - 17.5023078| ≤ 1e-6 := by
    simp only [lgN4, lgD4, lgd4, peval_cons, peval_nil]
    norm_num [abs_le]
  push_cast at k2
  rw [abs_of_nonneg hp] at e
  rw [abs_le] at e k2 hd ⊢
  norm_num at e k2 hd ⊢
  constructor <;> linarith

/-- The third rational function. -/
theorem lgC_close {z : ℝ} (h1 : 0 ≤ z) (h2 : z ≤ 8) :
    |lgd4 + z * (peval lgN4 z / peval lgD4 z) - Real.log (Real.Gamma (z + 4))| ≤ 9e-7 + 1.9e-6 * z := by
  have g4 : Real.Gamma 4 = 6 := by
    rw [show (4 : ℝ) = (3 : ℕ) + 1 by norm_num, Real.Gamma_nat_eq_factorial]; norm_num [Nat.factorial]
  have g12 : Real.Gamma 12 = 39916800 := by
    rw [show (12 : ℝ) = (11 : ℕ) + 1 by norm_num, Real.Gamma_nat_eq_factorial]; norm_num [Nat.factorial]
  have hp : ∀ z : ℝ, 0 ≤ z → z ≤ 8 → peval lgD4 z ≠ 0 := fun z h1 h2 =>
    (pos_of_check lgC_pos (by norm_num) (by norm_num) (by norm_num) (by norm_num; linarith) (by norm_num; linarith)).ne'
  have e0 := log_six
  have e8 := log_fac
  rcases eq_or_lt_of_le h1 with rfl | h1
  · rw [zero_mul, zero_add, add_zero, g4, abs_sub_comm]; exact e0.trans (by norm_num)
  rcases eq_or_lt_of_le h2 with rfl | h2
  · rw [show (8 : ℝ) + 4 = 12 by norm_num, g12, abs_sub_comm]; exact e8.trans (by norm_num)
  have t := quo_three (p := lgG lgd4 lgN4 lgD4) (x := 0) (y := z) (w := 8) (by norm_num) (by norm_num) (by norm_num) lgC_pos lgC_1 lgC_2 (by norm_num) (by norm_num)
    h1 h2 (by norm_num)
  unfold tri at t
  beta_reduce at t
  rw [lgG_eval (hp z h1.le h2.le), lgG_eval (hp 0 le_rfl (by norm_num)), lgG_eval (hp 8 (by norm_num) le_rfl), zero_mul, add_zero,
    show (0 : ℝ) + ((4 : ℚ) : ℝ) = 4 by norm_num, show (8 : ℝ) + ((4 : ℚ) : ℝ) = 12 by norm_num, g4, g12, Rat.cast_ofNat] at t
  generalize Real.log (Real.Gamma (z + 4)) = G at *
  generalize (lgd4 : ℝ) + z * (peval lgN4 z / peval lgD4 z) = v at *
  generalize (lgd4 : ℝ) + 8 * (peval lgN4 8 / peval lgD4 8) = v8 at *
  generalize Real.log 6 = L6 at *
  generalize Real.log 39916800 = L8 at *
  have q : (8 - z) * (z - 0) * (8 - 0) ≤ 8 * (8 * z) := by nlinarith
  have t2 := t.trans (mul_le_mul_of_nonneg_left q (by norm_num))
  have a1 : |(8 - z) * (lgd4 - L6)| ≤ (8 - z) * 9e-7 := by
    rw [abs_mul, abs_of_nonneg (by linarith), abs_sub_comm]; exact mul_le_mul_of_nonneg_left e0 (by linarith)
  have a2 : |(z - 0) * (v8 - L8)| ≤ z * 9.5e-6 := by
    rw [abs_mul, sub_zero, abs_of_nonneg (by linarith), abs_sub_comm]; exact mul_le_mul_of_nonneg_left e8 (by linarith)
  rw [abs_le] at t2 a1 a2 ⊢
  norm_num at t2 a1 a2 ⊢
  constructor <;> linarith

theorem ratC_cell {a b : ℤ} {M : ℕ} {Z L R E1 E2 vlo vhi e : ℚ} (h : cellOk lgP4 lgQ4 lgN4 lgD4 lgd4 M a b Z L R E1 E2 vlo vhi e = true)
    {z : BitVec 32} (fz : F32.Finite z) (h1 : 0 ≤ val z) (h2 : val z ≤ 8) (k1 : (a : ℚ) / M ≤ val z) (k2 : val z ≤ (b : ℚ) / M)
    (hc : e + (9e-7 + 1.9e-6 * (b / M)) * 1.00001 ≤ 4.5e-6 * vlo) :
    Near (ratC z) (Real.log (Real.Gamma (val z + 4))) (4.5e-6 * |Real.log (Real.Gamma (val z + 4))|) := by
  have r1 : (0 : ℝ) ≤ (val z : ℝ) := by exact_mod_cast h1
  have r2 : (val z : ℝ) ≤ 8 := by exact_mod_cast h2
  have rb : (val z : ℝ) ≤ (b : ℝ) / M := by exact_mod_cast k2
  obtain ⟨n, v1, v2⟩ := cell_near h c_d4 c_minus (by norm_num) lgN4_eq lgD4_eq fz k1 k2
  have c := lgC_close r1 r2
  have hcr : ((e + (9e-7 + 1.9e-6 * (b / M)) * 1.00001 : ℚ) : ℝ) ≤ ((4.5e-6 * vlo : ℚ) : ℝ) := by exact_mod_cast hc
  refine ⟨n.fin, ?_⟩
  have ne := n.err
  unfold ratC
  generalize (val (add (lit 1.791759469228055000094023e+0) (mul z (div (hornerAdd z lgP4 (lit 0)) (hornerAdd z lgQ4 (negate (lit 1)))))) : ℝ) = r at *
  generalize (lgd4 : ℝ) + val z * (peval lgN4 (val z) / peval lgD4 (val z)) = v at *
  generalize Real.log (Real.Gamma (val z + 4)) = G at *
  push_cast at hcr
  have g := le_abs_self G
  rw [abs_le] at ne c ⊢
  norm_num at ne c hcr ⊢
  constructor <;> linarith

/-- Between 4 and 12. -/
theorem ratC_near {z : BitVec 32} (fz : F32.Finite z) (h1 : 0 ≤ val z) (h2 : val z ≤ 8) :
    Near (ratC z) (Real.log (Real.Gamma (val z + 4))) (4.5e-6 * |Real.log (Real.Gamma (val z + 4))|) := by
  rcases le_total (val z) 1 with k | k
  · exact ratC_cell cell_C0 fz h1 h2 (by norm_num; linarith) (by norm_num; linarith) (by norm_num)
  rcases le_total (val z) 2 with k2 | k2
  · exact ratC_cell cell_C1 fz h1 h2 (by norm_num; linarith) (by norm_num; linarith) (by norm_num)
  rcases le_total (val z) 4 with k3 | k3
  · exact ratC_cell cell_C2 fz h1 h2 (by norm_num; linarith) (by norm_num; linarith) (by norm_num)
  rcases le_total (val z) 6 with k4 | k4
  · exact ratC_cell cell_C3 fz h1 h2 (by norm_num; linarith) (by norm_num; linarith) (by norm_num)
  · exact ratC_cell cell_C4 fz h1 h2 (by norm_num; linarith) (by norm_num; linarith) (by norm_num)

/-! ## Large and small arguments -/

theorem large_near {y : BitVec 32} (fy : F32.Finite y) (h1 : 12 ≤ (val y : ℝ)) (h2 : (val y : ℝ) ≤ 172) :
    Near (add (add (div (hornerDiv (mul y y) stirlingC (lit 5.7083835261e-03)) y) (sub FFP_LN_SQRT_2PI (mul (lit 0.5) (log y))))
      (mul y (sub (log y) (lit 1)))) (Real.log (Real.Gamma (val y))) (2e-6 * |Real.log (Real.Gamma (val y))|) := by
  have c := stirling_corr fy h1 h2
  have hy : 2 ^ (-126 : ℤ) ≤ val y := by
    have : (12 : ℚ) ≤ val y := by exact_mod_cast h1
    exact le_trans (by norm_num) this
  obtain ⟨fl, el⟩ := C82_log_partial y fy hy
  obtain ⟨l1, l2⟩ := log_range h1 h2
  have g := log_Gamma_near h1
  obtain ⟨fc, ec⟩ := ln2pi
  have nc : Near FFP_LN_SQRT_2PI (Real.log (2 * Real.pi) / 2) 8e-7 := ⟨fc, ec⟩
  have hc : 0.9 ≤ Real.log (2 * Real.pi) / 2 ∧ Real.log (2 * Real.pi) / 2 ≤ 0.93 := by
    have k : F32.Finite FFP_LN_SQRT_2PI ∧ |val FFP_LN_SQRT_2PI - 0.919| ≤ 0.001 := by decide +kernel
    have : ((|val FFP_LN_SQRT_2PI - 0.919| : ℚ) : ℝ) ≤ ((0.001 : ℚ) : ℝ) := by exact_mod_cast k.2
    push_cast at this
    rw [abs_le] at this ec
    norm_num at this ec ⊢
    constructor <;> linarith
  have hh : Near (lit 0.5) (1 / 2) 0 := by
    have k : F32.Finite (lit 0.5) ∧ val (lit 0.5) = 1 / 2 := by decide +kernel
    refine ⟨k.1, ?_⟩
    rw [k.2]; norm_num
  have h1f : Near (lit 1) 1 0 := by simpa [c_one.2] using Near.self c_one.1
  rw [abs_of_nonneg (a := Real.log (val y)) (by norm_num at l1; linarith)] at el
  have nl : Near (log y) (Real.log (val y)) (4.2e-7 * Real.log (val y)) := ⟨fl, el⟩
  unfold stir at g
  have hd : 0 ≤ 1 / (12 * (val y : ℝ)) ∧ 1 / (12 * (val y : ℝ)) ≤ 0.007 := by
    refine ⟨by apply div_nonneg <;> linarith, ?_⟩
    rw [div_le_iff₀ (by linarith)]; norm_num; linarith
  generalize 1 / (12 * (val y : ℝ)) = d at *
  generalize Real.log (2 * Real.pi) / 2 = K at *
  generalize log y = lf at *
  generalize Real.log (Real.Gamma (val y)) = LG at *
  generalize div (hornerDiv (mul y y) stirlingC (lit 5.7083835261e-03)) y = df at *
  have ny := Near.self fy
  generalize hY : (val y : ℝ) = Y at *
  generalize Real.log Y = l at *
  obtain ⟨hd1, hd2⟩ := hd
  obtain ⟨hc1, hc2⟩ := hc
  rw [abs_le] at g
  norm_num at l1 l2 hd2 hc1 hc2 g
  have p1 : 2.42 * Y ≤ Y * l := by norm_num; nlinarith
  have p2 : Y * l ≤ 5.6 * Y := by norm_num; nlinarith
  have p3 : 12 * l ≤ Y * l := by nlinarith
  norm_num at p1 p2
  have n1 := Near.mul (e' := 2.5e-7 * l) (1 / 2) l (2.1e-7 * l) (l * 0.51) hh nl (by norm_num) (by rw [abs_of_nonneg (by linarith)]) (by norm_num; linarith)
    (by rw [abs_of_nonneg (by linarith)]; norm_num; linarith) (by norm_num; linarith) (by norm_num; linarith)
  have n2 := Near.sub (e' := 8e-7 + 2.5e-7 * l + 1.4e-7) 2 nc n1 (by
    rw [abs_of_nonpos (by linarith)]; norm_num; linarith) (by norm_num) (by norm_num; linarith)
  have n3 := Near.add (e' := 3.8e-6 + 8e-7 + 2.5e-7 * l + 2.8e-7) 2 c n2 (by
    rw [abs_of_nonpos (by linarith)]; norm_num; linarith) (by norm_num) (by norm_num; linarith)
  have n4 := Near.sub (e' := 4.9e-7 * l) (l - 0.9) nl h1f (by rw [abs_of_nonneg (by linarith)]; norm_num; linarith) (by norm_num; linarith) (by norm_num; linarith)
  have n5 := Near.mul (e' := 5.6e-7 * (Y * l)) Y l (4.9e-7 * (Y * l)) (1.001 * (Y * l)) ny n4 (by rw [abs_of_nonneg (by linarith)])
    (by rw [abs_of_nonneg (by linarith)]; linarith) (by norm_num; nlinarith) (by
      rw [abs_of_nonneg (mul_nonneg (by linarith) (by linarith))]; norm_num; nlinarith) (by norm_num; linarith) (by norm_num; linarith)
  have q0 : 0.53 * (Y * l) ≤ LG := by norm_num; linarith
  norm_num at q0
  have n6 := Near.add (e' := 9e-7 * (Y * l)) (Y * l) n3 n5 (by
    rw [abs_of_nonneg (by linarith)]; norm_num; linarith) (by norm_num; linarith) (by norm_num; linarith)
  refine ⟨n6.fin, ?_⟩
  have e := n6.err
  rw [abs_of_nonneg (a := LG) (by linarith)]
  rw [abs_le] at e ⊢
  norm_num at e ⊢
  constructor <;> linarith

theorem log_Gamma_tiny {x : ℝ} (h0 : 0 < x) (h1 : x ≤ 1 / 8388608) : |-Real.log x - Real.log (Real.Gamma x)| ≤ 7.2e-7 := by
  have t := tiny_near h0 h1
  have gp := Real.Gamma_pos_of_pos h0
  have e : Real.log (x * Real.Gamma x) = Real.log x + Real.log (Real.Gamma x) := Real.log_mul h0.ne' gp.ne'
  have tp : 0 < x * Real.Gamma x := by positivity
  have k : |x * Real.Gamma x - 1| ≤ 7.1e-7 * (x * Real.Gamma x) := by
    have : x * Real.Gamma x - 1 = x * (Real.Gamma x - 1 / x) := by field_simp
    rw [this, abs_mul, abs_of_pos h0]
    linarith [mul_le_mul_of_nonneg_left t h0.le]
  generalize x * Real.Gamma x = u at *
  have a1 := Real.log_le_sub_one_of_pos tp
  have a2 := Real.one_sub_inv_le_log_of_pos tp
  have a3 : u⁻¹ ≤ 1 + 7.1e-7 := by
    rw [inv_le_iff_one_le_mul₀ tp]
    rw [abs_le] at k; linarith
  rw [abs_le] at k ⊢
  norm_num at k a3 ⊢
  constructor <;> linarith

/-! ## The property -/

theorem c_lim : F32.Finite (lit 171.624) ∧ val (lit 171.624) ≤ 172 := by decide +kernel
theorem c_half' : F32.Finite (lit 0.5) ∧ val (lit 0.5) = 1 / 2 := by decide +kernel
theorem c_15 : F32.Finite (lit 1.5) ∧ val (lit 1.5) = 3 / 2 := by decide +kernel
theorem c_68 : F32.Finite (lit 0.6796875) ∧ val (lit 0.6796875) = 87 / 128 := by decide +kernel
theorem c_two' : F32.Finite (lit 2) ∧ val (lit 2) = 2 := by decide +kernel
theorem c_four' : F32.Finite (lit 4) ∧ val (lit 4) = 4 := by decide +kernel
theorem c_12 : F32.Finite (lit 12) ∧ val (lit 12) = 12 := by decide +kernel
theorem c_big' : F32.Finite (lit 4294967296.87842273712158203125) ∧ val (lit 4294967296.87842273712158203125) = 4294967296 := by decide +kernel

/-- The branches as one formula. -/
theorem lgammaPositive_eq {x : BitVec 32} (hx : F32.Finite x) (h : val x ≤ val (lit 171.624)) :
    lgammaPositive x =
      if val x ≤ 2 ^ (-23 : ℤ) then negate (log x)
      else if val x ≤ 1 / 2 then add (negate (log x)) (mul x (ratA x))
      else if val x < 87 / 128 then
        add (negate (log x)) (mul (sub (sub x (lit 0.5)) (lit 0.5)) (ratB (sub (sub x (lit 0.5)) (lit 0.5))))
      else if val x ≤ 3 / 2 then add (lit 0) (mul (sub (sub x (lit 0.5)) (lit 0.5)) (ratA (sub (sub x (lit 0.5)) (lit 0.5))))
      else if val x ≤ 4 then mul (sub x (lit 2)) (ratB (sub x (lit 2)))
      else if val x ≤ 12 then ratC (sub x (lit 4))
      else add (add (div (hornerDiv (mul x x) stirlingC (lit 5.7083835261e-03)) x) (sub FFP_LN_SQRT_2PI (mul (lit 0.5) (log x))))
        (mul x (sub (log x) (lit 1))) := by
  have hl : val (lit 171.624) ≤ 172 := c_lim.2
  unfold lgammaPositive
  simp only [lt_fin c_lim.1 hx, le_fin hx c_eps.1, le_fin hx c_15.1, le_fin hx c_half'.1, lt_fin hx c_68.1, le_fin c_68.1 hx, le_fin hx c_four'.1,
    le_fin hx c_12.1, le_fin hx c_big'.1, c_eps.2, c_15.2, c_half'.2, c_68.2, c_four'.2, c_12.2, c_big'.2, decide_eq_true_eq, Bool.or_eq_true]
  rw [if_neg (by linarith)]
  by_cases k1 : val x ≤ 2 ^ (-23 : ℤ)
  · rw [if_pos k1, if_pos k1]
  rw [if_neg k1, if_neg k1]
  by_cases k2 : val x ≤ 1 / 2
  · rw [if_pos k2, if_pos (by linarith), if_pos (Or.inl k2), if_pos (by linarith)]; rfl
  rw [if_neg k2]
  by_cases k3 : val x < 87 / 128
  · rw [if_pos k3, if_pos (by linarith), if_neg (by rintro (h | h) <;> linarith), if_pos k3]; rfl
  simp only [if_neg k3]
  by_cases k4 : val x ≤ 3 / 2
  · rw [if_pos k4, if_pos k4, if_pos (Or.inr (by linarith))]; rfl
  rw [if_neg k4, if_neg k4]
  by_cases k5 : val x ≤ 4
  · rw [if_pos k5, if_pos k5]; rfl
  rw [if_neg k5, if_neg k5]
  by_cases k6 : val x ≤ 12
  · rw [if_pos k6, if_pos k6]; rfl
  rw [if_neg k6, if_neg k6, if_pos (by linarith)]

/-- `x - 1` is exact between a half and one and a half. -/
theorem minus_one {x : BitVec 32} (hx : F32.Finite x) (h1 : 1 / 2 ≤ val x) (h2 : val x ≤ 3 / 2) :
    F32.Finite (sub (sub x (lit 0.5)) (lit 0.5)) ∧ val (sub (sub x (lit 0.5)) (lit 0.5)) = val x - 1 ∧
    (val x - 1 = 0 ∨ 1 / 33554432 ≤ |val x - 1|) := by
  obtain ⟨k, hk⟩ := val_multiple hx (-1) (by norm_num; linarith)
  have hl : val (lit 0.5) = ((8388608 : ℤ) : ℚ) * 2 ^ (-1 - 23 : ℤ) := by rw [c_half'.2]; norm_num
  norm_num at hk hl
  have b1 : 8388608 ≤ k := by
    have : (8388608 : ℚ) ≤ k := by rw [hk] at h1; linarith
    exact_mod_cast this
  have b2 : k ≤ 25165824 := by
    have : (k : ℚ) ≤ 25165824 := by rw [hk] at h2; linarith
    exact_mod_cast this
  obtain ⟨f, v⟩ := sub_multiple (t := -24) (k := k) (l := 8388608) hx c_half'.1 (by rw [hk]; norm_num) (by rw [c_half'.2]; norm_num) (by norm_num)
    (by norm_num) (by rw [abs_le]; omega)
  obtain ⟨f2, v2⟩ := sub_multiple (t := -24) (k := k - 8388608) (l := 8388608) f c_half'.1 (by rw [v, hk, c_half'.2]; push_cast; ring)
    (by rw [c_half'.2]; norm_num) (by norm_num) (by norm_num) (by rw [abs_le]; omega)
  refine ⟨f2, by rw [v2, v, c_half'.2]; ring, ?_⟩
  rcases eq_or_ne k 16777216 with rfl | h0
  · left; rw [hk]; norm_num
  · right
    have e : val x - 1 = ((k - 16777216 : ℤ) : ℚ) / 16777216 := by rw [hk]; push_cast; ring
    have : (1 : ℤ) ≤ |k - 16777216| := Int.one_le_abs (by omega)
    have : (1 : ℚ) ≤ |((k - 16777216 : ℤ) : ℚ)| := by exact_mod_cast this
    rw [e, abs_div]
    norm_num at this ⊢
    linarith

/-- Addition of the logarithm. -/
theorem plus_log {x t : BitVec 32} {G E W : ℝ} (hx : F32.Finite x) (h0 : 2 ^ (-126 : ℤ) ≤ val x) (hx1 : val x < 1) (n : Near t G E) (hG : |G| ≤ W) (hE : E ≤ 1)
    (hW : W ≤ 1) : Near (add (negate (log x)) t) (-Real.log (val x) + G) (4.2e-7 * -Real.log (val x) + E +
      (-Real.log (val x) * 1.000001 + W + E) / 16777216 + 1e-45) ∧ -Real.log (val x) - W ≤ -Real.log (val x) + G := by
  have xp : 0 < val x := lt_of_lt_of_le (by positivity) h0
  have xr : (0 : ℝ) < (val x : ℝ) := by exact_mod_cast xp
  have x1 : (val x : ℝ) < 1 := by exact_mod_cast hx1
  have h0r : (2 : ℝ) ^ (-126 : ℤ) ≤ (val x : ℝ) := by
    have : ((2 ^ (-126 : ℤ) : ℚ) : ℝ) ≤ ((val x : ℚ) : ℝ) := by exact_mod_cast h0
    norm_num at this ⊢; linarith
  have hb : -Real.log (val x : ℝ) ≤ 88 := by
    have := Real.log_le_log (by positivity) h0r
    rw [Real.log_zpow] at this
    have b := Real.log_two_lt_d9
    push_cast at this
    norm_num at b
    linarith
  have hn : 0 ≤ -Real.log (val x : ℝ) := by linarith [Real.log_neg xr x1]
  obtain ⟨f, e⟩ := C82_log_partial x hx h0
  rw [abs_of_nonpos (a := Real.log (val x : ℝ)) (by linarith)] at e
  have nl : Near (log x) (Real.log (val x)) (4.2e-7 * -Real.log (val x)) := ⟨f, e⟩
  rw [abs_le] at hG
  refine ⟨Near.add (-Real.log (val x) * 1.000001 + W + E) nl.negate n ?_ ?_ le_rfl, by linarith⟩
  · have : |-Real.log (val x : ℝ) + G| ≤ -Real.log (val x) + W := by rw [abs_le]; constructor <;> linarith
    norm_num at this ⊢
    linarith
  · norm_num; linarith

/-- **C152** On all normal positive arguments up to the limit of the function, `lgamma` is finite and its relative error is at most five
millionths — also near the zeros of the logarithm of the gamma function at 1 and 2. -/
theorem C152_lgamma (x : BitVec 32) (hx : F32.Finite x) (h0 : 2 ^ (-126 : ℤ) ≤ val x) (h1 : val x ≤ val (lit 171.624)) :
    F32.Finite (lgamma x) ∧ |(val (lgamma x) : ℝ) - Real.log (Real.Gamma (val x))| ≤ 5e-6 * |Real.log (Real.Gamma (val x))| := by
  have xp : 0 < val x := lt_of_lt_of_le (by positivity) h0
  have xr : (0 : ℝ) < (val x : ℝ) := by exact_mod_cast xp
  suffices h : Near (lgamma x) (Real.log (Real.Gamma (val x))) (5e-6 * |Real.log (Real.Gamma (val x))|) from ⟨h.fin, h.err⟩
  have special : val x = 1 ∨ val x = 2 → Near (lgamma x) (Real.log (Real.Gamma (val x))) (5e-6 * |Real.log (Real.Gamma (val x))|) := fun h => by
    obtain ⟨f, v⟩ := (C101_special x).2.2.2 hx h
    refine ⟨f, ?_⟩
    rw [v]
    rcases h with h | h <;> rw [h] <;> norm_num [Real.Gamma_two]
  rw [lgamma_pos hx xp, lgammaPositive_eq hx h1] at *
  have gstep : Real.log (Real.Gamma (val x)) = -Real.log (val x) + Real.log (Real.Gamma (val x + 1)) := by
    rw [Real.Gamma_add_one xr.ne', Real.log_mul xr.ne' (Real.Gamma_pos_of_pos xr).ne']; ring
  have ln2 := Real.log_two_gt_d9
  norm_num at ln2
  split_ifs at * with k1 k2 k3 k4 k5 k6
  · have k1r : (val x : ℝ) ≤ 1 / 8388608 := by
      have : ((val x : ℚ) : ℝ) ≤ ((2 ^ (-23 : ℤ) : ℚ) : ℝ) := by exact_mod_cast k1
      norm_num at this ⊢; linarith
    obtain ⟨f, e⟩ := C82_log_partial x hx h0
    have t := log_Gamma_tiny xr k1r
    have lo : 15 ≤ -Real.log (val x : ℝ) := by
      have := Real.log_le_log xr k1r
      rw [one_div, Real.log_inv, show (8388608 : ℝ) = 2 ^ 23 by norm_num, Real.log_pow] at this
      push_cast at this; linarith
    rw [abs_of_nonpos (a := Real.log (val x : ℝ)) (by linarith)] at e
    refine ⟨finite_negate.2 f, ?_⟩
    rw [val_negate]
    push_cast
    rw [abs_le] at e t
    norm_num at e t
    rw [abs_of_nonneg (a := Real.log (Real.Gamma _)) (by linarith), abs_le]
    norm_num
    constructor <;> linarith
  · rw [not_le] at k1
    have k2r : (val x : ℝ) ≤ 1 / 2 := by
      have : ((val x : ℚ) : ℝ) ≤ ((1 / 2 : ℚ) : ℝ) := by exact_mod_cast k2
      norm_num at this ⊢; linarith
    obtain ⟨n, -, l2⟩ := ratA_pos hx (by norm_num at k1 ⊢; linarith) k2
    obtain ⟨m, lo⟩ := plus_log hx h0 (by linarith) n l2 (by norm_num; linarith) (by norm_num)
    rw [← gstep] at m lo
    have hl : 0.69 ≤ -Real.log (val x : ℝ) := by
      have := Real.log_le_log xr k2r
      rw [one_div, Real.log_inv] at this
      norm_num; linarith
    norm_num at lo hl
    refine m.mono ?_
    rw [abs_of_nonneg (by linarith)]
    norm_num
    linarith
  · rw [not_le] at k2
    have k2r : 1 / 2 < (val x : ℝ) := by
      have : ((1 / 2 : ℚ) : ℝ) < ((val x : ℚ) : ℝ) := by exact_mod_cast k2
      norm_num at this ⊢; linarith
    have k3r : (val x : ℝ) < 87 / 128 := by
      have : ((val x : ℚ) : ℝ) < ((87 / 128 : ℚ) : ℝ) := by exact_mod_cast k3
      norm_num at this ⊢; linarith
    obtain ⟨fz, vz, -⟩ := minus_one hx k2.le (by linarith)
    generalize sub (sub x (lit 0.5)) (lit 0.5) = z at *
    obtain ⟨n, -, l2⟩ := ratB_low fz (by linarith) (by linarith)
    have vr : (val z : ℝ) = val x - 1 := by rw [vz]; push_cast; rfl
    rw [vr, show (val x : ℝ) - 1 + 2 = val x + 1 by ring, abs_of_neg (a := (val x : ℝ) - 1) (by linarith)] at n l2
    obtain ⟨m, lo⟩ := plus_log (W := 0.16) hx h0 (by linarith) n (by norm_num at l2 ⊢; linarith) (by norm_num; linarith) (by norm_num)
    rw [← gstep] at m lo
    have hl : 0.32 ≤ -Real.log (val x : ℝ) := by
      have := Real.log_le_sub_one_of_pos xr
      norm_num; linarith
    norm_num at lo hl
    refine m.mono ?_
    rw [abs_of_nonneg (by linarith)]
    norm_num
    linarith
  · rw [not_lt] at k3
    obtain ⟨fz, vz, hz⟩ := minus_one hx (by linarith) k4
    rcases hz with hz | hz
    · exact special (Or.inl (by linarith))
    generalize sub (sub x (lit 0.5)) (lit 0.5) = z at *
    have vr : (val z : ℝ) = val x - 1 := by rw [vz]; push_cast; rfl
    have key : Near (mul z (ratA z)) (Real.log (Real.Gamma (val x))) (4.5e-6 * |Real.log (Real.Gamma (val x))|) := by
      rw [show (val x : ℝ) = val z + 1 by rw [vr]; ring]
      rw [← vz] at hz
      rcases le_total 0 (val z) with hs | hs
      · rw [abs_of_nonneg hs] at hz
        obtain ⟨n, l, -⟩ := ratA_pos fz hz (by linarith)
        refine n.mono ?_
        have : (0 : ℝ) ≤ (val z : ℝ) := by exact_mod_cast hs
        norm_num at l ⊢; linarith
      · rw [abs_of_nonpos hs] at hz
        exact ratA_neg fz (by linarith) (by linarith)
    obtain ⟨f0, v0⟩ := add_exact c_zero.1 key.fin key.fin (by rw [c_zero.2, zero_add])
    refine ⟨f0, ?_⟩
    rw [v0]
    refine key.err.trans ?_
    have := abs_nonneg (Real.log (Real.Gamma (val x : ℝ)))
    norm_num; linarith
  · rw [not_le] at k4
    have c2 : val (lit 2) = ((16777216 : ℤ) : ℚ) * 2 ^ ((0 : ℤ) - 23) := by rw [c_two'.2]; norm_num
    obtain ⟨fz, vz, hz⟩ := sub_const hx c_two'.1 0 (by norm_num; linarith) c2 (by norm_num) (by norm_num) (by
      rw [c_two'.2, abs_le]; norm_num; constructor <;> linarith)
    rw [c_two'.2] at vz hz
    rcases hz with hz | hz
    · exact special (Or.inr (by linarith))
    generalize sub x (lit 2) = z at *
    have vr : (val z : ℝ) = val x - 2 := by rw [vz]; push_cast; rfl
    have n := ratB_near fz (by linarith) (by linarith) (by rw [vz]; norm_num at hz ⊢; linarith)
    rw [vr, sub_add_cancel] at n
    refine n.mono ?_
    have := abs_nonneg (Real.log (Real.Gamma (val x : ℝ)))
    norm_num; linarith
  · rw [not_le] at k5
    have c4 : val (lit 4) = ((8388608 : ℤ) : ℚ) * 2 ^ ((2 : ℤ) - 23) := by rw [c_four'.2]; norm_num
    obtain ⟨fz, vz, -⟩ := sub_const hx c_four'.1 2 (by norm_num; linarith) c4 (by norm_num) (by norm_num) (by
      rw [c_four'.2, abs_le]; norm_num; constructor <;> linarith)
    rw [c_four'.2] at vz
    generalize sub x (lit 4) = z at *
    have vr : (val z : ℝ) = val x - 4 := by rw [vz]; push_cast; rfl
    have n := ratC_near fz (by linarith) (by linarith)
    rw [vr, sub_add_cancel] at n
    refine n.mono ?_
    have := abs_nonneg (Real.log (Real.Gamma (val x : ℝ)))
    norm_num; linarith
  · rw [not_le] at k6
    have hl := c_lim.2
    refine (large_near hx (by exact_mod_cast k6.le) (by exact_mod_cast h1.trans hl)).mono ?_
    have := abs_nonneg (Real.log (Real.Gamma (val x : ℝ)))
    norm_num; linarith

/-- A case of the theorem above, next to the zero at 1. -/
example : F32.Finite (lit 1.0000005) ∧ 2 ^ (-126 : ℤ) ≤ val (lit 1.0000005) ∧ val (lit 1.0000005) ≤ val (lit 171.624) ∧ val (lit 1.0000005) ≠ 1 := by
  decide +kernel

/-- **C152, negation.** For subnormal arguments the result is wrong: at the smallest positive number it is below 89 instead of above 103. -/
theorem C152_false : val 0x00000001#32 = 2 ^ (-149 : ℤ) ∧ val (lgamma 0x00000001#32) < 89 ∧
    103 < Real.log (Real.Gamma (val 0x00000001#32)) := by
  have k : val 0x00000001#32 = 2 ^ (-149 : ℤ) ∧ val (lgamma 0x00000001#32) < 89 := by decide +kernel
  refine ⟨k.1, k.2, ?_⟩
  rw [k.1]
  have e : (((2 : ℚ) ^ (-149 : ℤ) : ℚ) : ℝ) = (2 : ℝ) ^ (-149 : ℤ) := by norm_num
  rw [e]
  have t := log_Gamma_tiny (x := (2 : ℝ) ^ (-149 : ℤ)) (by positivity) (by norm_num)
  rw [Real.log_zpow] at t
  have b := Real.log_two_gt_d9
  push_cast at t
  rw [abs_le] at t
  generalize Real.log (Real.Gamma _) = g at *
  norm_num at t b
  linarith

end Verif.Ffmath
