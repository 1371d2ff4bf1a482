import Verif.Ffmath.Mod
import Verif.F32.Error
import Verif.F32.Poly
import Verif.Ffmath.Sqrt
import Mathlib.Analysis.Complex.ExponentialBounds

/-!
# `exp2` (C79)

IEEE binary32 arithmetic.
-/

namespace Verif.Ffmath

open Verif F32

theorem near_lit {c : BitVec 32} {q e : ℚ} (h : Finite c ∧ |val c - q| ≤ e) {q' e' : ℝ} (hq : (q : ℝ) = q')
    (he : (e : ℝ) = e') : Near c q' e' := ⟨h.1, by
  subst hq he
  have := h.2
  exact_mod_cast this⟩

/-- One step `a*f + c` of a Horner scheme. -/
theorem horner {a f c : BitVec 32} {p q k d g e e' : ℝ} (P Q K D D1 : ℝ) (ha : Near a p d) (hf : Near f q g)
    (hc : Near c k e) (hP : |p| ≤ P) (hQ : |q| ≤ Q) (hK : |k| ≤ K) (hD : P * g + Q * d + d * g ≤ D)
    (hD1 : D + (P * Q + D) / 16777216 + 1e-45 ≤ D1) (hB : P * Q + K + D1 + e ≤ 1e37)
    (he : D1 + e + (P * Q + K + D1 + e) / 16777216 + 1e-45 ≤ e') : Near (add (mul a f) c) (p * q + k) e' := by
  have g0 : 0 ≤ g := (abs_nonneg _).trans hf.err
  have e0 : 0 ≤ e := (abs_nonneg _).trans hc.err
  have d0 : 0 ≤ d := (abs_nonneg _).trans ha.err
  have P0 : 0 ≤ P := (abs_nonneg _).trans hP
  have Q0 : 0 ≤ Q := (abs_nonneg _).trans hQ
  have K0 : 0 ≤ K := (abs_nonneg _).trans hK
  have pq : |p * q| ≤ P * Q := by rw [abs_mul]; exact mul_le_mul hP hQ (abs_nonneg _) P0
  have PQ : 0 ≤ P * Q := mul_nonneg P0 Q0
  have D0 : 0 ≤ D := le_trans (by positivity) hD
  have D10 : D ≤ D1 := by
    refine le_trans ?_ hD1
    have : 0 ≤ (P * Q + D) / 16777216 := by positivity
    have : (0 : ℝ) ≤ 1e-45 := by norm_num
    linarith
  have m := Near.mul P Q D (P * Q + D) ha hf hP hQ hD (by linarith) (by norm_num at hB ⊢; linarith) hD1
  refine Near.add (P * Q + K + D1 + e) m hc ?_ (hB.trans (by norm_num)) he
  have := abs_add_le (p * q) k
  linarith

theorem horner' {a f c : BitVec 32} {p q k d g e e' : ℝ} (P Q K D D1 : ℝ) (ha : Near a p d) (hf : Near f q g)
    (hc : Near c k e) (hP : |p| ≤ P) (hQ : |q| ≤ Q) (hK : |k| ≤ K) (hD : P * g + Q * d + d * g ≤ D)
    (hD1 : D + (P * Q + D) / 16777216 + 1e-45 ≤ D1) (hB : P * Q + K + D1 + e ≤ 1e37)
    (he : D1 + e + (P * Q + K + D1 + e) / 16777216 + 1e-45 ≤ e') {P' : ℝ} (hP' : P * Q + K ≤ P') :
    Near (add (mul a f) c) (p * q + k) e' ∧ |p * q + k| ≤ P' := by
  refine ⟨horner P Q K D D1 ha hf hc hP hQ hK hD hD1 hB he, ?_⟩
  have := abs_add_le (p * q) k
  have h2 : |p * q| ≤ P * Q := by rw [abs_mul]; exact mul_le_mul hP hQ (abs_nonneg _) ((abs_nonneg _).trans hP)
  linarith

theorem exp2_c0 : Finite (lit 1.535336188319500e-4) ∧ |val (lit 1.535336188319500e-4) - 1.535336188319500e-4| ≤ 1e-12 := by decide +kernel
theorem exp2_c1 : Finite (lit 1.339887440266574e-3) ∧ |val (lit 1.339887440266574e-3) - 1.339887440266574e-3| ≤ 6e-11 := by decide +kernel
theorem exp2_c2 : Finite (lit 9.618437357674640e-3) ∧ |val (lit 9.618437357674640e-3) - 9.618437357674640e-3| ≤ 4.5e-10 := by decide +kernel
theorem exp2_c3 : Finite (lit 5.550332471162809e-2) ∧ |val (lit 5.550332471162809e-2) - 5.550332471162809e-2| ≤ 1.1e-9 := by decide +kernel
theorem exp2_c4 : Finite (lit 2.402264791363012e-1) ∧ |val (lit 2.402264791363012e-1) - 2.402264791363012e-1| ≤ 1.8e-9 := by decide +kernel
theorem exp2_c5 : Finite (lit 6.931472028550421e-1) ∧ |val (lit 6.931472028550421e-1) - 6.931472028550421e-1| ≤ 2.1e-8 := by decide +kernel
theorem exp2_c6 : Finite (lit 1) ∧ |val (lit 1) - 1| ≤ 0 := by decide +kernel

/-- The polynomial part of `exp2`, not a definition of the repository (`/repo/src/ffmath.cpp` lines 539-545). -/
def exp2P (fp : BitVec 32) : BitVec 32 :=
  let x := lit 1.535336188319500e-4
  let x := add (mul x fp) (lit 1.339887440266574e-3)
  let x := add (mul x fp) (lit 9.618437357674640e-3)
  let x := add (mul x fp) (lit 5.550332471162809e-2)
  let x := add (mul x fp) (lit 2.402264791363012e-1)
  let x := add (mul x fp) (lit 6.931472028550421e-1)
  add (mul x fp) (lit 1)

/-- The real polynomial. -/
noncomputable def exp2R (f : ℝ) : ℝ :=
  (((((1.535336188319500e-4 * f + 1.339887440266574e-3) * f + 9.618437357674640e-3) * f + 5.550332471162809e-2) * f +
    2.402264791363012e-1) * f + 6.931472028550421e-1) * f + 1

theorem exp2P_near {fp : BitVec 32} {f : ℝ} (h : Near fp f 3.1e-8) (hf : |f| ≤ 0.50001) :
    Near (exp2P fp) (exp2R f) 1.86e-7 := by
  unfold exp2P exp2R
  have n0 : Near _ (1.535336188319500e-4 : ℝ) 1e-12 := near_lit exp2_c0 (by norm_num) (by norm_num)
  have n1 : Near _ (1.339887440266574e-3 : ℝ) 6e-11 := near_lit exp2_c1 (by norm_num) (by norm_num)
  have n2 : Near _ (9.618437357674640e-3 : ℝ) 4.5e-10 := near_lit exp2_c2 (by norm_num) (by norm_num)
  have n3 : Near _ (5.550332471162809e-2 : ℝ) 1.1e-9 := near_lit exp2_c3 (by norm_num) (by norm_num)
  have n4 : Near _ (2.402264791363012e-1 : ℝ) 1.8e-9 := near_lit exp2_c4 (by norm_num) (by norm_num)
  have n5 : Near _ (6.931472028550421e-1 : ℝ) 2.1e-8 := near_lit exp2_c5 (by norm_num) (by norm_num)
  have n6 : Near _ (1 : ℝ) 0 := near_lit exp2_c6 (by norm_num) (by norm_num)
  obtain ⟨a1, b1⟩ := horner' (e' := 1.55e-10) (P' := 1.4171e-3) 1.54e-4 0.50001 1.34e-3 5.3e-12 9.9e-12 n0 h n1 (by norm_num) hf (by norm_num) (by norm_num) (by norm_num) (by norm_num) (by norm_num) (by norm_num)
  obtain ⟨a2, b2⟩ := horner' (e' := 1.24e-9) (P' := 1.0329e-2) 1.42e-3 0.50001 9.6185e-3 1.25e-10 1.7e-10 a1 h n2 (b1.trans (by norm_num)) hf (by norm_num) (by norm_num) (by norm_num) (by norm_num) (by norm_num) (by norm_num)
  obtain ⟨a3, b3⟩ := horner' (e' := 6.0e-9) (P' := 6.067e-2) 1.033e-2 0.50001 5.5504e-2 9.5e-10 1.26e-9 a2 h n3 (b2.trans (by norm_num)) hf (by norm_num) (by norm_num) (by norm_num) (by norm_num) (by norm_num) (by norm_num)
  obtain ⟨a4, b4⟩ := horner' (e' := 2.48e-8) (P' := 0.2706) 6.067e-2 0.50001 0.24023 4.9e-9 6.8e-9 a3 h n4 (b3.trans (by norm_num)) hf (by norm_num) (by norm_num) (by norm_num) (by norm_num) (by norm_num) (by norm_num)
  obtain ⟨a5, b5⟩ := horner' (e' := 1.0e-7) (P' := 0.82848) 0.2706 0.50001 0.69315 2.1e-8 2.92e-8 a4 h n5 (b4.trans (by norm_num)) hf (by norm_num) (by norm_num) (by norm_num) (by norm_num) (by norm_num) (by norm_num)
  obtain ⟨a6, b6⟩ := horner' (e' := 1.86e-7) (P' := 1.5) 0.82848 0.50001 1 7.6e-8 1.01e-7 a5 h n6 (b5.trans (by norm_num)) hf (by norm_num) (by norm_num) (by norm_num) (by norm_num) (by norm_num) (by norm_num)
  exact a6

theorem exp2R_close {f : ℝ} (hf : |f| ≤ 0.50001) : |exp2R f - (2 : ℝ) ^ f| ≤ 1e-8 := by
  obtain ⟨f1, f2⟩ := _root_.abs_le.1 hf
  have hL := Real.log_two_near_10
  rw [Real.rpow_def_of_pos (by norm_num)]
  -- the exponential at the rational approximation of log 2
  have hz : |(287209 / 414355 : ℝ) * f| ≤ 0.3466 := by
    rw [abs_mul, abs_of_pos (by norm_num)]
    have := mul_le_mul_of_nonneg_left hf (show (0 : ℝ) ≤ 287209 / 414355 by norm_num)
    exact this.trans (by norm_num)
  have hb := Real.exp_bound (x := (287209 / 414355 : ℝ) * f) (hz.trans (by norm_num)) (n := 9) (by norm_num)
  have hb2 : |(287209 / 414355 : ℝ) * f| ^ 9 * ((Nat.succ 9 : ℕ) / ((Nat.factorial 9 : ℕ) * (9 : ℕ))) ≤ 3e-10 := by
    have := pow_le_pow_left₀ (abs_nonneg _) hz 9
    have h2 := mul_le_mul_of_nonneg_right this
      (show (0 : ℝ) ≤ ((Nat.succ 9 : ℕ) / ((Nat.factorial 9 : ℕ) * (9 : ℕ))) by positivity)
    refine h2.trans ?_
    norm_num [Nat.factorial]
  have hb := hb.trans hb2
  -- the polynomial identity checked on the interval
  have hp := pcheck_sound (p := [0, 6.931472028550421e-1 - 287209 / 414355, 2.402264791363012e-1 - (287209 / 414355) * (287209 / 414355) / 2,
      5.550332471162809e-2 - (287209 / 414355) * (287209 / 414355) * (287209 / 414355) / 6,
      9.618437357674640e-3 - (287209 / 414355) * (287209 / 414355) * (287209 / 414355) * (287209 / 414355) / 24,
      1.339887440266574e-3 - (287209 / 414355) * (287209 / 414355) * (287209 / 414355) * (287209 / 414355) * (287209 / 414355) / 120,
      1.535336188319500e-4 - (287209 / 414355) * (287209 / 414355) * (287209 / 414355) * (287209 / 414355) * (287209 / 414355) * (287209 / 414355) / 720,
      - (287209 / 414355) * (287209 / 414355) * (287209 / 414355) * (287209 / 414355) * (287209 / 414355) * (287209 / 414355) * (287209 / 414355) / 5040,
      - (287209 / 414355) * (287209 / 414355) * (287209 / 414355) * (287209 / 414355) * (287209 / 414355) * (287209 / 414355) * (287209 / 414355) * (287209 / 414355) / 40320])
    (a := -0.50002) (r := 0.005) (n := 101) (e := 8e-9) (by decide +kernel) (by norm_num) f
    (by norm_num at f1 ⊢; linarith) (by norm_num at f2 ⊢; linarith)
  simp only [peval_cons, peval_nil] at hp
  have e1 : |exp2R f - ∑ m ∈ Finset.range 9, ((287209 / 414355 : ℝ) * f) ^ m / (m.factorial : ℝ)| ≤ 8e-9 := by
    refine le_trans (le_of_eq ?_) (hp.trans (by norm_num))
    congr 1
    simp only [Finset.sum_range_succ, Finset.sum_range_zero, Nat.factorial, exp2R]
    push_cast
    norm_num
    ring
  have e2 : |Real.exp (287209 / 414355 * f) - Real.exp (Real.log 2 * f)| ≤ 4e-10 := by
    have hd : |(Real.log 2 - 287209 / 414355) * f| ≤ 6e-11 := by
      rw [abs_mul]
      exact (mul_le_mul hL hf (abs_nonneg _) (by norm_num)).trans (by norm_num)
    have h3 := Real.abs_exp_sub_one_le (hd.trans (by norm_num))
    have h4 : Real.exp (287209 / 414355 * f) ≤ 2.72 := by
      have : Real.exp (287209 / 414355 * f) ≤ Real.exp 1 :=
        Real.exp_le_exp.2 ((le_abs_self _).trans (hz.trans (by norm_num)))
      exact this.trans (Real.exp_one_lt_d9.le.trans (by norm_num))
    have h5 : Real.exp (287209 / 414355 * f) - Real.exp (Real.log 2 * f) =
        -(Real.exp (287209 / 414355 * f) * (Real.exp ((Real.log 2 - 287209 / 414355) * f) - 1)) := by
      have : Real.log 2 * f = 287209 / 414355 * f + (Real.log 2 - 287209 / 414355) * f := by ring
      rw [this, Real.exp_add]; ring
    rw [h5, abs_neg, abs_mul, abs_of_pos (Real.exp_pos _)]
    exact (mul_le_mul h4 (h3.trans (mul_le_mul_of_nonneg_left hd (by norm_num))) (abs_nonneg _) (by norm_num)).trans
      (by norm_num)
  have t1 := abs_sub_le (exp2R f) (∑ m ∈ Finset.range 9, ((287209 / 414355 : ℝ) * f) ^ m / (m.factorial : ℝ)) (Real.exp (287209 / 414355 * f))
  rw [abs_sub_comm] at hb
  have t2 := abs_sub_le (exp2R f) (Real.exp (287209 / 414355 * f)) (Real.exp (Real.log 2 * f))
  norm_num at e1 e2 hb t1 t2 ⊢
  linarith

theorem fltMax_val : Finite fltMax ∧ (3.4e38 : ℚ) ≤ val fltMax := by decide +kernel

theorem rnd_finite' {s : Bool} {q : ℚ} (h : |q| ≤ 3.4e38) : Finite (rnd s q) := by
  obtain ⟨h1, h2⟩ := _root_.abs_le.1 h
  refine (rnd_between (finite_negate.2 fltMax_val.1) fltMax_val.1 ?_ ?_).1
  · rw [val_negate]; linarith [fltMax_val.2]
  · linarith [fltMax_val.2]

theorem exp2R_range {f : ℝ} (hf : |f| ≤ 0.50001) : 0.7066 ≤ exp2R f ∧ exp2R f ≤ 1.4149 := by
  obtain ⟨f1, f2⟩ := _root_.abs_le.1 hf
  have hp := pcheck_sound (p := [1 - 1.06075, 6.931472028550421e-1, 2.402264791363012e-1,
      5.550332471162809e-2, 9.618437357674640e-3, 1.339887440266574e-3, 1.535336188319500e-4])
    (a := -0.50002) (r := 0.0025001) (n := 200) (e := 0.35415) (by decide +kernel) (by norm_num) f
    (by norm_num at f1 ⊢; linarith) (by norm_num at f2 ⊢; linarith)
  simp only [peval_cons, peval_nil] at hp
  rw [_root_.abs_le] at hp
  unfold exp2R
  push_cast at hp
  norm_num at hp ⊢
  constructor <;> linarith

theorem lit_half_val : Finite (lit 0.5) ∧ val (lit 0.5) = 0.5 := by decide +kernel
theorem lit_m126 : Finite (negate (lit 126)) ∧ val (negate (lit 126)) = -126 := by decide +kernel
theorem lit_128 : Finite (lit 128) ∧ val (lit 128) = 128 := by decide +kernel

theorem toI32_int {c : BitVec 32} {n : ℤ} (hf : Finite c) (h : val c = n) (h1 : -2147483648 ≤ n) (h2 : n < 2147483648) :
    toI32 c = .ok n := by
  unfold toI32
  have e : (if neg c then -⌊-val c⌋ else ⌊val c⌋) = n := by
    rw [h]
    split
    · have : (-(n : ℚ)) = ((-n : ℤ) : ℚ) := by push_cast; ring
      rw [this, Int.floor_intCast]; ring
    · exact Int.floor_intCast n
  simp only [e]
  rw [if_pos ⟨hf, h1, h2⟩]

/-- The bit pattern `(n + 127) << 23` is the float `2ⁿ`. -/
theorem pow2_bits {n : ℤ} (h1 : -126 ≤ n) (h2 : n ≤ 127) :
    Finite (BitVec.ofInt 32 ((n + 127) * 8388608)) ∧ val (BitVec.ofInt 32 ((n + 127) * 8388608)) = 2 ^ n := by
  obtain ⟨k, hk⟩ : ∃ k : ℕ, n + 127 = k := ⟨(n + 127).toNat, by omega⟩
  have e : (BitVec.ofInt 32 ((n + 127) * 8388608)).toNat = k * 8388608 + 0 := by
    rw [hk, BitVec.toNat_ofInt]
    omega
  obtain ⟨f, v⟩ := nat_spec e (by omega)
  refine ⟨f, ?_⟩
  rw [v, mval_lin (by omega) (by norm_num)]
  have : n = (k : ℤ) - 150 + 23 := by omega
  rw [this, zpow_add₀ (by norm_num)]
  push_cast
  rw [_root_.mul_comm]

/-- The rounded exponent of `exp2` and what is left of the argument. -/
theorem exp2_split {x : BitVec 32} (hx : Finite x) (h1 : -126 < val x) (h2 : val x ≤ 128) :
    ∃ (ip : BitVec 32) (n : ℤ), floor (add x (lit 0.5)) = .ok ip ∧ Finite ip ∧ val ip = n ∧ -126 ≤ n ∧ n ≤ 128 ∧
      |val x - n| ≤ 0.50001 ∧ n = ⌊val (add x (lit 0.5))⌋ := by
  rw [add_fin hx lit_half_val.1, lit_half_val.2]
  generalize (neg x && neg (lit 0.5)) = b
  have hq : |val x + 0.5| ≤ 128.5 := by rw [_root_.abs_le]; constructor <;> linarith
  have f : Finite (rnd b (val x + 0.5)) := rnd_finite (hq.trans (by norm_num))
  have e := rnd_err f
  have e' : |val (rnd b (val x + 0.5)) - (val x + 0.5)| ≤ 8e-6 := by
    refine e.trans (max_le ?_ (by norm_num))
    have := mul_le_mul_of_nonneg_right hq (show (0 : ℚ) ≤ 2 ^ (-24 : ℤ) by norm_num)
    refine le_trans ?_ (this.trans (by norm_num))
    exact le_of_eq rfl
  obtain ⟨e1, e2⟩ := _root_.abs_le.1 e'
  obtain ⟨ip, h3, h4, h5⟩ := C30_floor _ f
  refine ⟨ip, _, h3, h4, h5, ?_, ?_, ?_, rfl⟩
  · rw [Int.le_floor]; push_cast; linarith
  · have : ⌊val (rnd b (val x + 0.5))⌋ < 129 := by rw [Int.floor_lt]; push_cast; linarith
    omega
  · have := Int.floor_le (val (rnd b (val x + 0.5)))
    have h7 := Int.lt_floor_add_one (val (rnd b (val x + 0.5)))
    rw [_root_.abs_le]; constructor <;> linarith

theorem exp2_eq {x : BitVec 32} (hx : Finite x) (h1 : -126 < val x) (h2 : val x ≤ 128) {ip : BitVec 32} {n : ℤ}
    (h3 : floor (add x (lit 0.5)) = .ok ip) (h4 : Finite ip) (h5 : val ip = n) (h6 : -126 ≤ n) (h7 : n ≤ 128) :
    exp2 x = .ok (mul (exp2P (sub x ip)) (BitVec.ofInt 32 ((n + 127) * 8388608))) := by
  unfold exp2 exp2P
  rw [if_neg (by rw [le_fin hx lit_m126.1, lit_m126.2]; simpa using h1),
    if_neg (by rw [lt_fin lit_128.1 hx, lit_128.2]; simpa using h2), h3, Out.bind_ok]
  simp only [toI32_int h4 h5 (by omega) (by omega), Out.bind_ok]
  rw [if_pos ⟨by omega, by omega⟩]
  rfl


/-- **C79** (part) `exp2` is within a relative error of `3.5e-7` of the power of two for every
`-126 < x < 127.5`. Missing: `127.5 ≤ x < 128` (`C79_false`). -/
theorem C79_accuracy_partial (x : BitVec 32) (hx : Finite x) (h1 : -126 < val x) (h2 : val x < 127.5) :
    ∃ r, exp2 x = .ok r ∧ Finite r ∧ |(val r : ℝ) - (2 : ℝ) ^ (val x : ℝ)| ≤ 3.5e-7 * (2 : ℝ) ^ (val x : ℝ) := by
  obtain ⟨ip, n, h3, h4, h5, h6, h7, h8, h9⟩ := exp2_split hx h1 (by linarith)
  have hn : n ≤ 127 := by
    have c : Finite 0x42FF0000#32 ∧ val 0x42FF0000#32 = 127.5 ∧ key 0x42FEFFFF#32 + 1 = key 0x42FF0000#32 ∧
      Finite 0x42FFFFFF#32 ∧ val 0x42FEFFFF#32 + 0.5 = val 0x42FFFFFF#32 ∧ val 0x42FFFFFF#32 < 128 := by decide +kernel
    have hp := le_pred (a := x) (b := 0x42FF0000#32) (by rw [c.2.1]; exact h2) _ c.2.2.1
    have : val (add x (lit 0.5)) ≤ val 0x42FFFFFF#32 := by
      rw [add_fin hx lit_half_val.1, lit_half_val.2]
      exact rnd_le c.2.2.2.1 (by rw [← c.2.2.2.2.1]; linarith)
    have : n < 128 := by
      rw [h9, Int.floor_lt]; push_cast
      exact lt_of_le_of_lt this c.2.2.2.2.2
    omega
  refine ⟨_, exp2_eq hx h1 (by linarith) h3 h4 h5 h6 h7, ?_⟩
  obtain ⟨fe, ve⟩ := pow2_bits h6 hn
  generalize BitVec.ofInt 32 ((n + 127) * 8388608) = ep at *
  have h8' : |((val x : ℚ) : ℝ) - n| ≤ 0.50001 := by
    have : ((|val x - n| : ℚ) : ℝ) ≤ ((0.50001 : ℚ) : ℝ) := by exact_mod_cast h8
    push_cast at this; norm_num at this ⊢; exact this
  have nf : Near (sub x ip) ((val x : ℝ) - n) 3.1e-8 := by
    have := Near.sub (e' := 3.1e-8) 0.50001 (Near.self hx) (Near.self h4) (by rw [h5]; push_cast; norm_num at h8' ⊢; linarith)
      (by norm_num) (by norm_num)
    rw [h5] at this; push_cast at this; exact this
  have np := exp2P_near nf h8'
  have hc := exp2R_close h8'
  generalize exp2P (sub x ip) = p at *
  -- the power splits
  have hsplit : (2 : ℝ) ^ (val x : ℝ) = (2 : ℝ) ^ ((val x : ℝ) - n) * 2 ^ n := by
    rw [← Real.rpow_intCast, ← Real.rpow_add (by norm_num)]; congr 1; ring
  have hE : 0.7065 ≤ (2 : ℝ) ^ ((val x : ℝ) - n) ∧ (2 : ℝ) ^ ((val x : ℝ) - n) ≤ 1.415 := by
    have a := exp2R_range h8'
    have := _root_.abs_le.1 hc
    norm_num at this a ⊢; constructor <;> linarith
  have hpe : |(val p : ℝ) - (2 : ℝ) ^ ((val x : ℝ) - n)| ≤ 1.97e-7 := by
    have := abs_sub_le (val p : ℝ) (exp2R ((val x : ℝ) - n)) ((2 : ℝ) ^ ((val x : ℝ) - n))
    have h := np.err
    norm_num at this h hc ⊢; linarith
  have hx126 : (2 : ℝ) ^ (-126 : ℤ) ≤ (2 : ℝ) ^ (val x : ℝ) := by
    rw [← Real.rpow_intCast]
    refine Real.rpow_le_rpow_of_exponent_le (by norm_num) ?_
    have : ((-126 : ℚ) : ℝ) ≤ (val x : ℝ) := by exact_mod_cast h1.le
    push_cast at this ⊢; exact this
  have n0 : (0 : ℝ) < 2 ^ n := by positivity
  have hP0 := np.fin
  rw [hsplit] at hx126 ⊢
  generalize (2 : ℝ) ^ ((val x : ℝ) - n) = E at *
  have hn2 : ((2 ^ n : ℚ) : ℝ) = (2 : ℝ) ^ n := by push_cast; rfl
  obtain ⟨e1, e2⟩ := hE
  obtain ⟨d1, d2⟩ := _root_.abs_le.1 hpe
  -- the final product
  rw [mul_fin hP0 fe, ve]
  have hq : |((val p * 2 ^ n : ℚ) : ℝ)| ≤ E * 2 ^ n + 1.97e-7 * 2 ^ n := by
    push_cast
    rw [abs_mul, abs_of_pos n0, ← add_mul]
    refine mul_le_mul_of_nonneg_right ?_ n0.le
    rw [_root_.abs_le]; norm_num at d1 d2 e1 ⊢; constructor <;> linarith
  have f : Finite (rnd (neg p != neg ep) (val p * 2 ^ n)) := by
    apply rnd_finite'
    have h2n : (2 : ℝ) ^ n ≤ 2 ^ (127 : ℤ) := zpow_le_zpow_right₀ (by norm_num) hn
    have : |((val p * 2 ^ n : ℚ) : ℝ)| ≤ ((3.4e38 : ℚ) : ℝ) := by
      refine hq.trans ?_
      rw [← add_mul]
      refine (mul_le_mul (show E + 1.97e-7 ≤ 1.42 by norm_num at e2 ⊢; linarith) h2n n0.le (by norm_num)).trans ?_
      norm_num
    exact_mod_cast this
  refine ⟨f, ?_⟩
  have hr := rnd_err f
  have hr' : |((val (rnd (neg p != neg ep) (val p * 2 ^ n)) : ℚ) : ℝ) - (val p : ℝ) * 2 ^ n| ≤ 5.98e-8 * (E * 2 ^ n) := by
    have h1 : ((|val (rnd (neg p != neg ep) (val p * 2 ^ n)) - val p * 2 ^ n| : ℚ) : ℝ) ≤
        ((max (|val p * 2 ^ n| * 2 ^ (-24 : ℤ)) (2 ^ (-150 : ℤ)) : ℚ) : ℝ) := by exact_mod_cast hr
    have h2 : ((max (|val p * 2 ^ n| * 2 ^ (-24 : ℤ)) (2 ^ (-150 : ℤ)) : ℚ) : ℝ) ≤ 5.98e-8 * (E * 2 ^ n) := by
      rw [Rat.cast_max]
      refine max_le ?_ ?_
      · have : ((|val p * 2 ^ n| * 2 ^ (-24 : ℤ) : ℚ) : ℝ) = |((val p * 2 ^ n : ℚ) : ℝ)| * 2 ^ (-24 : ℤ) := by
          push_cast; rfl
        rw [this]
        have h3 := mul_le_mul_of_nonneg_right hq (show (0 : ℝ) ≤ 2 ^ (-24 : ℤ) by positivity)
        refine h3.trans ?_
        have h4 : (0.7065 : ℝ) * 2 ^ n ≤ E * 2 ^ n := mul_le_mul_of_nonneg_right e1 n0.le
        generalize E * 2 ^ n = X at *
        generalize (2 : ℝ) ^ n = Y at *
        norm_num at h4 ⊢; linarith
      · push_cast
        refine le_trans ?_ (mul_le_mul_of_nonneg_left hx126 (show (0 : ℝ) ≤ 5.98e-8 by norm_num))
        norm_num
    have h3 := h1.trans h2
    push_cast at h3; exact h3
  have h4 : (0.7065 : ℝ) * 2 ^ n ≤ E * 2 ^ n := mul_le_mul_of_nonneg_right e1 n0.le
  have h5 : |(val p : ℝ) * 2 ^ n - E * 2 ^ n| ≤ 1.97e-7 * 2 ^ n := by
    rw [← sub_mul, abs_mul, abs_of_pos n0]; exact mul_le_mul_of_nonneg_right hpe n0.le
  have h6 := abs_sub_le ((val (rnd (neg p != neg ep) (val p * 2 ^ n)) : ℚ) : ℝ) ((val p : ℝ) * 2 ^ n) (E * 2 ^ n)
  refine h6.trans ((add_le_add hr' h5).trans ?_)
  generalize E * 2 ^ n = X at *
  generalize (2 : ℝ) ^ n = Y at *
  norm_num at h4 ⊢; linarith

theorem zero_bits {b : BitVec 32} (h : val b = 0) : b = 0#32 ∨ b = 0x80000000#32 := by
  have hm : mag b = 0 := mag_zero_of (by rw [← abs_val, h, abs_zero])
  have e := toNat_eq b
  rw [hm] at e
  by_cases hn : neg b = true
  · right; apply BitVec.eq_of_toNat_eq; rw [e, if_pos hn]; rfl
  · left; apply BitVec.eq_of_toNat_eq; rw [e, if_neg hn]; rfl

theorem finite_of_range {x : BitVec 32} (h : ¬ IsNaN x) (h1 : ¬ F32.le x (negate (lit 126)) = true)
    (h2 : ¬ F32.lt (lit 128) x = true) : Finite x := by
  have c : key (lit 128) = 1124073472 ∧ key (negate (lit 126)) = -1123811328 ∧ ¬ IsNaN (lit 128) ∧
    ¬ IsNaN (negate (lit 126)) := by decide +kernel
  unfold F32.le at h1
  unfold F32.lt at h2
  simp only [decide_eq_true_eq, c.1, c.2.1, h, c.2.2.1, c.2.2.2, not_false_eq_true, true_and, not_le, not_lt] at h1 h2
  rw [finite_iff]
  unfold key at h1 h2
  by_cases hn : neg x = true
  · rw [if_pos hn] at h1 h2; omega
  · rw [if_neg hn] at h1 h2; omega

/-- **C79** (part) `exp2` is free of undefined behaviour for every argument that is not a NaN. -/
theorem C79_defined (x : BitVec 32) (h : ¬ IsNaN x) : ∃ r, exp2 x = .ok r := by
  by_cases h1 : F32.le x (negate (lit 126)) = true
  · exact ⟨_, by unfold exp2; rw [if_pos h1]; rfl⟩
  by_cases h2 : F32.lt (lit 128) x = true
  · exact ⟨_, by unfold exp2; rw [if_neg h1, if_pos h2]; rfl⟩
  have hf : Finite x := finite_of_range h h1 h2
  rw [le_fin hf lit_m126.1, lit_m126.2] at h1
  rw [lt_fin lit_128.1 hf, lit_128.2] at h2
  have h1' : -126 < val x := by simpa using h1
  have h2' : val x ≤ 128 := by simpa using h2
  obtain ⟨ip, n, h3, h4, h5, h6, h7, h8, h9⟩ := exp2_split hf h1' h2'
  exact ⟨_, exp2_eq hf h1' h2' h3 h4 h5 h6 h7⟩

/-- **C79** (part) Arguments up to `-126` give zero and arguments above `128` infinity, infinities included. -/
theorem C79_limits (x : BitVec 32) : (F32.le x (negate (lit 126)) = true → exp2 x = .ok (lit 0)) ∧
    (F32.lt (lit 128) x = true → exp2 x = .ok inf) := by
  constructor
  · intro h; unfold exp2; rw [if_pos h]; rfl
  · intro h
    have : ¬ F32.le x (negate (lit 126)) = true := by
      intro h2
      unfold F32.le at h2
      unfold F32.lt at h
      have c : key (lit 128) = 1124073472 ∧ key (negate (lit 126)) = -1123811328 := by decide +kernel
      simp only [decide_eq_true_eq, c.1, c.2] at h h2
      omega
    unfold exp2; rw [if_neg this, if_pos h]; rfl

/-- **C79** (part) `exp2` of an integer is exactly the power of two. -/
theorem C79_int (x : BitVec 32) (k : ℤ) (hx : Finite x) (hk : val x = k) (h1 : -126 < k) (h2 : k ≤ 127) :
    ∃ r, exp2 x = .ok r ∧ Finite r ∧ val r = 2 ^ k := by
  have h1' : -126 < val x := by rw [hk]; exact_mod_cast h1
  have h2' : val x ≤ 128 := by rw [hk]; exact_mod_cast (by omega : k ≤ 128)
  obtain ⟨ip, n, h3, h4, h5, h6, h7, h8, h9⟩ := exp2_split hx h1' h2'
  have hn : n = k := by
    rw [hk] at h8
    obtain ⟨a, b⟩ := _root_.abs_le.1 h8
    have a' : ((n : ℚ)) < k + 1 := by linarith
    have b' : (k : ℚ) < n + 1 := by linarith
    have a'' : n < k + 1 := by exact_mod_cast a'
    have b'' : k < n + 1 := by exact_mod_cast b'
    omega
  subst hn
  refine ⟨_, exp2_eq hx h1' h2' h3 h4 h5 h6 h7, ?_⟩
  obtain ⟨fe, ve⟩ := pow2_bits h6 h2
  have hz : val (sub x ip) = 0 ∧ Finite (sub x ip) := by
    rw [sub_fin hx h4, hk, h5, sub_self]
    have := rnd_int (neg x && !neg ip) (k := 0) (by norm_num)
    rw [Int.cast_zero] at this
    exact ⟨this.2, this.1⟩
  have hp : exp2P (sub x ip) = lit 1 := by
    rcases zero_bits hz.1 with h | h <;> rw [h] <;> decide +kernel
  rw [hp, mul_fin fin_one fe, ve, val_one, _root_.one_mul, ← ve]
  exact rnd_exact fe rfl

/-- **C79** (negation) From `127.5` to `128` the result is infinity although the power is below the largest
float; `exp2(-126)` is zero although `2^-126` is a normal float; a NaN is converted to an integer (undefined). -/
theorem C79_false : val (lit 127.5) = 127.5 ∧ exp2 (lit 127.5) = .ok inf ∧ (2 : ℚ) ^ 255 < val fltMax ^ 2 ∧
    exp2 (negate (lit 126)) = .ok (lit 0) ∧ exp2 nan = .ub := by decide +kernel

example : Finite (lit 3.5) ∧ -126 < val (lit 3.5) ∧ val (lit 3.5) < 127.5 ∧
    exp2 (lit 3.5) = .ok 0x413504f4#32 := by decide +kernel
example : exp2 (lit 10) = .ok (lit 1024) ∧ val (lit 10) = (10 : ℤ) := by decide +kernel

end Verif.Ffmath
