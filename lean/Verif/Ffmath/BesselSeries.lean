import Verif.Ffmath.BesselModel
import Verif.Ffmath.Zeta

/-!
# The power series of the Bessel functions of order zero (C113)

IEEE binary32 arithmetic. The specification is the series `∑ w^k / (k!)²`, which is `I₀(x)` for `w = x²/4` and `J₀(x)` for `w = -x²/4`.
-/

namespace Verif.Ffmath

open Verif F32

local infixl:65 " +ᶠ " => F32.add
local infixl:65 " -ᶠ " => F32.sub
local infixl:70 " *ᶠ " => F32.mul
local infixl:70 " /ᶠ " => F32.div
local notation:50 a:51 " <ᶠ " b:51 => F32.lt a b

/-- The terms of the series (not a definition of the repository). -/
def bT (w : ℚ) (k : ℕ) : ℚ := w ^ k / ((k.factorial : ℚ) * k.factorial)

/-- The partial sums of the series, up to the term of index `n` (not a definition of the repository). -/
def bS (w : ℚ) (n : ℕ) : ℚ := ∑ k ∈ Finset.range (n + 1), bT w k

theorem bT_succ (w : ℚ) (k : ℕ) : bT w (k + 1) = bT w k * (w / (((k + 1 : ℕ) : ℚ) * ((k + 1 : ℕ) : ℚ))) := by
  unfold bT
  rw [Nat.factorial_succ, pow_succ]
  push_cast
  have : (k.factorial : ℚ) ≠ 0 := by exact_mod_cast k.factorial_ne_zero
  field_simp

theorem bT_le {w : ℚ} (h : |w| ≤ 5 / 2) (k : ℕ) : |bT w k| ≤ bT (5 / 2) k := by
  unfold bT
  rw [abs_div, abs_pow, abs_of_nonneg (a := (k.factorial : ℚ) * _) (by positivity)]
  exact div_le_div_of_nonneg_right (pow_le_pow_left₀ (abs_nonneg _) h _) (by positivity)

theorem bT_nonneg (k : ℕ) : 0 ≤ bT (5 / 2) k := by unfold bT; positivity

theorem bS_le {w : ℚ} (h : |w| ≤ 5 / 2) {n : ℕ} (hn : n ≤ 199) : |bS w n| ≤ 5.6 := by
  have c : bS (5 / 2) 199 ≤ 5.6 := by decide +kernel
  refine le_trans ?_ c
  unfold bS
  refine (Finset.abs_sum_le_sum_abs _ _).trans ((Finset.sum_le_sum fun k _ => bT_le h k).trans ?_)
  exact Finset.sum_le_sum_of_subset_of_nonneg (Finset.range_subset_range.2 (by omega)) fun k _ _ => bT_nonneg k

/-- The error allowed in one iteration (not a definition of the repository). -/
def bG (k : ℕ) : ℚ := k * (1.85e-7 * bT (5 / 2) k + 1e-43) + min 3.42e-7 (1.01 * bT (5 / 2) k + 1e-40)

/-- The error allowed after `n` iterations (not a definition of the repository). -/
def bErr (n : ℕ) : ℚ := ∑ k ∈ Finset.range n, bG (k + 1)

theorem bG_nonneg (k : ℕ) : 0 ≤ bG k := by
  unfold bG
  have := bT_nonneg k
  have h : 0 ≤ min (3.42e-7 : ℚ) (1.01 * bT (5 / 2) k + 1e-40) := le_min (by norm_num) (by positivity)
  positivity

theorem bErr_le {n : ℕ} (hn : n ≤ 199) : bErr n ≤ 4.6e-6 := by
  have c : bErr 199 ≤ 4.6e-6 := by decide +kernel
  refine le_trans ?_ c
  exact Finset.sum_le_sum_of_subset_of_nonneg (Finset.range_subset_range.2 hn) fun k _ _ => bG_nonneg _

/-- One multiplication of the loop, in exact numbers. -/
theorem bT_step {t T v V t' : ℚ} {k : ℕ} (hk : k < 199) (hT : |T| ≤ 5 / 2) (hV : |V| ≤ 5 / 2) (hVk : k * |V| ≤ k)
    (h1 : |t - T| ≤ k * (1.85e-7 * |T| + 1e-43)) (h2 : |v - V| ≤ |V| * 1.1922e-7 + 3e-45) (h3 : |t' - t * v| ≤ |t * v| / 16777216 + 1e-45) :
    |t' - T * V| ≤ (k + 1) * (1.85e-7 * |T * V| + 1e-43) := by
  have hk' : (k : ℚ) ≤ 198 := by exact_mod_cast (by omega : k ≤ 198)
  have k0 : (0 : ℚ) ≤ k := k.cast_nonneg
  have T0 := abs_nonneg T
  have V0 := abs_nonneg V
  have e1 : t * v - T * V = (t - T) * v + T * (v - V) := by ring
  have hv : |v| ≤ |V| * (1 + 1.1922e-7) + 3e-45 := by
    have := abs_sub_abs_le_abs_sub v V
    linarith
  have v0 := abs_nonneg v
  -- |t - T| |v|
  have p1 : |t - T| * |v| ≤ k * (1.85e-7 * |T| + 1e-43) * |v| := mul_le_mul_of_nonneg_right h1 v0
  have p2 : k * (1.85e-7 * |T| + 1e-43) * |v| ≤ k * (1.85e-7 * |T| + 1e-43) * (|V| * (1 + 1.1922e-7) + 3e-45) :=
    mul_le_mul_of_nonneg_left hv (by positivity)
  have p3 : |T| * |v - V| ≤ |T| * (|V| * 1.1922e-7 + 3e-45) := mul_le_mul_of_nonneg_left h2 T0
  have q1 : |t * v - T * V| ≤ k * (1.85e-7 * |T| + 1e-43) * (|V| * (1 + 1.1922e-7) + 3e-45) + |T| * (|V| * 1.1922e-7 + 3e-45) := by
    rw [e1]
    refine (abs_add_le _ _).trans ?_
    rw [abs_mul, abs_mul]
    linarith
  have q2 : |t * v| ≤ |T * V| + |t * v - T * V| := by
    have := abs_sub_abs_le_abs_sub (t * v) (T * V)
    linarith
  have q3 : |t' - T * V| ≤ |T * V| / 16777216 + 1e-45 + |t * v - T * V| * (1 + 1 / 16777216) := by
    have := abs_sub_le t' (t * v) (T * V)
    linarith
  rw [abs_mul] at q3 ⊢
  refine q3.trans ?_
  have W0 : 0 ≤ |T| * |V| := mul_nonneg T0 V0
  -- expand the bound in the monomials k|T||V|, k|V|, k|T|, |T||V|, |T|
  have m1 : k * |T| ≤ 495 := by nlinarith
  have m2 : k * (|T| * |V|) ≤ 198 * (|T| * |V|) := mul_le_mul_of_nonneg_right hk' W0
  have m3 : 0 ≤ k * (|T| * |V|) := mul_nonneg k0 W0
  have m4 : 0 ≤ k * |T| := mul_nonneg k0 T0
  have m5 : 0 ≤ k * |V| := mul_nonneg k0 V0
  have q4 := mul_le_mul_of_nonneg_right q1 (show (0 : ℚ) ≤ 1 + 1 / 16777216 by norm_num)
  have e2 : k * (1.85e-7 * |T| + 1e-43) * (|V| * (1 + 1.1922e-7) + 3e-45) + |T| * (|V| * 1.1922e-7 + 3e-45) =
      1.85e-7 * (1 + 1.1922e-7) * (k * (|T| * |V|)) + 1.85e-7 * 3e-45 * (k * |T|) + 1e-43 * (1 + 1.1922e-7) * (k * |V|) + 1e-43 * 3e-45 * k +
        1.1922e-7 * (|T| * |V|) + 3e-45 * |T| := by ring
  have e3 : (k + 1) * (1.85e-7 * (|T| * |V|) + 1e-43) = 1.85e-7 * (k * (|T| * |V|)) + 1e-43 * k + 1.85e-7 * (|T| * |V|) + 1e-43 := by ring
  rw [e2] at q4
  rw [e3]
  generalize k * (|T| * |V|) = X at *
  generalize |T| * |V| = W at *
  generalize (k : ℚ) * |T| = Y at *
  generalize (k : ℚ) * |V| = Z at *
  generalize |t * v - T * V| = D at *
  generalize |T| = TT at *
  generalize (k : ℚ) = K at *
  clear h1 h2 h3 p1 p2 p3 e1 e2 e3 q1 q2 q3 hv
  norm_num at q4 hk' m1 ⊢
  linarith

/-- The state of the loop after `n` iterations (not a definition of the repository). -/
structure BInv (w : ℚ) (n : ℕ) (t jn : BitVec 32) : Prop where
  ft : F32.Finite t
  fj : F32.Finite jn
  et : |val t - bT w n| ≤ n * (1.85e-7 * |bT w n| + 1e-43)
  ej : |val jn - bS w n| ≤ bErr n

/-- One division of the loop. -/
theorem bV_step {nu xx : BitVec 32} {w : ℚ} {i : ℕ} (hn : val nu = 0) (hx : F32.Finite xx) (hw : |w| ≤ 5 / 2)
    (hxw : |val xx - w| ≤ |w| / 16777216 + 1e-45) (i1 : 1 ≤ i) (i2 : i ≤ 199) :
    F32.Finite (xx /ᶠ (lit (i : ℚ) *ᶠ (nu +ᶠ lit (i : ℚ)))) ∧
    |val (xx /ᶠ (lit (i : ℚ) *ᶠ (nu +ᶠ lit (i : ℚ)))) - w / ((i : ℚ) * (i : ℚ))| ≤ |w / ((i : ℚ) * (i : ℚ))| * 1.1922e-7 + 3e-45 := by
  have fn : F32.Finite nu := by rcases zero_bits hn with h | h <;> rw [h] <;> decide +kernel
  obtain ⟨fi, vi⟩ := lit_nat i (by omega)
  obtain ⟨fii, vii⟩ := lit_nat (i * i) (by nlinarith)
  obtain ⟨g1, g2⟩ := add_btw fn fi fi fi (by rw [hn, zero_add]) (by rw [hn, zero_add])
  have v1 : val (nu +ᶠ lit (i : ℚ)) = i := (le_antisymm g2.2 g2.1).trans vi
  obtain ⟨f2, v2⟩ := mul_exact fi g1 fii (by rw [vi, v1, vii, Nat.cast_mul])
  rw [vii] at v2
  generalize lit (i : ℚ) *ᶠ (nu +ᶠ lit (i : ℚ)) = q at *
  have hi : (1 : ℚ) ≤ i := by exact_mod_cast i1
  have hii : (1 : ℚ) ≤ (i : ℚ) * i := by nlinarith
  have q0 : val q ≠ 0 := by rw [v2]; push_cast; linarith
  rw [div_fin hx f2 q0, v2]
  push_cast
  have hV : |val xx / ((i : ℚ) * i) - w / ((i : ℚ) * i)| ≤ |w / ((i : ℚ) * i)| / 16777216 + 1e-45 := by
    rw [← sub_div, abs_div, abs_div, abs_of_pos (a := (i : ℚ) * i) (by linarith)]
    refine (div_le_div_of_nonneg_right hxw (by linarith)).trans ?_
    rw [add_div, div_right_comm]
    have : (1e-45 : ℚ) / ((i : ℚ) * i) ≤ 1e-45 := div_le_self (by norm_num) hii
    linarith
  have hb : |w / ((i : ℚ) * i)| ≤ 5 / 2 := by
    rw [abs_div, abs_of_pos (a := (i : ℚ) * i) (by linarith)]
    exact (div_le_self (abs_nonneg _) hii).trans hw
  have hb2 : |val xx / ((i : ℚ) * i)| ≤ |w / ((i : ℚ) * i)| + (|w / ((i : ℚ) * i)| / 16777216 + 1e-45) := by
    have := abs_sub_abs_le_abs_sub (val xx / ((i : ℚ) * i)) (w / ((i : ℚ) * i))
    linarith
  obtain ⟨fr, er⟩ := rnd_err' (s := neg xx ^^ neg q) (q := val xx / ((i : ℚ) * i)) (by norm_num at *; linarith)
  refine ⟨fr, ?_⟩
  have := abs_sub_le (val (rnd (neg xx ^^ neg q) (val xx / ((i : ℚ) * i)))) (val xx / ((i : ℚ) * i)) (w / ((i : ℚ) * i))
  have W0 := abs_nonneg (w / ((i : ℚ) * i))
  generalize |w / ((i : ℚ) * i)| = W at *
  generalize |val xx / ((i : ℚ) * i)| = X at *
  norm_num at *
  linarith

theorem bT_abs_succ (w : ℚ) (k : ℕ) : bT w (k + 1) = bT w k * (w / (((k : ℚ) + 1) * ((k : ℚ) + 1))) := by
  rw [bT_succ]; push_cast; rfl

theorem bT_small (k : ℕ) : bT (5 / 2) k ≤ 5 / 2 := by
  induction k with
  | zero => norm_num [bT]
  | succ k ih =>
    rcases Nat.eq_zero_or_pos k with rfl | hk
    · norm_num [bT]
    · rw [bT_abs_succ]
      have hk' : (1 : ℚ) ≤ k := by exact_mod_cast hk
      have : (5 / 2 : ℚ) / (((k : ℚ) + 1) * ((k : ℚ) + 1)) ≤ 1 := by
        rw [div_le_one (by positivity)]; nlinarith
      exact (mul_le_of_le_one_right (bT_nonneg k) this).trans ih

/-- One iteration of the loop. -/
theorem bLoop_step {nu xx t jn : BitVec 32} {w : ℚ} {n : ℕ} (hn : val nu = 0) (hx : F32.Finite xx) (hw : |w| ≤ 5 / 2)
    (hxw : |val xx - w| ≤ |w| / 16777216 + 1e-45) (i2 : n < 199) (inv : BInv w n t jn) :
    BInv w (n + 1) (t *ᶠ (xx /ᶠ (lit ((n + 1 : ℕ) : ℚ) *ᶠ (nu +ᶠ lit ((n + 1 : ℕ) : ℚ)))))
      (jn +ᶠ (t *ᶠ (xx /ᶠ (lit ((n + 1 : ℕ) : ℚ) *ᶠ (nu +ᶠ lit ((n + 1 : ℕ) : ℚ)))))) := by
  obtain ⟨ft, fj, et, ej⟩ := inv
  obtain ⟨fv, ev⟩ := bV_step (i := n + 1) hn hx hw hxw (by omega) (by omega)
  generalize xx /ᶠ (lit ((n + 1 : ℕ) : ℚ) *ᶠ (nu +ᶠ lit ((n + 1 : ℕ) : ℚ))) = v at *
  have hT : |bT w n| ≤ 5 / 2 := (bT_le hw n).trans (bT_small n)
  have n0 : (0 : ℚ) ≤ n := n.cast_nonneg
  have n1 : (n : ℚ) ≤ 198 := by exact_mod_cast (by omega : n ≤ 198)
  have i1 : (1 : ℚ) ≤ ((n + 1 : ℕ) : ℚ) := by push_cast; linarith
  have hVle : |w / (((n + 1 : ℕ) : ℚ) * ((n + 1 : ℕ) : ℚ))| ≤ 5 / 2 := by
    rw [abs_div, abs_of_pos (a := ((n + 1 : ℕ) : ℚ) * _) (by nlinarith)]
    exact (div_le_self (abs_nonneg _) (by nlinarith)).trans hw
  have hVn : (n : ℚ) * |w / (((n + 1 : ℕ) : ℚ) * ((n + 1 : ℕ) : ℚ))| ≤ n := by
    rcases Nat.eq_zero_or_pos n with rfl | hp
    · simp
    · have hp' : (1 : ℚ) ≤ n := by exact_mod_cast hp
      refine mul_le_of_le_one_right n0 ?_
      rw [abs_div, abs_of_pos (a := ((n + 1 : ℕ) : ℚ) * _) (by nlinarith), div_le_one (by nlinarith)]
      refine hw.trans ?_
      push_cast; nlinarith
  have htle : |val t| ≤ 3 := by
    have h1 := abs_sub_abs_le_abs_sub (val t) (bT w n)
    have h2 : (n : ℚ) * (1.85e-7 * |bT w n| + 1e-43) ≤ 198 * (1.85e-7 * (5 / 2) + 1e-43) :=
      mul_le_mul n1 (by norm_num at hT ⊢; linarith) (by positivity) (by norm_num)
    norm_num at h2 et ⊢; linarith
  have hvle : |val v| ≤ 3 := by
    have h1 := abs_sub_abs_le_abs_sub (val v) (w / (((n + 1 : ℕ) : ℚ) * ((n + 1 : ℕ) : ℚ)))
    norm_num at ev h1 hVle ⊢; linarith
  have htv : |val t * val v| ≤ 9 := by
    rw [abs_mul]; calc |val t| * |val v| ≤ 3 * 3 := mul_le_mul htle hvle (abs_nonneg _) (by norm_num)
                  _ = 9 := by norm_num
  have em : t *ᶠ v = rnd (neg t ^^ neg v) (val t * val v) := mul_fin ft fv
  obtain ⟨fr, er⟩ := rnd_err' (s := neg t ^^ neg v) (q := val t * val v) (htv.trans (by norm_num))
  rw [← em] at fr er
  generalize t *ᶠ v = t' at *
  have hE := bT_step (t := val t) (v := val v) (t' := val t') i2 hT hVle hVn et ev er
  rw [← bT_succ] at hE
  have c1 : ((n : ℚ) + 1) = ((n + 1 : ℕ) : ℚ) := by push_cast; rfl
  rw [c1] at hE
  have hT' := bT_le hw (n + 1)
  have hE' : |val t' - bT w (n + 1)| ≤ ((n + 1 : ℕ) : ℚ) * (1.85e-7 * bT (5 / 2) (n + 1) + 1e-43) :=
    hE.trans (mul_le_mul_of_nonneg_left (by linarith) (by positivity))
  have hsum : bS w (n + 1) = bS w n + bT w (n + 1) := by unfold bS; rw [Finset.sum_range_succ]
  have herr : bErr (n + 1) = bErr n + bG (n + 1) := by unfold bErr; rw [Finset.sum_range_succ]
  have hSle := bS_le hw (n := n + 1) (by omega)
  have hBle := bErr_le (n := n) (by omega)
  have hE2 : ((n + 1 : ℕ) : ℚ) * (1.85e-7 * bT (5 / 2) (n + 1) + 1e-43) ≤ 0.0001 := by
    have b1 := bT_small (n + 1)
    have b0 := bT_nonneg (n + 1)
    have : ((n + 1 : ℕ) : ℚ) ≤ 199 := by push_cast; linarith
    refine (mul_le_mul this (show 1.85e-7 * bT (5 / 2) (n + 1) + 1e-43 ≤ 1.85e-7 * (5 / 2) + 1e-43 by linarith) (by positivity) (by norm_num)).trans ?_
    norm_num
  -- the sum
  have hq : |val jn + val t' - bS w (n + 1)| ≤ bErr n + ((n + 1 : ℕ) : ℚ) * (1.85e-7 * bT (5 / 2) (n + 1) + 1e-43) := by
    rw [hsum, show val jn + val t' - (bS w n + bT w (n + 1)) = (val jn - bS w n) + (val t' - bT w (n + 1)) by ring]
    exact (abs_add_le _ _).trans (add_le_add ej hE')
  have hjt : |val jn + val t'| ≤ 5.7 := by
    have := abs_sub_abs_le_abs_sub (val jn + val t') (bS w (n + 1))
    norm_num at hSle hBle hE2 hq ⊢; linarith
  have ea : jn +ᶠ t' = rnd (neg jn && neg t') (val jn + val t') := add_fin fj fr
  obtain ⟨fs, es⟩ := rnd_err' (s := neg jn && neg t') (q := val jn + val t') (by norm_num at hjt ⊢; linarith)
  have en := rnd_nearest fs jn
  rw [← ea] at fs es en
  refine ⟨fr, fs, hE, ?_⟩
  rw [herr]
  unfold bG
  have k1 : |val (jn +ᶠ t') - (val jn + val t')| ≤ 3.42e-7 := by
    refine es.trans ?_
    norm_num at hjt ⊢; linarith
  have k2 : |val (jn +ᶠ t') - (val jn + val t')| ≤ 1.01 * bT (5 / 2) (n + 1) + 1e-40 := by
    refine en.trans ?_
    rw [show val jn - (val jn + val t') = -val t' by ring, abs_neg]
    have := abs_sub_abs_le_abs_sub (val t') (bT w (n + 1))
    have b0 := bT_nonneg (n + 1)
    have h5 : ((n + 1 : ℕ) : ℚ) * (1.85e-7 * bT (5 / 2) (n + 1) + 1e-43) ≤ 199 * (1.85e-7 * bT (5 / 2) (n + 1) + 1e-43) :=
      mul_le_mul_of_nonneg_right (by push_cast; linarith) (by positivity)
    norm_num at h5 hE' this ⊢; linarith
  have k3 := le_min k1 k2
  have := abs_sub_le (val (jn +ᶠ t')) (val jn + val t') (bS w (n + 1))
  linarith

theorem c_eps' : F32.Finite epsilon ∧ val epsilon = 1 / 8388608 ∧ neg epsilon = false := by decide +kernel

/-- The test that ends the loop bounds the term by the sum. -/
theorem ratio_test {a b : BitVec 32} (ha : F32.Finite a) (hb : F32.Finite b) (h : (absolute (a /ᶠ b) <ᶠ epsilon) = true) :
    |val a| ≤ 1 / 8388608 * |val b| := by
  by_cases h0 : val b = 0
  · exfalso
    have key : ¬ F32.Finite (a /ᶠ b) := by
      have q : ¬ F32.Finite qnan := by decide
      have p : ∀ s, ¬ F32.Finite (pack s 2139095040) := by decide
      unfold F32.div
      rw [if_neg (by simp [ha.notNaN, hb.notNaN]), if_neg ha.notInf, if_neg hb.notInf, if_pos (val_eq_zero.1 h0)]
      split
      · exact q
      · exact p _
    have nn : ¬ IsNaN (absolute (a /ᶠ b)) := by
      unfold F32.lt at h; simp only [decide_eq_true_eq] at h; exact h.1
    have nf : ¬ F32.Finite (absolute (a /ᶠ b)) := fun hf => key (absolute_finite.1 hf)
    rcases trichotomy nn with h1 | h1 | h1
    · exact nf h1
    · rw [h1] at h; revert h; decide +kernel
    · have : neg (absolute (a /ᶠ b)) = false := by
        have := (C33_copysign_abs (a /ᶠ b) (a /ᶠ b)).2.2.2.1
        exact this
      rw [h1] at this; revert this; decide
  · have e : a /ᶠ b = rnd (neg a ^^ neg b) (val a / val b) := div_fin ha hb h0
    have hf : F32.Finite (a /ᶠ b) := by
      by_contra hf
      have nn : ¬ IsNaN (absolute (a /ᶠ b)) := by
        unfold F32.lt at h; simp only [decide_eq_true_eq] at h; exact h.1
      rcases trichotomy nn with h1 | h1 | h1
      · exact hf (absolute_finite.1 h1)
      · rw [h1] at h; revert h; decide +kernel
      · have : neg (absolute (a /ᶠ b)) = false := (C33_copysign_abs (a /ᶠ b) (a /ᶠ b)).2.2.2.1
        rw [h1] at this; revert this; decide
    rw [lt_fin (absolute_finite.2 hf) c_eps'.1, decide_eq_true_eq, absolute_val, c_eps'.2.1, e] at h
    have hb0 : 0 < |val b| := abs_pos.2 h0
    rw [← div_le_iff₀ hb0, ← abs_div]
    by_contra hc
    rw [not_le] at hc
    rcases le_total 0 (val a / val b) with hs | hs
    · rw [abs_of_nonneg hs] at hc
      have := le_rnd (s := neg a ^^ neg b) (q := val a / val b) c_eps'.1 (by rw [c_eps'.2.1]; exact hc.le)
      rw [c_eps'.2.1] at this
      linarith [le_abs_self (val (rnd (neg a ^^ neg b) (val a / val b)))]
    · rw [abs_of_nonpos hs] at hc
      have := rnd_le (s := neg a ^^ neg b) (q := val a / val b) (finite_negate.2 c_eps'.1) (by rw [val_negate, c_eps'.2.1]; linarith)
      rw [val_negate, c_eps'.2.1] at this
      linarith [neg_le_abs (val (rnd (neg a ^^ neg b) (val a / val b)))]

/-- The loop ends with a partial sum whose last term is small. -/
theorem ijLoop_spec {nu xx : BitVec 32} {w : ℚ} (hn : val nu = 0) (hx : F32.Finite xx) (hw : |w| ≤ 5 / 2)
    (hxw : |val xx - w| ≤ |w| / 16777216 + 1e-45) : ∀ (fuel n : ℕ) (t jn : BitVec 32), n + fuel = 199 → BInv w n t jn →
    (fuel = 0 → |bT w n| ≤ 7e-7) →
    ∃ m, 1 ≤ m ∧ F32.Finite (ijLoop nu xx fuel (n + 1) t jn) ∧ |val (ijLoop nu xx fuel (n + 1) t jn) - bS w m| ≤ 4.6e-6 ∧ |bT w m| ≤ 7e-7 := by
  intro fuel
  induction fuel with
  | zero => intro n t jn h inv hz; exact ⟨n, by omega, inv.fj, inv.ej.trans (bErr_le (by omega)), hz rfl⟩
  | succ fuel ih =>
    intro n t jn h inv _
    have step := bLoop_step hn hx hw hxw (by omega) inv
    unfold ijLoop
    simp only []
    generalize t *ᶠ (xx /ᶠ (lit ((n + 1 : ℕ) : ℚ) *ᶠ (nu +ᶠ lit ((n + 1 : ℕ) : ℚ)))) = t' at *
    generalize jn +ᶠ t' = jn' at *
    split
    · rename_i hb
      have hr := ratio_test step.ft step.fj hb
      refine ⟨n + 1, by omega, step.fj, step.ej.trans (bErr_le (by omega)), ?_⟩
      have h1 := step.et
      have h2 := step.ej.trans (bErr_le (n := n + 1) (by omega))
      have h3 := bS_le hw (n := n + 1) (by omega)
      have h4 := abs_sub_abs_le_abs_sub (val jn') (bS w (n + 1))
      have h5 := abs_sub_abs_le_abs_sub (bT w (n + 1)) (val t')
      rw [abs_sub_comm] at h5
      have h6 : (((n + 1 : ℕ)) : ℚ) * (1.85e-7 * |bT w (n + 1)| + 1e-43) ≤ 199 * (1.85e-7 * |bT w (n + 1)| + 1e-43) :=
        mul_le_mul_of_nonneg_right (by exact_mod_cast (by omega : n + 1 ≤ 199)) (by positivity)
      norm_num at h1 h2 h3 h4 h5 h6 hr ⊢
      linarith
    · refine ih (n + 1) t' jn' (by omega) step fun h0 => ?_
      have : n + 1 = 199 := by omega
      rw [this]
      exact (bT_le hw 199).trans (by decide +kernel)

end Verif.Ffmath
