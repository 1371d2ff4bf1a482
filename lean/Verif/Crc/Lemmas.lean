import Verif.Crc.Spec
import Mathlib.Tactic.Ring
import Mathlib.Tactic.LinearCombination

namespace Verif.Crc

open Polynomial Spec

theorem b2z_xor (a b : Bool) : b2z (a ^^ b) = b2z a + b2z b := by
  cases a <;> cases b <;> decide

theorem b2z_eq_one (a : Bool) : b2z a = 1 ↔ a = true := by cases a <;> decide

/-! ### reflect -/

theorem reflect_fold (x : BitVec 32) (n : Nat) (hn : n ≤ 32) (m : Nat) (hm : m ≤ n) :
    let s := (List.range m).foldl
      (fun (s : BitVec 32 × BitVec 32) xBit =>
        (s.1 >>> 1,
         if s.1 &&& 0x01#32 ≠ 0#32 then s.2 ||| (1#32 <<< ((n - 1) - xBit)) else s.2))
      (x, 0#32)
    s.1 = x >>> m ∧ ∀ i, i < 32 → s.2.getLsbD i = (decide (n - m ≤ i ∧ i < n) && x.getLsbD (n - 1 - i)) := by
  induction m with
  | zero =>
    refine ⟨by simp, ?_⟩
    intro i hi
    simp
  | succ m ih =>
    obtain ⟨h1, h2⟩ := ih (by omega)
    simp only [List.range_succ, List.foldl_append, List.foldl_cons, List.foldl_nil] at *
    set s := (List.range m).foldl
      (fun (s : BitVec 32 × BitVec 32) xBit =>
        (s.1 >>> 1,
         if s.1 &&& 0x01#32 ≠ 0#32 then s.2 ||| (1#32 <<< ((n - 1) - xBit)) else s.2))
      (x, 0#32) with hs
    refine ⟨by rw [h1, ← BitVec.shiftRight_add], ?_⟩
    intro i hi
    have hbit : (s.1 &&& 0x01#32 ≠ 0#32) ↔ x.getLsbD m = true := by
      rw [h1]
      constructor
      · intro h
        by_contra hc
        apply h
        ext j hj
        simp only [BitVec.getElem_and, BitVec.getElem_ushiftRight, BitVec.getElem_zero]
        by_cases hj0 : j = 0
        · subst hj0; simp at hc; simp [hc]
        · have : (1#32)[j] = false := by
            rw [← BitVec.getLsbD_eq_getElem]
            simp [hj0]
          simp [this]
      · intro h hc
        have := congrArg (fun v => v.getLsbD 0) hc
        simp [h] at this
    by_cases hx : x.getLsbD m = true
    · rw [if_pos (hbit.mpr hx), BitVec.getLsbD_or, h2 i hi]
      by_cases hi' : i = n - 1 - m
      · subst hi'
        have e : n - 1 - (n - 1 - m) = m := by omega
        rw [e, hx]
        have h3 : n - (m + 1) ≤ n - 1 - m ∧ n - 1 - m < n := by omega
        simp [h3, hi]
      · have : (1#32 <<< (n - 1 - m)).getLsbD i = false := by
          simp only [BitVec.getLsbD_shiftLeft, BitVec.getLsbD_one]
          simp
          omega
        rw [this]
        simp only [Bool.or_false]
        congr 1
        simp only [decide_eq_decide]; omega
    · rw [if_neg (fun h => hx (hbit.mp h)), h2 i hi]
      by_cases hi' : i = n - 1 - m
      · subst hi'
        have e : n - 1 - (n - 1 - m) = m := by omega
        rw [e]
        simp at hx
        simp [hx]
      · congr 1
        simp only [decide_eq_decide]; omega

theorem reflect_bit (x : BitVec 32) (n : Nat) (hn : n ≤ 32) (i : Nat) :
    (reflect x n).getLsbD i = (decide (i < n) && x.getLsbD (n - 1 - i)) := by
  by_cases hi : i < 32
  · have := (reflect_fold x n hn n le_rfl).2 i hi
    unfold reflect
    rw [this]; simp
  · rw [BitVec.getLsbD_of_ge _ _ (by omega)]
    have : ¬ i < n := by omega
    simp [this]

/-! ### polynomials of registers and bit lists -/

theorem coeff_regPoly (w : Nat) (v : BitVec 32) (i : Nat) :
    (regPoly w v).coeff i = if i < w then b2z (v.getLsbD i) else 0 := by
  unfold regPoly
  simp only [finsetSum_coeff, coeff_C_mul, coeff_X_pow]
  by_cases h : i < w
  · rw [if_pos h, Finset.sum_eq_single i]
    · simp
    · intro b _ hb; simp [Ne.symm hb]
    · intro hh; simp at hh; omega
  · rw [if_neg h]
    apply Finset.sum_eq_zero
    intro b hb
    simp at hb
    have : i ≠ b := by omega
    simp [this]

theorem regPoly_xor (w : Nat) (a b : BitVec 32) : regPoly w (a ^^^ b) = regPoly w a + regPoly w b := by
  ext i
  simp only [coeff_regPoly, coeff_add, BitVec.getLsbD_xor, b2z_xor]
  split <;> simp

theorem degree_regPoly_lt (w : Nat) (v : BitVec 32) : (regPoly w v).degree < w := by
  rw [degree_lt_iff_coeff_zero]
  intro m hm
  rw [coeff_regPoly, if_neg (by omega)]

theorem gen_monic (w : Nat) (poly : BitVec 32) : (gen w poly).Monic :=
  monic_X_pow_add (degree_regPoly_lt w poly)

theorem degree_gen (w : Nat) (poly : BitVec 32) : (gen w poly).degree = w := by
  unfold gen
  rw [degree_add_eq_left_of_degree_lt] <;> rw [degree_X_pow]
  exact degree_regPoly_lt w poly

theorem bitsPoly_append (a b : List Bool) :
    bitsPoly (a ++ b) = bitsPoly a * X ^ b.length + bitsPoly b := by
  have key : ∀ (l : List Bool) (p : (ZMod 2)[X]),
      l.foldl (fun p b => p * X + C (b2z b)) p = p * X ^ l.length + bitsPoly l := by
    intro l
    induction l with
    | nil => intro p; simp [bitsPoly]
    | cons c l ih =>
      intro p
      unfold bitsPoly
      simp only [List.foldl_cons, List.length_cons]
      rw [ih, ih (0 * X + C (b2z c))]
      ring
  unfold bitsPoly
  rw [List.foldl_append, key]
  rfl

theorem bitsPoly_cons (c : Bool) (l : List Bool) :
    bitsPoly (c :: l) = C (b2z c) * X ^ l.length + bitsPoly l := by
  have := bitsPoly_append [c] l
  simpa [bitsPoly] using this

theorem coeff_bitsPoly (l : List Bool) (i : Nat) :
    (bitsPoly l).coeff i = if h : i < l.length then b2z (l[l.length - 1 - i]) else 0 := by
  induction l with
  | nil => simp [bitsPoly]
  | cons c l ih =>
    rw [bitsPoly_cons, coeff_add, coeff_C_mul, coeff_X_pow, ih]
    by_cases h : i = l.length
    · subst h; simp
    · by_cases h2 : i < l.length
      · have e : (c :: l).length - 1 - i = (l.length - 1 - i) + 1 := by simp; omega
        simp only [h, h2, List.length_cons, if_false, mul_zero, zero_add, dif_pos,
          show i < l.length + 1 by omega]
        simp only [List.length_cons] at e
        simp only [e, List.getElem_cons_succ]
      · have : ¬ i < l.length + 1 := by omega
        simp [h, h2, this]

theorem bitsPoly_degree (l : List Bool) : (bitsPoly l).degree < l.length := by
  rw [degree_lt_iff_coeff_zero]
  intro m hm
  rw [coeff_bitsPoly, dif_neg (by omega)]

/-! ### the register implements multiplication by X -/

theorem bit_topBit (w : Nat) (hw : 1 ≤ w) (hw' : w ≤ 32) (v : BitVec 32) :
    (v &&& (1#32 <<< (w - 1)) ≠ 0#32) ↔ v.getLsbD (w - 1) = true := by
  constructor
  · intro h
    by_contra hc
    apply h
    ext j hj
    simp only [BitVec.getElem_and, BitVec.getElem_zero]
    by_cases hj0 : j = w - 1
    · subst hj0
      rw [← BitVec.getLsbD_eq_getElem]
      simp at hc; simp [hc]
    · have : (1#32 <<< (w - 1))[j] = false := by
        rw [← BitVec.getLsbD_eq_getElem, BitVec.getLsbD_shiftLeft, BitVec.getLsbD_one]
        simp; omega
      simp [this]
  · intro h hc
    have := congrArg (fun v => v.getLsbD (w - 1)) hc
    simp [h] at this
    omega

theorem regPoly_shl (w : Nat) (hw : 1 ≤ w) (hw' : w ≤ 32) (v : BitVec 32) :
    regPoly w v * X = regPoly w (v <<< 1) + C (b2z (v.getLsbD (w - 1))) * X ^ w := by
  ext i
  rw [coeff_add, coeff_C_mul, coeff_X_pow, coeff_regPoly]
  cases i with
  | zero =>
    rw [coeff_mul_X_zero]
    have : ¬ 0 = w := by omega
    simp [this, b2z]
  | succ i =>
    rw [coeff_mul_X, coeff_regPoly]
    by_cases h1 : i + 1 < w
    · have h2 : ¬ i + 1 = w := by omega
      rw [if_pos (by omega), if_pos h1, if_neg h2, BitVec.getLsbD_shiftLeft]
      have : i + 1 < 32 := by omega
      simp [this]
    · rw [if_neg h1]
      by_cases h2 : i + 1 = w
      · subst h2; simp
      · rw [if_neg (by omega), if_neg h2]; simp

theorem regPoly_mask (w : Nat) (hw' : w ≤ 32) (v : BitVec 32) :
    regPoly w (v &&& (0xFFFFFFFF#32 >>> (32 - w))) = regPoly w v := by
  ext i
  rw [coeff_regPoly, coeff_regPoly]
  split
  · congr 1
    rw [BitVec.getLsbD_and, BitVec.getLsbD_ushiftRight]
    have : (0xFFFFFFFF#32).getLsbD (32 - w + i) = true := by
      have : (0xFFFFFFFF#32) = BitVec.allOnes 32 := by decide
      rw [this, BitVec.getLsbD_allOnes]; simp; omega
    simp [this]
  · rfl

theorem bitStep_spec (w : Nat) (hw : 1 ≤ w) (hw' : w ≤ 32) (poly v : BitVec 32) :
    gen w poly ∣ regPoly w (bitStep (1#32 <<< (w - 1)) (poly &&& (0xFFFFFFFF#32 >>> (32 - w))) v)
      - regPoly w v * X := by
  rw [regPoly_shl w hw hw']
  unfold bitStep
  by_cases h : v.getLsbD (w - 1) = true
  · rw [if_pos ((bit_topBit w hw hw' v).mpr h), regPoly_xor, regPoly_mask w hw', h]
    refine ⟨1, ?_⟩
    unfold gen
    have h2 : (2 : (ZMod 2)[X]) = 0 := by
      have : (2 : (ZMod 2)[X]) = C (2 : ZMod 2) := (map_ofNat C 2).symm
      rw [this, show (2 : ZMod 2) = 0 by decide, C_0]
    have : b2z true = 1 := by decide
    rw [this, C_1]
    linear_combination (-(X : (ZMod 2)[X]) ^ w) * h2
  · rw [if_neg (fun hh => h ((bit_topBit w hw hw' v).mp hh))]
    have : b2z (v.getLsbD (w - 1)) = 0 := by
      rw [Bool.not_eq_true] at h; rw [h]; rfl
    rw [this]; simp

theorem repeat_bitStep_spec (w : Nat) (hw : 1 ≤ w) (hw' : w ≤ 32) (poly v : BitVec 32) (k : Nat) :
    gen w poly ∣ regPoly w (Nat.repeat (bitStep (1#32 <<< (w - 1))
      (poly &&& (0xFFFFFFFF#32 >>> (32 - w)))) k v) - regPoly w v * X ^ k := by
  induction k with
  | zero => simp [Nat.repeat]
  | succ k ih =>
    simp only [Nat.repeat]
    have h1 := bitStep_spec w hw hw' poly (Nat.repeat (bitStep (1#32 <<< (w - 1))
      (poly &&& (0xFFFFFFFF#32 >>> (32 - w)))) k v)
    have h2 := Dvd.dvd.mul_right ih X
    have := dvd_add h1 h2
    refine this.trans (dvd_of_eq ?_)
    ring

theorem byteBits_length (r : Bool) (b : BitVec 8) : (byteBits r b).length = 8 := by
  unfold byteBits; split <;> simp

theorem byte_poly (w : Nat) (hw : 8 ≤ w) (hw' : w ≤ 32) (refIn : Bool) (b : BitVec 8) :
    regPoly w (if refIn then reflect (b.setWidth 32) 8 <<< (w - 8) else b.setWidth 32 <<< (w - 8))
      = bitsPoly (byteBits refIn b) * X ^ (w - 8) := by
  ext i
  rw [coeff_regPoly, coeff_mul_X_pow', coeff_bitsPoly]
  simp only [byteBits_length]
  by_cases h1 : i < w
  · rw [if_pos h1]
    by_cases h2 : w - 8 ≤ i
    · rw [if_pos h2, dif_pos (by omega)]
      congr 1
      cases refIn
      · simp only [byteBits, Bool.false_eq_true, if_false, BitVec.getLsbD_shiftLeft,
          BitVec.getLsbD_setWidth, List.getElem_map, List.getElem_range]
        have e : 7 - (8 - 1 - (i - (w - 8))) = i - (w - 8) := by omega
        rw [e]
        have h3 : i < 32 ∧ ¬ i < w - 8 ∧ i - (w - 8) < 32 := by omega
        simp [h3]
      · simp only [byteBits, if_true, BitVec.getLsbD_shiftLeft, reflect_bit _ 8 (by omega),
          BitVec.getLsbD_setWidth, List.getElem_map, List.getElem_range]
        have h3 : i < 32 ∧ ¬ i < w - 8 ∧ i - (w - 8) < 8 ∧ (8 - 1 - (i - (w - 8))) < 32 := by omega
        simp [h3]
    · rw [if_neg h2]
      have : ∀ v : BitVec 32, (v <<< (w - 8)).getLsbD i = false := by
        intro v; rw [BitVec.getLsbD_shiftLeft]; simp; omega
      split <;> simp [this, b2z]
  · rw [if_neg h1]
    split
    · rw [dif_neg (by omega)]
    · rfl

theorem byteStep_spec (w : Nat) (hw : 8 ≤ w) (hw' : w ≤ 32) (poly v : BitVec 32) (refIn : Bool)
    (b : BitVec 8) :
    gen w poly ∣ regPoly w (byteStep w (1#32 <<< (w - 1)) (poly &&& (0xFFFFFFFF#32 >>> (32 - w)))
      refIn v b) - (regPoly w v * X ^ 8 + bitsPoly (byteBits refIn b) * X ^ w) := by
  unfold byteStep
  have h := repeat_bitStep_spec w (by omega) hw' poly
    (v ^^^ (if refIn then reflect (b.setWidth 32) 8 <<< (w - 8) else b.setWidth 32 <<< (w - 8))) 8
  rw [regPoly_xor, byte_poly w hw hw'] at h
  refine h.trans (dvd_of_eq ?_)
  have e : (X : (ZMod 2)[X]) ^ w = X ^ (w - 8) * X ^ 8 := by rw [← pow_add]; congr 1; omega
  rw [e]
  ring

theorem msgBits_cons (r : Bool) (b : BitVec 8) (l : List (BitVec 8)) :
    msgBits r (b :: l) = byteBits r b ++ msgBits r l := by simp [msgBits]

theorem msgBits_length (r : Bool) (l : List (BitVec 8)) : (msgBits r l).length = 8 * l.length := by
  induction l with
  | nil => simp [msgBits]
  | cons b l ih => rw [msgBits_cons, List.length_append, byteBits_length, ih]; simp; omega

theorem fold_spec (w : Nat) (hw : 8 ≤ w) (hw' : w ≤ 32) (poly : BitVec 32) (refIn : Bool)
    (l : List (BitVec 8)) : ∀ (v : BitVec 32),
    gen w poly ∣ regPoly w (l.foldl (byteStep w (1#32 <<< (w - 1))
        (poly &&& (0xFFFFFFFF#32 >>> (32 - w))) refIn) v)
      - (regPoly w v * X ^ (msgBits refIn l).length + bitsPoly (msgBits refIn l) * X ^ w) := by
  induction l with
  | nil => intro v; simp [msgBits, bitsPoly]
  | cons b l ih =>
    intro v
    simp only [List.foldl_cons]
    have h1 := ih (byteStep w (1#32 <<< (w - 1)) (poly &&& (0xFFFFFFFF#32 >>> (32 - w))) refIn v b)
    have h2 := Dvd.dvd.mul_right (byteStep_spec w hw hw' poly v refIn b)
      (X ^ (msgBits refIn l).length)
    refine (dvd_add h1 h2).trans (dvd_of_eq ?_)
    rw [msgBits_cons, bitsPoly_append, List.length_append, byteBits_length, pow_add]
    ring

theorem fold_remainder (w : Nat) (hw : 8 ≤ w) (hw' : w ≤ 32) (poly : BitVec 32) (refIn : Bool)
    (l : List (BitVec 8)) (v : BitVec 32) :
    regPoly w (l.foldl (byteStep w (1#32 <<< (w - 1))
        (poly &&& (0xFFFFFFFF#32 >>> (32 - w))) refIn) v) = remainder w poly v (msgBits refIn l) := by
  unfold remainder
  have hm := gen_monic w poly
  have h := fold_spec w hw hw' poly refIn l v
  rw [← modByMonic_eq_of_dvd_sub hm h]
  symm
  rw [modByMonic_eq_self_iff hm, degree_gen]
  exact degree_regPoly_lt w _

theorem compute_bit (w : Nat) (hw : 8 ≤ w) (hw' : w ≤ 32) (l : List (BitVec 8))
    (poly init : BitVec 32) (refIn refOut : Bool) (xorOut : BitVec 32) (i : Nat) :
    (compute w l poly init refIn refOut xorOut).getLsbD i
      = (decide (i < w) && crcBit w poly init refOut xorOut (msgBits refIn l) i) := by
  unfold compute
  simp only
  set v := l.foldl (byteStep w (1#32 <<< (w - 1)) (poly &&& (0xFFFFFFFF#32 >>> (32 - w))) refIn) init
    with hv
  have hr : regPoly w v = remainder w poly init (msgBits refIn l) :=
    fold_remainder w hw hw' poly refIn l init
  have hmask : ∀ j, (0xFFFFFFFF#32 >>> (32 - w)).getLsbD j = decide (j < w) := by
    intro j
    have : (0xFFFFFFFF#32) = BitVec.allOnes 32 := by decide
    rw [this, BitVec.getLsbD_ushiftRight, BitVec.getLsbD_allOnes]
    simp; omega
  have hco : ∀ j, j < w → decide ((remainder w poly init (msgBits refIn l)).coeff j = 1)
      = v.getLsbD j := by
    intro j hj
    rw [← hr, coeff_regPoly, if_pos hj]
    cases v.getLsbD j <;> decide
  rw [BitVec.getLsbD_and, hmask]
  by_cases hi : i < w
  · simp only [hi, decide_true, Bool.and_true, Bool.true_and]
    unfold crcBit
    cases refOut
    · simp only [Bool.false_eq_true, if_false, BitVec.getLsbD_xor, BitVec.getLsbD_and, hmask, hi,
        decide_true, Bool.and_true]
      rw [hco i hi]
    · simp only [if_true, BitVec.getLsbD_xor, BitVec.getLsbD_and, hmask, hi,
        decide_true, Bool.and_true, reflect_bit v w hw', Bool.true_and]
      rw [hco _ (by omega)]
  · simp [hi]

end Verif.Crc
