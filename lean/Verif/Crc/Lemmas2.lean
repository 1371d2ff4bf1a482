import Verif.Crc.Lemmas
import Mathlib.RingTheory.Coprime.Basic
import Mathlib.Algebra.Polynomial.FieldDivision
import Mathlib.Algebra.Field.ZMod

namespace Verif.Crc

open Polynomial Spec

theorem width_cases {mode w : Nat} (h : widthOf mode = some w) : w = 8 ∨ w = 16 ∨ w = 32 := by
  unfold widthOf at h
  split at h <;> simp_all

theorem generic_eq_compute {mode w : Nat} (h : widthOf mode = some w) {msg : List (BitVec 8)}
    (hm : msg ≠ []) (poly init : BitVec 32) (refIn refOut : Bool) (xorOut : BitVec 32) :
    generic mode (some msg) poly init refIn refOut xorOut
      = compute w msg poly init refIn refOut xorOut := by
  unfold generic
  have : msg.length > 0 := by cases msg <;> simp_all
  simp [this, h]

theorem generic_bit (mode w : Nat) (hw : widthOf mode = some w)
    (msg : List (BitVec 8)) (hm : msg ≠ []) (poly init : BitVec 32) (refIn refOut : Bool)
    (xorOut : BitVec 32) (i : Nat) :
    (generic mode (some msg) poly init refIn refOut xorOut).getLsbD i
      = (decide (i < w) && crcBit w poly init refOut xorOut (msgBits refIn msg) i) := by
  rw [generic_eq_compute hw hm]
  exact compute_bit w (by rcases width_cases hw with h | h | h <;> omega)
    (by rcases width_cases hw with h | h | h <;> omega) msg poly init refIn refOut xorOut i

/-- Two results are equal as soon as their remainders are. -/
theorem remainder_eq_of_generic_eq {mode w : Nat} (hw : widthOf mode = some w)
    {m1 m2 : List (BitVec 8)} (h1 : m1 ≠ []) (h2 : m2 ≠ []) {poly init : BitVec 32}
    {refIn refOut : Bool} {xorOut : BitVec 32}
    (h : generic mode (some m1) poly init refIn refOut xorOut
       = generic mode (some m2) poly init refIn refOut xorOut) :
    remainder w poly init (msgBits refIn m1) = remainder w poly init (msgBits refIn m2) := by
  have hw8 : 8 ≤ w := by rcases width_cases hw with h | h | h <;> omega
  have hw32 : w ≤ 32 := by rcases width_cases hw with h | h | h <;> omega
  have key : ∀ j, j < w → (decide ((remainder w poly init (msgBits refIn m1)).coeff j = 1)
      = decide ((remainder w poly init (msgBits refIn m2)).coeff j = 1)) := by
    intro j hj
    have := congrArg (fun v => v.getLsbD (if refOut then w - 1 - j else j)) h
    rw [generic_bit mode w hw m1 h1, generic_bit mode w hw m2 h2] at this
    have hlt : (if refOut then w - 1 - j else j) < w := by split <;> omega
    have hidx : (if refOut then w - 1 - (if refOut then w - 1 - j else j)
        else (if refOut then w - 1 - j else j)) = j := by cases refOut <;> simp <;> omega
    simp only [hlt, decide_true, Bool.true_and, crcBit] at this
    rw [hidx] at this
    exact Bool.xor_left_inj.mp this
  ext j
  rw [← fold_remainder w hw8 hw32, ← fold_remainder w hw8 hw32]
  rw [coeff_regPoly, coeff_regPoly]
  split
  · rename_i hj
    have hk := key j hj
    rw [← fold_remainder w hw8 hw32, ← fold_remainder w hw8 hw32] at hk
    simp only [coeff_regPoly, if_pos hj, decide_eq_decide, b2z_eq_one] at hk
    congr 1
    exact Bool.eq_iff_iff.mpr hk
  · rfl

theorem bitsPoly_byteBits_xor (r : Bool) (a b : BitVec 8) :
    bitsPoly (byteBits r (a ^^^ b)) = bitsPoly (byteBits r a) + bitsPoly (byteBits r b) := by
  ext i
  simp only [coeff_bitsPoly, coeff_add, byteBits_length]
  split
  · rw [← b2z_xor]
    congr 1
    cases r <;> simp [byteBits]
  · simp

theorem bitsPoly_xorMsg (r : Bool) : ∀ (a b : List (BitVec 8)), a.length = b.length →
    bitsPoly (msgBits r (xorMsg a b)) = bitsPoly (msgBits r a) + bitsPoly (msgBits r b)
  | [], [], _ => by simp [xorMsg, msgBits, bitsPoly]
  | a :: as, b :: bs, h => by
    have ih := bitsPoly_xorMsg r as bs (by simpa using h)
    have e : xorMsg (a :: as) (b :: bs) = (a ^^^ b) :: xorMsg as bs := rfl
    have hl : (msgBits r (xorMsg as bs)).length = (msgBits r as).length := by
      rw [msgBits_length, msgBits_length]; simp at h; simp [xorMsg, h]
    have hl2 : (msgBits r bs).length = (msgBits r as).length := by
      rw [msgBits_length, msgBits_length]; simp at h; simp [h]
    rw [e, msgBits_cons, msgBits_cons, msgBits_cons, bitsPoly_append, bitsPoly_append,
      bitsPoly_append, ih, bitsPoly_byteBits_xor, hl, hl2]
    ring

theorem two_eq_zero : (2 : (ZMod 2)[X]) = 0 := by
  have : (2 : (ZMod 2)[X]) = C (2 : ZMod 2) := (map_ofNat C 2).symm
  rw [this, show (2 : ZMod 2) = 0 by decide, C_0]

/-- Messages with the same bits are the same message. -/
theorem msgBits_inj (r : Bool) : ∀ (a b : List (BitVec 8)), a.length = b.length →
    msgBits r a = msgBits r b → a = b
  | [], [], _, _ => rfl
  | a :: as, b :: bs, hl, h => by
    rw [msgBits_cons, msgBits_cons] at h
    have := List.append_inj h (by simp [byteBits_length])
    have ih := msgBits_inj r as bs (by simpa using hl) this.2
    have hab : a = b := by
      apply BitVec.eq_of_getLsbD_eq
      intro i hi
      have h1 := this.1
      cases r
      · have := congrArg (fun l => l[7 - i]?) h1
        have h7 : 7 - i < 8 := by omega
        have e : 7 - (7 - i) = i := by omega
        simp [byteBits, h7, e] at this
        exact this
      · have := congrArg (fun l => l[i]?) h1
        simp [byteBits, hi] at this
        exact this
    rw [hab, ih]

theorem coeff_byte (r : Bool) (v : BitVec 32) (s i : Nat) :
    (bitsPoly (byteBits r ((v >>> s).setWidth 8))).coeff i
      = if i < 8 then b2z (v.getLsbD (s + (if r then 7 - i else i))) else 0 := by
  rw [coeff_bitsPoly]
  simp only [byteBits_length]
  split
  · rename_i h
    congr 1
    cases r
    · have e : 7 - (8 - 1 - i) = i := by omega
      simp [byteBits, e, h]
    · have h7 : 7 - i < 8 := by omega
      simp [byteBits, h7]
  · rfl

theorem crcBytes_poly (w : Nat) (hw : w = 8 ∨ w = 16 ∨ w = 32) (r : Bool) (v : BitVec 32) :
    bitsPoly (msgBits r (crcBytes w r v)) = regPoly w (if r then reflect v w else v) := by
  have h0 : bitsPoly (msgBits r []) = 0 := by simp [msgBits, bitsPoly]
  have hreg : ∀ i, (regPoly w (if r then reflect v w else v)).coeff i
      = if i < w then b2z (v.getLsbD (if r then w - 1 - i else i)) else 0 := by
    intro i
    rw [coeff_regPoly]
    split
    · rename_i h
      cases r
      · simp
      · simp only [if_true, reflect_bit v w (by omega), h, decide_true, Bool.true_and]
    · rfl
  ext i
  rw [hreg]
  rcases hw with h | h | h <;> subst h
  · have : crcBytes 8 r v = [(v >>> 0).setWidth 8] := by
      cases r <;> simp [crcBytes, List.range_succ]
    rw [this, msgBits_cons, bitsPoly_append, h0, coeff_add, coeff_zero, msgBits_length,
      coeff_mul_X_pow', coeff_byte]
    simp
  · have : crcBytes 16 r v = [(v >>> (if r then 0 else 8)).setWidth 8,
        (v >>> (if r then 8 else 0)).setWidth 8] := by
      cases r <;> simp [crcBytes, List.range_succ]
    simp only [this, msgBits_cons, bitsPoly_append, h0, coeff_add, coeff_zero, msgBits_length,
      coeff_mul_X_pow', coeff_byte, List.length_append, byteBits_length]
    have hi : i < 8 ∨ (8 ≤ i ∧ i < 16) ∨ 16 ≤ i := by omega
    simp only [List.length_nil]
    rcases hi with hi | hi | hi <;> cases r <;>
      simp (disch := omega) only [if_pos, if_neg, Bool.false_eq_true, if_true, if_false, add_zero,
        zero_add] <;> (try rfl) <;> (congr 2; omega)
  · have : crcBytes 32 r v = [(v >>> (if r then 0 else 24)).setWidth 8,
        (v >>> (if r then 8 else 16)).setWidth 8, (v >>> (if r then 16 else 8)).setWidth 8,
        (v >>> (if r then 24 else 0)).setWidth 8] := by
      cases r <;> simp [crcBytes, List.range_succ]
    simp only [this, msgBits_cons, bitsPoly_append, h0, coeff_add, coeff_zero, msgBits_length,
      coeff_mul_X_pow', coeff_byte, List.length_append, byteBits_length]
    have hi : i < 8 ∨ (8 ≤ i ∧ i < 16) ∨ (16 ≤ i ∧ i < 24) ∨ (24 ≤ i ∧ i < 32) ∨ 32 ≤ i := by omega
    simp only [List.length_nil]
    rcases hi with hi | hi | hi | hi | hi <;> cases r <;>
      simp (disch := omega) only [if_pos, if_neg, Bool.false_eq_true, if_true, if_false, add_zero,
        zero_add] <;> (try rfl) <;> (congr 2; omega)

theorem remainder_degree (w : Nat) (poly init : BitVec 32) (bits : List Bool) :
    (remainder w poly init bits).degree < w := by
  unfold remainder
  have := degree_modByMonic_lt
    (regPoly w init * X ^ bits.length + bitsPoly bits * X ^ w) (gen_monic w poly)
  rwa [degree_gen] at this

/-- The transmitted checksum is the remainder plus the final XOR value, as polynomials. -/
theorem generic_poly (mode w : Nat) (hw : widthOf mode = some w) (msg : List (BitVec 8))
    (hm : msg ≠ []) (poly init : BitVec 32) (r : Bool) (xorOut : BitVec 32) :
    bitsPoly (msgBits r (crcBytes w r (generic mode (some msg) poly init r r xorOut)))
      = remainder w poly init (msgBits r msg) + regPoly w (if r then reflect xorOut w else xorOut) := by
  have hw32 : w ≤ 32 := by rcases width_cases hw with h | h | h <;> omega
  rw [crcBytes_poly w (width_cases hw)]
  ext i
  rw [coeff_add, coeff_regPoly, coeff_regPoly]
  by_cases hi : i < w
  · rw [if_pos hi, if_pos hi]
    have hb : ∀ x : ZMod 2, ∀ t : Bool, b2z (decide (x = 1) ^^ t) = x + b2z t := by decide
    cases r
    · simp only [Bool.false_eq_true, if_false]
      rw [generic_bit mode w hw msg hm]
      simp only [hi, decide_true, Bool.true_and, crcBit, Bool.false_eq_true, if_false]
      exact hb _ _
    · simp only [if_true, reflect_bit _ w hw32, hi, decide_true, Bool.true_and]
      rw [generic_bit mode w hw msg hm]
      have hlt : w - 1 - i < w := by omega
      have e : w - 1 - (w - 1 - i) = i := by omega
      simp only [hlt, decide_true, Bool.true_and, crcBit, if_true, e]
      exact hb _ _
  · rw [if_neg hi, if_neg hi, add_zero]
    have := remainder_degree w poly init (msgBits r msg)
    rw [degree_lt_iff_coeff_zero] at this
    rw [this i (by omega)]

end Verif.Crc
