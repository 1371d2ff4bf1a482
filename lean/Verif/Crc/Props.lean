import Verif.Crc.Lemmas2

/-!
# Properties C01 - C05 (cyclic redundancy check)
-/

namespace Verif.Crc

open Polynomial Spec

/-- **C01.** Every bit of the value returned for a non-empty message is the corresponding
coefficient (reflected on request) of the remainder of `init·X^(8n) + message·X^w` modulo
`X^w + poly`, XORed with `xorOut`; bits above the width are zero. -/
theorem C01_generic_is_remainder (mode w : Nat) (hw : widthOf mode = some w)
    (msg : List (BitVec 8)) (hm : msg ≠ []) (poly init : BitVec 32) (refIn refOut : Bool)
    (xorOut : BitVec 32) (i : Nat) :
    (generic mode (some msg) poly init refIn refOut xorOut).getLsbD i
      = (decide (i < w) && crcBit w poly init refOut xorOut (msgBits refIn msg) i) := by
  rw [generic_eq_compute hw hm]
  exact compute_bit w (by rcases width_cases hw with h | h | h <;> omega)
    (by rcases width_cases hw with h | h | h <;> omega) msg poly init refIn refOut xorOut i

/-- The three modes are the three widths (so the hypothesis of C01 is met exactly by the
documented modes), and the standard check value of CRC-32. -/
example : widthOf 0 = some 8 ∧ widthOf 1 = some 16 ∧ widthOf 2 = some 32 := ⟨rfl, rfl, rfl⟩
example : generic 2 (some [0x31, 0x32, 0x33, 0x34, 0x35, 0x36, 0x37, 0x38, 0x39])
    0x04C11DB7 0xFFFFFFFF true true 0xFFFFFFFF = 0xCBF43926 := by decide +kernel

/-- **C02.** The checksum is affine: for three messages of the same length, the checksum of
their XOR is the XOR of their checksums. -/
theorem C02_affine (mode : Nat) (a b c : List (BitVec 8)) (hab : a.length = b.length)
    (hbc : b.length = c.length) (poly init : BitVec 32) (refIn refOut : Bool) (xorOut : BitVec 32) :
    generic mode (some (xorMsg (xorMsg a b) c)) poly init refIn refOut xorOut
      = generic mode (some a) poly init refIn refOut xorOut
        ^^^ generic mode (some b) poly init refIn refOut xorOut
        ^^^ generic mode (some c) poly init refIn refOut xorOut := by
  by_cases ha : a = []
  · subst ha
    have hb : b = [] := by simpa using hab.symm
    subst hb
    have hc : c = [] := by simpa using hbc.symm
    subst hc
    simp [generic, xorMsg]
  have la : 0 < a.length := List.length_pos_iff.mpr ha
  cases hwm : widthOf mode with
  | none => simp [generic, hwm]
  | some w =>
    have hb : b ≠ [] := by intro h; subst h; simp at hab; exact ha hab
    have hc : c ≠ [] := by intro h; subst h; simp at hbc; exact hb hbc
    have hlx : (xorMsg (xorMsg a b) c).length = a.length := by simp [xorMsg]; omega
    have hx : xorMsg (xorMsg a b) c ≠ [] := by intro h; rw [h] at hlx; simp at hlx; omega
    have hw8 : 8 ≤ w := by rcases width_cases hwm with h | h | h <;> omega
    have hw32 : w ≤ 32 := by rcases width_cases hwm with h | h | h <;> omega
    have hlin : remainder w poly init (msgBits refIn (xorMsg (xorMsg a b) c))
        = remainder w poly init (msgBits refIn a) + remainder w poly init (msgBits refIn b)
          + remainder w poly init (msgBits refIn c) := by
      unfold remainder
      rw [← add_modByMonic, ← add_modByMonic]
      congr 1
      rw [bitsPoly_xorMsg, bitsPoly_xorMsg, msgBits_length, msgBits_length, msgBits_length,
        msgBits_length, hlx, ← hbc, ← hab]
      · linear_combination (-(regPoly w init * X ^ (8 * a.length))) * two_eq_zero
      · exact hab
      · simp [xorMsg]; omega
    apply BitVec.eq_of_getLsbD_eq
    intro i _
    simp only [BitVec.getLsbD_xor]
    rw [C01_generic_is_remainder mode w hwm _ hx, C01_generic_is_remainder mode w hwm _ ha,
      C01_generic_is_remainder mode w hwm _ hb, C01_generic_is_remainder mode w hwm _ hc]
    by_cases hi : i < w
    · simp only [hi, decide_true, Bool.true_and, crcBit]
      rw [hlin]
      generalize (if refOut then w - 1 - i else i) = j
      rw [coeff_add, coeff_add]
      generalize (remainder w poly init (msgBits refIn a)).coeff j = x
      generalize (remainder w poly init (msgBits refIn b)).coeff j = y
      generalize (remainder w poly init (msgBits refIn c)).coeff j = z
      have : ∀ x y z : ZMod 2, ∀ t : Bool, (decide (x + y + z = 1) ^^ t)
        = ((decide (x = 1) ^^ t) ^^ (decide (y = 1) ^^ t) ^^ (decide (z = 1) ^^ t)) := by decide
      exact this x y z _
    · simp [hi]

example : ([1, 2] : List (BitVec 8)).length = ([3, 4] : List (BitVec 8)).length ∧
    ([3, 4] : List (BitVec 8)).length = ([5, 6] : List (BitVec 8)).length := by decide

/-- **C03.** If the generator polynomial is odd, two different messages of equal length whose
bits (in transmission order) agree outside a window of `w` consecutive bits starting at `k`
have different checksums. -/
theorem C03_burst_detection (mode w : Nat) (hw : widthOf mode = some w)
    (m1 m2 : List (BitVec 8)) (hlen : m1.length = m2.length) (hne : m1 ≠ m2)
    (poly init : BitVec 32) (hodd : poly.getLsbD 0 = true)
    (refIn refOut : Bool) (xorOut : BitVec 32) (k : Nat)
    (hburst : ∀ j, (j < k ∨ k + w ≤ j) → (msgBits refIn m1)[j]? = (msgBits refIn m2)[j]?) :
    generic mode (some m1) poly init refIn refOut xorOut
      ≠ generic mode (some m2) poly init refIn refOut xorOut := by
  intro heq
  have hw8 : 8 ≤ w := by rcases width_cases hw with h | h | h <;> omega
  have h1 : m1 ≠ [] := by
    intro h; subst h
    exact hne (List.length_eq_zero_iff.mp (by simpa using hlen.symm)).symm
  have h2 : m2 ≠ [] := by
    intro h; subst h; simp at hlen; exact h1 hlen
  have hr := remainder_eq_of_generic_eq hw h1 h2 heq
  have hL1 : (msgBits refIn m1).length = 8 * m1.length := msgBits_length _ _
  have hL2 : (msgBits refIn m2).length = 8 * m1.length := by rw [msgBits_length, hlen]
  -- the generator divides the error polynomial times X^w
  have hdvd : gen w poly ∣ (bitsPoly (msgBits refIn m1) - bitsPoly (msgBits refIn m2)) * X ^ w := by
    unfold remainder at hr
    rw [← sub_eq_zero, ← sub_modByMonic, modByMonic_eq_zero_iff_dvd (gen_monic w poly)] at hr
    refine hr.trans (dvd_of_eq ?_)
    rw [hL1, hL2]; ring
  have hcop : IsCoprime (gen w poly) (X : (ZMod 2)[X]) := by
    have h0 : (gen w poly).coeff 0 = 1 := by
      unfold gen
      rw [coeff_add, coeff_X_pow, coeff_regPoly, if_neg (by omega), if_pos (by omega), hodd]
      decide
    have e := divX_mul_X_add (gen w poly)
    rw [h0, C_1] at e
    exact ⟨1, -(gen w poly).divX, by linear_combination -e⟩
  have hE : gen w poly ∣ bitsPoly (msgBits refIn m1) - bitsPoly (msgBits refIn m2) :=
    (IsCoprime.pow_right hcop).dvd_of_dvd_mul_right hdvd
  -- the error polynomial is X^s times a polynomial of degree < w
  set E := bitsPoly (msgBits refIn m1) - bitsPoly (msgBits refIn m2) with hEdef
  have hcoeff : ∀ i, E.coeff i ≠ 0 → i < 8 * m1.length ∧ k ≤ 8 * m1.length - 1 - i ∧
      8 * m1.length - 1 - i < k + w := by
    intro i hi
    have hi8 : i < 8 * m1.length := by
      by_contra hc
      apply hi
      rw [hEdef, coeff_sub, coeff_bitsPoly, coeff_bitsPoly, dif_neg (by omega), dif_neg (by omega),
        sub_zero]
    refine ⟨hi8, ?_⟩
    by_contra hc
    apply hi
    have hj := hburst (8 * m1.length - 1 - i) (by omega)
    rw [hEdef, coeff_sub, coeff_bitsPoly, coeff_bitsPoly, dif_pos (by omega), dif_pos (by omega)]
    have g1 : (msgBits refIn m1)[8 * m1.length - 1 - i]? = some ((msgBits refIn m1)[(msgBits refIn m1).length - 1 - i]'(by omega)) := by
      rw [List.getElem?_eq_getElem (by omega)]
      simp only [hL1]
    have g2 : (msgBits refIn m2)[8 * m1.length - 1 - i]? = some ((msgBits refIn m2)[(msgBits refIn m2).length - 1 - i]'(by omega)) := by
      rw [List.getElem?_eq_getElem (by omega)]
      simp only [hL2]
    rw [g1, g2] at hj
    rw [Option.some.inj hj, sub_self]
  have hE0 : E ≠ 0 := by
    intro h0
    apply hne
    apply msgBits_inj refIn _ _ hlen
    apply List.ext_getElem (by omega)
    intro j hj1 hj2
    have := congrArg (fun p => p.coeff (8 * m1.length - 1 - j)) h0
    simp only [hEdef, coeff_sub, coeff_zero] at this
    rw [coeff_bitsPoly, coeff_bitsPoly, dif_pos (by omega), dif_pos (by omega), sub_eq_zero] at this
    have e1 : (msgBits refIn m1).length - 1 - (8 * m1.length - 1 - j) = j := by omega
    have e2 : (msgBits refIn m2).length - 1 - (8 * m1.length - 1 - j) = j := by omega
    simp only [e1, e2] at this
    revert this
    cases (msgBits refIn m1)[j] <;> cases (msgBits refIn m2)[j] <;> simp [b2z]
  set s := 8 * m1.length - (k + w) with hs
  have hXs : (X : (ZMod 2)[X]) ^ s ∣ E := by
    rw [X_pow_dvd_iff]
    intro d hd
    by_contra hc
    have := hcoeff d hc
    omega
  obtain ⟨B, hB⟩ := hXs
  have hB0 : B ≠ 0 := by intro h; rw [h, mul_zero] at hB; exact hE0 hB
  have hPB : gen w poly ∣ B := by
    rw [hB] at hE
    exact (IsCoprime.pow_right hcop).dvd_of_dvd_mul_left hE
  have hBdeg : B.degree < w := by
    rw [degree_lt_iff_coeff_zero]
    intro m hm
    by_contra hc
    have : E.coeff (m + s) ≠ 0 := by
      rw [hB, mul_comm, coeff_mul_X_pow]; exact hc
    have := hcoeff _ this
    omega
  have : Fact (Nat.Prime 2) := ⟨Nat.prime_two⟩
  have := degree_le_of_dvd hPB hB0
  rw [degree_gen] at this
  exact absurd hBdeg (not_lt.mpr this)

/-- The hypotheses of C03 are met by a two-byte burst in a four-byte frame. -/
example : ∀ j, (j < 8 ∨ 8 + 16 ≤ j) →
    (msgBits false [1, 2, 3, 4])[j]? = (msgBits false [1, 0x92, 0x8F, 4])[j]? := by
  intro j hj
  by_cases h : j < 32
  · have : ∀ j : Fin 32, (j.val < 8 ∨ 8 + 16 ≤ j.val) →
        (msgBits false [1, 2, 3, 4])[j.val]? = (msgBits false [1, 0x92, 0x8F, 4])[j.val]? := by decide
    exact this ⟨j, h⟩ hj
  · rw [List.getElem?_eq_none, List.getElem?_eq_none] <;> rw [msgBits_length] <;> simp <;> omega

/-- **C03 applies to every preset**: all generator polynomials are odd and all modes valid
(the finite table is checked completely). -/
theorem C03_presets_odd :
    ∀ p ∈ presets, p.poly.getLsbD 0 = true ∧ (widthOf p.mode).isSome = true := by decide +kernel

/-- **C04, guards.** Null pointer, zero length and unknown mode give 0. -/
theorem C04_guards (mode : Nat) (data : Option (List (BitVec 8))) (poly init : BitVec 32)
    (refIn refOut : Bool) (xorOut : BitVec 32)
    (h : data = none ∨ data = some [] ∨ 3 ≤ mode) :
    generic mode data poly init refIn refOut xorOut = 0#32 := by
  rcases h with h | h | h
  · subst h; rfl
  · subst h; rfl
  · have : widthOf mode = none := by
      unfold widthOf; split <;> first | omega | rfl
    unfold generic
    cases data with
    | none => rfl
    | some l => simp [this]

/-- **C04, range.** The result always fits in the selected width (also for presets, so their
final cast is lossless). -/
theorem C04_fits (mode w : Nat) (hw : widthOf mode = some w) (data : Option (List (BitVec 8)))
    (poly init : BitVec 32) (refIn refOut : Bool) (xorOut : BitVec 32) :
    (generic mode data poly init refIn refOut xorOut).toNat < 2 ^ w := by
  apply Nat.lt_pow_two_of_testBit
  intro i hi
  cases data with
  | none => simp [generic]
  | some msg =>
    by_cases hm : msg = []
    · subst hm; simp [generic]
    · have := C01_generic_is_remainder mode w hw msg hm poly init refIn refOut xorOut i
      have hlt : ¬ i < w := by omega
      simpa [hlt, BitVec.getLsbD] using this

/-- **C04, independence of the unused high bits** of `poly`, `init` and `xorOut`. -/
theorem C04_high_bits_irrelevant (mode w : Nat) (hw : widthOf mode = some w)
    (data : Option (List (BitVec 8))) (poly poly' init init' : BitVec 32) (refIn refOut : Bool)
    (xorOut xorOut' : BitVec 32)
    (hp : ∀ i, i < w → poly.getLsbD i = poly'.getLsbD i)
    (hi : ∀ i, i < w → init.getLsbD i = init'.getLsbD i)
    (hx : ∀ i, i < w → xorOut.getLsbD i = xorOut'.getLsbD i) :
    generic mode data poly init refIn refOut xorOut
      = generic mode data poly' init' refIn refOut xorOut' := by
  cases data with
  | none => rfl
  | some msg =>
    by_cases hm : msg = []
    · subst hm; rfl
    · have hreg : ∀ a b : BitVec 32, (∀ i, i < w → a.getLsbD i = b.getLsbD i) →
          regPoly w a = regPoly w b := by
        intro a b h
        ext i
        rw [coeff_regPoly, coeff_regPoly]
        split
        · rename_i hlt; rw [h i hlt]
        · rfl
      apply BitVec.eq_of_getLsbD_eq
      intro i _
      rw [C01_generic_is_remainder mode w hw _ hm, C01_generic_is_remainder mode w hw _ hm]
      by_cases hlt : i < w
      · unfold crcBit remainder gen
        rw [hreg _ _ hp, hreg _ _ hi, hx i hlt]
      · simp [hlt]

example : ∀ i, i < 8 → (0xFFFFFF07#32).getLsbD i = (0x07#32).getLsbD i := by decide

/-- **C05, general form.** When input and output use the same bit order, the checksum of a
message followed by its own checksum does not depend on the message nor on `init`: it is
the residue, the checksum (with `init = 0`) of the final XOR value itself. -/
theorem C05_residue (mode w : Nat) (hw : widthOf mode = some w) (msg : List (BitVec 8))
    (hm : msg ≠ []) (poly init : BitVec 32) (r : Bool) (xorOut : BitVec 32) :
    generic mode
      (some (msg ++ crcBytes w r (generic mode (some msg) poly init r r xorOut)))
      poly init r r xorOut
    = generic mode (some (crcBytes w r xorOut)) poly 0 r r xorOut := by
  have hwc := width_cases hw
  have hlen : ∀ v, (crcBytes w r v).length = w / 8 := by intro v; simp [crcBytes]
  have hne : crcBytes w r xorOut ≠ [] := by
    intro h
    have := hlen xorOut
    rw [h] at this
    simp at this
    rcases hwc with h | h | h <;> omega
  have hne2 : msg ++ crcBytes w r (generic mode (some msg) poly init r r xorOut) ≠ [] := by
    simp [hm]
  have hrem : remainder w poly init
        (msgBits r (msg ++ crcBytes w r (generic mode (some msg) poly init r r xorOut)))
      = remainder w poly 0 (msgBits r (crcBytes w r xorOut)) := by
    have happ : msgBits r (msg ++ crcBytes w r (generic mode (some msg) poly init r r xorOut))
        = msgBits r msg ++ msgBits r (crcBytes w r (generic mode (some msg) poly init r r xorOut)) := by
      simp [msgBits]
    have hl : (msgBits r (crcBytes w r (generic mode (some msg) poly init r r xorOut))).length = w := by
      rw [msgBits_length, hlen]; rcases hwc with h | h | h <;> omega
    have hz : regPoly w (0 : BitVec 32) = 0 := by
      ext i; rw [coeff_regPoly]; simp [b2z]
    have hP := gen_monic w poly
    rw [happ]
    set A := regPoly w init * X ^ (msgBits r msg).length + bitsPoly (msgBits r msg) * X ^ w with hA
    set XO := regPoly w (if r then reflect xorOut w else xorOut) with hXO
    have hR : gen w poly ∣ A - remainder w poly init (msgBits r msg) := by
      have := modByMonic_add_div A (gen w poly)
      exact ⟨A /ₘ gen w poly, by unfold remainder; linear_combination -this⟩
    unfold remainder at hR ⊢
    rw [List.length_append, hl, bitsPoly_append, hl, crcBytes_poly w hwc r xorOut, ← hXO, hz,
      generic_poly mode w hw msg hm, ← hXO]
    apply modByMonic_eq_of_dvd_sub hP
    obtain ⟨q, hq⟩ := hR
    rw [← hA] at hq
    refine ⟨q * X ^ w + 0, ?_⟩
    unfold remainder
    rw [← hA]
    rw [pow_add]
    linear_combination (X ^ w) * hq + (A %ₘ gen w poly) * X ^ w * two_eq_zero
  apply BitVec.eq_of_getLsbD_eq
  intro i _
  rw [C01_generic_is_remainder mode w hw _ hne2, C01_generic_is_remainder mode w hw _ hne]
  unfold crcBit
  rw [hrem]

/-- **C05.** With `xorOut = 0`, a message followed by its own checksum has checksum 0. -/
theorem C05_zero_residue (mode w : Nat) (hw : widthOf mode = some w) (msg : List (BitVec 8))
    (hm : msg ≠ []) (poly init : BitVec 32) (r : Bool) :
    generic mode
      (some (msg ++ crcBytes w r (generic mode (some msg) poly init r r 0)))
      poly init r r 0 = 0 := by
  rw [C05_residue mode w hw msg hm]
  have hwc := width_cases hw
  have hne : crcBytes w r 0 ≠ [] := by
    intro h
    have := congrArg List.length h
    simp [crcBytes] at this
    rcases hwc with h | h | h <;> omega
  apply BitVec.eq_of_getLsbD_eq
  intro i _
  rw [C01_generic_is_remainder mode w hw _ hne]
  have hz : regPoly w (0 : BitVec 32) = 0 := by
    ext i; rw [coeff_regPoly]; simp [b2z]
  have hb : bitsPoly (msgBits r (crcBytes w r 0)) = 0 := by
    rw [crcBytes_poly w hwc]
    cases r
    · simpa using hz
    · rw [if_pos rfl]
      ext i
      rw [coeff_regPoly, reflect_bit _ w (by rcases hwc with h | h | h <;> omega)]
      simp [b2z]
  have : remainder w poly 0 (msgBits r (crcBytes w r 0)) = 0 := by
    unfold remainder
    rw [hb, hz]; simp
  unfold crcBit
  rw [this]
  simp

/-- Non-vacuity: CRC-16/XMODEM of a two-byte message. -/
example : widthOf 1 = some 16 ∧ ([0x31, 0x32] : List (BitVec 8)) ≠ [] ∧
    generic 1 (some [0x31, 0x32]) 0x1021 0 false false 0 = 0x20B5 ∧
    generic 1 (some [0x31, 0x32, 0x20, 0xB5]) 0x1021 0 false false 0 = 0 := by decide +kernel

end Verif.Crc
