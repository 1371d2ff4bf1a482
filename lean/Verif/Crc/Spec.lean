import Verif.Crc.Model
import Mathlib.Algebra.Polynomial.Div
import Mathlib.Data.ZMod.Basic

/-!
# Specification of a cyclic redundancy check

Written without reference to the model: polynomials over GF(2) and their remainder.
-/

namespace Verif.Crc.Spec

open Polynomial

/-- A bit as an element of GF(2). -/
def b2z (b : Bool) : ZMod 2 := if b then 1 else 0

/-- The bits of a byte in transmission order: most significant first, or least
significant first when the input is reflected. -/
def byteBits (refIn : Bool) (b : BitVec 8) : List Bool :=
  if refIn then (List.range 8).map (fun i => b.getLsbD i)
  else (List.range 8).map (fun i => b.getLsbD (7 - i))

/-- The bits of a message in transmission order. -/
def msgBits (refIn : Bool) (msg : List (BitVec 8)) : List Bool := msg.flatMap (byteBits refIn)

/-- The polynomial whose coefficients are the given bits, highest degree first. -/
noncomputable def bitsPoly (l : List Bool) : (ZMod 2)[X] :=
  l.foldl (fun p b => p * X + C (b2z b)) 0

/-- The polynomial of the low `w` bits of a register (bit `i` is the coefficient of
`X^i`). -/
noncomputable def regPoly (w : Nat) (v : BitVec 32) : (ZMod 2)[X] :=
  ∑ i ∈ Finset.range w, C (b2z (v.getLsbD i)) * X ^ i

/-- The generator polynomial `X^w + poly`. -/
noncomputable def gen (w : Nat) (poly : BitVec 32) : (ZMod 2)[X] := X ^ w + regPoly w poly

/-- The CRC remainder: initial value (aligned with the first `w` message bits) plus message,
times `X^w`, modulo the generator. -/
noncomputable def remainder (w : Nat) (poly init : BitVec 32) (bits : List Bool) : (ZMod 2)[X] :=
  (regPoly w init * X ^ bits.length + bitsPoly bits * X ^ w) %ₘ gen w poly

/-- Bit `i` of the final checksum. -/
noncomputable def crcBit (w : Nat) (poly init : BitVec 32) (refOut : Bool) (xorOut : BitVec 32)
    (bits : List Bool) (i : Nat) : Bool :=
  xor (decide ((remainder w poly init bits).coeff (if refOut then w - 1 - i else i) = 1))
      (xorOut.getLsbD i)

/-- Bytewise XOR of two messages. -/
def xorMsg (a b : List (BitVec 8)) : List (BitVec 8) := List.zipWith (· ^^^ ·) a b

/-- The bytes of a `w`-bit checksum in transmission order: most significant byte first, or
least significant byte first for reflected checksums. -/
def crcBytes (w : Nat) (refl : Bool) (v : BitVec 32) : List (BitVec 8) :=
  (List.range (w / 8)).map fun j => (v >>> (if refl then 8 * j else w - 8 - 8 * j)).setWidth 8

end Verif.Crc.Spec
