import Verif.Bitfield.Model

/-!
# Specification of a bit field: a function from bit number to bit

Independent of the word-level code: the area is a sequence of bits, bit `i` being bit
`i % 8` of byte `i / 8`; bits past the end are 0.
-/

namespace Verif.Bitfield.Spec

/-- Bit `i` of a byte area; 0 past the end. -/
def bit (m : Array (BitVec 8)) (i : Nat) : Bool := (m.getD (i / 8) 0#8).getLsbD (i % 8)

/-- Effect of a call on the bits `0 .. n-1`. -/
def step (n : Nat) (f : Nat → Bool) : Op → Nat → Bool
  | .clearAll, _ => false
  | .setAll, j => decide (j < n)
  | .setBit i, j => if j = i then true else f j
  | .clearBit i, j => if j = i then false else f j
  | .toggleBit i, j => if j = i then !f j else f j
  | .writeBit i b, j => if j = i then b else f j
  | .writeUINTn i k v, j =>
      if k = 1 then (if j = i then v != 0#32 else f j)
      else if i ≤ j ∧ j < i + k ∧ j < n then v.getLsbD (j - i) else f j
  | .writeFloat i v, j => if i ≤ j ∧ j < i + 32 ∧ j < n then v.getLsbD (j - i) else f j

/-- Effect of a sequence of calls. -/
def run (n : Nat) (f : Nat → Bool) : List Op → Nat → Bool
  | [] => f
  | o :: os => run n (step n f o) os

/-- Calls inside the documented domain: index inside the area of `n` bits, width 1..32. -/
def InRange (n : Nat) : Op → Prop
  | .clearAll | .setAll => True
  | .setBit i | .clearBit i | .toggleBit i => i < n
  | .writeBit i _ => i < n
  | .writeUINTn i k _ => i < n ∧ 1 ≤ k ∧ k ≤ 32
  | .writeFloat i _ => i < n

end Verif.Bitfield.Spec
