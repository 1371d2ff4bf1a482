import Verif.Base

/-!
# Model of `qlibs::bitfield` (`/repo/src/bitfield.cpp`, `/repo/src/include/bitfield.hpp`)

The user area is an array of bytes owned by the object (in C++ it is borrowed; nobody
else writes it in the model). The code accesses it as `uint32_t*`; the model uses the
little-endian byte order. Alignment of the area is not modelled. `size_t` is `Nat`
(`index + 32` is assumed not to wrap). -/

namespace Verif.Bitfield

/-- The object: `field`, `size` (in bits) and `nSlots`.
`/repo/src/include/bitfield.hpp` lines 36-40. -/
structure BF where
  field : Option (Array (BitVec 8))
  size : Nat
  nSlots : Nat
  deriving DecidableEq

/-- Default-constructed object. `/repo/src/include/bitfield.hpp` lines 38-40, 94. -/
def BF.init : BF := ⟨none, 0, 0⟩

/-- `field[s]` as an rvalue: a 32-bit little-endian load of bytes `4s .. 4s+3`; outside the
area is undefined. Used by every access in `/repo/src/bitfield.cpp` lines 207-247 and
`/repo/src/include/bitfield.hpp` lines 50-72. -/
def ldw (m : Array (BitVec 8)) (s : Nat) : Out (BitVec 32) := do
  let b0 ← rdArr m (4 * s)
  let b1 ← rdArr m (4 * s + 1)
  let b2 ← rdArr m (4 * s + 2)
  let b3 ← rdArr m (4 * s + 3)
  pure (b3 ++ b2 ++ b1 ++ b0)

/-- `field[s] = v`: a 32-bit little-endian store.
`/repo/src/bitfield.cpp` lines 207-247, `/repo/src/include/bitfield.hpp` lines 50-72. -/
def stw (m : Array (BitVec 8)) (s : Nat) (v : BitVec 32) : Out (Array (BitVec 8)) := do
  let m ← wrArr m (4 * s) (v.extractLsb' 0 8)
  let m ← wrArr m (4 * s + 1) (v.extractLsb' 8 8)
  let m ← wrArr m (4 * s + 2) (v.extractLsb' 16 8)
  wrArr m (4 * s + 3) (v.extractLsb' 24 8)

/-- `v << n` on `uint32_t`; undefined for `n >= 32`. C++ operator used in
`/repo/src/bitfield.cpp` lines 153, 220, 241 and `/repo/src/include/bitfield.hpp` line 44. -/
def shl32 (v : BitVec 32) (n : Nat) : Out (BitVec 32) :=
  if n < 32 then .ok (v <<< n) else .ub

/-- `v >> n` on `uint32_t`; undefined for `n >= 32`. C++ operator used in
`/repo/src/bitfield.cpp` line 215 and `/repo/src/include/bitfield.hpp` lines 53, 76. -/
def shr32 (v : BitVec 32) (n : Nat) : Out (BitVec 32) :=
  if n < 32 then .ok (v >>> n) else .ub

/-- `mask`. `/repo/src/include/bitfield.hpp` lines 42-45. -/
def mask (index : Nat) : Out (BitVec 32) := shl32 1#32 (index % 32)

/-- `slot`. `/repo/src/include/bitfield.hpp` lines 46-49. -/
def slot (index : Nat) : Nat := index / 32

/-- `offset`: `index & 31`. `/repo/src/include/bitfield.hpp` lines 78-81. -/
def offset (index : Nat) : Nat := index &&& 31

/-- `get`. `/repo/src/include/bitfield.hpp` lines 50-54. -/
def get (m : Array (BitVec 8)) (index : Nat) : Out (BitVec 32) := do
  let w ← ldw m (slot index)
  let r ← shr32 w (index % 32)
  pure (r &&& 1#32)

/-- `set`. `/repo/src/include/bitfield.hpp` lines 55-59. -/
def set (m : Array (BitVec 8)) (index : Nat) : Out (Array (BitVec 8)) := do
  let w ← ldw m (slot index)
  stw m (slot index) (w ||| (← mask index))

/-- `clear`. `/repo/src/include/bitfield.hpp` lines 60-65. -/
def clear (m : Array (BitVec 8)) (index : Nat) : Out (Array (BitVec 8)) := do
  let w ← ldw m (slot index)
  stw m (slot index) (w &&& ~~~ (← mask index))

/-- `toggle`. `/repo/src/include/bitfield.hpp` lines 66-71. -/
def toggle (m : Array (BitVec 8)) (index : Nat) : Out (Array (BitVec 8)) := do
  let w ← ldw m (slot index)
  stw m (slot index) (w ^^^ (← mask index))

/-- `safeMask`: `val >> (x - nbits)` (the subtraction is never negative in the calls).
`/repo/src/include/bitfield.hpp` lines 72-77. -/
def safeMask (val : BitVec 32) (x nbits : Nat) : Out (BitVec 32) := shr32 val (x - nbits)

/-- `maskMerge`. `/repo/src/include/bitfield.hpp` lines 82-87. -/
def maskMerge (w value mask : BitVec 32) : BitVec 32 := value ^^^ ((w ^^^ value) &&& mask)

/-- `setup`. A null area is `none`. `/repo/src/bitfield.cpp` lines 8-23. -/
def setup (bf : BF) (area : Option (Array (BitVec 8))) (areaSize : Nat) : BF × Bool :=
  if area.isSome && decide (0 < areaSize) then (⟨area, areaSize * 8, areaSize / 4⟩, true)
  else (bf, false)

/-- `memset(field, v, n)`: writes bytes `0 .. n-1`; undefined if the area is shorter.
`/repo/src/bitfield.cpp` lines 30, 41. -/
def memset (m : Array (BitVec 8)) (v : BitVec 8) : Nat → Out (Array (BitVec 8))
  | 0 => .ok m
  | n + 1 => do
    let m ← memset m v n
    wrArr m n v

/-- `memcpy(dst, field, n)`: the first `n` bytes of `dst` replaced; undefined if either
area is shorter. `/repo/src/bitfield.cpp` line 200. -/
def memcpy (dst src : Array (BitVec 8)) : Nat → Out (Array (BitVec 8))
  | 0 => .ok dst
  | n + 1 => do
    let d ← memcpy dst src n
    let b ← rdArr src n
    wrArr d n b

/-- `clearAll`. `/repo/src/bitfield.cpp` lines 25-34. -/
def clearAll (bf : BF) : Out (BF × Bool) :=
  match bf.field with
  | none => .ok (bf, false)
  | some m => do
    let m ← memset m 0#8 (bf.size / 8)
    pure ({ bf with field := some m }, true)

/-- `setAll`. `/repo/src/bitfield.cpp` lines 36-46. -/
def setAll (bf : BF) : Out (BF × Bool) :=
  match bf.field with
  | none => .ok (bf, false)
  | some m => do
    let m ← memset m 0xFF#8 (bf.size / 8)
    pure ({ bf with field := some m }, true)

/-- `setBit`. `/repo/src/bitfield.cpp` lines 48-58. -/
def setBit (bf : BF) (index : Nat) : Out (BF × Bool) :=
  match bf.field with
  | none => .ok (bf, false)
  | some m => do
    let m ← set m index
    pure ({ bf with field := some m }, true)

/-- `clearBit`. `/repo/src/bitfield.cpp` lines 60-70. -/
def clearBit (bf : BF) (index : Nat) : Out (BF × Bool) :=
  match bf.field with
  | none => .ok (bf, false)
  | some m => do
    let m ← clear m index
    pure ({ bf with field := some m }, true)

/-- `toggleBit`. `/repo/src/bitfield.cpp` lines 72-82. -/
def toggleBit (bf : BF) (index : Nat) : Out (BF × Bool) :=
  match bf.field with
  | none => .ok (bf, false)
  | some m => do
    let m ← toggle m index
    pure ({ bf with field := some m }, true)

/-- `readBit`. `/repo/src/bitfield.cpp` lines 84-93. -/
def readBit (bf : BF) (index : Nat) : Out Bool :=
  match bf.field with
  | none => .ok false
  | some m => do
    let r ← get m index
    pure (r != 0#32)

/-- `writeBit`. `/repo/src/bitfield.cpp` lines 95-111. -/
def writeBit (bf : BF) (index : Nat) (value : Bool) : Out (BF × Bool) :=
  match bf.field with
  | none => .ok (bf, false)
  | some m => do
    let m ← if value then set m index else clear m index
    pure ({ bf with field := some m }, true)

/-- `read_uint32`. `/repo/src/bitfield.cpp` lines 207-225. -/
def read_uint32 (m : Array (BitVec 8)) (size index : Nat) : Out (BitVec 32) := do
  let s := slot index
  let off := offset index
  let result ← shr32 (← ldw m s) off
  let bits_taken := 32 - off
  if off ≠ 0 ∧ index + bits_taken < size then
    let hi ← shl32 (← ldw m (s + 1)) bits_taken
    pure (result ||| hi)
  else
    pure result

/-- `write_uint32`. `/repo/src/bitfield.cpp` lines 227-247. -/
def write_uint32 (m : Array (BitVec 8)) (nSlots index : Nat) (value : BitVec 32) :
    Out (Array (BitVec 8)) := do
  let s := slot index
  let off := offset index
  if off = 0 then
    stw m s value
  else
    let wMask ← safeMask 0xFFFFFFFF#32 32 off
    let sh ← shl32 value off
    let m ← stw m s (sh ||| ((← ldw m s) &&& wMask))
    if s + 1 < nSlots then
      let hi ← safeMask value 32 off
      stw m (s + 1) (hi ||| ((← ldw m (s + 1)) &&& ~~~ wMask))
    else
      pure m

/-- `readUINTn`. `/repo/src/bitfield.cpp` lines 113-132. -/
def readUINTn (bf : BF) (index xBits : Nat) : Out (BitVec 32) :=
  match bf.field with
  | none => .ok 0#32
  | some m =>
    if xBits ≤ 32 then
      if xBits = 1 then do
        let b ← readBit bf index
        pure (if b then 1#32 else 0#32)
      else if xBits = 32 then
        read_uint32 m bf.size index
      else do
        let r ← read_uint32 m bf.size index
        let k ← safeMask 0xFFFFFFFF#32 32 xBits
        pure (r &&& k)
    else .ok 0#32

/-- `writeUINTn`. `/repo/src/bitfield.cpp` lines 134-161. -/
def writeUINTn (bf : BF) (index xBits : Nat) (value : BitVec 32) : Out (BF × Bool) :=
  match bf.field with
  | none => .ok (bf, false)
  | some m =>
    if xBits ≤ 32 then
      if xBits = 1 then do
        let r ← writeBit bf index (value != 0#32)
        pure (r.1, true)
      else if xBits = 32 then do
        let m ← write_uint32 m bf.nSlots index value
        pure ({ bf with field := some m }, true)
      else do
        let w ← read_uint32 m bf.size index
        let k ← safeMask 0xFFFFFFFF#32 32 xBits
        let value := value &&& k
        let wMask ← shl32 0xFFFFFFFF#32 xBits
        let m ← write_uint32 m bf.nSlots index (maskMerge w value wMask)
        pure ({ bf with field := some m }, true)
    else .ok (bf, false)

/-- `readFloat`: the float is represented by its bit pattern (`memcpy`).
`/repo/src/bitfield.cpp` lines 163-175. -/
def readFloat (bf : BF) (index : Nat) : Out (BitVec 32) :=
  match bf.field with
  | none => .ok 0#32
  | some m => read_uint32 m bf.size index

/-- `writeFloat`. `/repo/src/bitfield.cpp` lines 177-191. -/
def writeFloat (bf : BF) (index : Nat) (value : BitVec 32) : Out (BF × Bool) :=
  match bf.field with
  | none => .ok (bf, false)
  | some m => do
    let m ← write_uint32 m bf.nSlots index value
    pure ({ bf with field := some m }, true)

/-- `dump`: result is the returned pointer (`none` = null, `some d` = `dst` with contents
`d`). A null `dst` is `none`. `/repo/src/bitfield.cpp` lines 193-205. -/
def dump (bf : BF) (dst : Option (Array (BitVec 8))) (n : Nat) :
    Out (Option (Array (BitVec 8))) :=
  match bf.field, dst with
  | some m, some d =>
    if n ≤ bf.size / 8 then do
      let r ← memcpy d m n
      pure (some r)
    else .ok none
  | _, _ => .ok none

/-- A mutating call of the public interface. `/repo/src/include/bitfield.hpp` lines 97-216. -/
inductive Op where
  | clearAll | setAll
  | setBit (i : Nat) | clearBit (i : Nat) | toggleBit (i : Nat)
  | writeBit (i : Nat) (b : Bool)
  | writeUINTn (i k : Nat) (v : BitVec 32)
  | writeFloat (i : Nat) (v : BitVec 32)

/-- Execute one call, discarding the boolean result. -/
def step (bf : BF) : Op → Out BF
  | .clearAll => do let r ← clearAll bf; pure r.1
  | .setAll => do let r ← setAll bf; pure r.1
  | .setBit i => do let r ← setBit bf i; pure r.1
  | .clearBit i => do let r ← clearBit bf i; pure r.1
  | .toggleBit i => do let r ← toggleBit bf i; pure r.1
  | .writeBit i b => do let r ← writeBit bf i b; pure r.1
  | .writeUINTn i k v => do let r ← writeUINTn bf i k v; pure r.1
  | .writeFloat i v => do let r ← writeFloat bf i v; pure r.1

/-- Execute a sequence of calls. -/
def run (bf : BF) : List Op → Out BF
  | [] => .ok bf
  | o :: os => do let bf ← step bf o; run bf os

end Verif.Bitfield
