import Verif.Base

/-!
# Model of `src/crc.cpp` and the preset wrappers of `src/include/crc.hpp`

Exact: `uint32_t` is `BitVec 32`, a byte is `BitVec 8`. No undefined behaviour is
possible: all shift amounts are below 32 and the buffer is read exactly `length`
times; the buffer is modelled as the list of its `length` bytes (`none` is the null
pointer).
-/

namespace Verif.Crc

/-- `crc::reflect`, `src/crc.cpp:6-22`. The `for` loop is a fold over `xBit`, carrying
`xData` and `r`. -/
def reflect (xData : BitVec 32) (nBits : Nat) : BitVec 32 :=
  ((List.range nBits).foldl
    (fun (s : BitVec 32 × BitVec 32) xBit =>
      (s.1 >>> 1,
       if s.1 &&& 0x01#32 ≠ 0#32 then s.2 ||| (1#32 <<< ((nBits - 1) - xBit)) else s.2))
    (xData, 0#32)).2

/-- `widthValues[ mode ]`, `src/crc.cpp:37-38`, together with the test of `mode` in
line 35 (`none` for a value that is not an enumerator). -/
def widthOf (mode : Nat) : Option Nat :=
  match mode with
  | 0 => some 8
  | 1 => some 16
  | 2 => some 32
  | _ => none

/-- Body of the inner loop, `src/crc.cpp:55-56`. -/
def bitStep (topBit poly val : BitVec 32) : BitVec 32 :=
  if val &&& topBit ≠ 0#32 then (val <<< 1) ^^^ poly else val <<< 1

/-- Body of the outer loop, `src/crc.cpp:50-57`. -/
def byteStep (width : Nat) (topBit poly : BitVec 32) (refIn : Bool)
    (val : BitVec 32) (msg : BitVec 8) : BitVec 32 :=
  let wd1 := width - 8
  let val := val ^^^ (if refIn then reflect (msg.setWidth 32) 8 <<< wd1
                      else msg.setWidth 32 <<< wd1)
  Nat.repeat (bitStep topBit poly) 8 val

/-- The part of `crc::generic` after the guard, `src/crc.cpp:36-60`. -/
def compute (width : Nat) (data : List (BitVec 8)) (poly init : BitVec 32)
    (refIn refOut : Bool) (xorOut : BitVec 32) : BitVec 32 :=
  let topBit := 1#32 <<< (width - 1)
  let bitMask := 0xFFFFFFFF#32 >>> (32 - width)
  let poly := poly &&& bitMask
  let xorOut := xorOut &&& bitMask
  let val := data.foldl (byteStep width topBit poly refIn) init
  let val := if refOut then reflect val width ^^^ xorOut else val ^^^ xorOut
  val &&& bitMask

/-- `crc::generic`, `src/crc.cpp:24-64`. `data = none` is a null pointer, otherwise the
`length` bytes of the buffer. -/
def generic (mode : Nat) (data : Option (List (BitVec 8))) (poly init : BitVec 32)
    (refIn refOut : Bool) (xorOut : BitVec 32) : BitVec 32 :=
  match data with
  | none => 0#32
  | some bytes =>
    if bytes.length > 0 then
      match widthOf mode with
      | some width => compute width bytes poly init refIn refOut xorOut
      | none => 0#32
    else 0#32

/-- Parameters of one preset wrapper. -/
structure Preset where
  mode : Nat
  poly : BitVec 32
  init : BitVec 32 := 0
  refIn : Bool := false
  refOut : Bool := false
  xorOut : BitVec 32 := 0

/-- The argument lists of all preset wrappers, `src/include/crc.hpp` lines 73, 85, 97,
109, 121, 133, 145, 157, 169, 181 (8 bit), 193, 205, ..., 457 (16 bit), 469, ..., 565
(32 bit), in this order. The final cast to `uint8_t`/`uint16_t` does not change the
value (`C04_fits`). -/
def presets : List Preset := [
  ⟨0, 0x07, 0, false, false, 0⟩,
  ⟨0, 0x9B, 0xFF, false, false, 0⟩,
  ⟨0, 0x39, 0, true, true, 0⟩,
  ⟨0, 0xD5, 0, false, false, 0⟩,
  ⟨0, 0x1D, 0xFF, true, true, 0⟩,
  ⟨0, 0x1D, 0xFD, false, false, 0⟩,
  ⟨0, 0x07, 0, false, false, 0x55⟩,
  ⟨0, 0x31, 0, true, true, 0⟩,
  ⟨0, 0x07, 0xFF, true, true, 0⟩,
  ⟨0, 0x9B, 0, true, true, 0⟩,
  ⟨1, 0x1021, 0xFFFF, false, false, 0⟩,
  ⟨1, 0x8005, 0, true, true, 0⟩,
  ⟨1, 0x1021, 0x1D0F, false, false, 0⟩,
  ⟨1, 0x8005, 0, false, false, 0⟩,
  ⟨1, 0xC867, 0xFFFF, false, false, 0⟩,
  ⟨1, 0x8005, 0x800D, false, false, 0⟩,
  ⟨1, 0x0589, 0, false, false, 0x0001⟩,
  ⟨1, 0x0589, 0, false, false, 0⟩,
  ⟨1, 0x3D65, 0, true, true, 0xFFFF⟩,
  ⟨1, 0x3D65, 0, false, false, 0xFFFF⟩,
  ⟨1, 0x1021, 0xFFFF, false, false, 0xFFFF⟩,
  ⟨1, 0x8005, 0, true, true, 0xFFFF⟩,
  ⟨1, 0x1021, 0xFFFF, true, true, 0⟩,
  ⟨1, 0x1021, 0xB2AA, true, true, 0⟩,
  ⟨1, 0x8BB7, 0, false, false, 0⟩,
  ⟨1, 0xA097, 0, false, false, 0⟩,
  ⟨1, 0x1021, 0x89EC, true, true, 0⟩,
  ⟨1, 0x8005, 0xFFFF, true, true, 0xFFFF⟩,
  ⟨1, 0x1021, 0xC6C6, true, true, 0⟩,
  ⟨1, 0x1021, 0, true, true, 0⟩,
  ⟨1, 0x8005, 0xFFFF, true, true, 0⟩,
  ⟨1, 0x1021, 0xFFFF, true, true, 0xFFFF⟩,
  ⟨1, 0x1021, 0, false, false, 0⟩,
  ⟨2, 0x04C11DB7, 0xFFFFFFFF, true, true, 0xFFFFFFFF⟩,
  ⟨2, 0x04C11DB7, 0xFFFFFFFF, false, false, 0xFFFFFFFF⟩,
  ⟨2, 0x1EDC6F41, 0xFFFFFFFF, true, true, 0xFFFFFFFF⟩,
  ⟨2, 0xA833982B, 0xFFFFFFFF, true, true, 0xFFFFFFFF⟩,
  ⟨2, 0x04C11DB7, 0xFFFFFFFF, true, true, 0⟩,
  ⟨2, 0x04C11DB7, 0xFFFFFFFF, false, false, 0⟩,
  ⟨2, 0x04C11DB7, 0, false, false, 0xFFFFFFFF⟩,
  ⟨2, 0x814141AB, 0, false, false, 0⟩,
  ⟨2, 0x000000AF, 0, false, false, 0⟩]

/-- A preset wrapper applied to a buffer. -/
def Preset.run (p : Preset) (data : Option (List (BitVec 8))) : BitVec 32 :=
  generic p.mode data p.poly p.init p.refIn p.refOut p.xorOut

end Verif.Crc
