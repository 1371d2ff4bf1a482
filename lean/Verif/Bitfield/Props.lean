import Verif.Bitfield.Lemmas

/-!
# Properties C09-C13 (bit field)

`m` is the user area as bytes (any contents, a positive whole number of 32-bit words, as
`bitArea` of `/repo/src/include/bitfield.hpp` lines 30-31 always provides), `bf0` any object,
`ops` any sequence of in-range calls made after `setup`. The observable is `readBit`, and
`Spec.bit m j` is bit `j % 8` of byte `j / 8` of the area.
-/

namespace Verif.Bitfield

open Spec (bit)

/-- **C09-C13, refinement.** After `setup` on any area and any sequence of in-range calls,
`readBit j` returns for every in-range `j` what the same calls do to a plain sequence of
bits; no call is undefined. -/
theorem C09_history (bf0 : BF) (m : Array (BitVec 8)) (ops : List Op) (hpos : 0 < m.size)
    (h4 : m.size % 4 = 0) (hops : ∀ o ∈ ops, Spec.InRange (8 * m.size) o) :
    ∃ bf, run (setup bf0 (some m) m.size).1 ops = .ok bf ∧
      ∀ j, j < 8 * m.size → readBit bf j = .ok (Spec.run (8 * m.size) (bit m) ops j) := by
  obtain ⟨m', h1, h2, h3⟩ := run_mk ops h4 hops
  refine ⟨mk m', by rw [setup_eq_mk hpos, h1], ?_⟩
  intro j hj
  rw [readBit_mk (by omega) (by omega), h3 j]

example : ∀ o ∈ ([.setBit 5, .writeUINTn 30 7 0x55#32, .toggleBit 63] : List Op),
    Spec.InRange (8 * 8) o := by simp [Spec.InRange]

/-- **C09.** On any in-range state: `setBit`, `clearBit`, `toggleBit`, `writeBit` succeed,
`readBit` of the same index gives 1, 0, the complement, the written value, and `readBit` of
every other in-range index is unchanged. -/
theorem C09_single_bit (bf0 : BF) (m : Array (BitVec 8)) (ops : List Op) (hpos : 0 < m.size)
    (h4 : m.size % 4 = 0) (hops : ∀ o ∈ ops, Spec.InRange (8 * m.size) o)
    (i : Nat) (hi : i < 8 * m.size) (b : Bool) :
    ∃ bf s c t w old, run (setup bf0 (some m) m.size).1 ops = .ok bf ∧
      setBit bf i = .ok (s, true) ∧ clearBit bf i = .ok (c, true) ∧
      toggleBit bf i = .ok (t, true) ∧ writeBit bf i b = .ok (w, true) ∧
      readBit bf i = .ok old ∧
      readBit s i = .ok true ∧ readBit c i = .ok false ∧ readBit t i = .ok (!old) ∧
      readBit w i = .ok b ∧
      ∀ j, j < 8 * m.size → j ≠ i → readBit s j = readBit bf j ∧ readBit c j = readBit bf j ∧
        readBit t j = readBit bf j ∧ readBit w j = readBit bf j := by
  obtain ⟨m', h1, h2, _⟩ := run_mk ops h4 hops
  have h4' : m'.size % 4 = 0 := by omega
  have hi' : i < 8 * m'.size := by omega
  obtain ⟨ms, s1, s2, s3⟩ := set_ok h4' hi'
  obtain ⟨mc, c1, c2, c3⟩ := clear_ok h4' hi'
  obtain ⟨mt, t1, t2, t3⟩ := toggle_ok h4' hi'
  obtain ⟨mw, w1, w2, w3⟩ := writeBit_mk b h4' hi'
  refine ⟨mk m', mk ms, mk mc, mk mt, mk mw, bit m' i, by rw [setup_eq_mk hpos, h1],
    by simp [setBit, mk, s1, s2], by simp [clearBit, mk, c1, c2],
    by simp [toggleBit, mk, t1, t2], w1, readBit_mk h4' hi', ?_, ?_, ?_, ?_, ?_⟩
  · rw [readBit_mk (by omega) (by omega), s3]; simp
  · rw [readBit_mk (by omega) (by omega), c3]; simp
  · rw [readBit_mk (by omega) (by omega), t3]; simp
  · rw [readBit_mk (by omega) (by omega), w3]; simp
  · intro j hj hne
    rw [readBit_mk (m := ms) (by omega) (by omega), readBit_mk (m := mc) (by omega) (by omega),
      readBit_mk (m := mt) (by omega) (by omega), readBit_mk (m := mw) (by omega) (by omega),
      readBit_mk (m := m') (by omega) (by omega), s3, c3, t3, w3]
    simp [hne]

example : (0 < (#[1, 2, 3, 4, 5, 6, 7, 8] : Array (BitVec 8)).size) ∧
    (#[1, 2, 3, 4, 5, 6, 7, 8] : Array (BitVec 8)).size % 4 = 0 ∧ (37 : Nat) < 8 * 8 := by decide

/-- **C10 (partial: width 1 needs the value to be 0 or 1).** A `k`-bit write inside the area
succeeds and reading the same field returns the value truncated to `k` bits.
Full claim: without `k = 1 → v ≤ 1`; it is false (`C10_width_one_false`), because for `k = 1`
the code writes `value != 0` instead of the lowest bit. -/
theorem C10_roundtrip_partial (bf0 : BF) (m : Array (BitVec 8)) (ops : List Op)
    (hpos : 0 < m.size) (h4 : m.size % 4 = 0) (hops : ∀ o ∈ ops, Spec.InRange (8 * m.size) o)
    (i k : Nat) (v : BitVec 32) (hk1 : 1 ≤ k) (hk2 : k ≤ 32) (hin : i + k ≤ 8 * m.size)
    (hv : k = 1 → v.toNat ≤ 1) :
    ∃ bf bf' r, run (setup bf0 (some m) m.size).1 ops = .ok bf ∧
      writeUINTn bf i k v = .ok (bf', true) ∧
      readUINTn bf' i k = .ok r ∧ r.toNat = v.toNat % 2 ^ k := by
  obtain ⟨m', h1, h2, _⟩ := run_mk ops h4 hops
  obtain ⟨m2, w1, w2, w3⟩ := writeUINTn_mk (m := m') (i := i) v (by omega) (by omega) hk1 hk2
  obtain ⟨r, r1, r2⟩ := readUINTn_mk (m := m2) (i := i) (k := k) (by omega) (by omega) hk1 hk2
  refine ⟨mk m', mk m2, r, by rw [setup_eq_mk hpos, h1], w1, r1, ?_⟩
  apply Nat.eq_of_testBit_eq
  intro j
  rw [Nat.testBit_mod_two_pow]
  show r.getLsbD j = (decide (j < k) && v.getLsbD j)
  rw [r2 j, w3 (i + j)]
  by_cases hj : j < k
  · simp only [hj, decide_true, Bool.true_and, Spec.step]
    by_cases hk : k = 1
    · have hj0 : j = 0 := by omega
      subst hj0
      have hvc : v = 0#32 ∨ v = 1#32 := by
        have := hv hk
        rcases Nat.le_one_iff_eq_zero_or_eq_one.mp this with h | h
        · left; exact BitVec.eq_of_toNat_eq (by simpa using h)
        · right; exact BitVec.eq_of_toNat_eq (by simpa using h)
      rw [if_pos hk, if_pos (by omega)]
      rcases hvc with rfl | rfl <;> rfl
    · rw [if_neg hk, if_pos (by omega)]
      congr 1; omega
  · simp [hj]

example : (1 : Nat) ≤ 13 ∧ 13 ≤ 32 ∧ 25 + 13 ≤ 8 * 8 ∧ ((13 : Nat) = 1 → (0x1ABC#32).toNat ≤ 1) := by
  decide

/-- **C10 is false for width 1**: writing the value 2 into a one-bit field stores 1, although
2 truncated to one bit is 0. This happens for every state, index and every non-zero even
value. -/
theorem C10_width_one_false (bf0 : BF) (m : Array (BitVec 8)) (ops : List Op)
    (hpos : 0 < m.size) (h4 : m.size % 4 = 0) (hops : ∀ o ∈ ops, Spec.InRange (8 * m.size) o)
    (i : Nat) (v : BitVec 32) (hin : i < 8 * m.size) (hv0 : v ≠ 0#32) (hev : v.toNat % 2 = 0) :
    ∃ bf bf' r, run (setup bf0 (some m) m.size).1 ops = .ok bf ∧
      writeUINTn bf i 1 v = .ok (bf', true) ∧
      readUINTn bf' i 1 = .ok r ∧ r.toNat ≠ v.toNat % 2 ^ 1 := by
  obtain ⟨m', h1, h2, _⟩ := run_mk ops h4 hops
  obtain ⟨m2, w1, w2, w3⟩ := writeUINTn_mk (m := m') (i := i) (k := 1) v (by omega) (by omega)
    (by omega) (by omega)
  obtain ⟨r, r1, r2⟩ := readUINTn_mk (m := m2) (i := i) (k := 1) (by omega) (by omega)
    (by omega) (by omega)
  refine ⟨mk m', mk m2, r, by rw [setup_eq_mk hpos, h1], w1, r1, ?_⟩
  intro hr
  have h0 : r.getLsbD 0 = true := by
    rw [r2 0, w3 (i + 0)]
    simp [Spec.step, hv0]
  have : r.toNat.testBit 0 = true := h0
  rw [hr, Nat.testBit_zero] at this
  simp at this
  omega

example : (2#32 ≠ 0#32) ∧ (2#32).toNat % 2 = 0 := by decide

/-- **C10 for floats**: a float written at any index with 32 bits of room reads back with the
same bit pattern. -/
theorem C10_float_roundtrip (bf0 : BF) (m : Array (BitVec 8)) (ops : List Op)
    (hpos : 0 < m.size) (h4 : m.size % 4 = 0) (hops : ∀ o ∈ ops, Spec.InRange (8 * m.size) o)
    (i : Nat) (v : BitVec 32) (hin : i + 32 ≤ 8 * m.size) :
    ∃ bf bf', run (setup bf0 (some m) m.size).1 ops = .ok bf ∧
      writeFloat bf i v = .ok (bf', true) ∧ readFloat bf' i = .ok v := by
  obtain ⟨m', h1, h2, _⟩ := run_mk ops h4 hops
  obtain ⟨m2, w1, w2, w3⟩ := write_uint32_ok (m := m') (i := i) v (by omega) (by omega)
  obtain ⟨r, r1, r2⟩ := read_uint32_ok (m := m2) (i := i) (by omega) (by omega)
  refine ⟨mk m', mk m2, by rw [setup_eq_mk hpos, h1], by simp [writeFloat, mk, w1, w2], ?_⟩
  have : r = v := by
    apply BitVec.eq_of_getLsbD_eq
    intro j hj
    rw [r2 j hj, w3, if_pos (by omega)]
    congr 1; omega
  simp [readFloat, mk, r1, this]

example : (17 : Nat) + 32 ≤ 8 * 8 := by decide

/-- **C11.** A `k`-bit write (also one that runs past the end of the area) leaves `readBit` of
every bit outside `i .. i+k-1` unchanged, and writes bit `j - i` of the value to every
in-range bit `j` inside (for `k ≥ 2`). -/
theorem C11_frame (bf0 : BF) (m : Array (BitVec 8)) (ops : List Op)
    (hpos : 0 < m.size) (h4 : m.size % 4 = 0) (hops : ∀ o ∈ ops, Spec.InRange (8 * m.size) o)
    (i k : Nat) (v : BitVec 32) (hk1 : 1 ≤ k) (hk2 : k ≤ 32) (hi : i < 8 * m.size) :
    ∃ bf bf', run (setup bf0 (some m) m.size).1 ops = .ok bf ∧
      writeUINTn bf i k v = .ok (bf', true) ∧
      (∀ j, j < 8 * m.size → (j < i ∨ i + k ≤ j) → readBit bf' j = readBit bf j) ∧
      (∀ j, j < 8 * m.size → i ≤ j → j < i + k → k ≠ 1 →
        readBit bf' j = .ok (v.getLsbD (j - i))) := by
  obtain ⟨m', h1, h2, _⟩ := run_mk ops h4 hops
  obtain ⟨m2, w1, w2, w3⟩ := writeUINTn_mk (m := m') (i := i) v (by omega) (by omega) hk1 hk2
  refine ⟨mk m', mk m2, by rw [setup_eq_mk hpos, h1], w1, ?_, ?_⟩
  · intro j hj hout
    rw [readBit_mk (by omega) (by omega), readBit_mk (by omega) (by omega), w3 j]
    simp only [Spec.step]
    by_cases hk : k = 1
    · rw [if_pos hk, if_neg (by omega)]
    · rw [if_neg hk, if_neg (by omega)]
  · intro j hj h5 h6 hk
    rw [readBit_mk (by omega) (by omega), w3 j]
    simp only [Spec.step]
    rw [if_neg hk, if_pos (by omega)]

example : (1 : Nat) ≤ 9 ∧ 9 ≤ 32 ∧ 60 < 8 * 8 ∧ (20 < 60 ∨ 60 + 9 ≤ 20) := by decide

/-- **C12.** For an in-range index and width 1..32 `readUINTn` is free of undefined
behaviour, and bit `j` of its result is bit `i + j` of the area for `j < k` (0 past the end)
and 0 for `j ≥ k`. -/
theorem C12_read (bf0 : BF) (m : Array (BitVec 8)) (hpos : 0 < m.size) (h4 : m.size % 4 = 0)
    (i k : Nat) (hk1 : 1 ≤ k) (hk2 : k ≤ 32) (hi : i < 8 * m.size) :
    ∃ r, readUINTn (setup bf0 (some m) m.size).1 i k = .ok r ∧
      (∀ j, j < k → r.getLsbD j = bit m (i + j)) ∧ r.toNat < 2 ^ k := by
  obtain ⟨r, r1, r2⟩ := readUINTn_mk (m := m) (i := i) (k := k) h4 hi hk1 hk2
  refine ⟨r, by rw [setup_eq_mk hpos, r1], fun j hj => by rw [r2 j]; simp [hj], ?_⟩
  apply Nat.lt_pow_two_of_testBit
  intro j hj
  show r.getLsbD j = false
  rw [r2 j]
  have : ¬ j < k := by omega
  simp [this]

example : readUINTn (setup BF.init (some #[0x11, 0x22, 0x33, 0x84, 0x07, 0, 0, 0]) 8).1 30 5
    = .ok 0b11110#32 := by decide +kernel

/-- **C12, boundary: width 0 is undefined** (shift by 32) for every in-range state, both for
reading and for writing. -/
theorem C12_width_zero_ub (bf0 : BF) (m : Array (BitVec 8)) (hpos : 0 < m.size)
    (h4 : m.size % 4 = 0) (i : Nat) (v : BitVec 32) (hi : i < 8 * m.size) :
    readUINTn (setup bf0 (some m) m.size).1 i 0 = .ub ∧
    writeUINTn (setup bf0 (some m) m.size).1 i 0 v = .ub := by
  obtain ⟨w, hw, _⟩ := read_uint32_ok h4 hi
  rw [setup_eq_mk hpos]
  constructor
  · simp [readUINTn, mk, hw, safeMask, shr32]
  · simp [writeUINTn, mk, hw, safeMask, shr32]

example : (0 : Nat) < (#[0, 0, 0, 0] : Array (BitVec 8)).size := by decide

/-- **C12, boundary: the precondition "whole number of words" is needed**: on a 5-byte area
reading bit 35 (inside the area) loads bytes 4..7, outside the area. -/
theorem C12_partial_word_ub :
    readBit (setup BF.init (some #[0, 0, 0, 0, 0xFF]) 5).1 35 = .ub := by decide +kernel

/-- **C12/C10, rejected calls**: a width above 32 returns 0 / false and changes nothing, and an
object that was never set up fails every call without touching memory. -/
theorem C12_rejected (bf : BF) (i k : Nat) (v : BitVec 32) (b : Bool)
    (d : Option (Array (BitVec 8))) (hk : 32 < k) :
    readUINTn bf i k = .ok 0#32 ∧ writeUINTn bf i k v = .ok (bf, false) ∧
    (bf.field = none → setBit bf i = .ok (bf, false) ∧ clearBit bf i = .ok (bf, false) ∧
      toggleBit bf i = .ok (bf, false) ∧ writeBit bf i b = .ok (bf, false) ∧
      clearAll bf = .ok (bf, false) ∧ setAll bf = .ok (bf, false) ∧
      readBit bf i = .ok false ∧ writeFloat bf i v = .ok (bf, false) ∧
      readFloat bf i = .ok 0#32 ∧ dump bf d k = .ok none) := by
  have h : ¬ k ≤ 32 := by omega
  refine ⟨?_, ?_, ?_⟩
  · unfold readUINTn; split <;> simp [h]
  · unfold writeUINTn; split <;> simp [h]
  · intro hf
    simp [setBit, clearBit, toggleBit, writeBit, clearAll, setAll, readBit, writeFloat, readFloat,
      dump, hf]

example : BF.init.field = none ∧ 32 < 33 := by decide

/-- **C12, fresh objects.** A new object owns no area and covers no bits; every history of calls and of refused setups
leaves it as it is, and all its reads deliver zero. -/
theorem C12_fresh (ops : List Op) (i k : Nat) (area : Option (Array (BitVec 8))) (n : Nat)
    (hn : area = none ∨ n = 0) :
    BF.init.field = none ∧ BF.init.size = 0 ∧ BF.init.nSlots = 0 ∧ run BF.init ops = .ok BF.init ∧
    setup BF.init area n = (BF.init, false) ∧ readBit BF.init i = .ok false ∧ readUINTn BF.init i k = .ok 0#32 ∧
    readFloat BF.init i = .ok 0#32 := by
  refine ⟨rfl, rfl, rfl, ?_, ?_, rfl, rfl, rfl⟩
  · induction ops with
    | nil => rfl
    | cons o os ih => cases o <;> exact ih
  · rcases hn with rfl | rfl <;> simp [setup]

/-- A history of such calls. -/
example : run BF.init [.setAll, .writeUINTn 3 9 0x1FF, .toggleBit 77] = .ok BF.init ∧
    setup BF.init (some #[1, 2, 3, 4]) 0 = (BF.init, false) := by decide +kernel

/-- **C13.** From every reachable state: after `clearAll` every bit reads 0, after `setAll`
every bit reads 1. -/
theorem C13_clear_set_all (bf0 : BF) (m : Array (BitVec 8)) (ops : List Op)
    (hpos : 0 < m.size) (h4 : m.size % 4 = 0) (hops : ∀ o ∈ ops, Spec.InRange (8 * m.size) o) :
    ∃ bf c s, run (setup bf0 (some m) m.size).1 ops = .ok bf ∧
      clearAll bf = .ok (c, true) ∧ setAll bf = .ok (s, true) ∧
      ∀ j, j < 8 * m.size → readBit c j = .ok false ∧ readBit s j = .ok true := by
  obtain ⟨m', h1, h2, _⟩ := run_mk ops h4 hops
  have h4' : m'.size % 4 = 0 := by omega
  obtain ⟨mc, c1, c2, c3⟩ := step_mk h4' .clearAll trivial
  obtain ⟨ms, s1, s2, s3⟩ := step_mk h4' .setAll trivial
  refine ⟨mk m', mk mc, mk ms, by rw [setup_eq_mk hpos, h1], ?_, ?_, ?_⟩
  · simp only [step, Out.bind_eq_ok, Out.pure_eq, Out.ok.injEq] at c1
    obtain ⟨⟨bf, b⟩, e1, e2⟩ := c1
    have hb : b = true := by
      simp only [clearAll, mk, Out.bind_eq_ok, Out.pure_eq, Out.ok.injEq, Prod.mk.injEq] at e1
      obtain ⟨_, _, _, h⟩ := e1; exact h.symm
    rw [e1, hb, ← e2]
  · simp only [step, Out.bind_eq_ok, Out.pure_eq, Out.ok.injEq] at s1
    obtain ⟨⟨bf, b⟩, e1, e2⟩ := s1
    have hb : b = true := by
      simp only [setAll, mk, Out.bind_eq_ok, Out.pure_eq, Out.ok.injEq, Prod.mk.injEq] at e1
      obtain ⟨_, _, _, h⟩ := e1; exact h.symm
    rw [e1, hb, ← e2]
  · intro j hj
    rw [readBit_mk (by omega) (by omega), readBit_mk (by omega) (by omega), c3, s3]
    simp [Spec.step, h2, hj]

/-- **C13, dump.** From every reachable state and for a destination with room for `n` bytes,
`dump` fails (null, destination untouched) iff `n` exceeds the size of the area; otherwise it
returns the destination with exactly its first `n` bytes replaced by the area, byte `q`
holding the bits `8q .. 8q+7` as seen by `readBit`. -/
theorem C13_dump (bf0 : BF) (m d : Array (BitVec 8)) (ops : List Op) (n : Nat)
    (hpos : 0 < m.size) (h4 : m.size % 4 = 0) (hops : ∀ o ∈ ops, Spec.InRange (8 * m.size) o)
    (hroom : n ≤ d.size) :
    ∃ bf, run (setup bf0 (some m) m.size).1 ops = .ok bf ∧
      (m.size < n → dump bf (some d) n = .ok none) ∧
      (n ≤ m.size → ∃ r, dump bf (some d) n = .ok (some r) ∧ r.size = d.size ∧
        (∀ q, n ≤ q → r[q]? = d[q]?) ∧
        ∀ q, q < n → ∀ e, e < 8 → readBit bf (8 * q + e) = .ok ((r.getD q 0#8).getLsbD e)) := by
  obtain ⟨m', h1, h2, _⟩ := run_mk ops h4 hops
  refine ⟨mk m', by rw [setup_eq_mk hpos, h1], ?_, ?_⟩
  · intro hn
    have : ¬ n ≤ 8 * m'.size / 8 := by omega
    exact if_neg this
  · intro hn
    have hle : n ≤ 8 * m'.size / 8 := by omega
    obtain ⟨r, r1, r2, r3⟩ := memcpy_ok (d := d) (s := m') (n := n) hroom (by omega)
    refine ⟨r, by simp only [dump, mk, if_pos hle, r1, Out.bind_ok, Out.pure_eq], r2, ?_, ?_⟩
    · intro q hq
      rw [r3 q, if_neg (by omega)]
    · intro q hq e he
      rw [readBit_mk (by omega) (by omega), bit_of_lt (by omega)]
      have hg : r[q]? = m'[q]? := by rw [r3 q, if_pos hq]
      have hqm : q < m'.size := by omega
      have e1 : (8 * q + e) / 8 = q := by omega
      have e2 : (8 * q + e) % 8 = e := by omega
      have : r.getD q 0#8 = m'[q] := by
        rw [Array.getD_eq_getD_getElem?, hg]
        simp [hqm]
      rw [this]
      simp only [e1, e2]

example : (3 : Nat) ≤ (#[0, 0, 0, 0] : Array (BitVec 8)).size ∧
    dump (setup BF.init (some #[0x11, 0x22, 0x33, 0x84]) 4).1 (some #[9, 9, 9, 9]) 3
      = .ok (some #[0x11, 0x22, 0x33, 9]) := by decide +kernel

end Verif.Bitfield
