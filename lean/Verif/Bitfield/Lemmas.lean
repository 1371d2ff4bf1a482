import Verif.Bitfield.Spec

/-! Helper lemmas for the bit field: every word operation in terms of single bits. -/

namespace Verif.Bitfield

open Spec (bit)

theorem bit_of_lt {m : Array (BitVec 8)} {i : Nat} (h : i / 8 < m.size) :
    bit m i = m[i / 8].getLsbD (i % 8) := by
  simp [bit, Array.getD, h]

theorem bit_of_ge {m : Array (BitVec 8)} {i : Nat} (h : m.size ≤ i / 8) : bit m i = false := by
  have h' : ¬ i / 8 < m.size := by omega
  simp [bit, Array.getD, h']

/-- A byte area whose words can all be accessed. -/
structure WFM (m : Array (BitVec 8)) : Prop where
  dvd : m.size % 4 = 0

theorem ldw_ok {m : Array (BitVec 8)} {s : Nat} (h : 4 * s + 3 < m.size) :
    ∃ w, ldw m s = .ok w ∧ ∀ j, j < 32 → w.getLsbD j = bit m (32 * s + j) := by
  refine ⟨m[4 * s + 3] ++ m[4 * s + 2] ++ m[4 * s + 1] ++ m[4 * s], ?_, ?_⟩
  · simp only [ldw, rdArr_ok (show 4 * s < m.size by omega),
      rdArr_ok (show 4 * s + 1 < m.size by omega), rdArr_ok (show 4 * s + 2 < m.size by omega),
      rdArr_ok h, Out.bind_ok, Out.pure_eq]
  · intro j hj
    have hb : (32 * s + j) / 8 < m.size := by omega
    rw [bit_of_lt hb]
    simp only [BitVec.getLsbD_append]
    by_cases h0 : j < 8
    · have e1 : (32 * s + j) / 8 = 4 * s := by omega
      have e2 : (32 * s + j) % 8 = j := by omega
      simp only [h0, if_true, e1, e2]
    · by_cases h1 : j < 16
      · have e1 : (32 * s + j) / 8 = 4 * s + 1 := by omega
        have e2 : (32 * s + j) % 8 = j - 8 := by omega
        have : j - 8 < 8 := by omega
        simp only [h0, if_false, this, if_true, e1, e2]
      · by_cases h2 : j < 24
        · have e1 : (32 * s + j) / 8 = 4 * s + 2 := by omega
          have e2 : (32 * s + j) % 8 = j - 8 - 8 := by omega
          have g1 : ¬ j - 8 < 8 := by omega
          have g2 : j - 8 - 8 < 8 := by omega
          simp only [h0, if_false, g1, g2, if_true, e1, e2]
        · have e1 : (32 * s + j) / 8 = 4 * s + 3 := by omega
          have e2 : (32 * s + j) % 8 = j - 8 - 8 - 8 := by omega
          have g1 : ¬ j - 8 < 8 := by omega
          have g2 : ¬ j - 8 - 8 < 8 := by omega
          simp only [h0, if_false, g1, g2, e1, e2]

theorem stw_ok {m : Array (BitVec 8)} {s : Nat} {v : BitVec 32} (h : 4 * s + 3 < m.size) :
    ∃ m', stw m s v = .ok m' ∧ m'.size = m.size ∧
      ∀ i, bit m' i = if i / 32 = s then v.getLsbD (i % 32) else bit m i := by
  have h0 : 4 * s < m.size := by omega
  have h1 : 4 * s + 1 < m.size := by omega
  have h2 : 4 * s + 2 < m.size := by omega
  refine ⟨(((m.set (4 * s) (v.extractLsb' 0 8)).set (4 * s + 1) (v.extractLsb' 8 8)
      (by simpa using h1)).set (4 * s + 2) (v.extractLsb' 16 8) (by simpa using h2)).set
      (4 * s + 3) (v.extractLsb' 24 8) (by simpa using h), ?_, ?_, ?_⟩
  · unfold stw
    rw [wrArr_ok h0, Out.bind_ok, wrArr_ok (by simpa using h1), Out.bind_ok,
      wrArr_ok (by simpa using h2), Out.bind_ok, wrArr_ok (by simpa using h)]
  · simp
  · intro i
    by_cases hi : i / 8 < m.size
    · rw [bit_of_lt (by simpa using hi), bit_of_lt hi]
      simp only [Array.getElem_set, apply_ite (fun b : BitVec 8 => b.getLsbD (i % 8)),
        BitVec.getLsbD_extractLsb']
      have h8 : i % 8 < 8 := by omega
      by_cases hs : i / 32 = s
      · have hcase : i / 8 = 4 * s ∨ i / 8 = 4 * s + 1 ∨ i / 8 = 4 * s + 2 ∨ i / 8 = 4 * s + 3 := by
          omega
        rcases hcase with c | c | c | c
        · have e : i % 32 = 0 + i % 8 := by omega
          simp (disch := omega) only [if_pos, if_neg, e, h8, decide_true, Bool.true_and, c, if_true]
        · have e : i % 32 = 8 + i % 8 := by omega
          simp (disch := omega) only [if_pos, if_neg, e, h8, decide_true, Bool.true_and, c, if_true]
        · have e : i % 32 = 16 + i % 8 := by omega
          simp (disch := omega) only [if_pos, if_neg, e, h8, decide_true, Bool.true_and, c, if_true]
        · have e : i % 32 = 24 + i % 8 := by omega
          simp (disch := omega) only [if_pos, if_neg, e, h8, decide_true, Bool.true_and, c, if_true]
      · simp (disch := omega) only [if_neg]
    · have hs : i / 32 ≠ s := by omega
      rw [bit_of_ge (by simp; omega), bit_of_ge (by omega), if_neg hs]

theorem getLsbD_one32 (j : Nat) : (1#32).getLsbD j = decide (j = 0) := by
  rw [BitVec.getLsbD_one]; simp

theorem mask_ok (index : Nat) : ∃ k, mask index = .ok k ∧
    ∀ j, j < 32 → k.getLsbD j = decide (j = index % 32) := by
  have hm : index % 32 < 32 := by omega
  refine ⟨1#32 <<< (index % 32), by simp [mask, shl32, hm], ?_⟩
  intro j hj
  rw [BitVec.getLsbD_shiftLeft, getLsbD_one32, Bool.eq_iff_iff]
  simp only [Bool.and_eq_true, decide_eq_true_eq, Bool.not_eq_true', decide_eq_false_iff_not]
  omega

theorem get_ok {m : Array (BitVec 8)} {i : Nat} (h4 : m.size % 4 = 0) (hi : i < 8 * m.size) :
    ∃ r, get m i = .ok r ∧ (r != 0#32) = bit m i := by
  obtain ⟨w, hw, hb⟩ := ldw_ok (m := m) (s := i / 32) (by omega)
  have hm : i % 32 < 32 := by omega
  refine ⟨(w >>> (i % 32)) &&& 1#32, by simp [get, slot, hw, shr32, hm], ?_⟩
  have hbit : bit m i = w.getLsbD (i % 32) := by
    rw [hb _ hm]; congr 1; omega
  have key : ((w >>> (i % 32)) &&& 1#32) = if w.getLsbD (i % 32) then 1#32 else 0#32 := by
    apply BitVec.eq_of_getLsbD_eq
    intro j hj
    rw [BitVec.getLsbD_and, BitVec.getLsbD_ushiftRight, getLsbD_one32]
    by_cases h0 : j = 0
    · subst h0; cases h : w.getLsbD (i % 32) <;> simp [h]
    · split <;> simp [h0]
  rw [key, hbit]
  cases w.getLsbD (i % 32) <;> rfl

theorem set_ok {m : Array (BitVec 8)} {i : Nat} (h4 : m.size % 4 = 0) (hi : i < 8 * m.size) :
    ∃ m', set m i = .ok m' ∧ m'.size = m.size ∧
      ∀ j, bit m' j = if j = i then true else bit m j := by
  obtain ⟨w, hw, hb⟩ := ldw_ok (m := m) (s := i / 32) (by omega)
  obtain ⟨k, hk, hkb⟩ := mask_ok i
  obtain ⟨m', hm', hsz, hbit⟩ := stw_ok (m := m) (s := i / 32) (v := w ||| k) (by omega)
  refine ⟨m', by simp [set, slot, hw, hk, hm'], hsz, ?_⟩
  intro j
  rw [hbit j]
  split
  · rename_i hs
    have hj : j % 32 < 32 := by omega
    rw [BitVec.getLsbD_or, hb _ hj, hkb _ hj]
    have e : 32 * (i / 32) + j % 32 = j := by omega
    rw [e]
    by_cases hji : j = i
    · subst hji; simp
    · have : ¬ j % 32 = i % 32 := by omega
      simp [hji, this]
  · rename_i hs
    have : j ≠ i := by rintro rfl; exact hs rfl
    rw [if_neg this]

theorem clear_ok {m : Array (BitVec 8)} {i : Nat} (h4 : m.size % 4 = 0) (hi : i < 8 * m.size) :
    ∃ m', clear m i = .ok m' ∧ m'.size = m.size ∧
      ∀ j, bit m' j = if j = i then false else bit m j := by
  obtain ⟨w, hw, hb⟩ := ldw_ok (m := m) (s := i / 32) (by omega)
  obtain ⟨k, hk, hkb⟩ := mask_ok i
  obtain ⟨m', hm', hsz, hbit⟩ := stw_ok (m := m) (s := i / 32) (v := w &&& ~~~ k) (by omega)
  refine ⟨m', by simp [clear, slot, hw, hk, hm'], hsz, ?_⟩
  intro j
  rw [hbit j]
  split
  · rename_i hs
    have hj : j % 32 < 32 := by omega
    rw [BitVec.getLsbD_and, BitVec.getLsbD_not, hb _ hj, hkb _ hj]
    have e : 32 * (i / 32) + j % 32 = j := by omega
    rw [e]
    by_cases hji : j = i
    · subst hji; simp
    · have : ¬ j % 32 = i % 32 := by omega
      simp [hji, this, hj]
  · rename_i hs
    have : j ≠ i := by rintro rfl; exact hs rfl
    rw [if_neg this]

theorem toggle_ok {m : Array (BitVec 8)} {i : Nat} (h4 : m.size % 4 = 0) (hi : i < 8 * m.size) :
    ∃ m', toggle m i = .ok m' ∧ m'.size = m.size ∧
      ∀ j, bit m' j = if j = i then !bit m j else bit m j := by
  obtain ⟨w, hw, hb⟩ := ldw_ok (m := m) (s := i / 32) (by omega)
  obtain ⟨k, hk, hkb⟩ := mask_ok i
  obtain ⟨m', hm', hsz, hbit⟩ := stw_ok (m := m) (s := i / 32) (v := w ^^^ k) (by omega)
  refine ⟨m', by simp [toggle, slot, hw, hk, hm'], hsz, ?_⟩
  intro j
  rw [hbit j]
  split
  · rename_i hs
    have hj : j % 32 < 32 := by omega
    rw [BitVec.getLsbD_xor, hb _ hj, hkb _ hj]
    have e : 32 * (i / 32) + j % 32 = j := by omega
    rw [e]
    by_cases hji : j = i
    · subst hji; simp
    · have : ¬ j % 32 = i % 32 := by omega
      simp [hji, this]
  · rename_i hs
    have : j ≠ i := by rintro rfl; exact hs rfl
    rw [if_neg this]

theorem offset_eq (i : Nat) : offset i = i % 32 := by
  have := Nat.and_two_pow_sub_one_eq_mod i 5
  simpa [offset] using this

theorem read_uint32_ok {m : Array (BitVec 8)} {i : Nat} (h4 : m.size % 4 = 0)
    (hi : i < 8 * m.size) :
    ∃ r, read_uint32 m (8 * m.size) i = .ok r ∧ ∀ j, j < 32 → r.getLsbD j = bit m (i + j) := by
  obtain ⟨w, hw, hb⟩ := ldw_ok (m := m) (s := i / 32) (by omega)
  have hm : i % 32 < 32 := by omega
  by_cases hc : i % 32 ≠ 0 ∧ i + (32 - i % 32) < 8 * m.size
  · obtain ⟨w2, hw2, hb2⟩ := ldw_ok (m := m) (s := i / 32 + 1) (by omega)
    have h32 : 32 - i % 32 < 32 := by omega
    refine ⟨(w >>> (i % 32)) ||| (w2 <<< (32 - i % 32)), ?_, ?_⟩
    · simp only [read_uint32, slot, offset_eq, hw, Out.bind_ok, shr32, shl32, if_pos hm, hw2,
        if_pos h32, Out.pure_eq, if_pos hc]
    · intro j hj
      rw [BitVec.getLsbD_or, BitVec.getLsbD_ushiftRight, BitVec.getLsbD_shiftLeft]
      by_cases hlo : i % 32 + j < 32
      · have c : j < 32 - i % 32 := by omega
        rw [hb _ hlo]
        simp only [c, decide_true, Bool.not_true, Bool.and_false, Bool.false_and, Bool.or_false]
        congr 1; omega
      · have c : ¬ j < 32 - i % 32 := by omega
        rw [BitVec.getLsbD_of_ge _ _ (by omega), hb2 _ (by omega)]
        simp only [c, hj, decide_true, decide_false, Bool.not_false, Bool.and_self,
          Bool.true_and, Bool.false_or]
        congr 1; omega
  · refine ⟨w >>> (i % 32), ?_, ?_⟩
    · simp only [read_uint32, slot, offset_eq, hw, Out.bind_ok, shr32, if_pos hm,
        Out.pure_eq, if_neg hc]
    · intro j hj
      rw [BitVec.getLsbD_ushiftRight]
      by_cases hlo : i % 32 + j < 32
      · rw [hb _ hlo]; congr 1; omega
      · rw [BitVec.getLsbD_of_ge _ _ (by omega), bit_of_ge (by omega)]

theorem allOnes_lit : (0xFFFFFFFF#32 : BitVec 32) = BitVec.allOnes 32 := by decide

theorem getLsbD_ones (j : Nat) : (0xFFFFFFFF#32 : BitVec 32).getLsbD j = decide (j < 32) := by
  rw [allOnes_lit, BitVec.getLsbD_allOnes]

theorem safeMask_ones {k : Nat} (h1 : 1 ≤ k) (_h2 : k ≤ 32) :
    ∃ r, safeMask 0xFFFFFFFF#32 32 k = .ok r ∧ ∀ j, r.getLsbD j = decide (j < k) := by
  have h : 32 - k < 32 := by omega
  refine ⟨0xFFFFFFFF#32 >>> (32 - k), by simp only [safeMask, shr32, if_pos h], ?_⟩
  intro j
  rw [BitVec.getLsbD_ushiftRight, getLsbD_ones, decide_eq_decide]
  omega

theorem write_uint32_ok {m : Array (BitVec 8)} {i : Nat} (v : BitVec 32) (h4 : m.size % 4 = 0)
    (hi : i < 8 * m.size) :
    ∃ m', write_uint32 m (m.size / 4) i v = .ok m' ∧ m'.size = m.size ∧
      ∀ j, bit m' j = if i ≤ j ∧ j < i + 32 ∧ j < 8 * m.size then v.getLsbD (j - i)
        else bit m j := by
  have hm : i % 32 < 32 := by omega
  by_cases h0 : i % 32 = 0
  · obtain ⟨m', hm', hsz, hbit⟩ := stw_ok (m := m) (s := i / 32) (v := v) (by omega)
    refine ⟨m', by simp only [write_uint32, slot, offset_eq, if_pos h0, hm'], hsz, ?_⟩
    intro j
    rw [hbit j]
    by_cases hs : j / 32 = i / 32
    · rw [if_pos hs, if_pos (by omega)]; congr 1; omega
    · rw [if_neg hs, if_neg (by omega)]
  · obtain ⟨w, hw, hb⟩ := ldw_ok (m := m) (s := i / 32) (by omega)
    obtain ⟨k, hk, hkb⟩ := safeMask_ones (k := i % 32) (by omega) (by omega)
    obtain ⟨m1, hm1, hsz1, hbit1⟩ := stw_ok (m := m) (s := i / 32)
      (v := (v <<< (i % 32)) ||| (w &&& k)) (by omega)
    have first : ∀ j, j / 32 = i / 32 → bit m1 j = if i ≤ j then v.getLsbD (j - i) else bit m j := by
      intro j hs
      have hj : j % 32 < 32 := by omega
      rw [hbit1 j, if_pos hs, BitVec.getLsbD_or, BitVec.getLsbD_and, BitVec.getLsbD_shiftLeft,
        hb _ hj, hkb]
      by_cases hij : i ≤ j
      · have c : ¬ j % 32 < i % 32 := by omega
        have e : j % 32 - i % 32 = j - i := by omega
        simp [hij, c, hj, e]
      · have c : j % 32 < i % 32 := by omega
        have e : 32 * (i / 32) + j % 32 = j := by omega
        simp [hij, c, e]
    by_cases hn : i / 32 + 1 < m.size / 4
    · obtain ⟨w2, hw2, hb2⟩ := ldw_ok (m := m1) (s := i / 32 + 1) (by omega)
      have h32 : 32 - i % 32 < 32 := by omega
      obtain ⟨m2, hm2, hsz2, hbit2⟩ := stw_ok (m := m1) (s := i / 32 + 1)
        (v := (v >>> (32 - i % 32)) ||| (w2 &&& ~~~ k)) (by omega)
      refine ⟨m2, ?_, by omega, ?_⟩
      · have hv : safeMask v 32 (i % 32) = .ok (v >>> (32 - i % 32)) := by
          simp only [safeMask, shr32, if_pos h32]
        simp only [write_uint32, slot, offset_eq, if_neg h0, hk, Out.bind_ok, shl32, if_pos hm, hw,
          hm1, if_pos hn, hv, hw2, hm2]
      · intro j
        rw [hbit2 j]
        by_cases hs : j / 32 = i / 32 + 1
        · have hj : j % 32 < 32 := by omega
          rw [if_pos hs, BitVec.getLsbD_or, BitVec.getLsbD_and, BitVec.getLsbD_ushiftRight,
            BitVec.getLsbD_not, hb2 _ hj, hkb]
          have e : 32 * (i / 32 + 1) + j % 32 = j := by omega
          rw [e, hbit1 j, if_neg (by omega)]
          by_cases hlt : j < i + 32
          · have c : j % 32 < i % 32 := by omega
            have e2 : 32 - i % 32 + j % 32 = j - i := by omega
            rw [if_pos (by omega)]
            simp [c, e2]
          · have c : ¬ j % 32 < i % 32 := by omega
            rw [if_neg (by omega), BitVec.getLsbD_of_ge _ _ (by omega)]
            simp [c, hj]
        · rw [if_neg hs]
          by_cases hs1 : j / 32 = i / 32
          · rw [first j hs1]
            by_cases hij : i ≤ j
            · rw [if_pos hij, if_pos (by omega)]
            · rw [if_neg hij, if_neg (by omega)]
          · rw [hbit1 j, if_neg hs1, if_neg (by omega)]
    · refine ⟨m1, ?_, hsz1, ?_⟩
      · simp only [write_uint32, slot, offset_eq, if_neg h0, hk, Out.bind_ok, shl32, if_pos hm, hw,
          hm1, if_neg hn, Out.pure_eq]
      · intro j
        by_cases hs1 : j / 32 = i / 32
        · rw [first j hs1]
          by_cases hij : i ≤ j
          · rw [if_pos hij, if_pos (by omega)]
          · rw [if_neg hij, if_neg (by omega)]
        · rw [hbit1 j, if_neg hs1, if_neg (by omega)]

theorem memset_ok {m : Array (BitVec 8)} (v : BitVec 8) {n : Nat} (h : n ≤ m.size) :
    ∃ m', memset m v n = .ok m' ∧ m'.size = m.size ∧
      ∀ k (hk : k < m'.size), m'[k] = if k < n then v else m.getD k 0#8 := by
  induction n with
  | zero =>
    refine ⟨m, rfl, rfl, ?_⟩
    intro k hk
    simp [Array.getD, hk]
  | succ n ih =>
    obtain ⟨m', h1, h2, h3⟩ := ih (by omega)
    have hn : n < m'.size := by omega
    refine ⟨m'.set n v, by simp only [memset, h1, Out.bind_ok, wrArr_ok hn], by simpa using h2, ?_⟩
    intro k hk
    have hk' : k < m'.size := by simpa using hk
    rw [Array.getElem_set]
    by_cases e : n = k
    · subst e; simp
    · rw [if_neg e, h3 k hk']
      by_cases c : k < n
      · rw [if_pos c, if_pos (by omega)]
      · rw [if_neg c, if_neg (by omega)]

theorem memcpy_ok {d s : Array (BitVec 8)} {n : Nat} (hd : n ≤ d.size) (hs : n ≤ s.size) :
    ∃ r, memcpy d s n = .ok r ∧ r.size = d.size ∧
      ∀ k, r[k]? = if k < n then s[k]? else d[k]? := by
  induction n with
  | zero => exact ⟨d, rfl, rfl, fun k => by simp⟩
  | succ n ih =>
    obtain ⟨r, h1, h2, h3⟩ := ih (by omega) (by omega)
    have hn : n < r.size := by omega
    have hn' : n < s.size := by omega
    refine ⟨r.set n s[n], by simp only [memcpy, h1, Out.bind_ok, rdArr_ok hn', wrArr_ok hn],
      by simpa using h2, ?_⟩
    intro k
    rw [Array.getElem?_set]
    by_cases e : n = k
    · subst e; simp [hn']
    · rw [if_neg e, h3 k]
      by_cases c : k < n
      · rw [if_pos c, if_pos (by omega)]
      · rw [if_neg c, if_neg (by omega)]

/-- The object after a successful `setup` of a whole-word area with contents `m`. -/
def mk (m : Array (BitVec 8)) : BF := ⟨some m, 8 * m.size, m.size / 4⟩

theorem setup_mk (bf : BF) {m : Array (BitVec 8)} (h : 0 < m.size) :
    setup bf (some m) m.size = (mk m, true) := by
  simp [setup, h, mk, Nat.mul_comm]

theorem setup_eq_mk {bf : BF} {m : Array (BitVec 8)} (h : 0 < m.size) :
    (setup bf (some m) m.size).1 = mk m := by rw [setup_mk bf h]

theorem readBit_mk {m : Array (BitVec 8)} {i : Nat} (h4 : m.size % 4 = 0) (hi : i < 8 * m.size) :
    readBit (mk m) i = .ok (bit m i) := by
  obtain ⟨r, h1, h2⟩ := get_ok h4 hi
  simp only [readBit, mk, h1, Out.bind_ok, h2, Out.pure_eq]

theorem writeBit_mk {m : Array (BitVec 8)} {i : Nat} (b : Bool) (h4 : m.size % 4 = 0)
    (hi : i < 8 * m.size) :
    ∃ m', writeBit (mk m) i b = .ok (mk m', true) ∧ m'.size = m.size ∧
      ∀ j, bit m' j = if j = i then b else bit m j := by
  cases b with
  | true =>
    obtain ⟨m', h1, h2, h3⟩ := set_ok h4 hi
    exact ⟨m', by simp [writeBit, mk, h1, h2], h2, h3⟩
  | false =>
    obtain ⟨m', h1, h2, h3⟩ := clear_ok h4 hi
    exact ⟨m', by simp [writeBit, mk, h1, h2], h2, h3⟩

theorem writeUINTn_mk {m : Array (BitVec 8)} {i k : Nat} (v : BitVec 32) (h4 : m.size % 4 = 0)
    (hi : i < 8 * m.size) (hk1 : 1 ≤ k) (hk2 : k ≤ 32) :
    ∃ m', writeUINTn (mk m) i k v = .ok (mk m', true) ∧ m'.size = m.size ∧
      ∀ j, bit m' j = Spec.step (8 * m.size) (bit m) (.writeUINTn i k v) j := by
  simp only [Spec.step]
  by_cases h1 : k = 1
  · subst h1
    obtain ⟨m', e1, e2, e3⟩ := writeBit_mk (v != 0#32) h4 hi
    refine ⟨m', ?_, e2, by simpa using e3⟩
    have e : writeUINTn (mk m) i 1 v =
        (writeBit (mk m) i (v != 0#32) >>= fun r => pure (r.1, true)) := rfl
    rw [e, e1]; rfl
  · simp only [if_neg h1]
    by_cases h32 : k = 32
    · subst h32
      obtain ⟨m', e1, e2, e3⟩ := write_uint32_ok v h4 hi
      exact ⟨m', by simp [writeUINTn, mk, e1, e2], e2, e3⟩
    · obtain ⟨w, hw, hwb⟩ := read_uint32_ok h4 hi
      obtain ⟨q, hq, hqb⟩ := safeMask_ones (k := k) hk1 hk2
      have hlt : k < 32 := by omega
      obtain ⟨m', e1, e2, e3⟩ := write_uint32_ok
        (maskMerge w (v &&& q) (0xFFFFFFFF#32 <<< k)) h4 hi
      refine ⟨m', ?_, e2, ?_⟩
      · simp only [writeUINTn, mk, if_pos hk2, if_neg h1, if_neg h32, hw, hq, shl32, if_pos hlt,
          Out.bind_ok, e1, Out.pure_eq, e2]
      · intro j
        rw [e3 j]
        by_cases hj : i ≤ j ∧ j < i + 32 ∧ j < 8 * m.size
        · rw [if_pos hj]
          have hji : j - i < 32 := by omega
          simp only [maskMerge, BitVec.getLsbD_xor, BitVec.getLsbD_and, BitVec.getLsbD_shiftLeft,
            getLsbD_ones, hqb, hwb _ hji, hji, decide_true, Bool.true_and]
          have e : i + (j - i) = j := by omega
          rw [e]
          by_cases hjk : j - i < k
          · rw [if_pos (by omega)]
            simp [hjk]
          · have c : j - i - k < 32 := by omega
            rw [if_neg (by omega)]
            simp [hjk, c]
        · rw [if_neg hj, if_neg (by omega)]

theorem step_mk {m : Array (BitVec 8)} (h4 : m.size % 4 = 0) (o : Op)
    (ho : Spec.InRange (8 * m.size) o) :
    ∃ m', step (mk m) o = .ok (mk m') ∧ m'.size = m.size ∧
      ∀ j, bit m' j = Spec.step (8 * m.size) (bit m) o j := by
  cases o with
  | clearAll =>
    obtain ⟨m', h1, h2, h3⟩ := memset_ok (m := m) 0#8 (n := m.size) (by omega)
    refine ⟨m', ?_, h2, ?_⟩
    · have e : 8 * m.size / 8 = m.size := by omega
      simp [step, clearAll, mk, e, h1, h2]
    · intro j
      by_cases hj : j / 8 < m'.size
      · rw [bit_of_lt hj, h3 _ hj, if_pos (by omega)]; simp [Spec.step]
      · rw [bit_of_ge (by omega)]; rfl
  | setAll =>
    obtain ⟨m', h1, h2, h3⟩ := memset_ok (m := m) 0xFF#8 (n := m.size) (by omega)
    refine ⟨m', ?_, h2, ?_⟩
    · have e : 8 * m.size / 8 = m.size := by omega
      simp [step, setAll, mk, e, h1, h2]
    · intro j
      by_cases hj : j / 8 < m'.size
      · rw [bit_of_lt hj, h3 _ hj, if_pos (by omega)]
        have hj8 : j % 8 < 8 := by omega
        have : (0xFF#8 : BitVec 8) = BitVec.allOnes 8 := by decide
        rw [this, BitVec.getLsbD_allOnes]
        have hjn : j < 8 * m.size := by omega
        simp [Spec.step, hj8, hjn]
      · rw [bit_of_ge (by omega)]
        have hjn : ¬ j < 8 * m.size := by omega
        simp [Spec.step, hjn]
  | setBit i =>
    obtain ⟨m', h1, h2, h3⟩ := set_ok h4 (show i < 8 * m.size from ho)
    exact ⟨m', by simp [step, setBit, mk, h1, h2], h2, h3⟩
  | clearBit i =>
    obtain ⟨m', h1, h2, h3⟩ := clear_ok h4 (show i < 8 * m.size from ho)
    exact ⟨m', by simp [step, clearBit, mk, h1, h2], h2, h3⟩
  | toggleBit i =>
    obtain ⟨m', h1, h2, h3⟩ := toggle_ok h4 (show i < 8 * m.size from ho)
    exact ⟨m', by simp [step, toggleBit, mk, h1, h2], h2, h3⟩
  | writeBit i b =>
    obtain ⟨m', h1, h2, h3⟩ := writeBit_mk b h4 (show i < 8 * m.size from ho)
    exact ⟨m', by simp [step, h1], h2, h3⟩
  | writeUINTn i k v =>
    obtain ⟨m', h1, h2, h3⟩ := writeUINTn_mk v h4 ho.1 ho.2.1 ho.2.2
    exact ⟨m', by simp [step, h1], h2, h3⟩
  | writeFloat i v =>
    obtain ⟨m', h1, h2, h3⟩ := write_uint32_ok v h4 (show i < 8 * m.size from ho)
    exact ⟨m', by simp [step, writeFloat, mk, h1, h2], h2, h3⟩

theorem run_mk (os : List Op) {m : Array (BitVec 8)} (h4 : m.size % 4 = 0)
    (ho : ∀ o ∈ os, Spec.InRange (8 * m.size) o) :
    ∃ m', run (mk m) os = .ok (mk m') ∧ m'.size = m.size ∧
      ∀ j, bit m' j = Spec.run (8 * m.size) (bit m) os j := by
  induction os generalizing m with
  | nil => exact ⟨m, rfl, rfl, fun _ => rfl⟩
  | cons o os ih =>
    obtain ⟨m1, h1, h2, h3⟩ := step_mk h4 o (ho o (by simp))
    obtain ⟨m2, g1, g2, g3⟩ := ih (m := m1) (by omega)
      (fun o' ho' => by rw [h2]; exact ho o' (by simp [ho']))
    refine ⟨m2, by simp [run, h1, g1], by omega, ?_⟩
    intro j
    rw [g3 j]
    have : bit m1 = Spec.step (8 * m.size) (bit m) o := funext h3
    rw [this, h2]; rfl

theorem readUINTn_mk {m : Array (BitVec 8)} {i k : Nat} (h4 : m.size % 4 = 0)
    (hi : i < 8 * m.size) (hk1 : 1 ≤ k) (hk2 : k ≤ 32) :
    ∃ r, readUINTn (mk m) i k = .ok r ∧
      ∀ j, r.getLsbD j = (decide (j < k) && bit m (i + j)) := by
  by_cases h1 : k = 1
  · subst h1
    refine ⟨if bit m i then 1#32 else 0#32, ?_, ?_⟩
    · have e : readUINTn (mk m) i 1 =
          (readBit (mk m) i >>= fun b => pure (if b then 1#32 else 0#32)) := rfl
      rw [e, readBit_mk h4 hi]; rfl
    · intro j
      by_cases h0 : j = 0
      · subst h0; cases h : bit m i <;> simp [h]
      · have : ¬ j < 1 := by omega
        split <;> simp [this, h0, getLsbD_one32]
  · obtain ⟨w, hw, hwb⟩ := read_uint32_ok h4 hi
    by_cases h32 : k = 32
    · subst h32
      refine ⟨w, by simp [readUINTn, mk, hw], ?_⟩
      intro j
      by_cases hj : j < 32
      · rw [hwb j hj]; simp [hj]
      · rw [BitVec.getLsbD_of_ge _ _ (by omega)]; simp [hj]
    · obtain ⟨q, hq, hqb⟩ := safeMask_ones (k := k) hk1 hk2
      refine ⟨w &&& q, by simp [readUINTn, mk, hk2, h1, h32, hw, hq], ?_⟩
      intro j
      rw [BitVec.getLsbD_and, hqb]
      by_cases hj : j < k
      · simp [hj, hwb j (by omega)]
      · simp [hj]

end Verif.Bitfield
