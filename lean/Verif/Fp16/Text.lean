import Verif.Fp16.Lemmas

/-! # Lemmas on angle wrapping, integer parts and decimal text -/

namespace Verif.Fp16

theorem wrapDown_spec (lim per : Int) (hper : 0 < per) (hlo : -2147483648 ≤ lim - per) :
    ∀ (fuel : Nat) (x : Int), x ≤ lim + fuel * per → x < 2147483648 →
      ∃ (n : Nat) (z : Int), wrapDown lim per (fuel + 1) x = .ok z ∧ z = x - n * per ∧ z ≤ lim ∧
        ((x ≤ lim ∧ z = x) ∨ (lim < x ∧ lim - per < z)) := by
  intro fuel
  induction fuel with
  | zero =>
    intro x h hx
    have h' : x ≤ lim := by simpa using h
    exact ⟨0, x, by rw [wrapDown, if_neg (by omega)], by simp, h', Or.inl ⟨h', rfl⟩⟩
  | succ k ih =>
    intro x h hx
    rw [wrapDown]
    by_cases hc : x > lim
    · rw [if_pos hc, chk_ok (by omega), Out.bind_ok]
      have e : ((k + 1 : Nat) : Int) * per = k * per + per := by push_cast; ring
      obtain ⟨n, z, h1, h2, h3, h4⟩ := ih (x - per) (by omega) (by omega)
      refine ⟨n + 1, z, h1, ?_, h3, Or.inr ⟨hc, by omega⟩⟩
      rw [h2]; push_cast; ring
    · rw [if_neg hc]
      exact ⟨0, x, rfl, by simp, by omega, Or.inl ⟨by omega, rfl⟩⟩

theorem wrapUp_spec (lim per : Int) (hper : 0 < per) (hlo : -lim + per < 2147483648) :
    ∀ (fuel : Nat) (x : Int), -lim - fuel * per < x → -2147483648 ≤ x →
      ∃ (n : Nat) (z : Int), wrapUp lim per (fuel + 1) x = .ok z ∧ z = x + n * per ∧ -lim < z ∧
        ((-lim < x ∧ z = x) ∨ (x ≤ -lim ∧ z ≤ -lim + per)) := by
  intro fuel
  induction fuel with
  | zero =>
    intro x h hx
    have h' : -lim < x := by simpa using h
    exact ⟨0, x, by rw [wrapUp, if_neg (by omega)], by simp, h', Or.inl ⟨h', rfl⟩⟩
  | succ k ih =>
    intro x h hx
    rw [wrapUp]
    by_cases hc : x ≤ -lim
    · rw [if_pos hc, chk_ok (by omega), Out.bind_ok]
      have e : ((k + 1 : Nat) : Int) * per = k * per + per := by push_cast; ring
      obtain ⟨n, z, h1, h2, h3, h4⟩ := ih (x + per) (by omega) (by omega)
      refine ⟨n + 1, z, h1, ?_, h3, Or.inr ⟨hc, by omega⟩⟩
      rw [h2]; push_cast; ring
    · rw [if_neg hc]
      exact ⟨0, x, rfl, by simp, by omega, Or.inl ⟨by omega, rfl⟩⟩

theorem wrapToPi_spec (x : Int) (hx : I32 x) :
    ∃ (k : Int) (z : Int), wrapToPi x = .ok z ∧ z = x + k * 411775 ∧ -205887 ≤ z ∧ z ≤ 205888 ∧
      (-205887 ≤ x → x ≤ 205887 → z = x) := by
  unfold I32 at hx
  unfold wrapToPi
  by_cases hc : x < -205887 ∨ x > 205887
  · rw [if_pos hc]
    obtain ⟨n, z, h1, h2, h3, h4⟩ := wrapDown_spec 205887 411775 (by omega) (by omega)
      5999 x (by omega) (by omega)
    obtain ⟨m, w, g1, g2, g3, g4⟩ := wrapUp_spec 205887 411775 (by omega) (by omega)
      5999 z (by omega) (by omega)
    rw [h1, Out.bind_ok, g1]
    exact ⟨(m : Int) - n, w, rfl, by rw [g2, h2]; ring, by omega, by omega, by omega⟩
  · rw [if_neg hc]
    exact ⟨0, x, rfl, by simp, by omega, by omega, fun _ _ => rfl⟩

theorem wrapTo180_spec (x : Int) (hx : I32 x) :
    ∃ (k : Int) (z : Int), wrapTo180 x = .ok z ∧ z = x + k * 23592960 ∧ -11796480 ≤ z ∧
      z ≤ 11796480 ∧ (-11796480 ≤ x → x ≤ 11796480 → z = x) := by
  unfold I32 at hx
  unfold wrapTo180
  by_cases hc : x < -11796480 ∨ x > 11796480
  · rw [if_pos hc]
    obtain ⟨n, z, h1, h2, h3, h4⟩ := wrapDown_spec 11796480 23592960 (by omega) (by omega)
      199 x (by omega) (by omega)
    obtain ⟨m, w, g1, g2, g3, g4⟩ := wrapUp_spec 11796480 23592960 (by omega) (by omega)
      199 z (by omega) (by omega)
    rw [h1, Out.bind_ok, g1]
    exact ⟨(m : Int) - n, w, rfl, by rw [g2, h2]; ring, by omega, by omega, by omega⟩
  · rw [if_neg hc]
    exact ⟨0, x, rfl, by simp, by omega, by omega, fun _ _ => rfl⟩

theorem int_part (x : Int) (hx : I32 x) : toI (toU x &&& integerMask) = x / 65536 * 65536 := by
  unfold I32 at hx
  have := and_int (toU x) (toU_lt x)
  unfold integerMask
  rw [this]
  apply toI_congr
  · unfold toU; omega
  · omega

theorem frac_part (x : Int) : toI (toU x &&& fractionMask) = x % 65536 := by
  unfold fractionMask
  rw [and_ffff]
  apply toI_congr
  · unfold toU; omega
  · omega

/-! ## Decimal text -/

theorem digit_toNat (d : Nat) (h : d ≤ 9) : (Char.ofNat ('0'.toNat + d)).toNat = 48 + d := by
  have : ∀ d : Fin 10, (Char.ofNat ('0'.toNat + d.val)).toNat = 48 + d.val := by decide
  exact this ⟨d, by omega⟩

theorem foldl_acc (l : List Char) (a : Nat) :
    l.foldl (fun acc c => 10 * acc + (c.toNat - 48)) a = a * 10 ^ l.length + decVal l := by
  induction l generalizing a with
  | nil => simp [decVal]
  | cons c t ih =>
    simp only [decVal, List.foldl_cons, List.length_cons]
    rw [ih, ih (10 * 0 + (c.toNat - 48)), Nat.pow_succ]
    ring

theorem decVal_cons (c : Char) (l : List Char) :
    decVal (c :: l) = (c.toNat - 48) * 10 ^ l.length + decVal l := by
  conv => lhs; unfold decVal
  rw [List.foldl_cons, foldl_acc]; simp

theorem itoa_noskip (k : Nat) : ∀ fuel val, k + 2 ≤ fuel → val < 10 ^ (k + 1) →
    ∃ l, itoa fuel (10 ^ k) val false = .ok l ∧ l.length = k + 1 ∧ AllDigits l ∧ decVal l = val := by
  induction k with
  | zero =>
    intro fuel val hf hv
    obtain ⟨fuel, rfl⟩ : ∃ f, fuel = f + 2 := ⟨fuel - 2, by omega⟩
    have hv' : val ≤ 9 := by simp at hv; omega
    refine ⟨[Char.ofNat ('0'.toNat + val)], ?_, rfl, ?_, ?_⟩
    · simp [itoa]
    · intro c hc
      rw [List.mem_singleton.1 hc, digit_toNat val hv']; omega
    · rw [decVal_cons, digit_toNat val hv']; simp [decVal]
  | succ k ih =>
    intro fuel val hf hv
    obtain ⟨fuel, rfl⟩ : ∃ f, fuel = f + 1 := ⟨fuel - 1, by omega⟩
    have hp : 0 < 10 ^ k := Nat.pow_pos (by omega)
    have hp1 : 0 < 10 ^ (k + 1) := Nat.pow_pos (by omega)
    have hd : val / 10 ^ (k + 1) ≤ 9 := by
      have : val / 10 ^ (k + 1) < 10 := by
        rw [Nat.div_lt_iff_lt_mul hp1]; rw [Nat.pow_succ] at hv; omega
      omega
    have e : 10 ^ (k + 1) / 10 = 10 ^ k := by rw [Nat.pow_succ]; omega
    obtain ⟨l, h1, h2, h3, h4⟩ := ih fuel (val % 10 ^ (k + 1)) (by omega) (Nat.mod_lt _ hp1)
    refine ⟨Char.ofNat ('0'.toNat + val / 10 ^ (k + 1)) :: l, ?_, by simp [h2], ?_, ?_⟩
    · rw [itoa, if_pos (by omega), if_pos (Or.inl rfl), e, h1]; rfl
    · intro c hc
      rcases List.mem_cons.1 hc with rfl | hc
      · rw [digit_toNat _ hd]; exact ⟨Nat.le_add_right _ _, Nat.add_le_add_left hd 48⟩
      · exact h3 c hc
    · rw [decVal_cons, digit_toNat _ hd, h2, h4, Nat.add_sub_cancel_left]
      exact Nat.div_add_mod' val (10 ^ (k + 1))

theorem itoa_skip (k : Nat) : ∀ fuel val, k + 2 ≤ fuel → val < 10 ^ (k + 1) →
    ∃ l, itoa fuel (10 ^ k) val true = .ok l ∧ 1 ≤ l.length ∧ l.length ≤ k + 1 ∧ AllDigits l ∧
      decVal l = val ∧ (1 < l.length → l.head? ≠ some '0') := by
  induction k with
  | zero =>
    intro fuel val hf hv
    obtain ⟨l, h1, h2, h3, h4⟩ := itoa_noskip 0 fuel val hf hv
    obtain ⟨fuel, rfl⟩ : ∃ f, fuel = f + 2 := ⟨fuel - 2, by omega⟩
    refine ⟨l, ?_, by omega, by omega, h3, h4, by omega⟩
    rw [← h1]; simp [itoa]
  | succ k ih =>
    intro fuel val hf hv
    have hp1 : 0 < 10 ^ (k + 1) := Nat.pow_pos (by omega)
    have e : 10 ^ (k + 1) / 10 = 10 ^ k := by rw [Nat.pow_succ]; omega
    by_cases hz : val / 10 ^ (k + 1) = 0
    · obtain ⟨fuel, rfl⟩ : ∃ f, fuel = f + 1 := ⟨fuel - 1, by omega⟩
      have hlt : val < 10 ^ (k + 1) := by
        rcases (Nat.div_eq_zero_iff).1 hz with h | h
        · omega
        · exact h
      obtain ⟨l, h1, h2, h3, h4, h5, h6⟩ := ih fuel val (by omega) hlt
      refine ⟨l, ?_, h2, by omega, h4, h5, h6⟩
      have h10 : 10 ≤ 10 ^ (k + 1) := by rw [Nat.pow_succ]; have : 0 < 10 ^ k := Nat.pow_pos (by omega); omega
      rw [itoa, if_pos (by omega), if_neg, e, h1]
      rintro (h | h | h)
      · cases h
      · exact h hz.symm
      · omega
    · obtain ⟨l, h1, h2, h3, h4⟩ := itoa_noskip (k + 1) fuel val hf hv
      obtain ⟨fuel, rfl⟩ : ∃ f, fuel = f + 1 := ⟨fuel - 1, by omega⟩
      have hd : val / 10 ^ (k + 1) ≤ 9 := by
        have : val / 10 ^ (k + 1) < 10 := by
          rw [Nat.div_lt_iff_lt_mul hp1]; rw [Nat.pow_succ] at hv; omega
        omega
      refine ⟨l, ?_, by omega, by omega, h3, h4, ?_⟩
      · rw [← h1, itoa, itoa, if_pos (by omega), if_pos (Or.inr (Or.inl (Ne.symm hz))),
          if_pos (by omega), if_pos (Or.inl rfl)]
      · intro _ hh
        rw [itoa, if_pos (by omega), if_pos (Or.inl rfl)] at h1
        obtain ⟨r, _, hr⟩ := Out.bind_eq_ok.1 h1
        cases hr
        rw [List.head?_cons, Option.some.injEq] at hh
        have := digit_toNat _ hd
        rw [hh] at this
        change 48 = 48 + _ at this
        omega

/-- `mul` of a fraction by a decimal scale. -/
theorem mul_frac (f s : Int) (hf : 0 ≤ f ∧ f < 65536) (hs : 0 ≤ s ∧ s ≤ 100000) :
    mul f s = .ok ((f * s + 32768) / 65536) := by
  have h0 : f / 65536 = 0 := by omega
  have h1 : f % 65536 = f := by omega
  have hfs : 0 ≤ f * s ∧ f * s ≤ 65535 * 100000 := by
    constructor
    · exact Int.mul_nonneg hf.1 hs.1
    · nlinarith
  have hc : I32 (f / 65536 * (s % 65536) + s / 65536 * (f % 65536)) := by
    rw [h0, h1]; unfold I32
    have : s / 65536 = 0 ∨ s / 65536 = 1 := by omega
    rcases this with h | h <;> rw [h] <;> omega
  rw [mul_eq f s (by unfold I32; omega) (by unfold I32; omega) hc, if_pos (by omega)]
  have e : rndMul (f * s) = (f * s + 32768) / 65536 := by unfold rndMul; rw [if_pos hfs.1]
  rw [e, if_pos (by unfold Num; omega)]

end Verif.Fp16
