import Verif.Fp16.Lemmas

/-! # Lemmas on the division loops -/

namespace Verif.Fp16

theorem or_bit {q j : Nat} (h : q % 2 ^ (j + 1) = 0) : q ||| 2 ^ j = q + 2 ^ j := by
  obtain ⟨a, rfl⟩ : ∃ a, q = 2 ^ (j + 1) * a := Nat.dvd_of_mod_eq_zero h
  rw [← Nat.two_pow_add_eq_or_of_lt (Nat.pow_lt_pow_right (by omega) (by omega))]

theorem divShift_spec (X : Nat) (hX : X < 2147483648) :
    ∀ fuel D b, 0 < D → X ≤ D * 2 ^ fuel →
      ∃ k, k ≤ fuel ∧ divShift X (fuel + 1) D b = .ok (D * 2 ^ k, if k = 0 then b else w32 (b * 2 ^ k)) ∧
        X ≤ D * 2 ^ k ∧ (k = 0 ∨ D * 2 ^ (k - 1) < X) := by
  intro fuel
  induction fuel with
  | zero =>
    intro D b hD h
    refine ⟨0, by omega, ?_, by simpa using h, Or.inl rfl⟩
    simp only [Nat.pow_zero, Nat.mul_one] at h ⊢
    rw [divShift, if_neg (by omega)]; simp
  | succ n ih =>
    intro D b hD h
    rw [divShift]
    by_cases hlt : D < X
    · rw [if_pos hlt]
      have e : w32 (D <<< 1) = 2 * D := by rw [Nat.shiftLeft_eq]; unfold w32; omega
      rw [e]
      obtain ⟨k, hk, h1, h2, h3⟩ := ih (2 * D) (w32 (b <<< 1)) (by omega)
        (by rw [Nat.pow_succ] at h; calc X ≤ D * (2 ^ n * 2) := h
              _ = 2 * D * 2 ^ n := by ring)
      refine ⟨k + 1, by omega, ?_, ?_, Or.inr ?_⟩
      · rw [h1, if_neg (by omega : ¬ k + 1 = 0)]
        have e1 : 2 * D * 2 ^ k = D * 2 ^ (k + 1) := by rw [Nat.pow_succ]; ring
        rw [e1]
        have e2 : (if k = 0 then w32 (b <<< 1) else w32 (w32 (b <<< 1) * 2 ^ k)) =
            w32 (b * 2 ^ (k + 1)) := by
          rw [Nat.shiftLeft_eq]
          split
          · subst k; rfl
          · unfold w32
            rw [Nat.mod_mul_mod]
            congr 1
            rw [Nat.pow_succ]; ring
        rw [e2]
      · calc X ≤ 2 * D * 2 ^ k := h2
          _ = D * 2 ^ (k + 1) := by rw [Nat.pow_succ]; ring
      · rcases h3 with h3 | h3
        · subst k; simpa using hlt
        · have hk0 : k ≠ 0 := by
            rintro rfl
            simp at h3 h2; omega
          obtain ⟨m, rfl⟩ : ∃ m, k = m + 1 := ⟨k - 1, by omega⟩
          calc D * 2 ^ (m + 1 + 1 - 1) = 2 * D * 2 ^ (m + 1 - 1) := by
                simp only [Nat.add_sub_cancel]; rw [Nat.pow_succ]; ring
            _ < X := h3
    · rw [if_neg hlt]
      exact ⟨0, by omega, by simp, by simp; omega, Or.inl rfl⟩

theorem divLoop_spec (D : Nat) (hD0 : 0 < D) (hD : D < 2147483648) :
    ∀ j fuel q R, j + 2 ≤ fuel → R < 2 * D → q % 2 ^ (j + 1) = 0 →
      ∃ q' R', divLoop D fuel (2 ^ j) q R = .ok (q', R') ∧ R' < 2 * D ∧
        2 * (q' * D) + R' = 2 * (q * D) + R * 2 ^ (j + 1) := by
  intro j
  induction j with
  | zero =>
    intro fuel q R hf hR hq
    obtain ⟨fuel, rfl⟩ : ∃ f, fuel = f + 2 := ⟨fuel - 2, by omega⟩
    rw [divLoop]
    by_cases hr : R = 0
    · rw [if_neg (by omega)]
      exact ⟨q, R, rfl, hR, by rw [hr]; simp⟩
    · rw [if_pos (by simp; omega)]
      by_cases hc : R ≥ D
      · simp only [if_pos hc]
        rw [or_bit hq, divLoop, if_neg (by simp)]
        have e : w32 ((R - D) <<< 1) = 2 * (R - D) := by rw [Nat.shiftLeft_eq]; unfold w32; omega
        rw [e]
        refine ⟨_, _, rfl, by omega, ?_⟩
        rw [Nat.add_mul]; simp; omega
      · simp only [if_neg hc]
        rw [divLoop, if_neg (by simp)]
        have e : w32 (R <<< 1) = 2 * R := by rw [Nat.shiftLeft_eq]; unfold w32; omega
        rw [e]
        refine ⟨_, _, rfl, by omega, ?_⟩
        simp; omega
  | succ j ih =>
    intro fuel q R hf hR hq
    obtain ⟨fuel, rfl⟩ : ∃ f, fuel = f + 1 := ⟨fuel - 1, by omega⟩
    have hp : 0 < 2 ^ (j + 1) := Nat.pow_pos (by omega)
    have hsh : 2 ^ (j + 1) >>> 1 = 2 ^ j := by
      rw [Nat.shiftRight_eq_div_pow, Nat.pow_succ]; simp
    have hqm : q % 2 ^ (j + 1) = 0 := by
      have : 2 ^ (j + 1) ∣ q := Nat.dvd_trans (Nat.pow_dvd_pow 2 (by omega)) (Nat.dvd_of_mod_eq_zero hq)
      exact Nat.mod_eq_zero_of_dvd this
    rw [divLoop]
    by_cases hr : R = 0
    · rw [if_neg (by omega)]
      exact ⟨q, R, rfl, hR, by rw [hr]; simp⟩
    · rw [if_pos (by omega)]
      by_cases hc : R ≥ D
      · simp only [if_pos hc]
        have e : w32 ((R - D) <<< 1) = 2 * (R - D) := by rw [Nat.shiftLeft_eq]; unfold w32; omega
        rw [or_bit hq, e, hsh]
        obtain ⟨q', R', h1, h2, h3⟩ := ih fuel (q + 2 ^ (j + 1)) (2 * (R - D)) (by omega) (by omega)
          (by rw [Nat.add_mod, hqm]; simp)
        refine ⟨q', R', h1, h2, ?_⟩
        rw [h3]
        obtain ⟨t, rfl⟩ : ∃ t, R = D + t := ⟨R - D, by omega⟩
        rw [Nat.add_sub_cancel_left, Nat.pow_succ 2 (j + 1)]
        ring
      · simp only [if_neg hc]
        have e : w32 (R <<< 1) = 2 * R := by rw [Nat.shiftLeft_eq]; unfold w32; omega
        rw [e, hsh]
        obtain ⟨q', R', h1, h2, h3⟩ := ih fuel q (2 * R) (by omega) (by omega) hqm
        refine ⟨q', R', h1, h2, ?_⟩
        rw [h3, Nat.pow_succ 2 (j + 1)]
        ring

/-- The rounding step: removing the common factor `m` of divisor and remainder. -/
theorem div_final (X Y m q R : Nat) (hm : 0 < m) (hY : 0 < Y) (hR : R < 2 * (Y * m))
    (h : 2 * (q * (Y * m)) + R = X * 131072 * m) :
    (if R ≥ Y * m then q + 1 else q) = (X * 131072 + Y) / (2 * Y) := by
  obtain ⟨A, hA⟩ : ∃ A, X * 131072 = 2 * (q * Y) + A := by
    refine ⟨X * 131072 - 2 * (q * Y), ?_⟩
    have : 2 * (q * Y) * m ≤ X * 131072 * m := by
      calc 2 * (q * Y) * m = 2 * (q * (Y * m)) := by ring
        _ ≤ X * 131072 * m := by omega
    have := Nat.le_of_mul_le_mul_right this hm
    omega
  have hRA : R = A * m := by
    rw [hA, Nat.add_mul] at h
    have : 2 * (q * Y) * m = 2 * (q * (Y * m)) := by ring
    omega
  have hA2 : A < 2 * Y := by
    apply Nat.lt_of_mul_lt_mul_right (a := m)
    calc A * m = R := hRA.symm
      _ < 2 * (Y * m) := hR
      _ = 2 * Y * m := by ring
  have hc : R ≥ Y * m ↔ Y ≤ A := by
    rw [hRA]
    exact ⟨fun h => Nat.le_of_mul_le_mul_right h hm, fun h => Nat.mul_le_mul_right m h⟩
  have e : 2 * (q * Y) = q * (2 * Y) := by ring
  rw [hA, e]
  symm
  by_cases hYA : Y ≤ A
  · rw [if_pos (hc.2 hYA)]
    apply Nat.div_eq_of_lt_le
    · rw [Nat.add_mul]; omega
    · rw [Nat.add_mul, Nat.add_mul]; omega
  · rw [if_neg (fun h => hYA (hc.1 h))]
    apply Nat.div_eq_of_lt_le
    · omega
    · rw [Nat.add_mul]; omega

/-- The whole unsigned part of `div`: normalisation, quotient bits and rounding. -/
def divMag (X Y : Nat) : Out (Option Nat) := do
  let (xDiv, bit) ← divShift X 64 Y 0x10000
  if 0 ≠ bit then do
    let (xDiv, bit, quotient, xRem) :=
      if 0 ≠ xDiv &&& 0x80000000 then
        let (quotient, xRem) :=
          if X ≥ xDiv then (0 ||| bit, X - xDiv) else (0, X)
        (xDiv >>> 1, bit >>> 1, quotient, xRem)
      else (xDiv, bit, 0, X)
    let (quotient, xRem) ← divLoop xDiv 64 bit quotient xRem
    pure (some (if xRem ≥ xDiv then w32 (quotient + 1) else quotient))
  else pure none

theorem quot_lt {X Y : Nat} (hX : X < 2147483648) (h : X < Y * 32768) :
    (X * 131072 + Y) / (2 * Y) < 2147483648 := by
  rw [Nat.div_lt_iff_lt_mul (by omega)]; omega

theorem quot_eq {X Y : Nat} (hY : 0 < Y) (h : X = Y * 32768) :
    (X * 131072 + Y) / (2 * Y) = 2147483648 := by
  apply Nat.div_eq_of_lt_le <;> omega

theorem divMag_eq (X Y : Nat) (hX : X < 2147483648) (hY0 : 0 < Y) (hY : Y < 2147483648) :
    divMag X Y = .ok (if X ≤ Y * 32768 then some ((X * 131072 + Y) / (2 * Y)) else none) := by
  obtain ⟨k, hk, h1, h2, h3⟩ := divShift_spec X hX 63 Y 0x10000 hY0 (by omega)
  have hbit : (if k = 0 then 0x10000 else w32 (0x10000 * 2 ^ k)) =
      if k ≤ 15 then 2 ^ (16 + k) else 0 := by
    by_cases hk0 : k = 0
    · simp [hk0]
    · rw [if_neg hk0]
      have e : 0x10000 * 2 ^ k = 2 ^ (16 + k) := by rw [Nat.pow_add]
      rw [e]; unfold w32
      by_cases hk15 : k ≤ 15
      · rw [if_pos hk15]
        exact Nat.mod_eq_of_lt (show 2 ^ (16 + k) < 2 ^ 32 from
          Nat.pow_lt_pow_right (by omega) (by omega))
      · rw [if_neg hk15]
        exact Nat.mod_eq_zero_of_dvd (show 2 ^ 32 ∣ _ from Nat.pow_dvd_pow 2 (by omega))
  rw [hbit] at h1
  unfold divMag
  rw [h1]
  simp only [Out.bind_ok]
  by_cases hk15 : k ≤ 15
  · have hle : X ≤ Y * 32768 :=
      Nat.le_trans h2 (Nat.mul_le_mul_left Y (show 2 ^ k ≤ 2 ^ 15 from
        Nat.pow_le_pow_right (by omega) hk15))
    rw [if_pos hk15, if_pos hle, if_pos (Nat.ne_of_lt (Nat.pow_pos (by omega)))]
    have hYX : Y * 2 ^ k < 4294967296 := by
      rcases h3 with rfl | h3
      · simp; omega
      · obtain ⟨m, rfl⟩ : ∃ m, k = m + 1 := ⟨k - 1, by
          rcases Nat.eq_zero_or_pos k with h | h
          · subst h; simp at h3 h2; omega
          · omega⟩
        rw [Nat.add_sub_cancel] at h3
        calc Y * 2 ^ (m + 1) = 2 * (Y * 2 ^ m) := by rw [Nat.pow_succ]; ring
          _ < 4294967296 := by omega
    -- the two possible starting points reduce to the same situation
    have main : ∀ i, i ≤ 15 → Y * 2 ^ i < 2147483648 → X < 2 * (Y * 2 ^ i) →
        (do
          let (quotient, xRem) ← divLoop (Y * 2 ^ i) 64 (2 ^ (16 + i)) 0 X
          pure (some (if xRem ≥ Y * 2 ^ i then w32 (quotient + 1) else quotient))) =
        Out.ok (some ((X * 131072 + Y) / (2 * Y))) := by
      intro i hi hlt hXi
      have hp : 0 < 2 ^ i := Nat.pow_pos (by omega)
      obtain ⟨q, R, g1, g2, g3⟩ := divLoop_spec (Y * 2 ^ i) (Nat.mul_pos hY0 hp) hlt (16 + i) 64 0 X
        (by omega) hXi (by simp)
      rw [g1]
      simp only [Out.bind_ok, Out.pure_eq]
      have g4 : 2 * (q * (Y * 2 ^ i)) + R = X * 131072 * 2 ^ i := by
        rw [g3, show 16 + i + 1 = i + 17 by omega, Nat.pow_add]; ring
      have := div_final X Y (2 ^ i) q R hp hY0 g2 g4
      have hq : (X * 131072 + Y) / (2 * Y) ≤ 2147483648 := by
        rcases Nat.lt_or_ge X (Y * 32768) with h | h
        · exact Nat.le_of_lt (quot_lt hX h)
        · exact Nat.le_of_eq (quot_eq hY0 (by omega))
      rw [← this] at hq ⊢
      congr 2
      split
      · rename_i h; rw [if_pos h] at hq; unfold w32; omega
      · rfl
    by_cases htop : Y * 2 ^ k < 2147483648
    · have hz : Y * 2 ^ k &&& 0x80000000 = 0 := by rw [and_top _ hYX, if_pos htop]
      rw [hz]
      simp only [ne_eq, not_true_eq_false, if_false]
      exact main k hk15 htop (by have : 0 < Y * 2 ^ k := Nat.mul_pos hY0 (Nat.pow_pos (by omega)); omega)
    · have hz : Y * 2 ^ k &&& 0x80000000 = 0x80000000 := by rw [and_top _ hYX, if_neg htop]
      rw [hz]
      obtain ⟨m, rfl⟩ : ∃ m, k = m + 1 := ⟨k - 1, by
        rcases Nat.eq_zero_or_pos k with h | h
        · subst h; simp at htop; omega
        · omega⟩
      have e1 : (Y * 2 ^ (m + 1)) >>> 1 = Y * 2 ^ m := by
        rw [Nat.shiftRight_eq_div_pow, Nat.pow_succ, ← Nat.mul_assoc]; simp
      have e2 : (2 ^ (16 + (m + 1))) >>> 1 = 2 ^ (16 + m) := by
        rw [Nat.shiftRight_eq_div_pow, ← Nat.add_assoc, Nat.pow_succ]; simp
      have e3 : Y * 2 ^ (m + 1) = 2 * (Y * 2 ^ m) := by rw [Nat.pow_succ]; ring
      have hXlt : ¬ X ≥ Y * 2 ^ (m + 1) := by omega
      simp only [ne_eq, if_neg hXlt, e1, e2]
      exact main m (by omega) (by omega) (by omega)
  · have hgt : ¬ X ≤ Y * 32768 := by
      rcases h3 with h3 | h3
      · omega
      · have : Y * 2 ^ 15 ≤ Y * 2 ^ (k - 1) :=
          Nat.mul_le_mul_left Y (Nat.pow_le_pow_right (by omega) (by omega))
        omega
    rw [if_neg hk15, if_neg hgt]
    simp

theorem div_eq_mag (x y : Int) (hx : Num x) (hy : Num y) (hy0 : y ≠ 0) :
    div x y = (do
      match ← divMag x.natAbs y.natAbs with
      | some q =>
        if (x < 0 ↔ y < 0) then pure (toI q)
        else if q = 2147483649 then pure overflow else chk (-(toI q))
      | none => pure overflow) := by
  unfold Num at hx hy
  have hsign := xor_top (toU x) (toU y) (toU_lt x) (toU_lt y)
  have hs2 : (0 ≠ (toU x ^^^ toU y) &&& overflowMask) ↔ ¬ (x < 0 ↔ y < 0) := by
    rw [ne_eq, eq_comm, hsign]; unfold toU; omega
  have hX : (if x ≥ 0 then pure x else chk (-x)) = Out.ok ((x.natAbs : Nat) : Int) := by
    split
    · exact congrArg Out.ok (by omega)
    · rw [chk_ok (by omega)]; exact congrArg Out.ok (by omega)
  have hY : (if y ≥ 0 then pure y else chk (-y)) = Out.ok ((y.natAbs : Nat) : Int) := by
    split
    · exact congrArg Out.ok (by omega)
    · rw [chk_ok (by omega)]; exact congrArg Out.ok (by omega)
  have hX2 : toU ((x.natAbs : Nat) : Int) = x.natAbs := by unfold toU; omega
  have hY2 : toU ((y.natAbs : Nat) : Int) = y.natAbs := by unfold toU; omega
  have hmin : toU Min = 2147483649 := by decide
  unfold div divMag
  rw [if_pos (Ne.symm hy0), hX, Out.bind_ok, hY, Out.bind_ok]
  simp only [hX2, hY2, hmin, saturate_eq, flagRounding, if_true]
  cases hd : divShift x.natAbs 64 y.natAbs 65536 with
  | ub => rfl
  | diverge => rfl
  | ok p =>
    obtain ⟨xDiv, bit⟩ := p
    simp only [Out.bind_ok]
    by_cases hb : 0 ≠ bit
    · simp only [if_pos hb, bind_assoc]
      congr 1
      funext p
      obtain ⟨q, R⟩ := p
      simp only [Out.pure_eq, Out.bind_ok]
      by_cases hs : (x < 0 ↔ y < 0)
      · rw [if_pos hs, if_neg (fun h => (hs2.1 h) hs)]; rfl
      · rw [if_neg hs, if_pos (hs2.2 hs)]
        exact bind_pure _
    · simp only [if_neg hb]; rfl

/-- Full description of `div` for operands other than the sentinel. -/
theorem div_eq (x y : Int) (hx : Num x) (hy : Num y) (hy0 : y ≠ 0) :
    div x y = if x.natAbs ≤ y.natAbs * 32768 then
        if x.natAbs = y.natAbs * 32768 then (if (x < 0 ↔ y < 0) then .ok sentinel else .ub)
        else if (x < 0 ↔ y < 0) then .ok ((x.natAbs * 131072 + y.natAbs) / (2 * y.natAbs) : Nat)
        else .ok (-((x.natAbs * 131072 + y.natAbs) / (2 * y.natAbs) : Nat))
      else .ok sentinel := by
  rw [div_eq_mag x y hx hy hy0, divMag_eq _ _ (by unfold Num at hx; omega) (by omega)
    (by unfold Num at hy; omega)]
  have hX : x.natAbs < 2147483648 := by unfold Num at hx; omega
  by_cases hle : x.natAbs ≤ y.natAbs * 32768
  · simp only [if_pos hle, Out.bind_ok]
    by_cases he : x.natAbs = y.natAbs * 32768
    · rw [if_pos he, quot_eq (by omega) he]
      by_cases hs : (x < 0 ↔ y < 0)
      · rw [if_pos hs, if_pos hs]; rfl
      · rw [if_neg hs, if_neg hs]; rfl
    · have hq := quot_lt hX (show x.natAbs < y.natAbs * 32768 by omega)
      rw [if_neg he]
      generalize (x.natAbs * 131072 + y.natAbs) / (2 * y.natAbs) = q at *
      rw [toI_small hq]
      by_cases hs : (x < 0 ↔ y < 0)
      · rw [if_pos hs, if_pos hs]; rfl
      · rw [if_neg hs, if_neg hs, if_neg (by omega), chk_ok (by omega)]
  · simp only [if_neg hle, Out.bind_ok]; rfl

end Verif.Fp16
