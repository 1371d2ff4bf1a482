import Verif.F32.Round
import Verif.Arith

/-!
# Arithmetic of binary32

The operators `+ - * /` of `float` on bit patterns (IEEE 754-2008, 5.4.1, 6.2, 6.3), and the
`Arith` instance that makes every theorem about "any arithmetic" a theorem about IEEE floats.
A NaN result is always the pattern `0x7FC00000`; IEEE leaves sign and payload open, and no theorem
depends on them unless it says so.
-/

namespace Verif.F32

/-- Assemble a pattern from sign and magnitude (IEEE 754; not a definition of the repository). -/
def pack (s : Bool) (m : Nat) : BitVec 32 := BitVec.ofNat 32 ((if s then 2147483648 else 0) + m)

/-- Round a rational to binary32, overflow to infinity; `s` is the sign of a zero result
(IEEE 754; not a definition of the repository). -/
def rnd (s : Bool) (q : ℚ) : BitVec 32 :=
  pack (if q < 0 then true else if 0 < q then false else s) (min (rmag |q|) 2139095040)

/-- Quiet NaN produced by an invalid operation (IEEE 754; not a definition of the repository). -/
def qnan : BitVec 32 := 0x7FC00000#32

/-- The unary operator `-` of `float` (IEEE 754, 5.5.1; not a definition of the repository). -/
def negate (b : BitVec 32) : BitVec 32 := b ^^^ 0x80000000#32

/-- The operator `+` of `float` (IEEE 754, 5.4.1; not a definition of the repository). -/
def add (a b : BitVec 32) : BitVec 32 :=
  if IsNaN a ∨ IsNaN b then qnan
  else if IsInf a then (if IsInf b ∧ neg a ≠ neg b then qnan else a)
  else if IsInf b then b
  else rnd (neg a && neg b) (val a + val b)

/-- The binary operator `-` of `float` (IEEE 754, 5.4.1; not a definition of the repository). -/
def sub (a b : BitVec 32) : BitVec 32 := add a (negate b)

/-- The operator `*` of `float` (IEEE 754, 5.4.1; not a definition of the repository). -/
def mul (a b : BitVec 32) : BitVec 32 :=
  if IsNaN a ∨ IsNaN b then qnan
  else if IsInf a ∨ IsInf b then
    (if mag a = 0 ∨ mag b = 0 then qnan else pack (neg a ^^ neg b) 2139095040)
  else rnd (neg a ^^ neg b) (val a * val b)

/-- The operator `/` of `float` (IEEE 754, 5.4.1; not a definition of the repository). -/
def div (a b : BitVec 32) : BitVec 32 :=
  if IsNaN a ∨ IsNaN b then qnan
  else if IsInf a then (if IsInf b then qnan else pack (neg a ^^ neg b) 2139095040)
  else if IsInf b then pack (neg a ^^ neg b) 0
  else if mag b = 0 then (if mag a = 0 then qnan else pack (neg a ^^ neg b) 2139095040)
  else rnd (neg a ^^ neg b) (val a / val b)

/-- A decimal literal with the suffix `F` (C++ [lex.fcon]; not a definition of the repository). -/
def lit (q : ℚ) : BitVec 32 := rnd false q

/-! ### Values as a function of an integer key -/

/-- The value at an integer position of the number line. -/
def kval (k : ℤ) : ℚ := if k < 0 then -mval (-k).toNat else mval k.toNat

/-- Rounding as a map to positions. -/
def rkey (q : ℚ) : ℤ :=
  if q < 0 then -(min (rmag (-q)) 2139095040 : ℕ) else (min (rmag q) 2139095040 : ℕ)

theorem val_kval (b : BitVec 32) : val b = kval (key b) := by
  rw [val_eq]
  unfold kval key
  by_cases h : neg b
  · simp only [h, if_true]
    by_cases h0 : mag b = 0
    · simp [h0, mval_zero]
    · rw [if_pos (by omega)]; simp
  · simp only [h, if_false, Bool.false_eq_true]
    rw [if_neg (by omega)]; simp

theorem kval_strictMono : StrictMono kval := by
  intro a b h
  unfold kval
  have ha := mval_nonneg (-a).toNat
  by_cases h1 : a < 0 <;> by_cases h2 : b < 0
  · rw [if_pos h1, if_pos h2, neg_lt_neg_iff, mval_lt_iff]; omega
  · rw [if_pos h1, if_neg h2]
    have h3 : 0 < mval (-a).toNat := by rw [← mval_zero, mval_lt_iff]; omega
    have := mval_nonneg b.toNat
    linarith
  · omega
  · rw [if_neg h1, if_neg h2, mval_lt_iff]; omega

theorem kval_le_iff {a b : ℤ} : kval a ≤ kval b ↔ a ≤ b := kval_strictMono.le_iff_le
theorem kval_lt_iff {a b : ℤ} : kval a < kval b ↔ a < b := kval_strictMono.lt_iff_lt

theorem kval_neg (k : ℤ) : kval (-k) = -kval k := by
  unfold kval
  by_cases h1 : k < 0 <;> by_cases h2 : 0 < k
  · omega
  · rw [if_pos h1, if_neg (by omega)]; simp
  · rw [if_neg h1, if_pos (by omega)]; simp
  · have : k = 0 := by omega
    subst this; simp [mval_zero]

theorem kval_abs (k : ℤ) : |kval k| = mval k.natAbs := by
  unfold kval
  have h0 := mval_nonneg k.natAbs
  split
  · rw [show (-k).toNat = k.natAbs by omega, abs_neg, abs_of_nonneg h0]
  · rw [show k.toNat = k.natAbs by omega, abs_of_nonneg h0]

theorem rkey_neg (q : ℚ) : rkey (-q) = -rkey q := by
  unfold rkey
  by_cases h1 : q < 0 <;> by_cases h2 : 0 < q
  · linarith
  · rw [if_pos h1, if_neg (by linarith)]; simp
  · rw [if_neg h1, if_pos (by linarith)]; simp
  · have : q = 0 := by linarith
    subst this; simp [rmag_nonpos]

theorem kval_natCast (n : ℕ) : kval (n : ℤ) = mval n := by
  unfold kval; rw [if_neg (by omega)]; simp

theorem rkey_nonneg {q : ℚ} (h : 0 ≤ q) : rkey q = (min (rmag q) 2139095040 : ℕ) := by
  unfold rkey; rw [if_neg (not_lt.2 h)]

theorem rkey_natAbs (q : ℚ) : (rkey q).natAbs = min (rmag |q|) 2139095040 := by
  unfold rkey
  split
  · rename_i h; rw [abs_of_neg h]; omega
  · rename_i h; rw [abs_of_nonneg (not_lt.1 h)]; omega

/-- Rounding is monotone. -/
theorem rkey_mono {p q : ℚ} (h : p ≤ q) : rkey p ≤ rkey q := by
  unfold rkey
  by_cases h1 : p < 0 <;> by_cases h2 : q < 0
  · rw [if_pos h1, if_pos h2]
    have := rmag_mono (neg_le_neg h)
    omega
  · rw [if_pos h1, if_neg h2]; omega
  · linarith
  · rw [if_neg h1, if_neg h2]
    have := rmag_mono h
    omega

/-- Rounding is exact on representable values. -/
theorem rkey_kval {k : ℤ} (h : k.natAbs ≤ 2139095040) : rkey (kval k) = k := by
  have key : ∀ k : ℤ, 0 ≤ k → k.natAbs ≤ 2139095040 → rkey (kval k) = k := by
    intro k hk h
    unfold kval
    rw [if_neg (by omega), rkey_nonneg (mval_nonneg _), rmag_mval]
    omega
  rcases le_or_gt 0 k with hk | hk
  · exact key k hk h
  · have := key (-k) (by omega) (by omega)
    rw [kval_neg, rkey_neg] at this
    omega

/-! ### Packing -/

theorem pack_spec (s : Bool) {m : Nat} (h : m < 2147483648) : neg (pack s m) = s ∧ mag (pack s m) = m := by
  apply neg_mag_of_toNat h
  unfold pack
  rw [BitVec.toNat_ofNat]
  apply Nat.mod_eq_of_lt
  split <;> omega

theorem pack_neg_mag (b : BitVec 32) : pack (neg b) (mag b) = b := by
  apply BitVec.eq_of_toNat_eq
  unfold pack
  rw [BitVec.toNat_ofNat, ← toNat_eq]
  exact Nat.mod_eq_of_lt b.isLt

theorem eq_of_neg_mag {a b : BitVec 32} (h1 : neg a = neg b) (h2 : mag a = mag b) : a = b := by
  rw [← pack_neg_mag a, ← pack_neg_mag b, h1, h2]

theorem negate_spec (b : BitVec 32) : neg (negate b) = !neg b ∧ mag (negate b) = mag b := by
  apply neg_mag_of_toNat (mag_lt b)
  have hb := b.isLt
  have e := toNat_eq b
  have h : (negate b).toNat = b.toNat ^^^ 2147483648 := by
    unfold negate; rw [BitVec.toNat_xor]; rfl
  rw [h]
  have hm := mag_lt b
  have x : ∀ m : Nat, m < 2147483648 → m ^^^ 2147483648 = 2147483648 + m := by
    intro m hm
    have := Nat.two_pow_add_eq_or_of_lt (i := 31) (b := m) (by simpa using hm) 1
    have h2 : m ^^^ 2147483648 = m ||| 2147483648 := by
      apply Nat.eq_of_testBit_eq
      intro i
      rw [Nat.testBit_xor, Nat.testBit_or]
      by_cases hi : i = 31
      · subst hi
        rw [Nat.testBit_lt_two_pow (by simpa using hm)]; simp
      · have : Nat.testBit 2147483648 i = false := by
          rw [show (2147483648 : ℕ) = 2 ^ 31 by norm_num, Nat.testBit_two_pow]
          simp; omega
        rw [this]; simp
    rw [h2, Nat.or_comm]
    simpa using this.symm
  by_cases hn : neg b
  · simp only [hn, if_true] at e
    simp only [hn, Bool.not_true, if_false, Bool.false_eq_true]
    have := x (mag b) hm
    rw [e, ← this, Nat.xor_assoc]; simp
  · simp only [hn, if_false, Bool.false_eq_true] at e
    simp only [hn, Bool.not_false, if_true]
    rw [e]; simp only [Nat.zero_add]
    exact x (mag b) hm

theorem negate_negate (b : BitVec 32) : negate (negate b) = b := by
  apply eq_of_neg_mag
  · rw [(negate_spec _).1, (negate_spec _).1]; simp
  · rw [(negate_spec _).2, (negate_spec _).2]

theorem finite_negate {b : BitVec 32} : Finite (negate b) ↔ Finite b := by
  rw [finite_iff, finite_iff, (negate_spec b).2]

theorem nan_iff (b : BitVec 32) : IsNaN b ↔ 2139095040 < mag b := by
  have := mag_lt b
  unfold IsNaN expo frac; omega

theorem inf_iff (b : BitVec 32) : IsInf b ↔ mag b = 2139095040 := by
  have := mag_lt b
  unfold IsInf expo frac; omega

theorem nan_negate {b : BitVec 32} : IsNaN (negate b) ↔ IsNaN b := by
  rw [nan_iff, nan_iff, (negate_spec b).2]

theorem inf_negate {b : BitVec 32} : IsInf (negate b) ↔ IsInf b := by
  rw [inf_iff, inf_iff, (negate_spec b).2]

theorem key_negate (b : BitVec 32) : key (negate b) = -key b := by
  unfold key
  rw [(negate_spec b).1, (negate_spec b).2]
  cases neg b <;> simp

theorem val_negate (b : BitVec 32) : val (negate b) = -val b := by
  rw [val_kval, val_kval, key_negate, kval_neg]

theorem Finite.notNaN {b : BitVec 32} (h : Finite b) : ¬ IsNaN b := by
  rw [finite_iff] at h; rw [nan_iff]; omega

theorem Finite.notInf {b : BitVec 32} (h : Finite b) : ¬ IsInf b := by
  rw [finite_iff] at h; rw [inf_iff]; omega

theorem key_natAbs (b : BitVec 32) : (key b).natAbs = mag b := by unfold key; split <;> omega

theorem Finite.key_lt {b : BitVec 32} (h : Finite b) : (key b).natAbs < 2139095040 := by
  rw [key_natAbs]; exact (finite_iff b).1 h

theorem finite_of_key {b : BitVec 32} (h : (key b).natAbs < 2139095040) : Finite b := by
  rw [key_natAbs] at h; exact (finite_iff b).2 h

theorem rkey_val {b : BitVec 32} (h : Finite b) : rkey (val b) = key b := by
  rw [val_kval, rkey_kval h.key_lt.le]

theorem abs_val (b : BitVec 32) : |val b| = mval (mag b) := by
  rw [val_kval, kval_abs, key_natAbs]

/-! ### Properties of `rnd` -/

theorem rnd_spec (s : Bool) (q : ℚ) :
    neg (rnd s q) = (if q < 0 then true else if 0 < q then false else s) ∧
    mag (rnd s q) = min (rmag |q|) 2139095040 := by
  unfold rnd
  exact pack_spec _ (by omega)

theorem key_rnd (s : Bool) (q : ℚ) : key (rnd s q) = rkey q := by
  obtain ⟨h1, h2⟩ := rnd_spec s q
  unfold key rkey
  rw [h1, h2]
  by_cases a : q < 0
  · simp only [a, if_true]; rw [abs_of_neg a]
  · simp only [a, if_false]
    rw [abs_of_nonneg (not_lt.1 a)]
    by_cases b : 0 < q
    · simp [b]
    · have : q = 0 := by linarith
      subst this; simp [rmag_nonpos]

theorem rnd_notNaN (s : Bool) (q : ℚ) : ¬ IsNaN (rnd s q) := by
  rw [nan_iff, (rnd_spec s q).2]; omega

/-- A rounded number between two floats stays between them. -/
theorem rnd_between {s : Bool} {q : ℚ} {a b : BitVec 32} (ha : Finite a) (hb : Finite b)
    (h1 : val a ≤ q) (h2 : q ≤ val b) :
    Finite (rnd s q) ∧ val a ≤ val (rnd s q) ∧ val (rnd s q) ≤ val b := by
  have k1 := rkey_mono h1
  have k2 := rkey_mono h2
  rw [rkey_val ha] at k1
  rw [rkey_val hb] at k2
  have := ha.key_lt
  have := hb.key_lt
  refine ⟨finite_of_key (by rw [key_rnd]; omega), ?_, ?_⟩
  · rw [val_le_iff, key_rnd]; exact k1
  · rw [val_le_iff, key_rnd]; exact k2

/-- Monotonicity of rounding, in terms of values. -/
theorem rnd_mono {s t : Bool} {p q : ℚ} (h : p ≤ q) : val (rnd s p) ≤ val (rnd t q) := by
  rw [val_le_iff, key_rnd, key_rnd]; exact rkey_mono h

theorem rnd_le {s : Bool} {q : ℚ} {b : BitVec 32} (hb : Finite b) (h : q ≤ val b) :
    val (rnd s q) ≤ val b := by
  rw [val_le_iff, key_rnd, ← rkey_val hb]; exact rkey_mono h

theorem le_rnd {s : Bool} {q : ℚ} {b : BitVec 32} (hb : Finite b) (h : val b ≤ q) :
    val b ≤ val (rnd s q) := by
  rw [val_le_iff, key_rnd, ← rkey_val hb]; exact rkey_mono h

/-- A representable number is not changed. -/
theorem rnd_exact {s : Bool} {q : ℚ} {b : BitVec 32} (hb : Finite b) (h : q = val b) :
    Finite (rnd s q) ∧ val (rnd s q) = q := by
  obtain ⟨h1, h2, h3⟩ := rnd_between (s := s) hb hb h.ge h.le
  exact ⟨h1, by linarith⟩

/-- Rounding a finite value with its own sign gives back the pattern. -/
theorem rnd_self {b : BitVec 32} (hb : Finite b) : rnd (neg b) (val b) = b := by
  have hm := (finite_iff b).1 hb
  apply eq_of_neg_mag
  · rw [(rnd_spec _ _).1]
    have h0 := mval_nonneg (mag b)
    rw [val_eq]
    by_cases h : neg b
    · simp only [h, if_true]
      by_cases h3 : mval (mag b) = 0
      · rw [h3]; simp
      · rw [if_pos (by have := lt_of_le_of_ne h0 (Ne.symm h3); linarith)]
    · simp only [h, if_false, Bool.false_eq_true]
      rw [if_neg (by linarith)]; simp
  · rw [(rnd_spec _ _).2, abs_val, rmag_mval]; omega

/-- Error of one rounding. -/
theorem rnd_err {s : Bool} {q : ℚ} (h : Finite (rnd s q)) :
    |val (rnd s q) - q| ≤ max (|q| * 2 ^ (-24 : ℤ)) (2 ^ (-150 : ℤ)) := by
  have hm := (finite_iff _).1 h
  rw [(rnd_spec s q).2] at hm
  have hk : rmag |q| < 2139095040 := by omega
  have e := rmag_err (abs_nonneg q)
  rw [val_kval, key_rnd]
  rcases le_or_gt 0 q with hq | hq
  · rw [abs_of_nonneg hq] at e hk ⊢
    rw [rkey_nonneg hq, show min (rmag q) 2139095040 = rmag q by omega]
    rw [kval_natCast]; exact e
  · rw [abs_of_neg hq] at e hk ⊢
    have : rkey q = -(rmag (-q) : ℤ) := by
      have := rkey_neg (-q)
      rw [neg_neg] at this
      rw [this, rkey_nonneg (by linarith), show min (rmag (-q)) 2139095040 = rmag (-q) by omega]
    rw [this, kval_neg]
    have e2 := kval_natCast (rmag (-q))
    rw [e2, show -mval (rmag (-q)) - q = -(mval (rmag (-q)) - -q) by ring, abs_neg]
    exact e

/-- The rounded value is nearest among all finite floats. -/
theorem rnd_nearest {s : Bool} {q : ℚ} (h : Finite (rnd s q)) (b : BitVec 32) :
    |val (rnd s q) - q| ≤ |val b - q| := by
  have hm := (finite_iff _).1 h
  rw [(rnd_spec s q).2] at hm
  have hk : rmag |q| < 2139095040 := by omega
  have e := rmag_nearest (abs_nonneg q) (mag b)
  have hv : |val (rnd s q) - q| = |mval (rmag |q|) - (|q|)| := by
    rw [val_kval, key_rnd]
    rcases le_or_gt 0 q with hq | hq
    · rw [abs_of_nonneg hq] at hk ⊢
      rw [rkey_nonneg hq, show min (rmag q) 2139095040 = rmag q by omega]
      rw [kval_natCast]
    · rw [abs_of_neg hq] at hk ⊢
      have : rkey q = -(rmag (-q) : ℤ) := by
        have := rkey_neg (-q)
        rw [neg_neg] at this
        rw [this, rkey_nonneg (by linarith), show min (rmag (-q)) 2139095040 = rmag (-q) by omega]
      rw [this, kval_neg]
      have e2 := kval_natCast (rmag (-q))
      rw [e2, show -mval (rmag (-q)) - q = -(mval (rmag (-q)) - -q) by ring, abs_neg]
  rw [hv]
  refine e.trans ?_
  rw [← abs_val]
  exact abs_abs_sub_abs_le (val b) q

theorem rnd_neg (s : Bool) (q : ℚ) : rnd s (-q) = negate (rnd (!s) q) := by
  apply eq_of_neg_mag
  · rw [(negate_spec _).1, (rnd_spec _ _).1, (rnd_spec _ _).1]
    rcases lt_trichotomy q 0 with h | h | h
    · rw [if_neg (by linarith), if_pos (by linarith), if_pos h]; rfl
    · subst h; simp
    · rw [if_pos (by linarith), if_neg (by linarith), if_pos h]; rfl
  · rw [(negate_spec _).2, (rnd_spec _ _).2, (rnd_spec _ _).2, abs_neg]

theorem mval_max : mval 2139095040 = 2 ^ (128 : ℤ) := by
  have := @mval_lin 255 0 (by norm_num) (by norm_num)
  rw [show 255 * 8388608 + 0 = 2139095040 by norm_num] at this
  rw [this]; norm_num

theorem Finite.abs_lt {b : BitVec 32} (h : Finite b) : |val b| < 2 ^ (128 : ℤ) := by
  rw [abs_val, ← mval_max, mval_lt_iff]; exact (finite_iff b).1 h

/-- A multiple of `2^t` with at most 24 digits is representable. -/
theorem exists_float {k t : ℤ} (ht : -149 ≤ t) (hk : |k| ≤ 16777216)
    (hb : |(k : ℚ)| * 2 ^ t < 2 ^ (128 : ℤ)) : ∃ b : BitVec 32, Finite b ∧ val b = (k : ℚ) * 2 ^ t := by
  -- it suffices to treat nonnegative `k`
  have main : ∀ k : ℤ, 0 ≤ k → k ≤ 16777216 → (k : ℚ) * 2 ^ t < 2 ^ (128 : ℤ) →
      ∃ b : BitVec 32, Finite b ∧ val b = (k : ℚ) * 2 ^ t := by
    intro k h0 h1 hb
    have hp := two_zpow_pos t
    have hmax : mval 2139095040 = 2 ^ (128 : ℤ) := mval_max
    rcases lt_or_eq_of_le h0 with hk0 | rfl
    swap
    · exact ⟨0#32, by decide, by norm_num; rw [val_eq]; simp [neg, mag, mval_zero]⟩
    have hq : (0 : ℚ) < (k : ℚ) * 2 ^ t := by
      have : (0 : ℚ) < k := by exact_mod_cast hk0
      positivity
    have hr : mval (rmag ((k : ℚ) * 2 ^ t)) = (k : ℚ) * 2 ^ t := by
      rw [mval_rmag hq]
      -- the scale divides
      have hsc : scale ((k : ℚ) * 2 ^ t) ≤ t ∨ k = 16777216 := by
        by_cases hk2 : k = 16777216
        · exact .inr hk2
        left
        have hlt : (k : ℚ) * 2 ^ t < 2 ^ (24 + t) := by
          rw [zpow_add₀ (by norm_num)]
          have : (k : ℚ) < 16777216 := by exact_mod_cast lt_of_le_of_ne h1 hk2
          apply mul_lt_mul_of_pos_right _ hp
          norm_num; exact this
        have := zpow_lt_iff.1 (lt_of_le_of_lt (ilog_bounds hq).1 hlt)
        unfold scale; omega
      rcases hsc with hsc | rfl
      · obtain ⟨d, hd⟩ : ∃ d : ℕ, t = scale ((k : ℚ) * 2 ^ t) + d :=
          ⟨(t - scale ((k : ℚ) * 2 ^ t)).toNat, by omega⟩
        have hdiv : (k : ℚ) * 2 ^ t / 2 ^ scale ((k : ℚ) * 2 ^ t) = ((k * 2 ^ d : ℤ) : ℚ) := by
          rw [div_eq_iff (two_zpow_pos _).ne']
          push_cast
          rw [← zpow_natCast (2 : ℚ) d, mul_assoc, ← zpow_add₀ (by norm_num), add_comm (d : ℤ),
            ← hd]
        rw [hdiv, rne_int, ← hdiv]
        field_simp
      · have e : ((16777216 : ℤ) : ℚ) * 2 ^ t = 2 ^ (24 + t) := by
          rw [zpow_add₀ (by norm_num)]; norm_num
        rw [e]
        have hs : scale ((2 : ℚ) ^ (24 + t)) = t + 1 := by
          have := ilog_unique (q := 2 ^ (24 + t)) (e := 24 + t) (le_refl _)
            (zpow_lt_iff.2 (by omega))
          unfold scale; rw [this]; omega
        rw [hs]
        have hd : (2 : ℚ) ^ (24 + t) / 2 ^ (t + 1) = ((8388608 : ℤ) : ℚ) := by
          rw [div_eq_iff (two_zpow_pos _).ne', show 24 + t = 23 + (t + 1) by ring,
            zpow_add₀ (by norm_num)]
          norm_num
        rw [hd, rne_int, ← hd]
        field_simp
    have hlt : rmag ((k : ℚ) * 2 ^ t) < 2139095040 := by
      rw [← mval_lt_iff, hr, hmax]; exact hb
    obtain ⟨p1, p2⟩ := pack_spec false (m := rmag ((k : ℚ) * 2 ^ t)) (by omega)
    refine ⟨pack false (rmag ((k : ℚ) * 2 ^ t)), ?_, ?_⟩
    · rw [finite_iff, p2]; omega
    · rw [val_eq, p1, p2]; simpa using hr
  rcases le_or_gt 0 k with h | h
  · exact main k h (by rw [abs_of_nonneg h] at hk; exact hk)
      (by rwa [abs_of_nonneg (by exact_mod_cast h : (0 : ℚ) ≤ k)] at hb)
  · obtain ⟨b, b1, b2⟩ := main (-k) (by omega) (by rw [abs_of_neg h] at hk; exact hk)
      (by rw [abs_of_neg (by exact_mod_cast h : (k : ℚ) < 0)] at hb; push_cast; exact hb)
    refine ⟨negate b, finite_negate.2 b1, ?_⟩
    rw [val_negate, b2]; push_cast; ring

/-- A multiple of `2^t` with at most 24 digits is not changed by rounding. -/
theorem rnd_dyadic (s : Bool) {k t : ℤ} (ht : -149 ≤ t) (ht2 : t ≤ 103) (hk : |k| ≤ 16777216) :
    Finite (rnd s ((k : ℚ) * 2 ^ t)) ∧ val (rnd s ((k : ℚ) * 2 ^ t)) = (k : ℚ) * 2 ^ t := by
  have hb : |(k : ℚ)| * 2 ^ t < 2 ^ (128 : ℤ) := by
    have h1 : |(k : ℚ)| ≤ 16777216 := by exact_mod_cast hk
    have h2 : (16777216 : ℚ) * 2 ^ t = 2 ^ (24 + t) := by
      rw [zpow_add₀ (by norm_num)]; norm_num
    calc |(k : ℚ)| * 2 ^ t ≤ 16777216 * 2 ^ t :=
          mul_le_mul_of_nonneg_right h1 (two_zpow_pos t).le
      _ = 2 ^ (24 + t) := h2
      _ < _ := zpow_lt_iff.2 (by omega)
  obtain ⟨b, h1, h2⟩ := exists_float ht hk hb
  exact rnd_exact h1 h2.symm

theorem rnd_int (s : Bool) {k : ℤ} (hk : |k| ≤ 16777216) :
    Finite (rnd s (k : ℚ)) ∧ val (rnd s (k : ℚ)) = k := by
  have := rnd_dyadic s (k := k) (t := 0) (by norm_num) (by norm_num) hk
  simpa using this

/-- Every finite value is a 24 digit multiple of a power of two. -/
theorem val_dyadic {b : BitVec 32} (h : Finite b) : ∃ k t : ℤ, -149 ≤ t ∧ t ≤ 104 ∧
    |k| < 16777216 ∧ val b = (k : ℚ) * 2 ^ t ∧ (t = -149 ∨ 8388608 ≤ |k|) := by
  have hm := (finite_iff b).1 h
  obtain ⟨t, k, ht, ht2, hk0, hk, h, hvk⟩ : ∃ t k : ℤ, -149 ≤ t ∧ t ≤ 104 ∧ 0 ≤ k ∧ k < 16777216 ∧
      (t = -149 ∨ 8388608 ≤ k) ∧ mag b = ((t + 149) * 8388608 + k).toNat := by
    by_cases hs : mag b < 16777216
    · exact ⟨-149, mag b, by omega, by omega, by omega, by omega, .inl rfl, by omega⟩
    · exact ⟨mag b / 8388608 - 150, mag b % 8388608 + 8388608, by omega, by omega, by omega, by omega,
        .inr (by omega), by omega⟩
  have hv : mval (mag b) = (k : ℚ) * 2 ^ t := by rw [hvk]; exact mval_scaled ht hk0 hk.le h
  rw [val_eq]
  by_cases hn : neg b
  · refine ⟨-k, t, ht, ht2, by rw [abs_neg, abs_of_nonneg hk0]; exact hk, ?_, ?_⟩
    · simp only [hn, if_true, hv]; push_cast; ring
    · rw [abs_neg, abs_of_nonneg hk0]; exact h
  · refine ⟨k, t, ht, ht2, by rw [abs_of_nonneg hk0]; exact hk, ?_, ?_⟩
    · simp only [hn, Bool.false_eq_true, if_false, hv]
    · rw [abs_of_nonneg hk0]; exact h

/-! ### The operators on finite operands -/

theorem add_fin {a b : BitVec 32} (ha : Finite a) (hb : Finite b) :
    add a b = rnd (neg a && neg b) (val a + val b) := by
  unfold add
  rw [if_neg (by simp [ha.notNaN, hb.notNaN]), if_neg ha.notInf, if_neg hb.notInf]

theorem sub_fin {a b : BitVec 32} (ha : Finite a) (hb : Finite b) :
    sub a b = rnd (neg a && !neg b) (val a - val b) := by
  unfold sub
  rw [add_fin ha (finite_negate.2 hb), (negate_spec b).1, val_negate, sub_eq_add_neg]

theorem mul_fin {a b : BitVec 32} (ha : Finite a) (hb : Finite b) :
    mul a b = rnd (neg a ^^ neg b) (val a * val b) := by
  unfold mul
  rw [if_neg (by simp [ha.notNaN, hb.notNaN]), if_neg (by simp [ha.notInf, hb.notInf])]

theorem val_eq_zero {b : BitVec 32} : val b = 0 ↔ mag b = 0 := by
  rw [← abs_eq_zero, abs_val, ← mval_zero, mval_inj]

theorem div_fin {a b : BitVec 32} (ha : Finite a) (hb : Finite b) (h0 : val b ≠ 0) :
    div a b = rnd (neg a ^^ neg b) (val a / val b) := by
  unfold div
  rw [if_neg (by simp [ha.notNaN, hb.notNaN]), if_neg ha.notInf, if_neg hb.notInf,
    if_neg (fun h => h0 (val_eq_zero.2 h))]

theorem add_comm (a b : BitVec 32) : add a b = add b a := by
  unfold add
  by_cases h1 : IsNaN a ∨ IsNaN b
  · rw [if_pos h1, if_pos (Or.symm h1)]
  · rw [if_neg h1, if_neg (fun h => h1 (Or.symm h))]
    by_cases ia : IsInf a <;> by_cases ib : IsInf b
    · rw [if_pos ia, if_pos ib]
      by_cases hs : neg a = neg b
      · rw [if_neg (by simp [hs]), if_neg (by simp [hs])]
        exact eq_of_neg_mag hs (by rw [(inf_iff a).1 ia, (inf_iff b).1 ib])
      · rw [if_pos ⟨ib, hs⟩, if_pos ⟨ia, Ne.symm hs⟩]
    · rw [if_pos ia, if_neg ib, if_pos ia, if_neg (by simp [ib])]
    · rw [if_pos ib, if_neg ia, if_pos ib, if_neg (by simp [ia])]
    · rw [if_neg ia, if_neg ib, if_neg ib, if_neg ia, Bool.and_comm, _root_.add_comm]

theorem mul_comm (a b : BitVec 32) : mul a b = mul b a := by
  unfold mul
  rw [Bool.xor_comm, _root_.mul_comm (val a)]
  simp only [or_comm]

theorem add_nan_left {a b : BitVec 32} (h : IsNaN a) : IsNaN (add a b) := by
  unfold add; rw [if_pos (.inl h)]; decide

theorem add_nan_right {a b : BitVec 32} (h : IsNaN b) : IsNaN (add a b) := by
  unfold add; rw [if_pos (.inr h)]; decide

theorem mul_nan_left {a b : BitVec 32} (h : IsNaN a) : IsNaN (mul a b) := by
  unfold mul; rw [if_pos (.inl h)]; decide

theorem mul_nan_right {a b : BitVec 32} (h : IsNaN b) : IsNaN (mul a b) := by
  unfold mul; rw [if_pos (.inr h)]; decide

/-! ### Comparisons of finite operands -/

theorem lt_fin {a b : BitVec 32} (ha : Finite a) (hb : Finite b) :
    lt a b = decide (val a < val b) := by
  unfold lt
  simp only [ha.notNaN, hb.notNaN, not_false_eq_true, true_and, val_lt_iff]

theorem le_fin {a b : BitVec 32} (ha : Finite a) (hb : Finite b) :
    le a b = decide (val a ≤ val b) := by
  unfold le
  simp only [ha.notNaN, hb.notNaN, not_false_eq_true, true_and, val_le_iff]

/-! ### The instance -/

/-- `float` with IEEE arithmetic. `absf`, `isNan`, `isInf` clear the sign bit and test the fields,
which is what `/repo/src/ffmath.cpp` lines 108-111, 130-152 do (`C31`, `C33`). -/
instance ieeeArith : Arith (BitVec 32) where
  add := add
  sub := sub
  mul := mul
  div := div
  neg := negate
  absf := fun x => pack false (mag x)
  lt := lt
  le := le
  lit := lit
  isNan := fun x => decide (IsNaN x)
  isInf := fun x => decide (IsInf x)

/-- IEEE floats satisfy the laws that the "any arithmetic" theorems assume. -/
instance ieeeLawful : LawfulOrd (BitVec 32) where
  lt_nan := by
    intro a b h
    have := of_decide_eq_true (show decide (¬ IsNaN a ∧ ¬ IsNaN b ∧ key a < key b) = true from h)
    exact ⟨decide_eq_false this.1, decide_eq_false this.2.1⟩
  le_nan := by
    intro a b h
    have := of_decide_eq_true (show decide (¬ IsNaN a ∧ ¬ IsNaN b ∧ key a ≤ key b) = true from h)
    exact ⟨decide_eq_false this.1, decide_eq_false this.2.1⟩
  le_of_not_lt := by
    intro a b ha hb h
    have ha' : ¬ IsNaN a := of_decide_eq_false ha
    have hb' : ¬ IsNaN b := of_decide_eq_false hb
    have := of_decide_eq_false (show decide (¬ IsNaN a ∧ ¬ IsNaN b ∧ key a < key b) = false from h)
    have : ¬ key a < key b := fun h => this ⟨ha', hb', h⟩
    exact decide_eq_true (⟨hb', ha', by omega⟩ : ¬ IsNaN b ∧ ¬ IsNaN a ∧ key b ≤ key a)
  not_lt_of_le := by
    intro a b h
    have := of_decide_eq_true (show decide (¬ IsNaN a ∧ ¬ IsNaN b ∧ key a ≤ key b) = true from h)
    exact decide_eq_false (fun h : ¬ IsNaN b ∧ ¬ IsNaN a ∧ key b < key a => by omega)
  le_of_lt := by
    intro a b h
    have := of_decide_eq_true (show decide (¬ IsNaN a ∧ ¬ IsNaN b ∧ key a < key b) = true from h)
    exact decide_eq_true (⟨this.1, this.2.1, by omega⟩ : ¬ IsNaN a ∧ ¬ IsNaN b ∧ key a ≤ key b)
  le_refl := by
    intro a ha
    have ha' : ¬ IsNaN a := of_decide_eq_false ha
    exact decide_eq_true (⟨ha', ha', le_refl _⟩ : ¬ IsNaN a ∧ ¬ IsNaN a ∧ key a ≤ key a)
  le_trans := by
    intro a b c h1 h2
    have h1 := of_decide_eq_true (show decide (¬ IsNaN a ∧ ¬ IsNaN b ∧ key a ≤ key b) = true from h1)
    have h2 := of_decide_eq_true (show decide (¬ IsNaN b ∧ ¬ IsNaN c ∧ key b ≤ key c) = true from h2)
    exact decide_eq_true (⟨h1.1, h2.2.1, by omega⟩ : ¬ IsNaN a ∧ ¬ IsNaN c ∧ key a ≤ key c)
  lit_lt := by
    intro m n hm hn h
    have em := rnd_int false (k := m) (by rw [abs_le]; omega)
    have en := rnd_int false (k := n) (by rw [abs_le]; omega)
    change lt (lit (m : ℚ)) (lit (n : ℚ)) = true
    unfold lit
    rw [lt_fin em.1 en.1, em.2, en.2]
    exact decide_eq_true (by exact_mod_cast h)

example : add (lit (1 / 10)) (lit (2 / 10)) = 0x3E99999A#32 := by decide +kernel
example : mul 0x7F7FFFFF#32 0x40000000#32 = 0x7F800000#32 := by decide +kernel
example : div 0x3F800000#32 0x80000000#32 = 0xFF800000#32 := by decide +kernel
example : sub 0x3F800000#32 0x3F800000#32 = 0#32 := by decide +kernel
example : mul 0x00000001#32 0xBF000000#32 = 0x80000000#32 := by decide +kernel

end Verif.F32
