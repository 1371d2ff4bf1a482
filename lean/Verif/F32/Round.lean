import Verif.F32.Basic
import Mathlib.Algebra.Order.Floor.Ring
import Mathlib.Data.Rat.Floor
import Mathlib.Data.Nat.Log

/-!
# Rounding to binary32

Round to nearest, ties to even (IEEE 754-2008, 4.3.1), of a rational number to a magnitude
pattern, and the facts that characterise it: it is monotone, exact on representable values,
nearest among all patterns, even on ties, with the usual error bound. The target platform is
assumed to evaluate `float` expressions in `float` (`FLT_EVAL_METHOD` 0, no contraction into fused
operations) in the default rounding mode; `DESIGN.md` lists this with the trusted base.
-/

namespace Verif.F32

/-- The exponent of the leading binary digit of a positive rational (not a definition of the
repository). -/
def ilog (q : ℚ) : ℤ :=
  let e := (q.num.toNat.log2 : ℤ) - (q.den.log2 : ℤ)
  if (2 : ℚ) ^ e ≤ q then e else e - 1

/-- Nearest integer, ties to even (IEEE 754; not a definition of the repository). -/
def rne (x : ℚ) : ℤ :=
  let f := ⌊x⌋
  if x - f < 1 / 2 then f else if 1 / 2 < x - f then f + 1 else if f % 2 = 0 then f else f + 1

/-- Exponent of the last place at `q` (IEEE 754; not a definition of the repository). -/
def scale (q : ℚ) : ℤ := max (-149) (ilog q - 23)

/-- Magnitude pattern of the float nearest to `q ≥ 0`, with no upper bound on the exponent
(IEEE 754; not a definition of the repository). -/
def rmag (q : ℚ) : Nat :=
  if q ≤ 0 then 0 else ((scale q + 149) * 8388608 + rne (q / 2 ^ scale q)).toNat

theorem two_zpow_pos (e : ℤ) : (0 : ℚ) < 2 ^ e := by positivity

theorem ilog_bounds {q : ℚ} (hq : 0 < q) :
    (2 : ℚ) ^ ilog q ≤ q ∧ q < 2 ^ (ilog q + 1) := by
  have hn : 0 < q.num := Rat.num_pos.2 hq
  have hd : 0 < q.den := q.den_pos
  obtain ⟨n, hn'⟩ : ∃ n : ℕ, q.num = n := ⟨q.num.toNat, by omega⟩
  have hn0 : n ≠ 0 := by omega
  have hqe : q = (n : ℚ) / (q.den : ℚ) := by
    conv_lhs => rw [← Rat.num_div_den q]
    rw [hn', Int.cast_natCast]
  have l1 : 2 ^ n.log2 ≤ n := Nat.log2_self_le hn0
  have l2 : n < 2 ^ (n.log2 + 1) := Nat.lt_log2_self
  have l3 : 2 ^ q.den.log2 ≤ q.den := Nat.log2_self_le hd.ne'
  have l4 : q.den < 2 ^ (q.den.log2 + 1) := Nat.lt_log2_self
  have hN : q.num.toNat = n := by omega
  unfold ilog
  rw [hN]
  simp only
  generalize n.log2 = a at *
  generalize q.den.log2 = b at *
  have l1' : (2 : ℚ) ^ a ≤ n := by exact_mod_cast l1
  have l2' : (n : ℚ) < 2 ^ (a + 1) := by exact_mod_cast l2
  have l3' : (2 : ℚ) ^ b ≤ q.den := by exact_mod_cast l3
  have l4' : (q.den : ℚ) < 2 ^ (b + 1) := by exact_mod_cast l4
  have hdq : (0 : ℚ) < q.den := by exact_mod_cast hd
  have up : q < 2 ^ (((a : ℤ) - b) + 1) := by
    rw [hqe, div_lt_iff₀ hdq]
    have e1 : (2 : ℚ) ^ (((a : ℤ) - b) + 1) * 2 ^ b = 2 ^ (a + 1) := by
      rw [← zpow_natCast (2 : ℚ) b, ← zpow_natCast (2 : ℚ) (a + 1), ← zpow_add₀ (by norm_num)]
      congr 1; push_cast; ring
    calc (n : ℚ) < 2 ^ (a + 1) := l2'
      _ = 2 ^ (((a : ℤ) - b) + 1) * 2 ^ b := e1.symm
      _ ≤ _ := mul_le_mul_of_nonneg_left l3' (two_zpow_pos _).le
  have lo : (2 : ℚ) ^ (((a : ℤ) - b) - 1) ≤ q := by
    conv_rhs => rw [hqe]
    rw [le_div_iff₀ hdq]
    have e1 : (2 : ℚ) ^ (((a : ℤ) - b) - 1) * 2 ^ (b + 1) = 2 ^ a := by
      rw [← zpow_natCast (2 : ℚ) (b + 1), ← zpow_natCast (2 : ℚ) a, ← zpow_add₀ (by norm_num)]
      congr 1; push_cast; ring
    calc (2 : ℚ) ^ (((a : ℤ) - b) - 1) * q.den ≤ 2 ^ (((a : ℤ) - b) - 1) * 2 ^ (b + 1) :=
          mul_le_mul_of_nonneg_left l4'.le (two_zpow_pos _).le
      _ = 2 ^ a := e1
      _ ≤ n := l1'
  split
  · rename_i h; exact ⟨h, up⟩
  · rename_i h
    refine ⟨lo, ?_⟩
    rw [sub_add_cancel]; exact not_le.1 h

theorem zpow_lt_iff {a b : ℤ} : (2 : ℚ) ^ a < 2 ^ b ↔ a < b :=
  zpow_lt_zpow_iff_right₀ (by norm_num)

theorem zpow_le_iff {a b : ℤ} : (2 : ℚ) ^ a ≤ 2 ^ b ↔ a ≤ b :=
  zpow_le_zpow_iff_right₀ (by norm_num)

theorem ilog_unique {q : ℚ} {e : ℤ} (h1 : (2 : ℚ) ^ e ≤ q) (h2 : q < 2 ^ (e + 1)) :
    ilog q = e := by
  have hq : 0 < q := lt_of_lt_of_le (two_zpow_pos e) h1
  obtain ⟨a, b⟩ := ilog_bounds hq
  have := zpow_lt_iff.1 (lt_of_le_of_lt a h2)
  have := zpow_lt_iff.1 (lt_of_le_of_lt h1 b)
  omega

theorem ilog_mono {p q : ℚ} (hp : 0 < p) (h : p ≤ q) : ilog p ≤ ilog q := by
  have := zpow_lt_iff.1 (lt_of_le_of_lt ((ilog_bounds hp).1.trans h)
    (ilog_bounds (lt_of_lt_of_le hp h)).2)
  omega

theorem scale_mono {p q : ℚ} (hp : 0 < p) (h : p ≤ q) : scale p ≤ scale q := by
  have := ilog_mono hp h
  unfold scale; omega

/-! ### Nearest integer -/

theorem rne_cases (x : ℚ) : rne x = ⌊x⌋ ∧ x - ⌊x⌋ ≤ 1 / 2 ∨ rne x = ⌊x⌋ + 1 ∧ 1 / 2 ≤ x - ⌊x⌋ := by
  unfold rne
  simp only
  split
  · rename_i h; exact .inl ⟨rfl, h.le⟩
  · rename_i h
    split
    · rename_i h2; exact .inr ⟨rfl, h2.le⟩
    · rename_i h2
      split
      · exact .inl ⟨rfl, not_lt.1 h2⟩
      · exact .inr ⟨rfl, not_lt.1 h⟩

/-- The rounded integer is nearest among all integers. -/
theorem rne_nearest (x : ℚ) (n : ℤ) : |(rne x : ℚ) - x| ≤ |(n : ℚ) - x| := by
  have f1 := Int.floor_le x
  have f2 := Int.lt_floor_add_one x
  rcases le_or_gt n ⌊x⌋ with h | h
  · have hn : (n : ℚ) ≤ ⌊x⌋ := by exact_mod_cast h
    rw [abs_of_nonpos (by linarith : (n : ℚ) - x ≤ 0)]
    rcases rne_cases x with ⟨e, h1⟩ | ⟨e, h1⟩
    · rw [e, abs_of_nonpos (by linarith)]; linarith
    · rw [e]; push_cast; rw [abs_of_nonneg (by linarith)]; linarith
  · have hn : (⌊x⌋ : ℚ) + 1 ≤ n := by exact_mod_cast h
    rw [abs_of_nonneg (by linarith : 0 ≤ (n : ℚ) - x)]
    rcases rne_cases x with ⟨e, h1⟩ | ⟨e, h1⟩
    · rw [e, abs_of_nonpos (by linarith)]; linarith
    · rw [e]; push_cast; rw [abs_of_nonneg (by linarith)]; linarith

theorem rne_err (x : ℚ) : |(rne x : ℚ) - x| ≤ 1 / 2 := by
  have f1 := Int.floor_le x
  have f2 := Int.lt_floor_add_one x
  rcases rne_cases x with ⟨e, h1⟩ | ⟨e, h1⟩
  · rw [e, abs_of_nonpos (by linarith)]; linarith
  · rw [e]; push_cast; rw [abs_of_nonneg (by linarith)]; linarith

theorem rne_tie_even {x : ℚ} (h : x - ⌊x⌋ = 1 / 2) : rne x % 2 = 0 := by
  unfold rne
  simp only
  rw [if_neg (by rw [h]; norm_num), if_neg (by rw [h]; norm_num)]
  split <;> omega

theorem rne_int (n : ℤ) : rne (n : ℚ) = n := by
  unfold rne
  simp only [Int.floor_intCast, sub_self]
  rw [if_pos (by norm_num)]

theorem rne_mono {x y : ℚ} (h : x ≤ y) : rne x ≤ rne y := by
  have hf : ⌊x⌋ ≤ ⌊y⌋ := Int.floor_le_floor h
  rcases lt_or_eq_of_le hf with hf | hf
  · rcases rne_cases x with ⟨e, _⟩ | ⟨e, _⟩ <;> rcases rne_cases y with ⟨e', _⟩ | ⟨e', _⟩ <;> omega
  · unfold rne
    simp only
    rw [← hf]
    by_cases a : y - ⌊x⌋ < 1 / 2
    · rw [if_pos a, if_pos (by linarith)]
    · rw [if_neg a]
      by_cases b : 1 / 2 < y - ⌊x⌋
      · rw [if_pos b]; split_ifs <;> omega
      · rw [if_neg b]
        by_cases c : x - ⌊x⌋ < 1 / 2
        · rw [if_pos c]; split_ifs <;> omega
        · rw [if_neg c, if_neg (by linarith)]

theorem rne_add_even (x : ℚ) {n : ℤ} (h : n % 2 = 0) : rne (n + x) = n + rne x := by
  unfold rne
  simp only
  rw [Int.floor_intCast_add]
  have e : (n : ℚ) + x - ((n + ⌊x⌋ : ℤ) : ℚ) = x - ⌊x⌋ := by push_cast; ring
  rw [e]
  split_ifs <;> omega

theorem rne_unique {x : ℚ} {n : ℤ} (h : |(n : ℚ) - x| < 1 / 2) : rne x = n := by
  have h1 := rne_nearest x n
  have h2 : |(rne x : ℚ) - n| < 1 := by
    calc |(rne x : ℚ) - n| = |((rne x : ℚ) - x) - ((n : ℚ) - x)| := by congr 1; ring
      _ ≤ |(rne x : ℚ) - x| + |(n : ℚ) - x| := abs_sub _ _
      _ < 1 := by linarith
  have h3 : |rne x - n| < 1 := by exact_mod_cast h2
  rw [abs_lt] at h3
  omega

theorem rne_neg (x : ℚ) : rne (-x) = - rne x := by
  have e1 := rne_err x
  have e2 := rne_err (-x)
  by_cases hlt : |(rne x : ℚ) - x| < 1 / 2
  · apply rne_unique
    rw [show ((-rne x : ℤ) : ℚ) - -x = -((rne x : ℚ) - x) by push_cast; ring, abs_neg]
    exact hlt
  · have heq : |(rne x : ℚ) - x| = 1 / 2 := le_antisymm e1 (not_lt.1 hlt)
    have hfl : x - ⌊x⌋ = 1 / 2 := by
      rcases rne_cases x with ⟨e, h1⟩ | ⟨e, h1⟩
      · rw [e, abs_of_nonpos (by linarith [Int.floor_le x])] at heq; linarith
      · rw [e] at heq; push_cast at heq
        rw [abs_of_nonneg (by linarith [Int.lt_floor_add_one x])] at heq; linarith
    have hfn : ⌊-x⌋ = -⌊x⌋ - 1 := by
      rw [Int.floor_eq_iff]; push_cast; constructor <;> linarith
    have hfl' : -x - ⌊-x⌋ = 1 / 2 := by rw [hfn]; push_cast; linarith
    have p1 := rne_tie_even hfl
    have p2 := rne_tie_even hfl'
    rcases rne_cases x with ⟨e, _⟩ | ⟨e, _⟩ <;> rcases rne_cases (-x) with ⟨e', _⟩ | ⟨e', _⟩ <;> omega

/-! ### Patterns -/

theorem mval_scaled {t k : ℤ} (ht : -149 ≤ t) (hk : 0 ≤ k) (hk2 : k ≤ 16777216)
    (h : t = -149 ∨ 8388608 ≤ k) :
    mval ((t + 149) * 8388608 + k).toNat = (k : ℚ) * 2 ^ t := by
  obtain ⟨j, rfl⟩ : ∃ j : ℕ, k = j := ⟨k.toNat, by omega⟩
  by_cases h0 : t = -149
  · subst h0
    rw [show ((-149 + 149 : ℤ) * 8388608 + (j : ℤ)).toNat = j by omega, mval_sub (by omega)]
    norm_cast
  · have hj : 8388608 ≤ j := by omega
    obtain ⟨n, hn⟩ : ∃ n : ℕ, t + 149 = n := ⟨(t + 149).toNat, by omega⟩
    have := @mval_lin (n + 1) (j - 8388608) (by omega) (by omega)
    rw [show ((t + 149) * 8388608 + (j : ℤ)).toNat = (n + 1) * 8388608 + (j - 8388608) by
      rw [hn]; omega, this]
    rw [show 8388608 + (j - 8388608) = j by omega, show ((n + 1 : ℕ) : ℤ) - 150 = t by omega]
    norm_cast

/-- Where `q` sits in its binade. -/
theorem scaled_bounds {q : ℚ} (hq : 0 < q) :
    0 < q / 2 ^ scale q ∧ q / 2 ^ scale q < 16777216 ∧
    (scale q = -149 ∨ 8388608 ≤ q / 2 ^ scale q) ∧ -149 ≤ scale q := by
  obtain ⟨l1, l2⟩ := ilog_bounds hq
  have hs := two_zpow_pos (scale q)
  refine ⟨by positivity, ?_, ?_, by unfold scale; omega⟩
  · rw [div_lt_iff₀ hs]
    have : (16777216 : ℚ) * 2 ^ scale q = 2 ^ (24 + scale q) := by
      rw [zpow_add₀ (by norm_num)]; norm_num
    rw [this]
    exact lt_of_lt_of_le l2 (zpow_le_iff.2 (by unfold scale; omega))
  · by_cases h : scale q = -149
    · exact .inl h
    · right
      rw [le_div_iff₀ hs]
      have : (8388608 : ℚ) * 2 ^ scale q = 2 ^ (23 + scale q) := by
        rw [zpow_add₀ (by norm_num)]; norm_num
      rw [this]
      exact le_trans (zpow_le_iff.2 (by unfold scale at *; omega)) l1

theorem rne_scaled_bounds {q : ℚ} (hq : 0 < q) :
    0 ≤ rne (q / 2 ^ scale q) ∧ rne (q / 2 ^ scale q) ≤ 16777216 ∧
    (scale q = -149 ∨ 8388608 ≤ rne (q / 2 ^ scale q)) := by
  obtain ⟨h0, h1, h2, _⟩ := scaled_bounds hq
  refine ⟨?_, ?_, h2.imp id ?_⟩
  · have := rne_mono (x := ((0 : ℤ) : ℚ)) (y := q / 2 ^ scale q) (by push_cast; exact h0.le)
    rwa [rne_int] at this
  · have := rne_mono (x := q / 2 ^ scale q) (y := ((16777216 : ℤ) : ℚ)) (by push_cast; exact h1.le)
    rwa [rne_int] at this
  · intro h
    have := rne_mono (x := ((8388608 : ℤ) : ℚ)) (y := q / 2 ^ scale q) (by push_cast; exact h)
    rwa [rne_int] at this

/-- The value of the rounded pattern. -/
theorem mval_rmag {q : ℚ} (hq : 0 < q) :
    mval (rmag q) = (rne (q / 2 ^ scale q) : ℚ) * 2 ^ scale q := by
  obtain ⟨h0, h1, h2⟩ := rne_scaled_bounds hq
  unfold rmag
  rw [if_neg (not_le.2 hq)]
  exact mval_scaled (scaled_bounds hq).2.2.2 h0 h1 h2

theorem rmag_nonpos {q : ℚ} (hq : q ≤ 0) : rmag q = 0 := by unfold rmag; rw [if_pos hq]

/-- Rounding is monotone. -/
theorem rmag_mono {p q : ℚ} (h : p ≤ q) : rmag p ≤ rmag q := by
  rcases le_or_gt p 0 with hp | hp
  · rw [rmag_nonpos hp]; omega
  have hq := lt_of_lt_of_le hp h
  obtain ⟨a0, a1, a2⟩ := rne_scaled_bounds hp
  obtain ⟨b0, b1, b2⟩ := rne_scaled_bounds hq
  have hs := scale_mono hp h
  have hs0 := (scaled_bounds hp).2.2.2
  unfold rmag
  rw [if_neg (not_le.2 hp), if_neg (not_le.2 hq)]
  rcases lt_or_eq_of_le hs with hs | hs
  · have : 8388608 ≤ rne (q / 2 ^ scale q) := by rcases b2 with b2 | b2 <;> omega
    omega
  · rw [hs] at *
    have : rne (p / 2 ^ scale q) ≤ rne (q / 2 ^ scale q) :=
      rne_mono (div_le_div_of_nonneg_right h (two_zpow_pos _).le)
    omega

/-- Rounding is exact on representable values. -/
theorem rmag_mval (v : Nat) : rmag (mval v) = v := by
  rcases Nat.eq_zero_or_pos v with rfl | hv
  · rw [mval_zero, rmag_nonpos (le_refl _)]
  obtain ⟨t, k, ht, hk0, hk, h, hvk⟩ : ∃ t k : ℤ, -149 ≤ t ∧ 0 < k ∧ k < 16777216 ∧
      (t = -149 ∨ 8388608 ≤ k) ∧ v = ((t + 149) * 8388608 + k).toNat := by
    by_cases hs : v < 16777216
    · exact ⟨-149, v, by omega, by omega, by omega, .inl rfl, by omega⟩
    · exact ⟨v / 8388608 - 150, v % 8388608 + 8388608, by omega, by omega, by omega,
        .inr (by omega), by omega⟩
  have hm : mval v = (k : ℚ) * 2 ^ t := by rw [hvk]; exact mval_scaled ht hk0.le hk.le h
  have hp : 0 < mval v := by
    rw [hm]; have : (0 : ℚ) < k := by exact_mod_cast hk0
    have := two_zpow_pos t; positivity
  have hsc : scale (mval v) = t := by
    have hkq : (k : ℚ) < 16777216 := by exact_mod_cast hk
    have up : mval v < 2 ^ (t + 23 + 1) := by
      rw [hm, show t + 23 + 1 = 24 + t by ring, zpow_add₀ (by norm_num)]
      have := two_zpow_pos t
      norm_num
      exact mul_lt_mul_of_pos_right hkq this
    by_cases hk8 : 8388608 ≤ k
    · have lo : (2 : ℚ) ^ (t + 23) ≤ mval v := by
        rw [hm, show t + 23 = 23 + t by ring, zpow_add₀ (by norm_num)]
        have h8 : (8388608 : ℚ) ≤ k := by exact_mod_cast hk8
        have := two_zpow_pos t
        norm_num
        exact mul_le_mul_of_nonneg_right h8 this.le
      unfold scale
      rw [ilog_unique lo up]; omega
    · have ht' : t = -149 := by omega
      have hl := zpow_lt_iff.1 (lt_of_le_of_lt (ilog_bounds hp).1 up)
      have : ilog (mval v) < t + 24 := by omega
      have hl2 : mval v < 2 ^ (t + 23) := by
        rw [hm, show t + 23 = 23 + t by ring, zpow_add₀ (by norm_num)]
        have h8 : (k : ℚ) < 8388608 := by exact_mod_cast (not_le.1 hk8)
        have := two_zpow_pos t
        norm_num
        exact mul_lt_mul_of_pos_right h8 this
      have hl3 := zpow_lt_iff.1 (lt_of_le_of_lt (ilog_bounds hp).1 hl2)
      unfold scale; omega
  unfold rmag
  rw [if_neg (not_le.2 hp), hsc]
  have : mval v / 2 ^ t = (k : ℚ) := by
    rw [hm, mul_div_assoc, div_self (two_zpow_pos t).ne', mul_one]
  rw [this, rne_int]
  exact hvk.symm

theorem rmag_le_of_le {q : ℚ} {v : Nat} (h : q ≤ mval v) : rmag q ≤ v := by
  have := rmag_mono h; rwa [rmag_mval] at this

theorem le_rmag_of_le {q : ℚ} {v : Nat} (h : mval v ≤ q) : v ≤ rmag q := by
  have := rmag_mono h; rwa [rmag_mval] at this

/-- The two neighbours of a positive number. -/
theorem neighbours {q : ℚ} (hq : 0 < q) : ∃ u : Nat,
    mval u = (⌊q / 2 ^ scale q⌋ : ℚ) * 2 ^ scale q ∧
    mval (u + 1) = ((⌊q / 2 ^ scale q⌋ : ℚ) + 1) * 2 ^ scale q ∧
    (u : ℤ) = (scale q + 149) * 8388608 + ⌊q / 2 ^ scale q⌋ := by
  obtain ⟨h0, h1, h2, h3⟩ := scaled_bounds hq
  generalize hx : q / 2 ^ scale q = x at *
  have f0 : 0 ≤ ⌊x⌋ := Int.floor_nonneg.2 h0.le
  have f1 : ⌊x⌋ < 16777216 := Int.floor_lt.2 (by push_cast; exact h1)
  have f2 : scale q = -149 ∨ 8388608 ≤ ⌊x⌋ :=
    h2.imp id (fun h => Int.le_floor.2 (by push_cast; exact h))
  refine ⟨((scale q + 149) * 8388608 + ⌊x⌋).toNat, mval_scaled h3 f0 f1.le f2, ?_, by omega⟩
  have := mval_scaled (k := ⌊x⌋ + 1) h3 (by omega) (by omega) (f2.imp id (by omega))
  rw [show ((scale q + 149) * 8388608 + ⌊x⌋).toNat + 1 =
    ((scale q + 149) * 8388608 + (⌊x⌋ + 1)).toNat by omega, this]
  push_cast; rfl

/-- The rounded value is nearest among all patterns. -/
theorem rmag_nearest {q : ℚ} (hq : 0 ≤ q) (v : Nat) : |mval (rmag q) - q| ≤ |mval v - q| := by
  rcases lt_or_eq_of_le hq with hq | rfl
  swap
  · rw [rmag_nonpos (le_refl _), mval_zero]; simp
  obtain ⟨u, m1, m2, _⟩ := neighbours hq
  rw [mval_rmag hq]
  have hs := two_zpow_pos (scale q)
  have hx : q = q / 2 ^ scale q * 2 ^ scale q := by field_simp
  generalize q / 2 ^ scale q = x at *
  generalize (2 : ℚ) ^ scale q = p at *
  have e : |(rne x : ℚ) * p - q| = |(rne x : ℚ) - x| * p := by
    rw [hx, ← sub_mul, abs_mul, abs_of_pos hs]
  rw [e]
  have f1 := Int.floor_le x
  have f2 := Int.lt_floor_add_one x
  rcases le_or_gt v u with h | h
  · have := mval_le_iff.2 h
    have r := rne_nearest x ⌊x⌋
    rw [abs_of_nonpos (by linarith : (⌊x⌋ : ℚ) - x ≤ 0)] at r
    rw [m1] at this
    have h3 : (⌊x⌋ : ℚ) * p ≤ x * p := mul_le_mul_of_nonneg_right f1 hs.le
    rw [abs_of_nonpos (by linarith : mval v - q ≤ 0)]
    calc _ ≤ -((⌊x⌋ : ℚ) - x) * p := mul_le_mul_of_nonneg_right r hs.le
      _ ≤ _ := by rw [hx]; linarith
  · have := mval_le_iff.2 (show u + 1 ≤ v from h)
    have r := rne_nearest x (⌊x⌋ + 1)
    push_cast at r
    rw [abs_of_nonneg (by linarith : 0 ≤ (⌊x⌋ : ℚ) + 1 - x)] at r
    rw [m2] at this
    have h3 : x * p ≤ ((⌊x⌋ : ℚ) + 1) * p := mul_le_mul_of_nonneg_right f2.le hs.le
    rw [abs_of_nonneg (by linarith : 0 ≤ mval v - q)]
    calc _ ≤ ((⌊x⌋ : ℚ) + 1 - x) * p := mul_le_mul_of_nonneg_right r hs.le
      _ ≤ _ := by rw [hx]; linarith

/-- Ties go to the even pattern. -/
theorem rmag_tie {q : ℚ} {v : Nat} (hv : v ≠ rmag q) (hq : 0 ≤ q)
    (h : |mval v - q| = |mval (rmag q) - q|) : rmag q % 2 = 0 := by
  rcases lt_or_eq_of_le hq with hq | rfl
  swap
  · rw [rmag_nonpos (le_refl _)]
  obtain ⟨u, m1, m2, hu⟩ := neighbours hq
  have hr : rmag q = ((scale q + 149) * 8388608 + rne (q / 2 ^ scale q)).toNat := by
    unfold rmag; rw [if_neg (not_le.2 hq)]
  rw [mval_rmag hq] at h
  have hs := two_zpow_pos (scale q)
  have hx : q = q / 2 ^ scale q * 2 ^ scale q := by field_simp
  obtain ⟨b0, _, _⟩ := rne_scaled_bounds hq
  generalize q / 2 ^ scale q = x at *
  have hs149 := (scaled_bounds hq).2.2.2
  generalize scale q = t at *
  generalize (2 : ℚ) ^ t = p at *
  have e : |(rne x : ℚ) * p - q| = |(rne x : ℚ) - x| * p := by
    rw [hx, ← sub_mul, abs_mul, abs_of_pos hs]
  rw [e] at h
  have f1 := Int.floor_le x
  have f2 := Int.lt_floor_add_one x
  have tie : x - ⌊x⌋ = 1 / 2 := by
    rcases rne_cases x with ⟨er, hh⟩ | ⟨er, hh⟩
    · rw [er, abs_of_nonpos (by linarith : (⌊x⌋ : ℚ) - x ≤ 0)] at h
      rcases le_or_gt v u with hvu | hvu
      · have hlt : v < u := by
          rcases Nat.lt_or_ge v u with h | h
          · exact h
          · exfalso; apply hv; rw [hr, er]; omega
        have h3 := mval_lt_iff.2 hlt
        rw [m1] at h3
        rw [abs_of_nonpos (by nlinarith)] at h
        nlinarith
      · have h3 := mval_le_iff.2 (show u + 1 ≤ v from hvu)
        rw [m2] at h3
        rw [abs_of_nonneg (by nlinarith)] at h
        have : (⌊x⌋ + 1 - x) * p ≤ (x - ⌊x⌋) * p := by nlinarith
        have := le_of_mul_le_mul_right this hs
        linarith
    · rw [er] at h; push_cast at h; rw [abs_of_nonneg (by linarith : 0 ≤ (⌊x⌋ : ℚ) + 1 - x)] at h
      rcases le_or_gt v u with hvu | hvu
      · have h3 := mval_le_iff.2 hvu
        rw [m1] at h3
        rw [abs_of_nonpos (by nlinarith)] at h
        have : (x - ⌊x⌋) * p ≤ (⌊x⌋ + 1 - x) * p := by nlinarith
        have := le_of_mul_le_mul_right this hs
        linarith
      · have hlt : u + 1 < v := by
          rcases Nat.lt_or_ge (u + 1) v with h | h
          · exact h
          · exfalso; apply hv; rw [hr, er]; omega
        have h3 := mval_lt_iff.2 hlt
        rw [m2] at h3
        rw [abs_of_nonneg (by nlinarith)] at h
        nlinarith
  have := rne_tie_even tie
  omega

/-- Relative error in the normal range, absolute error below. -/
theorem rmag_err {q : ℚ} (hq : 0 ≤ q) :
    |mval (rmag q) - q| ≤ max (q * 2 ^ (-24 : ℤ)) (2 ^ (-150 : ℤ)) := by
  rcases lt_or_eq_of_le hq with hq | rfl
  swap
  · rw [rmag_nonpos (le_refl _), mval_zero]; simp
  obtain ⟨h0, h1, h2, h3⟩ := scaled_bounds hq
  rw [mval_rmag hq]
  have hs := two_zpow_pos (scale q)
  have hx : q = q / 2 ^ scale q * 2 ^ scale q := by field_simp
  have e : |(rne (q / 2 ^ scale q) : ℚ) * 2 ^ scale q - q|
      = |(rne (q / 2 ^ scale q) : ℚ) - q / 2 ^ scale q| * 2 ^ scale q := by
    conv_lhs => rw [show ((rne (q / 2 ^ scale q) : ℚ) * 2 ^ scale q - q) =
      ((rne (q / 2 ^ scale q) : ℚ) - q / 2 ^ scale q) * 2 ^ scale q by field_simp]
    rw [abs_mul, abs_of_pos hs]
  rw [e]
  have r := rne_err (q / 2 ^ scale q)
  have hb : |(rne (q / 2 ^ scale q) : ℚ) - q / 2 ^ scale q| * 2 ^ scale q ≤ 1 / 2 * 2 ^ scale q :=
    mul_le_mul_of_nonneg_right r hs.le
  refine hb.trans ?_
  rcases h2 with h2 | h2
  · apply le_max_of_le_right
    rw [h2]; norm_num
  · apply le_max_of_le_left
    have : (2 : ℚ) ^ (-24 : ℤ) = 1 / 2 / 8388608 := by norm_num
    rw [this]
    rw [le_div_iff₀ hs] at h2
    linarith

example : rmag (1 / 3) = 0x3EAAAAAB := by decide +kernel
example : rmag (16777217) = 0x4B800000 := by decide +kernel
example : rmag (16777219) = 0x4B800002 := by decide +kernel

end Verif.F32
