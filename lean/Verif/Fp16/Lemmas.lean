import Verif.Fp16.Spec
import Mathlib.Tactic.Ring
import Mathlib.Tactic.Linarith
import Mathlib.Logic.Basic

/-! # Lemmas on conversions and bit operations, add/sub/mul -/

namespace Verif.Fp16

theorem toU_lt (z : Int) : toU z < 4294967296 := by unfold toU; omega

theorem toU_cast (z : Int) : ((toU z : Nat) : Int) = z % 4294967296 := by unfold toU; omega

theorem toU_nonneg {z : Int} (h0 : 0 ≤ z) (h1 : z < 4294967296) : ((toU z : Nat) : Int) = z := by
  unfold toU; omega

theorem toI_range (n : Nat) : -2147483648 ≤ toI n ∧ toI n < 2147483648 := by
  unfold toI; split <;> omega

theorem toI_toU {z : Int} (h : I32 z) : toI (toU z) = z := by
  unfold I32 at h; unfold toI toU; split <;> omega

theorem toI_small {n : Nat} (h : n < 2147483648) : toI n = n := by
  unfold toI; rw [if_pos (by omega)]; omega

theorem chk_ok {z : Int} (h : -2147483648 ≤ z ∧ z < 2147483648) : chk z = .ok z := by
  simp [chk, h]

theorem chk_ub {z : Int} (h : ¬ (-2147483648 ≤ z ∧ z < 2147483648)) : chk z = .ub := by
  unfold chk; rw [if_neg h]

theorem saturate_eq (n x y : Int) : saturate n x y = n := by simp [saturate, saturation]

theorem and_top (n : Nat) (h : n < 4294967296) :
    n &&& 0x80000000 = if n < 2147483648 then 0 else 0x80000000 := by
  have hb : n.testBit 31 = decide (2147483648 ≤ n) := by
    rw [Nat.testBit_eq_decide_div_mod_eq]
    congr 1
    apply propext
    omega
  have key : n &&& 2 ^ 31 = (n.testBit 31).toNat * 2 ^ 31 := by
    apply Nat.eq_of_testBit_eq
    intro i
    rw [Nat.testBit_and, Nat.testBit_two_pow]
    by_cases hi : 31 = i
    · subst hi
      cases n.testBit 31 <;> decide
    · cases n.testBit 31
      · simp [hi]
      · rw [Bool.toNat_true, Nat.one_mul, Nat.testBit_two_pow]; simp [hi]
  have e : (0x80000000 : Nat) = 2 ^ 31 := rfl
  rw [e, key, hb]
  split
  · have : ¬ 2147483648 ≤ n := by omega
    simp [this]
  · have : 2147483648 ≤ n := by omega
    simp [this]

theorem xor_top (x y : Nat) (hx : x < 4294967296) (hy : y < 4294967296) :
    ((x ^^^ y) &&& overflowMask = 0 ↔ (x < 2147483648 ↔ y < 2147483648)) := by
  unfold overflowMask
  rw [Nat.and_xor_distrib_right, and_top x hx, and_top y hy]
  split <;> split <;> simp <;> omega

theorem and_ffff (n : Nat) : n &&& 0xFFFF = n % 65536 := Nat.and_two_pow_sub_one_eq_mod n 16

theorem and_int (n : Nat) (h : n < 4294967296) : n &&& 0xFFFF0000 = n / 65536 * 65536 := by
  have e : (0xFFFF0000 : Nat) = 2 ^ 16 * (2 ^ 16 - 1) := rfl
  have e2 : n / 65536 * 65536 = 2 ^ 16 * (n / 65536) := by omega
  rw [e, e2]
  apply Nat.eq_of_testBit_eq
  intro i
  rw [Nat.testBit_and, Nat.testBit_two_pow_mul, Nat.testBit_two_pow_mul, Nat.testBit_two_pow_sub_one]
  by_cases hi : 16 ≤ i
  · have h2 : (n / 65536).testBit (i - 16) = n.testBit i := by
      have := Nat.testBit_shiftRight (i := 16) (j := i - 16) n
      rw [Nat.shiftRight_eq_div_pow] at this
      rw [this]; congr 1; omega
    rw [h2]
    by_cases h3 : i - 16 < 16
    · simp [hi, h3]
    · have : n.testBit i = false := by
        apply Nat.testBit_lt_two_pow
        calc n < 2 ^ 32 := h
          _ ≤ 2 ^ i := Nat.pow_le_pow_right (by omega) (by omega)
      simp [this]
  · simp [hi]

theorem toI_congr {n : Nat} {z : Int} (h : ((n : Nat) : Int) % 4294967296 = z % 4294967296)
    (hz : -2147483648 ≤ z ∧ z < 2147483648) : toI n = z := by
  unfold toI; split <;> omega

theorem add_eq (x y : Int) (hx : I32 x) (hy : I32 y) :
    add x y = if -2147483648 ≤ x + y ∧ x + y < 2147483648 then x + y else -2147483648 := by
  unfold I32 at hx hy
  have hr : w32 (toU x + toU y) < 4294967296 := by unfold w32; omega
  have h1 := xor_top (toU x) (toU y) (toU_lt x) (toU_lt y)
  have h2 := xor_top (toU x) (w32 (toU x + toU y)) (toU_lt x) hr
  simp only [add, saturate_eq]
  rw [if_congr (and_congr ((eq_comm (a := 0)).trans h1) (not_congr ((eq_comm (a := 0)).trans h2))) rfl rfl]
  clear h1 h2
  by_cases h : -2147483648 ≤ x + y ∧ x + y < 2147483648
  · have hu : ((w32 (toU x + toU y) : Nat) : Int) % 4294967296 = (x + y) % 4294967296 := by
      unfold w32 toU; omega
    rw [if_pos h, if_neg, toI_congr hu h]
    unfold w32 toU; omega
  · rw [if_neg h, if_pos]
    · decide
    · unfold w32 toU; omega

theorem sub_eq (x y : Int) (hx : I32 x) (hy : I32 y) :
    sub x y = if -2147483648 ≤ x - y ∧ x - y < 2147483648 then x - y else -2147483648 := by
  unfold I32 at hx hy
  have hr : w32 (toU x + 4294967296 - toU y) < 4294967296 := by unfold w32; omega
  have h1 := xor_top (toU x) (toU y) (toU_lt x) (toU_lt y)
  have h2 := xor_top (toU x) (w32 (toU x + 4294967296 - toU y)) (toU_lt x) hr
  simp only [sub, saturate_eq]
  rw [if_congr (and_congr (not_congr ((eq_comm (a := 0)).trans h1)) (not_congr ((eq_comm (a := 0)).trans h2))) rfl rfl]
  clear h1 h2
  by_cases h : -2147483648 ≤ x - y ∧ x - y < 2147483648
  · have hu : ((w32 (toU x + 4294967296 - toU y) : Nat) : Int) % 4294967296 = (x - y) % 4294967296 := by
      unfold w32 toU; omega
    rw [if_pos h, if_neg, toI_congr hu h]
    unfold w32 toU; omega
  · rw [if_neg h, if_pos]
    · decide
    · unfold w32 toU; omega

/-- The exact product `x*y` rounded half away from zero to a multiple of `2^-16`. -/
def rndMul (p : Int) : Int := if 0 ≤ p then (p + 32768) / 65536 else (p + 32767) / 65536

theorem adcb_eq (a c b d : Int) (hb : 0 ≤ b ∧ b < 65536) (hd : 0 ≤ d ∧ d < 65536)
    (he : -2147483648 ≤ a * d + c * b ∧ a * d + c * b < 2147483648) :
    toI (w32 (w32 (toU a * d.toNat) + w32 (toU c * b.toNat))) = a * d + c * b := by
  apply toI_congr _ he
  have hd' : ((d.toNat : Nat) : Int) = d := by omega
  have hb' : ((b.toNat : Nat) : Int) = b := by omega
  obtain ⟨k1, hk1⟩ : ∃ k, ((toU a : Nat) : Int) = a + 4294967296 * k :=
    ⟨-(a / 4294967296), by rw [toU_cast]; omega⟩
  obtain ⟨k2, hk2⟩ : ∃ k, ((toU c : Nat) : Int) = c + 4294967296 * k :=
    ⟨-(c / 4294967296), by rw [toU_cast]; omega⟩
  have h1 : (((toU a * d.toNat : Nat)) : Int) = a * d + 4294967296 * (k1 * d) := by
    rw [Int.natCast_mul, hk1, hd']; ring
  have h2 : (((toU c * b.toNat : Nat)) : Int) = c * b + 4294967296 * (k2 * b) := by
    rw [Int.natCast_mul, hk2, hb']; ring
  generalize (toU a * d.toNat : Nat) = u at *
  generalize (toU c * b.toNat : Nat) = v at *
  generalize k1 * d = m1 at *
  generalize k2 * b = m2 at *
  generalize a * d = ad at *
  generalize c * b = cb at *
  unfold w32
  omega

theorem or_hi (h : Int) (l : Nat) (hl : l < 4294967296) :
    toU (h * 65536) ||| (l >>> 16) = toU (h * 65536) + l / 65536 := by
  have e : toU (h * 65536) = 2 ^ 16 * (h % 65536).toNat := by unfold toU; omega
  rw [e, Nat.shiftRight_eq_div_pow, ← Nat.two_pow_add_eq_or_of_lt (by omega)]

theorem mul_high (ac e : Int) (bd L : Nat)
    (hac : -1073741824 ≤ ac ∧ ac ≤ 1073741824) (he : -2147483648 ≤ e ∧ e < 2147483648)
    (hbd : bd < 4294967296) (hL : (L : Int) = (bd + e * 65536) % 4294967296) :
    (if L < w32 bd then chk (ac + e / 65536 + 1) else pure (ac + e / 65536)) =
      .ok ((ac * 4294967296 + e * 65536 + bd) / 4294967296) := by
  have : w32 bd = bd := by unfold w32; omega
  rw [this]
  split
  · rw [chk_ok (by omega)]; exact congrArg Out.ok (by omega)
  · exact congrArg Out.ok (by omega)

/-- The rounding and packing part of `mul` on a double-word product `P = H * 2^32 + L`. -/
theorem mul_round (H P : Int) (L : Nat) (hL : L < 4294967296) (hP : P = H * 4294967296 + L)
    (h : -32768 ≤ H ∧ H ≤ 32767) :
    (do
      let mulL := w32 (L + 4294967296 - toU oneHalf)
      let mulL := w32 (mulL + 4294967296 - (toU H >>> 31))
      let mulH ← (if mulL > L then chk (H - 1) else pure H)
      let r := toI (toU (mulH * 65536) ||| (mulL >>> 16))
      chk (r + 1)) = if Num (rndMul P) then Out.ok (rndMul P) else .ub := by
  obtain ⟨s, hs, hs'⟩ : ∃ s : Nat, toU H >>> 31 = s ∧ ((0 ≤ H ∧ s = 0) ∨ (H < 0 ∧ s = 1)) := by
    refine ⟨_, rfl, ?_⟩
    rw [Nat.shiftRight_eq_div_pow]; unfold toU; omega
  have h1 : toU oneHalf = 32768 := by decide
  obtain ⟨M, hM, hM'⟩ : ∃ M : Nat, w32 (w32 (L + 4294967296 - 32768) + 4294967296 - s) = M ∧
      (M : Int) = (P - 32768 - s) % 4294967296 := by
    refine ⟨_, rfl, ?_⟩
    unfold w32; omega
  simp only [hs, h1, hM]
  have hH : (if M > L then chk (H - 1) else pure H) = .ok ((P - 32768 - s) / 4294967296) := by
    split
    · rw [chk_ok (by omega)]; exact congrArg Out.ok (by omega)
    · exact congrArg Out.ok (by omega)
  have hM2 : M < 4294967296 := by omega
  rw [hH, Out.bind_ok, or_hi _ _ hM2]
  obtain ⟨K, hK, hK'⟩ : ∃ K : Nat, toU ((P - 32768 - s) / 4294967296 * 65536) + M / 65536 = K ∧
      (K : Int) % 4294967296 = ((P - 32768 - s) / 65536) % 4294967296 := by
    refine ⟨_, rfl, ?_⟩
    push_cast
    rw [toU_cast]
    omega
  rw [hK]
  have hr : rndMul P = (P - 32768 - s) / 65536 + 1 := by unfold rndMul; split <;> omega
  rw [hr]
  clear hH hK hM hs hr
  generalize hq : (P - 32768 - s) / 65536 = q at *
  have hq2 : -2147483649 ≤ q ∧ q ≤ 2147483647 := by omega
  clear hM' hq hs' hP
  by_cases hlo : q = -2147483649
  · have e : toI K = 2147483647 := toI_congr (by omega) (by omega)
    rw [e, if_neg (by unfold Num; omega)]; rfl
  · have e : toI K = q := toI_congr (by omega) (by omega)
    rw [e]
    by_cases hn : Num (q + 1)
    · rw [if_pos hn, chk_ok (by unfold Num at hn; omega)]
    · rw [if_neg hn, chk_ub (by unfold Num at hn; omega)]

/-- Full description of `mul` when the cross products fit. -/
theorem mul_eq (x y : Int) (hx : I32 x) (hy : I32 y)
    (hc : I32 (x / 65536 * (y % 65536) + y / 65536 * (x % 65536))) :
    mul x y = if -140737488355328 ≤ x * y ∧ x * y < 140737488355328 then
        if Num (rndMul (x * y)) then .ok (rndMul (x * y)) else .ub
      else .ok sentinel := by
  unfold I32 at hx hy hc
  have hb : toU x &&& 0xFFFF = (x % 65536).toNat := by rw [and_ffff]; unfold toU; omega
  have hd : toU y &&& 0xFFFF = (y % 65536).toNat := by rw [and_ffff]; unfold toU; omega
  have hadcb := adcb_eq (x / 65536) (y / 65536) (x % 65536) (y % 65536) (by omega) (by omega) hc
  have hac : -1073741824 ≤ x / 65536 * (y / 65536) ∧ x / 65536 * (y / 65536) ≤ 1073741824 := by
    have h1 : -32768 ≤ x / 65536 ∧ x / 65536 ≤ 32767 := by omega
    have h2 : -32768 ≤ y / 65536 ∧ y / 65536 ≤ 32767 := by omega
    generalize x / 65536 = p at h1
    generalize y / 65536 = q at h2
    constructor <;> nlinarith
  have hbd : (x % 65536).toNat * (y % 65536).toNat < 4294967296 := by
    have h1 : (x % 65536).toNat ≤ 65535 := by omega
    have h2 : (y % 65536).toNat ≤ 65535 := by omega
    exact Nat.lt_of_le_of_lt (Nat.mul_le_mul h1 h2) (by omega)
  have hP : x * y = x / 65536 * (y / 65536) * 4294967296
      + (x / 65536 * (y % 65536) + y / 65536 * (x % 65536)) * 65536
      + (((x % 65536).toNat * (y % 65536).toNat : Nat) : Int) := by
    have e1 : (((x % 65536).toNat : Nat) : Int) = x % 65536 := by omega
    have e2 : (((y % 65536).toNat : Nat) : Int) = y % 65536 := by omega
    rw [Int.natCast_mul, e1, e2]
    have e3 : x = x / 65536 * 65536 + x % 65536 := by omega
    have e4 : y = y / 65536 * 65536 + y % 65536 := by omega
    generalize x / 65536 = p at *
    generalize x % 65536 = q at *
    generalize y / 65536 = r at *
    generalize y % 65536 = s at *
    rw [e3, e4]; ring
  simp only [mul, saturate_eq, hb, hd, hadcb]
  rw [hP]
  generalize x / 65536 * (y / 65536) = ac at *
  generalize x / 65536 * (y % 65536) + y / 65536 * (x % 65536) = e at *
  generalize (x % 65536).toNat * (y % 65536).toNat = bd at *
  clear hP hb hd hadcb hx hy
  rw [chk_ok (by omega), Out.bind_ok, chk_ok (by omega), Out.bind_ok]
  have hL : ∃ L : Nat, w32 (w32 bd + w32 (toU e <<< 16)) = L ∧ L < 4294967296 ∧
      (L : Int) = (bd + e * 65536) % 4294967296 := by
    refine ⟨_, rfl, by unfold w32; omega, ?_⟩
    rw [Nat.shiftLeft_eq]; unfold w32 toU; omega
  obtain ⟨L, hL1, hL2, hL3⟩ := hL
  rw [hL1]
  rw [mul_high ac e bd L hac hc hbd hL3, Out.bind_ok]
  have hL4 : ac * 4294967296 + e * 65536 + bd =
      (ac * 4294967296 + e * 65536 + bd) / 4294967296 * 4294967296 + L := by omega
  generalize ac * 4294967296 + e * 65536 + bd = P at *
  clear hL3 hL1 hc hac hbd
  by_cases hin : -140737488355328 ≤ P ∧ P < 140737488355328
  · have h2 : -32768 ≤ P / 4294967296 ∧ P / 4294967296 ≤ 32767 := by omega
    rw [if_pos (show (if P / 4294967296 < 0 then (-1 : Int) else 0) = P / 4294967296 / 32768 by
      split <;> omega), if_pos hin, ← mul_round (P / 4294967296) P L hL2 hL4 h2]
    simp only [flagRounding, if_true, bind_pure]
  · rw [if_neg hin, if_neg (show ¬ (if P / 4294967296 < 0 then (-1 : Int) else 0) =
      P / 4294967296 / 32768 by split <;> omega)]
    rfl

end Verif.Fp16
