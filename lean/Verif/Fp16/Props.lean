import Verif.Fp16.Div
import Verif.Fp16.Sqrt
import Verif.Fp16.Text

/-!
# Properties C21-C29 (`fp16`)

Raw values are `Int`s; `I32 x` says that `x` is an `int32_t`, `Num x` that it is not the
overflow sentinel. An outcome `Out.ok` includes termination and absence of undefined behaviour.
-/

namespace Verif.Fp16

/-- **C21.** `add` is exact when the sum is representable and yields the sentinel otherwise. -/
theorem C21_add (x y : Int) (hx : I32 x) (hy : I32 y) :
    (I32 (x + y) → add x y = x + y) ∧ (¬ I32 (x + y) → add x y = sentinel) := by
  rw [add_eq x y hx hy]
  exact ⟨fun h => if_pos h, fun h => if_neg h⟩

/-- **C21.** `sub` is exact when the difference is representable and yields the sentinel
otherwise. -/
theorem C21_sub (x y : Int) (hx : I32 x) (hy : I32 y) :
    (I32 (x - y) → sub x y = x - y) ∧ (¬ I32 (x - y) → sub x y = sentinel) := by
  rw [sub_eq x y hx hy]
  exact ⟨fun h => if_pos h, fun h => if_neg h⟩

example : I32 2000000000 ∧ I32 100000000 ∧ I32 (2000000000 + 100000000) ∧
    ¬ I32 (2000000000 + 200000000) ∧ add 2000000000 100000000 = 2100000000 ∧
    add 2000000000 200000000 = sentinel ∧ sub (-2000000000) 200000000 = sentinel := by
  decide

theorem nearest_unique {r r' n d : Int} (hd : 0 < d) (h : NearestAway r n d)
    (h' : NearestAway r' n d) : r = r' := by
  unfold NearestAway at h h'
  rcases Int.lt_trichotomy r r' with hlt | heq | hgt
  · have : r * d + d ≤ r' * d := by nlinarith
    omega
  · exact heq
  · have : r' * d + d ≤ r * d := by nlinarith
    omega

theorem rndMul_nearest (p : Int) : NearestAway (rndMul p) p 65536 := by
  unfold NearestAway rndMul; split <;> omega

/-- **C22, partial.** Whenever the cross products of the 16-bit halves fit 32 bits (see the
corollaries), `mul` returns the correctly rounded product when that is representable and, when
it is not, the sentinel. Missing: operands with wrapping cross products
(`C22_spurious_overflow`, `C22_missed_overflow`), and the undefined behaviour of the final
increment when a product inside `[-2^47, 2^47)` rounds out of range (`C22_ub`). -/
theorem C22_mul_partial (x y r : Int) (hx : I32 x) (hy : I32 y)
    (hc : I32 (x / 65536 * (y % 65536) + y / 65536 * (x % 65536)))
    (hr : NearestAway r (x * y) 65536) :
    (Num r → mul x y = .ok r) ∧
    (¬ Num r → ¬ (-2 ^ 47 ≤ x * y ∧ x * y < 2 ^ 47) → mul x y = .ok sentinel) ∧
    (¬ Num r → (-2 ^ 47 ≤ x * y ∧ x * y < 2 ^ 47) → mul x y = .ub) := by
  have e := nearest_unique (by omega) hr (rndMul_nearest (x * y))
  rw [mul_eq x y hx hy hc, ← e]
  refine ⟨?_, ?_, ?_⟩
  · intro hn
    rw [if_pos hn, if_pos]
    unfold Num at hn; unfold NearestAway at hr; omega
  · intro _ hP
    exact if_neg (by simpa using hP)
  · intro hn hP
    rw [if_pos (by simpa using hP), if_neg hn]

/-- **C22, operands below 16384 in magnitude**: correctly rounded, or flagged. -/
theorem C22_small_partial (x y r : Int) (hx : -2 ^ 30 ≤ x ∧ x < 2 ^ 30)
    (hy : -2 ^ 30 ≤ y ∧ y < 2 ^ 30) (hr : NearestAway r (x * y) 65536) (hn : Num r) :
    mul x y = .ok r := by
  refine (C22_mul_partial x y r (by unfold I32; omega) (by unfold I32; omega) ?_ hr).1 hn
  unfold I32
  have h1 : -16384 ≤ x / 65536 ∧ x / 65536 ≤ 16383 := by omega
  have h2 : -16384 ≤ y / 65536 ∧ y / 65536 ≤ 16383 := by omega
  have h3 : 0 ≤ x % 65536 ∧ x % 65536 ≤ 65535 := by omega
  have h4 : 0 ≤ y % 65536 ∧ y % 65536 ≤ 65535 := by omega
  generalize x / 65536 = a at *
  generalize y / 65536 = c at *
  generalize x % 65536 = b at *
  generalize y % 65536 = d at *
  have ha : -16384 * 65535 ≤ a * d ∧ a * d ≤ 16383 * 65535 := by constructor <;> nlinarith
  have hc : -16384 * 65535 ≤ c * b ∧ c * b ≤ 16383 * 65535 := by constructor <;> nlinarith
  omega

/-- **C22, operands of opposite sign**: correctly rounded on the whole range. -/
theorem C22_mixed_partial (x y r : Int) (hx : I32 x) (hy : I32 y) (hs : 0 ≤ x ∧ y < 0)
    (hr : NearestAway r (x * y) 65536) :
    (Num r → mul x y = .ok r ∧ mul y x = .ok r) ∧
    (x * y < -2 ^ 47 → mul x y = .ok sentinel ∧ mul y x = .ok sentinel) := by
  have hc : I32 (x / 65536 * (y % 65536) + y / 65536 * (x % 65536)) := by
    unfold I32 at *
    have h1 : 0 ≤ x / 65536 ∧ x / 65536 ≤ 32767 := by omega
    have h2 : -32768 ≤ y / 65536 ∧ y / 65536 ≤ -1 := by omega
    have h3 : 0 ≤ x % 65536 ∧ x % 65536 ≤ 65535 := by omega
    have h4 : 0 ≤ y % 65536 ∧ y % 65536 ≤ 65535 := by omega
    generalize x / 65536 = a at *
    generalize y / 65536 = c at *
    generalize x % 65536 = b at *
    generalize y % 65536 = d at *
    have ha : 0 ≤ a * d ∧ a * d ≤ 32767 * 65535 := by constructor <;> nlinarith
    have hc : -32768 * 65535 ≤ c * b ∧ c * b ≤ 0 := by constructor <;> nlinarith
    omega
  have h1 := C22_mul_partial x y r hx hy hc hr
  have h2 := C22_mul_partial y x r hy hx (by rwa [Int.add_comm]) (by rwa [Int.mul_comm])
  refine ⟨fun hn => ⟨h1.1 hn, h2.1 hn⟩, fun hlt => ?_⟩
  have hn : ¬ Num r := by unfold NearestAway at hr; unfold Num; omega
  exact ⟨h1.2.1 hn (by omega), h2.2.1 hn (by rw [Int.mul_comm]; omega)⟩

/-- **C22, non-negative operands**: correctly rounded whenever representable. -/
theorem C22_nonneg_partial (x y r : Int) (hx : I32 x) (hy : I32 y) (hs : 0 ≤ x ∧ 0 ≤ y)
    (hr : NearestAway r (x * y) 65536) (hn : Num r) : mul x y = .ok r := by
  refine (C22_mul_partial x y r hx hy ?_ hr).1 hn
  unfold Num at hn
  unfold NearestAway at hr
  unfold I32 at *
  have e3 : x = x / 65536 * 65536 + x % 65536 := by omega
  have e4 : y = y / 65536 * 65536 + y % 65536 := by omega
  have hP : x * y = x / 65536 * (y / 65536) * 4294967296
      + (x / 65536 * (y % 65536) + y / 65536 * (x % 65536)) * 65536
      + (x % 65536) * (y % 65536) := by
    generalize x / 65536 = p at *
    generalize x % 65536 = q at *
    generalize y / 65536 = r at *
    generalize y % 65536 = s at *
    rw [e3, e4]; ring
  have a1 : 0 ≤ x / 65536 * (y / 65536) := Int.mul_nonneg (by omega) (by omega)
  have a2 : 0 ≤ x / 65536 * (y % 65536) := Int.mul_nonneg (by omega) (by omega)
  have a3 : 0 ≤ y / 65536 * (x % 65536) := Int.mul_nonneg (by omega) (by omega)
  have a4 : 0 ≤ (x % 65536) * (y % 65536) := Int.mul_nonneg (by omega) (by omega)
  omega

-- 1.5 * 2.5 = 3.75; half an ulp times one rounds away from zero; the cross products fit
example : I32 98304 ∧ I32 163840 ∧
    I32 (98304 / 65536 * (163840 % 65536) + 163840 / 65536 * (98304 % 65536)) ∧
    NearestAway 245760 (98304 * 163840) 65536 ∧ Num 245760 ∧ mul 98304 163840 = .ok 245760 ∧
    NearestAway (-1) (-1 * 32768) 65536 ∧ mul (-1) 32768 = .ok (-1) := by
  decide

/-- **C22 is false**: a representable product of two negative operands is reported as overflow. -/
theorem C22_spurious_overflow :
    ∃ x y r, I32 x ∧ I32 y ∧ NearestAway r (x * y) 65536 ∧ Num r ∧ mul x y = .ok sentinel ∧
      r ≠ sentinel :=
  ⟨-2147443648, -1, 32767, by decide, by decide, by decide, by decide, by decide, by decide⟩

/-- **C22 is false**: an overflowing product (about 98301) is returned as an ordinary value
(about 32767.5). -/
theorem C22_missed_overflow :
    ∃ x y v, I32 x ∧ I32 y ∧ x * y > 2 ^ 47 ∧ mul x y = .ok v ∧ Num v :=
  ⟨0x7FFFFFFF, 0x2FFFF, 2147450877, by decide, by decide, by decide, by decide, by decide⟩

/-- **C22**: at both ends of the range `mul` runs into undefined behaviour (signed overflow of
the rounding increment). -/
theorem C22_ub : mul 196611 715816960 = .ub ∧ mul (-32768) 4294967 = .ok (-2147484) ∧
    mul (-2147483648) 65536 = .ub := by
  decide

/-- Sign-adjusted numerator of `x / y` over the denominator `|y|`. -/
def divNum (x y : Int) : Int := if y < 0 then -(65536 * x) else 65536 * x

theorem quot_nearest (x y : Int) (hy0 : y ≠ 0) (Q : Nat)
    (hQ : Q = (x.natAbs * 131072 + y.natAbs) / (2 * y.natAbs)) :
    NearestAway (if (x < 0 ↔ y < 0) then (Q : Int) else -(Q : Int)) (divNum x y) y.natAbs := by
  have hY : 0 < y.natAbs := by omega
  have h1 : Q * (2 * y.natAbs) ≤ x.natAbs * 131072 + y.natAbs := by
    rw [hQ]; exact Nat.div_mul_le_self _ _
  have h2 : x.natAbs * 131072 + y.natAbs < (Q + 1) * (2 * y.natAbs) := by
    rw [hQ]
    have := Nat.lt_div_mul_add (a := x.natAbs * 131072 + y.natAbs) (b := 2 * y.natAbs) (by omega)
    rw [Nat.add_mul, Nat.one_mul]; exact this
  have hz : x = 0 → Q = 0 := by
    intro h
    rw [hQ, h]
    exact Nat.div_eq_of_lt (by simp; omega)
  have e1 : ((Q * (2 * y.natAbs) : Nat) : Int) = 2 * ((Q : Int) * (y.natAbs : Int)) := by
    push_cast; ring
  have e2 : (((Q + 1) * (2 * y.natAbs) : Nat) : Int) =
      2 * ((Q : Int) * (y.natAbs : Int)) + 2 * (y.natAbs : Int) := by
    push_cast; ring
  generalize Q * (2 * y.natAbs) = A at *
  generalize (Q + 1) * (2 * y.natAbs) = B at *
  unfold NearestAway divNum
  by_cases hs : (x < 0 ↔ y < 0)
  · rw [if_pos hs]
    generalize (Q : Int) * (y.natAbs : Int) = P at *
    split <;> omega
  · rw [if_neg hs]
    have e3 : -(Q : Int) * (y.natAbs : Int) = -((Q : Int) * (y.natAbs : Int)) := by ring
    rw [e3]
    by_cases hx0 : x = 0
    · rw [hz hx0]; simp only [hx0]; split <;> simp <;> omega
    · generalize (Q : Int) * (y.natAbs : Int) = P at *
      split <;> omega

/-- **C23, partial.** For operands other than the sentinel and a non-zero divisor, `div`
terminates and returns the correctly rounded quotient when it is representable; otherwise it
returns the sentinel, except in one case: an exact quotient `-32768` is undefined behaviour.
Missing: sentinel operands (`C23_ub`). -/
theorem C23_div_partial (x y r : Int) (hx : Num x) (hy : Num y) (hy0 : y ≠ 0)
    (hr : NearestAway r (divNum x y) y.natAbs) :
    (Num r → div x y = .ok r) ∧
    (¬ Num r → divNum x y ≠ -2147483648 * y.natAbs → div x y = .ok sentinel) ∧
    (divNum x y = -2147483648 * y.natAbs → div x y = .ub) := by
  have hX : x.natAbs < 2147483648 := by unfold Num at hx; omega
  have hY : 0 < y.natAbs := by omega
  have e := nearest_unique (by omega) hr (quot_nearest x y hy0 _ rfl)
  rw [div_eq x y hx hy hy0]
  have hdn : x.natAbs * 65536 = (divNum x y).natAbs := by unfold divNum; split <;> omega
  have hdn2 : divNum x y < 0 → ¬ (x < 0 ↔ y < 0) := by unfold divNum; split <;> omega
  have hdn3 : 0 < divNum x y → (x < 0 ↔ y < 0) := by unfold divNum; split <;> omega
  rcases Nat.lt_trichotomy x.natAbs (y.natAbs * 32768) with hlt | heq | hgt
  · have hq := quot_lt hX hlt
    generalize (x.natAbs * 131072 + y.natAbs) / (2 * y.natAbs) = Q at *
    have hnum : Num r := by rw [e]; unfold Num; split <;> omega
    rw [if_pos (by omega), if_neg (by omega)]
    refine ⟨fun _ => ?_, fun h => absurd hnum h, fun h => by omega⟩
    rw [e]
    by_cases hs : (x < 0 ↔ y < 0)
    · rw [if_pos hs, if_pos hs]
    · rw [if_neg hs, if_neg hs]
  · rw [quot_eq hY heq] at e
    have hnum : ¬ Num r := by rw [e]; unfold Num; split <;> omega
    rw [if_pos (by omega), if_pos heq]
    refine ⟨fun h => absurd h hnum, fun _ h => ?_, fun h => ?_⟩
    · exact if_pos (hdn3 (by omega))
    · exact if_neg (hdn2 (by omega))
  · have hnum : ¬ Num r := by
      intro hn
      unfold Num at hn; unfold NearestAway at hr
      obtain ⟨h1, h2, _, _⟩ := hr
      have b1 : r * (y.natAbs : Int) ≤ 2147483647 * (y.natAbs : Int) :=
        Int.mul_le_mul_of_nonneg_right (by omega) (by omega)
      have b2 : -2147483647 * (y.natAbs : Int) ≤ r * (y.natAbs : Int) :=
        Int.mul_le_mul_of_nonneg_right (by omega) (by omega)
      omega
    rw [if_neg (by omega)]
    exact ⟨fun h => absurd h hnum, fun _ _ => rfl, fun h => by omega⟩

/-- **C23, division by zero** returns the smallest finite raw value. -/
theorem C23_div_zero (x : Int) : div x 0 = .ok (-2147483647) := rfl

/-- **C23**: undefined behaviour is reachable, both for an exact quotient `-32768` and for an
operand that is the sentinel of an earlier overflow. -/
theorem C23_ub : div (-32768) 1 = .ub ∧ (∀ y, y ≠ 0 → div sentinel y = .ub) ∧
    (∀ x, Num x → div x sentinel = .ub) := by
  refine ⟨by decide, ?_, ?_⟩
  · intro y hy
    unfold div
    rw [if_pos (Ne.symm hy)]
    rfl
  · intro x hx
    unfold div Num at *
    rw [if_pos (by decide)]
    have : (if x ≥ 0 then pure x else chk (-x)) = Out.ok (if x ≥ 0 then x else -x) := by
      split
      · rfl
      · exact chk_ok (by omega)
    rw [this, Out.bind_ok]
    rfl

-- 1/3, -1/2 ulp (tie, away from zero), and a quotient that does not fit
example : Num 65536 ∧ Num 196608 ∧ NearestAway 21845 (divNum 65536 196608) 196608 ∧
    div 65536 196608 = .ok 21845 ∧ NearestAway (-1) (divNum (-1) 131072) 131072 ∧
    div (-1) 131072 = .ok (-1) ∧ div 2147483647 32768 = .ok sentinel := by
  decide

/-- **C24, partial.** For positive `x < 2^30` (values below 16384) whose integer square root
leaves a remainder below `2^15`, `sqrt` is correctly rounded. Missing: the other inputs
(`C24_large_false`), zero and negative inputs (`C24_nonpositive`). -/
theorem C24_sqrt_partial (x s : Nat) (h0 : 0 < x) (h1 : x < 2 ^ 30) (hs : s * s ≤ x)
    (hs1 : x < (s + 1) * (s + 1)) (hrem : x < s * s + 2 ^ 15) :
    ∃ r : Nat, sqrt (x : Int) = .ok (r : Int) ∧ NearestSqrt r (x * 65536) :=
  sqrt_eq x s h0 h1 hs hs1 hrem

theorem exists_isqrt (x : Nat) : ∃ s, s * s ≤ x ∧ x < (s + 1) * (s + 1) := by
  induction x with
  | zero => exact ⟨0, by omega, by omega⟩
  | succ x ih =>
    obtain ⟨s, h1, h2⟩ := ih
    by_cases h : (s + 1) * (s + 1) ≤ x + 1
    · refine ⟨s + 1, h, ?_⟩
      have : (s + 1 + 1) * (s + 1 + 1) = (s + 1) * (s + 1) + 2 * (s + 1) + 1 := by ring
      omega
    · exact ⟨s, by omega, by omega⟩

/-- **C24, values up to 4096**: correctly rounded, without exception. -/
theorem C24_upto_4096_partial (x : Nat) (h0 : 0 < x) (h1 : x ≤ 2 ^ 28) :
    ∃ r : Nat, sqrt (x : Int) = .ok (r : Int) ∧ NearestSqrt r (x * 65536) := by
  obtain ⟨s, hs, hs1⟩ := exists_isqrt x
  refine sqrt_eq x s h0 (by omega) hs hs1 ?_
  have e : (s + 1) * (s + 1) = s * s + 2 * s + 1 := by ring
  by_cases hlt : s < 16384
  · omega
  · have : 16384 * 16384 ≤ s * s := Nat.mul_le_mul (by omega) (by omega)
    omega

-- sqrt 2 = 92682 / 65536 correctly rounded; an input of the first theorem above 4096
example : sqrt 131072 = .ok 92682 ∧ NearestSqrt 92682 (131072 * 65536) ∧
    (30000 * 30000 ≤ 900001000 ∧ 900001000 < 30001 * 30001 ∧ 900001000 < 30000 * 30000 + 2 ^ 15) ∧
    sqrt 900001000 = .ok 7680004 := by
  unfold NearestSqrt; decide +kernel

/-- **C24 is false** for larger inputs: for `x = 276224321` (value 4214.8) the result is 255 ulp
too small, because the remainder is shifted into the sign bit. -/
theorem C24_large_false : sqrt 276224321 = .ok 4254464 ∧ ¬ NearestSqrt 4254464 (276224321 * 65536) ∧
    NearestSqrt 4254719 (276224321 * 65536) := by
  unfold NearestSqrt; decide +kernel

/-- **C24 is false** for zero and for negative inputs: instead of `0` respectively the sentinel,
`sqrt` returns `-2147483647` for every `x <= 0` other than the sentinel itself. -/
theorem C24_nonpositive (x : Int) (hx : Num x) (h : x ≤ 0) : sqrt x = .ok (-2147483647) := by
  unfold sqrt Num at *
  rw [if_neg (by omega)]
  simp only [Out.pure_eq, Out.bind_ok]
  rw [if_pos ⟨rfl, by unfold overflow; omega⟩]
  rfl

/-- **C25.** `floor` returns the largest integral value not above `x`, for every raw value. -/
theorem C25_floor (x : Int) (hx : I32 x) :
    ∃ k, floor x = k * 65536 ∧ k * 65536 ≤ x ∧ x < (k + 1) * 65536 :=
  ⟨x / 65536, int_part x hx, by omega, by omega⟩

/-- **C25, partial.** `ceil` returns the smallest integral value not below `x` when that is
representable; for larger `x` it is undefined behaviour (signed overflow). -/
theorem C25_ceil_partial (x k : Int) (hx : I32 x) (h1 : x ≤ k * 65536) (h2 : (k - 1) * 65536 < x) :
    (k ≤ 32767 → ceil x = .ok (k * 65536)) ∧ (32767 < k → ceil x = .ub) := by
  unfold ceil
  simp only [int_part x hx, frac_part x]
  unfold I32 at hx
  unfold one
  constructor
  · intro hk
    split
    · rw [chk_ok (by omega)]; exact congrArg Out.ok (by omega)
    · exact congrArg Out.ok (by omega)
  · intro hk
    rw [if_pos (by omega), chk_ub (by omega)]

/-- **C25 is false** for `rounding`: whenever it returns, it returns `x + 1`, which is never the
nearest integer (not even an integer unless `x` is one). -/
theorem C25_rounding_false (x r : Int) (h : rounding x = .ok r) :
    r = x + 65536 ∧ ¬ (∃ k, r = k * 65536 ∧ -32768 ≤ r - x ∧ r - x ≤ 32768) := by
  unfold rounding chk one at h
  split at h
  · cases h
    exact ⟨rfl, by rintro ⟨k, _, h2, h3⟩; omega⟩
  · cases h

example : floor (-98304) = -131072 ∧ ceil (-98304) = .ok (-65536) ∧ ceil 2147483647 = .ub ∧
    rounding 6554 = .ok 72090 := by
  decide

/-- **C26.** For every raw value other than the sentinel and every `decimals`, the text is an
optional minus sign, an integer part of 1-5 digits without leading zeros and, if `d > 0`
decimals are asked for (clamped to 0..5), a point and exactly `d` digits; read back, it is
`|x|` rounded (half up) to `d` decimals. With the terminator it needs at most 13 bytes. -/
theorem C26_text (x dec : Int) (hx : Num x) :
    ∃ (d : Nat) (ip fp : List Char), (d : Int) = max 0 (min 5 dec) ∧
      toASCII x dec = .ok ((if x < 0 then ['-'] else []) ++ ip ++
        (if d = 0 then [] else '.' :: fp)) ∧
      AllDigits ip ∧ AllDigits fp ∧ 1 ≤ ip.length ∧ ip.length ≤ 5 ∧ fp.length = d ∧
      (1 < ip.length → ip.head? ≠ some '0') ∧
      decVal ip * 10 ^ d + decVal fp = (x.natAbs * 10 ^ d + 32768) / 65536 ∧
      ((if x < 0 then ['-'] else []) ++ ip ++ (if d = 0 then [] else '.' :: fp)).length + 1 ≤ 13 := by
  obtain ⟨d, hd⟩ : ∃ d : Nat, (d : Int) = max 0 (min 5 dec) := ⟨(max 0 (min 5 dec)).toNat, by omega⟩
  have hd5 : d ≤ 5 := by omega
  unfold Num at hx
  have hm : (if x ≥ 0 then pure x else chk (-x)) = Out.ok ((x.natAbs : Nat) : Int) := by
    split
    · exact congrArg Out.ok (by omega)
    · rw [chk_ok (by omega)]; exact congrArg Out.ok (by omega)
  have hu : toU ((x.natAbs : Nat) : Int) = x.natAbs := by unfold toU; omega
  have hN : x.natAbs < 2147483648 := by omega
  have hdec : (if (if dec > 5 then 5 else dec) < 0 then 0 else (if dec > 5 then 5 else dec)).toNat
      = d := by split <;> split <;> omega
  have hscale : rdArr iScales d = .ok (10 ^ d) := by
    have : ∀ i : Fin 6, rdArr iScales i.val = .ok (10 ^ i.val) := by decide
    exact this ⟨d, by omega⟩
  have h10 : 0 < 10 ^ d := Nat.pow_pos (by omega)
  have h105 : 10 ^ d ≤ 100000 :=
    Nat.le_trans (Nat.pow_le_pow_right (by omega) hd5) (by decide : 10 ^ 5 ≤ 100000)
  have hip : toI (x.natAbs >>> 16) = ((x.natAbs / 65536 : Nat) : Int) := by
    rw [Nat.shiftRight_eq_div_pow, toI_small (by omega)]
  have hfp : toI (x.natAbs &&& fractionMask) = ((x.natAbs % 65536 : Nat) : Int) := by
    unfold fractionMask
    rw [and_ffff, toI_small (by omega)]
  have hsc : toI (10 ^ d) = ((10 ^ d : Nat) : Int) := toI_small (by omega)
  -- the scaled, rounded fraction
  obtain ⟨F, hF, hF2⟩ : ∃ F : Nat, F = (x.natAbs % 65536 * 10 ^ d + 32768) / 65536 ∧
      mul ((x.natAbs % 65536 : Nat) : Int) ((10 ^ d : Nat) : Int) = .ok (F : Int) := by
    refine ⟨_, rfl, ?_⟩
    rw [mul_frac _ _ (by omega) (by omega)]
    push_cast; rfl
  have hFle : F ≤ 10 ^ d := by
    have : x.natAbs % 65536 * 10 ^ d ≤ 65535 * 10 ^ d := Nat.mul_le_mul_right _ (by omega)
    omega
  have htot : (x.natAbs * 10 ^ d + 32768) / 65536 = x.natAbs / 65536 * 10 ^ d + F := by
    rw [hF]
    have : x.natAbs * 10 ^ d = 65536 * (x.natAbs / 65536 * 10 ^ d) + x.natAbs % 65536 * 10 ^ d := by
      conv => lhs; rw [← Nat.div_add_mod x.natAbs 65536]
      ring
    rw [this, Nat.add_assoc, Nat.mul_add_div (by omega)]
  -- carry into the integer part
  obtain ⟨I, F', hcar, hI, hF', hsum⟩ : ∃ I F' : Nat,
      (if F ≥ 10 ^ d then (do
          let i ← chk (((x.natAbs / 65536 : Nat) : Int) + 1)
          pure (i, F - 10 ^ d))
        else pure (((x.natAbs / 65536 : Nat) : Int), F)) = Out.ok ((I : Int), F') ∧
      I < 10 ^ 5 ∧ F' < 10 ^ d ∧ I * 10 ^ d + F' = x.natAbs / 65536 * 10 ^ d + F := by
    by_cases hc : F ≥ 10 ^ d
    · refine ⟨x.natAbs / 65536 + 1, F - 10 ^ d, ?_, by omega, by omega, ?_⟩
      · rw [if_pos hc, chk_ok (by omega)]; rfl
      · rw [Nat.add_mul]; omega
    · exact ⟨x.natAbs / 65536, F, by rw [if_neg hc]; rfl, by omega, by omega, rfl⟩
  obtain ⟨ip, i1, i2, i3, i4, i5, i6⟩ := itoa_skip 4 8 I (by omega) hI
  have hUF : toU ((F : Nat) : Int) = F := by unfold toU; omega
  have hUI : toU ((I : Nat) : Int) = I := by unfold toU; omega
  have hov : ¬ overflow = x := by unfold overflow; omega
  have hlen : (if x < 0 then ['-'] else []).length ≤ 1 := by split <;> simp
  by_cases hd0 : d = 0
  · subst hd0
    refine ⟨0, ip, [], hd, ?_, i4, (by intro c hc; cases hc), i2, i3, rfl, i6, ?_, ?_⟩
    · unfold toASCII
      simp only [if_neg hov, hm, Out.bind_ok, hu, hdec, hscale, hip, hfp, hsc, hF2, hUF, hcar, hUI]
      change (itoa 8 (10 ^ 4) I true >>= _) = _
      rw [i1]; simp
    · rw [htot, ← hsum, i5]
      simp only [Nat.pow_zero, Nat.lt_one_iff] at hF' ⊢
      simp [hF', decVal]
    · simp only [if_pos, List.append_nil, List.length_append]; omega
  · obtain ⟨e, rfl⟩ : ∃ e, d = e + 1 := ⟨d - 1, by omega⟩
    obtain ⟨fp, f1, f2, f3, f4⟩ := itoa_noskip e 8 F' (by omega) hF'
    refine ⟨e + 1, ip, fp, hd, ?_, i4, f3, i2, i3, f2, i6, ?_, ?_⟩
    · unfold toASCII
      simp only [if_neg hov, hm, Out.bind_ok, hu, hdec, hscale, hip, hfp, hsc, hF2, hUF, hcar, hUI]
      change (itoa 8 (10 ^ 4) I true >>= _) = _
      have e10 : 10 ^ (e + 1) / 10 = 10 ^ e := by rw [Nat.pow_succ]; omega
      have h1 : 1 ≠ 10 ^ (e + 1) := by
        have : 0 < 10 ^ e := Nat.pow_pos (by omega)
        rw [Nat.pow_succ]; omega
      rw [i1, Out.bind_ok, if_pos h1, e10, f1]
      simp
    · rw [htot, ← hsum, i5, f4]
    · simp only [if_neg hd0, List.length_append, List.length_cons]; omega

/-- **C26.** The sentinel is printed as `overflow`. -/
theorem C26_overflow (dec : Int) : toASCII sentinel dec = .ok "overflow".toList := rfl

example : toASCII (-131071) 4 = .ok "-2.0000".toList ∧ toASCII 205887 3 = .ok "3.142".toList ∧
    toASCII (-2147483647) 9 = .ok "-32767.99998".toList ∧ toASCII 32768 (-1) = .ok "1".toList := by
  decide +kernel

/-- **C27.** `wrapTo180` terminates without overflow for every raw value, lands in
`[-180, 180]`, changes the argument by a multiple of 360 and leaves arguments already in range
alone. -/
theorem C27_wrapTo180 (x : Int) (hx : I32 x) :
    ∃ k z, wrapTo180 x = .ok z ∧ z = x + k * (360 * 65536) ∧ -180 * 65536 ≤ z ∧ z ≤ 180 * 65536 ∧
      (-180 * 65536 ≤ x → x ≤ 180 * 65536 → z = x) := by
  obtain ⟨k, z, h⟩ := wrapTo180_spec x hx
  exact ⟨k, z, by simpa using h⟩

/-- **C27, partial.** The same for `wrapToPi` with the format's `pi = 205887` and
`2 pi = 411775`, except that the upper bound is missed by one unit in the last place for some
arguments (`C27_wrapToPi_false`). -/
theorem C27_wrapToPi_partial (x : Int) (hx : I32 x) :
    ∃ k z, wrapToPi x = .ok z ∧ z = x + k * 411775 ∧ -205887 ≤ z ∧ z ≤ 205887 + 1 ∧
      (-205887 ≤ x → x ≤ 205887 → z = x) := wrapToPi_spec x hx

/-- **C27 is false** for `wrapToPi`: it returns a value above `pi` (both the format's
`205887 / 65536` and `3.141593 > pi`). -/
theorem C27_wrapToPi_false : wrapToPi 205888 = .ok 205888 ∧ 205888 * 1000000 > 3141593 * 65536 := by
  decide

example : wrapTo180 (270 * 65536) = .ok (-90 * 65536) ∧ wrapTo180 (-1000 * 65536) = .ok (80 * 65536) ∧
    wrapToPi 411775 = .ok 0 := by
  decide

/-- **C28.** `int -> fp16 -> int` is the identity for integers strictly inside the range, and
the raw value is `65536 n`. -/
theorem C28_roundtrip (n : Int) (h : -32768 < n ∧ n ≤ 32767) :
    fromInt n = n * 65536 ∧ toInt (fromInt n) = .ok n := by
  have e : fromInt n = n * 65536 := by
    unfold fromInt
    apply toI_congr
    · rw [Nat.shiftLeft_eq]; unfold w32 toU; omega
    · omega
  refine ⟨e, ?_⟩
  rw [e]
  unfold toInt flagRounding one
  simp only [if_true]
  split
  · rw [chk_ok (by omega)]
    simp only [Out.bind_ok, Out.pure_eq]
    rw [Int.tdiv_eq_ediv_of_nonneg (by omega)]
    exact congrArg Out.ok (by omega)
  · rw [chk_ok (by omega)]
    simp only [Out.bind_ok, Out.pure_eq]
    rw [show n * 65536 - 65536 / 2 = -(-(n * 65536) + 32768) by omega, Int.neg_tdiv,
      Int.tdiv_eq_ediv_of_nonneg (by omega)]
    exact congrArg Out.ok (by omega)

/-- **C28, partial.** `toInt` returns the nearest integer, ties away from zero, for every value
whose rounding stays in range; beyond it is undefined behaviour. The missing part of the
round trip is `n = -32768`, whose raw value is the sentinel (`C28_ub`). -/
theorem C28_toInt_partial (x n : Int) (hx : I32 x) (h : NearestAway n x 65536) :
    (-32768 < n → n < 32768 → toInt x = .ok n) ∧
    (n = 32768 ∨ (n = -32768 ∧ x < -2147450880) → toInt x = .ub) := by
  unfold I32 at hx
  unfold NearestAway at h
  unfold toInt flagRounding one
  simp only [if_true]
  constructor
  · intro h1 h2
    by_cases hc : x ≥ 0
    · rw [if_pos hc, chk_ok (by omega)]
      simp only [Out.bind_ok, Out.pure_eq]
      rw [Int.tdiv_eq_ediv_of_nonneg (by omega)]
      exact congrArg Out.ok (by omega)
    · rw [if_neg hc, chk_ok (by omega)]
      simp only [Out.bind_ok, Out.pure_eq]
      rw [show x - 65536 / 2 = -(-x + 32768) by omega, Int.neg_tdiv,
        Int.tdiv_eq_ediv_of_nonneg (by omega)]
      exact congrArg Out.ok (by omega)
  · intro h1
    by_cases hc : x ≥ 0
    · rw [if_pos hc, chk_ub (by omega)]; rfl
    · rw [if_neg hc, chk_ub (by omega)]; rfl

/-- **C28**: converting `-32768` and back is undefined behaviour. -/
theorem C28_ub : fromInt (-32768) = sentinel ∧ toInt (fromInt (-32768)) = .ub := by decide

example : fromInt (-5) = -327680 ∧ toInt (-98304) = .ok (-2) ∧ NearestAway (-2) (-98304) 65536 ∧
    toInt 2147483647 = .ub := by
  decide

/-- **C29.** The comparison operators order raw values as the rationals `raw / 65536`. -/
theorem C29_compare (x y : Int) :
    (lt x y = true ↔ (x / 65536 : Rat) < y / 65536) ∧ (gt x y = true ↔ (y / 65536 : Rat) < x / 65536) ∧
    (le x y = true ↔ (x / 65536 : Rat) ≤ y / 65536) ∧ (ge x y = true ↔ (y / 65536 : Rat) ≤ x / 65536) ∧
    (eq x y = true ↔ (x / 65536 : Rat) = y / 65536) ∧
    (ne x y = true ↔ (x / 65536 : Rat) ≠ y / 65536) := by
  have h : (0 : Rat) < 65536 := by norm_num
  refine ⟨?_, ?_, ?_, ?_, ?_, ?_⟩
  · simp [lt, div_lt_div_iff_of_pos_right h]
  · simp [gt, div_lt_div_iff_of_pos_right h]
  · simp [le, div_le_div_iff_of_pos_right h]
  · simp [ge, div_le_div_iff_of_pos_right h]
  · simp [eq, div_left_inj' h.ne']
  · simp [ne, div_left_inj' h.ne']

/-- **C29, partial.** Unary minus is exact for every value but the sentinel, and `absolute` for
every value but the sentinel and the smallest finite value; the former is undefined behaviour
in both, the latter is turned into the sentinel although `2147483647` is representable. -/
theorem C29_abs_neg_partial (x : Int) (hx : I32 x) :
    (Num x → neg x = .ok (-x)) ∧ (Num x → x ≠ -2147483647 → absolute x = .ok |x|) ∧
    (x = sentinel → neg x = .ub ∧ absolute x = .ub) ∧
    (x = -2147483647 → absolute x = .ok sentinel ∧ Num |x|) := by
  unfold I32 at hx
  unfold Num neg absolute Min sentinel
  refine ⟨fun h => chk_ok (by omega), fun h h2 => ?_, fun h => ?_, fun h => ?_⟩
  · rw [if_neg h2]
    split
    · rename_i h3; rw [abs_of_nonneg h3]; rfl
    · rename_i h3; rw [abs_of_neg (by omega), chk_ok (by omega)]
  · subst h; decide
  · subst h; decide

example : lt (-1) 0 = true ∧ absolute (-65536) = .ok 65536 ∧ neg 65536 = .ok (-65536) ∧
    absolute (-2147483647) = .ok sentinel := by
  decide

end Verif.Fp16
