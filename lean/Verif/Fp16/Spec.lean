import Verif.Fp16.Model

/-!
# Specification vocabulary for `fp16`

Nothing here refers to the model: raw values denote the rational `raw / 65536`, and "correctly
rounded" is characterised by distance.
-/

namespace Verif.Fp16

/-- Values an `int32_t` can hold. -/
def I32 (x : Int) : Prop := -2147483648 ≤ x ∧ x < 2147483648

/-- Raw values other than the overflow sentinel (`-2^31`). -/
def Num (x : Int) : Prop := -2147483648 < x ∧ x < 2147483648

instance (x : Int) : Decidable (I32 x) := inferInstanceAs (Decidable (_ ∧ _))
instance (x : Int) : Decidable (Num x) := inferInstanceAs (Decidable (_ ∧ _))

/-- The documented overflow sentinel. -/
def sentinel : Int := -2147483648

/-- `r` is the integer nearest to the fraction `n / d` (`d > 0`), ties going away from zero:
no integer is closer, and when `r` is exactly half a unit away it lies beyond `n / d`. -/
def NearestAway (r n d : Int) : Prop :=
  -d ≤ 2 * (r * d - n) ∧ 2 * (r * d - n) ≤ d ∧
  (2 * (r * d - n) = d → 0 ≤ n) ∧ (2 * (r * d - n) = -d → n < 0)

instance (r n d : Int) : Decidable (NearestAway r n d) :=
  inferInstanceAs (Decidable (_ ∧ _ ∧ _ ∧ _))

/-- `r` is the integer nearest to the square root of `m` (no ties exist):
`r - 1/2 < sqrt m < r + 1/2`. -/
def NearestSqrt (r m : Nat) : Prop :=
  (2 * r - 1) ^ 2 ≤ 4 * m ∧ 4 * m < (2 * r + 1) ^ 2

/-- Value of a list of decimal digit characters, most significant first. -/
def decVal (l : List Char) : Nat := l.foldl (fun acc c => 10 * acc + (c.toNat - 48)) 0

/-- All characters are decimal digits. -/
def AllDigits (l : List Char) : Prop := ∀ c ∈ l, 48 ≤ c.toNat ∧ c.toNat ≤ 57

end Verif.Fp16
