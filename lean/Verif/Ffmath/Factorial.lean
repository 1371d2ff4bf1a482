import Verif.Ffmath.GammaModel
import Verif.Ffmath.Rem
import Verif.Ffmath.Exp
import Mathlib.Data.Nat.Factorial.Basic

/-!
# `factorial` (C99)
-/

namespace Verif.Ffmath

open Verif F32

/-- The table is that of the factorials, correctly rounded. -/
theorem factTable_spec (n : Nat) (h : n ≤ 34) : rdArr factTable n = .ok (lit (n.factorial : ℚ)) := by
  have : ∀ n : Fin 35, rdArr factTable n = .ok (lit ((n : ℕ).factorial : ℚ)) := by decide +kernel
  exact this ⟨n, by omega⟩

/-- The conversion of a non-negative number. -/
theorem toSize_spec {x : BitVec 32} (hx : Finite x) (h0 : 0 ≤ val x) (h1 : val x ≤ 34) : toSize x = .ok ⌊val x⌋₊ ∧ ⌊val x⌋₊ ≤ 34 := by
  have e : (if neg x then -⌊-val x⌋ else ⌊val x⌋) = ⌊val x⌋ := by
    cases hn : neg x with
    | false => simp
    | true =>
      have hv : val x = 0 := by
        have : val x ≤ 0 := by
          rw [val_eq, hn]; simpa using mval_nonneg _
        linarith
      rw [hv]; simp
  have b0 : 0 ≤ ⌊val x⌋ := Int.floor_nonneg.2 h0
  have b1 : ⌊val x⌋ ≤ 34 := by
    have : ((⌊val x⌋ : ℤ) : ℚ) ≤ 34 := (Int.floor_le _).trans h1
    exact_mod_cast this
  constructor
  · unfold toSize
    simp only [e]
    rw [if_pos ⟨hx, b0, by omega⟩]
    rfl
  · rw [← Int.floor_toNat]; omega

/-- **C99** (part) Between zero and 34 the result is the factorial of the integer part, rounded to the nearest float. -/
theorem C99_value (x : BitVec 32) (hx : Finite x) (h0 : 0 ≤ val x) (h1 : val x ≤ 34) :
    ∃ y, factorial x = .ok y ∧ Finite y ∧ y = lit (⌊val x⌋₊.factorial : ℚ) ∧
      |val y - (⌊val x⌋₊.factorial : ℚ)| ≤ (⌊val x⌋₊.factorial : ℚ) * 2 ^ (-24 : ℤ) := by
  obtain ⟨e, hn⟩ := toSize_spec hx h0 h1
  have c34 : Finite (lit 34) ∧ val (lit 34) = 34 := by decide +kernel
  have c0 : Finite (lit 0) ∧ val (lit 0) = 0 := by decide +kernel
  refine ⟨_, ?_, ?_, rfl, ?_⟩
  · unfold factorial
    rw [if_neg (by rw [lt_fin c34.1 hx, c34.2, decide_eq_true_eq]; linarith), if_pos (by rw [le_fin c0.1 hx, c0.2, decide_eq_true_eq]; exact h0),
      e, Out.bind_ok, factTable_spec _ hn]
  · have : ∀ n : Fin 35, Finite (lit ((n : ℕ).factorial : ℚ)) := by decide +kernel
    exact this ⟨⌊val x⌋₊, by omega⟩
  · have : ∀ n : Fin 35, |val (lit ((n : ℕ).factorial : ℚ)) - ((n : ℕ).factorial : ℚ)| ≤ ((n : ℕ).factorial : ℚ) * 2 ^ (-24 : ℤ) := by decide +kernel
    exact this ⟨⌊val x⌋₊, by omega⟩

/-- **C99** (part) The rest: above 34 infinity, below zero and for a NaN not a number; no argument is undefined behaviour. -/
theorem C99_special (x : BitVec 32) :
    (F32.lt (lit 34) x = true → factorial x = .ok inf) ∧ (F32.lt x (lit 0) = true → factorial x = .ok nan) ∧
    (IsNaN x → factorial x = .ok nan) ∧ ∃ y, factorial x = .ok y := by
  have hz : key (lit 0) = 0 ∧ ¬ IsNaN (lit 0) ∧ key (lit 34) = 1107820544 ∧ ¬ IsNaN (lit 34) := by decide +kernel
  have h1 : F32.lt (lit 34) x = true → factorial x = .ok inf := by
    intro h; unfold factorial; rw [if_pos h]; rfl
  have h2 : F32.lt x (lit 0) = true → factorial x = .ok nan := by
    intro h
    have hk := lt_key h
    have a : F32.lt (lit 34) x = false := by
      rw [← Bool.not_eq_true]; intro hc; have := lt_key hc; omega
    have b : F32.le (lit 0) x = false := by
      rw [← Bool.not_eq_true]; intro hc; have := le_key hc; omega
    unfold factorial; rw [a, b]; rfl
  have h3 : IsNaN x → factorial x = .ok nan := by
    intro h
    have a : F32.lt (lit 34) x = false := by unfold F32.lt; simp [h]
    have b : F32.le (lit 0) x = false := by unfold F32.le; simp [h]
    unfold factorial; rw [a, b]; rfl
  refine ⟨h1, h2, h3, ?_⟩
  by_cases hn : IsNaN x
  · exact ⟨_, h3 hn⟩
  by_cases ha : F32.lt (lit 34) x = true
  · exact ⟨_, h1 ha⟩
  by_cases hb : F32.lt x (lit 0) = true
  · exact ⟨_, h2 hb⟩
  have k1 : ¬ (key (lit 34) < key x) := by
    intro hc; apply ha; unfold F32.lt; simp [hn, hz.2.2.2, hc]
  have k2 : ¬ (key x < key (lit 0)) := by
    intro hc; apply hb; unfold F32.lt; simp [hn, hz.2.1, hc]
  have hf : Finite x := by
    rcases trichotomy hn with h | h | h
    · exact h
    · exfalso; apply k1; rw [h]; decide +kernel
    · exfalso; apply k2; rw [h]; decide +kernel
  have c34 : Finite (lit 34) ∧ val (lit 34) = 34 := by decide +kernel
  have c0 : Finite (lit 0) ∧ val (lit 0) = 0 := by decide +kernel
  obtain ⟨y, hy, -⟩ := C99_value x hf (by rw [← c0.2, val_le_iff]; omega) (by rw [← c34.2, val_le_iff]; omega)
  exact ⟨y, hy⟩

/-- **C99** (part) On integers the factorial property holds up to rounding: `factorial(n + 1)` is `(n + 1)*factorial(n)` with a relative
error of at most `2^-23`. -/
theorem C99_step (n : ℕ) (h : n < 34) : ∃ a b, factorial (lit (n : ℚ)) = .ok a ∧ factorial (lit ((n : ℚ) + 1)) = .ok b ∧
    |val b - (n + 1) * val a| ≤ val b * 2 ^ (-23 : ℤ) := by
  have : ∀ n : Fin 34, ∃ a b, factorial (lit ((n : ℕ) : ℚ)) = .ok a ∧ factorial (lit (((n : ℕ) : ℚ) + 1)) = .ok b ∧
    |val b - ((n : ℕ) + 1) * val a| ≤ val b * 2 ^ (-23 : ℤ) := by
    intro n
    obtain ⟨f1, v1⟩ := lit_int (k := ((n : ℕ) : ℤ)) (by rw [abs_of_nonneg (by omega)]; omega)
    obtain ⟨f2, v2⟩ := lit_int (k := ((n : ℕ) : ℤ) + 1) (by rw [abs_of_nonneg (by omega)]; omega)
    push_cast at f1 v1 f2 v2
    have hn : ((n : ℕ) : ℚ) ≤ 33 := by have := n.2; exact_mod_cast (by omega : (n : ℕ) ≤ 33)
    have hn0 : (0 : ℚ) ≤ ((n : ℕ) : ℚ) := Nat.cast_nonneg _
    obtain ⟨a, ha, -, ea, -⟩ := C99_value _ f1 (by rw [v1]; exact hn0) (by rw [v1]; linarith)
    obtain ⟨b, hb, -, eb, -⟩ := C99_value _ f2 (by rw [v2]; linarith) (by rw [v2]; linarith)
    refine ⟨a, b, ha, hb, ?_⟩
    have g1 : ⌊((n : ℕ) : ℚ)⌋₊ = (n : ℕ) := Nat.floor_natCast _
    have g2 : ⌊((n : ℕ) : ℚ) + 1⌋₊ = (n : ℕ) + 1 := by rw [Nat.floor_add_one hn0, g1]
    rw [v1, g1] at ea
    rw [v2, g2] at eb
    rw [ea, eb]
    have : ∀ n : Fin 34, |val (lit (((n : ℕ) + 1).factorial : ℚ)) - ((n : ℕ) + 1) * val (lit ((n : ℕ).factorial : ℚ))| ≤
      val (lit (((n : ℕ) + 1).factorial : ℚ)) * 2 ^ (-23 : ℤ) := by decide +kernel
    exact this n
  exact this ⟨n, h⟩

/-- `factorial(18.7)`: an entry that is misprinted in the source by one unit, but is rounded to the right float. -/
example : Finite (lit 18.7) ∧ 0 ≤ val (lit 18.7) ∧ val (lit 18.7) ≤ 34 ∧ factorial (lit 18.7) = .ok (lit 6402373705728000) := by decide +kernel

end Verif.Ffmath
