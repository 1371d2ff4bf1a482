import Verif.F32.Hull
import Mathlib.Algebra.BigOperators.Group.List.Basic

/-!
# Sums of products in binary32

A proof tool: the error of `acc += a*b` in a loop. Not a definition of the repository.
-/

namespace Verif.F32

/-- The loop `acc = 0; acc += a*b` over a list of pairs. Not a definition of the repository. -/
def fdot (l : List (BitVec 32 × BitVec 32)) : BitVec 32 :=
  l.foldl (fun acc p => add acc (mul p.1 p.2)) (lit 0)

/-- The exact sum of the products. Not a definition of the repository. -/
def dots (l : List (BitVec 32 × BitVec 32)) : ℚ := (l.map fun p => val p.1 * val p.2).sum

/-- The sum of the magnitudes of the products. Not a definition of the repository. -/
def adots (l : List (BitVec 32 × BitVec 32)) : ℚ := (l.map fun p => |val p.1 * val p.2|).sum

theorem adots_nonneg (l : List (BitVec 32 × BitVec 32)) : 0 ≤ adots l := by
  unfold adots
  refine List.sum_nonneg ?_
  intro x hx
  obtain ⟨p, _, rfl⟩ := List.mem_map.1 hx
  exact abs_nonneg _

theorem abs_dots_le (l : List (BitVec 32 × BitVec 32)) : |dots l| ≤ adots l := by
  induction l with
  | nil => simp [dots, adots]
  | cons p l ih =>
    have e1 : dots (p :: l) = val p.1 * val p.2 + dots l := by simp [dots]
    have e2 : adots (p :: l) = |val p.1 * val p.2| + adots l := by simp [adots]
    rw [e1, e2]
    exact (abs_add_le _ _).trans (by linarith)

/-- The error of a sum of up to `2^17` products: `1.01 (n + 1)` roundings of the sum of magnitudes. -/
theorem fdot_err (l : List (BitVec 32 × BitVec 32)) (hf : ∀ p ∈ l, Finite p.1 ∧ Finite p.2)
    (hn : l.length ≤ 131072) (hs : adots l ≤ 1e38) :
    Finite (fdot l) ∧ |val (fdot l) - dots l| ≤
      1.01 * (l.length + 1) / 16777216 * adots l + 3e-45 * l.length := by
  induction l using List.reverseRecOn with
  | nil =>
    have z : Finite (lit 0) ∧ val (lit 0) = 0 := by decide +kernel
    refine ⟨z.1, ?_⟩
    simp [fdot, dots, adots, z.2]
  | append_singleton l p ih =>
    have ef : fdot (l ++ [p]) = add (fdot l) (mul p.1 p.2) := by simp [fdot]
    have ed : dots (l ++ [p]) = dots l + val p.1 * val p.2 := by simp [dots]
    have ea : adots (l ++ [p]) = adots l + |val p.1 * val p.2| := by simp [adots]
    have el : (l ++ [p]).length = l.length + 1 := by simp
    rw [el] at hn
    rw [ea] at hs
    have hq0 := abs_nonneg (val p.1 * val p.2)
    have ha0 := adots_nonneg l
    obtain ⟨f, e⟩ := ih (fun q hq => hf q (by simp [hq])) (by omega) (by linarith)
    obtain ⟨f1, f2⟩ := hf p (by simp)
    rw [ef, ed, ea, el]
    obtain ⟨g, d⟩ := rnd_mag (s := neg p.1 ^^ neg p.2) (q := val p.1 * val p.2)
      (by norm_num at hs ⊢; linarith)
    rw [← mul_fin f1 f2] at g d
    -- magnitudes
    have hk : (l.length : ℚ) + 1 ≤ 131072 := by exact_mod_cast hn
    have hk0 : (0 : ℚ) ≤ l.length := by positivity
    obtain ⟨k, hkk⟩ : ∃ k : ℚ, k = l.length := ⟨_, rfl⟩
    rw [← hkk] at e hk hk0
    push_cast
    rw [← hkk]
    have hb := abs_dots_le l
    obtain ⟨E, hE⟩ : ∃ E, E = val (fdot l) - dots l := ⟨_, rfl⟩
    obtain ⟨Dl, hDl⟩ : ∃ Dl, Dl = val (mul p.1 p.2) - val p.1 * val p.2 := ⟨_, rfl⟩
    rw [← hE] at e
    rw [← hDl] at d
    have eE : val (fdot l) = dots l + E := by rw [hE]; ring
    have eD : val (mul p.1 p.2) = val p.1 * val p.2 + Dl := by rw [hDl]; ring
    generalize val p.1 * val p.2 = q at *
    generalize dots l = s at *
    generalize adots l = a at *
    have hka : k * a ≤ 131071 * a := by nlinarith
    have hc : 1.01 * (k + 1) / 16777216 * a + 3e-45 * k ≤ 0.0079 * a + 1e-39 := by
      rw [show 1.01 * (k + 1) / 16777216 * a = 1.01 / 16777216 * (k * a) + 1.01 / 16777216 * a by ring]
      norm_num
      linarith
    have hsum : |val (fdot l) + val (mul p.1 p.2)| ≤
        a + |q| + (1.01 * (k + 1) / 16777216 * a + 3e-45 * k) + (|q| / 16777216 + 1e-45) := by
      rw [eE, eD]
      have := abs_add_le' (abs_add_le' (abs_add_le' hb (le_refl |q|)) e) d
      rw [show s + E + (q + Dl) = s + q + E + Dl by ring]
      exact this
    obtain ⟨g2, d2⟩ := rnd_mag (s := neg (fdot l) && neg (mul p.1 p.2))
      (q := val (fdot l) + val (mul p.1 p.2)) (by
        refine hsum.trans ?_
        norm_num at hs hc ⊢; linarith)
    rw [← add_fin f g] at g2 d2
    refine ⟨g2, ?_⟩
    have u := abs_add_le' (abs_add_le' d2 e) d
    rw [show val (add (fdot l) (mul p.1 p.2)) - (val (fdot l) + val (mul p.1 p.2)) + E + Dl =
      val (add (fdot l) (mul p.1 p.2)) - (s + q) by rw [eE, eD]; ring] at u
    refine u.trans ?_
    have h1 : |val (fdot l) + val (mul p.1 p.2)| / 16777216 ≤
        (1.008 * a + 1.001 * |q| + 1e-38) / 16777216 := by
      refine div_le_div_of_nonneg_right (hsum.trans ?_) (by norm_num)
      norm_num at hc ⊢
      linarith
    rw [show 1.01 * (k + 1 + 1) / 16777216 * (a + |q|) = 1.01 * (k + 1) / 16777216 * a + 1.01 / 16777216 * a +
      2.02 / 16777216 * |q| + 1.01 / 16777216 * (k * |q|) by ring]
    have h2 : 0 ≤ k * |q| := by positivity
    norm_num at h1 ⊢
    linarith

/-- Sums of products of integers are exact while the sum of the magnitudes is at most `2^24`. -/
theorem fdot_int (l : List (BitVec 32 × BitVec 32))
    (hf : ∀ p ∈ l, Finite p.1 ∧ Finite p.2 ∧ (∃ a : ℤ, val p.1 = a) ∧ ∃ b : ℤ, val p.2 = b)
    (hs : adots l ≤ 16777216) :
    Finite (fdot l) ∧ val (fdot l) = dots l ∧ ∃ c : ℤ, dots l = c := by
  induction l using List.reverseRecOn with
  | nil =>
    have z : Finite (lit 0) ∧ val (lit 0) = 0 := by decide +kernel
    exact ⟨z.1, by simp [fdot, dots, z.2], 0, by simp [dots]⟩
  | append_singleton l p ih =>
    have ef : fdot (l ++ [p]) = add (fdot l) (mul p.1 p.2) := by simp [fdot]
    have ed : dots (l ++ [p]) = dots l + val p.1 * val p.2 := by simp [dots]
    have ea : adots (l ++ [p]) = adots l + |val p.1 * val p.2| := by simp [adots]
    have hall := abs_dots_le (l ++ [p])
    have hq0 := abs_nonneg (val p.1 * val p.2)
    have ha0 := adots_nonneg l
    rw [ea] at hs hall
    rw [ed] at hall
    obtain ⟨f, e, c, hc⟩ := ih (fun q hq => hf q (by simp [hq])) (by linarith)
    obtain ⟨f1, f2, ⟨a, ha⟩, b, hb⟩ := hf p (by simp)
    rw [ef, ed]
    have hab : |(a * b : ℤ)| ≤ 16777216 := by
      have : |val p.1 * val p.2| ≤ 16777216 := by linarith
      rw [ha, hb] at this
      exact_mod_cast this
    obtain ⟨g, d⟩ := rnd_int (neg p.1 ^^ neg p.2) hab
    have em : mul p.1 p.2 = rnd (neg p.1 ^^ neg p.2) ((a * b : ℤ) : ℚ) := by
      rw [mul_fin f1 f2, ha, hb]; push_cast; rfl
    rw [← em] at g d
    have hcs : |(c + a * b : ℤ)| ≤ 16777216 := by
      have : |dots l + val p.1 * val p.2| ≤ 16777216 := hall.trans hs
      rw [hc, ha, hb] at this
      exact_mod_cast this
    obtain ⟨g2, d2⟩ := rnd_int (neg (fdot l) && neg (mul p.1 p.2)) hcs
    have es : add (fdot l) (mul p.1 p.2) =
        rnd (neg (fdot l) && neg (mul p.1 p.2)) ((c + a * b : ℤ) : ℚ) := by
      rw [add_fin f g, e, hc, d]; push_cast; rfl
    rw [← es] at g2 d2
    refine ⟨g2, ?_, c + a * b, ?_⟩
    · rw [d2, hc, ha, hb]; push_cast; rfl
    · rw [hc, ha, hb]; push_cast; rfl

end Verif.F32
