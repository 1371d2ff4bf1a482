import Verif.Fis.ShapesExp
import Verif.Fis.Float
import Verif.Smoother.FloatWindow
import Verif.Smoother.Const
import Verif.Ltisys.FirFloat
import Mathlib.Analysis.Calculus.MeanValue
import Mathlib.Analysis.SpecialFunctions.ExpDeriv

/-!
# The Gaussian filter in binary32 (C161)

IEEE binary32 arithmetic and the exponential of `ffmath` (`/repo/src/smoother.cpp` line 239 calls `ffmath::exp`).
-/

namespace Verif.Smoother

open Arith F32 Ltisys

attribute [local instance] Verif.Fis.expTrans

/-! ## The weights -/

theorem gauss_lip (p q : ℝ) : |Real.exp (-p ^ 2) - Real.exp (-q ^ 2)| ≤ |p - q| := by
  have h := Convex.norm_image_sub_le_of_norm_deriv_le (f := fun x : ℝ => Real.exp (-x ^ 2)) (s := Set.univ) (C := 1)
    (x := q) (y := p) (fun x _ => by fun_prop) (fun x _ => by
      have hd : HasDerivAt (fun x : ℝ => Real.exp (-x ^ 2)) (Real.exp (-x ^ 2) * (-(2 * x))) x := by
        have h1 : HasDerivAt (fun x : ℝ => -x ^ 2) (-(2 * x)) x := by
          simpa using (hasDerivAt_pow 2 x).fun_neg
        exact h1.exp
      rw [hd.deriv, norm_mul, Real.norm_eq_abs, Real.norm_eq_abs, abs_of_pos (Real.exp_pos _), abs_neg, abs_mul]
      have h1 := Real.add_one_le_exp (x ^ 2)
      have h2 : Real.exp (-x ^ 2) * Real.exp (x ^ 2) = 1 := by rw [← Real.exp_add]; simp
      have h3 : |(2 : ℝ)| * |x| ≤ x ^ 2 + 1 := by
        have := sq_nonneg (|x| - 1)
        rw [sub_sq, sq_abs] at this
        rw [abs_two]; linarith
      calc Real.exp (-x ^ 2) * (|(2 : ℝ)| * |x|) ≤ Real.exp (-x ^ 2) * Real.exp (x ^ 2) :=
            mul_le_mul_of_nonneg_left (h3.trans h1) (Real.exp_pos _).le
        _ = 1 := h2) convex_univ (Set.mem_univ _) (Set.mem_univ _)
  simpa [Real.norm_eq_abs] using h

/-- The weight the first loop of `setup` stores in cell `j` (the terms of `gaussLoop`). -/
def rawWeight (sg c : BitVec 32) (n j : Nat) : BitVec 32 :=
  let l := F32.lit ((n - 1 : Nat) : ℚ)
  let d := F32.sub (F32.sub (F32.lit j) l) (F32.sub c l)
  Trans.exp (F32.div (F32.negate (F32.mul d d)) (F32.mul (F32.mul (F32.lit 2) sg) sg))

/-- The exact weight. Not a definition of the repository. -/
noncomputable def gaussR (sg c : ℚ) (j : Nat) : ℝ := Real.exp (-(((j : ℝ) - c) ^ 2 / (2 * (sg : ℝ) ^ 2)))

theorem rawWeight_near (sg c : BitVec 32) (n j : Nat) (hn : n ≤ 1024) (hj : j < n) (fc : F32.Finite c) (c0 : 0 ≤ val c)
    (c1 : val c + 1 ≤ n) (fs : F32.Finite sg) (s0 : 1 / 2 ≤ val sg) (s1 : val sg ≤ 1000000) :
    F32.Finite (rawWeight sg c n j) ∧ 0 ≤ val (rawWeight sg c n j) ∧ val (rawWeight sg c n j) ≤ 1 ∧
      |(val (rawWeight sg c n j) : ℝ) - gaussR (val sg) (val c) j| ≤ 1e-6 + 9e-8 * n := by
  obtain ⟨fj, ej⟩ := litNat (n := j) (by omega)
  obtain ⟨fl, el⟩ := litNat (n := n - 1) (by omega)
  obtain ⟨m, rfl⟩ : ∃ m, n = m + 1 := ⟨n - 1, by omega⟩
  rw [Nat.add_sub_cancel] at fl el
  unfold rawWeight
  dsimp only
  rw [Nat.add_sub_cancel]
  generalize F32.lit (m : ℚ) = l at *
  generalize F32.lit (j : ℚ) = lj at *
  have mb : (m : ℝ) ≤ 1023 := by exact_mod_cast (by omega : m ≤ 1023)
  have m0 : (0 : ℝ) ≤ m := by positivity
  have jb : (j : ℝ) ≤ m := by exact_mod_cast (by omega : j ≤ m)
  have j0 : (0 : ℝ) ≤ j := by positivity
  have c0r : (0 : ℝ) ≤ val c := by exact_mod_cast c0
  have c1r : (val c : ℝ) ≤ m := by
    have : val c ≤ m := by push_cast at c1; linarith
    exact_mod_cast this
  have s0r : (1 : ℝ) / 2 ≤ val sg := by
    have : ((1 / 2 : ℚ) : ℝ) ≤ val sg := by exact_mod_cast s0
    simpa using this
  have s1r : (val sg : ℝ) ≤ 1000000 := by exact_mod_cast s1
  -- the symmetric index is exact
  have hi : F32.Finite (F32.sub lj l) ∧ val (F32.sub lj l) = j - m := by
    rw [sub_fin fj fl, ej, el]
    have := rnd_int (F32.neg lj && !F32.neg l) (k := (j - m : ℤ)) (by
      rw [abs_le]; constructor <;> omega)
    push_cast at this
    exact this
  generalize F32.sub lj l = a at *
  have nc : F32.Near (F32.sub c l) ((val c : ℝ) - m) (5.97e-8 * (m + 1)) := by
    have nl : F32.Near l (m : ℝ) 0 := ⟨fl, by rw [el]; simp⟩
    have ab : |(val c : ℝ) - m| ≤ m := by rw [_root_.abs_le]; constructor <;> linarith
    refine F32.Near.sub (m : ℝ) (F32.Near.self fc) nl (by linarith) (by norm_num; linarith) ?_
    norm_num; linarith
  generalize F32.sub c l = b at *
  obtain ⟨D, hD⟩ : ∃ D : ℝ, D = val a - val b := ⟨_, rfl⟩
  have ar : (val a : ℝ) = j - m := by rw [hi.2]; push_cast; ring
  have dc : |(D - ((j : ℝ) - val c))| ≤ 5.97e-8 * (m + 1) := by
    have := nc.err
    rw [abs_sub_comm] at this
    rw [hD, ar, show (j : ℝ) - m - val b - (j - val c) = (val c : ℝ) - m - val b by ring]
    exact this
  have Db : |D| ≤ 1024 := by
    have h1 : |(j : ℝ) - val c| ≤ m := by rw [_root_.abs_le]; constructor <;> linarith
    have h2 := abs_add_le (D - ((j : ℝ) - val c)) ((j : ℝ) - val c)
    rw [sub_add_cancel] at h2
    norm_num at dc; linarith
  obtain ⟨T, hT⟩ : ∃ T, T = |D| := ⟨_, rfl⟩
  have T0 : 0 ≤ T := hT ▸ abs_nonneg _
  have nd : F32.Near (F32.sub a b) D (5.97e-8 * T + 1e-45) := by
    rw [hD]
    refine F32.Near.sub T (F32.Near.self hi.1) (F32.Near.self nc.fin) (by rw [hT, hD]; linarith)
      (by rw [hT]; norm_num; linarith) ?_
    norm_num; linarith
  generalize F32.sub a b = d at *
  rw [← hT] at Db
  obtain ⟨S, hS⟩ : ∃ S, S = T * T := ⟨_, rfl⟩
  have S0 : 0 ≤ S := hS ▸ mul_nonneg T0 T0
  have SB : S ≤ 1048576 := by rw [hS]; nlinarith
  have DS : D * D = S := by rw [hS, hT, abs_mul_abs_self]
  have ns : F32.Near (F32.mul d d) S (1.8e-7 * S + 1e-40) := by
    rw [← DS]
    refine F32.Near.mul T T (1.1951e-7 * S + 1e-41) (1.0000002 * S + 1e-41) nd nd hT.ge hT.ge ?_ ?_ ?_ ?_
    · have : T * (5.97e-8 * T + 1e-45) + T * (5.97e-8 * T + 1e-45) + (5.97e-8 * T + 1e-45) * (5.97e-8 * T + 1e-45) =
        (5.97e-8 * 2 + 5.97e-8 * 5.97e-8) * S + (2e-45 + 2 * 5.97e-8 * 1e-45) * T + 1e-45 * 1e-45 := by rw [hS]; ring
      rw [this]; norm_num; linarith
    · rw [DS, abs_of_nonneg S0]; norm_num; linarith
    · norm_num; linarith
    · rw [DS]; norm_num; linarith
  have dd0 : 0 ≤ val (F32.mul d d) := by
    rw [mul_fin nd.fin nd.fin]
    exact rnd_nonneg (mul_self_nonneg _)
  generalize F32.mul d d = dd at *
  have c2 : F32.Finite (F32.lit 2) ∧ val (F32.lit 2) = 2 := by decide +kernel
  have n2 : F32.Near (F32.lit 2) 2 0 := ⟨c2.1, by rw [c2.2]; norm_num⟩
  obtain ⟨s, hs⟩ : ∃ s : ℝ, s = val sg := ⟨_, rfl⟩
  rw [← hs] at s0r s1r
  have ng : F32.Near sg s 0 := ⟨fs, by rw [hs]; simp⟩
  have m1 : F32.Near (F32.mul (F32.lit 2) sg) (2 * s) (1.2e-7 * s) := by
    refine F32.Near.mul 2 s 0 (2 * s) n2 ng (by norm_num) (by rw [abs_of_nonneg]; linarith) (by simp) ?_ ?_ ?_
    · rw [abs_of_nonneg (by linarith)]; linarith
    · norm_num; linarith
    · norm_num; linarith
  generalize F32.mul (F32.lit 2) sg = g2 at *
  obtain ⟨Q, hQ⟩ : ∃ Q : ℝ, Q = 2 * s * s := ⟨_, rfl⟩
  have Q0 : 1 / 2 ≤ Q := by rw [hQ]; nlinarith
  have Q1 : Q ≤ 2e12 := by rw [hQ]; norm_num; nlinarith
  have nr : F32.Near (F32.mul g2 sg) Q (1.25e-7 * Q) := by
    rw [hQ]
    refine F32.Near.mul (2 * s) s (6.01e-8 * Q) (1.0000001 * Q) m1 ng (by rw [abs_of_nonneg]; linarith)
      (by rw [abs_of_nonneg]; linarith) ?_ ?_ ?_ ?_
    · rw [hQ]; norm_num; nlinarith
    · rw [← hQ, abs_of_nonneg (by linarith)]; norm_num; linarith
    · norm_num at Q1 ⊢; linarith
    · rw [← hQ]; norm_num; linarith
  have r0 : 0 < (val (F32.mul g2 sg) : ℝ) := by
    have := (_root_.abs_le.1 nr.err).1
    norm_num at this; linarith
  generalize F32.mul g2 sg = r at *
  have rq : 0 < val r := by exact_mod_cast r0
  -- the argument of the exponential
  obtain ⟨A, hA⟩ : ∃ A, A = S / Q := ⟨_, rfl⟩
  have A0 : 0 ≤ A := by rw [hA]; positivity
  have AQ : S = A * Q := by rw [hA]; field_simp
  have A1 : A ≤ 2097152 := by
    rw [hA, div_le_iff₀ (by linarith)]; nlinarith
  have na : F32.Near (F32.div (F32.negate dd) r) (-A) (5e-7 * A + 1e-10) := by
    have e : -A = -S / Q := by rw [hA]; ring
    have := F32.Near.div (p := -S) (q := Q) A (0.999 * Q) (3.2e-7 * A + 1e-30) (1.001 * A + 1e-30) ns.negate nr (by linarith)
      (by linarith) (by rw [abs_of_nonneg (by linarith)]; norm_num; linarith)
      (by rw [← e, abs_neg, abs_of_nonneg A0]) (by
        rw [div_le_iff₀ (by linarith), AQ]
        have h1 : 0 ≤ A * Q := by positivity
        have h2 : (3.2e-7 * A + 1e-30) * (0.999 * Q) = 3.2e-7 * 0.999 * (A * Q) + 1e-30 * 0.999 * Q := by ring
        rw [h2, show A * (1.25e-7 * Q) = 1.25e-7 * (A * Q) by ring]
        norm_num at h1 ⊢
        linarith) (by norm_num; linarith) (by norm_num; linarith) (e' := 5e-7 * A + 1e-10) (by norm_num; linarith)
    rw [e]; exact this
  have an : val (F32.div (F32.negate dd) r) ≤ 0 := by
    rw [div_fin (finite_negate.2 ns.fin) nr.fin rq.ne', val_negate]
    have hz : F32.Finite 0#32 ∧ val 0#32 = 0 := by decide +kernel
    have hq : -val dd / val r ≤ 0 := div_nonpos_of_nonpos_of_nonneg (by linarith) rq.le
    have := rnd_le (s := F32.neg (F32.negate dd) ^^ F32.neg r) hz.1 (hq.trans hz.2.ge)
    rwa [hz.2] at this
  obtain ⟨v, he, fv, v0, v1, ev⟩ := Ffmath.exp_decay na.fin an (u := -A) (by linarith) (by
    rw [abs_neg, abs_of_nonneg A0]; exact na.err)
  have hv : (Trans.exp (F32.div (F32.negate dd) r) : BitVec 32) = v := by
    show (match Ffmath.exp _ with | .ok r => r | _ => Ffmath.nan) = v
    rw [he]
  rw [hv]
  refine ⟨fv, v0, v1, ?_⟩
  -- the displaced centre
  have q2 : 0 < Real.sqrt Q := Real.sqrt_pos.2 (by linarith)
  have q3 : 0.7 ≤ Real.sqrt Q := Real.le_sqrt_of_sq_le (by norm_num; linarith)
  have q4 : Real.sqrt Q ^ 2 = Q := Real.sq_sqrt (by linarith)
  have g := gauss_lip (D / Real.sqrt Q) (((j : ℝ) - val c) / Real.sqrt Q)
  rw [div_pow, div_pow, q4, pow_two D, DS, ← hA, ← sub_div, abs_div, abs_of_pos q2] at g
  have g2 : |D - ((j : ℝ) - val c)| / Real.sqrt Q ≤ 9e-8 * (m + 1) := by
    rw [div_le_iff₀ q2]
    refine dc.trans ?_
    have : 9e-8 * ((m : ℝ) + 1) * 0.7 ≤ 9e-8 * (m + 1) * Real.sqrt Q :=
      mul_le_mul_of_nonneg_left q3 (by positivity)
    refine le_trans ?_ this
    norm_num; linarith
  have e : gaussR (val sg) (val c) j = Real.exp (-(((j : ℝ) - val c) ^ 2 / Q)) := by
    unfold gaussR; rw [← hs, hQ]; congr 3; ring
  rw [e]
  have t := abs_sub_le (val v : ℝ) (Real.exp (-A)) (Real.exp (-(((j : ℝ) - val c) ^ 2 / Q)))
  push_cast
  linarith

/-! ## The loops of `setup` -/

theorem gaussLoop_float (l center r : BitVec 32) (g : Nat → BitVec 32)
    (hg : ∀ i : Nat, (Trans.exp (F32.div (F32.negate (F32.mul (F32.sub (F32.sub (F32.lit i) l) center)
      (F32.sub (F32.sub (F32.lit i) l) center))) r) : BitVec 32) = g i)
    (n i : Nat) (a : Array (BitVec 32)) (sum : BitVec 32) (h : i + n ≤ a.size) :
    ∃ a', gaussLoop l center r n i a sum =
        .ok (a', ((List.range n).map fun j => g (i + j)).foldl F32.add sum) ∧ a'.size = a.size ∧
      (∀ j, i ≤ j → j < i + n → rdArr a' j = .ok (g j)) ∧ (∀ j, (j < i ∨ i + n ≤ j) → rdArr a' j = rdArr a j) := by
  induction n generalizing i a sum with
  | zero => exact ⟨a, by simp [gaussLoop], rfl, by intros; omega, fun _ _ => rfl⟩
  | succ n ih =>
    have hi : i < a.size := by omega
    obtain ⟨a', h1, h2, h3, h4⟩ := ih (i + 1) (a.set i (g i)) (F32.add sum (g i)) (by simp; omega)
    refine ⟨a', ?_, by simpa using h2, fun j hj hj' => ?_, fun j hj => ?_⟩
    · rw [gaussLoop]
      have e : (Trans.exp (Arith.neg ((Arith.lit (i : ℚ) -. l -. center) *. (Arith.lit (i : ℚ) -. l -. center)) /. r) : BitVec 32) = g i :=
        hg i
      rw [e, wrArr_ok hi, Out.bind_ok, show sum +. g i = F32.add sum (g i) from rfl, h1, List.range_succ_eq_map]
      simp only [List.map_cons, List.map_map, List.foldl_cons, Nat.add_zero]
      congr 4
      funext j
      simp only [Function.comp]
      congr 1; omega
    · by_cases e : i = j
      · subst e
        rw [h4 i (.inl (by omega)), rdArr_set hi, if_pos rfl]
      · exact h3 j (by omega) (by omega)
    · rw [h4 j (by omega), rdArr_set hi, if_neg (by omega)]

theorem normLoop_float (S : BitVec 32) (n i : Nat) (a : Array (BitVec 32)) (h : i + n ≤ a.size) (g : Nat → BitVec 32)
    (hg : ∀ j, i ≤ j → j < i + n → rdArr a j = .ok (g j)) :
    ∃ a', normLoop S n i a = .ok a' ∧ a'.size = a.size ∧
      (∀ j, i ≤ j → j < i + n → rdArr a' j = .ok (F32.div (g j) S)) ∧
      (∀ j, (j < i ∨ i + n ≤ j) → rdArr a' j = rdArr a j) := by
  induction n generalizing i a with
  | zero => exact ⟨a, by simp [normLoop], rfl, by intros; omega, fun _ _ => rfl⟩
  | succ n ih =>
    have hi : i < a.size := by omega
    obtain ⟨a', h1, h2, h3, h4⟩ := ih (i + 1) (a.set i (F32.div (g i) S)) (by simp; omega) (by
      intro j hj hj'
      rw [rdArr_set hi, if_neg (by omega)]
      exact hg j (by omega) (by omega))
    refine ⟨a', ?_, by simpa using h2, fun j hj hj' => ?_, fun j hj => ?_⟩
    · rw [normLoop, hg i le_rfl (by omega), Out.bind_ok, show g i /. S = F32.div (g i) S from rfl, wrArr_ok hi,
        Out.bind_ok, h1]
    · by_cases e : i = j
      · subst e
        rw [h4 i (.inl (by omega)), rdArr_set hi, if_pos rfl]
      · exact h3 j (by omega) (by omega)
    · rw [h4 j (by omega), rdArr_set hi, if_neg (by omega)]

/-- The rounded sum of the weights. -/
def rawSum (sg c : BitVec 32) (n : Nat) : BitVec 32 := ((List.range n).map fun j => rawWeight sg c n j).foldl F32.add (F32.lit 0)

/-- What an accepted `setup` of the Gaussian filter leaves behind, in binary32. -/
theorem gmwf_setup (s0 : GMWF (BitVec 32)) (sg c : BitVec 32) (window kernel : Array (BitVec 32)) (n : Nat) (hn : 0 < n)
    (hk : n ≤ kernel.size) (hc : F32.lt c (F32.lit n) = true) (hsg : F32.lt (F32.lit 0) sg = true) :
    ∃ k, s0.setup sg c (some window) (some kernel) n =
        .ok ({ s0 with w := some window, k := some k, wsize := n, init := true }, true) ∧
      Holds k n (fun j => F32.div (rawWeight sg c n j) (rawSum sg c n)) := by
  obtain ⟨k1, a1, a2, a3, _⟩ := gaussLoop_float (F32.lit ((n - 1 : Nat) : ℚ)) (F32.sub c (F32.lit ((n - 1 : Nat) : ℚ)))
    (F32.mul (F32.mul (F32.lit 2) sg) sg) (rawWeight sg c n) (fun i => rfl) n 0 kernel (F32.lit 0) (by omega)
  simp only [Nat.zero_add] at a1
  obtain ⟨k2, b1, b2, b3, _⟩ := normLoop_float (rawSum sg c n) n 0 k1 (by omega) (rawWeight sg c n) a3
  refine ⟨k2, ?_, by omega, fun j hj => b3 j (by omega) (by omega)⟩
  unfold GMWF.setup
  rw [if_pos (by
    simp only [Option.isSome_some, Bool.and_eq_true, decide_eq_true_eq]
    exact ⟨⟨⟨trivial, hn⟩, hc⟩, hsg⟩)]
  simp only [deref, Out.bind_ok]
  have a1' : gaussLoop (Arith.lit ((n - 1 : Nat) : ℚ) : BitVec 32) (c -. Arith.lit ((n - 1 : Nat) : ℚ))
    (Arith.lit 2 *. sg *. sg) n 0 kernel (Arith.lit 0) = .ok (k1, rawSum sg c n) := a1
  rw [a1', Out.bind_ok]
  dsimp only
  rw [b1, Out.bind_ok, Out.pure_eq]

/-! ## Accuracy -/

theorem mean_shift (n : Nat) (V g x : Nat → ℝ) (M e : ℝ) (M0 : 0 ≤ M) (hV : ∀ j < n, 0 ≤ V j) (hx : ∀ j < n, |x j| ≤ M)
    (he : ∀ j < n, |V j - g j| ≤ e) (sV : 0 < ∑ j ∈ Finset.range n, V j) (sg : 0 < ∑ j ∈ Finset.range n, g j) :
    |(∑ j ∈ Finset.range n, V j * x j) / (∑ j ∈ Finset.range n, V j) -
      (∑ j ∈ Finset.range n, g j * x j) / (∑ j ∈ Finset.range n, g j)| ≤ 2 * M * (n * e) / ∑ j ∈ Finset.range n, g j := by
  have h1 : |∑ j ∈ Finset.range n, V j * x j| ≤ M * ∑ j ∈ Finset.range n, V j := by
    refine (Finset.abs_sum_le_sum_abs _ _).trans ?_
    rw [Finset.mul_sum]
    refine Finset.sum_le_sum fun j hj => ?_
    have hj := Finset.mem_range.1 hj
    rw [abs_mul, abs_of_nonneg (hV j hj), _root_.mul_comm]
    exact mul_le_mul_of_nonneg_right (hx j hj) (hV j hj)
  have h2 : |∑ j ∈ Finset.range n, V j - ∑ j ∈ Finset.range n, g j| ≤ n * e := by
    rw [← Finset.sum_sub_distrib]
    refine (Finset.abs_sum_le_sum_abs _ _).trans ((Finset.sum_le_sum fun j hj => he j (Finset.mem_range.1 hj)).trans ?_)
    simp
  have h3 : |∑ j ∈ Finset.range n, V j * x j - ∑ j ∈ Finset.range n, g j * x j| ≤ M * (n * e) := by
    rw [← Finset.sum_sub_distrib]
    refine (Finset.abs_sum_le_sum_abs _ _).trans ((Finset.sum_le_sum (g := fun _ => M * e) fun j hj => ?_).trans ?_)
    · have hj := Finset.mem_range.1 hj
      rw [← sub_mul, abs_mul, _root_.mul_comm]
      exact mul_le_mul (hx j hj) (he j hj) (abs_nonneg _) M0
    · simp; linarith
  generalize ∑ j ∈ Finset.range n, V j * x j = N at *
  generalize ∑ j ∈ Finset.range n, g j * x j = N' at *
  generalize ∑ j ∈ Finset.range n, V j = S at *
  generalize ∑ j ∈ Finset.range n, g j = G at *
  have e1 : N / S - N' / G = ((N - N') + N / S * (G - S)) / G := by field_simp; ring
  rw [e1, abs_div, abs_of_pos sg]
  refine div_le_div_of_nonneg_right ?_ sg.le
  refine (abs_add_le _ _).trans ?_
  have h4 : |N / S| ≤ M := by rw [abs_div, abs_of_pos sV, div_le_iff₀ sV]; exact h1
  rw [abs_mul]
  have h5 : |N / S| * |G - S| ≤ M * (n * e) := by
    rw [abs_sub_comm G S]
    exact mul_le_mul h4 h2 (abs_nonneg _) M0
  linarith

/-- Some sample is within one half of the centre. -/
theorem gauss_total (n : Nat) (sg c : ℚ) (c0 : 0 ≤ c) (c1 : c + 1 ≤ n) (s0 : 1 / 2 ≤ sg) :
    ∃ j < n, 0.6 ≤ gaussR sg c j := by
  obtain ⟨j, hj⟩ : ∃ j : ℕ, j = ⌊c + 1 / 2⌋₊ := ⟨_, rfl⟩
  have h1 : (j : ℚ) ≤ c + 1 / 2 := hj ▸ Nat.floor_le (by linarith)
  have h2 : c + 1 / 2 < j + 1 := hj ▸ Nat.lt_floor_add_one _
  refine ⟨j, ?_, ?_⟩
  · have : (j : ℚ) < n := by linarith
    exact_mod_cast this
  · unfold gaussR
    have e1 : ((j : ℚ) - c) ^ 2 / (2 * sg ^ 2) ≤ 1 / 2 := by
      rw [div_le_iff₀ (by positivity)]
      nlinarith
    have e2 : ((j : ℝ) - c) ^ 2 / (2 * (sg : ℝ) ^ 2) ≤ 1 / 2 := by
      have : (((((j : ℚ) - c) ^ 2 / (2 * sg ^ 2) : ℚ)) : ℝ) ≤ ((1 / 2 : ℚ) : ℝ) := by exact_mod_cast e1
      push_cast at this
      exact this
    have h3 : Real.exp (-(1 / 2)) ≤ Real.exp (-(((j : ℝ) - c) ^ 2 / (2 * (sg : ℝ) ^ 2))) := Real.exp_le_exp.2 (by linarith)
    refine le_trans ?_ h3
    have h4 : Real.exp (-(1 / 2)) ^ 2 = Real.exp (-1) := by rw [← Real.exp_nat_mul]; congr 1; norm_num
    have h5 := Real.exp_neg_one_gt_d9
    have h6 := Real.exp_pos (-(1 / 2))
    by_contra h
    push Not at h
    nlinarith

/-- One output in terms of the normalised weights. -/
theorem gauss_output (sg c : BitVec 32) (n : Nat) (hn : 0 < n) (hn2 : n ≤ 1024) (fc : F32.Finite c) (c0 : 0 ≤ val c)
    (c1 : val c + 1 ≤ n) (fs : F32.Finite sg) (s0 : 1 / 2 ≤ val sg) (s1 : val sg ≤ 1000000) (M : ℚ) (M0 : 0 ≤ M) (hM : M ≤ 1e37)
    (x : BitVec 32) (h : Nat → BitVec 32) (hx : ∀ j, F32.Finite (push x h j) ∧ |val (push x h j)| ≤ M) :
    F32.Near (fdot (terms (fun j => F32.div (rawWeight sg c n j) (rawSum sg c n)) h (n - 1) ++
        [(F32.div (rawWeight sg c n 0) (rawSum sg c n), x)]))
      ((∑ j ∈ Finset.range n, gaussR (val sg) (val c) j * val (push x h j)) / ∑ j ∈ Finset.range n, gaussR (val sg) (val c) j)
      (n * (4e-6 + 4e-7 * n) * M + 1e-40) := by
  have hw := fun j hj => rawWeight_near sg c n j hn2 hj fc c0 c1 fs s0 s1
  obtain ⟨j0, hj0, hg0⟩ := gauss_total n (val sg) (val c) c0 c1 s0
  have nb : (n : ℝ) ≤ 1024 := by exact_mod_cast hn2
  have n1 : (1 : ℝ) ≤ n := by exact_mod_cast hn
  -- the sum of the weights
  obtain ⟨V, hV⟩ : ∃ V : ℕ → ℚ, V = fun j => val (rawWeight sg c n j) := ⟨_, rfl⟩
  obtain ⟨S, hS⟩ : ∃ S : ℚ, S = ∑ j ∈ Finset.range n, V j := ⟨_, rfl⟩
  have S05 : (0.5 : ℝ) ≤ S := by
    have h1 : V j0 ≤ S := by
      rw [hS]
      refine Finset.single_le_sum (f := V) (fun j hj => ?_) (Finset.mem_range.2 hj0)
      rw [hV]; exact (hw j (Finset.mem_range.1 hj)).2.1
    have h1r : (V j0 : ℝ) ≤ S := by exact_mod_cast h1
    have h2 := (_root_.abs_le.1 (hw j0 hj0).2.2.2).1
    rw [hV] at h1r
    norm_num at hg0 h2 ⊢
    linarith
  have S05q : (0.5 : ℚ) ≤ S := by
    have : ((0.5 : ℚ) : ℝ) ≤ (S : ℝ) := by push_cast; norm_num at S05 ⊢; linarith
    exact_mod_cast this
  have SN : S ≤ n := by
    rw [hS]
    refine (Finset.sum_le_sum (g := fun _ => (1 : ℚ)) fun j hj => ?_).trans (by simp)
    rw [hV]; exact (hw j (Finset.mem_range.1 hj)).2.2.1
  obtain ⟨l, hl⟩ : ∃ l : List (BitVec 32 × BitVec 32), l = (List.range n).map fun j => (0#32, rawWeight sg c n j) := ⟨_, rfl⟩
  have el : rawSum sg c n = Fis.fsum l := by
    unfold rawSum Fis.fsum
    rw [hl, List.foldl_map, List.foldl_map]
  have lmem : ∀ p ∈ l, F32.Finite p.2 ∧ 0 ≤ val p.2 := by
    intro p hp
    rw [hl] at hp
    obtain ⟨j, hj, rfl⟩ := List.mem_map.1 hp
    exact ⟨(hw j (List.mem_range.1 hj)).1, (hw j (List.mem_range.1 hj)).2.1⟩
  have ew : Fis.wsum l = S := by
    unfold Fis.wsum
    rw [hl, List.map_map, hS, ← Fis.sum_range_list, hV]; rfl
  have ln : l.length = n := by rw [hl]; simp
  have hsum := fdot_err (l.map fun p => (p.2, F32.lit 1)) (by
    intro q hq
    obtain ⟨p, hp, rfl⟩ := List.mem_map.1 hq
    exact ⟨(lmem p hp).1, Fis.one_val.1⟩) (by rw [List.length_map, ln]; omega) (by
    rw [Fis.adots_one l fun p hp => (lmem p hp).2, ew]
    have : (n : ℚ) ≤ 1024 := by exact_mod_cast hn2
    norm_num; linarith)
  rw [← Fis.fsum_eq l fun p hp => (lmem p hp).1, Fis.dots_one, Fis.adots_one l fun p hp => (lmem p hp).2, List.length_map, ln,
    ew, ← el] at hsum
  generalize rawSum sg c n = b at *
  obtain ⟨fb, eb⟩ := hsum
  obtain ⟨ρ, hρ⟩ : ∃ ρ : ℝ, ρ = 1.02 * (n + 1) / 16777216 := ⟨_, rfl⟩
  have ρ0 : 0 ≤ ρ := by rw [hρ]; positivity
  have ρ1 : ρ ≤ 7e-5 := by rw [hρ]; norm_num; linarith
  have nS : F32.Near b S (ρ * S) := by
    refine ⟨fb, ?_⟩
    have : |(val b : ℝ) - S| ≤ 1.01 * (n + 1) / 16777216 * S + 3e-45 * n := by
      have h3 : ((|val b - S| : ℚ) : ℝ) ≤ ((1.01 * (n + 1) / 16777216 * S + 3e-45 * n : ℚ) : ℝ) := by exact_mod_cast eb
      push_cast at h3
      exact h3
    refine this.trans ?_
    rw [hρ]
    have h5 : (0.5 : ℝ) * (n + 1) ≤ S * (n + 1) := mul_le_mul_of_nonneg_right S05 (by linarith)
    have h6 : 1.02 * ((n : ℝ) + 1) / 16777216 * S = 1.01 * (n + 1) / 16777216 * S + 0.01 / 16777216 * (S * (n + 1)) := by ring
    rw [h6]
    norm_num at h5 ⊢
    linarith
  -- the normalised weights
  obtain ⟨κ, hκ⟩ : ∃ κ : ℝ, κ = 1.03 * (n + 2) / 16777216 := ⟨_, rfl⟩
  have κ0 : 0 ≤ κ := by rw [hκ]; positivity
  have κ1 : κ ≤ 7e-5 := by rw [hκ]; norm_num; linarith
  have hK : ∀ j < n, F32.Near (F32.div (rawWeight sg c n j) b) ((V j : ℝ) / S) (κ * ((V j : ℝ) / S) + 1e-45) := by
    intro j hj
    have V0 : (0 : ℝ) ≤ V j := by
      have := (hw j hj).2.1
      rw [hV]; exact_mod_cast this
    have VS : (V j : ℝ) ≤ S := by
      have : V j ≤ S := by
        rw [hS]
        refine Finset.single_le_sum (f := V) (fun j hj => ?_) (Finset.mem_range.2 hj)
        rw [hV]; exact (hw j (Finset.mem_range.1 hj)).2.1
      exact_mod_cast this
    obtain ⟨t, ht⟩ : ∃ t : ℝ, t = (V j : ℝ) / S := ⟨_, rfl⟩
    have S0 : (0 : ℝ) < S := by norm_num at S05; linarith
    have t0 : 0 ≤ t := by rw [ht]; positivity
    have t1 : t ≤ 1 := by rw [ht, div_le_one S0]; exact VS
    have nv : F32.Near (rawWeight sg c n j) (V j) 0 := by rw [hV]; exact F32.Near.self (hw j hj).1
    refine (F32.Near.div t ((1 - ρ) * S) (1.0001 * ρ * t) (1.0001 * t) nv nS S0.ne' ?_ ?_ ?_ ?_ ?_ ?_ ?_)
    · refine mul_pos ?_ S0; norm_num at ρ1; linarith
    · rw [abs_of_pos S0]; linarith
    · rw [← ht, abs_of_nonneg t0]
    · rw [div_le_iff₀ (by refine mul_pos ?_ S0; norm_num at ρ1; linarith)]
      have h1 : 1 ≤ 1.0001 * (1 - ρ) := by norm_num at ρ1 ⊢; linarith
      have h2 : 0 ≤ t * ρ * S := by positivity
      have h3 := mul_le_mul_of_nonneg_right h1 h2
      linarith
    · have h1 : ρ * t ≤ 7e-5 * t := mul_le_mul_of_nonneg_right ρ1 t0
      norm_num at h1 ⊢; linarith
    · norm_num; linarith
    · rw [← ht]
      have e1 : κ = 1.03 / 1.02 * ρ + 1.03 / 16777216 := by rw [hκ, hρ]; ring
      rw [e1]
      have h2 : 0 ≤ ρ * t := by positivity
      have e2 : (1.03 / 1.02 * ρ + 1.03 / 16777216) * t = 1.03 / 1.02 * (ρ * t) + 1.03 / 16777216 * t := by ring
      rw [e2]
      norm_num at h2 ⊢
      linarith
  have S0 : (0 : ℝ) < S := by norm_num at S05; linarith
  have Mr : (0 : ℝ) ≤ M := by exact_mod_cast M0
  have M37 : (M : ℝ) ≤ 1e37 := by
    have : ((M : ℚ) : ℝ) ≤ ((1e37 : ℚ) : ℝ) := by exact_mod_cast hM
    exact this.trans (by norm_num)
  have sumV : ∑ j ∈ Finset.range n, (V j : ℝ) = S := by rw [hS]; push_cast; rfl
  have sumt : ∑ j ∈ Finset.range n, (V j : ℝ) / S = 1 := by rw [← Finset.sum_div, sumV, div_self S0.ne']
  obtain ⟨Kf, hKf⟩ : ∃ Kf : ℕ → BitVec 32, Kf = fun j => F32.div (rawWeight sg c n j) b := ⟨_, rfl⟩
  have hxr : ∀ j, |(val (push x h j) : ℝ)| ≤ M := fun j => by
    have := (hx j).2
    exact_mod_cast this
  have V0 : ∀ j < n, (0 : ℝ) ≤ V j := fun j hj => by
    have := (hw j hj).2.1
    rw [hV]; exact_mod_cast this
  have hKd : ∑ j ∈ Finset.range n, |(val (Kf j) : ℝ) - (V j : ℝ) / S| ≤ κ + 1e-45 * n := by
    refine (Finset.sum_le_sum fun j hj => ?_).trans (b := ∑ j ∈ Finset.range n, (κ * ((V j : ℝ) / S) + 1e-45)) ?_
    · rw [hKf]; exact (hK j (Finset.mem_range.1 hj)).err
    · rw [Finset.sum_add_distrib, ← Finset.mul_sum, sumt]; simp; linarith
  have hKa : ∑ j ∈ Finset.range n, |(val (Kf j) : ℝ)| ≤ 1.0001 := by
    refine (Finset.sum_le_sum fun j hj => ?_).trans
      (b := ∑ j ∈ Finset.range n, (|(val (Kf j) : ℝ) - (V j : ℝ) / S| + (V j : ℝ) / S)) ?_
    · have hj := Finset.mem_range.1 hj
      have t0 : 0 ≤ (V j : ℝ) / S := div_nonneg (V0 j hj) S0.le
      have := abs_add_le ((val (Kf j) : ℝ) - (V j : ℝ) / S) ((V j : ℝ) / S)
      rw [sub_add_cancel, abs_of_nonneg t0] at this
      exact this
    · rw [Finset.sum_add_distrib, sumt]
      norm_num at κ1 hKd ⊢; linarith
  -- the sum of the products
  obtain ⟨d1, d2, d3⟩ := firSums Kf h x n hn
  have hA : ((adots (terms Kf h (n - 1) ++ [(Kf 0, x)]) : ℚ) : ℝ) ≤ 1.0001 * M := by
    rw [d2]; push_cast
    refine (Finset.sum_le_sum fun j hj => ?_).trans (b := ∑ j ∈ Finset.range n, |(val (Kf j) : ℝ)| * M) ?_
    · rw [abs_mul]; exact mul_le_mul_of_nonneg_left (hxr j) (abs_nonneg _)
    · rw [← Finset.sum_mul]; exact mul_le_mul_of_nonneg_right hKa Mr
  obtain ⟨ff, ef⟩ := fdot_err (terms Kf h (n - 1) ++ [(Kf 0, x)]) (by
    intro p hp
    rw [List.mem_append] at hp
    rcases hp with hp | hp
    · unfold terms at hp
      obtain ⟨j, hj, rfl⟩ := List.mem_map.1 hp
      rw [List.mem_reverse, List.mem_range] at hj
      refine ⟨(hx (j + 1)).1, ?_⟩
      rw [hKf]; exact (hK (j + 1) (by omega)).fin
    · rw [List.mem_singleton] at hp
      subst hp
      refine ⟨?_, (hx 0).1⟩
      rw [hKf]; exact (hK 0 hn).fin) (by rw [d3]; omega) (by
    have : ((adots (terms Kf h (n - 1) ++ [(Kf 0, x)]) : ℚ) : ℝ) ≤ ((1e38 : ℚ) : ℝ) := by
      refine hA.trans ?_
      push_cast; norm_num at M37 ⊢; linarith
    exact_mod_cast this)
  rw [d1, d3] at ef
  have e1 : |(val (fdot (terms Kf h (n - 1) ++ [(Kf 0, x)])) : ℝ) - ∑ j ∈ Finset.range n, (val (Kf j) : ℝ) * val (push x h j)| ≤
      1.01 * (n + 1) / 16777216 * (1.0001 * M) + 3e-45 * n := by
    have h3 : ((|val (fdot (terms Kf h (n - 1) ++ [(Kf 0, x)])) - ∑ j ∈ Finset.range n, val (Kf j) * val (push x h j)| : ℚ) : ℝ) ≤
      ((1.01 * (n + 1) / 16777216 * adots (terms Kf h (n - 1) ++ [(Kf 0, x)]) + 3e-45 * n : ℚ) : ℝ) := by exact_mod_cast ef
    push_cast at h3
    refine h3.trans ?_
    gcongr
  have e2 : |∑ j ∈ Finset.range n, (val (Kf j) : ℝ) * val (push x h j) -
      (∑ j ∈ Finset.range n, (V j : ℝ) * val (push x h j)) / S| ≤ (κ + 1e-45 * n) * M := by
    rw [Finset.sum_div, ← Finset.sum_sub_distrib]
    refine (Finset.abs_sum_le_sum_abs _ _).trans ?_
    refine (Finset.sum_le_sum fun j hj => ?_).trans
      (b := ∑ j ∈ Finset.range n, |(val (Kf j) : ℝ) - (V j : ℝ) / S| * M) ?_
    · rw [show (val (Kf j) : ℝ) * val (push x h j) - (V j : ℝ) * val (push x h j) / S =
        ((val (Kf j) : ℝ) - (V j : ℝ) / S) * val (push x h j) by ring, abs_mul]
      exact mul_le_mul_of_nonneg_left (hxr j) (abs_nonneg _)
    · rw [← Finset.sum_mul]; exact mul_le_mul_of_nonneg_right hKd Mr
  have G0 : 0.6 ≤ ∑ j ∈ Finset.range n, gaussR (val sg) (val c) j :=
    hg0.trans (Finset.single_le_sum (f := gaussR (val sg) (val c)) (fun j _ => (Real.exp_pos _).le) (Finset.mem_range.2 hj0))
  have e3 := mean_shift n (fun j => (V j : ℝ)) (gaussR (val sg) (val c)) (fun j => (val (push x h j) : ℝ)) M (1e-6 + 9e-8 * n)
    Mr V0 (fun j _ => hxr j) (fun j hj => by rw [hV]; exact (hw j hj).2.2.2) (by rw [sumV]; exact S0)
    (by norm_num at G0; linarith)
  rw [sumV] at e3
  rw [← hKf, show F32.div (rawWeight sg c n 0) b = Kf 0 by rw [hKf]]
  refine ⟨ff, ?_⟩
  generalize (∑ j ∈ Finset.range n, gaussR (val sg) (val c) j * (val (push x h j) : ℝ)) = A at *
  generalize (∑ j ∈ Finset.range n, gaussR (val sg) (val c) j) = G at *
  have e4 : 2 * (M : ℝ) * (n * (1e-6 + 9e-8 * n)) / G ≤ 2 * (M : ℝ) * (n * (1e-6 + 9e-8 * n)) / 0.6 := by
    gcongr
  have t1 := abs_sub_le (val (fdot (terms Kf h (n - 1) ++ [(Kf 0, x)])) : ℝ)
    (∑ j ∈ Finset.range n, (val (Kf j) : ℝ) * val (push x h j)) (A / G)
  have t2 := abs_sub_le (∑ j ∈ Finset.range n, (val (Kf j) : ℝ) * val (push x h j))
    ((∑ j ∈ Finset.range n, (V j : ℝ) * val (push x h j)) / S) (A / G)
  have P1 : (M : ℝ) ≤ n * M := by nlinarith
  have P2 : 0 ≤ (n : ℝ) * n * M := by positivity
  have P3 : 1e-45 * (n : ℝ) * M ≤ 1e-45 * (n * M) := by linarith
  have e5 : (κ + 1e-45 * n) * (M : ℝ) = 1.03 / 16777216 * (n * M) + 2.06 / 16777216 * M + 1e-45 * (n * M) := by rw [hκ]; ring
  have e6 : 1.01 * ((n : ℝ) + 1) / 16777216 * (1.0001 * M) = 1.01 * 1.0001 / 16777216 * (n * M) + 1.01 * 1.0001 / 16777216 * M := by
    ring
  have e7 : 2 * (M : ℝ) * (n * (1e-6 + 9e-8 * n)) / 0.6 = 2e-6 / 0.6 * (n * M) + 18e-8 / 0.6 * (n * n * M) := by ring
  have e8 : (n : ℝ) * (4e-6 + 4e-7 * n) * M = 4e-6 * (n * M) + 4e-7 * (n * n * M) := by ring
  rw [e5] at e2
  rw [e6] at e1
  rw [e7] at e4
  rw [e8]
  generalize (n : ℝ) * n * M = Y at *
  generalize (n : ℝ) * M = Z at *
  norm_num at e1 e2 e4 P1 P2 ⊢
  linarith

/-- `y` is within `E` of the mean of the last `n` samples with Gaussian weights. Not a definition of the repository. -/
def NearGauss (sg c : ℚ) (n : Nat) (E : ℝ) (h : Nat → BitVec 32) (y : BitVec 32) : Prop :=
  F32.Near y ((∑ j ∈ Finset.range n, Real.exp (-(((j : ℝ) - c) ^ 2 / (2 * (sg : ℝ) ^ 2))) * val (h j)) /
    ∑ j ∈ Finset.range n, Real.exp (-(((j : ℝ) - c) ^ 2 / (2 * (sg : ℝ) ^ 2)))) E

/-- **C161** (partial: centre inside of the window, width of at least half a sample). In binary32 an accepted `setup` of
`smootherGMWF` followed by any sequence of samples and resets gives, for ever, the mean of the last `n` samples weighted with the
Gaussian of the configured centre and width, up to `n (4e-6 + 4e-7 n)` of the greatest sample. -/
theorem C161_gmwf_partial (s0 : GMWF (BitVec 32)) (sg c : BitVec 32) (window kernel : Array (BitVec 32)) (n : Nat) (hn : 0 < n)
    (hn2 : n ≤ 1024) (hw : n ≤ window.size) (hk : n ≤ kernel.size) (fc : F32.Finite c) (c0 : 0 ≤ val c) (c1 : val c + 1 ≤ n)
    (fs : F32.Finite sg) (g0 : 1 / 2 ≤ val sg) (g1 : val sg ≤ 1000000) :
    ∃ s, s0.setup sg c (some window) (some kernel) n = .ok (s, true) ∧ ∀ M : ℚ, 0 ≤ M → M ≤ 1e37 →
      ∀ es : List (Option (BitVec 32)), (∀ x, some x ∈ es → F32.Finite x ∧ |val x| ≤ M) →
        WindowRel (fun s => { s with init := true }) GMWF.smooth
          (NearGauss (val sg) (val c) n (n * (4e-6 + 4e-7 * n) * M + 1e-40)) s none es := by
  obtain ⟨fl, el⟩ := litNat (n := n) (by omega)
  obtain ⟨k, hk1, hk2⟩ := gmwf_setup s0 sg c window kernel n hn hk
    (by rw [lt_fin fc fl, decide_eq_true_eq, el]; linarith)
    (by rw [lt_fin Fis.zero_val.1 fs, decide_eq_true_eq, Fis.zero_val.2]; linarith)
  refine ⟨_, hk1, fun M M0 hM es hes => ?_⟩
  refine windowRel_of_inv _ _ _ (fun x => F32.Finite x ∧ |val x| ≤ M)
    (fun s h => s.wsize = n ∧ s.k = some k ∧ WinInv n s.w s.init h ∧ ∀ g, h = some g → ∀ j, F32.Finite (g j) ∧ |val (g j)| ≤ M)
    ?_ ?_ es hes _ _ ?_
  · rintro s h ⟨h1, h1', ⟨⟨a, h2, h3, _⟩, _⟩, _⟩
    exact ⟨h1, h1', ⟨⟨a, h2, h3, by simp⟩, by simp⟩, by simp⟩
  · rintro s h x hx ⟨h1, h1', h2, h3⟩
    obtain ⟨a, b, e1, e2, e3, e4⟩ := winInv_fill n s.w s.init h x h2
    obtain ⟨w', q1, q2⟩ := updateFIR_float b n x (some k) _ _ hn e4 (by intro a ha; cases ha; exact hk2) (by simp) (by simp)
    generalize hy : fdot _ = y at q1
    have hall : ∀ j, F32.Finite (push x (h.getD fun _ => x) j) ∧ |val (push x (h.getD fun _ => x) j)| ≤ M := by
      intro j
      cases j with
      | zero => exact hx
      | succ j =>
        cases h with
        | none => exact hx
        | some g => exact h3 g rfl j
    refine ⟨{ s with w := some w', init := false }, y, ?_, ?_, h1, h1', ⟨⟨w', rfl, q2.1, fun _ => ⟨_, rfl, q2⟩⟩, by simp⟩, ?_⟩
    · unfold GMWF.smooth
      simp only [e1, deref, Out.bind_ok, h1, e2, h1', q1, Out.pure_eq]
    · rw [← hy]
      exact gauss_output sg c n hn hn2 fc c0 c1 fs g0 g1 M M0 hM x _ hall
    · rintro g hg
      cases hg
      exact hall
  · exact ⟨rfl, rfl, ⟨⟨window, rfl, hw, by simp⟩, by simp⟩, by simp⟩

/-- **C161 is false of the code** when no weight is representable: `setup` accepts a centre of 1/2 and a width of 0.01 for a
window of two cells, both weights underflow to zero, the kernel is `0 / 0`, and every output is a NaN for ever. -/
theorem C161_false (window kernel : Array (BitVec 32)) (hw : 2 ≤ window.size) (hk : 2 ≤ kernel.size) (s0 : GMWF (BitVec 32)) :
    ∃ s, s0.setup (F32.lit 0.01) (F32.lit (1 / 2)) (some window) (some kernel) 2 = .ok (s, true) ∧
      ∀ es : List (Option (BitVec 32)),
        WindowRel (fun s => { s with init := true }) GMWF.smooth (fun _ y => IsNaN y) s none es := by
  obtain ⟨k, hk1, hk2⟩ := gmwf_setup s0 (F32.lit 0.01) (F32.lit (1 / 2)) window kernel 2 (by norm_num) hk
    (by decide +kernel) (by decide +kernel)
  refine ⟨_, hk1, fun es => ?_⟩
  refine windowRel_of_inv _ _ _ (fun _ => True) (fun s h => s.wsize = 2 ∧ s.k = some k ∧ WinInv 2 s.w s.init h)
    ?_ ?_ es (fun _ _ => trivial) _ _ ?_
  · rintro s h ⟨h1, h1', ⟨a, h2, h3, _⟩, _⟩
    exact ⟨h1, h1', ⟨a, h2, h3, by simp⟩, by simp⟩
  · rintro s h x - ⟨h1, h1', h2⟩
    obtain ⟨a, b, e1, e2, e3, e4⟩ := winInv_fill 2 s.w s.init h x h2
    obtain ⟨w', q1, q2⟩ := updateFIR_float b 2 x (some k) _ _ (by norm_num) e4 (by intro a ha; cases ha; exact hk2) (by simp) (by simp)
    generalize hy : fdot _ = y at q1
    refine ⟨{ s with w := some w', init := false }, y, ?_, ?_, h1, h1', ⟨w', rfl, q2.1, fun _ => ⟨_, rfl, q2⟩⟩, by simp⟩
    · unfold GMWF.smooth
      simp only [e1, deref, Out.bind_ok, h1, e2, h1', q1, Out.pure_eq]
    · have hn : IsNaN (F32.div (rawWeight (F32.lit 0.01) (F32.lit (1 / 2)) 2 0) (rawSum (F32.lit 0.01) (F32.lit (1 / 2)) 2)) := by
        decide +kernel
      rw [← hy]
      unfold fdot
      rw [List.foldl_append]
      exact add_nan_right (mul_nan_left hn)
  · exact ⟨rfl, rfl, ⟨window, rfl, hw, by simp⟩, by simp⟩

/-- A configuration that meets the hypotheses of `C161_gmwf_partial`: 5 cells, centre 2.3, width 1.5. -/
example : F32.Finite (F32.lit 2.3) ∧ 0 ≤ val (F32.lit 2.3) ∧ val (F32.lit 2.3) + 1 ≤ 5 ∧ F32.Finite (F32.lit 1.5) ∧
    1 / 2 ≤ val (F32.lit 1.5) ∧ val (F32.lit 1.5) ≤ 1000000 := by decide +kernel

/-- Its outputs for the samples 1, 2, 3: the constant 1 does not pass unchanged. -/
example : (do
    let (s, _) ← GMWF.setup ⟨none, none, 0, true⟩ (F32.lit 1.5) (F32.lit 2.3) (some (Array.replicate 5 0#32))
      (some (Array.replicate 5 0#32)) 5
    let (s, a) ← s.smooth (F32.lit 1)
    let (s, b) ← s.smooth (F32.lit 2)
    let (_, c) ← s.smooth (F32.lit 3)
    pure [a, b, c]) = Out.ok [0x3f7fffff#32, 0x3f8b9fc4#32, 0x3fb11e3a#32] := by decide +kernel

end Verif.Smoother
