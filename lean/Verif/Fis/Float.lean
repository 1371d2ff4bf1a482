import Verif.Fis.Outputs
import Verif.F32.Dot
import Verif.F32.Error

/-!
# De-fuzzification in binary32 (C160)

IEEE binary32 arithmetic; nothing here is a definition of the repository.
-/

namespace Verif.Fis

open Arith F32

/-! ## Weighted means -/

/-- The loop `acc = 0; acc += w` over the weights of a list of pairs. Not a definition of the repository. -/
def fsum (l : List (BitVec 32 × BitVec 32)) : BitVec 32 := l.foldl (fun acc p => F32.add acc p.2) (F32.lit 0)

/-- The exact sum of the weights. Not a definition of the repository. -/
def wsum (l : List (BitVec 32 × BitVec 32)) : ℚ := (l.map fun p => val p.2).sum

theorem one_val : F32.Finite (F32.lit 1) ∧ val (F32.lit 1) = 1 := by decide +kernel
theorem zero_val : F32.Finite (F32.lit 0) ∧ val (F32.lit 0) = 0 := by decide +kernel
theorem half_val : F32.Finite (F32.lit (1 / 2)) ∧ val (F32.lit (1 / 2)) = 1 / 2 := by decide +kernel

theorem mul_one_right {b : BitVec 32} (hb : F32.Finite b) : F32.mul b (F32.lit 1) = b := by
  rw [mul_fin hb one_val.1, one_val.2, mul_one, show F32.neg (F32.lit 1) = false by decide +kernel, Bool.xor_false,
    rnd_self hb]

theorem fsum_eq (l : List (BitVec 32 × BitVec 32)) (hl : ∀ p ∈ l, F32.Finite p.2) :
    fsum l = fdot (l.map fun p => (p.2, F32.lit 1)) := by
  induction l using List.reverseRecOn with
  | nil => rfl
  | append_singleton l p ih =>
    have h1 : fsum (l ++ [p]) = F32.add (fsum l) p.2 := by simp [fsum]
    have h2 : fdot ((l ++ [p]).map fun p => (p.2, F32.lit 1)) =
        F32.add (fdot (l.map fun p => (p.2, F32.lit 1))) (F32.mul p.2 (F32.lit 1)) := by simp [fdot]
    rw [h1, h2, ih (fun q hq => hl q (by simp [hq])), mul_one_right (hl p (by simp))]

theorem dots_one (l : List (BitVec 32 × BitVec 32)) : dots (l.map fun p => (p.2, F32.lit 1)) = wsum l := by
  simp [dots, wsum, one_val.2, Function.comp_def]

theorem adots_one (l : List (BitVec 32 × BitVec 32)) (hl : ∀ p ∈ l, 0 ≤ val p.2) :
    adots (l.map fun p => (p.2, F32.lit 1)) = wsum l := by
  unfold adots wsum
  rw [List.map_map]
  congr 1
  refine List.map_congr_left fun p hp => ?_
  simp [one_val.2, abs_of_nonneg (hl p hp)]

theorem adots_le (l : List (BitVec 32 × BitVec 32)) (M : ℚ) (hl : ∀ p ∈ l, 0 ≤ val p.2 ∧ |val p.1| ≤ M) :
    adots l ≤ M * wsum l := by
  induction l with
  | nil => simp [adots, wsum]
  | cons p l ih =>
    have e1 : adots (p :: l) = |val p.1 * val p.2| + adots l := by simp [adots]
    have e2 : wsum (p :: l) = val p.2 + wsum l := by simp [wsum]
    obtain ⟨h1, h2⟩ := hl p (by simp)
    have := ih fun q hq => hl q (by simp [hq])
    rw [e1, e2, abs_mul, abs_of_nonneg h1]
    nlinarith

theorem wsum_le (l : List (BitVec 32 × BitVec 32)) (hl : ∀ p ∈ l, val p.2 ≤ 1) : wsum l ≤ l.length := by
  induction l with
  | nil => simp [wsum]
  | cons p l ih =>
    have e2 : wsum (p :: l) = val p.2 + wsum l := by simp [wsum]
    have := ih fun q hq => hl q (by simp [hq])
    have := hl p (by simp)
    rw [e2]; push_cast [List.length_cons]; linarith

/-- The quotient of a rounded sum of weighted values by the rounded sum of the weights. -/
theorem wmean_near (l : List (BitVec 32 × BitVec 32)) (M : ℚ)
    (hl : ∀ p ∈ l, F32.Finite p.1 ∧ F32.Finite p.2 ∧ 0 ≤ val p.2 ∧ val p.2 ≤ 1 ∧ |val p.1| ≤ M)
    (hn : l.length ≤ 65536) (hM : M ≤ 1e18) (h0 : 1e-20 ≤ wsum l) :
    F32.Near (F32.div (fdot l) (fsum l)) ((dots l / wsum l : ℚ) : ℝ)
      ((2.1 * (l.length + 2) / 16777216 * M + 1e-19 : ℚ) : ℝ) := by
  have S1 : wsum l ≤ 65536 := (wsum_le l fun p hp => (hl p hp).2.2.2.1).trans (by exact_mod_cast hn)
  have Sp : 0 < wsum l := lt_of_lt_of_le (by norm_num) h0
  have M0 : 0 ≤ M := by
    rcases l with _ | ⟨p, l⟩
    · simp [wsum] at Sp
    · exact (abs_nonneg _).trans (hl p (by simp)).2.2.2.2
  have A := adots_le l M fun p hp => ⟨(hl p hp).2.2.1, (hl p hp).2.2.2.2⟩
  have A38 : M * wsum l ≤ 1e38 := by
    calc M * wsum l ≤ 1e18 * 65536 := mul_le_mul hM S1 Sp.le (by norm_num)
      _ ≤ 1e38 := by norm_num
  obtain ⟨f0, e0⟩ := fdot_err l (fun p hp => ⟨(hl p hp).1, (hl p hp).2.1⟩) (by omega) (A.trans A38)
  have hone := fdot_err (l.map fun p => (p.2, F32.lit 1)) (by
    intro q hq
    obtain ⟨p, hp, rfl⟩ := List.mem_map.1 hq
    exact ⟨(hl p hp).2.1, one_val.1⟩) (by rw [List.length_map]; omega) (by
    rw [adots_one l fun p hp => (hl p hp).2.2.1]; exact S1.trans (by norm_num))
  rw [← fsum_eq l fun p hp => (hl p hp).2.1, dots_one, adots_one l fun p hp => (hl p hp).2.2.1, List.length_map] at hone
  obtain ⟨f1, e1⟩ := hone
  have D := abs_dots_le l
  have n1 : (1 : ℚ) ≤ l.length := by
    rcases l with _ | ⟨p, l⟩
    · simp [wsum] at Sp
    · simp
  have n2 : (l.length : ℚ) ≤ 65536 := by exact_mod_cast hn
  generalize fdot l = a at *
  generalize fsum l = b at *
  generalize dots l = d at *
  generalize (l.length : ℚ) = n at *
  generalize wsum l = S at *
  -- the errors of the two sums
  have E0 : |val a - d| ≤ (1.0101 * (n + 1) / 16777216 * M + 2e-20) * S := by
    refine e0.trans ?_
    have h1 : 1.01 * (n + 1) / 16777216 * adots l ≤ 1.01 * (n + 1) / 16777216 * (M * S) := by gcongr
    have h2 : 3e-45 * n ≤ 2e-20 * S := by norm_num at h0 ⊢; linarith
    have h3 : 0 ≤ (n + 1) * M * S := by positivity
    have h4 : (1.0101 * (n + 1) / 16777216 * M + 2e-20) * S =
      1.01 * (n + 1) / 16777216 * (M * S) + 0.0001 / 16777216 * ((n + 1) * M * S) + 2e-20 * S := by ring
    rw [h4]
    have h5 : 0 ≤ 0.0001 / 16777216 * ((n + 1) * M * S) := by positivity
    linarith
  have E1 : |val b - S| ≤ 1.0101 * (n + 1) / 16777216 * S := by
    refine e1.trans ?_
    have h2 : 3e-45 * n ≤ 2e-20 * S := by norm_num at h0 ⊢; linarith
    have h3 : 2e-20 * S ≤ 0.0001 / 16777216 * ((n + 1) * S) := by
      have : 2 * S ≤ (n + 1) * S := by nlinarith
      norm_num; linarith
    rw [show 1.0101 * (n + 1) / 16777216 * S = 1.01 * (n + 1) / 16777216 * S + 0.0001 / 16777216 * ((n + 1) * S) by ring]
    linarith
  have D1 : |d| ≤ M * S := D.trans A
  have b0 : 0.996 * S ≤ val b := by
    have := (abs_le.1 E1).1
    have h3 : 1.0101 * (n + 1) / 16777216 * S ≤ 0.004 * S := by
      refine mul_le_mul_of_nonneg_right ?_ Sp.le
      norm_num; linarith
    linarith
  have bp : 0 < val b := lt_of_lt_of_le (by positivity) b0
  have q0 : |d / S| ≤ M := by rw [abs_div, abs_of_pos Sp, div_le_iff₀ Sp]; exact D1
  have Q : |val a / val b - d / S| ≤ 2.03 * (n + 1) / 16777216 * M + 3e-20 := by
    rw [show val a / val b - d / S = ((val a - d) - d / S * (val b - S)) / val b by field_simp; ring, abs_div,
      abs_of_pos bp, div_le_iff₀ bp]
    have h1 : |d / S * (val b - S)| ≤ M * (1.0101 * (n + 1) / 16777216 * S) := by
      rw [abs_mul]; exact mul_le_mul q0 E1 (abs_nonneg _) M0
    have h2 := abs_sub (val a - d) (d / S * (val b - S))
    have h3 : (2.03 * (n + 1) / 16777216 * M + 3e-20) * (0.996 * S) ≤ (2.03 * (n + 1) / 16777216 * M + 3e-20) * val b :=
      mul_le_mul_of_nonneg_left b0 (by positivity)
    have h4 : 0 ≤ (n + 1) * M * S := by positivity
    refine le_trans (h2.trans (add_le_add E0 h1)) (le_trans ?_ h3)
    have h5 : (2.03 * (n + 1) / 16777216 * M + 3e-20) * (0.996 * S) - ((1.0101 * (n + 1) / 16777216 * M + 2e-20) * S +
      M * (1.0101 * (n + 1) / 16777216 * S)) = (2.03 * 0.996 - 2.0202) / 16777216 * ((n + 1) * M * S) + (3e-20 * 0.996 - 2e-20) * S := by ring
    have h6 : 0 ≤ (2.03 * 0.996 - 2.0202) / 16777216 * ((n + 1) * M * S) + (3e-20 * 0.996 - 2e-20) * S := by
      have : (0 : ℚ) ≤ (2.03 * 0.996 - 2.0202) / 16777216 := by norm_num
      have : (0 : ℚ) ≤ 3e-20 * 0.996 - 2e-20 := by norm_num
      positivity
    linarith
  rw [div_fin f0 f1 bp.ne']
  refine rnd_near (((1.01 * M + 4e-20 : ℚ) : ℚ) : ℝ) (e := ((2.03 * (n + 1) / 16777216 * M + 3e-20 : ℚ) : ℝ)) ?_ ?_ ?_ ?_
  · exact_mod_cast Q
  · have : |d / S| + (2.03 * (n + 1) / 16777216 * M + 3e-20) ≤ 1.01 * M + 4e-20 := by
      have h1 : 2.03 * (n + 1) / 16777216 * M ≤ 0.009 * M := by
        refine mul_le_mul_of_nonneg_right ?_ M0
        norm_num; linarith
      norm_num at h1 ⊢; linarith
    exact_mod_cast this
  · have : (1.01 * M + 4e-20 : ℚ) ≤ 1e38 := by norm_num at hM ⊢; linarith
    have h3 : (((1.01 * M + 4e-20 : ℚ) : ℚ) : ℝ) ≤ ((1e38 : ℚ) : ℝ) := by exact_mod_cast this
    refine h3.trans (by norm_num)
  · have : (2.03 * (n + 1) / 16777216 * M + 3e-20) + (1.01 * M + 4e-20) / 16777216 + 1e-45 ≤
        (2.1 * (n + 2) / 16777216 * M + 1e-19 : ℚ) := by
      have h1 : (2.1 * (n + 2) / 16777216 * M + 1e-19 : ℚ) - ((2.03 * (n + 1) / 16777216 * M + 3e-20) + (1.01 * M + 4e-20) / 16777216 + 1e-45) =
        0.07 / 16777216 * (n * M) + (4.2 - 2.03 - 1.01) / 16777216 * M + (1e-19 - 3e-20 - 4e-20 / 16777216 - 1e-45) := by ring
      have h2 : 0 ≤ n * M := by positivity
      have h3 : (0 : ℚ) ≤ 0.07 / 16777216 * (n * M) + (4.2 - 2.03 - 1.01) / 16777216 * M := by
        have : (0 : ℚ) ≤ (4.2 - 2.03 - 1.01) / 16777216 := by norm_num
        positivity
      have h4 : (0 : ℚ) ≤ (1e-19 - 3e-20 - 4e-20 / 16777216 - 1e-45) := by norm_num
      linarith
    have h3 : (((2.03 * (n + 1) / 16777216 * M + 3e-20) + (1.01 * M + 4e-20) / 16777216 + 1e-45 : ℚ) : ℝ) ≤
        ((2.1 * (n + 2) / 16777216 * M + 1e-19 : ℚ) : ℝ) := by exact_mod_cast this
    refine le_trans (le_of_eq ?_) h3
    push_cast
    norm_num

/-! ## Abscissae and limits -/

theorem lit_natCast (k : ℕ) (hk : k ≤ 16777216) : F32.Finite (F32.lit (k : ℚ)) ∧ val (F32.lit (k : ℚ)) = k := by
  have := rnd_int false (k := (k : ℤ)) (by rw [abs_of_nonneg (by positivity)]; exact_mod_cast hk)
  simpa [F32.lit] using this

/-- The abscissae at which an output is sampled. -/
theorem abscissa_near (o : Output (BitVec 32)) (k n : ℕ) (hk : k < n) (hn : n ≤ 65536) (h1 : F32.Finite o.io.min)
    (h2 : F32.Finite o.res) (M : ℝ) (hM : |(val o.io.min : ℝ)| + n * |(val o.res : ℝ)| ≤ M) (hM2 : M ≤ 1e18) :
    F32.Near (abscissa o k) (val o.io.min + (k + 1 / 2) * val o.res) (3.1 / 16777216 * M + 3e-45) := by
  obtain ⟨fk, vk⟩ := lit_natCast k (by omega)
  have k1 : (k : ℝ) + 1 ≤ n := by exact_mod_cast hk
  have k0 : (0 : ℝ) ≤ k := k.cast_nonneg
  have n1 : (n : ℝ) ≤ 65536 := by exact_mod_cast hn
  have r0 := abs_nonneg (val o.res : ℝ)
  have m0 := abs_nonneg (val o.io.min : ℝ)
  obtain ⟨T, hT⟩ : ∃ T, T = (n : ℝ) * |(val o.res : ℝ)| := ⟨_, rfl⟩
  have T0 : 0 ≤ T := by rw [hT]; positivity
  rw [← hT] at hM
  have na : F32.Near (F32.add (F32.lit (k : ℚ)) (F32.lit (1 / 2))) ((k : ℝ) + 1 / 2) (n / 16777216) := by
    have a := F32.Near.self fk
    have b := F32.Near.self half_val.1
    rw [vk] at a
    rw [half_val.2] at b
    have := F32.Near.add ((k : ℝ) + 1 / 2) (e' := n / 16777216) a b (by
      push_cast
      rw [abs_of_nonneg (by positivity)]; simp) (by norm_num; linarith) (by
      rw [add_zero, zero_add]
      norm_num; linarith)
    simpa using this
  have nm : F32.Near (F32.mul (F32.add (F32.lit (k : ℚ)) (F32.lit (1 / 2))) o.res) (((k : ℝ) + 1 / 2) * val o.res)
      (2.001 / 16777216 * T + 1e-45) := by
    have hq : |((k : ℝ) + 1 / 2) * val o.res| ≤ T := by
      rw [abs_mul, abs_of_nonneg (by positivity), hT]
      exact mul_le_mul_of_nonneg_right (by linarith) r0
    refine F32.Near.mul n |(val o.res : ℝ)| (T / 16777216) (T + T / 16777216) na (F32.Near.self h2)
      (by rw [abs_of_nonneg (by positivity)]; linarith) le_rfl (by rw [hT]; simp; ring_nf; exact le_rfl)
      (by linarith) (by norm_num at hM2 ⊢; linarith) (by norm_num; linarith)
  have := F32.Near.add (M + 2.001 / 16777216 * T + 1e-45) (e' := 3.1 / 16777216 * M + 3e-45) (F32.Near.self h1) nm (by
    have hq : |((k : ℝ) + 1 / 2) * val o.res| ≤ T := by
      rw [abs_mul, abs_of_nonneg (by positivity), hT]
      exact mul_le_mul_of_nonneg_right (by linarith) r0
    have := abs_add_le (val o.io.min : ℝ) (((k : ℝ) + 1 / 2) * val o.res)
    linarith) (by norm_num at hM2 ⊢; linarith) (by norm_num; linarith)
  exact this

/-- Limiting to a range does not increase an error. -/
theorem bound_near {d lo hi : BitVec 32} {q e : ℝ} (hd : F32.Near d q e) (hlo : F32.Finite lo) (hhi : F32.Finite hi)
    (h : val lo ≤ val hi) : F32.Near (bound d lo hi) (max (val lo) (min (val hi) q)) e := by
  have h' : (val lo : ℝ) ≤ val hi := by exact_mod_cast h
  obtain ⟨f, er⟩ := hd
  have hn : isNan d = false := decide_eq_false f.notNaN
  have e1 : (d <. lo) = F32.lt d lo := rfl
  have e2 : (hi <. d) = F32.lt hi d := rfl
  obtain ⟨er1, er2⟩ := abs_le.1 er
  unfold bound
  rw [hn, e1, e2, lt_fin f hlo, lt_fin hhi f]
  simp only [Bool.false_eq_true, if_false, decide_eq_true_eq]
  split
  · rename_i c
    have c' : (val d : ℝ) < val lo := by exact_mod_cast c
    refine ⟨hlo, abs_le.2 ⟨?_, ?_⟩⟩
    · have : max (val lo : ℝ) (min (val hi) q) ≤ val lo + e :=
        max_le (by linarith) ((min_le_right _ _).trans (by linarith))
      linarith
    · have := le_max_left (val lo : ℝ) (min (val hi) q)
      linarith
  · rename_i c0
    have c0' : (val lo : ℝ) ≤ val d := by
      by_contra hh
      exact c0 (by exact_mod_cast not_le.1 hh)
    split
    · rename_i c
      have c' : (val hi : ℝ) < val d := by exact_mod_cast c
      refine ⟨hhi, abs_le.2 ⟨?_, ?_⟩⟩
      · have : max (val lo : ℝ) (min (val hi) q) ≤ val hi := max_le h' (min_le_left _ _)
        linarith
      · have : (val hi : ℝ) - e ≤ max (val lo : ℝ) (min (val hi) q) :=
          le_max_of_le_right (le_min (by linarith) (by linarith))
        linarith
    · rename_i c
      have c' : (val d : ℝ) ≤ val hi := by
        by_contra hh
        exact c (by exact_mod_cast not_le.1 hh)
      refine ⟨f, abs_le.2 ⟨?_, ?_⟩⟩
      · have : max (val lo : ℝ) (min (val hi) q) ≤ val d + e :=
          max_le (by linarith) ((min_le_right _ _).trans (by linarith))
        linarith
      · have : (val d : ℝ) - e ≤ max (val lo : ℝ) (min (val hi) q) :=
          le_max_of_le_right (le_min (by linarith) (by linarith))
        linarith

/-! ## The centroid of a Mamdani system -/

theorem scan_centroid_float (o : Output (BitVec 32)) (f : Nat → BitVec 32 × BitVec 32) (n : Nat) :
    (scan .centroid o ((List.range n).map f)).v0 = fdot ((List.range n).map f) ∧
    (scan .centroid o ((List.range n).map f)).v1 = fsum ((List.range n).map f) := by
  induction n with
  | zero => exact ⟨rfl, rfl⟩
  | succ n ih =>
    rw [scan_succ, List.range_succ, List.map_append, List.map_singleton]
    have e1 : fdot ((List.range n).map f ++ [f n]) = F32.add (fdot ((List.range n).map f)) (F32.mul (f n).1 (f n).2) := by
      simp [fdot]
    have e2 : fsum ((List.range n).map f ++ [f n]) = F32.add (fsum ((List.range n).map f)) (f n).2 := by
      simp [fsum]
    rw [e1, e2, ← ih.1, ← ih.2]
    exact ⟨rfl, rfl⟩

/-- A number that compares between 0 and 1 is finite. -/
theorem unit_fin {y : BitVec 32} (h : InRange (Arith.lit 0) (Arith.lit 1) y) : F32.Finite y ∧ 0 ≤ val y ∧ val y ≤ 1 := by
  have h1 : F32.le (F32.lit 0) y = true := h.1
  have h2 : F32.le y (F32.lit 1) = true := h.2
  have f : F32.Finite y := by
    have k1 := (of_decide_eq_true (show decide (¬ IsNaN (F32.lit 0) ∧ ¬ IsNaN y ∧ key (F32.lit 0) ≤ key y) = true from h1)).2.2
    have k2 := (of_decide_eq_true (show decide (¬ IsNaN y ∧ ¬ IsNaN (F32.lit 1) ∧ key y ≤ key (F32.lit 1)) = true from h2)).2.2
    have e0 : key (F32.lit 0) = 0 := by decide +kernel
    have e1 : key (F32.lit 1) = 0x3F800000 := by decide +kernel
    have := key_natAbs y
    unfold F32.Finite expo
    omega
  rw [le_fin zero_val.1 f, decide_eq_true_eq, zero_val.2] at h1
  rw [le_fin f one_val.1, decide_eq_true_eq, one_val.2] at h2
  exact ⟨f, h1, h2⟩

/-- Moving the abscissae by at most `δ` moves a weighted mean by at most `δ`. -/
theorem mean_move (n : ℕ) (x z y : ℕ → ℝ) (δ : ℝ) (h : ∀ k < n, |x k - z k| ≤ δ) (hy : ∀ k < n, 0 ≤ y k)
    (hs : 0 < ∑ k ∈ Finset.range n, y k) :
    |(∑ k ∈ Finset.range n, x k * y k) / (∑ k ∈ Finset.range n, y k) -
      (∑ k ∈ Finset.range n, z k * y k) / (∑ k ∈ Finset.range n, y k)| ≤ δ := by
  rw [← sub_div, abs_div, abs_of_pos hs, div_le_iff₀ hs, ← Finset.sum_sub_distrib, Finset.mul_sum]
  refine (Finset.abs_sum_le_sum_abs _ _).trans (Finset.sum_le_sum fun k hk => ?_)
  have hk' := Finset.mem_range.1 hk
  rw [← sub_mul, abs_mul, abs_of_nonneg (hy k hk')]
  exact mul_le_mul_of_nonneg_right (h k hk') (hy k hk')

theorem sum_range_list (f : ℕ → ℚ) (n : ℕ) : ((List.range n).map f).sum = ∑ k ∈ Finset.range n, f k := by
  induction n with
  | zero => simp
  | succ n ih => rw [List.range_succ, List.map_append, List.sum_append, ih, Finset.sum_range_succ]; simp

/-- **C160** (centroid). In binary32, with the default method an output of a Mamdani system is the centre of gravity of
its aggregated region, limited to its range, up to `2.1 (n + 4)` roundings of the greatest abscissa, for every rule
base as in C59 and every range, sets and strengths for which the sampled memberships do not vanish. -/
theorem C160_centroid (s : Inst (BitVec 32)) (rs : List Rule) (w : Array (BitVec 32)) (W : Nat → BitVec 32)
    (Z : Nat → Term → BitVec 32)
    (hk : s.kind = .mamdani) (hd : s.deFuzz = .centroid) (hno : s.nOutputs = s.xOutput.size)
    (hp : program rs <+: s.xRules.toList) (hn : s.nRules = rs.length) (hw : s.wi = some w)
    (hwn : rs.length ≤ w.size) (hW : ∀ k (h : k < w.size), W k = w[k])
    (hag : ∀ (j : Nat) (o : Output (BitVec 32)) (xa ya : Array (BitVec 32)), s.xOutput[j]? = some o →
      o.ag = some (xa, ya) → s.nPoints ≤ xa.size ∧ s.nPoints ≤ ya.size)
    (hr : ∀ r ∈ rs, r.AggOk s ∧ ∀ c ∈ r.consequents, ∀ k < s.nPoints,
      consequentValue (atPoint s k) c = .ok (Z k c)) (hnp : s.nPoints ≤ 65536) :
    ∃ s', deFuzzify s = .ok s' ∧ ∀ (j : Nat) (o : Output (BitVec 32)), s.xOutput[j]? = some o →
      F32.Finite o.io.min → F32.Finite o.io.max → val o.io.min ≤ val o.io.max → F32.Finite o.res →
      ∀ M : ℚ, |val o.io.min| + s.nPoints * |val o.res| ≤ M → M ≤ 1e17 →
      let Y := fun k => val (region s.aggregate s.implicate W (Z k) rs j)
      1e-20 ≤ ∑ k ∈ Finset.range s.nPoints, Y k →
      ∃ o', s'.xOutput[j]? = some o' ∧
        F32.Near o'.io.value
          (max (val o.io.min) (min (val o.io.max)
            ((∑ k ∈ Finset.range s.nPoints, (val o.io.min + (k + 1 / 2) * val o.res) * Y k) /
              ∑ k ∈ Finset.range s.nPoints, Y k : ℚ)))
          (2.1 * (s.nPoints + 4) / 16777216 * M + 1e-18) := by
  obtain ⟨s', e, h⟩ := C67_mamdani_partial s rs w W Z hk (by rw [hd]; simp) hno hp hn hw hwn hW hag hr
  refine ⟨s', e, ?_⟩
  intro j o ho fmin fmax hle fres M hM hM2 Y hY
  obtain ⟨o', h1, _, _, h4, _⟩ := h j o ho
  refine ⟨o', h1, ?_⟩
  rw [h4, hd]
  unfold samples
  obtain ⟨f, hf⟩ : ∃ f : ℕ → BitVec 32 × BitVec 32,
    f = fun k => (abscissa o k, region s.aggregate s.implicate W (Z k) rs j) := ⟨_, rfl⟩
  rw [← hf]
  obtain ⟨e0, e1⟩ := scan_centroid_float o f s.nPoints
  have hres : result .centroid (scan .centroid o ((List.range s.nPoints).map f)) =
      F32.div (fdot ((List.range s.nPoints).map f)) (fsum ((List.range s.nPoints).map f)) := by
    rw [← e0, ← e1]; rfl
  rw [hres]
  have M0 : 0 ≤ M := le_trans (by positivity) hM
  have hMr : |(val o.io.min : ℝ)| + s.nPoints * |(val o.res : ℝ)| ≤ (M : ℝ) := by exact_mod_cast hM
  have hM2r : (M : ℝ) ≤ 1e18 := by
    have : M ≤ 1e18 := hM2.trans (by norm_num)
    have h3 : ((M : ℚ) : ℝ) ≤ ((1e18 : ℚ) : ℝ) := by exact_mod_cast this
    exact h3.trans (by norm_num)
  have habs := fun k (hk : k < s.nPoints) => abscissa_near o k s.nPoints hk hnp fmin fres M hMr hM2r
  have hreg := fun k => unit_fin (region_range s.aggregate s.implicate W (Z k) rs j)
  have hws : wsum ((List.range s.nPoints).map f) = ∑ k ∈ Finset.range s.nPoints, Y k := by
    unfold wsum
    rw [List.map_map, ← sum_range_list, hf]
    rfl
  have hds : dots ((List.range s.nPoints).map f) = ∑ k ∈ Finset.range s.nPoints, val (abscissa o k) * Y k := by
    unfold dots
    rw [List.map_map, ← sum_range_list, hf]
    rfl
  have near := wmean_near ((List.range s.nPoints).map f) (1.000001 * M + 1e-20) (by
    intro p hp
    obtain ⟨k, hk, rfl⟩ := List.mem_map.1 hp
    rw [hf]
    have hk' := List.mem_range.1 hk
    refine ⟨(habs k hk').fin, (hreg k).1, (hreg k).2.1, (hreg k).2.2, ?_⟩
    have h1 := (habs k hk').abs_le
    have h2 : |(val o.io.min : ℝ) + (k + 1 / 2) * val o.res| ≤ M := by
      refine (abs_add_le _ _).trans (le_trans ?_ hMr)
      rw [abs_mul, abs_of_nonneg (by positivity : (0 : ℝ) ≤ (k : ℝ) + 1 / 2)]
      have : (k : ℝ) + 1 ≤ s.nPoints := by exact_mod_cast hk'
      gcongr
      linarith
    have h3 : |(val (abscissa o k) : ℝ)| ≤ ((1.000001 * M + 1e-20 : ℚ) : ℝ) := by
      have : (0 : ℝ) ≤ M := by exact_mod_cast M0
      push_cast
      norm_num at h1 ⊢
      linarith
    exact_mod_cast h3) (by simpa using hnp) (by norm_num at hM2 ⊢; linarith) (by rw [hws]; exact hY)
  rw [List.length_map, List.length_range, hws, hds] at near
  have Sp : 0 < ∑ k ∈ Finset.range s.nPoints, Y k := lt_of_lt_of_le (by norm_num) hY
  have mv := mean_move s.nPoints (fun k => (val (abscissa o k) : ℝ)) (fun k => (val o.io.min : ℝ) + (k + 1 / 2) * val o.res)
    (fun k => (Y k : ℝ)) (3.1 / 16777216 * M + 3e-45) (fun k hk => (habs k hk).err)
    (fun k _ => by exact_mod_cast (hreg k).2.1) (by exact_mod_cast Sp)
  have near2 := near.move (r := (((∑ k ∈ Finset.range s.nPoints, (val o.io.min + (k + 1 / 2) * val o.res) * Y k) /
              ∑ k ∈ Finset.range s.nPoints, Y k : ℚ) : ℝ)) (e' := 3.1 / 16777216 * M + 3e-45) (by
    push_cast
    exact mv)
  refine bound_near (near2.mono ?_) fmin fmax hle
  have hn0 : (0 : ℚ) ≤ s.nPoints := by positivity
  have hn1 : (s.nPoints : ℚ) ≤ 65536 := by exact_mod_cast hnp
  have : (2.1 * (s.nPoints + 2) / 16777216 * (1.000001 * M + 1e-20) + 1e-19 + (3.1 / 16777216 * M + 3e-45) : ℚ) ≤
      2.1 * (s.nPoints + 4) / 16777216 * M + 1e-18 := by
    generalize (s.nPoints : ℚ) = n at *
    have h1 : n * M ≤ 65536 * M := mul_le_mul_of_nonneg_right hn1 M0
    norm_num
    nlinarith
  have h3 : ((2.1 * (s.nPoints + 2) / 16777216 * (1.000001 * M + 1e-20) + 1e-19 + (3.1 / 16777216 * M + 3e-45) : ℚ) : ℝ) ≤
      ((2.1 * (s.nPoints + 4) / 16777216 * M + 1e-18 : ℚ) : ℝ) := by exact_mod_cast this
  push_cast at h3 ⊢
  norm_num at h3 ⊢
  linarith

/-! ## Weighted averages and sums -/

/-- The values and weights that an output of a Sugeno or Tsukamoto system adds up. Not a definition of the repository. -/
def firing (W : Nat → BitVec 32) (Z : Term → BitVec 32) (rs : List Rule) (j : Nat) : List (BitVec 32 × BitVec 32) :=
  ((visits rs 0).filter (fun kc => decide (kc.2.inp = j ∧ (Arith.lit 0 <. W kc.1) = true))).map (fun kc => (Z kc.2, W kc.1))

theorem foldl_visit_float (k : Kind) (a i : Op) (W : Nat → BitVec 32) (Z : Term → BitVec 32) (j : Nat) (hk : k ≠ .mamdani)
    (l : List (Nat × Term)) : ∀ o : Output (BitVec 32),
    let f := (l.filter (fun kc => decide (kc.2.inp = j ∧ (Arith.lit 0 <. W kc.1) = true))).map (fun kc => (Z kc.2, W kc.1))
    (l.foldl (visit k a i W Z j) o).io = o.io ∧
    (l.foldl (visit k a i W Z j) o).v0 = f.foldl (fun acc p => F32.add acc (F32.mul p.1 p.2)) o.v0 ∧
    (l.foldl (visit k a i W Z j) o).v1 = f.foldl (fun acc p => F32.add acc p.2) o.v1 := by
  induction l with
  | nil => intro o; exact ⟨rfl, rfl, rfl⟩
  | cons kc l ih =>
    intro o
    simp only [List.foldl_cons]
    by_cases h : kc.2.inp = j ∧ (Arith.lit 0 <. W kc.1) = true
    · have e : visit k a i W Z j o kc = { o with v0 := F32.add o.v0 (F32.mul (Z kc.2) (W kc.1)), v1 := F32.add o.v1 (W kc.1) } := by
        rw [visit, if_pos h, effect, if_neg hk]; rfl
      rw [e, List.filter_cons_of_pos (by simpa using h), List.map_cons, List.foldl_cons, List.foldl_cons]
      exact ih _
    · have e : visit k a i W Z j o kc = o := by rw [visit, if_neg h]
      rw [e, List.filter_cons_of_neg (by simpa using h)]
      exact ih o

/-- **C160** (weighted average). In binary32 an output of a Sugeno or Tsukamoto system is the average of the consequents of
the firing rules, weighted with their strengths and limited to its range, up to `2.1 (n + 2)` roundings of the greatest
consequent, `n` the number of consequents that fire. -/
theorem C160_average (s : Inst (BitVec 32)) (rs : List Rule) (w : Array (BitVec 32)) (W : Nat → BitVec 32)
    (Z : Term → BitVec 32)
    (hk : s.kind ≠ .mamdani) (hd : s.deFuzz = .wtaver) (hno : s.nOutputs = s.xOutput.size)
    (hp : program rs <+: s.xRules.toList) (hn : s.nRules = rs.length) (hw : s.wi = some w)
    (hwn : rs.length ≤ w.size) (hW : ∀ k (h : k < w.size), W k = w[k])
    (hr : ∀ r ∈ rs, r.AggOk s ∧ ∀ c ∈ r.consequents, consequentValue s c = .ok (Z c)) :
    ∃ s', deFuzzify s = .ok s' ∧ ∀ (j : Nat) (o : Output (BitVec 32)), s.xOutput[j]? = some o →
      F32.Finite o.io.min → F32.Finite o.io.max → val o.io.min ≤ val o.io.max →
      ∀ M : ℚ, M ≤ 1e18 → let l := firing W Z rs j
      l.length ≤ 65536 → (∀ p ∈ l, F32.Finite p.1 ∧ |val p.1| ≤ M ∧ F32.Finite p.2 ∧ val p.2 ≤ 1) →
      1e-20 ≤ (l.map fun p => val p.2).sum →
      ∃ o', s'.xOutput[j]? = some o' ∧
        F32.Near o'.io.value
          (max (val o.io.min) (min (val o.io.max)
            ((l.map fun p => val p.1 * val p.2).sum / (l.map fun p => val p.2).sum : ℚ)))
          (2.1 * (l.length + 2) / 16777216 * M + 1e-19) := by
  obtain ⟨s', e, h⟩ := weighted_run s rs w W Z hk (.inl hd) hno hp hn hw hwn hW hr
  refine ⟨s', e, ?_⟩
  intro j o ho fmin fmax hle M hM l hl hp hS
  refine ⟨_, by rw [h j, ho]; rfl, ?_⟩
  obtain ⟨h1, h2, h3⟩ := foldl_visit_float s.kind s.aggregate s.implicate W Z j hk (visits rs 0) (clear o)
  rw [hd]
  have hv : (settle .wtaver ((visits rs 0).foldl (visit s.kind s.aggregate s.implicate W Z j) (clear o))).io.value =
      bound (F32.div (fdot l) (fsum l)) o.io.min o.io.max := by
    simp only [settle, h1, result]
    rw [h2, h3]
    rfl
  rw [hv]
  have := wmean_near l M (by
    intro p hp'
    obtain ⟨g1, g2, g3, g4⟩ := hp p hp'
    refine ⟨g1, g3, ?_, g4, g2⟩
    obtain ⟨kc, hkc, rfl⟩ := List.mem_map.1 hp'
    have hlt : F32.lt (F32.lit 0) (W kc.1) = true := (of_decide_eq_true (List.mem_filter.1 hkc).2).2
    rw [lt_fin zero_val.1 g3, decide_eq_true_eq, zero_val.2] at hlt
    exact hlt.le) hl hM hS
  refine bound_near (this.mono ?_) fmin fmax hle
  push_cast
  norm_num

/-- **C160** (weighted sum). In binary32 an output of a Sugeno system with the method `wtsum` is the weighted sum of the
consequents of the firing rules limited to its range, up to `1.01 (n + 1)` roundings of the sum of the magnitudes. -/
theorem C160_sum (s : Inst (BitVec 32)) (rs : List Rule) (w : Array (BitVec 32)) (W : Nat → BitVec 32)
    (Z : Term → BitVec 32)
    (hk : s.kind ≠ .mamdani) (hd : s.deFuzz = .wtsum) (hno : s.nOutputs = s.xOutput.size)
    (hp : program rs <+: s.xRules.toList) (hn : s.nRules = rs.length) (hw : s.wi = some w)
    (hwn : rs.length ≤ w.size) (hW : ∀ k (h : k < w.size), W k = w[k])
    (hr : ∀ r ∈ rs, r.AggOk s ∧ ∀ c ∈ r.consequents, consequentValue s c = .ok (Z c)) :
    ∃ s', deFuzzify s = .ok s' ∧ ∀ (j : Nat) (o : Output (BitVec 32)), s.xOutput[j]? = some o →
      F32.Finite o.io.min → F32.Finite o.io.max → val o.io.min ≤ val o.io.max →
      let l := firing W Z rs j
      l.length ≤ 131072 → (∀ p ∈ l, F32.Finite p.1 ∧ F32.Finite p.2) →
      (l.map fun p => |val p.1 * val p.2|).sum ≤ 1e38 →
      ∃ o', s'.xOutput[j]? = some o' ∧
        F32.Near o'.io.value
          (max (val o.io.min) (min (val o.io.max) ((l.map fun p => val p.1 * val p.2).sum : ℚ)))
          ((1.01 * (l.length + 1) / 16777216 * (l.map fun p => |val p.1 * val p.2|).sum + 3e-45 * l.length : ℚ) : ℝ) := by
  obtain ⟨s', e, h⟩ := weighted_run s rs w W Z hk (.inr hd) hno hp hn hw hwn hW hr
  refine ⟨s', e, ?_⟩
  intro j o ho fmin fmax hle l hl hp hS
  refine ⟨_, by rw [h j, ho]; rfl, ?_⟩
  obtain ⟨h1, h2, h3⟩ := foldl_visit_float s.kind s.aggregate s.implicate W Z j hk (visits rs 0) (clear o)
  rw [hd]
  have hv : (settle .wtsum ((visits rs 0).foldl (visit s.kind s.aggregate s.implicate W Z j) (clear o))).io.value =
      bound (fdot l) o.io.min o.io.max := by
    simp only [settle, h1, result]
    rw [h2]
    rfl
  rw [hv]
  obtain ⟨f, er⟩ := fdot_err l hp hl hS
  exact bound_near ⟨f, by exact_mod_cast er⟩ fmin fmax hle

/-! ## Concrete systems -/

/-- A Mamdani system with one output in [0, 10], sampled at 8 points, a triangular set and a strength of 0.7. -/
def triSystem : Inst (BitVec 32) :=
  let f := fun q : ℚ => F32.lit q
  { kind := .mamdani
    xInput := #[⟨f 0, f 1, f 0⟩]
    xOutput := #[⟨⟨f 0, f 10, f 0⟩, f 1.25, f 0, f 0, f 0, f 0, f 0, f 0, none⟩]
    inMF := #[⟨none, #[], f 0.7, f 1, 0⟩]
    outMF := #[⟨some TriMF, #[f 0, f 2, f 10], f 0, f 1, 0⟩]
    nInputs := 1, nOutputs := 1, nMFInputs := 1, nMFOutputs := 1, nPoints := 8
    nRules := 1, xRules := (program [⟨⟨0, 0, false⟩, [], ⟨0, 0, false⟩, []⟩]).toArray
    andOp := .min, orOp := .max, implicate := .min, aggregate := .max, deFuzz := .centroid
    ruleWeight := none, wi := some #[f 0.7]
    infState := .antecedent, aggState := .find, ruleCount := 0, rStrength := f 0, lastConnector := 0
    lastTag := -1 }

/-- The values of the consequents of `triSystem`. -/
def triZ (k : Nat) (c : Term) : BitVec 32 :=
  match consequentValue (atPoint triSystem k) c with
  | .ok v => v
  | _ => 0

/-- The hypotheses of `C160_centroid` hold for that system, with M = 10 and a total membership greater than 2. -/
example : (let r : Rule := ⟨⟨0, 0, false⟩, [], ⟨0, 0, false⟩, []⟩
    let s := triSystem
    (program [r] <+: s.xRules.toList) ∧ r.AggOk s ∧
      (∀ k < s.nPoints, consequentValue (atPoint s k) ⟨0, 0, false⟩ = .ok (triZ k ⟨0, 0, false⟩)) ∧
      (∀ o ∈ s.xOutput.toList, F32.Finite o.io.min ∧ F32.Finite o.io.max ∧ val o.io.min ≤ val o.io.max ∧
        F32.Finite o.res ∧ |val o.io.min| + s.nPoints * |val o.res| ≤ 10) ∧
      2 ≤ ((List.range s.nPoints).map fun k =>
        val (region s.aggregate s.implicate (fun _ => F32.lit 0.7) (triZ k) [r] 0)).sum) := by
  refine ⟨?_, ?_, by decide +kernel, by decide +kernel, by decide +kernel⟩
  · simp [triSystem]
  · simp [Rule.AggOk, Rule.consequents, triSystem, setItem, THEN]

/-- The value that system delivers is 4.13822. -/
example : (fun s => s.xOutput.toList.map (fun o => o.io.value)) <$> deFuzzify triSystem = .ok [0x40846c57#32] ∧
    |val 0x40846c57#32 - 4.13822| ≤ 1e-5 := by decide +kernel

/-- A Sugeno system with one output in [0, 20] and two constant consequents, 10 and 1 / 3, of strengths 0.1 and 0.7. -/
def sugSystem (m : Method) : Inst (BitVec 32) :=
  let f := fun q : ℚ => F32.lit q
  { triSystem with
    kind := .sugeno, deFuzz := m, nRules := 2
    xRules := (program [⟨⟨0, 0, false⟩, [], ⟨0, 0, false⟩, []⟩, ⟨⟨0, 0, false⟩, [], ⟨0, 1, false⟩, []⟩]).toArray
    xOutput := #[⟨⟨f 0, f 20, f 0⟩, f 1, f 0, f 0, f 0, f 0, f 0, f 0, none⟩]
    outMF := #[⟨some ConstantMF, #[f 10], f 0, f 1, 0⟩, ⟨some ConstantMF, #[f (1 / 3)], f 0, f 1, 0⟩]
    nMFOutputs := 2, wi := some #[f 0.1, f 0.7] }

/-- The hypotheses of `C160_average` and of `C160_sum` hold for that system, with M = 10. -/
example (m : Method) : (let r : Rule := ⟨⟨0, 0, false⟩, [], ⟨0, 0, false⟩, []⟩
    let r' : Rule := ⟨⟨0, 0, false⟩, [], ⟨0, 1, false⟩, []⟩
    let s := sugSystem m
    let Z : Term → BitVec 32 := fun c => if c.mf = 0 then F32.lit 10 else F32.lit (1 / 3)
    let W : Nat → BitVec 32 := fun k => if k = 0 then F32.lit 0.1 else F32.lit 0.7
    let l := firing W Z [r, r'] 0
    (program [r, r'] <+: s.xRules.toList) ∧ r.AggOk s ∧ r'.AggOk s ∧
      (∀ c ∈ r.consequents ++ r'.consequents, consequentValue s c = .ok (Z c)) ∧
      l = [(F32.lit 10, F32.lit 0.1), (F32.lit (1 / 3), F32.lit 0.7)] ∧
      (∀ p ∈ l, F32.Finite p.1 ∧ |val p.1| ≤ 10 ∧ F32.Finite p.2 ∧ val p.2 ≤ 1) ∧
      0.7 ≤ (l.map fun p => val p.2).sum ∧ (l.map fun p => |val p.1 * val p.2|).sum ≤ 2) := by
  refine ⟨?_, ?_, ?_, ?_, by decide +kernel, by decide +kernel, by decide +kernel⟩
  · simp [sugSystem]
  · simp [Rule.AggOk, Rule.consequents, sugSystem, setItem, THEN]
  · simp [Rule.AggOk, Rule.consequents, sugSystem, setItem, THEN]
  · cases m <;> decide +kernel

/-- The average that system delivers is 1.54167, and the sum 1.23333. -/
example : (fun s => s.xOutput.toList.map (fun o => o.io.value)) <$> deFuzzify (sugSystem .wtaver) =
      .ok [0x3fc55555#32] ∧ |val 0x3fc55555#32 - (10 * 0.1 + 1 / 3 * 0.7) / 0.8| ≤ 1e-6 ∧
    (fun s => s.xOutput.toList.map (fun o => o.io.value)) <$> deFuzzify (sugSystem .wtsum) = .ok [0x3f9dddde#32] ∧
    |val 0x3f9dddde#32 - (10 * 0.1 + 1 / 3 * 0.7)| ≤ 1e-6 := by decide +kernel

end Verif.Fis
