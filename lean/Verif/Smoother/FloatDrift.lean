import Verif.Smoother.FloatWindow

/-!
# The running sum of `smootherMWM2` in binary32 for arbitrary samples (C136)
-/

namespace Verif.Smoother

open Arith F32 Ltisys

/-- The filter after at most `k` calls since its window was filled: the running sum is wrong by at most `(k+1) n B / 2^22`. Not a
definition of the repository. -/
structure Drift (P : BitVec 32 → Prop) (area : Array (BitVec 32)) (n : Nat) (B : ℚ) (k : Nat) (s : MWM2 (BitVec 32))
    (h : Option (Nat → BitVec 32)) : Prop where
  neq : s.tdl.n = n
  inv : ∃ g, Tdl.Inv area n g s.tdl ∧ (s.init = false → F32.Finite s.sum ∧
    |val s.sum - ∑ j ∈ Finset.range n, val (g j)| ≤ (k + 1) * (n * B / 4194304) ∧ (∀ j, P (g j)) ∧ h = some g)
  fresh : s.init = true → h = none

theorem Drift.reset {P : BitVec 32 → Prop} {area : Array (BitVec 32)} {n : Nat} {B : ℚ} {k : Nat} {s : MWM2 (BitVec 32)}
    {h : Option (Nat → BitVec 32)} (d : Drift P area n B k s h) : Drift P area n B k { s with init := true } none := by
  obtain ⟨h1, ⟨g, h2, _⟩, _⟩ := d
  exact ⟨h1, ⟨g, h2, by simp⟩, by simp⟩

theorem drift_setup (P : BitVec 32 → Prop) (s : MWM2 (BitVec 32)) (area : Array (BitVec 32)) (n : Nat) (hn : 0 < n)
    (hs : n ≤ area.size) (B : ℚ) (k : Nat) :
    ∃ s0, s.setup (some area) n = .ok (s0, true) ∧ Drift P area n B k s0 none := by
  obtain ⟨t0, ht0, _, hinv⟩ := Tdl.inv_setup s.tdl.undef area n (Arith.lit 0) hn hs
  refine ⟨{ s with tdl := t0, init := true }, ?_, ⟨hinv.neq, ⟨_, hinv, by simp⟩, by simp⟩⟩
  unfold MWM2.setup
  simp only [if_pos hn, ht0, Out.bind_ok, Out.pure_eq]

theorem sum_abs_le {n : Nat} {B : ℚ} {g : Nat → ℚ} (h : ∀ j, |g j| ≤ B) : |∑ j ∈ Finset.range n, g j| ≤ n * B := by
  refine (Finset.abs_sum_le_sum_abs _ _).trans ?_
  rw [← sum_const]
  exact Finset.sum_le_sum fun j _ => h j

theorem drift_step {P : BitVec 32 → Prop} {area : Array (BitVec 32)} {n : Nat} {B : ℚ} {k : Nat} {s : MWM2 (BitVec 32)}
    {h : Option (Nat → BitVec 32)} (hn : 0 < n) (hn2 : n ≤ 16777216) (hB : 1e-30 ≤ B) (hB2 : n * B ≤ 1e38)
    (hP : ∀ x, P x → F32.Finite x ∧ |val x| ≤ B) (hk : k + 2 ≤ 2097152) (d : Drift P area n B k s h) (x : BitVec 32) (hx : P x) :
    ∃ s' y, s.smooth x = .ok (s', y) ∧ F32.Finite y ∧
      |val y - mean n (fun j => val (push x (h.getD fun _ => x) j))| ≤ (k + 3) * (B / 4194304) ∧
      (∀ j, P (push x (h.getD fun _ => x) j)) ∧
      Drift P area n B (k + 1) s' (some (push x (h.getD fun _ => x))) := by
  obtain ⟨h1, ⟨g, h2, h3⟩, h4⟩ := d
  have hln := litNat hn2
  have hnq : (1 : ℚ) ≤ n := by exact_mod_cast hn
  have B0 : 0 < B := lt_of_lt_of_le (by norm_num) hB
  have nB : B ≤ n * B := by nlinarith
  have hkq : (k : ℚ) + 2 ≤ 2097152 := by exact_mod_cast hk
  have k0 : (0 : ℚ) ≤ k := by positivity
  obtain ⟨fx, bx⟩ := hP x hx
  -- state and history after the optional flush
  have hf : ∃ u g', (if s.init then do
        let t ← Tdl.flush s.tdl x
        pure { s with tdl := t, sum := x *. Arith.lit (s.tdl.n : ℚ), init := false }
      else pure s : Out (MWM2 (BitVec 32))) = .ok u ∧ u.tdl.n = n ∧ u.init = false ∧
      Tdl.Inv area n g' u.tdl ∧ F32.Finite u.sum ∧
      |val u.sum - ∑ j ∈ Finset.range n, val (g' j)| ≤ (k + 1) * (n * B / 4194304) ∧ (∀ j, P (g' j)) ∧
      g' = h.getD (fun _ => x) := by
    cases hi : s.init with
    | true =>
      obtain ⟨u, k1, _, k3⟩ := Tdl.inv_step h2 (.flush x)
      have k1' : Tdl.flush s.tdl x = .ok u := k1
      have hxn : |val x * n| ≤ n * B := by
        rw [abs_mul, abs_of_nonneg (by linarith : (0 : ℚ) ≤ n), _root_.mul_comm]
        exact mul_le_mul_of_nonneg_left bx (by linarith)
      obtain ⟨f1, e1⟩ := rnd_mag (s := (neg x ^^ neg (F32.lit (n : ℚ)))) (hxn.trans (hB2.trans (by norm_num)))
      refine ⟨{ s with tdl := u, sum := x *. Arith.lit (s.tdl.n : ℚ), init := false }, _, ?_, k3.neq,
        rfl, k3, ?_, ?_, fun _ => hx, ?_⟩
      · simp only [if_true, k1', Out.bind_ok, Out.pure_eq]
      · rw [h1]
        change F32.Finite (F32.mul x (F32.lit (n : ℚ)))
        rw [mul_fin fx hln.1, hln.2]; exact f1
      · rw [h1]
        change |val (F32.mul x (F32.lit (n : ℚ))) - ∑ _j ∈ Finset.range n, val x| ≤ _
        rw [mul_fin fx hln.1, hln.2, sum_const, _root_.mul_comm (n : ℚ)]
        refine e1.trans ?_
        have : n * B / 4194304 ≤ (k + 1) * (n * B / 4194304) := by
          have : 0 ≤ n * B / 4194304 := by positivity
          nlinarith
        refine le_trans ?_ this
        generalize |val x * (n : ℚ)| = q at hxn ⊢
        norm_num at hB ⊢
        linarith
      · rw [h4 hi]; rfl
    | false =>
      obtain ⟨k0, k1, k2, k3⟩ := h3 hi
      exact ⟨s, g, rfl, h1, hi, h2, k0, k1, k2, by rw [k3]; rfl⟩
  obtain ⟨u, g', e1, e2, e3, e4, e5, e6, e7, e8⟩ := hf
  obtain ⟨t', k1, _, k3⟩ := Tdl.inv_insert e4 x
  have hst : Tdl.Spec.step g' (.insert x) = push x g' := by funext i; cases i <;> rfl
  rw [hst, e8] at k3
  have hq : ∀ j, P (push x g' j) := by
    intro j
    cases j with
    | zero => exact hx
    | succ j => exact e7 j
  obtain ⟨fo, bo⟩ := hP _ (e7 (n - 1))
  have hE : ((k : ℚ) + 1) * (n * B / 4194304) ≤ n * B / 2 := by
    have : 0 ≤ n * B := by positivity
    nlinarith
  -- difference of newest and oldest sample
  have bd : |val x - val (g' (n - 1))| ≤ 2 * B := (abs_sub_le' bx bo).trans (by linarith)
  obtain ⟨f1, r1⟩ := rnd_mag (s := (neg x && !neg (g' (n - 1)))) (bd.trans (show 2 * B ≤ 3.4e38 by norm_num at hB2 ⊢; linarith))
  have fd : F32.Finite (F32.sub x (g' (n - 1))) := by rw [sub_fin fx fo]; exact f1
  have rd : |val (F32.sub x (g' (n - 1))) - (val x - val (g' (n - 1)))| ≤ 2 * B / 16777216 + 1e-45 := by
    rw [sub_fin fx fo]; refine r1.trans ?_; linarith
  have hsum : ∑ j ∈ Finset.range n, val (push x g' j) =
      (∑ j ∈ Finset.range n, val (g' j)) + (val x - val (g' (n - 1))) := by
    rw [← sum_push n hn (val x) (fun j => val (g' j))]
    refine Finset.sum_congr rfl fun j _ => ?_
    cases j <;> rfl
  have hS : |∑ j ∈ Finset.range n, val (push x g' j)| ≤ n * B := sum_abs_le fun j => (hP _ (hq j)).2
  have hT : |val u.sum + val (F32.sub x (g' (n - 1))) - ∑ j ∈ Finset.range n, val (push x g' j)| ≤
      (k + 1) * (n * B / 4194304) + (2 * B / 16777216 + 1e-45) := by
    rw [hsum]
    have := abs_add_le' e6 rd
    refine le_trans (le_of_eq ?_) this
    congr 1; ring
  have hU : |val u.sum + val (F32.sub x (g' (n - 1)))| ≤ 16 / 10 * (n * B) := by
    have := abs_add_le' hT hS
    rw [sub_add_cancel] at this
    refine this.trans ?_
    norm_num at hB hE ⊢
    linarith
  obtain ⟨f2, r2⟩ := rnd_mag (s := (neg u.sum && neg (F32.sub x (g' (n - 1)))))
    (hU.trans (show 16 / 10 * (n * B) ≤ 3.4e38 by norm_num at hB2 ⊢; linarith))
  have fs : F32.Finite (F32.add u.sum (F32.sub x (g' (n - 1)))) := by rw [add_fin e5 fd]; exact f2
  have rs : |val (F32.add u.sum (F32.sub x (g' (n - 1)))) - ∑ j ∈ Finset.range n, val (push x g' j)| ≤
      ((k + 1 : ℕ) + 1) * (n * B / 4194304) := by
    have : |val (F32.add u.sum (F32.sub x (g' (n - 1)))) - (val u.sum + val (F32.sub x (g' (n - 1))))| ≤
        16 / 10 * (n * B) / 16777216 + 1e-45 := by
      rw [add_fin e5 fd]; refine r2.trans ?_; linarith
    have := abs_add_le' this hT
    rw [sub_add_sub_cancel] at this
    refine this.trans ?_
    push_cast
    norm_num at hB ⊢
    linarith
  have hn0 : val (F32.lit (n : ℚ)) ≠ 0 := by
    rw [hln.2]; exact_mod_cast hn.ne'
  have n0 : (0 : ℚ) < n := by linarith
  have hm : |val (F32.add u.sum (F32.sub x (g' (n - 1)))) / n - mean n (fun j => val (push x g' j))| ≤ (k + 2) * (B / 4194304) := by
    rw [mean, ← sub_div, abs_div, abs_of_pos n0, div_le_iff₀ n0]
    refine rs.trans (le_of_eq ?_)
    push_cast; ring
  have hmB : |mean n (fun j => val (push x g' j))| ≤ B := by
    rw [mean, abs_div, abs_of_pos n0, div_le_iff₀ n0, _root_.mul_comm B]
    exact hS
  have hk2 : ((k : ℚ) + 2) * (B / 4194304) ≤ B / 2 := by nlinarith
  have hqB : |val (F32.add u.sum (F32.sub x (g' (n - 1)))) / n| ≤ 3 / 2 * B := by
    have := abs_add_le' hm hmB
    rw [sub_add_cancel] at this
    linarith
  obtain ⟨f3, r3⟩ := rnd_mag (s := (neg (F32.add u.sum (F32.sub x (g' (n - 1)))) ^^ neg (F32.lit (n : ℚ))))
    (hqB.trans (show 3 / 2 * B ≤ 3.4e38 by norm_num at hB2 ⊢; linarith))
  refine ⟨{ u with tdl := t', sum := F32.add u.sum (F32.sub x (g' (n - 1))) },
    F32.div (F32.add u.sum (F32.sub x (g' (n - 1)))) (F32.lit (n : ℚ)), ?_, ?_, ?_, ?_, ?_⟩
  · unfold MWM2.smooth
    dsimp only
    rw [e1]
    simp only [Out.bind_ok, Tdl.oldest_of_inv e4, k1, Out.pure_eq, h1]
    rfl
  · rw [div_fin fs hln.1 hn0, hln.2]; exact f3
  · rw [← e8, div_fin fs hln.1 hn0, hln.2]
    have := abs_add_le' r3 hm
    rw [sub_add_sub_cancel] at this
    refine this.trans ?_
    norm_num at hB ⊢
    linarith
  · rw [← e8]; exact hq
  · rw [← e8] at k3 ⊢
    exact ⟨k3.neq, ⟨_, k3, fun _ => ⟨fs, rs, hq, rfl⟩⟩, by simp [e3]⟩

/-- `y` is within `E` of the mean of the last `n` samples. Not a definition of the repository. -/
def NearMean (n : Nat) (E : ℚ) (h : Nat → BitVec 32) (y : BitVec 32) : Prop :=
  F32.Finite y ∧ |val y - mean n (fun j => val (h j))| ≤ E

/-- **C136** (partial: arbitrary samples, runs of bounded length). In binary32, when no sample exceeds `B` in magnitude, the
outputs of `smootherMWM2` during `N` calls differ from the mean of the last `n` samples by at most `(N + 2) B / 2^22`: the error of
the running sum grows at most linearly with the number of calls, and `B` is the greatest sample ever seen, not the greatest in the window
(`C136_false`: it does not decay). -/
theorem C136_drift_partial (s : MWM2 (BitVec 32)) (area : Array (BitVec 32)) (n : Nat) (hn : 0 < n)
    (hs : n ≤ area.size) (hn2 : n ≤ 16777216) (B : ℚ) (hB : 1e-30 ≤ B) (hB2 : n * B ≤ 1e38) (N : Nat) (hN : N ≤ 2097151) :
    ∃ s0, s.setup (some area) n = .ok (s0, true) ∧ ∀ es : List (Option (BitVec 32)), es.length ≤ N →
      (∀ x, some x ∈ es → F32.Finite x ∧ |val x| ≤ B) →
      WindowRel (fun s => { s with init := true }) MWM2.smooth (NearMean n ((N + 2) * (B / 4194304))) s0 none es := by
  obtain ⟨s0, h0, d0⟩ := drift_setup (fun x => F32.Finite x ∧ |val x| ≤ B) s area n hn hs B 0
  refine ⟨s0, h0, fun es hl hes => ?_⟩
  have key : ∀ (es : List (Option (BitVec 32))) (k : Nat) (s : MWM2 (BitVec 32)) (h : Option (Nat → BitVec 32)),
      k + es.length ≤ N → (∀ x, some x ∈ es → F32.Finite x ∧ |val x| ≤ B) →
      Drift (fun x => F32.Finite x ∧ |val x| ≤ B) area n B k s h →
      WindowRel (fun s => { s with init := true }) MWM2.smooth (NearMean n ((N + 2) * (B / 4194304))) s h es := by
    intro es
    induction es with
    | nil => intros; trivial
    | cons e es ih =>
      intro k s h hk he d
      have he' : ∀ x, some x ∈ es → F32.Finite x ∧ |val x| ≤ B := fun x hx => he x (List.mem_cons_of_mem _ hx)
      rw [List.length_cons] at hk
      cases e with
      | none => exact ih k _ _ (by omega) he' d.reset
      | some x =>
        obtain ⟨s', y, q1, q2, q3, q4, q5⟩ := drift_step hn hn2 hB hB2 (fun _ h => h) (by omega) d x (he x List.mem_cons_self)
        refine ⟨s', y, q1, ⟨q2, q3.trans ?_⟩, ih (k + 1) _ _ (by omega) he' q5⟩
        have : (k : ℚ) + 1 ≤ N := by exact_mod_cast (by omega : k + 1 ≤ N)
        have B0 : 0 ≤ B / 4194304 := by
          have : 0 < B := lt_of_lt_of_le (by norm_num) hB
          positivity
        exact mul_le_mul_of_nonneg_right (by linarith) B0
  exact key es 0 s0 none (by omega) hes d0

-- C136: the error bound for a window of 8 cells, samples up to 1000, 10000 calls
example : F32.Finite (F32.lit (123456 / 1000)) ∧ |val (F32.lit (123456 / 1000))| ≤ 1000 ∧ (8 : ℕ) * (1000 : ℚ) ≤ 1e38 ∧
    ((10000 : ℕ) + 2 : ℚ) * (1000 / 4194304) ≤ 2.4 := by
  refine ⟨by decide +kernel, by decide +kernel, by norm_num, by norm_num⟩

end Verif.Smoother
