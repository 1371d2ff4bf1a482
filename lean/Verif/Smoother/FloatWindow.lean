import Verif.Smoother.Float

/-!
# The moving average in binary32 (C136)
-/

namespace Verif.Smoother

open Arith F32 Ltisys

/-- A sequence of calls (`none`: `reset`, `some x`: `smooth( x )`) never has undefined behaviour and
every output `y` satisfies `Q h y` where `h` is the history of the samples since the last reset,
newest first, the first sample after the reset standing in for the samples before it.
Not a definition of the repository. -/
def WindowRel {S F : Type} (reset : S → S) (smooth : S → F → Out (S × F)) (Q : (Nat → F) → F → Prop) :
    S → Option (Nat → F) → List (Option F) → Prop
  | _, _, [] => True
  | s, _, none :: es => WindowRel reset smooth Q (reset s) none es
  | s, h, some x :: es =>
    ∃ s' y, smooth s x = .ok (s', y) ∧ Q (push x (h.getD fun _ => x)) y ∧
      WindowRel reset smooth Q s' (some (push x (h.getD fun _ => x))) es

theorem windowRel_of_inv {S F : Type} (reset : S → S) (smooth : S → F → Out (S × F))
    (Q : (Nat → F) → F → Prop) (L : F → Prop) (I : S → Option (Nat → F) → Prop)
    (hreset : ∀ s h, I s h → I (reset s) none)
    (hsmooth : ∀ s h x, L x → I s h → ∃ s' y, smooth s x = .ok (s', y) ∧
      Q (push x (h.getD fun _ => x)) y ∧ I s' (some (push x (h.getD fun _ => x))))
    (es : List (Option F)) (hes : ∀ x, some x ∈ es → L x) (s : S) (h : Option (Nat → F))
    (hi : I s h) : WindowRel reset smooth Q s h es := by
  induction es generalizing s h with
  | nil => trivial
  | cons e es ih =>
    have ih := ih fun x hx => hes x (List.mem_cons_of_mem _ hx)
    cases e with
    | none => exact ih _ _ (hreset s h hi)
    | some x =>
      obtain ⟨s', y, h1, h2, h3⟩ := hsmooth s h x (hes x List.mem_cons_self) hi
      exact ⟨s', y, h1, h2, ih _ _ h3⟩

/-- A sample quantised in steps of `2^t`, at most `K` steps in magnitude (the output of an
analog-to-digital converter, for instance). Not a definition of the repository. -/
def Quant (t : ℤ) (K : ℤ) (x : BitVec 32) : Prop :=
  F32.Finite x ∧ ∃ k : ℤ, |k| ≤ K ∧ val x = k * 2 ^ t

/-- `y` is a float nearest to the mean of the last `n` samples. Not a definition of the repository. -/
def NearestMean (n : Nat) (h : Nat → BitVec 32) (y : BitVec 32) : Prop :=
  F32.Finite y ∧ ∀ b : BitVec 32, |val y - mean n (fun j => val (h j))| ≤
    |val b - mean n (fun j => val (h j))|

theorem quant_sum {t K : ℤ} {h : Nat → BitVec 32} {n : Nat} (hq : ∀ j < n, Quant t K (h j)) :
    ∃ k : ℤ, |k| ≤ n * K ∧ ∑ j ∈ Finset.range n, val (h j) = k * 2 ^ t := by
  induction n with
  | zero => exact ⟨0, by simp, by simp⟩
  | succ n ih =>
    obtain ⟨k, h1, h2⟩ := ih fun j hj => hq j (by omega)
    obtain ⟨_, k', h3, h4⟩ := hq n (by omega)
    refine ⟨k + k', ?_, ?_⟩
    · have := abs_add_le k k'
      push_cast
      linarith
    · rw [Finset.sum_range_succ, h2, h4]; push_cast; ring

theorem litNat {n : Nat} (h : n ≤ 16777216) : F32.Finite (F32.lit n) ∧ val (F32.lit n) = n := by
  have := rnd_int false (k := n) (by rw [abs_of_nonneg (by omega)]; omega)
  exact_mod_cast this

/-- **C136** (partial: quantised samples). In binary32, when all samples are multiples of some `2^t`,
at most `K` steps in magnitude, with `n K <= 2^24` and `2 K <= 2^24`, every output of `smootherMWM2`
is the correctly rounded mean of the last `n` samples, however long the filter runs: the running sum
accumulates no error. -/
theorem C136_mwm2_partial (s : MWM2 (BitVec 32)) (area : Array (BitVec 32)) (n : Nat) (hn : 0 < n)
    (hs : n ≤ area.size) (t K : ℤ) (ht : -149 ≤ t) (ht2 : t ≤ 103) (hK : n * K ≤ 16777216)
    (hK2 : 2 * K ≤ 16777216) (hn2 : n ≤ 16777216) :
    ∃ s0, s.setup (some area) n = .ok (s0, true) ∧ ∀ es : List (Option (BitVec 32)),
      (∀ x, some x ∈ es → Quant t K x) →
      WindowRel (fun s => { s with init := true }) MWM2.smooth (NearestMean n) s0 none es := by
  obtain ⟨t0, ht0, _, hinv⟩ := Tdl.inv_setup s.tdl.undef area n (Arith.lit 0) hn hs
  refine ⟨{ s with tdl := t0, init := true }, ?_, fun es hes => ?_⟩
  · unfold MWM2.setup
    simp only [if_pos hn, ht0, Out.bind_ok, Out.pure_eq]
  · refine windowRel_of_inv _ _ _ (Quant t K) (fun (s : MWM2 (BitVec 32)) h => (s.tdl.n = n ∧
        (∃ g, Tdl.Inv area n g s.tdl ∧ (s.init = false → F32.Finite s.sum ∧
          val s.sum = ∑ j ∈ Finset.range n, val (g j) ∧ (∀ j, Quant t K (g j)) ∧
          h = some g))) ∧ (s.init = true → h = none)) ?_ ?_ es hes _ _ ?_
    · rintro s h ⟨⟨h1, g, h2, _⟩, _⟩
      exact ⟨⟨h1, g, h2, by simp⟩, by simp⟩
    · rintro s h x hx ⟨⟨h1, g, h2, h3⟩, h4⟩
      have hln := litNat hn2
      -- state and history after the optional flush
      have hf : ∃ u g', (if s.init then do
            let t ← Tdl.flush s.tdl x
            pure { s with tdl := t, sum := x *. Arith.lit (s.tdl.n : ℚ), init := false }
          else pure s : Out (MWM2 (BitVec 32))) = .ok u ∧ u.tdl.n = n ∧ u.init = false ∧
          Tdl.Inv area n g' u.tdl ∧ F32.Finite u.sum ∧
          val u.sum = ∑ j ∈ Finset.range n, val (g' j) ∧ (∀ j, Quant t K (g' j)) ∧
          g' = h.getD (fun _ => x) := by
        cases hi : s.init with
        | true =>
          obtain ⟨u, k1, _, k3⟩ := Tdl.inv_step h2 (.flush x)
          have k1' : Tdl.flush s.tdl x = .ok u := k1
          obtain ⟨fx, k, hk, ek⟩ := hx
          have hsum : F32.Finite (F32.mul x (F32.lit (n : ℚ))) ∧
              val (F32.mul x (F32.lit (n : ℚ))) = n * val x := by
            rw [mul_fin fx hln.1, hln.2, ek]
            have := rnd_dyadic (neg x ^^ neg (F32.lit (n : ℚ))) (k := n * k) (t := t) ht ht2 (by
              rw [abs_mul, abs_of_nonneg (by omega : (0 : ℤ) ≤ n)]
              have : (n : ℤ) * |k| ≤ n * K := mul_le_mul_of_nonneg_left hk (by omega)
              omega)
            rw [show (k : ℚ) * 2 ^ t * n = ((n * k : ℤ) : ℚ) * 2 ^ t by push_cast; ring]
            refine ⟨this.1, this.2.trans ?_⟩
            push_cast; ring
          refine ⟨{ s with tdl := u, sum := x *. Arith.lit (s.tdl.n : ℚ), init := false }, _, ?_, k3.neq,
            rfl, k3, ?_, ?_, fun _ => ⟨fx, k, hk, ek⟩, ?_⟩
          · simp only [if_true, k1', Out.bind_ok, Out.pure_eq]
          · rw [h1]; exact hsum.1
          · rw [h1]
            refine hsum.2.trans ?_
            exact (sum_const n (val x)).symm
          · rw [h4 hi]; rfl
        | false =>
          obtain ⟨k0, k1, k2, k3⟩ := h3 hi
          exact ⟨s, g, rfl, h1, hi, h2, k0, k1, k2, by rw [k3]; rfl⟩
      obtain ⟨u, g', e1, e2, e3, e4, e5, e6, e7, e8⟩ := hf
      obtain ⟨t', k1, _, k3⟩ := Tdl.inv_insert e4 x
      have hst : Tdl.Spec.step g' (.insert x) = push x g' := by funext i; cases i <;> rfl
      rw [hst, e8] at k3
      have hq : ∀ j, Quant t K (push x g' j) := by
        intro j
        cases j with
        | zero => exact hx
        | succ j => exact e7 j
      -- difference of newest and oldest sample
      have hd : F32.Finite (F32.sub x (g' (n - 1))) ∧
          val (F32.sub x (g' (n - 1))) = val x - val (g' (n - 1)) := by
        obtain ⟨fx, k, hk, ek⟩ := hx
        obtain ⟨fy, k', hk', ek'⟩ := e7 (n - 1)
        rw [sub_fin fx fy]
        have := rnd_dyadic (neg x && !neg (g' (n - 1))) (k := k - k') (t := t) ht ht2 (by
          have := abs_sub k k'
          omega)
        have e : val x - val (g' (n - 1)) = ((k - k' : ℤ) : ℚ) * 2 ^ t := by
          rw [ek, ek']; push_cast; ring
        rw [e]
        exact this
      have hsum : ∑ j ∈ Finset.range n, val (push x g' j) =
          (∑ j ∈ Finset.range n, val (g' j)) + (val x - val (g' (n - 1))) := by
        rw [← sum_push n hn (val x) (fun j => val (g' j))]
        refine Finset.sum_congr rfl fun j _ => ?_
        cases j <;> rfl
      have hadd : F32.Finite (F32.add u.sum (F32.sub x (g' (n - 1)))) ∧
          val (F32.add u.sum (F32.sub x (g' (n - 1)))) = ∑ j ∈ Finset.range n, val (push x g' j) := by
        rw [add_fin e5 hd.1, hd.2, e6, ← hsum]
        obtain ⟨k, hk, ek⟩ := quant_sum (n := n) fun j _ => hq j
        rw [ek]
        exact rnd_dyadic _ ht ht2 (by omega)
      refine ⟨{ u with tdl := t', sum := F32.add u.sum (F32.sub x (g' (n - 1))) },
        F32.div (F32.add u.sum (F32.sub x (g' (n - 1)))) (F32.lit (n : ℚ)), ?_, ?_, ?_⟩
      · unfold MWM2.smooth
        dsimp only
        rw [e1]
        simp only [Out.bind_ok, Tdl.oldest_of_inv e4, k1, Out.pure_eq, h1]
        rfl
      · rw [← e8]
        have hn0 : val (F32.lit (n : ℚ)) ≠ 0 := by
          rw [hln.2]; exact_mod_cast hn.ne'
        rw [div_fin hadd.1 hln.1 hn0, hadd.2, hln.2]
        have hm : (∑ j ∈ Finset.range n, val (push x g' j)) / n = mean n (fun j => val (push x g' j)) := rfl
        rw [hm]
        have fm : ∀ s : Bool, F32.Finite (rnd s (mean n fun j => val (push x g' j))) := by
          intro s
          obtain ⟨k, hk, ek⟩ := quant_sum (n := n) fun j _ => hq j
          apply rnd_finite
          unfold mean
          have hnq : (1 : ℚ) ≤ n := by exact_mod_cast hn
          rw [abs_div, abs_of_pos (by linarith : (0 : ℚ) < n)]
          refine (div_le_self (abs_nonneg _) hnq).trans ?_
          rw [ek, abs_mul, abs_of_pos (two_zpow_pos t)]
          have h1 : |(k : ℚ)| ≤ 16777216 := by exact_mod_cast hk.trans hK
          have h2 : (16777216 : ℚ) * 2 ^ t = 2 ^ (24 + t) := by
            rw [zpow_add₀ (by norm_num)]; norm_num
          calc |(k : ℚ)| * 2 ^ t ≤ 16777216 * 2 ^ t :=
                mul_le_mul_of_nonneg_right h1 (two_zpow_pos t).le
            _ = 2 ^ (24 + t) := h2
            _ ≤ _ := zpow_le_iff.2 (by omega)
        exact ⟨fm _, fun b => rnd_nearest (fm _) b⟩
      · rw [← e8] at k3 ⊢
        exact ⟨⟨k3.neq, _, k3, fun _ => ⟨hadd.1, hadd.2, hq, rfl⟩⟩, by simp [e3]⟩
    · exact ⟨⟨hinv.neq, _, hinv, by simp⟩, by simp⟩

-- C136: samples in steps of 1/4 (`t = -2`), window of 3 cells
example : Quant (-2) 4000 (F32.lit (1 / 4)) ∧ Quant (-2) 4000 (F32.lit 1000) :=
  ⟨⟨by decide +kernel, 1, by decide, by decide +kernel⟩,
    ⟨by decide +kernel, 4000, by decide, by decide +kernel⟩⟩
example : (do
    let (s, _) ← (⟨⟨#[], 0, 0, 0, 0⟩, 0, true⟩ : MWM2 (BitVec 32)).setup (some #[0, 0, 0]) 3
    let (s, a) ← s.smooth (F32.lit (1 / 4))
    let (s, b) ← s.smooth (F32.lit 1000)
    let (_, c) ← s.smooth (F32.lit (1 / 4))
    pure (a, b, c) : Out (BitVec 32 × BitVec 32 × BitVec 32)) =
      .ok (F32.lit (1 / 4), F32.lit (1000.5 / 3), F32.lit (1000.5 / 3)) := by decide +kernel

/-- The object of `C136_false` after `0.1F, 1e9F, 0.1F, 0.1F`. -/
def stuck (r : Nat) : MWM2 (BitVec 32) := ⟨⟨#[F32.lit (1 / 10), F32.lit (1 / 10)], 2, 1 - r, r, 0⟩, 0, false⟩

/-- `n` further calls `smooth( 0.1F )`. -/
def feed : Nat → MWM2 (BitVec 32) → Out (MWM2 (BitVec 32))
  | 0, s => .ok s
  | n + 1, s => do
    let (s, _) ← s.smooth (F32.lit (1 / 10))
    feed n s

/-- **C136 is false** for arbitrary samples. With a window of two cells, a single outlier `1e9F` in a
constant signal `0.1F` destroys the running sum: afterwards the window holds `0.1F, 0.1F`, but every
output is 0, for ever. -/
theorem C136_false : (do
      let (s, _) ← (⟨⟨#[], 0, 0, 0, 0⟩, 0, true⟩ : MWM2 (BitVec 32)).setup (some #[0, 0]) 2
      let (s, _) ← s.smooth (F32.lit (1 / 10))
      let (s, _) ← s.smooth (F32.lit 1000000000)
      let (s, _) ← s.smooth (F32.lit (1 / 10))
      s.smooth (F32.lit (1 / 10))) = .ok (stuck 0, 0#32) ∧
    ∀ n, ∃ s t, feed n (stuck 0) = .ok s ∧ s.smooth (F32.lit (1 / 10)) = .ok (t, 0#32) := by
  refine ⟨by decide +kernel, ?_⟩
  have h0 : (stuck 0).smooth (F32.lit (1 / 10)) = .ok (stuck 1, 0#32) := by decide +kernel
  have h1 : (stuck 1).smooth (F32.lit (1 / 10)) = .ok (stuck 0, 0#32) := by decide +kernel
  have key : ∀ n, (∃ s t, feed n (stuck 0) = .ok s ∧ s.smooth (F32.lit (1 / 10)) = .ok (t, 0#32)) ∧
      ∃ s t, feed n (stuck 1) = .ok s ∧ s.smooth (F32.lit (1 / 10)) = .ok (t, 0#32) := by
    intro n
    induction n with
    | zero => exact ⟨⟨_, _, rfl, h0⟩, ⟨_, _, rfl, h1⟩⟩
    | succ n ih =>
      refine ⟨?_, ?_⟩
      · obtain ⟨s, t, e1, e2⟩ := ih.2
        exact ⟨s, t, by unfold feed; rw [h0]; exact e1, e2⟩
      · obtain ⟨s, t, e1, e2⟩ := ih.1
        exact ⟨s, t, by unfold feed; rw [h1]; exact e1, e2⟩
  exact fun n => (key n).1

end Verif.Smoother
