import Verif.Ltisys.Settle
import Mathlib.Analysis.Calculus.Deriv.MeanValue
import Mathlib.Analysis.SpecialFunctions.ExpDeriv

/-!
# Simulated continuous systems converge to the solution of their differential equation (C165, exact arithmetic over the reals)
-/

namespace Verif.Ltisys

open Arith

theorem weights_sum {m : Numa.IMethod} (hm : m ≠ .other) :
    (weights m : ℝ × ℝ × ℝ).1 + (weights m).2.1 + (weights m).2.2 = 1 ∧
    |(weights m : ℝ × ℝ × ℝ).1| + |(weights m).2.1| + |(weights m).2.2| ≤ 7 / 6 := by
  cases m <;> first | exact absurd rfl hm | (norm_num [weights, abs_of_pos, abs_of_neg])

/-- The bound on the error after `k` steps. Not a definition of the repository. -/
noncomputable def errB (dt L M Λ : ℝ) (k : ℕ) : ℝ :=
  (2 * M * dt * (min k 2 : ℕ) + 4 * L * dt ^ 2 * k) * (1 + 7 / 6 * dt * Λ) ^ k

section

variable {dt L M Λ : ℝ}

theorem errB_nonneg (hdt : 0 ≤ dt) (hL : 0 ≤ L) (hM : 0 ≤ M) (hΛ : 0 ≤ Λ) (k : ℕ) : 0 ≤ errB dt L M Λ k := by
  unfold errB; positivity

theorem errB_succ (hdt : 0 ≤ dt) (hL : 0 ≤ L) (hM : 0 ≤ M) (hΛ : 0 ≤ Λ) (k : ℕ) :
    errB dt L M Λ k + dt * (7 / 6 * (Λ * errB dt L M Λ k + (3 * L * dt + if k < 2 then M else 0))) ≤ errB dt L M Λ (k + 1) := by
  unfold errB
  have q0 : 0 ≤ 7 / 6 * dt * Λ := by positivity
  have p1 : 1 ≤ (1 + 7 / 6 * dt * Λ) ^ (k + 1) := one_le_pow₀ (by linarith)
  have hm : ((min (k + 1) 2 : ℕ) : ℝ) = (min k 2 : ℕ) + if k < 2 then 1 else 0 := by
    by_cases h : k < 2
    · rw [if_pos h, min_eq_left (by omega), min_eq_left (by omega), Nat.cast_succ]
    · rw [if_neg h, min_eq_right (by omega), min_eq_right (by omega), add_zero]
  have hi : (if k < 2 then M else 0) = M * if k < 2 then (1 : ℝ) else 0 := by split <;> simp
  rw [hm, hi, Nat.cast_succ, pow_succ (1 + 7 / 6 * dt * Λ) k]
  rw [pow_succ (1 + 7 / 6 * dt * Λ) k] at p1
  have i0 : (0 : ℝ) ≤ if k < 2 then (1 : ℝ) else 0 := by split <;> norm_num
  generalize (if k < 2 then (1 : ℝ) else 0) = i at *
  generalize (1 + 7 / 6 * dt * Λ) ^ k = P at *
  generalize ((min k 2 : ℕ) : ℝ) = a at *
  have e1 : 0 ≤ (2 * M * dt * i + 4 * L * dt ^ 2) * (P * (1 + 7 / 6 * dt * Λ) - 1) :=
    mul_nonneg (by positivity) (by linarith)
  have e2 : 0 ≤ L * dt ^ 2 := by positivity
  have e3 : 0 ≤ M * dt * i := by positivity
  nlinarith

theorem errB_mono (hdt : 0 ≤ dt) (hL : 0 ≤ L) (hM : 0 ≤ M) (hΛ : 0 ≤ Λ) (k : ℕ) : errB dt L M Λ k ≤ errB dt L M Λ (k + 1) := by
  have h := errB_succ hdt hL hM hΛ k
  have p : 0 ≤ dt * (7 / 6 * (Λ * errB dt L M Λ k + (3 * L * dt + if k < 2 then M else 0))) := by
    have := errB_nonneg hdt hL hM hΛ k
    have i0 : (0 : ℝ) ≤ if k < 2 then M else 0 := by split <;> linarith
    positivity
  linarith

theorem errB_le (hdt : 0 ≤ dt) (hL : 0 ≤ L) (hM : 0 ≤ M) (hΛ : 0 ≤ Λ) {T : ℝ} (k : ℕ) (hk : k * dt ≤ T) :
    errB dt L M Λ k ≤ dt * (4 * M + 4 * L * T) * Real.exp (7 / 6 * Λ * T) := by
  unfold errB
  have h1 : (1 + 7 / 6 * dt * Λ) ^ k ≤ Real.exp (7 / 6 * Λ * T) := by
    have : 1 + 7 / 6 * dt * Λ ≤ Real.exp (7 / 6 * dt * Λ) := by have := Real.add_one_le_exp (7 / 6 * dt * Λ); linarith
    refine (pow_le_pow_left₀ (by positivity) this k).trans ?_
    rw [← Real.exp_nat_mul]
    refine Real.exp_le_exp.2 ?_
    have := mul_le_mul_of_nonneg_left hk hΛ
    nlinarith
  refine mul_le_mul ?_ h1 (by positivity) ?_
  · have h2 : ((min k 2 : ℕ) : ℝ) ≤ 2 := by exact_mod_cast min_le_right k 2
    have h3 := mul_le_mul_of_nonneg_left h2 (show 0 ≤ 2 * M * dt by positivity)
    have h4 := mul_le_mul_of_nonneg_left hk (show 0 ≤ 4 * L * dt by positivity)
    nlinarith
  · have : 0 ≤ T := (by positivity : (0 : ℝ) ≤ k * dt).trans hk
    positivity

/-- What is known of the last (`j = 1`) and second last (`j = 2`) input of an integrator after `k` steps. -/
def Hist (S : ℝ → ℝ) (dt : ℝ) (e : ℝ) (k j : ℕ) (h : ℝ) : Prop :=
  (k < j ∧ h = 0) ∨ (j ≤ k ∧ |h - S ((k - j : ℕ) * dt)| ≤ e)

theorem Hist.near {S : ℝ → ℝ} {e h T ξ : ℝ} {k j : ℕ} (H : Hist S dt e k j h) (hj : j ≤ 2) (he : 0 ≤ e) (hdt : 0 ≤ dt) (hL : 0 ≤ L)
    (hSL : ∀ s t, 0 ≤ s → s ≤ T → 0 ≤ t → t ≤ T → |S s - S t| ≤ L * |s - t|) (hSM : ∀ t, 0 ≤ t → t ≤ T → |S t| ≤ M)
    (h1 : k * dt ≤ ξ) (h2 : ξ ≤ (k + 1 : ℕ) * dt) (h3 : (k + 1 : ℕ) * dt ≤ T) :
    |h - S ξ| ≤ e + (3 * L * dt + if k < 2 then M else 0) := by
  have k0 : (0 : ℝ) ≤ k * dt := by positivity
  have hM : 0 ≤ M := (abs_nonneg _).trans (hSM ξ (by linarith) (by linarith))
  have i0 : (0 : ℝ) ≤ if k < 2 then M else 0 := by split <;> linarith
  rcases H with ⟨hk, rfl⟩ | ⟨hk, H⟩
  · rw [if_pos (by omega), zero_sub, abs_neg]
    have := hSM ξ (by linarith) (by linarith)
    have : 0 ≤ 3 * L * dt := by positivity
    linarith
  · have c : (((k - j : ℕ) : ℝ)) = k - j := by push_cast [Nat.cast_sub hk]; ring
    have j2 : (j : ℝ) ≤ 2 := by exact_mod_cast hj
    have j3 : (j : ℝ) * dt ≤ 2 * dt := mul_le_mul_of_nonneg_right j2 hdt
    have jp : 0 ≤ (j : ℝ) * dt := by positivity
    have m0 : (0 : ℝ) ≤ (k - j : ℕ) * dt := by positivity
    push_cast at h2 h3
    rw [c] at H m0
    have d := hSL ((k - j) * dt) ξ m0 (by nlinarith) (by linarith) (by linarith)
    have d2 : |(k - j : ℝ) * dt - ξ| ≤ 3 * dt := by rw [abs_le]; constructor <;> nlinarith
    have d3 := mul_le_mul_of_nonneg_left d2 hL
    have e1 : h - S ξ = (h - S ((k - j) * dt)) + (S ((k - j) * dt) - S ξ) := by ring
    rw [e1]
    refine (abs_add_le _ _).trans ?_
    linarith

/-- The chain of integrators follows the solution of the differential equation. -/
theorem chain_converges {w : ℝ × ℝ × ℝ} (w1 : w.1 + w.2.1 + w.2.2 = 1) (w2 : |w.1| + |w.2.1| + |w.2.2| ≤ 7 / 6) (n : ℕ) (a : ℕ → ℝ)
    (hdt : 0 ≤ dt) (hL : 0 ≤ L) (hM : 0 ≤ M) (hΛ1 : 1 ≤ Λ) (hΛ : ∑ j ∈ Finset.range n, |a (j + 1)| ≤ Λ) (U : ℝ → ℝ) (X S : ℕ → ℝ → ℝ)
    (T : ℝ) (hX0 : ∀ i, i < n → X i 0 = 0)
    (hX : ∀ i, i < n → ∀ k : ℕ, ((k + 1 : ℕ) : ℝ) * dt ≤ T → ∃ ξ, k * dt ≤ ξ ∧ ξ ≤ (k + 1 : ℕ) * dt ∧
      X i ((k + 1 : ℕ) * dt) - X i (k * dt) = dt * S i ξ)
    (hS0 : ∀ t, 0 ≤ t → t ≤ T → S 0 t = U t - ∑ j ∈ Finset.range n, a (j + 1) * X j t)
    (hS1 : ∀ i, i + 1 < n → ∀ t, 0 ≤ t → t ≤ T → S (i + 1) t = X i t)
    (hSL : ∀ i, i < n → ∀ s t, 0 ≤ s → s ≤ T → 0 ≤ t → t ≤ T → |S i s - S i t| ≤ L * |s - t|)
    (hSM : ∀ i, i < n → ∀ t, 0 ≤ t → t ≤ T → |S i t| ≤ M) (k : ℕ) (hk : k * dt ≤ T) :
    ∀ i, i < n → |(chainAt w dt n a (fun j : ℕ => U (j * dt)) k i).1 - X i (k * dt)| ≤ errB dt L M Λ k ∧
      Hist (S i) dt (Λ * errB dt L M Λ k) k 1 (chainAt w dt n a (fun j : ℕ => U (j * dt)) k i).2.1 ∧
      Hist (S i) dt (Λ * errB dt L M Λ k) k 2 (chainAt w dt n a (fun j : ℕ => U (j * dt)) k i).2.2 := by
  have hΛ0 : 0 ≤ Λ := by linarith
  induction k with
  | zero =>
    intro i hi
    refine ⟨?_, .inl ⟨by omega, rfl⟩, .inl ⟨by omega, rfl⟩⟩
    simp [chainAt, hX0 i hi, errB_nonneg hdt hL hM hΛ0 0]
  | succ k ih =>
    have hk' : (k : ℝ) * dt ≤ T := by push_cast at hk; nlinarith
    have k0 : (0 : ℝ) ≤ k * dt := by positivity
    have ih := ih hk'
    have B0 := errB_nonneg hdt hL hM hΛ0 k
    have Bs := errB_succ hdt hL hM hΛ0 k
    have Bm := errB_mono hdt hL hM hΛ0 k
    have LB : errB dt L M Λ k ≤ Λ * errB dt L M Λ k := by nlinarith
    have LBm := mul_le_mul_of_nonneg_left Bm hΛ0
    intro i hi
    -- the input of the integrator
    have hs : |(chainAt w dt n a (fun j : ℕ => U (j * dt)) (k + 1) i).2.1 - S i (k * dt)| ≤ Λ * errB dt L M Λ k := by
      cases i with
      | zero =>
        change |U (k * dt) - ∑ j ∈ Finset.range n, a (j + 1) * (chainAt w dt n a (fun j : ℕ => U (j * dt)) k j).1 - S 0 (k * dt)| ≤ _
        rw [hS0 _ k0 hk', sub_sub_sub_cancel_left, ← Finset.sum_sub_distrib]
        refine (Finset.abs_sum_le_sum_abs _ _).trans ?_
        have : ∀ j ∈ Finset.range n, |a (j + 1) * X j (k * dt) - a (j + 1) * (chainAt w dt n a (fun j : ℕ => U (j * dt)) k j).1| ≤
            |a (j + 1)| * errB dt L M Λ k := by
          intro j hj
          rw [← mul_sub, abs_mul, abs_sub_comm]
          exact mul_le_mul_of_nonneg_left (ih j (Finset.mem_range.1 hj)).1 (abs_nonneg _)
        refine (Finset.sum_le_sum this).trans ?_
        rw [← Finset.sum_mul]
        exact mul_le_mul_of_nonneg_right hΛ B0
      | succ i =>
        change |(chainAt w dt n a (fun j : ℕ => U (j * dt)) k i).1 - S (i + 1) (k * dt)| ≤ _
        rw [hS1 i hi _ k0 hk']
        exact (ih i (by omega)).1.trans LB
    obtain ⟨f1, f2, f3⟩ := ih i hi
    have g1 : (chainAt w dt n a (fun j : ℕ => U (j * dt)) (k + 1) i).1 = (chainAt w dt n a (fun j : ℕ => U (j * dt)) k i).1 +
      dt * (w.1 * (chainAt w dt n a (fun j : ℕ => U (j * dt)) (k + 1) i).2.1 + w.2.1 * (chainAt w dt n a (fun j : ℕ => U (j * dt)) k i).2.1 +
        w.2.2 * (chainAt w dt n a (fun j : ℕ => U (j * dt)) k i).2.2) := rfl
    have g2 : (chainAt w dt n a (fun j : ℕ => U (j * dt)) (k + 1) i).2.2 = (chainAt w dt n a (fun j : ℕ => U (j * dt)) k i).2.1 := rfl
    rw [g1, g2]
    generalize (chainAt w dt n a (fun j : ℕ => U (j * dt)) (k + 1) i).2.1 = s at *
    generalize (chainAt w dt n a (fun j : ℕ => U (j * dt)) k i).1 = x at *
    generalize (chainAt w dt n a (fun j : ℕ => U (j * dt)) k i).2.1 = h1 at *
    generalize (chainAt w dt n a (fun j : ℕ => U (j * dt)) k i).2.2 = h2 at *
    obtain ⟨ξ, x1, x2, x3⟩ := hX i hi k hk
    have LB0 : 0 ≤ Λ * errB dt L M Λ k := by positivity
    refine ⟨?_, .inr ⟨by omega, ?_⟩, ?_⟩
    · have n0 : |s - S i ξ| ≤ Λ * errB dt L M Λ k + (3 * L * dt + if k < 2 then M else 0) :=
        Hist.near (j := 0) (S := S i) (T := T) (.inr ⟨by omega, by simpa using hs⟩) (by omega) LB0 hdt hL (hSL i hi) (hSM i hi) x1 x2 hk
      have n1 := f2.near (T := T) (by omega) LB0 hdt hL (hSL i hi) (hSM i hi) x1 x2 hk
      have n2 := f3.near (T := T) (by omega) LB0 hdt hL (hSL i hi) (hSM i hi) x1 x2 hk
      generalize Λ * errB dt L M Λ k + (3 * L * dt + if k < 2 then M else 0) = R at *
      have e : x + dt * (w.1 * s + w.2.1 * h1 + w.2.2 * h2) - X i ((k + 1 : ℕ) * dt) =
          (x - X i (k * dt)) + dt * (w.1 * (s - S i ξ) + w.2.1 * (h1 - S i ξ) + w.2.2 * (h2 - S i ξ)) := by
        linear_combination -x3 + dt * S i ξ * w1
      rw [e]
      refine (abs_add_le _ _).trans ((add_le_add f1 ?_).trans Bs)
      rw [abs_mul, abs_of_nonneg hdt]
      refine mul_le_mul_of_nonneg_left ?_ hdt
      refine (abs_add_le _ _).trans ((add_le_add_left (abs_add_le _ _) _).trans ?_)
      rw [abs_mul, abs_mul, abs_mul]
      have R0 : 0 ≤ R := (abs_nonneg _).trans n0
      have m0 := mul_le_mul_of_nonneg_left n0 (abs_nonneg w.1)
      have m1 := mul_le_mul_of_nonneg_left n1 (abs_nonneg w.2.1)
      have m2 := mul_le_mul_of_nonneg_left n2 (abs_nonneg w.2.2)
      have m3 := mul_le_mul_of_nonneg_right w2 R0
      linarith
    · simpa using hs.trans LBm
    · rcases f2 with ⟨hk1, rfl⟩ | ⟨hk1, hh⟩
      · exact .inl ⟨by omega, rfl⟩
      · refine .inr ⟨by omega, ?_⟩
        rw [show k + 1 - 2 = k - 1 by omega]
        exact hh.trans LBm

end

theorem saturate_lip {lo hi : ℝ} (h : lo ≤ hi) (x y : ℝ) : |saturate x lo hi - saturate y lo hi| ≤ |x - y| := by
  rw [saturate_max h, saturate_max h]
  refine (abs_max_sub_max_le_max _ _ _ _).trans ?_
  rw [sub_self, abs_zero]
  refine max_le (abs_nonneg _) ?_
  refine (abs_min_sub_min_le_max _ _ _ _).trans ?_
  rw [sub_self, abs_zero]
  exact max_le le_rfl (abs_nonneg _)

/-- **C165** (partial: without feed-through, see `C51_feedthrough_false`; no input delay) Let `z`, with derivatives `Z 0 = z`, `Z 1`, ...,
`Z n`, be the solution of `den_0 z^(n) + ... + den_n z = U` on `[0, T]` from rest, and `y = num_1 z^(n-1) + ... + num_n z` the output of the
system `num / den`. If the derivatives are bounded by `M` and Lipschitz with constant `L`, the system simulated with any integration
method in steps of `dt` answers the samples of `U` with outputs that differ from `y` (limited to the output range) at the end of each step by at most a constant
times `dt`, the constant depending only on the system, on the solution and on `T`. -/
theorem C165_continuous_partial (s : CSys ℝ) (num den : Array ℝ) (x : Array (Numa.NState ℝ)) (n : ℕ) (m : Numa.IMethod)
    (hn : 0 < n) (hnum : n + 1 ≤ num.size) (hden : n + 1 ≤ den.size)
    (hx : n ≤ x.size) (hm : ∀ i, i < n → (x.getD i Numa.NState.new).iMethod = m) (hm' : m ≠ .other)
    (h0 : den.getD 0 0 ≠ 0) (hb0 : num.getD 0 0 = 0) (hd : s.delay = none) (hlim : s.min ≤ s.max)
    (U : ℝ → ℝ) (Z : ℕ → ℝ → ℝ) (T L M : ℝ) (hL : 0 ≤ L) (hM : 0 ≤ M)
    (hrest : ∀ i, i < n → Z i 0 = 0)
    (hder : ∀ i, i < n → ∀ t, 0 ≤ t → t ≤ T → HasDerivWithinAt (Z i) (Z (i + 1) t) (Set.Ici 0) t)
    (heq : ∀ t, 0 ≤ t → t ≤ T → ∑ i ∈ Finset.range (n + 1), den.getD i 0 * Z (n - i) t = U t)
    (hZL : ∀ i, 1 ≤ i → i ≤ n → ∀ a b, 0 ≤ a → a ≤ T → 0 ≤ b → b ≤ T → |Z i a - Z i b| ≤ L * |a - b|)
    (hZM : ∀ i, 1 ≤ i → i ≤ n → ∀ t, 0 ≤ t → t ≤ T → |Z i t| ≤ M) :
    ∃ C, ∀ dt, 0 < dt → ∃ s0, s.setup (some num) (some den) (some x) n dt = .ok (s0, true) ∧
      ∃ out : ℕ → ℝ, (∀ k, Prod.snd <$> feedAll CSys.excite s0 ((List.range k).map fun j : ℕ => U (j * dt)) = .ok ((List.range k).map out)) ∧
        ∀ k : ℕ, (k + 1 : ℕ) * dt ≤ T →
          |out k - saturate (∑ j ∈ Finset.range n, num.getD (j + 1) 0 * Z (n - 1 - j) ((k + 1 : ℕ) * dt)) s.min s.max| ≤ C * dt := by
  set d0 := den.getD 0 0 with hd0
  set Λ := max 1 (∑ j ∈ Finset.range n, |den.getD (j + 1) 0 / d0|) with hΛ
  refine ⟨(∑ j ∈ Finset.range n, |num.getD (j + 1) 0 / d0|) * ((4 * (|d0| * M) + 4 * (|d0| * L) * T) * Real.exp (7 / 6 * Λ * T)), fun dt hdt => ?_⟩
  obtain ⟨num', den', x', e1, e2, e3, e4, e5⟩ := csetup_ok s num den x n dt hn hnum hden hx
  refine ⟨_, e1, ?_⟩
  have hinv : CInv n m (fun i => den.getD i 0 / d0) (fun i => num.getD i 0 / d0) dt s.min s.max (fun _ => (0, 0, 0))
      { s with num := num', den := den', xc := some x', n := n, dt := dt, b0 := num.getD 0 0 / d0, continuous := true } :=
    ⟨rfl, rfl, hd, rfl, rfl, rfl, rfl, e2, e3, x', rfl, by omega, fun i hi => by rw [← hm i hi]; exact e5 i hi⟩
  refine ⟨fun i => saturate (∑ j ∈ Finset.range n, (num.getD (j + 1) 0 / d0 - den.getD (j + 1) 0 / d0 * (num.getD 0 0 / d0)) *
          (chainAt (weights m) dt n (fun i => den.getD i 0 / d0) (fun j : ℕ => U (j * dt)) (i + 1) j).1) s.min s.max, fun k => ?_, fun k hk => ?_⟩
  · obtain ⟨s', k1, -⟩ := hinv.run hn (fun j : ℕ => U (j * dt)) k
    rw [k1]; rfl
  · obtain ⟨w1, w2⟩ := weights_sum hm'
    have key := chain_converges (dt := dt) (L := |d0| * L) (M := |d0| * M) (Λ := Λ) w1 w2 n (fun i => den.getD i 0 / d0) hdt.le (by positivity)
      (by positivity) (le_max_left _ _) (le_max_right _ _) U (fun i t => d0 * Z (n - 1 - i) t) (fun i t => d0 * Z (n - i) t) T
      (fun i hi => by rw [hrest _ (by omega), mul_zero])
      (fun i hi k hk => by
        have lt : (k : ℝ) * dt < (k + 1 : ℕ) * dt := by push_cast; linarith
        have k0 : (0 : ℝ) ≤ k * dt := by positivity
        have sub : Set.Icc ((k : ℝ) * dt) ((k + 1 : ℕ) * dt) ⊆ Set.Ici 0 := fun t ht => k0.trans ht.1
        obtain ⟨ξ, hξ, hs⟩ := exists_hasDerivAt_eq_slope (Z (n - 1 - i)) (Z (n - 1 - i + 1)) lt
          (fun t ht => ((hder (n - 1 - i) (by omega) t (k0.trans ht.1) (ht.2.trans hk)).continuousWithinAt).mono sub)
          (fun t ht => (hder (n - 1 - i) (by omega) t (k0.trans ht.1.le) (ht.2.le.trans hk)).hasDerivAt
            (Ici_mem_nhds (k0.trans_lt ht.1)))
        refine ⟨ξ, hξ.1.le, hξ.2.le, ?_⟩
        rw [show n - 1 - i + 1 = n - i by omega] at hs
        have : ((k + 1 : ℕ) : ℝ) * dt - k * dt = dt := by push_cast; ring
        rw [this, eq_div_iff hdt.ne'] at hs
        rw [← mul_sub, ← hs]
        ring)
      (fun t t0 t1 => by
        have := heq t t0 t1
        rw [Finset.sum_range_succ'] at this
        simp only [Nat.sub_zero] at this ⊢
        rw [← this, ← hd0, add_sub_right_comm, ← Finset.sum_sub_distrib, Finset.sum_eq_zero, zero_add]
        intro j hj
        rw [show n - 1 - j = n - (j + 1) by omega]
        field_simp
        ring)
      (fun i hi t _ _ => by rw [show n - (i + 1) = n - 1 - i by omega])
      (fun i hi a b a0 a1 b0 b1 => by
        rw [← mul_sub, abs_mul, mul_assoc]
        exact mul_le_mul_of_nonneg_left (hZL (n - i) (by omega) (by omega) a b a0 a1 b0 b1) (abs_nonneg _))
      (fun i hi t t0 t1 => by
        rw [abs_mul]
        exact mul_le_mul_of_nonneg_left (hZM (n - i) (by omega) (by omega) t t0 t1) (abs_nonneg _)) (k + 1) hk
    refine (saturate_lip hlim _ _).trans ?_
    have Bl := errB_le (dt := dt) (L := |d0| * L) (M := |d0| * M) (Λ := Λ) hdt.le (by positivity) (by positivity) (by positivity) (k + 1) hk
    rw [← Finset.sum_sub_distrib, hb0]
    refine (Finset.abs_sum_le_sum_abs _ _).trans ?_
    have : ∀ j ∈ Finset.range n, |(num.getD (j + 1) 0 / d0 - den.getD (j + 1) 0 / d0 * (0 / d0)) *
          (chainAt (weights m) dt n (fun i => den.getD i 0 / d0) (fun j : ℕ => U (j * dt)) (k + 1) j).1 -
          num.getD (j + 1) 0 * Z (n - 1 - j) ((k + 1 : ℕ) * dt)| ≤
        |num.getD (j + 1) 0 / d0| * (dt * (4 * (|d0| * M) + 4 * (|d0| * L) * T) * Real.exp (7 / 6 * Λ * T)) := by
      intro j hj
      have h := ((key j (Finset.mem_range.1 hj)).1).trans Bl
      have e : (num.getD (j + 1) 0 / d0 - den.getD (j + 1) 0 / d0 * (0 / d0)) *
          (chainAt (weights m) dt n (fun i => den.getD i 0 / d0) (fun j : ℕ => U (j * dt)) (k + 1) j).1 -
          num.getD (j + 1) 0 * Z (n - 1 - j) ((k + 1 : ℕ) * dt) = num.getD (j + 1) 0 / d0 *
          ((chainAt (weights m) dt n (fun i => den.getD i 0 / d0) (fun j : ℕ => U (j * dt)) (k + 1) j).1 -
            d0 * Z (n - 1 - j) ((k + 1 : ℕ) * dt)) := by
        rw [zero_div, mul_zero, sub_zero, mul_sub, ← mul_assoc, div_mul_cancel₀ _ h0]
      rw [e, abs_mul]
      exact mul_le_mul_of_nonneg_left h (abs_nonneg _)
    refine (Finset.sum_le_sum this).trans (le_of_eq ?_)
    rw [← Finset.sum_mul]
    ring

/-- The lag `1 / (s + 1)` excited by a step: the solution is `1 - exp (-t)`, and its derivative is bounded by 1 and Lipschitz with
constant 1. -/
example : let Z : ℕ → ℝ → ℝ := fun i t => if i = 0 then 1 - Real.exp (-t) else Real.exp (-t)
    Z 0 0 = 0 ∧ (∀ t, HasDerivWithinAt (Z 0) (Z 1 t) (Set.Ici 0) t) ∧
    (∀ t, ∑ i ∈ Finset.range 2, (#[(1 : ℝ), 1]).getD i 0 * Z (1 - i) t = 1) ∧
    (∀ a b, 0 ≤ a → 0 ≤ b → |Z 1 a - Z 1 b| ≤ 1 * |a - b|) ∧ ∀ t, 0 ≤ t → |Z 1 t| ≤ 1 := by
  have hd : ∀ t, HasDerivAt (fun t : ℝ => Real.exp (-t)) (-Real.exp (-t)) t := fun t => by
    simpa using (hasDerivAt_neg t).exp
  refine ⟨by simp, fun t => ?_, fun t => by simp [Finset.sum_range_succ], fun a b ha hb => ?_, fun t ht => ?_⟩
  · have := ((hd t).const_sub 1).hasDerivWithinAt (s := Set.Ici 0)
    simpa using this
  · have := Convex.norm_image_sub_le_of_norm_hasDerivWithin_le (f := fun t : ℝ => Real.exp (-t)) (f' := fun t => -Real.exp (-t))
      (s := Set.Ici 0) (C := 1) (x := b) (y := a) (fun t _ => (hd t).hasDerivWithinAt)
      (fun t ht => by rw [norm_neg, Real.norm_eq_abs, abs_of_pos (Real.exp_pos _), Real.exp_le_one_iff]; simpa using ht)
      (convex_Ici 0) hb ha
    simpa using this
  · simp only [one_ne_zero, if_false]
    rw [abs_of_pos (Real.exp_pos _), Real.exp_le_one_iff]; linarith

end Verif.Ltisys
