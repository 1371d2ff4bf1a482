import Verif.Fp16.Exp

/-!
# Rounding and truncation errors of `fp16::exp`

The range of the argument is divided into cells; for each cell an upper bound of the error,
computed in natural numbers, is compared with a lower bound of the exponential. None of the
definitions of this file is a definition of the repository.
-/

namespace Verif.Fp16

/-- The terms of the series (not a definition of the repository). -/
def T (x : Int) : Nat → Int
  | 0 => 65536
  | k + 1 => M (T x k * Q x (k + 1))

/-- Index of the last term added: `n` iterations left, `k` terms done, `t` the last of them
(not a definition of the repository). -/
def expN (x : Int) : Nat → Nat → Int → Nat
  | 0, k, _ => k
  | n + 1, k, t =>
    let t' := M (t * Q x (k + 1))
    if stop (k + 1) t' then k + 1 else expN x n (k + 1) t'

theorem T_one (x : Int) : T x 1 = x := by
  show M (65536 * Q x ((0 : Nat) + 1)) = x
  unfold M Q; push_cast; omega

theorem T_nonneg {x : Int} (hx : 0 ≤ x) (k : Nat) : 0 ≤ T x k := by
  induction k with
  | zero => show (0 : Int) ≤ 65536; norm_num
  | succ k ih => exact M_nonneg (mul_nonneg ih (Q_nonneg hx (by omega)))

theorem expP_eq (x : Int) : ∀ (n k : Nat), expP x n (k + 1) (T x k) (∑ j ∈ Finset.range (k + 1), T x j)
    = ∑ j ∈ Finset.range (expN x n k (T x k) + 1), T x j := by
  intro n
  induction n with
  | zero => intro k; rfl
  | succ n ih =>
    intro k
    have e : M (T x k * Q x (k + 1)) = T x (k + 1) := rfl
    unfold expP expN
    dsimp only
    rw [e, ← Finset.sum_range_succ]
    split
    · rfl
    · have := ih (k + 1)
      push_cast at this
      exact this

theorem le_expN (x : Int) : ∀ (n k : Nat) (t : Int), k ≤ expN x n k t := by
  intro n
  induction n with
  | zero => intro k t; exact le_rfl
  | succ n ih =>
    intro k t
    unfold expN
    dsimp only
    split
    · omega
    · have := ih (k + 1) (M (t * Q x (k + 1))); omega

theorem lt_expN (x : Int) (n k : Nat) (t : Int) : k + 1 ≤ expN x (n + 1) k t := by
  unfold expN
  dsimp only
  split
  · omega
  · exact le_expN _ _ _ _

theorem expN_mono {x y : Int} (hx : 0 ≤ x) (hxy : x ≤ y) : ∀ (n k : Nat) (t u : Int), 0 ≤ t → t ≤ u →
    expN x n k t ≤ expN y n k u := by
  intro n
  induction n with
  | zero => intro k t u _ _; exact le_rfl
  | succ n ih =>
    intro k t u ht htu
    have hi : (0 : Int) < k + 1 := by omega
    have h0 : 0 ≤ M (t * Q x (k + 1)) := M_nonneg (mul_nonneg ht (Q_nonneg hx hi))
    have h1 : M (t * Q x (k + 1)) ≤ M (u * Q y (k + 1)) :=
      M_mul_mono htu (Q_mono hxy hi) ht (Q_nonneg hx hi)
    unfold expN
    dsimp only
    by_cases hy : stop (k + 1) (M (u * Q y (k + 1))) = true
    · have hx' : stop (k + 1) (M (t * Q x (k + 1))) = true := by
        unfold stop at *; rw [decide_eq_true_eq] at *; omega
      rw [if_pos hx', if_pos hy]
    · rw [if_neg hy]
      split
      · exact le_expN _ _ _ _
      · exact ih _ _ _ h0 h1

/-- Upper bounds, in units of `2^-32`: of the power `X^(k+1) / (k+1)!`, of the error of the term
`k + 1`, and of the error of the sum (not a definition of the repository). -/
def bnd (hi : Nat) : Nat → Nat × Nat × Nat
  | 0 => (4294967296 * hi / 65536 + 1, 0, 0)
  | k + 1 =>
    let (p, e, a) := bnd hi k
    let e' := e * hi / (65536 * (k + 2)) + 1 + (e / 131072 + 1) + (p / 2 + 1) + 2147483648
    (p * hi / (65536 * (k + 2)) + 1, e', a + e')

/-- Lower bound, in units of `2^-32`, of the terms and the partial sums of the exponential series
(not a definition of the repository). -/
def low (lo : Nat) : Nat → Nat × Nat
  | 0 => (4294967296, 4294967296)
  | k + 1 =>
    let (p, a) := low lo k
    let p' := p * lo / (65536 * (k + 1))
    (p', a + p')

theorem ndiv_le (a b : Nat) : ((a : ℝ)) / b ≤ ((a / b : Nat) : ℝ) + 1 := by
  rcases Nat.eq_zero_or_pos b with rfl | hb
  · simp
  · have hb' : (0 : ℝ) < b := by exact_mod_cast hb
    rw [div_le_iff₀ hb']
    have : a < (a / b + 1) * b := by
      have := Nat.lt_mul_div_succ a hb
      rwa [mul_comm] at this
    exact_mod_cast this.le

theorem ndiv_ge (a b : Nat) : ((a / b : Nat) : ℝ) ≤ (a : ℝ) / b := Nat.cast_div_le

theorem bnd_sound {x : Int} {hi : Nat} (hx : 0 ≤ x) (hh : x ≤ hi) {X : ℝ} (hX : X = x / 65536) : ∀ k : Nat,
    X ^ (k + 1) / (k + 1).factorial ≤ (bnd hi k).1 / 4294967296 ∧
    |(T x (k + 1) : ℝ) - 65536 * (X ^ (k + 1) / (k + 1).factorial)| ≤ (bnd hi k).2.1 / 4294967296 ∧
    |((∑ j ∈ Finset.range (k + 2), T x j : Int) : ℝ)
      - 65536 * ∑ j ∈ Finset.range (k + 2), X ^ j / j.factorial| ≤ (bnd hi k).2.2 / 4294967296 := by
  have hx0 : (0 : ℝ) ≤ x := by exact_mod_cast hx
  have hxh : (x : ℝ) ≤ hi := by exact_mod_cast hh
  have X0 : 0 ≤ X := by rw [hX]; positivity
  have hxX : (x : ℝ) = 65536 * X := by rw [hX]; ring
  intro k
  induction k with
  | zero =>
    refine ⟨?_, ?_, ?_⟩
    · have := ndiv_le (4294967296 * hi) 65536
      push_cast at this
      simp only [bnd]
      rw [le_div_iff₀ (by norm_num)]
      push_cast
      simp only [pow_one, Nat.factorial_one, Nat.cast_one, div_one]
      have : X ≤ hi / 65536 := by rw [hX]; gcongr
      linarith
    · simp only [bnd]
      rw [zero_add, T_one, hxX]; simp
    · simp only [bnd, Finset.sum_range_succ, Finset.sum_range_zero, T_one]
      rw [show T x 0 = 65536 from rfl]
      push_cast
      rw [hxX]
      norm_num
      ring
  | succ k ih =>
    obtain ⟨i1, i2, i3⟩ := ih
    rcases hb : bnd hi k with ⟨p, e, a⟩
    rw [hb] at i1 i2 i3
    dsimp only at i1 i2 i3
    have hk2 : (0 : ℝ) < ((k + 2 : Nat) : ℝ) := by positivity
    set V := X ^ (k + 1) / ((k + 1).factorial : ℝ) with hV
    have V0 : 0 ≤ V := by positivity
    have hV' : X ^ (k + 2) / ((k + 2).factorial : ℝ) = V * X / (k + 2 : Nat) := by
      rw [hV, Nat.factorial_succ (k + 1), pow_succ X (k + 1)]
      push_cast
      have : ((k + 1).factorial : ℝ) ≠ 0 := by positivity
      field_simp
      ring
    have hhX : X ≤ hi / 65536 := by rw [hX]; gcongr
    have r1 : V * X / (k + 2 : Nat) ≤ ((p * hi / (65536 * (k + 2)) + 1 : Nat) : ℝ) / 4294967296 := by
      have h1 := ndiv_le (p * hi) (65536 * (k + 2))
      push_cast at h1 hk2 ⊢
      have h2 : V * X ≤ (p / 4294967296) * (hi / 65536) := mul_le_mul i1 hhX X0 (by positivity)
      have h3 : V * X / ((k : ℝ) + 2) ≤ (p / 4294967296) * (hi / 65536) / (k + 2) := by gcongr
      refine h3.trans ?_
      rw [le_div_iff₀ (by norm_num)]
      refine le_trans (le_of_eq ?_) h1
      field_simp
    have hq := Q_real (x := x) (i := (k + 1 : Nat) + 1) (by omega)
    have hm := M_real (T x (k + 1) * Q x ((k + 1 : Nat) + 1))
    have hq0 : (0 : ℝ) ≤ Q x ((k + 1 : Nat) + 1) := by exact_mod_cast Q_nonneg hx (by omega)
    have eT : T x (k + 2) = M (T x (k + 1) * Q x ((k + 1 : Nat) + 1)) := rfl
    rw [← eT] at hm
    push_cast at hm hq hq0
    generalize (Q x ((k : Int) + 1 + 1) : ℝ) = q at *
    generalize ht2 : (T x (k + 2) : ℝ) = t2 at *
    have hq2 : q / 65536 ≤ hi / (65536 * (k + 2)) + 1 / 131072 := by
      have h1 := (abs_le.1 hq).2
      have h2 : (x : ℝ) / ((k : ℝ) + 1 + 1) ≤ hi / (k + 2) := by
        rw [show (k : ℝ) + 1 + 1 = k + 2 by ring]; gcongr
      have h3 : (hi : ℝ) / (65536 * (k + 2)) = hi / (k + 2) / 65536 := by field_simp
      rw [h3]; linarith
    have dec : t2 - 65536 * (V * X / (k + 2 : Nat))
        = (t2 - T x (k + 1) * q / 65536) + ((T x (k + 1) : ℝ) - 65536 * V) * (q / 65536)
          + V * (q - x / ((k : ℝ) + 1 + 1)) := by
      rw [hxX]; push_cast
      rw [show (k : ℝ) + 1 + 1 = k + 2 by ring]
      ring
    have g1 : |((T x (k + 1) : ℝ) - 65536 * V) * (q / 65536)|
        ≤ e / 4294967296 * (hi / (65536 * (k + 2)) + 1 / 131072) := by
      rw [abs_mul, abs_of_nonneg (by positivity : 0 ≤ q / 65536)]
      exact mul_le_mul i2 hq2 (by positivity) (by positivity)
    have g2 : |V * (q - x / ((k : ℝ) + 1 + 1))| ≤ p / 4294967296 / 2 := by
      rw [abs_mul, abs_of_nonneg V0]
      have h1 := mul_le_mul i1 hq (abs_nonneg _) (by positivity)
      linarith
    have r2 : |t2 - 65536 * (V * X / (k + 2 : Nat))|
        ≤ ((e * hi / (65536 * (k + 2)) + 1 + (e / 131072 + 1) + (p / 2 + 1) + 2147483648 : Nat) : ℝ)
          / 4294967296 := by
      rw [dec]
      have h0 := abs_add_three (t2 - T x (k + 1) * q / 65536)
        (((T x (k + 1) : ℝ) - 65536 * V) * (q / 65536)) (V * (q - x / ((k : ℝ) + 1 + 1)))
      have h1 := ndiv_le (e * hi) (65536 * (k + 2))
      have h2 := ndiv_le e 131072
      have h3 := ndiv_le p 2
      rw [le_div_iff₀ (by norm_num)]
      push_cast at h1 h2 h3 ⊢
      have h4 : (e : ℝ) / 4294967296 * (hi / (65536 * (k + 2)) + 1 / 131072)
          = (e * hi / (65536 * (k + 2)) + e / 131072) / 4294967296 := by ring
      rw [h4] at g1
      linarith
    have eb : bnd hi (k + 1) = (p * hi / (65536 * (k + 2)) + 1,
        e * hi / (65536 * (k + 2)) + 1 + (e / 131072 + 1) + (p / 2 + 1) + 2147483648,
        a + (e * hi / (65536 * (k + 2)) + 1 + (e / 131072 + 1) + (p / 2 + 1) + 2147483648)) := by
      conv_lhs => rw [bnd, hb]
    rw [eb]
    dsimp only
    rw [hV']
    refine ⟨r1, r2, ?_⟩
    rw [Finset.sum_range_succ, Finset.sum_range_succ (fun j => X ^ j / (j.factorial : ℝ)), hV']
    have e0 : k + 1 + 1 = k + 2 := rfl
    rw [e0]
    generalize (∑ j ∈ Finset.range (k + 2), T x j) = A at *
    generalize (∑ j ∈ Finset.range (k + 2), X ^ j / (j.factorial : ℝ)) = B at *
    have e1 : ((A + T x (k + 2) : Int) : ℝ) - 65536 * (B + V * X / (k + 2 : Nat))
        = ((A : ℝ) - 65536 * B) + (t2 - 65536 * (V * X / (k + 2 : Nat))) := by
      rw [Int.cast_add, ht2]; ring
    rw [e1]
    refine (abs_add_le _ _).trans ?_
    rw [Nat.cast_add a, add_div]
    linarith

theorem low_sound {lo : Nat} {X : ℝ} (h : (lo : ℝ) / 65536 ≤ X) : ∀ k : Nat,
    ((low lo k).1 : ℝ) / 4294967296 ≤ X ^ k / k.factorial ∧
    ((low lo k).2 : ℝ) / 4294967296 ≤ ∑ j ∈ Finset.range (k + 1), X ^ j / j.factorial := by
  have X0 : 0 ≤ X := le_trans (by positivity) h
  intro k
  induction k with
  | zero => simp [low]
  | succ k ih =>
    obtain ⟨i1, i2⟩ := ih
    rcases hb : low lo k with ⟨p, a⟩
    rw [hb] at i1 i2
    have eb : low lo (k + 1) = (p * lo / (65536 * (k + 1)), a + p * lo / (65536 * (k + 1))) := by
      conv_lhs => rw [low, hb]
    rw [eb]
    dsimp only at i1 i2 ⊢
    have r1 : ((p * lo / (65536 * (k + 1)) : Nat) : ℝ) / 4294967296 ≤ X ^ (k + 1) / (k + 1).factorial := by
      have h1 := ndiv_ge (p * lo) (65536 * (k + 1))
      push_cast at h1
      have hV' : X ^ (k + 1) / ((k + 1).factorial : ℝ) = X ^ k / k.factorial * X / (k + 1) := by
        rw [Nat.factorial_succ k, pow_succ X k]
        push_cast
        have : (k.factorial : ℝ) ≠ 0 := by positivity
        field_simp
      rw [hV']
      have h2 : (p / 4294967296 : ℝ) * (lo / 65536) ≤ X ^ k / k.factorial * X :=
        mul_le_mul i1 h (by positivity) (by positivity)
      have h3 : (p / 4294967296 : ℝ) * (lo / 65536) / (k + 1) ≤ X ^ k / k.factorial * X / (k + 1) := by
        gcongr
      refine le_trans ?_ h3
      rw [div_le_iff₀ (by norm_num)]
      refine h1.trans (le_of_eq ?_)
      field_simp
    refine ⟨r1, ?_⟩
    rw [Finset.sum_range_succ, Nat.cast_add, add_div]
    linarith

/-- Remainder of the exponential series. -/
theorem exp_tail {X : ℝ} (X0 : 0 ≤ X) (n : Nat) (h : X < n + 1) :
    Real.exp X - ∑ j ∈ Finset.range (n + 1), X ^ j / j.factorial
      ≤ X ^ n / n.factorial * (X / (n + 1 - X)) := by
  have hexp : HasSum (fun n : ℕ => X ^ n / (n.factorial : ℝ)) (Real.exp X) := by
    rw [Real.exp_eq_exp_ℝ]
    exact NormedSpace.expSeries_div_hasSum_exp X
  have h1 := (hasSum_nat_add_iff' (n + 1)).2 hexp
  have hn : (0 : ℝ) < n + 1 := by positivity
  have hr : X / (n + 1) < 1 := by rw [div_lt_one hn]; exact h
  have hr0 : 0 ≤ X / ((n : ℝ) + 1) := by positivity
  have hg : HasSum (fun k : ℕ => X ^ n / (n.factorial : ℝ) * (X / (n + 1)) * (X / (n + 1)) ^ k)
      (X ^ n / (n.factorial : ℝ) * (X / (n + 1)) * (1 - X / (n + 1))⁻¹) :=
    (hasSum_geometric_of_lt_one hr0 hr).mul_left _
  have hle := hasSum_le (fun k => ?_) h1 hg
  · refine hle.trans (le_of_eq ?_)
    have h2 : (n : ℝ) + 1 - X ≠ 0 := by linarith
    have h3 : 1 - X / ((n : ℝ) + 1) ≠ 0 := by linarith
    have h4 : (1 - X / ((n : ℝ) + 1)) = (n + 1 - X) / (n + 1) := by field_simp
    rw [h4, inv_div]
    field_simp
  · have hf : n.factorial * (n + 1) ^ (k + 1) ≤ (k + (n + 1)).factorial := by
      have := Nat.factorial_mul_pow_le_factorial (m := n) (n := k + 1)
      rwa [show n + (k + 1) = k + (n + 1) by ring] at this
    have hf' : (n.factorial : ℝ) * (n + 1) ^ (k + 1) ≤ (k + (n + 1)).factorial := by exact_mod_cast hf
    have hp : (0 : ℝ) < (n.factorial : ℝ) * (n + 1) ^ (k + 1) := by positivity
    calc X ^ (k + (n + 1)) / ((k + (n + 1)).factorial : ℝ)
        ≤ X ^ (k + (n + 1)) / ((n.factorial : ℝ) * (n + 1) ^ (k + 1)) := by gcongr
      _ = X ^ n / (n.factorial : ℝ) * (X / (n + 1)) * (X / (n + 1)) ^ k := by
        rw [div_pow]; field_simp; ring

/-- The check of one cell: the bound of the error is below `5.2e-5` of the exponential
(not a definition of the repository). -/
def cell (lo hi : Nat) : Bool :=
  let nl := expN lo 28 1 lo
  let nh := expN hi 28 1 hi
  decide (hi < 65536 * (nl + 1) ∧ 2 ≤ nl ∧
    ((bnd hi (nh - 1)).2.2 + ((bnd hi (nl - 1)).1 * 65536 * hi / (65536 * (nl + 1) - hi) + 1)) * 10000000
      ≤ (low lo 30).2 * 65536 * 520)

theorem bnd_mono (hi : Nat) {a b : Nat} (h : a ≤ b) : (bnd hi a).2.2 ≤ (bnd hi b).2.2 := by
  induction b with
  | zero => rw [Nat.le_zero.1 h]
  | succ b ih =>
    rcases Nat.lt_or_ge b a with h' | h'
    · rw [show a = b + 1 by omega]
    · have := ih h'
      refine this.trans ?_
      rcases hb : bnd hi b with ⟨p, e, s⟩
      conv_rhs => rw [bnd, hb]
      dsimp only
      exact Nat.le_add_right _ _

theorem cell_sound {lo hi : Nat} (hc : cell lo hi = true) {x : Int} (h0 : (lo : Int) ≤ x) (h1 : x ≤ hi) :
    |(expV x : ℝ) - 65536 * Real.exp (x / 65536)| ≤ 65536 * 5.2e-5 * Real.exp (x / 65536) := by
  unfold cell at hc
  dsimp only at hc
  rw [decide_eq_true_eq] at hc
  obtain ⟨c1, c2, c3⟩ := hc
  have hx0 : 0 ≤ x := by omega
  have hx0' : (0 : ℝ) ≤ x := by exact_mod_cast hx0
  have hl : expN (lo : Int) 28 1 lo ≤ expN x 28 1 x := expN_mono (by omega) h0 _ _ _ _ (by omega) h0
  have hh : expN x 28 1 x ≤ expN (hi : Int) 28 1 hi := expN_mono hx0 h1 _ _ _ _ hx0 h1
  generalize expN (lo : Int) 28 1 lo = nl at *
  generalize expN (hi : Int) 28 1 hi = nh at *
  have hv : expV x = ∑ j ∈ Finset.range (expN x 28 1 x + 1), T x j := by
    have := expP_eq x 28 1
    rw [T_one] at this
    rw [← this]
    unfold expV
    simp only [Finset.sum_range_succ, Finset.sum_range_zero, T_one]
    rw [show T x 0 = 65536 from rfl]
    norm_num
    rw [add_comm]
  rw [hv]
  generalize expN x 28 1 x = m at *
  obtain ⟨k, rfl⟩ : ∃ k, m = k + 1 := ⟨m - 1, by omega⟩
  obtain ⟨l, rfl⟩ : ∃ l, nl = l + 1 := ⟨nl - 1, by omega⟩
  set X : ℝ := (x : ℝ) / 65536 with hX
  have X0 : 0 ≤ X := by positivity
  obtain ⟨-, -, b3⟩ := bnd_sound hx0 h1 hX k
  obtain ⟨b1, -, -⟩ := bnd_sound hx0 h1 hX l
  have bm : (bnd hi k).2.2 ≤ (bnd hi (nh - 1)).2.2 := bnd_mono hi (by omega)
  have bm' : ((bnd hi k).2.2 : ℝ) ≤ (bnd hi (nh - 1)).2.2 := by exact_mod_cast bm
  rw [show l + 1 - 1 = l by omega] at c3
  generalize (bnd hi (nh - 1)).2.2 = A at *
  generalize (bnd hi l).1 = P at *
  -- the remainder
  have hhX : X ≤ hi / 65536 := by rw [hX]; gcongr; exact_mod_cast h1
  have hd : (0 : ℝ) < 65536 * ((l : ℝ) + 1 + 1) - hi := by
    have : (hi : ℝ) < 65536 * ((l : ℝ) + 1 + 1) := by exact_mod_cast c1
    linarith
  have hXl : X < ((l + 1 : Nat) : ℝ) + 1 := by
    push_cast; linarith
  have ht := exp_tail X0 (l + 1) hXl
  have hs : ∑ j ∈ Finset.range (l + 1 + 1), X ^ j / (j.factorial : ℝ)
      ≤ ∑ j ∈ Finset.range (k + 1 + 1), X ^ j / (j.factorial : ℝ) := by
    apply Finset.sum_le_sum_of_subset_of_nonneg
    · exact Finset.range_subset_range.2 (by omega)
    · intro j _ _; positivity
  have hs' := Real.sum_le_exp_of_nonneg X0 (k + 1 + 1)
  have ht2 : X ^ (l + 1) / ((l + 1).factorial : ℝ) * (X / ((l + 1 : Nat) + 1 - X))
      ≤ (((P * 65536 * hi / (65536 * (l + 1 + 1) - hi) + 1 : Nat) : ℝ)) / 65536 / 4294967296 := by
    have g1 : X / (((l + 1 : Nat) : ℝ) + 1 - X) ≤ hi / (65536 * ((l : ℝ) + 1 + 1) - hi) := by
      push_cast at hXl ⊢
      rw [div_le_div_iff₀ (by linarith) hd]
      nlinarith
    have g2 := mul_le_mul b1 g1 (div_nonneg X0 (by push_cast at hXl ⊢; linarith)) (by positivity)
    refine g2.trans ?_
    have g3 := ndiv_le (P * 65536 * hi) (65536 * (l + 1 + 1) - hi)
    rw [Nat.cast_sub c1.le] at g3
    rw [le_div_iff₀ (by norm_num), le_div_iff₀ (by norm_num)]
    push_cast at g3 ⊢
    refine le_trans (le_of_eq ?_) g3
    field_simp
  -- the lower bound of the exponential
  obtain ⟨-, q2⟩ := low_sound (lo := lo) (X := X) (by rw [hX]; gcongr; exact_mod_cast h0) 30
  have q3 := Real.sum_le_exp_of_nonneg X0 (30 + 1)
  have c4 : ((A + (P * 65536 * hi / (65536 * (l + 1 + 1) - hi) + 1) : Nat) : ℝ) * 10000000
      ≤ ((low lo 30).2 : ℝ) * 65536 * 520 := by exact_mod_cast c3
  rw [Nat.cast_add] at c4
  generalize ((P * 65536 * hi / (65536 * (l + 1 + 1) - hi) + 1 : Nat) : ℝ) = B at *
  generalize ((low lo 30).2 : ℝ) = L at *
  generalize (∑ j ∈ Finset.range (k + 1 + 1), T x j) = S at *
  generalize (∑ j ∈ Finset.range (k + 1 + 1), X ^ j / (j.factorial : ℝ)) = R at *
  generalize (∑ j ∈ Finset.range (l + 1 + 1), X ^ j / (j.factorial : ℝ)) = R' at *
  have b4 := (abs_le.1 b3)
  have hB : 0 ≤ B := by
    have : 0 ≤ X ^ (l + 1) / ((l + 1).factorial : ℝ) * (X / ((l + 1 : Nat) + 1 - X)) :=
      mul_nonneg (by positivity) (div_nonneg X0 (by push_cast at hXl ⊢; linarith))
    have := this.trans ht2
    rw [div_div, le_div_iff₀ (by norm_num)] at this
    linarith
  rw [abs_le]
  norm_num at c4 ⊢
  constructor <;> linarith [b4.1, b4.2]

theorem cells : ∀ j < 333, cell (2048 * j) (2048 * (j + 1)) = true := by decide +kernel

theorem expV_err {x : Int} (h0 : 0 ≤ x) (h1 : x < 681391) :
    |(expV x : ℝ) - 65536 * Real.exp (x / 65536)| ≤ 65536 * 5.2e-5 * Real.exp (x / 65536) := by
  have hj : (x / 2048).toNat < 333 := by omega
  exact cell_sound (cells _ hj) (by push_cast; omega) (by push_cast; omega)

end Verif.Fp16
