import Verif.Ltisys.Continuous
import Verif.Ltisys.Discrete
import Mathlib.Analysis.Normed.Group.Tannery
import Mathlib.Analysis.Normed.Ring.InfiniteSum
import Mathlib.Analysis.SpecificLimits.Basic

/-!
# Stable systems settle at their static gain (C150)
-/

namespace Verif.Ltisys

open Arith PowerSeries Filter Topology

/-! ## Absolutely summable power series -/

/-- The coefficients of `f` are absolutely summable and their sum is `v`. Not a definition of the repository. -/
def Sums (f : ℝ⟦X⟧) (v : ℝ) : Prop := (Summable fun k => ‖coeff k f‖) ∧ ∑' k, coeff k f = v

theorem Sums.mul {f g : ℝ⟦X⟧} {a b : ℝ} (hf : Sums f a) (hg : Sums g b) : Sums (f * g) (a * b) := by
  obtain ⟨f1, f2⟩ := hf
  obtain ⟨g1, g2⟩ := hg
  have e : ∀ k, coeff k (f * g) = ∑ kl ∈ Finset.antidiagonal k, coeff kl.1 f * coeff kl.2 g := fun k => coeff_mul k f g
  refine ⟨?_, ?_⟩
  · simp only [e]
    exact summable_norm_sum_mul_antidiagonal_of_summable_norm (f := fun k => coeff k f) (g := fun k => coeff k g) f1 g1
  · simp only [e]
    have h := tsum_mul_tsum_eq_tsum_sum_antidiagonal_of_summable_norm (f := fun k => coeff k f) (g := fun k => coeff k g) f1 g1
    rw [f2, g2] at h
    exact h.symm

theorem Sums.add {f g : ℝ⟦X⟧} {a b : ℝ} (hf : Sums f a) (hg : Sums g b) : Sums (f + g) (a + b) := by
  obtain ⟨f1, f2⟩ := hf
  obtain ⟨g1, g2⟩ := hg
  refine ⟨?_, ?_⟩
  · refine (f1.add g1).of_nonneg_of_le (fun _ => norm_nonneg _) fun k => ?_
    rw [map_add]; exact norm_add_le _ _
  · simp only [map_add]
    rw [f1.of_norm.tsum_add g1.of_norm, f2, g2]

theorem Sums.ofFin {f : ℝ⟦X⟧} (N : ℕ) (h : ∀ k, N ≤ k → coeff k f = 0) : Sums f (∑ k ∈ Finset.range N, coeff k f) := by
  refine ⟨?_, ?_⟩
  · refine summable_of_ne_finset_zero (s := Finset.range N) fun k hk => ?_
    rw [Finset.mem_range, not_lt] at hk
    rw [h k hk, norm_zero]
  · refine tsum_eq_sum fun k hk => ?_
    rw [Finset.mem_range, not_lt] at hk
    exact h k hk

theorem sums_C (a : ℝ) : Sums (PowerSeries.C a) a := by
  have := Sums.ofFin (f := PowerSeries.C a) 1 (fun k hk => by rw [coeff_C, if_neg (by omega)])
  simpa using this

theorem sums_X : Sums (X : ℝ⟦X⟧) 1 := by
  have := Sums.ofFin (f := (X : ℝ⟦X⟧)) 2 (fun k hk => by rw [coeff_X, if_neg (by omega)])
  simpa [Finset.sum_range_succ, coeff_X] using this

theorem sums_one_sub_X : Sums (1 - X : ℝ⟦X⟧) 0 := by
  have := (sums_C 1).add ((sums_C (-1)).mul sums_X)
  simpa [sub_eq_add_neg] using this

theorem Sums.pow {f : ℝ⟦X⟧} {a : ℝ} (hf : Sums f a) (n : ℕ) : Sums (f ^ n) (a ^ n) := by
  induction n with
  | zero => simpa using sums_C 1
  | succ n ih => rw [pow_succ, pow_succ]; exact ih.mul hf

theorem sums_sum (s : Finset ℕ) (f : ℕ → ℝ⟦X⟧) (v : ℕ → ℝ) (h : ∀ i ∈ s, Sums (f i) (v i)) : Sums (∑ i ∈ s, f i) (∑ i ∈ s, v i) := by
  classical
  induction s using Finset.induction_on with
  | empty => simpa using sums_C 0
  | insert i s hi ih =>
    rw [Finset.sum_insert hi, Finset.sum_insert hi]
    exact (h i (Finset.mem_insert_self _ _)).add (ih fun j hj => h j (Finset.mem_insert_of_mem hj))

/-- The response of a summable series to a convergent input converges. -/
theorem Sums.response {f : ℝ⟦X⟧} {v U : ℝ} (hf : Sums f v) {u : ℕ → ℝ} (hu : Tendsto u atTop (𝓝 U)) :
    Tendsto (fun k => coeff k (f * PowerSeries.mk u)) atTop (𝓝 (v * U)) := by
  obtain ⟨f1, f2⟩ := hf
  obtain ⟨B, hB⟩ : ∃ B, ∀ k, ‖u k‖ ≤ B := by
    obtain ⟨B, hB⟩ := (Metric.isBounded_range_of_tendsto u hu).exists_norm_le
    exact ⟨B, fun k => hB _ ⟨k, rfl⟩⟩
  have e : ∀ k, coeff k (f * PowerSeries.mk u) = ∑' i, if i ≤ k then coeff i f * u (k - i) else 0 := by
    intro k
    rw [coeff_mul, Finset.Nat.sum_antidiagonal_eq_sum_range_succ fun i j => coeff i f * coeff j (PowerSeries.mk u)]
    rw [tsum_eq_sum (s := Finset.range (k + 1)) fun i hi => by
      rw [Finset.mem_range, not_lt] at hi; rw [if_neg (by omega)]]
    refine Finset.sum_congr rfl fun i hi => ?_
    rw [Finset.mem_range] at hi
    rw [if_pos (by omega), coeff_mk]
  simp only [e]
  have hv : v * U = ∑' i, coeff i f * U := by rw [tsum_mul_right, f2]
  rw [hv]
  refine tendsto_tsum_of_dominated_convergence (bound := fun i => ‖coeff i f‖ * B) (f1.mul_right B) ?_ ?_
  · intro i
    have h1 : Tendsto (fun k => coeff i f * u (k - i)) atTop (𝓝 (coeff i f * U)) :=
      (hu.comp (tendsto_sub_atTop_nat i)).const_mul _
    refine h1.congr' ?_
    filter_upwards [eventually_ge_atTop i] with k hk
    rw [if_pos hk]
  · refine Eventually.of_forall fun k i => ?_
    split_ifs
    · rw [norm_mul]; exact mul_le_mul_of_nonneg_left (hB _) (norm_nonneg _)
    · rw [norm_zero]
      exact mul_nonneg (norm_nonneg _) ((norm_nonneg _).trans (hB 0))

/-- The system with denominator `A` is stable: its impulse response `1 / A` is absolutely summable. Not a definition of the
repository. -/
def Stable (A : ℝ⟦X⟧) : Prop := ∃ h : ℝ⟦X⟧, A * h = 1 ∧ Summable fun k => ‖coeff k h‖

/-- The solution of `A y = B u` for a stable `A`. -/
theorem settle {A B y : ℝ⟦X⟧} {a b U : ℝ} (hA : Sums A a) (hB : Sums B b) (hs : Stable A) {u : ℕ → ℝ} (hu : Tendsto u atTop (𝓝 U))
    (e : A * y = B * PowerSeries.mk u) : a ≠ 0 ∧ Tendsto (fun k => coeff k y) atTop (𝓝 (b / a * U)) := by
  obtain ⟨h, h1, h2⟩ := hs
  have hh : Sums h (∑' k, coeff k h) := ⟨h2, rfl⟩
  have p := hA.mul hh
  rw [h1] at p
  have p1 : a * (∑' k, coeff k h) = 1 := by
    rw [← p.2]
    have := (sums_C 1).2
    rwa [map_one] at this
  have a0 : a ≠ 0 := left_ne_zero_of_mul (by rw [p1]; exact one_ne_zero)
  refine ⟨a0, ?_⟩
  have hy : y = h * B * PowerSeries.mk u := by
    calc y = (A * h) * y := by rw [h1, one_mul]
      _ = h * (A * y) := by ring
      _ = _ := by rw [e]; ring
  rw [hy]
  have hv : b / a * U = (∑' k, coeff k h) * b * U := by
    rw [eq_div_of_mul_eq a0 ((_root_.mul_comm _ _).trans p1)]; ring
  rw [hv]
  exact (hh.mul hB).response hu

theorem saturate_max {lo hi : ℝ} (h : lo ≤ hi) (y : ℝ) : saturate y lo hi = max lo (min y hi) := by
  unfold saturate
  simp only [fLt, decide_eq_true_eq]
  split_ifs with h1 h2
  · rw [min_eq_left (h1.le.trans h), max_eq_left h1.le]
  · rw [min_eq_right h2.le, max_eq_right h]
  · rw [not_lt] at h1 h2
    rw [min_eq_left h2, max_eq_right h1]

theorem tendsto_saturate {lo hi : ℝ} (h : lo ≤ hi) {y : ℕ → ℝ} {Y : ℝ} (hy : Tendsto y atTop (𝓝 Y)) :
    Tendsto (fun k => saturate (y k) lo hi) atTop (𝓝 (saturate Y lo hi)) := by
  simp only [saturate_max h]
  exact tendsto_const_nhds.max (hy.min tendsto_const_nhds)

/-! ## Continuous systems -/

theorem sums_rule {m : Numa.IMethod} (hm : m ≠ .other) (dt : ℝ) : Sums (rule (weights m) dt) dt := by
  have h := (sums_C dt).mul (((sums_C (weights m : ℝ × ℝ × ℝ).1).add ((sums_C (weights m : ℝ × ℝ × ℝ).2.1).mul sums_X)).add
    ((sums_C (weights m : ℝ × ℝ × ℝ).2.2).mul (sums_X.pow 2)))
  have e : dt * ((weights m : ℝ × ℝ × ℝ).1 + (weights m : ℝ × ℝ × ℝ).2.1 * 1 + (weights m : ℝ × ℝ × ℝ).2.2 * 1 ^ 2) = dt := by
    cases m <;> first | exact absurd rfl hm | (simp only [weights]; norm_num)
  rw [e] at h
  exact h

theorem sums_tf (c : Array ℝ) (n : ℕ) {m : Numa.IMethod} (hm : m ≠ .other) (dt : ℝ) :
    Sums (tf c n (rule (weights m) dt)) (c.getD n 0 * dt ^ n) := by
  have h := sums_sum (Finset.range (n + 1)) (fun i => PowerSeries.C (c.getD i 0) * ((1 - X) ^ (n - i) * (X * rule (weights m) dt) ^ i))
    (fun i => c.getD i 0 * (0 ^ (n - i) * (1 * dt) ^ i)) fun i _ =>
      (sums_C _).mul ((sums_one_sub_X.pow _).mul ((sums_X.mul (sums_rule hm dt)).pow _))
  have e : ∑ i ∈ Finset.range (n + 1), c.getD i 0 * ((0 : ℝ) ^ (n - i) * (1 * dt) ^ i) = c.getD n 0 * dt ^ n := by
    rw [Finset.sum_range_succ, Finset.sum_eq_zero fun i hi => by
      rw [Finset.mem_range] at hi
      rw [zero_pow (by omega)]; ring]
    simp
  rw [e] at h
  exact h

/-- **C150** (continuous systems; partial: without feed-through) a continuous system of any order whose discretised denominator is
stable settles: for every input that converges to `U` the outputs converge to the static gain `num_n / den_n` times `U`, limited to the
output range - less the feed-through `num_0 / den_0` times `U`, which the code leaves out. -/
theorem C150_continuous_partial (s : CSys ℝ) (num den : Array ℝ) (x : Array (Numa.NState ℝ)) (n : ℕ)
    (m : Numa.IMethod) (dt : ℝ) (hn : 0 < n) (hnum : n + 1 ≤ num.size) (hden : n + 1 ≤ den.size)
    (hx : n ≤ x.size) (hm : ∀ i, i < n → (x.getD i Numa.NState.new).iMethod = m) (hm' : m ≠ .other)
    (h0 : den.getD 0 0 ≠ 0) (hd : s.delay = none) (hlim : s.min ≤ s.max) (hs : Stable (tf den n (rule (weights m) dt))) :
    ∃ s0, s.setup (some num) (some den) (some x) n dt = .ok (s0, true) ∧ ∀ (u : ℕ → ℝ) (U : ℝ), Tendsto u atTop (𝓝 U) →
      ∃ out : ℕ → ℝ, (∀ k, Prod.snd <$> feedAll CSys.excite s0 ((List.range k).map u) = .ok ((List.range k).map out)) ∧
        Tendsto out atTop (𝓝 (saturate ((num.getD n 0 / den.getD n 0 - num.getD 0 0 / den.getD 0 0) * U) s.min s.max)) := by
  obtain ⟨s0, e0, hr⟩ := C51_transfer_partial s num den x n m dt hn hnum hden hx hm h0 hd
  refine ⟨s0, e0, fun u U hu => ?_⟩
  obtain ⟨y, hy, hz⟩ := hr u
  refine ⟨fun i => saturate (y i) s.min s.max, hy, tendsto_saturate hlim ?_⟩
  obtain ⟨a0, hl⟩ := settle (sums_tf den n hm' dt) (sums_tf num n hm' dt) hs hu hz
  have dt0 : dt ^ n ≠ 0 := right_ne_zero_of_mul a0
  rw [mul_div_mul_right _ _ dt0] at hl
  have e : ∀ k, coeff (k + 1) (X * PowerSeries.mk y + PowerSeries.C (num.getD 0 0 / den.getD 0 0) * PowerSeries.mk u) =
      y k + num.getD 0 0 / den.getD 0 0 * u (k + 1) := by
    intro k
    rw [map_add, coeff_succ_X_mul, coeff_mk, coeff_C_mul, coeff_mk]
  have h1 := hl.comp (tendsto_add_atTop_nat 1)
  have h2 := ((hu.comp (tendsto_add_atTop_nat 1)).const_mul (num.getD 0 0 / den.getD 0 0))
  have h3 := h1.sub h2
  rw [← sub_mul] at h3
  refine h3.congr fun k => ?_
  simp only [Function.comp, e]
  ring

/-! ## Discrete systems -/

/-- The polynomial with the first `m` coefficients of `c`. Not a definition of the repository. -/
noncomputable def series (c : Array ℝ) (m : ℕ) : ℝ⟦X⟧ := PowerSeries.mk fun i => if i < m then c.getD i 0 else 0

theorem sums_series (c : Array ℝ) (m : ℕ) : Sums (series c m) (∑ i ∈ Finset.range m, c.getD i 0) := by
  have h := Sums.ofFin (f := series c m) m (fun k hk => by rw [series, coeff_mk, if_neg (by omega)])
  have e : ∑ k ∈ Finset.range m, coeff k (series c m) = ∑ i ∈ Finset.range m, c.getD i 0 :=
    Finset.sum_congr rfl fun k hk => by rw [series, coeff_mk, if_pos (Finset.mem_range.1 hk)]
  rwa [e] at h

theorem coeff_series_mul (c : Array ℝ) (m : ℕ) (y : ℕ → ℝ) (k : ℕ) :
    coeff k (series c m * PowerSeries.mk y) = ∑ i ∈ Finset.range m, c.getD i 0 * if i ≤ k then y (k - i) else 0 := by
  rw [coeff_mul, Finset.Nat.sum_antidiagonal_eq_sum_range_succ fun i j => coeff i (series c m) * coeff j (PowerSeries.mk y)]
  simp only [series, coeff_mk]
  have e1 : ∑ i ∈ Finset.range (k + 1), (if i < m then c.getD i 0 else 0) * y (k - i) =
      ∑ i ∈ (Finset.range (k + 1)).filter (· < m), c.getD i 0 * y (k - i) := by
    rw [Finset.sum_filter]
    exact Finset.sum_congr rfl fun i _ => by split_ifs <;> ring
  have e2 : ∑ i ∈ Finset.range m, c.getD i 0 * (if i ≤ k then y (k - i) else 0) =
      ∑ i ∈ (Finset.range m).filter (· ≤ k), c.getD i 0 * y (k - i) := by
    rw [Finset.sum_filter]
    exact Finset.sum_congr rfl fun i _ => by split_ifs <;> ring
  rw [e1, e2]
  refine Finset.sum_congr ?_ fun _ _ => rfl
  ext i
  simp only [Finset.mem_filter, Finset.mem_range]
  omega

/-- **C150** (discrete systems; partial: numerator and denominator of the same length, no input delay) a stable discrete system settles: for every input that converges to `U` the outputs converge to the static
gain - the sum of the numerator over the sum of the denominator - times `U`, limited to the output range. -/
theorem C150_discrete_partial (s : DSys ℝ) (num den x : Array ℝ) (m : ℕ) (hm : 0 < m) (hnum : num.size = m) (hden : den.size = m)
    (hx : m ≤ x.size) (hd : s.delay = none) (hlim : s.min ≤ s.max) (hs : Stable (series den m)) :
    ∃ s0, s.setup (some num) (some den) (some x) m m = .ok (s0, true) ∧ ∀ (u : ℕ → ℝ) (U : ℝ), Tendsto u atTop (𝓝 U) →
      ∃ out : ℕ → ℝ, (∀ k, Prod.snd <$> feedAll DSys.excite s0 ((List.range k).map u) = .ok ((List.range k).map out)) ∧
        Tendsto out atTop (𝓝 (saturate ((∑ i ∈ Finset.range m, num.getD i 0) / (∑ i ∈ Finset.range m, den.getD i 0) * U) s.min s.max)) := by
  have ha0 : den.getD 0 0 ≠ 0 := by
    obtain ⟨h, h1, -⟩ := hs
    have := congrArg (coeff 0) h1
    rw [coeff_zero_eq_constantCoeff_apply, map_mul, ← coeff_zero_eq_constantCoeff_apply, series, coeff_mk, if_pos hm] at this
    intro e
    rw [e, zero_mul] at this
    simp at this
  obtain ⟨s0, e0, hr⟩ := C48_difference_partial s num den x m hm hnum hden hx ha0 hd
  refine ⟨s0, e0, fun u U hu => ?_⟩
  obtain ⟨h, h1, h2⟩ := id hs
  obtain ⟨y, hy⟩ : ∃ y : ℕ → ℝ, PowerSeries.mk y = h * (series num m * PowerSeries.mk u) :=
    ⟨fun k => coeff k (h * (series num m * PowerSeries.mk u)), by ext k; rw [coeff_mk]⟩
  have hA : series den m * PowerSeries.mk y = series num m * PowerSeries.mk u := by
    rw [hy, ← _root_.mul_assoc, h1, one_mul]
  refine ⟨fun k => saturate (y k) s.min s.max, fun N => ?_, tendsto_saturate hlim ?_⟩
  · obtain ⟨s', ys, q1, q2, q3⟩ := hr ((List.range N).map u)
    rw [q1]
    have hl : ys.length = N := by rw [q2]; simp
    have key : ∀ k < N, ys.getD k 0 = y k := by
      intro k
      induction k using Nat.strong_induction_on with
      | _ k ih =>
        intro hk
        have d := q3 k (by simpa using hk)
        have c := congrArg (coeff k) hA
        rw [coeff_series_mul, coeff_series_mul] at c
        have r : ∑ i ∈ Finset.range m, num.getD i 0 * at' 0 ((List.range N).map u) k i =
            ∑ i ∈ Finset.range m, num.getD i 0 * if i ≤ k then u (k - i) else 0 := by
          refine Finset.sum_congr rfl fun i _ => ?_
          unfold at'
          split_ifs with hi
          · rw [List.getD_eq_getElem _ _ (by simp; omega)]; simp
          · rfl
        rw [r, ← c] at d
        obtain ⟨m', rfl⟩ : ∃ m', m = m' + 1 := ⟨m - 1, by omega⟩
        rw [Finset.sum_range_succ', Finset.sum_range_succ'] at d
        have t : ∑ i ∈ Finset.range m', den.getD (i + 1) 0 * at' 0 ys k (i + 1) =
            ∑ i ∈ Finset.range m', den.getD (i + 1) 0 * if i + 1 ≤ k then y (k - (i + 1)) else 0 := by
          refine Finset.sum_congr rfl fun i _ => ?_
          unfold at'
          split_ifs with hi
          · rw [ih (k - (i + 1)) (by omega) (by omega)]
          · rfl
        rw [t] at d
        have d' := add_left_cancel d
        simp only [at', zero_le, if_true, Nat.sub_zero] at d'
        exact mul_left_cancel₀ ha0 d'
    rw [Out.map_ok]
    congr 1
    refine List.ext_getElem (by simp [hl]) fun k k1 k2 => ?_
    have k3 : k < N := by simpa using k2
    have := key k k3
    rw [List.getD_eq_getElem _ _ (by omega)] at this
    simp [this]
  · obtain ⟨-, hl⟩ := settle (sums_series den m) (sums_series num m) hs hu hA
    simpa only [coeff_mk] using hl

/-! ## First order lags -/

theorem stable_first {a b : ℝ} (h : |b| < |a|) : Stable (PowerSeries.C a - PowerSeries.C b * X) := by
  have a0 : a ≠ 0 := abs_pos.1 ((abs_nonneg b).trans_lt h)
  refine ⟨PowerSeries.mk fun k => (b / a) ^ k / a, ?_, ?_⟩
  · ext k
    rw [sub_mul, map_sub, coeff_C_mul, coeff_mk, _root_.mul_assoc, coeff_C_mul]
    cases k with
    | zero => simp [a0]
    | succ k =>
      rw [coeff_succ_X_mul, coeff_mk, coeff_one, if_neg (by omega), pow_succ]
      field_simp
      ring
  · simp only [coeff_mk, norm_div, norm_pow]
    refine (summable_geometric_of_lt_one (by positivity) ?_).div_const _
    rw [Real.norm_eq_abs, Real.norm_eq_abs]
    exact (div_lt_one (abs_pos.2 a0)).2 h

theorem tf_lag (num : Array ℝ) (tau dt : ℝ) (hn : num = #[tau, 1]) :
    tf num 1 (rule (weights .rectangular) dt) = PowerSeries.C tau - PowerSeries.C (tau - dt) * X := by
  subst hn
  simp [tf, rule, weights, Finset.sum_range_succ]
  ring

/-- **C150** (first order lag) the lag `gain / (tau s + 1)` integrated with the rectangular rule settles at `gain * U` for every step
below twice the time constant. -/
theorem C150_lag (s : CSys ℝ) (x : Array (Numa.NState ℝ)) (gain tau dt : ℝ) (ht : 0 < dt) (htau : dt < 2 * tau)
    (hx : 1 ≤ x.size) (hm : (x.getD 0 Numa.NState.new).iMethod = .rectangular) (hd : s.delay = none) (hlim : s.min ≤ s.max) :
    ∃ s0, s.setup (some #[0, gain]) (some #[tau, 1]) (some x) 1 dt = .ok (s0, true) ∧ ∀ (u : ℕ → ℝ) (U : ℝ), Tendsto u atTop (𝓝 U) →
      ∃ out : ℕ → ℝ, (∀ k, Prod.snd <$> feedAll CSys.excite s0 ((List.range k).map u) = .ok ((List.range k).map out)) ∧
        Tendsto out atTop (𝓝 (saturate (gain * U) s.min s.max)) := by
  have h := C150_continuous_partial s #[0, gain] #[tau, 1] x 1 .rectangular dt (by decide) (by simp) (by simp) hx
    (fun i hi => by obtain rfl : i = 0 := by omega
                    exact hm) (by decide) (by simp; linarith) hd hlim (by
      rw [tf_lag _ tau dt rfl]
      refine stable_first ?_
      rw [abs_of_pos (show 0 < tau by linarith), _root_.abs_lt]
      constructor <;> linarith)
  simpa using h

/-- **C150 is false of the code for systems with feed-through**: `(s + 2) / (s + 1)` has the static gain 2, and its output for the
constant input 1 settles at 1. -/
theorem C150_false (s : CSys ℝ) (d : Numa.DMethod) (hd : s.delay = none) (hlo : s.min ≤ 1) (hhi : 1 ≤ s.max) :
    ∃ s0 : CSys ℝ, s.setup (some #[1, 2]) (some #[1, 1]) (some #[⟨0, 0, 0, .rectangular, d⟩]) 1 (1 / 2) = .ok (s0, true) ∧
    ∃ out : ℕ → ℝ, (∀ k, Prod.snd <$> feedAll CSys.excite s0 ((List.range k).map fun _ => 1) = .ok ((List.range k).map out)) ∧
      Tendsto out atTop (𝓝 1) := by
  obtain ⟨s0, h1, h2⟩ := C150_continuous_partial s #[1, 2] #[1, 1] #[⟨0, 0, 0, .rectangular, d⟩] 1 .rectangular (1 / 2)
    (by decide) (by simp) (by simp) (by simp) (fun i hi => by obtain rfl : i = 0 := by omega
                                                              rfl) (by decide) (by simp) hd (hlo.trans hhi) (by
      rw [tf_lag _ 1 _ rfl]
      exact stable_first (by norm_num [abs_of_pos]))
  refine ⟨s0, h1, ?_⟩
  obtain ⟨out, h3, h4⟩ := h2 (fun _ => 1) 1 tendsto_const_nhds
  refine ⟨out, h3, ?_⟩
  have e : saturate ((Array.getD #[(1 : ℝ), 2] 1 0 / Array.getD #[(1 : ℝ), 1] 1 0 -
      Array.getD #[(1 : ℝ), 2] 0 0 / Array.getD #[(1 : ℝ), 1] 0 0) * 1) s.min s.max = 1 := by
    rw [saturate_max (hlo.trans hhi)]
    norm_num
    rw [min_eq_left hhi, max_eq_right hlo]
  rwa [e] at h4

/-! ## Instances -/

-- C150: 3 / (2 s + 1) with a step of one half
example : ∃ s0, ({ CSys.new with min := -10, max := 10 } : CSys ℝ).setup (some #[0, 3]) (some #[2, 1])
      (some #[⟨0, 0, 0, .rectangular, .twoPoints⟩]) 1 (1 / 2) = .ok (s0, true) ∧ ∀ (u : ℕ → ℝ) (U : ℝ), Tendsto u atTop (𝓝 U) →
      ∃ out : ℕ → ℝ, (∀ k, Prod.snd <$> feedAll CSys.excite s0 ((List.range k).map u) = .ok ((List.range k).map out)) ∧
        Tendsto out atTop (𝓝 (saturate (3 * U) (-10) 10)) :=
  C150_lag { CSys.new with min := -10, max := 10 } _ 3 2 (1 / 2) (by norm_num) (by norm_num) (by simp) rfl rfl (by norm_num)

-- C150: y(k) = y(k-1) / 2 + u(k) + u(k-1) has the static gain 4
example : ∃ s0, ({ DSys.new with min := -10, max := 10 } : DSys ℝ).setup (some #[1, 1]) (some #[1, -1 / 2]) (some #[0, 0]) 2 2 = .ok (s0, true) ∧
    ∀ (u : ℕ → ℝ) (U : ℝ), Tendsto u atTop (𝓝 U) →
      ∃ out : ℕ → ℝ, (∀ k, Prod.snd <$> feedAll DSys.excite s0 ((List.range k).map u) = .ok ((List.range k).map out)) ∧
        Tendsto out atTop (𝓝 (saturate (4 * U) (-10) 10)) := by
  have e : series #[1, -1 / 2] 2 = PowerSeries.C 1 - PowerSeries.C (1 / 2) * X := by
    ext k
    rw [series, coeff_mk, map_sub, coeff_C_mul, coeff_C, coeff_X]
    rcases k with _ | _ | k <;> norm_num
  have h := C150_discrete_partial { DSys.new with min := -10, max := 10 } #[1, 1] #[1, -1 / 2] #[0, 0] 2 (by decide) rfl rfl (by simp) rfl
    (by norm_num) (by rw [e]; exact stable_first (by norm_num [abs_of_pos]))
  norm_num [Finset.sum_range_succ] at h ⊢
  exact h

end Verif.Ltisys
