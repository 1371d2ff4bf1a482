import Verif.Numa.Props
import Mathlib.Analysis.SpecialFunctions.Integrals.Basic
import Mathlib.Analysis.SpecialFunctions.Trigonometric.Bounds
import Mathlib.Analysis.Calculus.MeanValue

/-!
# Convergence of the integrators and derivatives (C163, exact arithmetic over the reals)
-/

namespace Verif.Numa

open Arith MeasureTheory

/-- The increment of the integral in one step. Not a definition of the repository. -/
noncomputable def inc (m : IMethod) (s x1 x2 dt : ℝ) : ℝ :=
  match m with
  | .rectangular => s * dt
  | .trapezoidal => 1 / 2 * (s + x1) * dt
  | .simpson => 1 / 6 * (s + 4 * x1 + x2) * dt
  | .quadratic => 1 / 12 * (5 * s + 8 * x1 - x2) * dt
  | .other => 0

theorem integrate_inc (I0 x1 x2 s dt : ℝ) (m : IMethod) (d : DMethod) :
    ((⟨I0, x1, x2, m, d⟩ : NState ℝ).integrate s dt).1 = ⟨I0 + inc m s x1 x2 dt, s, x1, m, d⟩ := by
  cases m <;> simp [NState.integrate, NState.update, inc]

/-- Errors of the steps add up. -/
theorem feed_error (f : ℝ → ℝ) (hf : Continuous f) (m : IMethod) (d : DMethod) (dt e : ℝ)
    (h : ∀ t, |inc m (f (t + dt)) (f t) (f (t - dt)) dt - ∫ x in t..t + dt, f x| ≤ e) (n : ℕ) (t0 I0 : ℝ) :
    |(feed (⟨I0, f t0, f (t0 - dt), m, d⟩ : NState ℝ) dt (samples f t0 dt n)).x0 - (I0 + ∫ x in t0..t0 + n * dt, f x)| ≤ n * e := by
  induction n generalizing t0 I0 with
  | zero => simp [samples, feed]
  | succ n ih =>
    rw [samples_succ, feed, integrate_inc]
    have ih := ih (t0 + dt) (I0 + inc m (f (t0 + dt)) (f t0) (f (t0 - dt)) dt)
    rw [add_sub_cancel_right] at ih
    have hs : ∫ x in t0..t0 + ((n + 1 : ℕ) : ℝ) * dt, f x = (∫ x in t0..t0 + dt, f x) + ∫ x in t0 + dt..t0 + dt + n * dt, f x := by
      rw [intervalIntegral.integral_add_adjacent_intervals (hf.intervalIntegrable _ _) (hf.intervalIntegrable _ _)]
      congr 1; push_cast; ring
    rw [hs]
    have h0 := h t0
    generalize ∫ x in t0..t0 + dt, f x = A at *
    generalize ∫ x in t0 + dt..t0 + dt + n * dt, f x = B at *
    generalize inc m (f (t0 + dt)) (f t0) (f (t0 - dt)) dt = D at *
    generalize (feed _ dt (samples f (t0 + dt) dt n)).x0 = F at *
    have e1 : F - (I0 + (A + B)) = (F - (I0 + D + B)) + (D - A) := by ring
    rw [e1]
    refine (abs_add_le _ _).trans ?_
    push_cast; linarith

theorem lip_continuous {f : ℝ → ℝ} {L : ℝ} (hf : ∀ a b, |f a - f b| ≤ L * |a - b|) : Continuous f := by
  have : LipschitzWith (Real.toNNReal L) f := by
    refine LipschitzWith.of_dist_le_mul fun a b => ?_
    rw [Real.dist_eq, Real.dist_eq]
    refine (hf a b).trans (mul_le_mul_of_nonneg_right ?_ (abs_nonneg _))
    exact Real.le_coe_toNNReal L
  exact this.continuous

/-- The integral over one step against the value at one node. -/
theorem node_error {f : ℝ → ℝ} {L : ℝ} (hf : ∀ a b, |f a - f b| ≤ L * |a - b|) (t dt c k : ℝ) (hdt : 0 ≤ dt) (hL : 0 ≤ L)
    (hc : ∀ x, t ≤ x → x ≤ t + dt → |x - c| ≤ k) : |f c * dt - ∫ x in t..t + dt, f x| ≤ L * k * dt := by
  have hi := (lip_continuous hf).intervalIntegrable t (t + dt) (μ := volume)
  have e : f c * dt - ∫ x in t..t + dt, f x = ∫ x in t..t + dt, (f c - f x) := by
    rw [intervalIntegral.integral_sub (by simp) hi, intervalIntegral.integral_const]; simp [mul_comm]
  rw [e]
  have := intervalIntegral.norm_integral_le_of_norm_le_const (a := t) (b := t + dt) (C := L * k) (f := fun x => f c - f x) (by
    intro x hx
    rw [Set.uIoc_of_le (by linarith)] at hx
    rw [Real.norm_eq_abs]
    refine (hf c x).trans (mul_le_mul_of_nonneg_left ?_ hL)
    rw [abs_sub_comm]
    exact hc x hx.1.le hx.2)
  rw [Real.norm_eq_abs, add_sub_cancel_left, abs_of_nonneg hdt] at this
  exact this

/-- **C163** (first order). With every method the integral of a Lipschitz signal is approached: after `n` steps of length `dt` the
integrator differs from the true integral by at most `1.25 L dt` times the elapsed time. -/
theorem C163_integral (f : ℝ → ℝ) (L : ℝ) (hL : 0 ≤ L) (hf : ∀ a b, |f a - f b| ≤ L * |a - b|) (m : IMethod) (hm : m ≠ .other)
    (d : DMethod) (t0 dt I0 : ℝ) (hdt : 0 ≤ dt) (n : ℕ) :
    |(feed (⟨I0, f t0, f (t0 - dt), m, d⟩ : NState ℝ) dt (samples f t0 dt n)).x0 - (I0 + ∫ x in t0..t0 + n * dt, f x)| ≤
      1.25 * L * dt * (n * dt) := by
  have := feed_error f (lip_continuous hf) m d dt (1.25 * L * dt * dt) (fun t => ?_) n t0 I0
  · refine this.trans (le_of_eq ?_); ring
  · have n1 := node_error hf t dt (t + dt) dt hdt hL (fun x h1 h2 => by rw [abs_le]; constructor <;> linarith)
    have n2 := node_error hf t dt t dt hdt hL (fun x h1 h2 => by rw [abs_le]; constructor <;> linarith)
    have n3 := node_error hf t dt (t - dt) (2 * dt) hdt hL (fun x h1 h2 => by rw [abs_le]; constructor <;> linarith)
    have p : 0 ≤ L * dt * dt := by positivity
    generalize ∫ x in t..t + dt, f x = A at *
    rw [abs_le] at n1 n2 n3 ⊢
    obtain ⟨n1, n1'⟩ := n1
    obtain ⟨n2, n2'⟩ := n2
    obtain ⟨n3, n3'⟩ := n3
    cases m <;> simp only [inc] <;> constructor <;> first | exact absurd rfl hm | (norm_num; linarith)

/-! ## Second order -/

theorem taylor {f f' : ℝ → ℝ} {K : ℝ} (hK : 0 ≤ K) (hd : ∀ x, HasDerivAt f (f' x) x) (hf : ∀ a b, |f' a - f' b| ≤ K * |a - b|) (t s : ℝ) :
    |f s - f t - f' t * (s - t)| ≤ K * (s - t) ^ 2 := by
  have h := Convex.norm_image_sub_le_of_norm_hasDerivWithin_le (f := fun x => f x - f' t * x) (f' := fun x => f' x - f' t)
    (s := Set.uIcc t s) (C := K * |s - t|) (x := t) (y := s)
    (fun x _ => by
      have := ((hd x).sub ((hasDerivAt_id x).const_mul (f' t))).hasDerivWithinAt (s := Set.uIcc t s)
      rw [mul_one] at this
      exact this)
    (fun x hx => by
      rw [Real.norm_eq_abs]
      refine (hf x t).trans (mul_le_mul_of_nonneg_left ?_ hK)
      exact Set.abs_sub_left_of_mem_uIcc hx) (convex_uIcc t s) Set.left_mem_uIcc Set.right_mem_uIcc
  rw [Real.norm_eq_abs, Real.norm_eq_abs] at h
  have e : f s - f' t * s - (f t - f' t * t) = f s - f t - f' t * (s - t) := by ring
  rw [e, mul_assoc, abs_mul_abs_self] at h
  rw [pow_two]; exact h

/-- **C163** (derivative). For a signal whose derivative is Lipschitz the methods approach the derivative: the two-point and the
backward formula at the newest sample, the forward formula two steps before it. -/
theorem C163_derivative (f f' : ℝ → ℝ) (K : ℝ) (hK : 0 ≤ K) (hd : ∀ x, HasDerivAt f (f' x) x)
    (hf : ∀ a b, |f' a - f' b| ≤ K * |a - b|) (t dt I0 : ℝ) (hdt : 0 < dt) (i : IMethod) (upd : Bool) :
    |((⟨I0, f (t - dt), f (t - 2 * dt), i, .twoPoints⟩ : NState ℝ).derive (f t) dt upd).2 - f' t| ≤ K * dt ∧
    |((⟨I0, f (t - dt), f (t - 2 * dt), i, .backward⟩ : NState ℝ).derive (f t) dt upd).2 - f' t| ≤ 4 * K * dt ∧
    |((⟨I0, f (t - dt), f (t - 2 * dt), i, .forward⟩ : NState ℝ).derive (f t) dt upd).2 - f' (t - 2 * dt)| ≤ 4 * K * dt := by
  simp only [NState.derive, fLit, fSub, fAdd, fMul, fDiv, Rat.cast_ofNat]
  have k1 := taylor hK hd hf t (t - dt)
  have k2 := taylor hK hd hf t (t - 2 * dt)
  have k3 := taylor hK hd hf (t - 2 * dt) (t - dt)
  have k4 := taylor hK hd hf (t - 2 * dt) t
  rw [show t - dt - t = -dt by ring, neg_sq] at k1
  rw [show t - 2 * dt - t = -(2 * dt) by ring, neg_sq] at k2
  rw [show t - dt - (t - 2 * dt) = dt by ring] at k3
  rw [show t - (t - 2 * dt) = 2 * dt by ring] at k4
  obtain ⟨k1, k1'⟩ := abs_le.1 k1
  obtain ⟨k2, k2'⟩ := abs_le.1 k2
  obtain ⟨k3, k3'⟩ := abs_le.1 k3
  obtain ⟨k4, k4'⟩ := abs_le.1 k4
  have e1 : (f t - f (t - dt)) / dt - f' t = (f t - f (t - dt) - f' t * dt) / dt := by field_simp
  have e2 : (3 * f t - 4 * f (t - dt) + f (t - 2 * dt)) / (2 * dt) - f' t =
    (3 * f t - 4 * f (t - dt) + f (t - 2 * dt) - f' t * (2 * dt)) / (2 * dt) := by field_simp
  have e3 : (4 * f (t - dt) - 3 * f (t - 2 * dt) - f t) / (2 * dt) - f' (t - 2 * dt) =
    (4 * f (t - dt) - 3 * f (t - 2 * dt) - f t - f' (t - 2 * dt) * (2 * dt)) / (2 * dt) := by field_simp
  have p2 : (0 : ℝ) < 2 * dt := by linarith
  rw [e1, e2, e3, abs_div, abs_div, abs_div, abs_of_pos hdt, abs_of_pos p2, div_le_iff₀ hdt, div_le_iff₀ p2, div_le_iff₀ p2]
  refine ⟨?_, ?_, ?_⟩ <;> rw [abs_le] <;> constructor <;> nlinarith

/-- **C163** (second order). For a signal whose derivative is Lipschitz the trapezoidal and the quadratic method are of second
order. (`C163_simpson_false`: the method called Simpson is not.) -/
theorem C163_second_partial (f f' : ℝ → ℝ) (K : ℝ) (hK : 0 ≤ K) (hd : ∀ x, HasDerivAt f (f' x) x)
    (hf : ∀ a b, |f' a - f' b| ≤ K * |a - b|) (m : IMethod) (hm : m = .trapezoidal ∨ m = .quadratic) (d : DMethod) (t0 dt I0 : ℝ)
    (hdt : 0 ≤ dt) (n : ℕ) :
    |(feed (⟨I0, f t0, f (t0 - dt), m, d⟩ : NState ℝ) dt (samples f t0 dt n)).x0 - (I0 + ∫ x in t0..t0 + n * dt, f x)| ≤
      1.5 * K * dt ^ 2 * (n * dt) := by
  have hc : Continuous f := continuous_iff_continuousAt.2 fun x => (hd x).continuousAt
  have := feed_error f hc m d dt (1.5 * K * dt ^ 3) (fun t => ?_) n t0 I0
  · refine this.trans (le_of_eq ?_); ring
  · have k1 := taylor hK hd hf t (t + dt)
    have k2 := taylor hK hd hf t (t - dt)
    rw [add_sub_cancel_left] at k1
    rw [show t - dt - t = -dt by ring, neg_sq] at k2
    have hi := hc.intervalIntegrable t (t + dt) (μ := volume)
    have hi2 : IntervalIntegrable (fun x => f t + f' t * (x - t)) volume t (t + dt) := by
      apply Continuous.intervalIntegrable; fun_prop
    have e : ∫ x in t..t + dt, (f t + f' t * (x - t)) = f t * dt + f' t * dt ^ 2 / 2 := by
      rw [intervalIntegral.integral_add (by simp) (by apply Continuous.intervalIntegrable; fun_prop),
        intervalIntegral.integral_const, intervalIntegral.integral_const_mul,
        intervalIntegral.integral_comp_sub_right (fun x => x) t, integral_id]
      simp
      ring
    have k3 : |(∫ x in t..t + dt, f x) - (f t * dt + f' t * dt ^ 2 / 2)| ≤ K * dt ^ 3 := by
      rw [← e, ← intervalIntegral.integral_sub hi hi2]
      have := intervalIntegral.norm_integral_le_of_norm_le_const (a := t) (b := t + dt) (C := K * dt ^ 2)
        (f := fun x => f x - (f t + f' t * (x - t))) (by
        intro x hx
        rw [Set.uIoc_of_le (by linarith)] at hx
        rw [Real.norm_eq_abs, ← sub_sub]
        refine (taylor hK hd hf t x).trans (mul_le_mul_of_nonneg_left ?_ hK)
        exact pow_le_pow_left₀ (by linarith [hx.1]) (by linarith [hx.2]) 2)
      rw [Real.norm_eq_abs, add_sub_cancel_left, abs_of_nonneg hdt] at this
      refine this.trans (le_of_eq (by ring))
    generalize ∫ x in t..t + dt, f x = A at *
    have p : 0 ≤ K * dt ^ 3 := by positivity
    rw [abs_le] at k1 k2 k3 ⊢
    obtain ⟨k1, k1'⟩ := k1
    obtain ⟨k2, k2'⟩ := k2
    obtain ⟨k3, k3'⟩ := k3
    have q1 := mul_le_mul_of_nonneg_right k1 hdt
    have q1' := mul_le_mul_of_nonneg_right k1' hdt
    have q2 := mul_le_mul_of_nonneg_right k2 hdt
    have q2' := mul_le_mul_of_nonneg_right k2' hdt
    rcases hm with rfl | rfl <;> simp only [inc] <;> constructor <;> norm_num at * <;> nlinarith

/-- **C163 (second order) is false of the method called Simpson**: the integral of `t` from 0 to 1, whose derivative is constant, is
1 / 2; with `n` steps the method gives `1 / 2 - 1 / (2 n)`. -/
theorem C163_simpson_false (n : ℕ) (hn : 0 < n) :
    (feed (⟨0, 0, -(1 / (n : ℝ)), .simpson, .twoPoints⟩ : NState ℝ) (1 / n) (samples (fun t => t) 0 (1 / n) n)).x0 =
      1 / 2 - 1 / (2 * n) := by
  have := C54_simpson (K := ℝ) 0 1 0 (1 / n) 0 .twoPoints n
  simp only [one_mul, zero_add, mul_zero, zero_sub] at this
  have n0 : (n : ℝ) ≠ 0 := by exact_mod_cast hn.ne'
  rw [this]
  field_simp
  ring

/-- The sine meets the hypotheses: it is Lipschitz with constant 1, as is its derivative. -/
example : (∀ x, HasDerivAt Real.sin (Real.cos x) x) ∧ (∀ a b, |Real.sin a - Real.sin b| ≤ 1 * |a - b|) ∧
    ∀ a b, |Real.cos a - Real.cos b| ≤ 1 * |a - b| := by
  refine ⟨Real.hasDerivAt_sin, fun a b => ?_, fun a b => ?_⟩
  · rw [one_mul]; exact Real.abs_sin_sub_sin_le a b
  · rw [one_mul]; exact Real.abs_cos_sub_cos_le a b

end Verif.Numa
