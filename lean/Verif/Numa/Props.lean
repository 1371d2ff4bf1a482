import Verif.Numa.Model

/-!
# Property C54: orders of the integrators and derivatives (exact arithmetic)
-/

namespace Verif.Numa

open Arith

variable {K : Type u} [Field K] [LinearOrder K] [IsStrictOrderedRing K]

/-- Feed a list of samples to `integrate` with step `dt`. -/
def feed (st : NState K) (dt : K) : List K → NState K
  | [] => st
  | s :: l => feed (st.integrate s dt).1 dt l

/-- The samples `f(t0+dt), f(t0+2dt), ..., f(t0+n*dt)` (specification side). -/
def samples (f : K → K) (t0 dt : K) (n : Nat) : List K :=
  (List.range n).map (fun (i : ℕ) => f (t0 + ((i : K) + 1) * dt))

omit [LinearOrder K] [IsStrictOrderedRing K] in
theorem samples_succ (f : K → K) (t0 dt : K) (n : Nat) :
    samples f t0 dt (n + 1) = f (t0 + dt) :: samples f (t0 + dt) dt n := by
  unfold samples
  rw [List.range_succ_eq_map, List.map_cons, List.map_map]
  congr 1
  · simp
  · apply List.map_congr_left
    intro i _
    simp only [Function.comp_apply, Nat.succ_eq_add_one]
    congr 1
    push_cast; ring

/-- **C54** for every polynomial `f = a0 + a1 t + a2 t^2` of the degree of the method, the
integrator started with the right history holds the exact integral after any number of steps of
any size: `I0 + F(t0 + n dt) - F(t0)` with `F = a0 t + a1 t^2/2 + a2 t^3/3`. -/
theorem C54_integrate (a0 a1 a2 t0 dt I0 : K) (m : IMethod) (d : DMethod) (n : Nat)
    (hm : (m = .rectangular ∧ a1 = 0 ∧ a2 = 0) ∨ (m = .trapezoidal ∧ a2 = 0) ∨ m = .quadratic) :
    (feed ⟨I0, a0 + a1 * t0 + a2 * t0 ^ 2, a0 + a1 * (t0 - dt) + a2 * (t0 - dt) ^ 2, m, d⟩ dt
      (samples (fun t => a0 + a1 * t + a2 * t ^ 2) t0 dt n)).x0
    = I0 + ((a0 * (t0 + n * dt) + a1 * (t0 + n * dt) ^ 2 / 2 + a2 * (t0 + n * dt) ^ 3 / 3)
        - (a0 * t0 + a1 * t0 ^ 2 / 2 + a2 * t0 ^ 3 / 3)) := by
  induction n generalizing t0 I0 with
  | zero => simp [samples, feed]
  | succ n ih =>
    rw [samples_succ]
    rcases hm with ⟨rfl, rfl, rfl⟩ | ⟨rfl, rfl⟩ | rfl
    · have h := ih (t0 + dt) (I0 + a0 * dt)
      simp only [feed, NState.integrate, NState.update, if_true, fAdd, fMul] at h ⊢
      simp only [zero_mul, add_zero] at h ⊢
      rw [h]; push_cast; ring
    · have h := ih (t0 + dt) (I0 + (1 / 2) * ((a0 + a1 * (t0 + dt)) + (a0 + a1 * t0)) * dt)
      simp only [feed, NState.integrate, NState.update, if_true, fAdd, fMul, fLit] at h ⊢
      simp only [zero_mul, add_zero, add_sub_cancel_right] at h ⊢
      push_cast at h ⊢
      rw [h]; ring
    · have h := ih (t0 + dt) (I0 + (1 / 12) * (5 * (a0 + a1 * (t0 + dt) + a2 * (t0 + dt) ^ 2)
          + 8 * (a0 + a1 * t0 + a2 * t0 ^ 2)
          - (a0 + a1 * (t0 - dt) + a2 * (t0 - dt) ^ 2)) * dt)
      simp only [feed, NState.integrate, NState.update, if_true, fAdd, fMul, fLit, fDiv,
        fSub] at h ⊢
      simp only [add_sub_cancel_right] at h
      push_cast at h ⊢
      rw [h]; ring

-- f(t) = 1 + 2 t + 3 t^2 from t0 = 1 in three steps of 1/2
example : (feed (K := ℚ) ⟨0, 6, 2 + 3 / 4, .quadratic, .twoPoints⟩ (1 / 2)
    (samples (fun t => 1 + 2 * t + 3 * t ^ 2) 1 (1 / 2) 3)).x0 = 171 / 8 := by
  simp [samples, List.range_succ, feed, NState.integrate, NState.update]; norm_num

/-- **C54** (Simpson) the Simpson rule of the code divides the two-step rule by two: it is exact for
constants, but every step of a linear signal of slope `a1` is short by `a1 * dt^2 / 2`. -/
theorem C54_simpson (a0 a1 t0 dt I0 : K) (d : DMethod) (n : Nat) :
    (feed ⟨I0, a0 + a1 * t0, a0 + a1 * (t0 - dt), .simpson, d⟩ dt
      (samples (fun t => a0 + a1 * t) t0 dt n)).x0
    = I0 + ((a0 * (t0 + n * dt) + a1 * (t0 + n * dt) ^ 2 / 2) - (a0 * t0 + a1 * t0 ^ 2 / 2))
      - n * (a1 * dt ^ 2 / 2) := by
  induction n generalizing t0 I0 with
  | zero => simp [samples, feed]
  | succ n ih =>
    rw [samples_succ]
    have h := ih (t0 + dt) (I0 + (1 / 6) * ((a0 + a1 * (t0 + dt)) + 4 * (a0 + a1 * t0)
          + (a0 + a1 * (t0 - dt))) * dt)
    simp only [feed, NState.integrate, NState.update, if_true, fAdd, fMul, fLit, fDiv] at h ⊢
    simp only [add_sub_cancel_right] at h
    push_cast at h ⊢
    rw [h]; ring

/-- **C54** derivatives: with the last two samples of `f = a0 + a1 t + a2 t^2` stored and `dt ≠ 0`,
the two-point rule gives the slope of a linear signal, the backward rule the derivative at the new
sample and the forward rule the derivative at the oldest sample of a quadratic signal. -/
theorem C54_derive (a0 a1 a2 t dt I0 : K) (i : IMethod) (upd : Bool) (hdt : dt ≠ 0) :
    (a2 = 0 → ((⟨I0, a0 + a1 * (t - dt), a0 + a1 * (t - 2 * dt), i, .twoPoints⟩ : NState K).derive
      (a0 + a1 * t) dt upd).2 = a1) ∧
    ((⟨I0, a0 + a1 * (t - dt) + a2 * (t - dt) ^ 2, a0 + a1 * (t - 2 * dt) + a2 * (t - 2 * dt) ^ 2,
        i, .backward⟩ : NState K).derive (a0 + a1 * t + a2 * t ^ 2) dt upd).2 = a1 + 2 * a2 * t ∧
    ((⟨I0, a0 + a1 * (t - dt) + a2 * (t - dt) ^ 2, a0 + a1 * (t - 2 * dt) + a2 * (t - 2 * dt) ^ 2,
        i, .forward⟩ : NState K).derive (a0 + a1 * t + a2 * t ^ 2) dt upd).2
      = a1 + 2 * a2 * (t - 2 * dt) := by
  have h2 : (2 : K) ≠ 0 := by norm_num
  refine ⟨fun _ => ?_, ?_, ?_⟩ <;>
    simp only [NState.derive, fAdd, fMul, fLit, fDiv, fSub] <;> push_cast <;> field_simp <;> ring

omit [IsStrictOrderedRing K] in
/-- `derive` and `integrate` shift the history by one sample, unless asked not to. -/
theorem C54_history (st : NState K) (s dt : K) :
    (st.integrate s dt).1.x1 = s ∧ (st.integrate s dt).1.x2 = st.x1 ∧
    (st.derive s dt).1.x1 = s ∧ (st.derive s dt).1.x2 = st.x1 ∧
    (st.derive s dt false).1 = st := by
  refine ⟨rfl, ?_, rfl, rfl, rfl⟩
  simp only [NState.integrate, NState.update, if_true]
  cases st.iMethod <;> rfl

example : ((⟨0, 5, 2, .trapezoidal, .backward⟩ : NState ℚ).derive 10 1 true).2 = 6 := by
  simp [NState.derive]; norm_num

end Verif.Numa
