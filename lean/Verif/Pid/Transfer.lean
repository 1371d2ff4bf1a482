import Verif.Pid.Windup

/-!
# Manual mode and bumpless transfer (C145, C146)
-/

namespace Verif.Pid

open Arith Numa

universe u

section AnyArithmetic
variable {R : Type u} [Arith R] [Trans R]

/-- The manual signal of a controller that can be reached: `b_state` keeps its default method and `m` is its last result. -/
structure Tracks (s : Ctl R) : Prop where
  init : s.isInitialized = true
  bm : s.bState.iMethod = .trapezoidal
  m : s.m = s.bState.x0

/-- The settings of `t` that matter for the manual signal are those of `s`. -/
structure SameManual (s t : Ctl R) : Prop where
  kt : t.kt = s.kt
  kw : t.kw = s.kw
  dt : t.dt = s.dt
  lo : t.satMin = s.satMin
  hi : t.satMax = s.satMax
  input : t.mInput = s.mInput
  mode : t.mode = s.mode

theorem SameManual.refl (s : Ctl R) : SameManual s s := ⟨rfl, rfl, rfl, rfl, rfl, rfl, rfl⟩

theorem SameManual.trans {s t v : Ctl R} (h : SameManual s t) (k : SameManual t v) : SameManual s v :=
  ⟨k.1.trans h.1, k.2.trans h.2, k.3.trans h.3, k.4.trans h.4, k.5.trans h.5, k.6.trans h.6, k.7.trans h.7⟩

/-- What a call of `control` does to the manual signal, in any mode, with or without model reference and auto-tuning. -/
theorem track_step (s : Ctl R) (h : Tracks s) (w y r : R) :
    let bt := s.kt *. s.mInput +. s.kw *. (s.uSat -. s.m)
    let t := (s.control w y r).1
    Tracks t ∧ SameManual s t ∧ t.m = s.m +. lit (1 / 2) *. (bt +. s.bState.x1) *. s.dt ∧ t.bState.x1 = bt ∧
      t.uSat = (s.control w y r).2 ∧ (s.mode = .manual → (s.control w y r).2 = saturate t.m s.satMin s.satMax) := by
  obtain ⟨h1, h2, h3⟩ := h
  have hb : s.bState.integrate (s.kt *. s.mInput +. s.kw *. (s.uSat -. s.m)) s.dt =
      (⟨s.bState.x0 +. lit (1 / 2) *. (s.kt *. s.mInput +. s.kw *. (s.uSat -. s.m) +. s.bState.x1) *. s.dt,
        s.kt *. s.mInput +. s.kw *. (s.uSat -. s.m), s.bState.x1, .trapezoidal, s.bState.dMethod⟩,
        s.bState.x0 +. lit (1 / 2) *. (s.kt *. s.mInput +. s.kw *. (s.uSat -. s.m) +. s.bState.x1) *. s.dt) := by
    simp only [NState.integrate, NState.update, h2, if_true]
  intro bt t
  simp only [t]
  unfold Ctl.control
  rw [if_pos h1]
  simp only [hb]
  cases ha : s.adapt with
  | none =>
    simp only
    refine ⟨⟨h1, rfl, rfl⟩, ⟨rfl, rfl, rfl, rfl, rfl, rfl, rfl⟩, congrArg (· +. lit (1 / 2) *. (bt +. s.bState.x1) *. s.dt) h3.symm, rfl,
      by first | rfl | trivial, ?_⟩
    intro hm
    simp only [hm]
  | some a =>
    simp only [Ctl.adaptGains]
    split_ifs
    all_goals
      refine ⟨⟨h1, rfl, rfl⟩, ⟨rfl, rfl, rfl, rfl, rfl, rfl, rfl⟩, congrArg (· +. lit (1 / 2) *. (bt +. s.bState.x1) *. s.dt) h3.symm, rfl,
      by first | rfl | trivial, ?_⟩
      intro hm
      simp only [hm]

/-- The controller is initialised and `b_state` keeps its default method. -/
def TrackReady (s : Ctl R) : Prop := s.isInitialized = true ∧ s.bState.iMethod = .trapezoidal

omit [Trans R] in
/-- Every successful `setup` establishes `Tracks`. -/
theorem setup_tracks (s : Ctl R) (hb : s.bState.iMethod = .trapezoidal) (kc ki kd dT : R)
    (h : (s.setup kc ki kd dT).2 = true) : Tracks (s.setup kc ki kd dT).1 := by
  revert h
  unfold Ctl.setup
  split_ifs with h0
  · intro _
    have a1 : ∀ (s : Ctl R) x, TrackReady s → TrackReady (s.setDerivativeFilter x).1 := by
      intro s x h; unfold Ctl.setDerivativeFilter; split_ifs <;> exact h
    have a2 : ∀ (s : Ctl R) x, TrackReady s → TrackReady (s.setEpsilon x).1 := by
      intro s x h; unfold Ctl.setEpsilon; split_ifs <;> exact h
    have a3 : ∀ (s : Ctl R) x y z, TrackReady s → TrackReady (s.setGains x y z).1 := by
      intro s x y z h; unfold Ctl.setGains; split_ifs <;> exact h
    have a4 : ∀ (s : Ctl R) x y, TrackReady s → TrackReady (s.setSaturation x y).1 := by
      intro s x y h; unfold Ctl.setSaturation; split_ifs <;> exact h
    have a5 : ∀ (s : Ctl R) x, TrackReady s → TrackReady (s.setMode x).1 := by
      intro s x h; unfold Ctl.setMode; split_ifs <;> exact h
    have a6 : ∀ (s : Ctl R) x, TrackReady s → TrackReady (s.setManualInput x).1 := by
      intro s x h; unfold Ctl.setManualInput; split_ifs <;> exact h
    have a7 : ∀ (s : Ctl R) x y, TrackReady s → TrackReady (s.setExtraGains x y).1 := by
      intro s x y h; unfold Ctl.setExtraGains; split_ifs <;> exact h
    have a8 : ∀ (s : Ctl R) x, TrackReady s → TrackReady (s.setDirection x).1 := by
      intro s x h; unfold Ctl.setDirection; split_ifs <;> exact h
    have a9 : ∀ (s : Ctl R) x y, TrackReady s → TrackReady (s.setReferenceWeighting x y).1 := by
      intro s x y h; unfold Ctl.setReferenceWeighting; split_ifs <;> exact h
    have a10 : ∀ s : Ctl R, TrackReady s → Tracks s.reset.1 := by
      intro s h; unfold Ctl.reset; rw [if_pos h.1]; exact ⟨h.1, h.2, rfl⟩
    exact a10 _ (a9 _ _ _ (a8 _ _ (a7 _ _ _ (a6 _ _ (a5 _ _ (a4 _ _ _ (a3 _ _ _ _ (a2 _ _ (a1 _ _ ⟨rfl, hb⟩)))))))))
  · intro h; exact absurd h (by simp)

/-- The default methods, without model reference and adaptation; any mode. -/
structure Plain (s : Ctl R) : Prop where
  init : s.isInitialized = true
  yr : s.yr = false
  adapt : s.adapt = none
  im : s.st.iMethod = .trapezoidal
  dm : s.st.dMethod = .twoPoints

/-- One call of `control` in either mode. -/
theorem plain_step (s : Ctl R) (h : Plain s) (w y r : R) :
    let e := s.error w y (lit 1)
    let de := (s.error w y s.c -. s.st.x1) /. s.dt
    let x0 := s.st.x0 +. lit (1 / 2) *. (e +. s.u1 +. s.st.x1) *. s.dt
    let D := de +. s.beta *. (s.D -. de)
    let v := s.effective.Kc *. s.error w y s.b +. s.effective.Ki *. x0 +. s.effective.Kd *. D
    let t := (s.control w y r).1
    (s.mode = .automatic → (s.control w y r).2 = saturate v s.satMin s.satMax) ∧ Plain t ∧ SameParams s t ∧ t.mode = s.mode ∧
      t.st.x0 = x0 ∧ t.st.x1 = e +. s.u1 ∧ t.u1 = s.kw *. ((s.control w y r).2 -. v) := by
  obtain ⟨h1, h3, h4, h5, h6⟩ := h
  have hm : ∀ v', s.mrac v' w y r = (s.mState, v') := by
    intro v'; unfold Ctl.mrac; rw [if_neg (by simp [h3])]
  have hder : s.st.derive (s.error w y s.c) s.dt false = (s.st, (s.error w y s.c -. s.st.x1) /. s.dt) := by
    simp only [NState.derive, h6]; rfl
  have hint : s.st.integrate (s.error w y (lit 1) +. s.u1) s.dt =
      (⟨s.st.x0 +. lit (1 / 2) *. (s.error w y (lit 1) +. s.u1 +. s.st.x1) *. s.dt,
        s.error w y (lit 1) +. s.u1, s.st.x1, .trapezoidal, .twoPoints⟩,
        s.st.x0 +. lit (1 / 2) *. (s.error w y (lit 1) +. s.u1 +. s.st.x1) *. s.dt) := by
    simp only [NState.integrate, NState.update, h5, h6, if_true]
  intro e de x0 D v t
  simp only [t]
  unfold Ctl.control
  rw [if_pos h1]
  simp only [hder, hint, hm, h4]
  refine ⟨?_, ⟨h1, h3, rfl, rfl, rfl⟩, ⟨rfl, rfl, rfl, rfl, rfl, rfl, rfl, rfl, rfl⟩, by trivial, rfl, rfl, rfl⟩
  intro hm
  simp only [hm]
  rfl

end AnyArithmetic

/-! ## Exact arithmetic -/

section Exact
variable {K : Type u} [Field K] [LinearOrder K] [IsStrictOrderedRing K]

/-- The contraction per three samples of `d' = ( 1 - G ) d - G e`, `e' = d`. Not a definition of the repository. -/
def contraction (G : K) : K := max (1 - 2 * G) (1 - 2 * (1 - G) ^ 2)

theorem contraction_lt (G : K) (h0 : 0 < G) (h1 : G < 1) : contraction G < 1 := by
  have : 0 < (1 - G) ^ 2 := by have : (0 : K) < 1 - G := by linarith
                               positivity
  exact max_lt (by linarith) (by linarith)

theorem contraction_nonneg (G : K) (h0 : 0 < G) (h1 : G < 1) : 0 ≤ contraction G := by
  rcases le_total G (1 / 2) with h | h
  · exact le_max_of_le_left (by linarith)
  · exact le_max_of_le_right (by nlinarith)

/-- The tracking error after `n` samples. -/
theorem tracking (G M : K) (h0 : 0 < G) (h1 : G < 1) (N : ℕ) (d e : ℕ → K)
    (hd : ∀ k < N, d (k + 1) = (1 - G) * d k - G * e k) (he : ∀ k < N, e (k + 1) = d k) (hd0 : |d 0| ≤ M) (he0 : |e 0| ≤ M)
    (n : ℕ) (hn : n ≤ N) : |d n| ≤ contraction G ^ (n / 3) * M := by
  have hM : 0 ≤ M := (abs_nonneg _).trans hd0
  have r0 := contraction_nonneg G h0 h1
  have r1 := (contraction_lt G h0 h1).le
  have step : ∀ x y B : K, |x| ≤ B → |y| ≤ B → |(1 - G) * x - G * y| ≤ B := by
    intro x y B hx hy
    obtain ⟨a1, a2⟩ := abs_le.1 hx
    obtain ⟨b1, b2⟩ := abs_le.1 hy
    rw [abs_le]
    constructor <;> nlinarith
  induction n using Nat.strong_induction_on with
  | _ n ih =>
    match n with
    | 0 => simpa using hd0
    | 1 =>
      rw [hd 0 (by omega)]
      simpa using step _ _ _ hd0 he0
    | 2 =>
      have := step _ _ _ hd0 he0
      rw [← hd 0 (by omega)] at this
      rw [hd 1 (by omega), he 0 (by omega)]
      simpa using step _ _ _ this hd0
    | n + 3 =>
      have i0 := ih n (by omega) (by omega)
      have i1 := ih (n + 1) (by omega) (by omega)
      have mono : contraction G ^ ((n + 1) / 3) * M ≤ contraction G ^ (n / 3) * M :=
        mul_le_mul_of_nonneg_right (pow_le_pow_of_le_one r0 r1 (Nat.div_le_div_right (by omega))) hM
      have q : d (n + 3) = ((1 - G) ^ 2 - G) * d (n + 1) - G * (1 - G) * d n := by
        rw [hd (n + 2) (by omega), hd (n + 1) (by omega), he (n + 1) (by omega), he n (by omega)]
        ring
      have e3 : (n + 3) / 3 = n / 3 + 1 := by omega
      rw [e3, pow_succ, q]
      set B := contraction G ^ (n / 3) * M with hB
      have hB0 : 0 ≤ B := mul_nonneg (pow_nonneg r0 _) hM
      have t1 : |((1 - G) ^ 2 - G) * d (n + 1)| ≤ |(1 - G) ^ 2 - G| * B := by
        rw [abs_mul]; exact mul_le_mul_of_nonneg_left (i1.trans mono) (abs_nonneg _)
      have t2 : |G * (1 - G) * d n| ≤ G * (1 - G) * B := by
        rw [abs_mul, abs_of_nonneg (mul_nonneg h0.le (by linarith : 0 ≤ 1 - G))]
        exact mul_le_mul_of_nonneg_left i0 (mul_nonneg h0.le (by linarith))
      have c : |(1 - G) ^ 2 - G| + G * (1 - G) ≤ contraction G := by
        rcases le_total 0 ((1 - G) ^ 2 - G) with h | h
        · rw [abs_of_nonneg h]; exact le_max_of_le_left (by nlinarith)
        · rw [abs_of_nonpos h]; exact le_max_of_le_right (by nlinarith)
      calc _ ≤ |((1 - G) ^ 2 - G) * d (n + 1)| + |G * (1 - G) * d n| := abs_sub _ _
        _ ≤ (|(1 - G) ^ 2 - G| + G * (1 - G)) * B := by linarith
        _ ≤ contraction G * B := mul_le_mul_of_nonneg_right c hB0
        _ = _ := by rw [hB]; ring

omit [IsStrictOrderedRing K] in
theorem saturate_eq (x lo hi : K) (h : lo ≤ hi) : saturate x lo hi = max lo (min x hi) := by
  rcases sat_cases x lo hi with ⟨e, c⟩ | ⟨e, c⟩ | ⟨e, c1, c2⟩
  · rw [e, min_eq_right c.le, max_eq_right h]
  · rw [e, max_eq_left (min_le_of_left_le c.le)]
  · rw [e, min_eq_left c2, max_eq_right c1]

/-- The limiter does not increase distances. -/
theorem saturate_lip (x y lo hi : K) (h : lo ≤ hi) : |saturate x lo hi - saturate y lo hi| ≤ |x - y| := by
  have h1 := le_abs_self (x - y)
  have h2 := neg_abs_le (x - y)
  have h3 := abs_nonneg (x - y)
  rw [abs_le]
  rcases sat_cases x lo hi with ⟨e, c⟩ | ⟨e, c⟩ | ⟨e, c1, c2⟩ <;> rcases sat_cases y lo hi with ⟨e', c'⟩ | ⟨e', c'⟩ | ⟨e', c1', c2'⟩ <;>
    rw [e, e'] <;> constructor <;> linarith

variable [Trans K]

/-- **C145** from automatic to manual: whatever the mode, the model reference and the auto-tuner, if the output has been `U`
for `n` calls and before them, the manual input is zero and `0 < kw dt < 2`, then the first output after the switch to manual mode
differs from `U` by at most `contraction^((n + 1)/3)`, with `contraction < 1`, times the initial difference. -/
theorem C145_to_manual_partial (s : Ctl K) (hs : Tracks s) (hin : s.kt * s.mInput = 0) (h0 : 0 < s.kw * s.dt)
    (h2 : s.kw * s.dt < 2) (hlim : s.satMin ≤ s.satMax) (U : K) (hU : s.satMin ≤ U ∧ U ≤ s.satMax) (hu : s.uSat = U)
    (w y r : ℕ → K) (n : ℕ) (hout : ∀ k < n, ((after s w y r k).control (w k) (y k) (r k)).2 = U) :
    |((((after s w y r n).setMode .manual).1.control (w n) (y n) (r n)).2) - U| ≤
      contraction (s.kw * s.dt / 2) ^ ((n + 1) / 3) * max |U - s.m| |s.bState.x1 / s.kw| := by
  have hkw : s.kw ≠ 0 := by intro h; rw [h] at h0; simp at h0
  have key : ∀ k ≤ n, Tracks (after s w y r k) ∧ SameManual s (after s w y r k) ∧ (after s w y r k).uSat = U := by
    intro k
    induction k with
    | zero => intro _; exact ⟨hs, .refl s, hu⟩
    | succ k ih =>
      intro hk
      obtain ⟨i1, i2, i3⟩ := ih (by omega)
      obtain ⟨q1, q2, -, -, q5, -⟩ := track_step _ i1 (w k) (y k) (r k)
      exact ⟨q1, i2.trans q2, by rw [← hout k (by omega)]; exact q5⟩
  -- one step of the manual signal, in either mode
  have one : ∀ t : Ctl K, Tracks t → t.kt = s.kt → t.kw = s.kw → t.dt = s.dt → t.mInput = s.mInput → t.uSat = U → ∀ w y r,
      U - (t.control w y r).1.m = (1 - s.kw * s.dt / 2) * (U - t.m) - s.kw * s.dt / 2 * (t.bState.x1 / s.kw) ∧
      (t.control w y r).1.bState.x1 / s.kw = U - t.m := by
    intro t ht e1 e2 e3 e4 e5 w y r
    obtain ⟨-, -, q3, q4, -, -⟩ := track_step t ht w y r
    simp only [fAdd, fSub, fMul, fLit, e1, e2, e3, e4, e5, hin] at q3 q4
    rw [q3, q4]
    constructor
    · push_cast
      field_simp
      ring
    · field_simp
      ring
  obtain ⟨k1, k2, k3⟩ := key n le_rfl
  -- the switched controller
  set t := ((after s w y r n).setMode .manual).1 with ht
  have hte : t = { after s w y r n with mode := .manual } := by rw [ht, Ctl.setMode, if_pos k1.init]
  have htt : Tracks t := by rw [hte]; exact ⟨k1.init, k1.bm, k1.m⟩
  have m1 := one t htt (by rw [hte]; exact k2.kt) (by rw [hte]; exact k2.kw) (by rw [hte]; exact k2.dt)
    (by rw [hte]; exact k2.input) (by rw [hte]; exact k3) (w n) (y n) (r n)
  obtain ⟨-, -, -, -, -, q6⟩ := track_step t htt (w n) (y n) (r n)
  rw [q6 (by rw [hte])]
  have lo : t.satMin = s.satMin := by rw [hte]; exact k2.lo
  have hi : t.satMax = s.satMax := by rw [hte]; exact k2.hi
  have hUs : saturate U s.satMin s.satMax = U := by rw [saturate_eq _ _ _ hlim, min_eq_left hU.2, max_eq_right hU.1]
  rw [lo, hi]
  conv_lhs => rw [← hUs]
  refine (saturate_lip _ _ _ _ hlim).trans ?_
  rw [abs_sub_comm]
  -- the sequence of tracking errors
  have := tracking (s.kw * s.dt / 2) (max |U - s.m| |s.bState.x1 / s.kw|) (by linarith) (by linarith) (n + 1)
    (fun k => if k ≤ n then U - (after s w y r k).m else U - (t.control (w n) (y n) (r n)).1.m)
    (fun k => if k ≤ n then (after s w y r k).bState.x1 / s.kw else (t.control (w n) (y n) (r n)).1.bState.x1 / s.kw)
    ?_ ?_ (by simp [after]) (by simp [after]) (n + 1) le_rfl
  · simpa using this
  · intro k hk
    rcases Nat.lt_or_ge k n with c | c
    · obtain ⟨i1, i2, i3⟩ := key k c.le
      simp only [if_pos c.le, if_pos (show k + 1 ≤ n from c)]
      exact (one _ i1 i2.kt i2.kw i2.dt i2.input i3 (w k) (y k) (r k)).1
    · obtain rfl : k = n := by omega
      simp only [le_refl, if_true, if_neg (show ¬ k + 1 ≤ k by omega)]
      rw [m1.1, hte]
  · intro k hk
    rcases Nat.lt_or_ge k n with c | c
    · obtain ⟨i1, i2, i3⟩ := key k c.le
      simp only [if_pos c.le, if_pos (show k + 1 ≤ n from c)]
      exact (one _ i1 i2.kt i2.kw i2.dt i2.input i3 (w k) (y k) (r k)).2
    · obtain rfl : k = n := by omega
      simp only [le_refl, if_true, if_neg (show ¬ k + 1 ≤ k by omega)]
      rw [m1.2, hte]

omit [Trans K] in
/-- The next control action, relative to `U + e/kw`. -/
theorem back_value {Kc Ki err x0 x1 u1 kw dt U e : K} (hkw : kw ≠ 0) (hu1 : u1 = kw * (U - (Kc * err + Ki * x0))) :
    U - (Kc * err + Ki * (x0 + 1 / 2 * (e + u1 + x1) * dt)) + e / kw =
      (1 - Ki * kw * dt / 2) * ((u1 + e) / kw) - Ki * kw * dt / 2 * (x1 / kw) := by
  have : Kc * err = U - u1 / kw - Ki * x0 := by
    rw [hu1]; field_simp; ring
  rw [this]
  field_simp
  ring

/-- **C145** from manual to automatic mode: after `n + 1` calls in manual mode with output `U` at a constant set-point and process
value with error `e`, the first automatic output is within `contraction^((n + 1)/3)` times a constant of `U + e/kw`, limited.
So the transfer is bumpless if the error is zero, and otherwise the bump tends to `e/kw`.
Missing: controllers with derivative action and in backward direction, for which it is false (`C145_pid_false`,
`C145_backward_false`), and the bump `e/kw` (`C145_error_false`). -/
theorem C145_to_automatic_partial (s : Ctl K) (h : Plain s) (hKd : s.effective.Kd = 0) (h0 : 0 < s.effective.Ki * s.kw * s.dt)
    (h2 : s.effective.Ki * s.kw * s.dt < 2) (hlim : s.satMin ≤ s.satMax) (w y U : K) (r : ℕ → K) (n : ℕ)
    (hout : ∀ k ≤ n, ((after s (fun _ => w) (fun _ => y) r k).control w y (r k)).2 = U) :
    let e := s.error w y 1
    |(((after s (fun _ => w) (fun _ => y) r (n + 1)).setMode .automatic).1.control w y (r (n + 1))).2 -
        saturate (U + e / s.kw) s.satMin s.satMax| ≤
      contraction (s.effective.Ki * s.kw * s.dt / 2) ^ ((n + 1) / 3) *
        max |((s.control w y (r 0)).1.u1 + e) / s.kw| |(s.u1 + e) / s.kw| := by
  intro e
  have hkw : s.kw ≠ 0 := by intro h; rw [h] at h0; simp at h0
  set f := fun k => after s (fun _ => w) (fun _ => y) r k with hf
  have key : ∀ k ≤ n + 1, Plain (f k) ∧ SameParams s (f k) := by
    intro k
    induction k with
    | zero => intro _; exact ⟨h, ⟨rfl, rfl, rfl, rfl, rfl, rfl, rfl, rfl, rfl⟩⟩
    | succ k ih =>
      intro hk
      obtain ⟨i1, i2⟩ := ih (by omega)
      obtain ⟨-, q1, q2, -⟩ := plain_step _ i1 w y (r k)
      exact ⟨q1, ⟨q2.eff.trans i2.eff, q2.b.trans i2.b, q2.c.trans i2.c, q2.beta.trans i2.beta, q2.dt.trans i2.dt,
        q2.kw.trans i2.kw, q2.lo.trans i2.lo, q2.hi.trans i2.hi, q2.eps.trans i2.eps⟩⟩
  have er : ∀ k ≤ n + 1, ∀ b, (f k).error w y b = s.error w y b := by
    intro k hk b; simp only [Ctl.error]; rw [(key k hk).2.eps]
  -- the state after a call
  have nxt : ∀ k ≤ n, (f (k + 1)).st.x0 = (f k).st.x0 + 1 / 2 * (e + (f k).u1 + (f k).st.x1) * s.dt ∧
      (f (k + 1)).st.x1 = e + (f k).u1 ∧
      (f (k + 1)).u1 = s.kw * (U - (s.effective.Kc * s.error w y s.b + s.effective.Ki * (f (k + 1)).st.x0)) := by
    intro k hk
    obtain ⟨i1, i2⟩ := key k (by omega)
    obtain ⟨-, -, -, -, p5, p6, p7⟩ := plain_step _ i1 w y (r k)
    simp only [fAdd, fSub, fMul, fDiv, fLit, i2.eff, hKd, zero_mul, add_zero, Rat.cast_one, i2.dt, i2.kw, i2.b,
      er k (by omega)] at p5 p6 p7
    have p5' : (f (k + 1)).st.x0 = (f k).st.x0 + 1 / 2 * (e + (f k).u1 + (f k).st.x1) * s.dt := by
      refine p5.trans ?_
      push_cast
      rfl
    refine ⟨p5', p6, ?_⟩
    rw [p5']
    refine p7.trans ?_
    rw [show ((f k).control w y (r k)).2 = U from hout k hk]
    push_cast
    rfl
  -- the switched controller
  obtain ⟨i1, i2⟩ := key (n + 1) le_rfl
  set t := ((f (n + 1)).setMode .automatic).1 with ht
  have hte : t = { f (n + 1) with mode := .automatic } := by rw [ht, Ctl.setMode, if_pos i1.init]
  have htp : Plain t := by rw [hte]; exact ⟨i1.init, i1.yr, i1.adapt, i1.im, i1.dm⟩
  obtain ⟨p1, -⟩ := plain_step t htp w y (r (n + 1))
  have p1 := p1 (by rw [hte])
  have ete : ∀ b, t.error w y b = s.error w y b := by
    intro b; rw [← er (n + 1) le_rfl b, hte]; rfl
  have eff : t.effective = s.effective := by rw [← i2.eff, hte]; rfl
  have f1 : t.dt = s.dt := by rw [hte]; exact i2.dt
  have f2 : t.b = s.b := by rw [hte]; exact i2.b
  have f3 : t.satMin = s.satMin := by rw [hte]; exact i2.lo
  have f4 : t.satMax = s.satMax := by rw [hte]; exact i2.hi
  have f5 : t.st = (f (n + 1)).st := by rw [hte]
  have f6 : t.u1 = (f (n + 1)).u1 := by rw [hte]
  simp only [fAdd, fSub, fMul, fDiv, fLit, eff, hKd, zero_mul, add_zero, Rat.cast_one, f1, f2, f3, f4, f5, f6, ete] at p1
  push_cast at p1
  rw [p1]
  refine (saturate_lip _ _ _ _ hlim).trans ?_
  rw [abs_sub_comm]
  have fin := back_value (U := U) (e := e) (dt := s.dt) (x1 := (f (n + 1)).st.x1) hkw (nxt n le_rfl).2.2
  have := tracking (s.effective.Ki * s.kw * s.dt / 2) (max |((s.control w y (r 0)).1.u1 + e) / s.kw| |(s.u1 + e) / s.kw|)
    (by linarith) (by linarith) (n + 1)
    (fun k => if k ≤ n then ((f (k + 1)).u1 + e) / s.kw else
      U - (s.effective.Kc * s.error w y s.b + s.effective.Ki * ((f (n + 1)).st.x0 + 1 / 2 * (e + (f (n + 1)).u1 +
        (f (n + 1)).st.x1) * s.dt)) + e / s.kw)
    (fun k => if k ≤ n then (f (k + 1)).st.x1 / s.kw else ((f (n + 1)).u1 + e) / s.kw)
    ?_ ?_ ?_ ?_ (n + 1) le_rfl
  · simp only [if_neg (show ¬ n + 1 ≤ n by omega)] at this
    refine le_trans (le_of_eq ?_) this
    congr 1
    ring
  · intro k hk
    rcases Nat.lt_or_ge k n with c | c
    · simp only [if_pos c.le, if_pos (show k + 1 ≤ n from c)]
      obtain ⟨q1, q2, q3⟩ := nxt (k + 1) c
      rw [← back_value hkw (nxt k c.le).2.2, q3, q1]
      field_simp
    · obtain rfl : k = n := by omega
      simp only [le_refl, if_true, if_neg (show ¬ k + 1 ≤ k by omega)]
      exact fin
  · intro k hk
    rcases Nat.lt_or_ge k n with c | c
    · simp only [if_pos c.le, if_pos (show k + 1 ≤ n from c)]
      rw [(nxt (k + 1) c).2.1, _root_.add_comm]
    · obtain rfl : k = n := by omega
      simp only [le_refl, if_true, if_neg (show ¬ k + 1 ≤ k by omega)]
  · simp only [Nat.zero_le, if_true]
    exact le_max_left _ _
  · simp only [Nat.zero_le, if_true]
    rw [(nxt 0 (Nat.zero_le _)).2.1, _root_.add_comm]
    exact le_max_right _ _

/-- **C146** (partial) in manual mode the output integrates the manual input: as long as the limits are not met, an output differs
from the one before by the manual gain times the mean of the last two manual inputs times the sample time. Here the manual input
is changed to `i0` before the first and to `i1` before the second of two calls. Missing: that the output is the manual input, which is
false (`C146_false`). -/
theorem C146_partial (s : Ctl K) (hs : Tracks s) (hm : s.mode = .manual) (h0 : s.uSat = s.m) (i0 i1 w0 y0 r0 w1 y1 r1 : K) :
    let s1 := ((s.setManualInput i0).1.control w0 y0 r0).1
    let s2 := ((s1.setManualInput i1).1.control w1 y1 r1).1
    s.satMin ≤ s1.m → s1.m ≤ s.satMax → s.satMin ≤ s2.m → s2.m ≤ s.satMax →
      ((s1.setManualInput i1).1.control w1 y1 r1).2 =
        ((s.setManualInput i0).1.control w0 y0 r0).2 + s.kt * ((i0 + i1) / 2) * s.dt := by
  intro s1 s2 a1 a2 a3 a4
  have e0 : (s.setManualInput i0).1 = { s with mInput := i0 } := by rw [Ctl.setManualInput, if_pos hs.init]
  have t0 : Tracks (s.setManualInput i0).1 := by rw [e0]; exact ⟨hs.init, hs.bm, hs.m⟩
  obtain ⟨p1, p2, p3, p4, p5, p6⟩ := track_step _ t0 w0 y0 r0
  have e1 : (s1.setManualInput i1).1 = { s1 with mInput := i1 } := by rw [Ctl.setManualInput, if_pos p1.init]
  have t1 : Tracks (s1.setManualInput i1).1 := by rw [e1]; exact ⟨p1.init, p1.bm, p1.m⟩
  obtain ⟨q1, q2, q3, q4, q5, q6⟩ := track_step _ t1 w1 y1 r1
  have m0 : (s.setManualInput i0).1.mode = .manual := by rw [e0]; exact hm
  have m1 : (s1.setManualInput i1).1.mode = .manual := by rw [e1]; exact p2.mode.trans m0
  have inside : ∀ x, s.satMin ≤ x → x ≤ s.satMax → saturate x s.satMin s.satMax = x := by
    intro x h1 h2; rw [saturate_eq _ _ _ (h1.trans h2), min_eq_left h2, max_eq_right h1]
  have lo0 : (s.setManualInput i0).1.satMin = s.satMin := by rw [e0]
  have hi0 : (s.setManualInput i0).1.satMax = s.satMax := by rw [e0]
  have lo1 : (s1.setManualInput i1).1.satMin = s.satMin := by rw [e1]; exact p2.lo.trans lo0
  have hi1 : (s1.setManualInput i1).1.satMax = s.satMax := by rw [e1]; exact p2.hi.trans hi0
  have o0 := p6 m0
  rw [lo0, hi0, inside _ a1 a2] at o0
  have o1 := q6 m1
  rw [lo1, hi1, inside _ a3 a4] at o1
  have k1 : (s1.setManualInput i1).1.kt = s.kt := by rw [e1]; exact p2.kt.trans (by rw [e0])
  have k2 : (s1.setManualInput i1).1.kw = s.kw := by rw [e1]; exact p2.kw.trans (by rw [e0])
  have k3 : (s1.setManualInput i1).1.dt = s.dt := by rw [e1]; exact p2.dt.trans (by rw [e0])
  have k4 : (s1.setManualInput i1).1.mInput = i1 := by rw [e1]
  have k5 : (s1.setManualInput i1).1.uSat = s1.m := by rw [e1]; exact p5.trans o0
  have k6 : (s1.setManualInput i1).1.m = s1.m := by rw [e1]
  have k7 : (s1.setManualInput i1).1.bState.x1 = s.kt * i0 := by
    rw [e1]
    refine p4.trans ?_
    rw [e0]
    simp only [fAdd, fMul, fSub, h0]
    ring
  rw [o1, o0, q3]
  simp only [fAdd, fMul, fSub, fLit, k1, k2, k3, k4, k5, k6, k7]
  push_cast
  ring

/-- **C146 is false of the code**: in manual mode the output cannot rest, at the manual input or at any other value strictly between
the limits, unless the manual input is zero: a constant manual input drives it to a limit. -/
theorem C146_false (s : Ctl K) (hs : Tracks s) (hm : s.mode = .manual) (hkt : s.kt ≠ 0) (hdt : s.dt ≠ 0) (U : K)
    (hU : s.satMin < U ∧ U < s.satMax) (w y r : ℕ → K)
    (hout : ∀ k < 3, ((after s w y r k).control (w k) (y k) (r k)).2 = U) : s.mInput = 0 := by
  obtain ⟨p1, p2, p3, p4, p5, p6⟩ := track_step _ hs (w 0) (y 0) (r 0)
  obtain ⟨q1, q2, q3, q4, q5, q6⟩ := track_step _ p1 (w 1) (y 1) (r 1)
  obtain ⟨v1, v2, v3, v4, v5, v6⟩ := track_step _ q1 (w 2) (y 2) (r 2)
  have inside : ∀ x, saturate x s.satMin s.satMax = U → x = U := by
    intro x hx
    rcases sat_cases x s.satMin s.satMax with ⟨e, c⟩ | ⟨e, c⟩ | ⟨e, c1, c2⟩
    · exact absurd (e.symm.trans hx) hU.2.ne'
    · exact absurd (e.symm.trans hx) hU.1.ne
    · exact e.symm.trans hx
  have o0 := hout 0 (by omega)
  have o1 := hout 1 (by omega)
  have o2 := hout 2 (by omega)
  simp only [after] at o0 o1 o2
  have m0 := inside _ ((p6 hm).symm.trans o0)
  have pq := p2.trans q2
  have m1 := q6 (p2.mode.trans hm)
  rw [p2.lo, p2.hi, o1] at m1
  have m1 := inside _ m1.symm
  have m2 := v6 (pq.mode.trans hm)
  rw [pq.lo, pq.hi, o2] at m2
  have m2 := inside _ m2.symm
  rw [v3, q5, o1, m1, q4, p5, o0, m0, p2.kt, p2.kw, p2.input, pq.kt, pq.kw, pq.input, pq.dt] at m2
  simp only [fAdd, fMul, fSub, fLit, sub_self, mul_zero, add_zero] at m2
  push_cast at m2
  have : s.kt * s.mInput * s.dt = 0 := by linarith
  rcases mul_eq_zero.1 this with h | h
  · rcases mul_eq_zero.1 h with h | h
    · exact absurd h hkt
    · exact h
  · exact absurd h hdt

end Exact

/-! ## Witnesses -/

section Witness

/-- A PI controller (`Kc = 1`, `Ki = 1/2`, `dt = 1`) that went to manual mode after `setup`, integrated the manual input 30 for one sample
and then received the manual input zero: its output is 30 from then on. Not a definition of the repository. -/
def manual30 [Trans ℚ] : Ctl ℚ :=
  let s := (fresh0.setup 1 (1 / 2) 0 1).1
  let s := ((s.setMode .manual).1.setManualInput 30).1
  let s := (s.control 50 50 0).1
  ((s.setManualInput 0).1.control 50 50 0).1

attribute [local instance] noTrans

-- the hypotheses of `C145_to_automatic_partial`: the output stays at 30 while the process value is at the set-point
example : Plain manual30 ∧ manual30.effective.Kd = 0 ∧ manual30.effective.Ki * manual30.kw * manual30.dt = 1 / 2 ∧
    manual30.satMin ≤ manual30.satMax ∧
    ∀ k ≤ 5, ((after manual30 (fun _ => 50) (fun _ => 50) (fun _ => 0) k).control 50 50 0).2 = 30 := by
  refine ⟨⟨?_, ?_, ?_, ?_, ?_⟩, ?_, ?_, ?_, ?_⟩
  all_goals decide +kernel

-- the hypotheses of `C145_to_manual_partial`
example : Tracks manual30 ∧ manual30.kt * manual30.mInput = 0 ∧ manual30.kw * manual30.dt = 1 ∧ manual30.uSat = 30 := by
  refine ⟨⟨?_, ?_, ?_⟩, ?_, ?_, ?_⟩
  all_goals decide +kernel

-- the hypotheses of `C146_partial`
example : Tracks manual30 ∧ manual30.mode = .manual ∧ manual30.uSat = manual30.m := by
  refine ⟨⟨?_, ?_, ?_⟩, ?_, ?_⟩
  all_goals decide +kernel

-- the hypotheses of `C146_false`, with `mInput = 0`
example : Tracks manual30 ∧ manual30.mode = .manual ∧ manual30.kt ≠ 0 ∧ manual30.dt ≠ 0 ∧
    ∀ k < 3, ((after manual30 (fun _ => 50) (fun _ => 50) (fun _ => 0) k).control 50 50 0).2 = 30 := by
  refine ⟨⟨?_, ?_, ?_⟩, ?_, ?_, ?_, ?_⟩
  all_goals decide +kernel

end Witness

section IeeeWitness

attribute [local instance] noTrans32 F32.ieeeArith

/-- A controller in manual mode, in binary32: after `setup` it integrates the manual input `M` for one sample, then the manual input is
zero and the process value `y`, with set-point 50, for `n` samples. Not a definition of the repository. -/
def manual32 (kc ki kd dt M : ℚ) (d : Direction) (y : ℚ) (n : ℕ) : Ctl (BitVec 32) :=
  let s := (fresh32.setup (F32.lit kc) (F32.lit ki) (F32.lit kd) (F32.lit dt)).1
  let s := (((s.setDirection d).1.setMode .manual).1.setManualInput (F32.lit M)).1
  let s := (s.control (F32.lit 50) (F32.lit 50) 0#32).1
  after (s.setManualInput (F32.lit 0)).1 (fun _ => F32.lit 50) (fun _ => F32.lit y) (fun _ => 0#32) n

/-- **C145 is false of the code** in binary32, for a process value that is not at the set-point: a PI controller has been at the
constant output 30, set-point 50 and process value 30 for 20 samples. The first output in automatic mode is 50 (up to
2^-16), although both the proportional and the integral action could have been matched to the manual output. -/
theorem C145_error_false :
    let s := manual32 1 (1 / 2) 0 1 30 .forward 30 20
    let u := ((s.setMode .automatic).1.control (F32.lit 50) (F32.lit 30) 0#32).2
    s.uSat = F32.lit 30 ∧ |F32.val u - 50| ≤ 1 / 2 ^ 16 := by
  decide +kernel

/-- **C145 is false of the code** in binary32, in backward direction: with the process value at the set-point the output jumps
from 30 to the lower limit 0. -/
theorem C145_backward_false :
    let s := manual32 1 (1 / 2) 0 1 30 .backward 50 20
    let u := ((s.setMode .automatic).1.control (F32.lit 50) (F32.lit 50) 0#32).2
    s.uSat = F32.lit 30 ∧ F32.val u = 0 := by
  decide +kernel

/-- **C145 is false of the code** in binary32, with derivative action: with the process value at the set-point the output of the PID
controller `pid32` jumps from 30 to the lower limit 0. -/
theorem C145_pid_false :
    let s := manual32 2 1 10 (1 / 100) 3000 .forward 50 20
    let u := ((s.setMode .automatic).1.control (F32.lit 50) (F32.lit 50) 0#32).2
    |F32.val s.uSat - 30| ≤ 1 / 1000 ∧ F32.val u = 0 := by
  decide +kernel

end IeeeWitness

end Verif.Pid
