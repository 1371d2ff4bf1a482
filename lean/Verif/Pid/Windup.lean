import Verif.Pid.Props
import Verif.F32.Ops
import Mathlib.Tactic.LinearCombination

/-!
# Anti-windup of the PID controller (C142)
-/

namespace Verif.Pid

open Arith Numa

universe u

section AnyArithmetic
variable {R : Type u} [Arith R] [Trans R]

/-- The controller runs in automatic mode with the default methods, without model reference and adaptation. -/
structure Auto (s : Ctl R) : Prop where
  init : s.isInitialized = true
  mode : s.mode = .automatic
  yr : s.yr = false
  adapt : s.adapt = none
  im : s.st.iMethod = .trapezoidal
  dm : s.st.dMethod = .twoPoints

/-- The parameters of `t` are those of `s`. -/
structure SameParams (s t : Ctl R) : Prop where
  eff : t.effective = s.effective
  b : t.b = s.b
  c : t.c = s.c
  beta : t.beta = s.beta
  dt : t.dt = s.dt
  kw : t.kw = s.kw
  lo : t.satMin = s.satMin
  hi : t.satMax = s.satMax
  eps : t.epsilon = s.epsilon

/-- One call of `control` in automatic mode. -/
theorem auto_step (s : Ctl R) (h : Auto s) (w y r : R) :
    let e := s.error w y (lit 1)
    let de := (s.error w y s.c -. s.st.x1) /. s.dt
    let x0 := s.st.x0 +. lit (1 / 2) *. (e +. s.u1 +. s.st.x1) *. s.dt
    let D := de +. s.beta *. (s.D -. de)
    let v := s.effective.Kc *. s.error w y s.b +. s.effective.Ki *. x0 +. s.effective.Kd *. D
    let t := (s.control w y r).1
    (s.control w y r).2 = saturate v s.satMin s.satMax ∧ Auto t ∧ SameParams s t ∧ t.st.x0 = x0 ∧
      t.st.x1 = e +. s.u1 ∧ t.D = D ∧ t.u1 = s.kw *. (saturate v s.satMin s.satMax -. v) := by
  obtain ⟨h1, h2, h3, h4, h5, h6⟩ := h
  have hm : ∀ v', s.mrac v' w y r = (s.mState, v') := by
    intro v'; unfold Ctl.mrac; rw [if_neg (by simp [h3])]
  have hder : s.st.derive (s.error w y s.c) s.dt false = (s.st, (s.error w y s.c -. s.st.x1) /. s.dt) := by
    simp only [NState.derive, h6]; rfl
  have hint : s.st.integrate (s.error w y (lit 1) +. s.u1) s.dt =
      (⟨s.st.x0 +. lit (1 / 2) *. (s.error w y (lit 1) +. s.u1 +. s.st.x1) *. s.dt,
        s.error w y (lit 1) +. s.u1, s.st.x1, .trapezoidal, .twoPoints⟩,
        s.st.x0 +. lit (1 / 2) *. (s.error w y (lit 1) +. s.u1 +. s.st.x1) *. s.dt) := by
    simp only [NState.integrate, NState.update, h5, h6, if_true]
  intro e de x0 D v t
  have ht : s.control w y r = ({ s with
      st := ⟨x0, e +. s.u1, s.st.x1, .trapezoidal, .twoPoints⟩
      D := D
      mState := s.mState
      m := (s.bState.integrate (s.kt *. s.mInput +. s.kw *. (s.uSat -. s.m)) s.dt).2
      bState := (s.bState.integrate (s.kt *. s.mInput +. s.kw *. (s.uSat -. s.m)) s.dt).1
      uSat := saturate v s.satMin s.satMax
      u1 := s.kw *. (saturate v s.satMin s.satMax -. v) },
      saturate v s.satMin s.satMax) := by
    unfold Ctl.control
    rw [if_pos h1]
    simp only [hder, hint, hm, h2, h4]
    rfl
  have ht1 : t = _ := congrArg Prod.fst ht
  refine ⟨congrArg Prod.snd ht, ?_, ?_, ?_, ?_, ?_, ?_⟩
  all_goals rw [ht1]
  · exact ⟨h1, h2, h3, h4, rfl, rfl⟩
  · exact ⟨rfl, rfl, rfl, rfl, rfl, rfl, rfl, rfl, rfl⟩

end AnyArithmetic

/-! ## Exact arithmetic -/

section Exact
variable {K : Type u} [Field K] [LinearOrder K] [IsStrictOrderedRing K] [Trans K]

omit [IsStrictOrderedRing K] [Trans K] in
theorem abs_error [IsOrderedAddMonoid K] (s : Ctl K) (w y k B : K) (h : |k * w - y| ≤ B) : |s.error w y k| ≤ B := by
  simp only [Ctl.error, fSub, fMul, fAbs, fLe, fLit, decide_eq_true_eq]
  split_ifs with hc
  · simpa using (abs_nonneg _).trans h
  · exact h

omit [IsStrictOrderedRing K] [Trans K] in
/-- What the limiter removes. -/
theorem sat_cases (v lo hi : K) :
    (saturate v lo hi = hi ∧ hi < v) ∨ (saturate v lo hi = lo ∧ v < lo) ∨ (saturate v lo hi = v ∧ lo ≤ v ∧ v ≤ hi) := by
  simp only [saturate, fLt, decide_eq_true_eq]
  split_ifs with h1 h2
  · exact .inl ⟨rfl, h1⟩
  · exact .inr (.inl ⟨rfl, h2⟩)
  · exact .inr (.inr ⟨rfl, not_lt.1 h2, not_lt.1 h1⟩)

omit [Trans K] in
/-- One step of the bound. `C` is the integral action with what is pending, `s0` the previous and `s1` the new
amount removed by the limiter, `q` the other actions, `d` the contribution of the error. -/
theorem windup_step {C s0 s1 q d v g L Q B S G : K} (hg : 0 ≤ g) (hg1 : g ≤ 1)
    (hC : |C| ≤ B) (hs : |s0| ≤ S) (hq : |q| ≤ Q) (hd : |d| ≤ g * G) (hG : 0 ≤ G)
    (hv : v = q + (C + d / 2 - g / 2 * s0))
    (h : (∃ a, |a| ≤ L ∧ s1 = a - v) ∨ (s1 = 0 ∧ |v| ≤ L))
    (hB : L + Q + g / 2 * S + G ≤ B) (hS : L + Q + B + g / 2 * S + G ≤ S) :
    |s1| ≤ S ∧ |C + d + g * s1| ≤ B := by
  have hS0 : 0 ≤ S := (abs_nonneg _).trans hs
  have hgs : |g / 2 * s0| ≤ g / 2 * S := by
    rw [abs_mul, abs_of_nonneg (by linarith : 0 ≤ g / 2)]
    exact mul_le_mul_of_nonneg_left hs (by linarith)
  have hdG : g * G ≤ G := by nlinarith
  obtain ⟨c1, c2⟩ := abs_le.1 hC
  obtain ⟨q1, q2⟩ := abs_le.1 hq
  obtain ⟨d1, d2⟩ := abs_le.1 hd
  obtain ⟨p1, p2⟩ := abs_le.1 hgs
  have gS0 : 0 ≤ g / 2 * S := (abs_nonneg _).trans hgs
  rcases h with ⟨a, ha, rfl⟩ | ⟨rfl, hvL⟩
  · obtain ⟨a1, a2⟩ := abs_le.1 ha
    constructor
    · rw [abs_le]; constructor <;> rw [hv] <;> linarith
    · have e : C + d + g * (a - v) = (1 - g) * C + g * (a - q + g / 2 * s0) + d * (1 - g / 2) := by rw [hv]; ring
      rw [e]
      have k1 : |(1 - g) * C| ≤ (1 - g) * B := by
        rw [abs_mul, abs_of_nonneg (by linarith : 0 ≤ 1 - g)]
        exact mul_le_mul_of_nonneg_left hC (by linarith)
      have k2 : |g * (a - q + g / 2 * s0)| ≤ g * (L + Q + g / 2 * S) := by
        rw [abs_mul, abs_of_nonneg hg]
        refine mul_le_mul_of_nonneg_left ?_ hg
        rw [abs_le]; constructor <;> linarith
      have k3 : |d * (1 - g / 2)| ≤ g * G := by
        rw [abs_mul, abs_of_nonneg (by linarith : 0 ≤ 1 - g / 2)]
        have : |d| * (1 - g / 2) ≤ |d| * 1 := mul_le_mul_of_nonneg_left (by linarith) (abs_nonneg _)
        linarith
      have k4 : g * (L + Q + g / 2 * S + G) ≤ g * B := mul_le_mul_of_nonneg_left hB hg
      have k5 := abs_add_le ((1 - g) * C + g * (a - q + g / 2 * s0)) (d * (1 - g / 2))
      have k6 := abs_add_le ((1 - g) * C) (g * (a - q + g / 2 * s0))
      have e1 : g * (L + Q + g / 2 * S + G) = g * (L + Q + g / 2 * S) + g * G := by ring
      have e2 : (1 - g) * B = B - g * B := by ring
      linarith
  · obtain ⟨v1, v2⟩ := abs_le.1 hvL
    constructor
    · simpa using hS0
    · have e : C + d + g * 0 = v - q + d / 2 + g / 2 * s0 := by rw [hv]; ring
      rw [e, abs_le]
      constructor <;> linarith

/-- The invariant: everything the controller remembers is bounded. -/
structure Bounded (s : Ctl K) (E F P L S : K) (t : Ctl K) : Prop where
  auto : Auto t
  same : SameParams s t
  u1 : |t.u1| ≤ s.kw * S
  x1 : |t.st.x1| ≤ E + s.kw * S
  D : |t.D| ≤ (F + E + s.kw * S) / s.dt
  C : |s.effective.Ki * (t.st.x0 + s.dt / 2 * t.st.x1) + s.effective.Ki * s.dt * t.u1| ≤
    L + P + |s.effective.Kd| * (E + F) / s.dt + E / s.kw +
      (|s.effective.Kd| * s.kw / s.dt + s.effective.Ki * s.kw * s.dt / 2) * S

omit [Trans K] in
theorem bounded_rest (s : Ctl K) (hs : Auto s) (hrest : s.st.x0 = 0 ∧ s.st.x1 = 0 ∧ s.D = 0 ∧ s.u1 = 0)
    (hdt : 0 < s.dt) (hkw : 0 < s.kw) (hki : 0 ≤ s.effective.Ki) {w y : ℕ → K} {E F P L : K}
    (hE : ∀ n, |w n - y n| ≤ E) (hF : ∀ n, |s.c * w n - y n| ≤ F)
    (hP : ∀ n, |s.effective.Kc * (s.b * w n - y n)| ≤ P) (hL : |s.satMin| ≤ L ∧ |s.satMax| ≤ L)
    (hθ : |s.effective.Kd| * s.kw / s.dt + s.effective.Ki * s.kw * s.dt / 2 < 1 / 2) :
    Bounded s E F P L (2 * (L + P + |s.effective.Kd| * (E + F) / s.dt + E / s.kw) /
      (1 - 2 * (|s.effective.Kd| * s.kw / s.dt + s.effective.Ki * s.kw * s.dt / 2))) s := by
  have e0 : 0 ≤ E := (abs_nonneg _).trans (hE 0)
  have f0 : 0 ≤ F := (abs_nonneg _).trans (hF 0)
  have p0 : 0 ≤ P := (abs_nonneg _).trans (hP 0)
  have l0 : 0 ≤ L := (abs_nonneg _).trans hL.1
  have kd0 := abs_nonneg s.effective.Kd
  have t0 : 0 ≤ L + P + |s.effective.Kd| * (E + F) / s.dt + E / s.kw := by positivity
  have S0 : 0 ≤ 2 * (L + P + |s.effective.Kd| * (E + F) / s.dt + E / s.kw) /
      (1 - 2 * (|s.effective.Kd| * s.kw / s.dt + s.effective.Ki * s.kw * s.dt / 2)) :=
    div_nonneg (by linarith) (by linarith)
  obtain ⟨r0, r1, r2, r3⟩ := hrest
  refine ⟨hs, ⟨rfl, rfl, rfl, rfl, rfl, rfl, rfl, rfl, rfl⟩, ?_, ?_, ?_, ?_⟩
  · rw [r3, abs_zero]; positivity
  · rw [r1, abs_zero]; positivity
  · rw [r2, abs_zero]; positivity
  · rw [r0, r1, r3]; simp only [mul_zero, add_zero, abs_zero]; positivity

theorem bounded_step (s : Ctl K) (hdt : 0 < s.dt) (hkw : 0 < s.kw) (hki : 0 ≤ s.effective.Ki)
    (hb0 : 0 ≤ s.beta) (hb1 : s.beta ≤ 1) {w y : K} (E F P L : K) (hE : |w - y| ≤ E) (hF : |s.c * w - y| ≤ F)
    (hP : |s.effective.Kc * (s.b * w - y)| ≤ P) (hL : |s.satMin| ≤ L ∧ |s.satMax| ≤ L)
    (hg1 : s.effective.Ki * s.kw * s.dt ≤ 1)
    (hθ : |s.effective.Kd| * s.kw / s.dt + s.effective.Ki * s.kw * s.dt / 2 < 1 / 2) (t : Ctl K)
    (ht : Bounded s E F P L (2 * (L + P + |s.effective.Kd| * (E + F) / s.dt + E / s.kw) /
      (1 - 2 * (|s.effective.Kd| * s.kw / s.dt + s.effective.Ki * s.kw * s.dt / 2))) t) (r : K) :
    Bounded s E F P L (2 * (L + P + |s.effective.Kd| * (E + F) / s.dt + E / s.kw) /
      (1 - 2 * (|s.effective.Kd| * s.kw / s.dt + s.effective.Ki * s.kw * s.dt / 2))) (t.control w y r).1 ∧
    |s.effective.Ki * (t.control w y r).1.st.x0| ≤ 2 * (L + P + |s.effective.Kd| * (E + F) / s.dt + E / s.kw) /
      (1 - 2 * (|s.effective.Kd| * s.kw / s.dt + s.effective.Ki * s.kw * s.dt / 2)) := by
  have e0 : 0 ≤ E := (abs_nonneg _).trans hE
  have f0 : 0 ≤ F := (abs_nonneg _).trans hF
  have p0 : 0 ≤ P := (abs_nonneg _).trans hP
  have l0 : 0 ≤ L := (abs_nonneg _).trans hL.1
  have kd0 := abs_nonneg s.effective.Kd
  have T0 : 0 ≤ L + P + |s.effective.Kd| * (E + F) / s.dt + E / s.kw := by positivity
  have hSd : (2 * (L + P + |s.effective.Kd| * (E + F) / s.dt + E / s.kw) /
      (1 - 2 * (|s.effective.Kd| * s.kw / s.dt + s.effective.Ki * s.kw * s.dt / 2))) *
      (1 - 2 * (|s.effective.Kd| * s.kw / s.dt + s.effective.Ki * s.kw * s.dt / 2)) =
      2 * (L + P + |s.effective.Kd| * (E + F) / s.dt + E / s.kw) := div_mul_cancel₀ _ (by linarith)
  have S0 : 0 ≤ 2 * (L + P + |s.effective.Kd| * (E + F) / s.dt + E / s.kw) /
      (1 - 2 * (|s.effective.Kd| * s.kw / s.dt + s.effective.Ki * s.kw * s.dt / 2)) :=
    div_nonneg (by linarith) (by linarith)
  generalize 2 * (L + P + |s.effective.Kd| * (E + F) / s.dt + E / s.kw) /
      (1 - 2 * (|s.effective.Kd| * s.kw / s.dt + s.effective.Ki * s.kw * s.dt / 2)) = S at *
  obtain ⟨hA, hSP, hu, hx, hD, hC⟩ := ht
  have st := auto_step t hA w y r
  obtain ⟨-, hA', hSP', hx0, hx1, hD', hu'⟩ := st
  have he : |t.error w y 1| ≤ E := abs_error t w y 1 E (by simpa using hE)
  have hec : |t.error w y s.c| ≤ F := abs_error t w y s.c F hF
  have heb : |s.effective.Kc * t.error w y s.b| ≤ P := by
    have := abs_error t w y s.b _ le_rfl
    rw [abs_mul] at hP ⊢
    exact (mul_le_mul_of_nonneg_left this (abs_nonneg _)).trans hP
  simp only [hSP.eff, hSP.b, hSP.c, hSP.beta, hSP.dt, hSP.kw, hSP.lo, hSP.hi, fAdd, fSub, fMul, fDiv, fLit, Rat.cast_one,
    Rat.cast_div, Rat.cast_ofNat] at hx0 hx1 hD' hu'
  generalize t.error w y 1 = e at *
  generalize t.error w y s.c = ec at *
  generalize t.error w y s.b = eb at *
  generalize hG : s.effective.Ki = Ki at *
  generalize hH : s.effective.Kd = Kd at *
  generalize s.effective.Kc * eb = p at *
  have hD2 : |(t.control w y r).1.D| ≤ (F + E + s.kw * S) / s.dt := by
    have k1 : |(ec - t.st.x1) / s.dt| ≤ (F + E + s.kw * S) / s.dt := by
      rw [abs_div, abs_of_pos hdt]
      refine div_le_div_of_nonneg_right ?_ hdt.le
      have := abs_sub ec t.st.x1
      linarith
    rw [hD', show (ec - t.st.x1) / s.dt + s.beta * (t.D - (ec - t.st.x1) / s.dt) =
      (1 - s.beta) * ((ec - t.st.x1) / s.dt) + s.beta * t.D by ring]
    refine (abs_add_le _ _).trans ?_
    rw [abs_mul, abs_mul, abs_of_nonneg (by linarith : 0 ≤ 1 - s.beta), abs_of_nonneg hb0]
    have j1 := mul_le_mul_of_nonneg_left k1 (by linarith : 0 ≤ 1 - s.beta)
    have j2 := mul_le_mul_of_nonneg_left hD hb0
    have j3 : (1 - s.beta) * ((F + E + s.kw * S) / s.dt) + s.beta * ((F + E + s.kw * S) / s.dt) =
      (F + E + s.kw * S) / s.dt := by ring
    linarith
  rw [← hD', ← hx0] at hu'
  have hs0 : |t.u1 / s.kw| ≤ S := by
    rw [abs_div, abs_of_pos hkw, div_le_iff₀ hkw]; linarith
  have hq : |p + Kd * (t.control w y r).1.D| ≤ P + |Kd| * ((F + E + s.kw * S) / s.dt) := by
    refine (abs_add_le _ _).trans (add_le_add heb ?_)
    rw [abs_mul]
    exact mul_le_mul_of_nonneg_left hD2 kd0
  have hd : |Ki * s.dt * e| ≤ Ki * s.kw * s.dt * (E / s.kw) := by
    rw [abs_mul, abs_of_nonneg (by positivity : 0 ≤ Ki * s.dt),
      show Ki * s.kw * s.dt * (E / s.kw) = Ki * s.dt * E by field_simp]
    exact mul_le_mul_of_nonneg_left he (by positivity)
  have hI : Ki * (t.control w y r).1.st.x0 =
      (Ki * (t.st.x0 + s.dt / 2 * t.st.x1) + Ki * s.dt * t.u1) + Ki * s.dt * e / 2 -
        Ki * s.kw * s.dt / 2 * (t.u1 / s.kw) := by
    rw [hx0]; field_simp; ring
  generalize hV : p + Ki * (t.control w y r).1.st.x0 + Kd * (t.control w y r).1.D = v at *
  have hQ : |Kd| * ((F + E + s.kw * S) / s.dt) = |Kd| * (E + F) / s.dt + |Kd| * s.kw / s.dt * S := by
    field_simp; ring
  have G0 : 0 ≤ E / s.kw := by positivity
  have g0 : 0 ≤ Ki * s.kw * s.dt := by positivity
  have step := windup_step (L := L) (s1 := saturate v s.satMin s.satMax - v) (v := v) g0 hg1 hC hs0 hq hd G0
    (by rw [← hV, hI]; ring)
    (by
      rcases sat_cases v s.satMin s.satMax with ⟨h, -⟩ | ⟨h, -⟩ | ⟨h, h1, h2⟩
      · exact .inl ⟨_, hL.2, by rw [h]⟩
      · exact .inl ⟨_, hL.1, by rw [h]⟩
      · refine .inr ⟨by rw [h, sub_self], abs_le.2 ⟨?_, ?_⟩⟩
        · exact (abs_le.1 hL.1).1.trans h1
        · exact h2.trans (abs_le.1 hL.2).2)
    (by rw [hQ]; apply le_of_eq; ring)
    (by
      rw [hQ]
      apply le_of_eq
      linear_combination -hSd)
  refine ⟨⟨hA', ?_, ?_, ?_, hD2, ?_⟩, ?_⟩
  · obtain ⟨a1, a2, a3, a4, a5, a6, a7, a8, a9⟩ := hSP'
    obtain ⟨b1, b2, b3, b4, b5, b6, b7, b8, b9⟩ := hSP
    exact ⟨a1.trans b1, a2.trans b2, a3.trans b3, a4.trans b4, a5.trans b5, a6.trans b6, a7.trans b7, a8.trans b8,
      a9.trans b9⟩
  · rw [hu', abs_mul, abs_of_pos hkw]
    exact mul_le_mul_of_nonneg_left step.1 hkw.le
  · rw [hx1]
    exact (abs_add_le _ _).trans (add_le_add he hu)
  · rw [hG, hH]
    convert step.2 using 2
    rw [hx1, hu', hx0]; field_simp; ring
  · rw [hI]
    have hgs : |Ki * s.kw * s.dt / 2 * (t.u1 / s.kw)| ≤ Ki * s.kw * s.dt / 2 * S := by
      rw [abs_mul, abs_of_nonneg (by positivity)]
      exact mul_le_mul_of_nonneg_left hs0 (by positivity)
    have hd2 : Ki * s.kw * s.dt * (E / s.kw) ≤ 1 * (E / s.kw) := mul_le_mul_of_nonneg_right hg1 G0
    have q0 : 0 ≤ |Kd| * (E + F) / s.dt := by positivity
    have r0 : 0 ≤ |Kd| * s.kw / s.dt * S := by positivity
    have hB : L + P + |Kd| * (E + F) / s.dt + E / s.kw + (|Kd| * s.kw / s.dt + Ki * s.kw * s.dt / 2) * S + E / s.kw +
        Ki * s.kw * s.dt / 2 * S ≤ S := by
      have : S = 2 * (L + P + |Kd| * (E + F) / s.dt + E / s.kw) +
        2 * (|Kd| * s.kw / s.dt * S + Ki * s.kw * s.dt / 2 * S) := by linear_combination hSd
      linarith
    obtain ⟨c1, c2⟩ := abs_le.1 hC
    obtain ⟨d1, d2⟩ := abs_le.1 hd
    obtain ⟨f1, f2⟩ := abs_le.1 hgs
    rw [abs_le]
    constructor <;> linarith

/-- **C142** (partial) the controller does not wind up, if the gains are small for the sampling rate: let the loop gain of the
anti-windup `θ = |Kd| kw / dt + Ki kw dt / 2` be below one half and `Ki kw dt` at most 1. Then for all set-points and process
values with bounded errors, for ever, the integral action is bounded, and so is the distance between the output and
the signal before the limiter; the bounds do not depend on the time. -/
theorem C142_bounded_partial (s : Ctl K) (hs : Auto s) (hrest : s.st.x0 = 0 ∧ s.st.x1 = 0 ∧ s.D = 0 ∧ s.u1 = 0)
    (hdt : 0 < s.dt) (hkw : 0 < s.kw) (hki : 0 ≤ s.effective.Ki) (hb0 : 0 ≤ s.beta)
    (hb1 : s.beta ≤ 1) (w y r : ℕ → K) (E F P L : K) (hE : ∀ n, |w n - y n| ≤ E) (hF : ∀ n, |s.c * w n - y n| ≤ F)
    (hP : ∀ n, |s.effective.Kc * (s.b * w n - y n)| ≤ P) (hL : |s.satMin| ≤ L ∧ |s.satMax| ≤ L)
    (hg1 : s.effective.Ki * s.kw * s.dt ≤ 1)
    (hθ : |s.effective.Kd| * s.kw / s.dt + s.effective.Ki * s.kw * s.dt / 2 < 1 / 2) (n : ℕ) :
    let θ := |s.effective.Kd| * s.kw / s.dt + s.effective.Ki * s.kw * s.dt / 2
    let S := 2 * (L + P + |s.effective.Kd| * (E + F) / s.dt + E / s.kw) / (1 - 2 * θ)
    |(after s w y r (n + 1)).u1| ≤ s.kw * S ∧ |s.effective.Ki * (after s w y r (n + 1)).st.x0| ≤ S := by
  intro θ S
  have key : ∀ n, Bounded s E F P L S (after s w y r n) := by
    intro n
    induction n with
    | zero => exact bounded_rest s hs hrest hdt hkw hki hE hF hP hL hθ
    | succ n ih => exact (bounded_step s hdt hkw hki hb0 hb1 E F P L (hE n) (hF n) (hP n) hL hg1 hθ _ ih (r n)).1
  obtain ⟨h1, h2⟩ := bounded_step s hdt hkw hki hb0 hb1 E F P L (hE n) (hF n) (hP n) hL hg1 hθ _ (key n) (r n)
  exact ⟨h1.u1, h2⟩

/-- One call of a backward PI controller at zero error, with the integral action above the upper limit. -/
theorem locked_step (s : Ctl K) (hs : Auto s) (hKd : s.effective.Kd = 0) (hKi : s.effective.Ki < 0) (hdt : 0 < s.dt)
    (hkw : 0 < s.kw) (hb : s.b = 1) (hu : s.u1 ≤ 0)
    (hx : s.st.x1 ≤ 0) (hI : s.satMax < s.effective.Ki * s.st.x0) (w r : K) :
    (s.control w w r).2 = s.satMax ∧ Auto (s.control w w r).1 ∧ SameParams s (s.control w w r).1 ∧
      (s.control w w r).1.u1 ≤ 0 ∧ (s.control w w r).1.st.x1 ≤ 0 ∧
      s.effective.Ki * s.st.x0 ≤ s.effective.Ki * (s.control w w r).1.st.x0 := by
  have he : s.error w w 1 = 0 := by
    simp [Ctl.error]
  obtain ⟨h1, h2, h3, h4, h5, h6, h7⟩ := auto_step s hs w w r
  simp only [hb, hKd, fAdd, fSub, fMul, fDiv, fLit, Rat.cast_one, Rat.cast_div, Rat.cast_ofNat, he, mul_zero, zero_mul,
    zero_add, add_zero] at h1 h4 h5 h7
  have hx0 : s.effective.Ki * s.st.x0 ≤ s.effective.Ki * (s.st.x0 + 1 / 2 * (s.u1 + s.st.x1) * s.dt) := by
    have : (s.u1 + s.st.x1) * s.dt ≤ 0 := mul_nonpos_of_nonpos_of_nonneg (by linarith) hdt.le
    exact mul_le_mul_of_nonpos_left (by linarith) hKi.le
  have hsat : saturate (s.effective.Ki * (s.st.x0 + 1 / 2 * (s.u1 + s.st.x1) * s.dt)) s.satMin s.satMax = s.satMax := by
    simp only [saturate, fLt, decide_eq_true_eq]
    rw [if_pos (by linarith)]
  rw [hsat] at h1 h7
  refine ⟨h1, h2, h3, ?_, ?_, ?_⟩
  · rw [h7]; exact mul_nonpos_of_nonneg_of_nonpos hkw.le (by linarith)
  · rw [h5]; exact hu
  · rw [h4]; exact hx0

/-- **C142 is false of the code** in the backward direction: there the anti-windup feedback has the wrong sign. A backward PI
controller whose integral action is above the upper limit never comes back while the error is zero: the output is the upper
limit for ever, and the integral action never decreases. -/
theorem C142_backward_locked (s : Ctl K) (hs : Auto s) (hKd : s.effective.Kd = 0) (hKi : s.effective.Ki < 0)
    (hdt : 0 < s.dt) (hkw : 0 < s.kw) (hb : s.b = 1)
    (hu : s.u1 ≤ 0) (hx : s.st.x1 ≤ 0) (hI : s.satMax < s.effective.Ki * s.st.x0) (w r : ℕ → K) (n : ℕ) :
    ((after s w w r n).control (w n) (w n) (r n)).2 = s.satMax ∧
      s.effective.Ki * s.st.x0 ≤ s.effective.Ki * (after s w w r n).st.x0 := by
  have key : ∀ n, Auto (after s w w r n) ∧ SameParams s (after s w w r n) ∧ (after s w w r n).u1 ≤ 0 ∧
      (after s w w r n).st.x1 ≤ 0 ∧ s.effective.Ki * s.st.x0 ≤ s.effective.Ki * (after s w w r n).st.x0 := by
    intro n
    induction n with
    | zero => exact ⟨hs, ⟨rfl, rfl, rfl, rfl, rfl, rfl, rfl, rfl, rfl⟩, hu, hx, le_rfl⟩
    | succ n ih =>
      obtain ⟨i1, i2, i3, i4, i5⟩ := ih
      obtain ⟨-, j1, j2, j3, j4, j5⟩ := locked_step (after s w w r n) i1 (by rw [i2.eff, hKd]) (by rw [i2.eff]; exact hKi)
        (by rw [i2.dt]; exact hdt) (by rw [i2.kw]; exact hkw) (by rw [i2.b, hb]) i3 i4 (by rw [i2.eff, i2.hi]; linarith) (w n) (r n)
      rw [i2.eff] at j5
      obtain ⟨a1, a2, a3, a4, a5, a6, a7, a8, a9⟩ := j2
      obtain ⟨b1, b2, b3, b4, b5, b6, b7, b8, b9⟩ := i2
      exact ⟨j1, ⟨a1.trans b1, a2.trans b2, a3.trans b3, a4.trans b4, a5.trans b5, a6.trans b6, a7.trans b7, a8.trans b8,
        a9.trans b9⟩, j3, j4, i5.trans j5⟩
  obtain ⟨i1, i2, i3, i4, i5⟩ := key n
  obtain ⟨j, -⟩ := locked_step (after s w w r n) i1 (by rw [i2.eff, hKd]) (by rw [i2.eff]; exact hKi)
    (by rw [i2.dt]; exact hdt) (by rw [i2.kw]; exact hkw) (by rw [i2.b, hb]) i3 i4 (by rw [i2.eff, i2.hi]; linarith) (w n) (r n)
  exact ⟨j.trans i2.hi, i5⟩

end Exact

section Witness
attribute [local instance] noTrans

/-- A backward PI controller (`Kc = Ki = 1`, sampled every second, limits 0 to 100), right after `setup`. -/
def back0 : Ctl ℚ := ((fresh0.setup 1 1 0 1).1.setDirection .backward).1

/-- The same after three samples with the process value 50 above the set-point. -/
def back3 : Ctl ℚ := after back0 (fun _ => 0) (fun _ => 50) (fun _ => 0) 3

/-- **C142 is false of the code**: three samples with a process value 50 above the set-point drive a backward PI controller to
its upper limit; from then on the process value equals the set-point, and the output remains at the upper limit for ever. -/
theorem C142_backward_false (w : ℕ → ℚ) (n : ℕ) :
    ((after back3 w w (fun _ => 0) n).control (w n) (w n) 0).2 = 100 ∧ back3.satMin = 0 ∧ back3.satMax = 100 := by
  have h := C142_backward_locked back3 ⟨by decide +kernel, by decide +kernel, by decide +kernel, by decide +kernel,
    by decide +kernel, by decide +kernel⟩ (by decide +kernel) (by decide +kernel) (by decide +kernel) (by decide +kernel)
    (by decide +kernel) (by decide +kernel) (by decide +kernel) (by decide +kernel)
    w (fun _ => 0) n
  have hm : back3.satMax = 100 := by decide +kernel
  exact ⟨h.1.trans hm, by decide +kernel, hm⟩

-- the hypotheses of `C142_bounded_partial` hold for a PID controller sampled every tenth of a second
example : let s : Ctl ℚ := (fresh0.setup 2 1 (1 / 50) (1 / 10)).1
    Auto s ∧ (s.st.x0 = 0 ∧ s.st.x1 = 0 ∧ s.D = 0 ∧ s.u1 = 0) ∧ 0 < s.dt ∧ 0 < s.kw ∧ 0 ≤ s.effective.Ki ∧ 0 ≤ s.beta ∧
      s.beta ≤ 1 ∧ s.effective.Ki * s.kw * s.dt ≤ 1 ∧
      |s.effective.Kd| * s.kw / s.dt + s.effective.Ki * s.kw * s.dt / 2 < 1 / 2 := by
  refine ⟨⟨?_, ?_, ?_, ?_, ?_, ?_⟩, ?_⟩ <;> decide +kernel

end Witness

/-! ## Binary32 -/

section Ieee
variable [Trans (BitVec 32)]

omit [Trans (BitVec 32)] in
theorem saturate_nan {v lo hi : BitVec 32} (h : F32.IsNaN v) : F32.IsNaN (saturate v lo hi) := by
  have h1 : (hi <. v) = false := decide_eq_false (fun k => k.2.1 h)
  have h2 : (v <. lo) = false := decide_eq_false (fun k => k.1 h)
  unfold saturate
  rw [h1, h2]
  exact h

/-- **C142** a controller whose integral is NaN answers NaN for ever, whatever the set-point and the process value. -/
theorem C142_nan (s : Ctl (BitVec 32)) (hs : Auto s) (h : F32.IsNaN s.st.x0) (w y r : ℕ → BitVec 32) (n : ℕ) :
    F32.IsNaN ((after s w y r n).control (w n) (y n) (r n)).2 := by
  have one : ∀ (t : Ctl (BitVec 32)) (w y r : BitVec 32), Auto t → F32.IsNaN t.st.x0 →
      F32.IsNaN (t.control w y r).2 ∧ Auto (t.control w y r).1 ∧ F32.IsNaN (t.control w y r).1.st.x0 := by
    intro t w y r ht hx
    obtain ⟨h1, h2, -, h4, -⟩ := auto_step t ht w y r
    refine ⟨?_, h2, ?_⟩
    · rw [h1]
      exact saturate_nan (F32.add_nan_left (F32.add_nan_right (F32.mul_nan_right (F32.add_nan_left hx))))
    · rw [h4]
      exact F32.add_nan_left hx
  have key : ∀ n, Auto (after s w y r n) ∧ F32.IsNaN (after s w y r n).st.x0 := by
    intro n
    induction n with
    | zero => exact ⟨hs, h⟩
    | succ n ih => exact (one _ _ _ _ ih.1 ih.2).2
  exact (one _ _ _ _ (key n).1 (key n).2).1

end Ieee

section IeeeWitness

/-- An instance of `Trans` for the witness, which reaches no transcendental function. Not a definition of the repository. -/
@[reducible] def noTrans32 : Trans (BitVec 32) where
  exp := id
  log := id
  sqrt := id
  sin := id
  cos := id
  tanh := id
  pow := fun a _ => a

attribute [local instance] noTrans32

/-- A new controller, uninitialised members set to 1. -/
def fresh32 : Ctl (BitVec 32) :=
  let z := F32.lit 1
  { Kc := z, Ki := z, Kd := z, st := NState.new, b := z, c := z, satMin := z, satMax := z,
    epsilon := z, kw := z, kt := z, D := z, u1 := z, beta := z, uSat := z, dt := z, m := z,
    mInput := z, yr := false, alpha := z, gamma := z, mState := NState.new, bState := NState.new,
    adapt := none, mode := .automatic, dir := .forward, isInitialized := false }

/-- A PID controller with `Kc = 2`, `Ki = 1`, `Kd = 10`, sampled every 10 ms, right after `setup`: all else is default. -/
def pid32 : Ctl (BitVec 32) := (fresh32.setup (F32.lit 2) (F32.lit 1) (F32.lit 10) (F32.lit (1 / 100))).1

/-- The process value: 0 in the first two samples, and 50 from then on. -/
def step50 (k : ℕ) : BitVec 32 := if k < 2 then 0#32 else F32.lit 50

/-- **C142 is false of the code** in binary32: set-point 50; the process value is 0 in two samples and equals the set-point
from then on. From the 55th call on the output is NaN, for ever, whatever the set-point and the process value then are. -/
theorem C142_pid_false (w y r : ℕ → BitVec 32) (n : ℕ) :
    F32.IsNaN ((after (after pid32 (fun _ => F32.lit 50) step50 (fun _ => 0#32) 54) w y r n).control (w n) (y n) (r n)).2 := by
  apply C142_nan
  · refine ⟨?_, ?_, ?_, ?_, ?_, ?_⟩ <;> decide +kernel
  · decide +kernel

end IeeeWitness

end Verif.Pid
