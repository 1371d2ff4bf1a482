import Verif.Pid.Windup

/-!
# The integral action against a persistent error (C148)
-/

namespace Verif.Pid

open Arith Numa

universe u

section Exact
variable {K : Type u} [Field K] [LinearOrder K] [IsStrictOrderedRing K] [Trans K]

/-- One call that does not reach the upper limit. -/
theorem integral_step (s : Ctl K) (hs : Auto s) (hKd : s.effective.Kd = 0) (hkc : 0 ≤ s.effective.Kc)
    (hb : s.b = 1) (hdt : 0 < s.dt) (hkw : 0 ≤ s.kw) (hx1 : 0 ≤ s.st.x1) (hu1 : 0 ≤ s.u1) (w y r e0 : K)
    (he0 : 0 ≤ e0) (he : e0 ≤ s.error w y 1) :
    let t := (s.control w y r).1
    Auto t ∧ SameParams s t ∧ s.st.x0 + e0 * s.dt / 2 ≤ t.st.x0 ∧ 0 ≤ t.st.x1 ∧
      (s.satMax ≤ s.effective.Ki * t.st.x0 → (s.control w y r).2 = s.satMax ∨ s.satMax < s.satMin) ∧
      ((s.control w y r).2 ≠ s.satMax → 0 ≤ t.u1) := by
  obtain ⟨a1, a2, a3, a4, a5, a6, a7⟩ := auto_step s hs w y r
  simp only [fAdd, fSub, fMul, fDiv, fLit, hKd, zero_mul, add_zero, Rat.cast_one, hb] at a1 a4 a5 a6 a7
  have hx0 : s.st.x0 + e0 * s.dt / 2 ≤ (s.control w y r).1.st.x0 := by
    rw [a4]
    have : e0 * s.dt ≤ (s.error w y 1 + s.u1 + s.st.x1) * s.dt := mul_le_mul_of_nonneg_right (by linarith) hdt.le
    push_cast
    linarith
  have hP : 0 ≤ s.effective.Kc * s.error w y 1 := mul_nonneg hkc (he0.trans he)
  refine ⟨a2, a3, hx0, by rw [a5]; linarith, ?_, ?_⟩
  · intro hmax
    rw [← a4] at a1
    rw [a1]
    rcases sat_cases (s.effective.Kc * s.error w y 1 + s.effective.Ki * (s.control w y r).1.st.x0) s.satMin s.satMax with
      ⟨c, -⟩ | ⟨c, d⟩ | ⟨c, -, d⟩
    · exact .inl c
    · exact .inr (by linarith)
    · exact .inl (by rw [c]; linarith)
  · intro hne
    rw [a1] at hne
    rw [a7]
    refine mul_nonneg hkw ?_
    rcases sat_cases (s.effective.Kc * s.error w y 1 + s.effective.Ki * (s.st.x0 + ((1 / 2 : ℚ) : K) * (s.error w y 1 + s.u1 + s.st.x1) * s.dt))
      s.satMin s.satMax with ⟨c, -⟩ | ⟨c, d⟩ | ⟨c, -, d⟩
    · exact absurd c hne
    · rw [c]; linarith
    · rw [c]; linarith

/-- **C148** (partial: exact arithmetic, errors of positive sign, no derivative action) as long as the error is at least `e0 > 0`
the output reaches the upper limit within any number `N` of calls with `satMax ≤ Ki ( x0 + N e0 dt/2 )`, whatever the
process value does. Missing: binary32, where it is false (`C148_false`). -/
theorem C148_partial (s : Ctl K) (hs : Auto s) (hKd : s.effective.Kd = 0) (hkc : 0 ≤ s.effective.Kc)
    (hki : 0 ≤ s.effective.Ki) (hb : s.b = 1) (hdt : 0 < s.dt) (hkw : 0 ≤ s.kw) (hlim : s.satMin ≤ s.satMax)
    (hx1 : 0 ≤ s.st.x1) (hu1 : 0 ≤ s.u1) (w y r : ℕ → K) (e0 : K) (he0 : 0 ≤ e0) (he : ∀ k, e0 ≤ s.error (w k) (y k) 1)
    (N : ℕ) (hN0 : 0 < N) (hN : s.satMax ≤ s.effective.Ki * (s.st.x0 + N * (e0 * s.dt / 2))) :
    ∃ n < N, ((after s w y r n).control (w n) (y n) (r n)).2 = s.satMax := by
  by_contra hno
  push Not at hno
  have key : ∀ n < N, Auto (after s w y r n) ∧ SameParams s (after s w y r n) ∧
      s.st.x0 + n * (e0 * s.dt / 2) ≤ (after s w y r n).st.x0 ∧ 0 ≤ (after s w y r n).st.x1 ∧ 0 ≤ (after s w y r n).u1 := by
    intro n
    induction n with
    | zero => intro _; exact ⟨hs, ⟨rfl, rfl, rfl, rfl, rfl, rfl, rfl, rfl, rfl⟩, by simp [after], hx1, hu1⟩
    | succ n ih =>
      intro hn
      obtain ⟨i1, i2, i3, i4, i5⟩ := ih (by omega)
      have er : ∀ k, (after s w y r n).error (w n) (y n) k = s.error (w n) (y n) k := by
        intro k; simp only [Ctl.error]; rw [i2.eps]
      obtain ⟨q1, q2, q3, q4, -, q6⟩ := integral_step (after s w y r n) i1 (by rw [i2.eff]; exact hKd) (by rw [i2.eff]; exact hkc)
        (by rw [i2.b]; exact hb) (by rw [i2.dt]; exact hdt) (by rw [i2.kw]; exact hkw) i4 i5
        (w n) (y n) (r n) e0 he0 (by rw [er]; exact he n)
      refine ⟨q1, ⟨q2.eff.trans i2.eff, q2.b.trans i2.b, q2.c.trans i2.c, q2.beta.trans i2.beta, q2.dt.trans i2.dt,
        q2.kw.trans i2.kw, q2.lo.trans i2.lo, q2.hi.trans i2.hi, q2.eps.trans i2.eps⟩, ?_, q4, q6 ?_⟩
      · rw [i2.dt] at q3
        refine le_trans ?_ q3
        push_cast
        linarith
      · rw [i2.hi]; exact hno n (by omega)
  obtain ⟨n, rfl⟩ : ∃ n, N = n + 1 := ⟨N - 1, by omega⟩
  obtain ⟨i1, i2, i3, i4, i5⟩ := key n (by omega)
  have er : ∀ k, (after s w y r n).error (w n) (y n) k = s.error (w n) (y n) k := by
    intro k; simp only [Ctl.error]; rw [i2.eps]
  obtain ⟨-, -, q3, -, q5, -⟩ := integral_step (after s w y r n) i1 (by rw [i2.eff]; exact hKd) (by rw [i2.eff]; exact hkc)
    (by rw [i2.b]; exact hb) (by rw [i2.dt]; exact hdt) (by rw [i2.kw]; exact hkw) i4 i5
    (w n) (y n) (r n) e0 he0 (by rw [er]; exact he n)
  rw [i2.dt] at q3
  rw [i2.eff, i2.hi, i2.lo] at q5
  have hq : s.satMax ≤ s.effective.Ki * ((after s w y r n).control (w n) (y n) (r n)).1.st.x0 := by
    refine hN.trans (mul_le_mul_of_nonneg_left ?_ hki)
    push_cast
    linarith
  rcases q5 hq with h | h
  · exact hno n (by omega) h
  · exact absurd hlim (not_le.2 h)

end Exact

section Witness
attribute [local instance] noTrans

-- the hypotheses of `C148_partial`: a PI controller after `setup`, set-point 50, process value 49.97: error 3/100, `N = 6667` calls
example : Auto (fresh0.setup 1 1 0 1).1 ∧ (fresh0.setup 1 1 0 1).1.effective = ⟨1, 1, 0⟩ ∧ (fresh0.setup 1 1 0 1).1.b = 1 ∧
    (fresh0.setup 1 1 0 1).1.error 50 (4997 / 100) 1 = 3 / 100 ∧
    (fresh0.setup 1 1 0 1).1.satMax ≤ 1 * ((fresh0.setup 1 1 0 1).1.st.x0 + (6667 : ℕ) * (3 / 100 * 1 / 2)) := by
  refine ⟨⟨?_, ?_, ?_, ?_, ?_, ?_⟩, ?_, ?_, ?_, ?_⟩
  all_goals decide +kernel

end Witness

/-! ## Binary32 -/

section Ieee
attribute [local instance] F32.ieeeArith noTrans32

/-- A PI controller sampled with 10 kHz: `Kc = 1/1000`, `Ki = 1`, set-point weights 1, no derivative filter. Not a definition of
the repository. -/
def pi32 : Ctl (BitVec 32) :=
  let s := (fresh32.setup (F32.lit (1 / 1000)) (F32.lit 1) (F32.lit 0) (F32.lit (1 / 10000))).1
  ((s.setReferenceWeighting (F32.lit 1) (F32.lit 1)).1.setDerivativeFilter (F32.lit 0)).1

/-- The controller after a disturbance that has brought its integral action to 64, and three samples with error 0.03. Not a
definition of the repository. -/
def stuck32 : Ctl (BitVec 32) :=
  after pi32 (fun _ => F32.lit 50) (fun k => if k < 20 then F32.lit (-31950) else F32.lit (4997 / 100)) (fun _ => 0#32) 23

/-- What decides the next call in automatic mode. -/
structure Alike (s t : Ctl (BitVec 32)) : Prop where
  auto : Auto t
  par : SameParams s t
  x0 : t.st.x0 = s.st.x0
  x1 : t.st.x1 = s.st.x1
  D : t.D = s.D
  u1 : t.u1 = s.u1

theorem Alike.out {s t : Ctl (BitVec 32)} (hs : Auto s) (h : Alike s t) (w y r r' : BitVec 32) :
    (t.control w y r).2 = (s.control w y r').2 ∧ Alike (s.control w y r').1 (t.control w y r).1 := by
  obtain ⟨a1, a2, a3, a4, a5, a6, a7⟩ := auto_step s hs w y r'
  obtain ⟨b1, b2, b3, b4, b5, b6, b7⟩ := auto_step t h.auto w y r
  have er : ∀ k, t.error w y k = s.error w y k := by
    intro k; simp only [Ctl.error]; rw [h.par.eps]
  rw [er, er, er, h.x0, h.x1, h.D, h.u1, h.par.eff, h.par.b, h.par.c, h.par.beta, h.par.dt, h.par.lo, h.par.hi] at b1
  rw [er, h.x0, h.x1, h.u1, h.par.dt] at b4
  rw [er, h.u1] at b5
  rw [er, h.x1, h.D, h.par.c, h.par.beta, h.par.dt] at b6
  rw [er, er, er, h.x0, h.x1, h.D, h.u1, h.par.eff, h.par.b, h.par.c, h.par.beta, h.par.dt, h.par.lo, h.par.hi, h.par.kw] at b7
  have e := h.par
  exact ⟨b1.trans a1.symm, ⟨b2, ⟨b3.eff.trans (e.eff.trans a3.eff.symm), b3.b.trans (e.b.trans a3.b.symm), b3.c.trans (e.c.trans a3.c.symm),
    b3.beta.trans (e.beta.trans a3.beta.symm), b3.dt.trans (e.dt.trans a3.dt.symm), b3.kw.trans (e.kw.trans a3.kw.symm),
    b3.lo.trans (e.lo.trans a3.lo.symm), b3.hi.trans (e.hi.trans a3.hi.symm), b3.eps.trans (e.eps.trans a3.eps.symm)⟩,
    b4.trans a4.symm, b5.trans a5.symm, b6.trans a6.symm, b7.trans a7.symm⟩⟩

theorem stuck_auto : Auto stuck32 := by
  refine ⟨?_, ?_, ?_, ?_, ?_, ?_⟩
  all_goals decide +kernel

theorem stuck_next : Alike stuck32 (stuck32.control (F32.lit 50) (F32.lit (4997 / 100)) 0#32).1 ∧
    (stuck32.control (F32.lit 50) (F32.lit (4997 / 100)) 0#32).2 = F32.lit (64000038 / 1000000) := by
  obtain ⟨-, a2, a3, -, -, -, -⟩ := auto_step stuck32 stuck_auto (F32.lit 50) (F32.lit (4997 / 100)) 0#32
  refine ⟨⟨a2, a3, ?_, ?_, ?_, ?_⟩, ?_⟩
  all_goals decide +kernel

/-- **C148 is false of the code** in binary32: set-point 50 and process value 49.97, so an error of 0.03; the increments of the
integral action are less than half the distance of the binary32 numbers near it, so the output stays for ever at 64.000038, far from the
limit 100. -/
theorem C148_false (r : ℕ → BitVec 32) (n : ℕ) :
    ((after stuck32 (fun _ => F32.lit 50) (fun _ => F32.lit (4997 / 100)) r n).control (F32.lit 50) (F32.lit (4997 / 100)) (r n)).2 =
      F32.lit (64000038 / 1000000) ∧ stuck32.satMax = F32.lit 100 := by
  have key : ∀ n, Alike stuck32 (after stuck32 (fun _ => F32.lit 50) (fun _ => F32.lit (4997 / 100)) r n) := by
    intro n
    induction n with
    | zero => exact ⟨stuck_auto, ⟨rfl, rfl, rfl, rfl, rfl, rfl, rfl, rfl, rfl⟩, rfl, rfl, rfl, rfl⟩
    | succ n ih =>
      obtain ⟨-, h⟩ := ih.out stuck_auto (F32.lit 50) (F32.lit (4997 / 100)) (r n) 0#32
      obtain ⟨g, -⟩ := stuck_next
      have e := h.par
      have d := g.par
      exact ⟨h.auto, ⟨e.eff.trans d.eff, e.b.trans d.b, e.c.trans d.c, e.beta.trans d.beta, e.dt.trans d.dt, e.kw.trans d.kw,
        e.lo.trans d.lo, e.hi.trans d.hi, e.eps.trans d.eps⟩, h.x0.trans g.x0, h.x1.trans g.x1, h.D.trans g.D, h.u1.trans g.u1⟩
  refine ⟨((key n).out stuck_auto _ _ (r n) 0#32).1.trans stuck_next.2, ?_⟩
  decide +kernel

end Ieee

end Verif.Pid
