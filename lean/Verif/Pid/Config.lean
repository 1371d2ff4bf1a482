import Verif.Pid.Props
import Verif.Fis.ShapesExp
import Mathlib.Tactic.FieldSimp
import Mathlib.Tactic.Linarith

/-!
# Configuration of the PID controller (C173)
-/

namespace Verif.Pid

open Arith Numa

section AnyArithmetic
variable {R : Type u} [Arith R] [Trans R]

/-- The part of the configuration that a call belongs to (specification). -/
def Op.group : Op R → Option Nat
  | .setDirection _ => some 0
  | .setParams _ _ _ => some 1
  | .setGains _ _ _ => some 1
  | .setSeries => some 1
  | .setExtraGains _ _ => some 2
  | .setSaturation _ _ => some 3
  | .setEpsilon _ => some 4
  | .setDerivativeFilter _ => some 5
  | .setDerivativeFilterTimeConstant _ => some 5
  | .setMode _ => some 6
  | .setReferenceWeighting _ _ => some 7
  | .setManualInput _ => some 8
  | .setModelReferenceControl _ _ => some 9
  | .removeModelReferenceControl => some 9
  | .unbindAutoTuning => some 10
  | .enableAutoTuning _ => some 10
  | .setAutoTuningParameters _ _ _ => some 10
  | .setAutoTuningControllerType _ => some 10
  | .reset => some 11
  | _ => none

/-- The condition on the arguments of a call. -/
def Op.args : Op R → Bool
  | .setSaturation lo hi => lo <. hi
  | .setDerivativeFilter b => (lit 0 ≤. b) && (b <. lit 1)
  | .setDerivativeFilterTimeConstant tf => lit 0 ≤. tf
  | .setModelReferenceControl g a => (lit 0 <. g) && (lit 0 <. a)
  | .setAutoTuningParameters mu al la => ((lit 0 <. mu) && (mu ≤. lit 1)) && ((lit 0 <. al) && (al ≤. lit 1)) && ((lit 0 <. la) && (la ≤. lit 1))
  | _ => true

/-- The condition on the controller: set up, or, for the calls about the auto-tuner, bound to one. -/
def Op.guard (s : Ctl R) : Op R → Bool
  | .unbindAutoTuning => s.adapt.isSome
  | .enableAutoTuning _ => s.adapt.isSome
  | .setAutoTuningParameters _ _ _ => s.adapt.isSome
  | .setAutoTuningControllerType _ => s.adapt.isSome
  | _ => s.isInitialized

/-- The effect of a successful call. -/
def Op.upd (s : Ctl R) : Op R → Ctl R
  | .setDirection d => { s with dir := d }
  | .setParams kc ti td => { s with Kc := kc, Ki := kc /. ti, Kd := kc *. td }
  | .setGains kc ki kd => { s with Kc := kc, Ki := ki, Kd := kd }
  | .setSeries => { s with
      Kc := s.Kc *. (lit 1 +. (s.Kd /. s.Kc) /. (s.Kc /. s.Ki)),
      Ki := s.Kc *. (lit 1 +. (s.Kd /. s.Kc) /. (s.Kc /. s.Ki)) /. ((s.Kc /. s.Ki) *. (lit 1 +. (s.Kd /. s.Kc) /. (s.Kc /. s.Ki))),
      Kd := s.Kc *. (lit 1 +. (s.Kd /. s.Kc) /. (s.Kc /. s.Ki)) *. ((s.Kd /. s.Kc) /. (lit 1 +. (s.Kd /. s.Kc) /. (s.Kc /. s.Ki))) }
  | .setExtraGains kw kt => { s with kw := kw, kt := kt }
  | .setSaturation lo hi => { s with satMin := lo, satMax := hi }
  | .setEpsilon e => { s with epsilon := e }
  | .setDerivativeFilter b => { s with beta := b }
  | .setDerivativeFilterTimeConstant tf => { s with beta := Trans.exp (Arith.neg s.dt /. tf) }
  | .setMode m => { s with mode := m }
  | .setReferenceWeighting gb gc => { s with
      b := if lit 1 <. gb then lit 1 else if gb <. lit 0 then lit 0 else gb,
      c := if lit 1 <. gc then lit 1 else if gc <. lit 0 then lit 0 else gc }
  | .setManualInput v => { s with mInput := v }
  | .setModelReferenceControl g a => { s with
      mState := { s.mState with x0 := lit 0, x1 := lit 0, x2 := lit 0 }, alpha := a, gamma := g, yr := true }
  | .removeModelReferenceControl => { s with yr := false }
  | .unbindAutoTuning => { s with adapt := none }
  | .enableAutoTuning n => { s with adapt := s.adapt.map fun a => { a with it := if 0#32 = n then UNDEFINED else n } }
  | .setAutoTuningParameters mu al la => { s with adapt := s.adapt.map fun a => { a with l := la, mu := mu, speed := al } }
  | .setAutoTuningControllerType t => { s with adapt := s.adapt.map fun a => { a with type := t } }
  | .reset => { s with st := { s.st with x0 := lit 0, x1 := lit 0, x2 := lit 0 },
                       mState := { s.mState with x0 := lit 0, x1 := lit 0, x2 := lit 0 },
                       bState := { s.bState with x0 := lit 0, x1 := lit 0, x2 := lit 0 },
                       D := lit 0, u1 := lit 0, m := lit 0, uSat := lit 0 }
  | _ => s

/-- **C173** (effect) a configuration call succeeds exactly when the controller is set up (for the calls about the auto-tuner: bound to one)
and its arguments are admissible; it then changes only the members that `Op.upd` lists, otherwise nothing. -/
theorem C173_effect (s : Ctl R) (p : Op R) (hp : p.group.isSome = true) :
    p.run s = if p.guard s && p.args then (p.upd s, true, none) else (s, false, none) := by
  obtain ⟨Kc, Ki, Kd, st, b, c, lo, hi, ep, kw, kt, D, u1, be, us, dt, m, mi, yr, al, ga, ms, bs, ad, mo, di, ini⟩ := s
  cases p
  case setup => simp [Op.group] at hp
  case bindAutoTuning => simp [Op.group] at hp
  case poke => simp [Op.group] at hp
  case control => simp [Op.group] at hp
  case setSaturation lo hi =>
    cases ini
    · rfl
    · cases h1 : (lo <. hi) <;> simp [Op.run, Ctl.setSaturation, Op.guard, Op.args, Op.upd, h1]
  case setDerivativeFilter b =>
    cases ini
    · rfl
    · cases h1 : (lit 0 ≤. b) <;> cases h2 : (b <. lit 1) <;>
        simp [Op.run, Ctl.setDerivativeFilter, Op.guard, Op.args, Op.upd, h1, h2]
  case setDerivativeFilterTimeConstant tf =>
    cases ini
    · rfl
    · cases h1 : (lit 0 ≤. tf) <;> simp [Op.run, Ctl.setDerivativeFilterTimeConstant, Op.guard, Op.args, Op.upd, h1]
  case setModelReferenceControl g a =>
    cases ini
    · rfl
    · cases h1 : (lit 0 <. g) <;> cases h2 : (lit 0 <. a) <;>
        simp [Op.run, Ctl.setModelReferenceControl, Op.guard, Op.args, Op.upd, NState.init0, NState.init, h1, h2]
  case setAutoTuningParameters mu al la =>
    cases ad
    · rfl
    · cases h : (((lit 0 <. mu) && (mu ≤. lit 1)) && ((lit 0 <. al) && (al ≤. lit 1)) && ((lit 0 <. la) && (la ≤. lit 1))) <;>
        simp only [Op.run, Ctl.setAutoTuningParameters, isValidParam, Op.guard, Op.args, Op.upd, h, Option.isSome_some, Bool.and_false,
          Bool.and_true, Bool.false_eq_true, if_true, if_false, Option.map_some]
  case unbindAutoTuning => cases ad <;> rfl
  case enableAutoTuning n => cases ad <;> rfl
  case setAutoTuningControllerType t => cases ad <;> rfl
  all_goals cases ini <;> rfl

theorem Op.guard_upd (s : Ctl R) (p q : Op R) (hne : p.group ≠ q.group) : p.guard (q.upd s) = p.guard s := by
  cases p <;> cases q <;> first | rfl | exact absurd rfl hne

theorem Op.upd_comm (s : Ctl R) (p q : Op R) (hne : p.group ≠ q.group) : p.upd (q.upd s) = q.upd (p.upd s) := by
  cases p <;> cases q <;> first | rfl | exact absurd rfl hne

/-- **C173** (independence) configuration calls about different things may be made in either order: both calls return the same results and
leave the controller in the same state. -/
theorem C173_independent (s : Ctl R) (p q : Op R) (hp : p.group.isSome = true) (hq : q.group.isSome = true) (hne : p.group ≠ q.group) :
    (q.run (p.run s).1).1 = (p.run (q.run s).1).1 ∧ (q.run (p.run s).1).2 = (q.run s).2 ∧ (p.run (q.run s).1).2 = (p.run s).2 := by
  have e1 := C173_effect s p hp
  have e2 := C173_effect s q hq
  have e3 := C173_effect (p.run s).1 q hq
  have e4 := C173_effect (q.run s).1 p hp
  have g1 : q.guard (p.run s).1 = q.guard s := by
    rw [e1]; split
    · exact Op.guard_upd s q p (Ne.symm hne)
    · rfl
  have g2 : p.guard (q.run s).1 = p.guard s := by
    rw [e2]; split
    · exact Op.guard_upd s p q hne
    · rfl
  rw [g1] at e3
  rw [g2] at e4
  rw [e3, e4, e1, e2]
  cases p.guard s && p.args <;> cases q.guard s && q.args <;>
    simp only [Bool.false_eq_true, if_true, if_false, and_self]
  simp only [Op.upd_comm s p q hne, and_self]

/-- Non-vacuity: two calls about different things, on a controller that is set up; the second is refused in both orders. -/
example (s : Ctl ℚ) [Trans ℚ] (h : s.isInitialized = true) :
    let p : Op ℚ := .setGains 2 1 3
    let q : Op ℚ := .setSaturation 5 5
    p.group.isSome = true ∧ q.group.isSome = true ∧ p.group ≠ q.group ∧ (p.run s).2.1 = true ∧ (q.run (p.run s).1).2.1 = false ∧
      ((p.run s).1.Kc, (p.run s).1.Ki, (p.run s).1.Kd) = (2, 1, 3) := by
  simp [Op.group, Op.run, Ctl.setGains, Ctl.setSaturation, h, Arith.lt]

end AnyArithmetic

section Field
variable {K : Type u} [Field K] [LinearOrder K]

/-- **C174** (parameters) with exact arithmetic `setParams( kc, ti, td )` gives the controller whose transfer function at the frequency
`σ`, as the controller uses its gains (`Kc + Ki/σ + Kd·σ`), is the standard form `kc·( 1 + 1/( ti·σ ) + td·σ )`. -/
theorem C174_params (s : Ctl K) (h : s.isInitialized = true) (kc ti td σ : K) (hti : ti ≠ 0) (hσ : σ ≠ 0) :
    let r := (s.setParams kc ti td).1
    r.Kc + r.Ki / σ + r.Kd * σ = kc * (1 + 1 / (ti * σ) + td * σ) := by
  simp only [Ctl.setParams, h, if_true, fDiv, fMul]
  field_simp

/-- **C174** (series) with exact arithmetic `setSeries` turns the gains of a series controller, whose transfer function is
`Kc·( 1 + 1/( ti·σ ) )·( 1 + td·σ )` with `ti = Kc/Ki` and `td = Kd/Kc`, into those of the parallel controller with the same transfer
function. -/
theorem C174_series (s : Ctl K) (h : s.isInitialized = true) (σ : K) (hc : s.Kc ≠ 0) (hi : s.Ki ≠ 0)
    (ht : s.Kc * s.Kc + s.Kd * s.Ki ≠ 0) (hσ : σ ≠ 0) :
    let r := s.setSeries.1
    r.Kc + r.Ki / σ + r.Kd * σ = s.Kc * (1 + 1 / (s.Kc / s.Ki * σ)) * (1 + s.Kd / s.Kc * σ) := by
  have e : (1 : K) + s.Kd / s.Kc / (s.Kc / s.Ki) = (s.Kc * s.Kc + s.Kd * s.Ki) / (s.Kc * s.Kc) := by field_simp
  have ht' : (1 : K) + s.Kd / s.Kc / (s.Kc / s.Ki) ≠ 0 := by
    rw [e]; exact div_ne_zero ht (mul_ne_zero hc hc)
  simp only [Ctl.setSeries, h, if_true, fDiv, fMul, fAdd, fLit, Rat.cast_one]
  have k1 : s.Kc * (1 + s.Kd / s.Kc / (s.Kc / s.Ki)) / (s.Kc / s.Ki * (1 + s.Kd / s.Kc / (s.Kc / s.Ki))) = s.Ki := by
    rw [mul_div_mul_right _ _ ht']; field_simp
  have k2 : s.Kc * (1 + s.Kd / s.Kc / (s.Kc / s.Ki)) * (s.Kd / s.Kc / (1 + s.Kd / s.Kc / (s.Kc / s.Ki))) = s.Kd := by
    generalize 1 + s.Kd / s.Kc / (s.Kc / s.Ki) = T at ht'
    field_simp
  rw [k1, k2, e]
  field_simp
  ring

/-- Non-vacuity: `Kc = 2`, `Ki = 4`, `Kd = 1` become `4`, `4`, `1`. -/
example (s : Ctl ℚ) (h : s.isInitialized = true) (h1 : s.Kc = 2) (h2 : s.Ki = 4) (h3 : s.Kd = 1) :
    s.Kc * s.Kc + s.Kd * s.Ki ≠ 0 ∧ (s.setSeries.1.Kc, s.setSeries.1.Ki, s.setSeries.1.Kd) = (4, 4, 1) := by
  refine ⟨by rw [h1, h2, h3]; norm_num, ?_⟩
  simp only [Ctl.setSeries, h, if_true, fDiv, fMul, fAdd, fLit, h1, h2, h3, Prod.mk.injEq]
  norm_num

end Field

section Ieee
open F32 Fis
attribute [local instance] Fis.expTrans

/-- **C174** (filter, binary32) for a sampling period in (0, 1e9] and a time constant of at least 1e-9 the coefficient of the derivative filter
is in [0, 1] and within `1e-6` of `exp( -dt/Tf )`. -/
theorem C174_filter (s : Ctl (BitVec 32)) (h : s.isInitialized = true) (Tf : BitVec 32) (fd : F32.Finite s.dt) (d0 : 0 < val s.dt)
    (d1 : val s.dt ≤ 1e9) (ft : F32.Finite Tf) (t0 : 1e-9 ≤ val Tf) :
    let r := s.setDerivativeFilterTimeConstant Tf
    r.2 = true ∧ F32.Finite r.1.beta ∧ 0 ≤ val r.1.beta ∧ val r.1.beta ≤ 1 ∧
      |(val r.1.beta : ℝ) - Real.exp (-(val s.dt / val Tf))| ≤ 1e-6 := by
  have hn : F32.Finite (F32.negate s.dt) ∧ val (F32.negate s.dt) = -val s.dt := ⟨finite_negate.2 fd, val_negate _⟩
  have ok : ((Arith.lit 0 : BitVec 32) ≤. Tf) = true := by
    change F32.le (F32.lit 0) Tf = true
    rw [le_fin l0.1 ft, l0.2.1]; norm_num at t0 ⊢; linarith
  have d0' : (0 : ℝ) < val s.dt := by exact_mod_cast d0
  have d1' : (val s.dt : ℝ) ≤ 1e9 := by
    have : ((val s.dt : ℚ) : ℝ) ≤ ((1e9 : ℚ) : ℝ) := by exact_mod_cast d1
    norm_num at this ⊢; exact this
  have t0' : (1e-9 : ℝ) ≤ val Tf := by
    have : ((1e-9 : ℚ) : ℝ) ≤ ((val Tf : ℚ) : ℝ) := by exact_mod_cast t0
    norm_num at this ⊢; exact this
  have tp : (0 : ℝ) < val Tf := by norm_num at t0'; linarith
  have nd : F32.Near (F32.negate s.dt) (-(val s.dt : ℝ)) (0 * |-(val s.dt : ℝ)| + 1e-43) := by
    refine ⟨hn.1, ?_⟩
    rw [hn.2]; push_cast; norm_num
  obtain ⟨q, -⟩ := quot_near nd le_rfl (by norm_num) (by rw [abs_neg, abs_of_pos d0']; norm_num at d1' ⊢; linarith) ft
    (by rw [abs_of_pos tp]; exact t0')
  have un : -(val s.dt : ℝ) / val Tf ≤ 0 := div_nonpos_of_nonpos_of_nonneg (by linarith) tp.le
  have tq : 0 < val Tf := by exact_mod_cast tp
  have xn : val (F32.div (F32.negate s.dt) Tf) ≤ 0 := by
    rw [div_fin hn.1 ft tq.ne', hn.2, neg_div, val_rnd_neg _ true]
    exact neg_nonpos.2 (rnd_nonneg (div_nonneg d0.le tq.le))
  obtain ⟨r, hr, fr, r0, r1, er⟩ := Ffmath.exp_decay q.fin xn un (q.err.trans (by
    have := abs_nonneg (-(val s.dt : ℝ) / val Tf)
    norm_num; linarith))
  have e : Trans.exp (Arith.neg s.dt /. Tf) = r := by
    change (match Ffmath.exp (F32.div (F32.negate s.dt) Tf) with | .ok r => r | _ => Ffmath.nan) = r
    rw [hr]
  simp only [Ctl.setDerivativeFilterTimeConstant, h, ok, Bool.and_self, if_true, e]
  rw [neg_div] at er
  exact ⟨trivial, fr, r0, r1, er⟩

/-- **C174** (filter, binary32) a time constant of zero turns the filter off. -/
theorem C174_no_filter (s : Ctl (BitVec 32)) (h : s.isInitialized = true) (Tf : BitVec 32) (fd : F32.Finite s.dt) (d0 : 0 < val s.dt)
    (ht : Tf = 0#32) : (s.setDerivativeFilterTimeConstant Tf).2 = true ∧ (s.setDerivativeFilterTimeConstant Tf).1.beta = F32.lit 0 := by
  subst ht
  have q : F32.div (F32.negate s.dt) 0#32 = F32.negate Ffmath.inf := by
    have sg : F32.neg s.dt = false := by
      by_contra hc
      rw [Bool.not_eq_false] at hc
      have : 0 ≤ F32.fields (F32.expo s.dt) (F32.frac s.dt) := by unfold F32.fields; split <;> positivity
      unfold F32.val at d0
      rw [if_pos hc] at d0
      linarith
    have m0 : F32.mag (F32.negate s.dt) ≠ 0 := by
      rw [(negate_spec _).2]
      exact fun hc => d0.ne' (val_eq_zero.2 hc)
    have z : ¬ IsNaN (0#32 : BitVec 32) ∧ ¬ IsInf (0#32 : BitVec 32) ∧ F32.mag (0#32 : BitVec 32) = 0 := by decide +kernel
    have fn := finite_negate.2 fd
    unfold F32.div
    rw [if_neg (by simp [fn.notNaN, z.1]), if_neg fn.notInf, if_neg z.2.1, if_pos z.2.2, if_neg m0, (negate_spec _).1, sg]
    decide +kernel
  have e : Trans.exp (Arith.neg s.dt /. (0#32 : BitVec 32)) = F32.lit 0 := by
    change (match Ffmath.exp (F32.div (F32.negate s.dt) 0#32) with | .ok r => r | _ => Ffmath.nan) = F32.lit 0
    rw [q, (Ffmath.C80_limits _).1 (by decide +kernel)]
  have ok : ((Arith.lit 0 : BitVec 32) ≤. 0#32) = true := by decide +kernel
  simp only [Ctl.setDerivativeFilterTimeConstant, h, ok, Bool.and_self, if_true, e, and_self]

/-- Non-vacuity: 10 ms and a time constant of half a second. -/
example : F32.Finite (F32.lit (1 / 100)) ∧ 0 < val (F32.lit (1 / 100)) ∧ val (F32.lit (1 / 100)) ≤ 1e9 ∧
    F32.Finite (F32.lit (1 / 2)) ∧ 1e-9 ≤ val (F32.lit (1 / 2)) := by decide +kernel

/-- **C174 is false of the code** for a pure integral controller in binary32: with `Kc = 0`, `Ki = 1`, `Kd = 0` `setSeries` reports success
and leaves NaN in all three gains, although the transfer function is `1/σ` in either form. -/
theorem C174_series_false (s : Ctl (BitVec 32)) (h : s.isInitialized = true) :
    let r := ((s.setGains (F32.lit 0) (F32.lit 1) (F32.lit 0)).1).setSeries
    r.2 = true ∧ IsNaN r.1.Kc ∧ IsNaN r.1.Ki ∧ IsNaN r.1.Kd := by
  simp only [Ctl.setGains, Ctl.setSeries, h, if_true]
  decide +kernel

/-- **C174 is false of the code** for a long time constant: 1 ms against a million seconds gives the coefficient 1, which `setDerivativeFilter`
refuses because it makes the filter ignore its input for ever. -/
theorem C174_filter_false (s : Ctl (BitVec 32)) (h : s.isInitialized = true) (hd : s.dt = F32.lit (1 / 1000)) :
    (s.setDerivativeFilterTimeConstant (F32.lit 1000000)).2 = true ∧
      (s.setDerivativeFilterTimeConstant (F32.lit 1000000)).1.beta = F32.lit 1 ∧ (s.setDerivativeFilter (F32.lit 1)).2 = false := by
  have c : ((Arith.lit 0 : BitVec 32) ≤. F32.lit 1000000) = true ∧
      Trans.exp (Arith.neg (F32.lit (1 / 1000)) /. (F32.lit 1000000)) = F32.lit 1 ∧ (F32.lit 1 <. (Arith.lit 1 : BitVec 32)) = false := by
    decide +kernel
  simp only [Ctl.setDerivativeFilterTimeConstant, Ctl.setDerivativeFilter, h, hd, c.1, c.2.1, c.2.2, Bool.and_self, Bool.and_false, if_true,
    Bool.false_eq_true, if_false, and_self]

end Ieee

section RealFilter

/-- **C174** (filter, exact) with the exact exponential the coefficient is strictly between 0 and 1 for every positive period and time constant,
so that it is one which `setDerivativeFilter` accepts. -/
theorem C174_filter_real [Trans ℝ] (hexp : ∀ x : ℝ, Trans.exp x = Real.exp x) (s : Ctl ℝ) (h : s.isInitialized = true) (Tf : ℝ)
    (d0 : 0 < s.dt) (t0 : 0 < Tf) :
    let r := s.setDerivativeFilterTimeConstant Tf
    r.2 = true ∧ 0 < r.1.beta ∧ r.1.beta < 1 ∧ (s.setDerivativeFilter r.1.beta).2 = true := by
  have ok : ((Arith.lit 0 : ℝ) ≤. Tf) = true := by simp [fLe, t0.le]
  have q : -s.dt / Tf < 0 := div_neg_of_neg_of_pos (by linarith) t0
  have e1 := Real.exp_pos (-s.dt / Tf)
  have e2 : Real.exp (-s.dt / Tf) < 1 := by rw [← Real.exp_zero]; exact Real.exp_lt_exp.2 q
  simp [Ctl.setDerivativeFilterTimeConstant, Ctl.setDerivativeFilter, h, t0.le, hexp, e1, e2, e1.le]

end RealFilter
end Verif.Pid
