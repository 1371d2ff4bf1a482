import Verif.Smoother.FloatTrack
import Verif.Smoother.Settle

/-!
# The first-order low-pass filter settles in binary32, but not on the constant (C179)

Full claim: for every accepted coefficient the outputs settle near a constant sample. It is false (`C179_deaf_false`); the `_partial`
theorem has the coefficients up to `1 - 1e-4`, those between it and the witness are missing.
-/

namespace Verif.Smoother

open Arith F32

/-- The outputs for a constant sample, in binary32. -/
theorem lpf1_iter {s : LPF1 (BitVec 32)} (hi : s.init = false) (c : BitVec 32) (n : ℕ) :
    (fun t : LPF1 (BitVec 32) => (t.smooth c).1)^[n] s =
      { s with y1 := (fun y => F32.add c (F32.mul s.alpha (F32.sub y c)))^[n] s.y1 } := by
  induction n with
  | zero => rfl
  | succ n ih =>
    rw [Function.iterate_succ_apply', Function.iterate_succ_apply', ih]
    unfold LPF1.smooth
    rw [hi]
    rfl

/-- **C179**: whatever history left the memory `y1`, a constant sample `c` makes the outputs of `smootherLPF1` settle within
`3.3e-7 * M / (1 - a)` of `c`, for coefficients up to `1 - 1e-4`. -/
theorem C179_settles_partial (s : LPF1 (BitVec 32)) (c : BitVec 32) (M : ℝ) (hi : s.init = false) (fa : F32.Finite s.alpha)
    (a0 : 0 < (val s.alpha : ℝ)) (a1 : (val s.alpha : ℝ) ≤ 1 - 1e-4) (fy : F32.Finite s.y1) (hy : |(val s.y1 : ℝ)| ≤ M) (fc : F32.Finite c)
    (hc : |(val c : ℝ)| ≤ M) (hM : 1e-30 ≤ M) (hM2 : M ≤ 1e30) :
    ∀ᶠ n in Filter.atTop, |(val (((fun t : LPF1 (BitVec 32) => (t.smooth c).1)^[n] s).smooth c).2 : ℝ) - val c| ≤
      3.3e-7 * M / (1 - val s.alpha) := by
  obtain ⟨a, ha⟩ : ∃ a, a = (val s.alpha : ℝ) := ⟨_, rfl⟩
  rw [← ha] at a0 a1 ⊢
  have Mp : 0 < M := by norm_num at hM; linarith
  have b0 : 0 < 1 - a := by norm_num at a1; linarith
  have E1 : (1 - a) * (3.2e-7 * M / (1 - a)) = 3.2e-7 * M := mul_div_cancel₀ _ b0.ne'
  have E0 : 0 ≤ 3.2e-7 * M / (1 - a) := by positivity
  have key : ∀ n, F32.Near ((fun y => F32.add c (F32.mul s.alpha (F32.sub y c)))^[n] s.y1) (val c + a ^ n * (val s.y1 - val c))
      (3.2e-7 * M / (1 - a)) ∧ |(val c : ℝ) + a ^ n * (val s.y1 - val c)| ≤ M := by
    intro n
    induction n with
    | zero =>
      have e : (val c : ℝ) + a ^ 0 * (val s.y1 - val c) = val s.y1 := by ring
      rw [e]
      exact ⟨(F32.Near.self fy).mono E0, hy⟩
    | succ n ih =>
      rw [Function.iterate_succ_apply']
      have e : (val c : ℝ) + a ^ (n + 1) * (val s.y1 - val c) = val c + a * ((val c + a ^ n * (val s.y1 - val c)) - val c) := by ring
      rw [e]
      have t := lpf1_track fa (ha ▸ a0.le) (ha ▸ a1) hM hM2 (ha ▸ E1) ih.1 ih.2 fc hc
      rwa [← ha] at t
  have T : Filter.Tendsto (fun n : ℕ => a ^ (n + 1) * ((val s.y1 : ℝ) - val c)) Filter.atTop (nhds 0) := by
    have := ((tendsto_pow_atTop_nhds_zero_of_lt_one a0.le (by linarith)).comp (Filter.tendsto_add_atTop_nat 1)).mul_const
      ((val s.y1 : ℝ) - val c)
    rwa [zero_mul] at this
  have ev := (Metric.tendsto_nhds.1 T) (1e-8 * M / (1 - a)) (by positivity)
  filter_upwards [ev] with n hn
  rw [Real.dist_eq, sub_zero] at hn
  have out : (((fun t : LPF1 (BitVec 32) => (t.smooth c).1)^[n] s).smooth c).2 =
      (fun y => F32.add c (F32.mul s.alpha (F32.sub y c)))^[n + 1] s.y1 := by
    have h := lpf1_iter hi c (n + 1)
    rw [Function.iterate_succ_apply'] at h
    exact congrArg LPF1.y1 h
  rw [out]
  have k := (key (n + 1)).1.err
  generalize (fun y => F32.add c (F32.mul s.alpha (F32.sub y c)))^[n + 1] s.y1 = y at *
  have e : (val y : ℝ) - val c = (val y - (val c + a ^ (n + 1) * (val s.y1 - val c))) + a ^ (n + 1) * (val s.y1 - val c) := by ring
  rw [e]
  refine (abs_add_le _ _).trans ?_
  have e' : 3.3e-7 * M / (1 - a) = 3.2e-7 * M / (1 - a) + 1e-8 * M / (1 - a) := by rw [← add_div]; congr 1; norm_num; ring
  rw [e']
  linarith

example : (⟨F32.lit 0.9, F32.lit 7, false⟩ : LPF1 (BitVec 32)).init = false ∧ F32.Finite (F32.lit 0.9) ∧ 0 < val (F32.lit 0.9) ∧
    val (F32.lit 0.9) ≤ 1 - 1e-4 ∧ F32.Finite (F32.lit 7) ∧ val (F32.lit 7) = 7 := by decide +kernel

/-- **C179**: the outputs need not reach the constant, nor come near it for coefficients close to 1: with `a = 1 - 2^-24`, accepted by
`setup`, a filter fed 0.75 and then ones for ever returns 0.75 for ever. -/
theorem C179_deaf_false (s0 : LPF1 (BitVec 32)) :
    ∃ s, s0.setup 0x3F7FFFFF#32 = (s, true) ∧ val (s.smooth (F32.lit 0.75)).2 = 3 / 4 ∧
      ∀ n, val (((fun t : LPF1 (BitVec 32) => (t.smooth (F32.lit 1)).1)^[n] (s.smooth (F32.lit 0.75)).1).smooth (F32.lit 1)).2 = 3 / 4 := by
  have g : (F32.lt (F32.lit 0) 0x3F7FFFFF#32 && F32.lt 0x3F7FFFFF#32 (F32.lit 1)) = true := by decide +kernel
  have fix : F32.add (F32.lit 1) (F32.mul 0x3F7FFFFF#32 (F32.sub (F32.lit 0.75) (F32.lit 1))) = F32.lit 0.75 := by decide +kernel
  have first : F32.add (F32.lit 0.75) (F32.mul 0x3F7FFFFF#32 (F32.sub (F32.lit 0.75) (F32.lit 0.75))) = F32.lit 0.75 := by decide +kernel
  have v : val (F32.lit 0.75) = 3 / 4 := by decide +kernel
  have st : (({ s0 with alpha := 0x3F7FFFFF#32, init := true } : LPF1 (BitVec 32)).smooth (F32.lit 0.75)) =
      (⟨0x3F7FFFFF#32, F32.lit 0.75, false⟩, F32.lit 0.75) := by
    have : (({ s0 with alpha := 0x3F7FFFFF#32, init := true } : LPF1 (BitVec 32)).smooth (F32.lit 0.75)) =
      (⟨0x3F7FFFFF#32, F32.add (F32.lit 0.75) (F32.mul 0x3F7FFFFF#32 (F32.sub (F32.lit 0.75) (F32.lit 0.75))), false⟩,
        F32.add (F32.lit 0.75) (F32.mul 0x3F7FFFFF#32 (F32.sub (F32.lit 0.75) (F32.lit 0.75)))) := rfl
    rw [this, first]
  refine ⟨{ s0 with alpha := 0x3F7FFFFF#32, init := true }, if_pos g, by rw [st]; exact v, fun n => ?_⟩
  rw [st]
  have h := lpf1_iter (s := ⟨0x3F7FFFFF#32, F32.lit 0.75, false⟩) rfl (F32.lit 1) (n + 1)
  rw [Function.iterate_succ_apply'] at h
  have out := congrArg LPF1.y1 h
  have it := Function.iterate_fixed (f := fun y => F32.add (F32.lit 1) (F32.mul 0x3F7FFFFF#32 (F32.sub y (F32.lit 1)))) fix (n + 1)
  exact (congrArg val (out.trans it)).trans v

end Verif.Smoother
