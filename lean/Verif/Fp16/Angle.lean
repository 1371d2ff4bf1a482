import Verif.Fp16.Atan

/-!
# `fp16::radToDeg` and `fp16::degToRad` (C133)
-/

namespace Verif.Fp16

/-- **C133** (degrees to radians). For every angle of the format the conversion succeeds, and the
result is within `5.1e-4` rad of the angle reduced to one turn around zero. -/
theorem C133_degToRad (x : Int) (hx : I32 x) :
    ∃ (k r : Int), degToRad x = .ok r ∧ |(x : ℝ) / 65536 - 360 * k| ≤ 180 ∧
      (|(x : ℝ) / 65536| ≤ 180 → k = 0) ∧
      |(r : ℝ) / 65536 - ((x : ℝ) / 65536 - 360 * k) * (Real.pi / 180)| ≤ 0.00051 := by
  obtain ⟨k, z, hz, ez, z0, z1, zs⟩ := wrapTo180_spec x hx
  have zr0 : (-11796480 : ℝ) ≤ z := by exact_mod_cast z0
  have zr1 : (z : ℝ) ≤ 11796480 := by exact_mod_cast z1
  have ez' : (z : ℝ) = x + k * 23592960 := by exact_mod_cast ez
  obtain ⟨r, hr, er⟩ := mul_real (x := z) (y := 1144) (by omega) (by omega) (by
    push_cast; rw [abs_le]; constructor <;> linarith)
  have et : (x : ℝ) / 65536 - 360 * ((-k : Int) : ℝ) = z / 65536 := by
    rw [ez']; push_cast; ring
  refine ⟨-k, r, by unfold degToRad; rw [hz]; exact hr, ?_, ?_, ?_⟩
  · rw [et, abs_le]; constructor <;> linarith
  · intro h
    rw [abs_le] at h
    have a0 : -11796480 ≤ x := by
      have : (-11796480 : ℝ) ≤ x := by linarith [h.1]
      exact_mod_cast this
    have a1 : x ≤ 11796480 := by
      have : (x : ℝ) ≤ 11796480 := by linarith [h.2]
      exact_mod_cast this
    have := zs a0 a1
    omega
  · rw [et]
    have p0 := Real.pi_gt_d6
    have p1 := Real.pi_lt_d6
    have ep : |(1144 : ℝ) / 65536 - Real.pi / 180| ≤ 0.00000277 := by
      rw [abs_le]; constructor <;> norm_num at p0 p1 ⊢ <;> linarith
    have ezz : |(z : ℝ) / 65536| ≤ 180 := by rw [abs_le]; constructor <;> linarith
    have e1 : (r : ℝ) / 65536 - z / 65536 * (Real.pi / 180) =
        (r - z * (1144 : Int) / 65536) / 65536 + z / 65536 * (1144 / 65536 - Real.pi / 180) := by
      push_cast; ring
    rw [e1]
    refine (abs_add_le _ _).trans ?_
    rw [abs_mul, abs_div]
    have := mul_le_mul ezz ep (abs_nonneg _) (by norm_num)
    have e2 : |(65536 : ℝ)| = 65536 := by norm_num
    rw [e2]
    norm_num at this er ⊢
    linarith

/-- **C133** (radians to degrees). For every angle of the format the conversion succeeds; the
result is the angle reduced by `k` turns, within `1.8e-5` degrees plus `1.5e-4` degrees for each
turn removed. -/
theorem C133_radToDeg (x : Int) (hx : I32 x) :
    ∃ (k r : Int), radToDeg x = .ok r ∧ |(x : ℝ) / 65536 - 2 * Real.pi * k| ≤ 3.14161 + 0.0000026 * |(k : ℝ)| ∧
      (|(x : ℝ) / 65536| ≤ 3.1415 → k = 0) ∧
      |(r : ℝ) / 65536 - ((x : ℝ) / 65536 - 2 * Real.pi * k) * (180 / Real.pi)| ≤
        0.000018 + 0.00015 * |(k : ℝ)| := by
  obtain ⟨k, z, hz, ez, z0, z1, zs⟩ := wrapToPi_spec x hx
  have zr0 : (-205887 : ℝ) ≤ z := by exact_mod_cast z0
  have zr1 : (z : ℝ) ≤ 205888 := by exact_mod_cast z1
  have ez' : (z : ℝ) = x + k * 411775 := by exact_mod_cast ez
  obtain ⟨r, hr, er⟩ := mul_real (x := z) (y := 3754936) (by omega) (by omega) (by
    push_cast; rw [abs_le]; constructor <;> linarith)
  have p0 := Real.pi_gt_d20
  have p1 := Real.pi_lt_d20
  have hpi : 0 < Real.pi := Real.pi_pos
  have et : (x : ℝ) / 65536 - 2 * Real.pi * ((-k : Int) : ℝ) =
      z / 65536 - k * (411775 / 65536 - 2 * Real.pi) := by
    rw [ez']; push_cast; ring
  have ek : |((-k : Int) : ℝ)| = |(k : ℝ)| := by push_cast; exact abs_neg _
  have ed : |(411775 : ℝ) / 65536 - 2 * Real.pi| ≤ 0.0000026 := by
    rw [abs_le]; constructor <;> norm_num at p0 p1 ⊢ <;> linarith
  have ekd : |(k : ℝ) * (411775 / 65536 - 2 * Real.pi)| ≤ 0.0000026 * |(k : ℝ)| := by
    rw [abs_mul, mul_comm (0.0000026 : ℝ)]
    exact mul_le_mul_of_nonneg_left ed (abs_nonneg _)
  refine ⟨-k, r, by unfold radToDeg; rw [hz]; exact hr, ?_, ?_, ?_⟩
  · rw [et, ek]
    refine (abs_sub _ _).trans ?_
    have : |(z : ℝ) / 65536| ≤ 3.14161 := by
      rw [abs_le]; constructor <;> norm_num <;> linarith
    linarith
  · intro h
    rw [abs_le] at h
    norm_num at h
    have a0 : -205887 ≤ x := by
      have : (-205887 : ℝ) ≤ x := by linarith [h.1]
      exact_mod_cast this
    have a1 : x ≤ 205887 := by
      have : (x : ℝ) ≤ 205887 := by linarith [h.2]
      exact_mod_cast this
    have := zs a0 a1
    omega
  · rw [et, ek]
    have q0 : 180 / Real.pi ≤ 57.29577952 := by
      rw [div_le_iff₀ hpi]; norm_num at p0 ⊢; linarith
    have q1 : 57.2957795 ≤ 180 / Real.pi := by
      rw [le_div_iff₀ hpi]; norm_num at p1 ⊢; linarith
    have eq : |(3754936 : ℝ) / 65536 - 180 / Real.pi| ≤ 0.0000032 := by
      rw [abs_le]; constructor <;> norm_num at q0 q1 ⊢ <;> linarith
    have ezz : |(z : ℝ) / 65536| ≤ 3.14161 := by
      rw [abs_le]; constructor <;> norm_num <;> linarith
    have eqa : |180 / Real.pi| ≤ 57.29577952 := by
      rw [abs_of_pos (by positivity)]; exact q0
    generalize hd : (k : ℝ) * (411775 / 65536 - 2 * Real.pi) = d at *
    generalize hq : 180 / Real.pi = q at *
    have e1 : (r : ℝ) / 65536 - (z / 65536 - d) * q =
        (r - z * (3754936 : Int) / 65536) / 65536 + z / 65536 * (3754936 / 65536 - q) + d * q := by
      push_cast; ring
    rw [e1]
    refine (abs_add_three _ _ _).trans ?_
    rw [abs_mul, abs_mul d, abs_div]
    have m1 := mul_le_mul ezz eq (abs_nonneg _) (by norm_num)
    have m2 := mul_le_mul ekd eqa (abs_nonneg _) (by positivity)
    have e2 : |(65536 : ℝ)| = 65536 := by norm_num
    rw [e2]
    have := abs_nonneg (k : ℝ)
    norm_num at m1 m2 er ⊢
    linarith

example : degToRad (450 * 65536) = .ok 102960 ∧ degToRad (-30 * 65536) = .ok (-34320) := by decide
example : radToDeg 102944 = .ok 5898256 ∧ radToDeg (-2147483648) = .ok (-4413093) := by decide +kernel

end Verif.Fp16
