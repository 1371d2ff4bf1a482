import Verif.Fis.ShapesProps
import Verif.F32.Error
import Verif.F32.Hull
import Verif.Ffmath.Exp

/-!
# Membership functions in binary32 (C154)

IEEE binary32 arithmetic; nothing here is a definition of the repository except where cited.
-/

namespace Verif.Fis

open Arith F32

/-! ## Quotients of differences -/

/-- The quotient of two rounded differences. -/
theorem ratio_near {p q r s : BitVec 32} (hp : F32.Finite p) (hq : F32.Finite q) (hr : F32.Finite r)
    (hs : F32.Finite s) (u w : ℝ) (hu : (val p : ℝ) - val q = u) (hw : (val r : ℝ) - val s = w)
    (u1 : |u| ≤ 2e18) (w0 : 1e-18 ≤ |w|) (w1 : |w| ≤ 2e18) :
    F32.Near (F32.div (F32.sub p q) (F32.sub r s)) (u / w) (1.8e-7 * |u / w| + 1e-26) := by
  have wp : 0 < |w| := by norm_num at w0; linarith
  have u0 := abs_nonneg u
  have n1 : F32.Near (F32.sub p q) u (|u| / 16777216 + 1e-45) := by
    rw [← hu]
    refine F32.Near.sub |u| (F32.Near.self hp) (F32.Near.self hq) (by rw [hu]; linarith)
      (by norm_num at u1 ⊢; linarith) (by rw [hu]; norm_num)
  have n2 : F32.Near (F32.sub r s) w (5.97e-8 * |w|) := by
    rw [← hw]
    refine F32.Near.sub |w| (F32.Near.self hr) (F32.Near.self hs) (by rw [hw]; linarith)
      (by norm_num at w1 ⊢; linarith) (by rw [hw]; norm_num at w0 ⊢; linarith)
  obtain ⟨T, hT⟩ : ∃ T, T = |u / w| := ⟨_, rfl⟩
  have T0 : 0 ≤ T := hT ▸ abs_nonneg _
  have uT : |u| = T * |w| := by rw [hT, abs_div]; field_simp
  have TB : T ≤ 2e36 := by
    rw [hT, abs_div, div_le_iff₀ wp]
    norm_num at u1 w0 ⊢; linarith
  rw [← hT]
  refine F32.Near.div T (|w| * (1 - 6e-8)) (1.195e-7 * T + 1.1e-27) (1.0000002 * T + 2e-27) n1 n2
    (abs_pos.1 wp) (by positivity) (by norm_num; linarith) hT.ge ?_ ?_ ?_ ?_
  · rw [uT, div_le_iff₀ (by positivity)]
    have h1 : 0 ≤ T * |w| := by positivity
    have h2 : (1.195e-7 * T + 1.1e-27) * (|w| * (1 - 6e-8)) =
        1.195e-7 * (1 - 6e-8) * (T * |w|) + 1.1e-27 * (1 - 6e-8) * |w| := by ring
    rw [h2, show T * (5.97e-8 * |w|) = 5.97e-8 * (T * |w|) by ring]
    generalize T * |w| = V at *
    norm_num at w0 ⊢; linarith
  · norm_num; linarith
  · norm_num at TB ⊢; linarith
  · norm_num; linarith

/-- Limitation to [0, 1]. -/
noncomputable def clip (t : ℝ) : ℝ := max 0 (min t 1)

theorem clip_range (t : ℝ) : 0 ≤ clip t ∧ clip t ≤ 1 :=
  ⟨le_max_left _ _, max_le zero_le_one (min_le_right _ _)⟩

theorem clip_self {t : ℝ} (h0 : 0 ≤ t) (h1 : t ≤ 1) : clip t = t := by
  unfold clip; rw [min_eq_left h1, max_eq_right h0]

theorem clip_le {t : ℝ} (h : t ≤ 1) : clip t = max t 0 := by
  unfold clip; rw [min_eq_left h, max_comm]

theorem clip_mono {s t : ℝ} (h : s ≤ t) : clip s ≤ clip t :=
  max_le_max le_rfl (min_le_min h le_rfl)

theorem clip_min (s t : ℝ) : clip (min s t) = min (clip s) (clip t) := by
  rcases le_total s t with h | h
  · rw [min_eq_left h, min_eq_left (clip_mono h)]
  · rw [min_eq_right h, min_eq_right (clip_mono h)]

theorem clip_lip (s t : ℝ) : |clip s - clip t| ≤ |s - t| := by
  unfold clip
  rw [max_comm 0, max_comm 0]
  refine (abs_max_sub_max_le_abs _ _ _).trans ((abs_min_sub_min_le_max _ _ _ _).trans ?_)
  simp

theorem clip_near {q t : ℝ} (h : |q - t| ≤ 1.8e-7 * |t| + 1e-26) : |clip q - clip t| ≤ 2e-7 := by
  by_cases h1 : |t| ≤ 1
  · refine (clip_lip q t).trans (h.trans ?_)
    norm_num at h1 ⊢; linarith
  · rw [not_le] at h1
    rcases le_total 0 t with t0 | t0
    · rw [abs_of_nonneg t0] at h h1
      have a := (_root_.abs_le.1 h).1
      have : clip t = 1 := by unfold clip; rw [min_eq_right h1.le]; norm_num
      rw [this]
      have hq : 1 - 2e-7 ≤ q := by norm_num at a ⊢; linarith
      have := clip_mono hq
      rw [clip_self (by norm_num) (by norm_num)] at this
      have := (clip_range q).2
      rw [_root_.abs_le]; constructor <;> linarith
    · rw [abs_of_nonpos t0] at h h1
      have a := (_root_.abs_le.1 h).2
      have : clip t = 0 := by
        unfold clip; rw [min_eq_left (by linarith), max_eq_left t0]
      have hq : clip q = 0 := by
        have : q ≤ 0 := by norm_num at a; linarith
        unfold clip; rw [min_eq_left (by linarith), max_eq_left this]
      rw [this, hq]; norm_num

theorem l0 : F32.Finite (F32.lit 0) ∧ val (F32.lit 0) = 0 ∧ F32.Finite (F32.lit 1) ∧ val (F32.lit 1) = 1 := by
  decide +kernel

theorem bound01_val {y : BitVec 32} (h : F32.Finite y) :
    F32.Finite (bound01 y) ∧ (val (bound01 y) : ℝ) = clip (val y) := by
  have hn : Arith.isNan y = false := decide_eq_false h.notNaN
  unfold bound01 bound
  rw [hn]
  change F32.Finite (if false = true then _ else if F32.lt y (F32.lit 0) = true then F32.lit 0 else if F32.lt (F32.lit 1) y = true then F32.lit 1 else y) ∧
    (val (if false = true then _ else if F32.lt y (F32.lit 0) = true then F32.lit 0 else if F32.lt (F32.lit 1) y = true then F32.lit 1 else y) : ℝ) = _
  rw [if_neg (by decide)]
  rw [lt_fin h l0.1, lt_fin l0.2.2.1 h, l0.2.1, l0.2.2.2]
  simp only [decide_eq_true_eq]
  by_cases h0 : val y < 0
  · rw [if_pos h0, l0.2.1]
    refine ⟨l0.1, ?_⟩
    have : (val y : ℝ) < 0 := by exact_mod_cast h0
    unfold clip; rw [min_eq_left (by linarith), max_eq_left this.le]; norm_num
  · rw [if_neg h0]
    by_cases h1 : 1 < val y
    · rw [if_pos h1, l0.2.2.2]
      refine ⟨l0.2.2.1, ?_⟩
      have : (1 : ℝ) < val y := by exact_mod_cast h1
      unfold clip; rw [min_eq_right this.le]; norm_num
    · rw [if_neg h1]
      refine ⟨h, (clip_self ?_ ?_).symm⟩
      · exact_mod_cast not_lt.1 h0
      · exact_mod_cast not_lt.1 h1

theorem Min_val {a b : BitVec 32} (ha : F32.Finite a) (hb : F32.Finite b) :
    F32.Finite (Min a b) ∧ (val (Min a b) : ℝ) = min (clip (val a)) (clip (val b)) := by
  have : F32.Finite (if Arith.lt a b then a else b) ∧
      (val (if Arith.lt a b then a else b) : ℝ) = min (val a : ℝ) (val b) := by
    change F32.Finite (if F32.lt a b = true then a else b) ∧ (val (if F32.lt a b = true then a else b) : ℝ) = _
    rw [lt_fin ha hb]
    simp only [decide_eq_true_eq]
    by_cases h : val a < val b
    · rw [if_pos h]
      have : (val a : ℝ) < val b := by exact_mod_cast h
      exact ⟨ha, (min_eq_left this.le).symm⟩
    · rw [if_neg h]
      have : (val b : ℝ) ≤ val a := by exact_mod_cast not_lt.1 h
      exact ⟨hb, (min_eq_right this).symm⟩
  unfold Min
  obtain ⟨f, e⟩ := bound01_val this.1
  exact ⟨f, by rw [e, this.2, clip_min]⟩

theorem Max0_val {a : BitVec 32} (ha : F32.Finite a) (h0 : 0 ≤ (val a : ℝ)) (h1 : (val a : ℝ) ≤ 1) :
    F32.Finite (Max a (F32.lit 0)) ∧ (val (Max a (F32.lit 0)) : ℝ) = val a := by
  have : F32.Finite (if Arith.lt (F32.lit 0) a then a else F32.lit 0) ∧
      (val (if Arith.lt (F32.lit 0) a then a else F32.lit 0) : ℝ) = val a := by
    change F32.Finite (if F32.lt (F32.lit 0) a = true then a else F32.lit 0) ∧ (val (if F32.lt (F32.lit 0) a = true then a else F32.lit 0) : ℝ) = _
    rw [lt_fin l0.1 ha, l0.2.1]
    simp only [decide_eq_true_eq]
    by_cases h : 0 < val a
    · rw [if_pos h]; exact ⟨ha, rfl⟩
    · rw [if_neg h, l0.2.1]
      refine ⟨l0.1, ?_⟩
      have : (val a : ℝ) ≤ 0 := by exact_mod_cast not_lt.1 h
      push_cast; linarith
  unfold Max
  obtain ⟨f, e⟩ := bound01_val this.1
  exact ⟨f, by rw [e, this.2, clip_self h0 h1]⟩

theorem min_close {a b c d e : ℝ} (h1 : |a - c| ≤ e) (h2 : |b - d| ≤ e) : |min a b - min c d| ≤ e :=
  (abs_min_sub_min_le_max _ _ _ _).trans (max_le h1 h2)

/-! ## Sets -/

/-- A finite number of magnitude up to `1e18`. -/
def Fin18 (y : BitVec 32) : Prop := F32.Finite y ∧ |(val y : ℝ)| ≤ 1e18

theorem Fin18.sub {a b : BitVec 32} (ha : Fin18 a) (hb : Fin18 b) : |(val a : ℝ) - val b| ≤ 2e18 := by
  have h1 := ha.2
  have h2 := hb.2
  refine (abs_sub _ _).trans ?_
  norm_num at h1 h2 ⊢; linarith

theorem ratio18 {p q r s : BitVec 32} (hp : Fin18 p) (hq : Fin18 q) (hr : Fin18 r) (hs : Fin18 s)
    (w0 : 1e-18 ≤ |(val r : ℝ) - val s|) :
    F32.Near (F32.div (F32.sub p q) (F32.sub r s)) (((val p : ℝ) - val q) / (val r - val s))
      (1.8e-7 * |((val p : ℝ) - val q) / (val r - val s)| + 1e-26) :=
  ratio_near hp.1 hq.1 hr.1 hs.1 _ _ rfl rfl (hp.sub hq) w0 (hr.sub hs)

/-- **C154** (triangular sets) in binary32 the membership is within `2e-7` of the exact one, for all parameters and inputs
of magnitude up to `1e18` with flanks at least `1e-18` wide. -/
theorem C154_tri (inp : Nat → Out (IO (BitVec 32))) (p : Nat → Out (BitVec 32)) (n : Nat) (io : IO (BitVec 32))
    (a b c : BitVec 32) (hx : inp 0 = .ok io) (h0 : p 0 = .ok a) (h1 : p 1 = .ok b) (h2 : p 2 = .ok c)
    (fx : Fin18 io.value) (fa : Fin18 a) (fb : Fin18 b) (fc : Fin18 c)
    (g1 : 1e-18 ≤ (val b : ℝ) - val a) (g2 : 1e-18 ≤ (val c : ℝ) - val b) :
    ∃ y, TriMF inp p n = .ok y ∧ F32.Finite y ∧ 0 ≤ val y ∧ val y ≤ 1 ∧
      |(val y : ℝ) - max (min (((val io.value : ℝ) - val a) / (val b - val a))
        ((val c - val io.value) / (val c - val b))) 0| ≤ 2e-7 := by
  have n1 := ratio18 fx fa fb fa (g1.trans (le_abs_self _))
  have n2 := ratio18 fc fx fc fb (g2.trans (le_abs_self _))
  have m := Min_val n1.fin n2.fin
  have mr : 0 ≤ (val (Min (F32.div (F32.sub io.value a) (F32.sub b a)) (F32.div (F32.sub c io.value) (F32.sub c b))) : ℝ) ∧
      (val (Min (F32.div (F32.sub io.value a) (F32.sub b a)) (F32.div (F32.sub c io.value) (F32.sub c b))) : ℝ) ≤ 1 := by
    rw [m.2]
    exact ⟨le_min (clip_range _).1 (clip_range _).1, (min_le_left _ _).trans (clip_range _).2⟩
  obtain ⟨f, e⟩ := Max0_val m.1 mr.1 mr.2
  refine ⟨_, by simp only [TriMF, hx, h0, h1, h2, Out.bind_ok, Out.pure_eq]; rfl, f, ?_, ?_, ?_⟩
  · have := mr.1; rw [← e] at this; exact_mod_cast this
  · have := mr.2; rw [← e] at this; exact_mod_cast this
  · refine le_trans (le_of_eq ?_) (min_close (clip_near n1.err) (clip_near n2.err))
    congr 1
    rw [e, m.2, ← clip_min (((val io.value : ℝ) - val a) / (val b - val a)),
      clip_le (t := min (((val io.value : ℝ) - val a) / (val b - val a)) _)]
    have wb : 0 < (val b : ℝ) - val a := by norm_num at g1; linarith
    have wc : 0 < (val c : ℝ) - val b := by norm_num at g2; linarith
    rcases le_total (val io.value : ℝ) (val b) with h | h
    · refine (min_le_left _ _).trans ?_
      rw [div_le_one wb]; linarith
    · refine (min_le_right _ _).trans ?_
      rw [div_le_one wc]; linarith

/-- **C154** (trapezoidal sets) within `2e-7` of the exact membership. -/
theorem C154_trap (inp : Nat → Out (IO (BitVec 32))) (p : Nat → Out (BitVec 32)) (n : Nat) (io : IO (BitVec 32))
    (a b c d : BitVec 32) (hx : inp 0 = .ok io) (h0 : p 0 = .ok a) (h1 : p 1 = .ok b) (h2 : p 2 = .ok c)
    (h3 : p 3 = .ok d)
    (fx : Fin18 io.value) (fa : Fin18 a) (fb : Fin18 b) (fc : Fin18 c) (fd : Fin18 d)
    (g1 : 1e-18 ≤ (val b : ℝ) - val a) (g2 : 1e-18 ≤ (val d : ℝ) - val c) :
    ∃ y, TrapMF inp p n = .ok y ∧ F32.Finite y ∧ 0 ≤ val y ∧ val y ≤ 1 ∧
      |(val y : ℝ) - max (min (min (((val io.value : ℝ) - val a) / (val b - val a)) 1)
        ((val d - val io.value) / (val d - val c))) 0| ≤ 2e-7 := by
  have n1 := ratio18 fx fa fb fa (g1.trans (le_abs_self _))
  have n2 := ratio18 fd fx fd fc (g2.trans (le_abs_self _))
  have m := Min_val n1.fin l0.2.2.1
  have c1 : clip ((val (F32.lit 1) : ℚ) : ℝ) = 1 := by
    rw [l0.2.2.2]; push_cast; exact clip_self zero_le_one le_rfl
  rw [c1, min_eq_left (clip_range _).2] at m
  have m' := Min_val m.1 n2.fin
  rw [m.2, clip_self (clip_range _).1 (clip_range _).2] at m'
  have mr : 0 ≤ (val (Min (Min (F32.div (F32.sub io.value a) (F32.sub b a)) (F32.lit 1)) (F32.div (F32.sub d io.value) (F32.sub d c))) : ℝ) ∧
      (val (Min (Min (F32.div (F32.sub io.value a) (F32.sub b a)) (F32.lit 1)) (F32.div (F32.sub d io.value) (F32.sub d c))) : ℝ) ≤ 1 := by
    rw [m'.2]
    exact ⟨le_min (clip_range _).1 (clip_range _).1, (min_le_left _ _).trans (clip_range _).2⟩
  obtain ⟨f, e⟩ := Max0_val m'.1 mr.1 mr.2
  refine ⟨_, by simp only [TrapMF, hx, h0, h1, h2, h3, Out.bind_ok, Out.pure_eq]; rfl, f, ?_, ?_, ?_⟩
  · have := mr.1; rw [← e] at this; exact_mod_cast this
  · have := mr.2; rw [← e] at this; exact_mod_cast this
  · refine le_trans (le_of_eq ?_) (min_close (clip_near n1.err) (clip_near n2.err))
    congr 1
    rw [e, m'.2, ← clip_min (((val io.value : ℝ) - val a) / (val b - val a))]
    congr 1
    unfold clip
    rw [max_comm, min_right_comm]

theorem wide_lt {a b : BitVec 32} (g : 1e-18 ≤ (val b : ℝ) - val a) : val a < val b := by
  have : (val a : ℝ) < val b := by norm_num at g; linarith
  exact_mod_cast this

theorem Fin18.fin {a b : BitVec 32} (ha : Fin18 a) (hb : Fin18 b) : F32.Finite (F32.sub a b) := by
  rw [sub_fin ha.1 hb.1]
  apply rnd_fin_max
  have h := ha.sub hb
  have : |val a - val b| ≤ 2e18 := by
    have : ((|val a - val b| : ℚ) : ℝ) ≤ ((2e18 : ℚ) : ℝ) := by push_cast; norm_num at h ⊢; exact h
    exact_mod_cast this
  exact this.trans (by norm_num)

theorem wide_pos {r s : BitVec 32} (hr : Fin18 r) (hs : Fin18 s) (g : 1e-18 ≤ (val r : ℝ) - val s) :
    0 < val (F32.sub r s) := by
  have h2 : 1e-18 ≤ val r - val s := by
    have : ((1e-18 : ℚ) : ℝ) ≤ ((val r - val s : ℚ) : ℝ) := by push_cast; norm_num at g ⊢; exact g
    exact_mod_cast this
  have hc : val (F32.lit 5e-19) ≤ 1e-18 ∧ F32.Finite (F32.lit 5e-19) ∧ 0 < val (F32.lit 5e-19) := by
    decide +kernel
  rw [sub_fin hr.1 hs.1]
  exact hc.2.2.trans_le (le_rnd hc.2.1 (hc.1.trans h2))

/-- The computed quotient of a part by the whole lies in [0, 1]. -/
theorem part_range {a b x : BitVec 32} (fx : Fin18 x) (fa : Fin18 a) (fb : Fin18 b)
    (h0 : val a ≤ val x) (h1 : val x ≤ val b) (g : 1e-18 ≤ (val b : ℝ) - val a) :
    0 ≤ val (F32.div (F32.sub x a) (F32.sub b a)) ∧ val (F32.div (F32.sub x a) (F32.sub b a)) ≤ 1 := by
  have e1 : 0 ≤ val (F32.sub x a) := by rw [sub_fin fx.1 fa.1]; exact rnd_nonneg (by linarith)
  have e2 : val (F32.sub x a) ≤ val (F32.sub b a) := by
    rw [sub_fin fx.1 fa.1, sub_fin fb.1 fa.1]; exact rnd_mono (by linarith)
  have wp := wide_pos fb fa g
  rw [div_fin (fx.fin fa) (fb.fin fa) wp.ne']
  exact ⟨rnd_nonneg (div_nonneg e1 wp.le), rnd_le_one (div_le_one_of_le₀ e2 wp.le)⟩

theorem sub_anti {u v : BitVec 32} (hu : Fin18 u) (hv : Fin18 v) : val (F32.sub u v) = -val (F32.sub v u) := by
  rw [sub_fin hu.1 hv.1, sub_fin hv.1 hu.1, ← neg_sub (val v) (val u)]; exact val_rnd_neg _ _ _

theorem part_range_neg {a b x : BitVec 32} (fx : Fin18 x) (fa : Fin18 a) (fb : Fin18 b)
    (h0 : val a ≤ val x) (h1 : val x ≤ val b) (g : 1e-18 ≤ (val b : ℝ) - val a) :
    0 ≤ val (F32.div (F32.sub a x) (F32.sub a b)) ∧ val (F32.div (F32.sub a x) (F32.sub a b)) ≤ 1 := by
  have e1 : 0 ≤ val (F32.sub x a) := by rw [sub_fin fx.1 fa.1]; exact rnd_nonneg (by linarith)
  have e2 : val (F32.sub x a) ≤ val (F32.sub b a) := by
    rw [sub_fin fx.1 fa.1, sub_fin fb.1 fa.1]; exact rnd_mono (by linarith)
  have wp := wide_pos fb fa g
  rw [div_fin (fa.fin fx) (fa.fin fb) (by rw [sub_anti fa fb]; exact neg_ne_zero.2 wp.ne'), sub_anti fa fx, sub_anti fa fb,
    neg_div_neg_eq]
  exact ⟨rnd_nonneg (div_nonneg e1 wp.le), rnd_le_one (div_le_one_of_le₀ e2 wp.le)⟩

/-- **C154** (rising ramp) within `2e-7` of the exact membership. -/
theorem C154_linS (inp : Nat → Out (IO (BitVec 32))) (p : Nat → Out (BitVec 32)) (n : Nat) (io : IO (BitVec 32))
    (a b : BitVec 32) (hx : inp 0 = .ok io) (h0 : p 0 = .ok a) (h1 : p 1 = .ok b)
    (fx : Fin18 io.value) (fa : Fin18 a) (fb : Fin18 b) (g1 : 1e-18 ≤ (val b : ℝ) - val a) :
    ∃ y, LinSMF inp p n = .ok y ∧ F32.Finite y ∧ 0 ≤ val y ∧ val y ≤ 1 ∧
      |(val y : ℝ) - max 0 (min (((val io.value : ℝ) - val a) / (val b - val a)) 1)| ≤ 2e-7 := by
  have n1 := ratio18 fx fa fb fa (g1.trans (le_abs_self _))
  have hab := wide_lt g1
  have wb : 0 < (val b : ℝ) - val a := by norm_num at g1; linarith
  have c1 : F32.lt a b = true := by rw [lt_fin fa.1 fb.1]; exact decide_eq_true hab
  have eq : LinSMF inp p n = .ok (if F32.lt io.value a = true then F32.lit 0 else
      if F32.lt b io.value = true then F32.lit 1 else F32.div (F32.sub io.value a) (F32.sub b a)) := by
    simp only [LinSMF, hx, h0, h1, Out.bind_ok, Out.pure_eq]
    change (if F32.lt a b = true then _ else _) = _
    rw [if_pos c1]
    change (if F32.lt io.value a = true then Out.ok (F32.lit 0) else
      if F32.lt b io.value = true then Out.ok (F32.lit 1) else Out.ok (F32.div (F32.sub io.value a) (F32.sub b a))) = _
    split_ifs <;> rfl
  rw [eq]
  refine ⟨_, rfl, ?_⟩
  rw [lt_fin fx.1 fa.1, lt_fin fb.1 fx.1]
  simp only [decide_eq_true_eq]
  by_cases k1 : val io.value < val a
  · rw [if_pos k1, l0.2.1]
    refine ⟨l0.1, le_rfl, zero_le_one, ?_⟩
    have k : (val io.value : ℝ) < val a := by exact_mod_cast k1
    have : ((val io.value : ℝ) - val a) / (val b - val a) ≤ 0 := div_nonpos_of_nonpos_of_nonneg (by linarith) wb.le
    rw [min_eq_left (by linarith), max_eq_left this]; norm_num
  · rw [if_neg k1]
    by_cases k2 : val b < val io.value
    · rw [if_pos k2, l0.2.2.2]
      refine ⟨l0.2.2.1, zero_le_one, le_rfl, ?_⟩
      have k : (val b : ℝ) < val io.value := by exact_mod_cast k2
      have : 1 ≤ ((val io.value : ℝ) - val a) / (val b - val a) := by rw [one_le_div wb]; linarith
      rw [min_eq_right this, max_eq_right zero_le_one]; norm_num
    · rw [if_neg k2]
      have r := part_range fx fa fb (not_lt.1 k1) (not_lt.1 k2) g1
      refine ⟨n1.fin, r.1, r.2, ?_⟩
      have := clip_near n1.err
      rw [clip_self (by exact_mod_cast r.1) (by exact_mod_cast r.2)] at this
      exact this

/-- **C154** (`LinZMF`) in binary32: one below `a`, zero above `b`, and in between within `2e-7` of the formula of the code, which
rises instead of falling (see `Sets.lean`). -/
theorem C154_linZ (inp : Nat → Out (IO (BitVec 32))) (p : Nat → Out (BitVec 32)) (n : Nat) (io : IO (BitVec 32))
    (a b : BitVec 32) (hx : inp 0 = .ok io) (h0 : p 0 = .ok a) (h1 : p 1 = .ok b)
    (fx : Fin18 io.value) (fa : Fin18 a) (fb : Fin18 b) (g1 : 1e-18 ≤ (val b : ℝ) - val a) :
    ∃ y, LinZMF inp p n = .ok y ∧ F32.Finite y ∧ 0 ≤ val y ∧ val y ≤ 1 ∧
      (val io.value < val a → val y = 1) ∧ (val b < val io.value → val y = 0) ∧
      (val a ≤ val io.value → val io.value ≤ val b →
        |(val y : ℝ) - ((val io.value : ℝ) - val a) / (val b - val a)| ≤ 2e-7) := by
  have n1 := ratio18 fa fx fa fb (by rw [abs_sub_comm]; exact g1.trans (le_abs_self _))
  have hab := wide_lt g1
  have c1 : F32.lt a b = true := by rw [lt_fin fa.1 fb.1]; exact decide_eq_true hab
  have eq : LinZMF inp p n = .ok (if F32.lt io.value a = true then F32.lit 1 else
      if F32.lt b io.value = true then F32.lit 0 else F32.div (F32.sub a io.value) (F32.sub a b)) := by
    simp only [LinZMF, hx, h0, h1, Out.bind_ok, Out.pure_eq]
    change (if F32.lt a b = true then _ else _) = _
    rw [if_pos c1]
    change (if F32.lt io.value a = true then Out.ok (F32.lit 1) else
      if F32.lt b io.value = true then Out.ok (F32.lit 0) else Out.ok (F32.div (F32.sub a io.value) (F32.sub a b))) = _
    split_ifs <;> rfl
  rw [eq]
  refine ⟨_, rfl, ?_⟩
  rw [lt_fin fx.1 fa.1, lt_fin fb.1 fx.1]
  simp only [decide_eq_true_eq]
  by_cases k1 : val io.value < val a
  · rw [if_pos k1, l0.2.2.2]
    exact ⟨l0.2.2.1, zero_le_one, le_rfl, fun _ => rfl, fun h => by linarith, fun h => absurd k1 (not_lt.2 h)⟩
  · rw [if_neg k1]
    by_cases k2 : val b < val io.value
    · rw [if_pos k2, l0.2.1]
      exact ⟨l0.1, le_rfl, zero_le_one, fun h => absurd h k1, fun _ => rfl, fun _ h => absurd k2 (not_lt.2 h)⟩
    · rw [if_neg k2]
      have r := part_range_neg fx fa fb (not_lt.1 k1) (not_lt.1 k2) g1
      refine ⟨n1.fin, r.1, r.2, fun h => absurd h k1, fun h => absurd h k2, fun _ _ => ?_⟩
      have := clip_near n1.err
      rw [← neg_div_neg_eq, neg_sub, neg_sub] at this
      have wb : 0 < (val b : ℝ) - val a := by norm_num at g1; linarith
      have k1' : (val a : ℝ) ≤ val io.value := by exact_mod_cast not_lt.1 k1
      have k2' : (val io.value : ℝ) ≤ val b := by exact_mod_cast not_lt.1 k2
      rw [clip_self (by exact_mod_cast r.1) (by exact_mod_cast r.2), clip_self (div_nonneg (by linarith) wb.le)
        (by rw [div_le_one wb]; linarith)] at this
      exact this

/-- Twice the square of a quotient. -/
theorem two_sq {q : BitVec 32} {t : ℝ} (h : F32.Near q t 1e-7) (ht : |t| ≤ 0.501) :
    F32.Near (F32.mul (F32.mul (F32.lit 2) q) q) (2 * t ^ 2) 4e-7 ∧
      0 ≤ val (F32.mul (F32.mul (F32.lit 2) q) q) ∧ val (F32.mul (F32.mul (F32.lit 2) q) q) ≤ 1 := by
  have c2 : F32.Finite (F32.lit 2) ∧ val (F32.lit 2) = 2 := by decide +kernel
  have n2 : F32.Near (F32.lit 2) 2 0 := ⟨c2.1, by rw [c2.2]; norm_num⟩
  have m1 : F32.Near (F32.mul (F32.lit 2) q) (2 * t) 2.7e-7 := by
    refine F32.Near.mul 2 0.501 2e-7 1.01 n2 h (by norm_num) ht (by norm_num) ?_ (by norm_num) (by norm_num)
    rw [abs_mul, abs_of_pos (by norm_num : (0 : ℝ) < 2)]; norm_num at ht ⊢; linarith
  have m2 : F32.Near (F32.mul (F32.mul (F32.lit 2) q) q) (2 * t * t) 4e-7 := by
    refine F32.Near.mul 1.002 0.501 3e-7 0.51 m1 h ?_ ht (by norm_num) ?_ (by norm_num) (by norm_num)
    · rw [abs_mul, abs_of_pos (by norm_num : (0 : ℝ) < 2)]; norm_num at ht ⊢; linarith
    · rw [abs_mul, abs_mul, abs_of_pos (by norm_num : (0 : ℝ) < 2), mul_assoc]
      have := mul_le_mul ht ht (abs_nonneg _) (by norm_num)
      norm_num at this ⊢; linarith
  have e : 2 * t * t = 2 * t ^ 2 := by ring
  rw [e] at m2
  refine ⟨m2, ?_, ?_⟩
  · rw [mul_fin m1.fin h.fin]
    refine rnd_nonneg ?_
    rw [mul_fin c2.1 h.fin, c2.2]
    rcases le_total 0 (val q) with k | k
    · exact mul_nonneg (rnd_nonneg (by linarith)) k
    · refine mul_nonneg_of_nonpos_of_nonpos ?_ k
      have z := val_rnd_neg (F32.neg (F32.lit 2) ^^ F32.neg q) false (-(2 * val q))
      rw [neg_neg] at z
      rw [z]
      have := rnd_nonneg (s := false) (q := -(2 * val q)) (by linarith)
      linarith
  · have := (_root_.abs_le.1 m2.err).2
    have h4 : t ^ 2 ≤ 0.26 := by
      rw [← sq_abs, sq]
      have := mul_le_mul ht ht (abs_nonneg _) (by norm_num)
      norm_num at this ⊢; linarith
    have : (val (F32.mul (F32.mul (F32.lit 2) q) q) : ℝ) ≤ 1 := by norm_num at this h4 ⊢; linarith
    exact_mod_cast this

theorem one_sub_near {z : BitVec 32} {t : ℝ} {e : ℝ} (h : F32.Near z t e) (he : e ≤ 1e-6) (h0 : 0 ≤ val z) (h1 : val z ≤ 1) (ht : 0 ≤ t)
    (ht1 : t ≤ 1) :
    F32.Near (F32.sub (F32.lit 1) z) (1 - t) (e + 7e-8) ∧ 0 ≤ val (F32.sub (F32.lit 1) z) ∧
      val (F32.sub (F32.lit 1) z) ≤ 1 := by
  have n1 : F32.Near (F32.lit 1) 1 0 := ⟨l0.2.2.1, by rw [l0.2.2.2]; norm_num⟩
  refine ⟨F32.Near.sub (1 + e) n1 h ?_ (by norm_num at he ⊢; linarith) (by norm_num at he ⊢; linarith), ?_, ?_⟩
  · rw [abs_of_nonneg (by linarith)]; linarith
  · rw [sub_fin l0.2.2.1 h.fin, l0.2.2.2]; exact rnd_nonneg (by linarith)
  · rw [sub_fin l0.2.2.1 h.fin, l0.2.2.2]; exact rnd_le_one (by linarith)

/-- The two arcs of the S-shaped set between its feet. -/
theorem arcs {a b x : BitVec 32} (fx : Fin18 x) (fa : Fin18 a) (fb : Fin18 b) (g : 1e-18 ≤ (val b : ℝ) - val a)
    (ka : |(val a : ℝ)| ≤ 1000 * (val b - val a)) (kb : |(val b : ℝ)| ≤ 1000 * (val b - val a))
    (h0 : val a < val x) (h1 : val x < val b) :
    F32.Finite (F32.mul (F32.add a b) (F32.lit (1 / 2))) ∧
    (val x ≤ val (F32.mul (F32.add a b) (F32.lit (1 / 2))) →
      F32.Near (F32.mul (F32.mul (F32.lit 2) (F32.div (F32.sub x a) (F32.sub b a))) (F32.div (F32.sub x a) (F32.sub b a)))
        (sCurve (val a : ℝ) (val b) (val x)) 5e-7 ∧
      0 ≤ val (F32.mul (F32.mul (F32.lit 2) (F32.div (F32.sub x a) (F32.sub b a))) (F32.div (F32.sub x a) (F32.sub b a))) ∧
      val (F32.mul (F32.mul (F32.lit 2) (F32.div (F32.sub x a) (F32.sub b a))) (F32.div (F32.sub x a) (F32.sub b a))) ≤ 1) ∧
    (val (F32.mul (F32.add a b) (F32.lit (1 / 2))) ≤ val x →
      F32.Near (F32.mul (F32.mul (F32.lit 2) (F32.div (F32.sub x b) (F32.sub b a))) (F32.div (F32.sub x b) (F32.sub b a)))
        (1 - sCurve (val a : ℝ) (val b) (val x)) 5e-7 ∧
      0 ≤ val (F32.mul (F32.mul (F32.lit 2) (F32.div (F32.sub x b) (F32.sub b a))) (F32.div (F32.sub x b) (F32.sub b a))) ∧
      val (F32.mul (F32.mul (F32.lit 2) (F32.div (F32.sub x b) (F32.sub b a))) (F32.div (F32.sub x b) (F32.sub b a))) ≤ 1) := by
  have nq := ratio18 fx fa fb fa (g.trans (le_abs_self _))
  have nr := ratio18 fx fb fb fa (g.trans (le_abs_self _))
  have k0 : (val a : ℝ) < val x := by exact_mod_cast h0
  have k1 : (val x : ℝ) < val b := by exact_mod_cast h1
  have ch : F32.Finite (F32.lit (1 / 2)) ∧ val (F32.lit (1 / 2)) = 1 / 2 := by decide +kernel
  have nh : F32.Near (F32.lit (1 / 2)) (1 / 2) 0 := ⟨ch.1, by rw [ch.2]; norm_num⟩
  have a18 := fa.2
  have b18 := fb.2
  have w18 := (le_abs_self _).trans (fb.sub fa)
  have ns : F32.Near (F32.add a b) ((val a : ℝ) + val b) (1.2e-4 * (val b - val a)) := by
    refine F32.Near.add (2000 * (val b - val a)) (F32.Near.self fa.1) (F32.Near.self fb.1) ?_ ?_ ?_
    · have := abs_add_le (val a : ℝ) (val b); linarith
    · norm_num at w18 ⊢; linarith
    · norm_num at g ⊢; linarith
  have nm : F32.Near (F32.mul (F32.add a b) (F32.lit (1 / 2))) (((val a : ℝ) + val b) * (1 / 2)) (1.3e-4 * (val b - val a)) := by
    refine F32.Near.mul (2000 * (val b - val a)) (1 / 2) (6e-5 * (val b - val a)) (1001 * (val b - val a)) ns nh ?_
      (by norm_num) ?_ ?_ ?_ ?_
    · have := abs_add_le (val a : ℝ) (val b); linarith
    · norm_num; linarith
    · have := abs_add_le (val a : ℝ) (val b)
      rw [abs_mul, abs_of_pos (by norm_num : (0 : ℝ) < 1 / 2)]; norm_num; linarith
    · norm_num at w18 ⊢; linarith
    · norm_num at g ⊢; linarith
  obtain ⟨w, hw⟩ : ∃ w, w = (val b : ℝ) - val a := ⟨_, rfl⟩
  obtain ⟨t, ht⟩ : ∃ t, t = ((val x : ℝ) - val a) / (val b - val a) := ⟨_, rfl⟩
  have wp : 0 < w := by rw [hw]; linarith
  have ex : (val x : ℝ) = val a + t * w := by rw [ht, ← hw]; field_simp; ring
  have er : ((val x : ℝ) - val b) / (val b - val a) = t - 1 := by rw [ht]; rw [← hw]; field_simp; rw [hw]; ring
  have er' : ((val b : ℝ) - val x) / (val b - val a) = 1 - t := by rw [ht]; rw [← hw]; field_simp; rw [hw]; ring
  have t0 : 0 < t := by rw [ht]; exact div_pos (by linarith) (by linarith)
  have t1 : t < 1 := by rw [ht, div_lt_one (by linarith)]; linarith
  have sc : sCurve (val a : ℝ) (val b) (val x) = if t ≤ 1 / 2 then 2 * t ^ 2 else 1 - 2 * (1 - t) ^ 2 := by
    unfold sCurve
    rw [if_neg (not_le.2 k0), if_neg (not_le.2 k1), ← ht, er']
    have : (val x : ℝ) ≤ (val a + val b) / 2 ↔ t ≤ 1 / 2 := by
      rw [ex, show (val b : ℝ) = val a + w by rw [hw]; ring]
      constructor
      · intro h
        have : t * w ≤ 1 / 2 * w := by linarith
        exact le_of_mul_le_mul_right this wp
      · intro h
        have := mul_le_mul_of_nonneg_right h wp.le
        linarith
    simp only [this]
  have mm := _root_.abs_le.1 nm.err
  rw [← hw] at mm
  have mid : ((val a : ℝ) + val b) * (1 / 2) = val a + w / 2 := by rw [hw]; ring
  rw [mid] at mm
  refine ⟨nm.fin, fun h => ?_, fun h => ?_⟩
  · have h' : (val x : ℝ) ≤ val (F32.mul (F32.add a b) (F32.lit (1 / 2))) := by exact_mod_cast h
    have tl : t ≤ 0.50013 := by
      have : t * w ≤ 0.50013 * w := by rw [ex] at h'; norm_num at mm ⊢; linarith
      exact le_of_mul_le_mul_right this wp
    have ta : |t| ≤ 0.501 := by rw [abs_of_pos t0]; norm_num at tl ⊢; linarith
    rw [← ht] at nq
    obtain ⟨z, z0, z1⟩ := two_sq (nq.mono (by rw [abs_of_pos t0]; norm_num at tl ⊢; linarith)) ta
    refine ⟨⟨z.fin, ?_⟩, z0, z1⟩
    have ze := z.err
    rw [sc]
    split_ifs with hh
    · exact ze.trans (by norm_num)
    · have d : (2 * t - 1) ^ 2 ≤ 7e-8 := by
        rw [not_le] at hh
        have h3 : 0 ≤ 2 * t - 1 := by linarith
        have h4 : 2 * t - 1 ≤ 2.6e-4 := by norm_num at tl ⊢; linarith
        rw [sq]
        have := mul_le_mul h4 h4 h3 (by norm_num)
        norm_num at this ⊢; linarith
      have d0 := sq_nonneg (2 * t - 1)
      rw [show 2 * t ^ 2 = (1 - 2 * (1 - t) ^ 2) + (2 * t - 1) ^ 2 by ring, _root_.abs_le] at ze
      rw [_root_.abs_le]
      generalize (2 * t - 1) ^ 2 = D at *
      generalize 1 - 2 * (1 - t) ^ 2 = E at *
      norm_num at ze d ⊢
      constructor <;> linarith
  · have h' : (val (F32.mul (F32.add a b) (F32.lit (1 / 2))) : ℝ) ≤ val x := by exact_mod_cast h
    have tl : 0.49987 ≤ t := by
      have : 0.49987 * w ≤ t * w := by rw [ex] at h'; norm_num at mm ⊢; linarith
      exact le_of_mul_le_mul_right this wp
    have ta : |t - 1| ≤ 0.501 := by rw [abs_of_neg (by linarith)]; norm_num at tl ⊢; linarith
    rw [er] at nr
    obtain ⟨z, z0, z1⟩ := two_sq (nr.mono (by norm_num at ta ⊢; linarith)) ta
    refine ⟨⟨z.fin, ?_⟩, z0, z1⟩
    have ze := z.err
    rw [sc]
    split_ifs with hh
    · have d : (2 * t - 1) ^ 2 ≤ 7e-8 := by
        have h3 : 0 ≤ 1 - 2 * t := by linarith
        have h4 : 1 - 2 * t ≤ 2.6e-4 := by norm_num at tl ⊢; linarith
        rw [show (2 * t - 1) ^ 2 = (1 - 2 * t) * (1 - 2 * t) by ring]
        have := mul_le_mul h4 h4 h3 (by norm_num)
        norm_num at this ⊢; linarith
      have d0 := sq_nonneg (2 * t - 1)
      rw [show 2 * (t - 1) ^ 2 = (1 - 2 * t ^ 2) + (2 * t - 1) ^ 2 by ring, _root_.abs_le] at ze
      rw [_root_.abs_le]
      generalize (2 * t - 1) ^ 2 = D at *
      generalize 1 - 2 * t ^ 2 = E at *
      norm_num at ze d ⊢
      constructor <;> linarith
    · rw [show 1 - (1 - 2 * (1 - t) ^ 2) = 2 * (t - 1) ^ 2 by ring]
      exact ze.trans (by norm_num)

/-- The code of `SMF` and `ZMF` with IEEE operations. -/
theorem sz_code (inp : Nat → Out (IO (BitVec 32))) (p : Nat → Out (BitVec 32)) (n : Nat) (io : IO (BitVec 32))
    (a b : BitVec 32) (hx : inp 0 = .ok io) (h0 : p 0 = .ok a) (h1 : p 1 = .ok b)
    (fx : F32.Finite io.value) (fa : F32.Finite a) (fb : F32.Finite b)
    (fm : F32.Finite (F32.mul (F32.add a b) (F32.lit (1 / 2)))) :
    SMF inp p n = .ok (if val io.value ≤ val a then F32.lit 0 else if val b ≤ val io.value then F32.lit 1 else
      if val io.value ≤ val (F32.mul (F32.add a b) (F32.lit (1 / 2))) then
        F32.mul (F32.mul (F32.lit 2) (F32.div (F32.sub io.value a) (F32.sub b a))) (F32.div (F32.sub io.value a) (F32.sub b a))
      else F32.sub (F32.lit 1) (F32.mul (F32.mul (F32.lit 2) (F32.div (F32.sub io.value b) (F32.sub b a)))
        (F32.div (F32.sub io.value b) (F32.sub b a)))) ∧
    ZMF inp p n = .ok (if val io.value ≤ val a then F32.lit 1 else if val b ≤ val io.value then F32.lit 0 else
      if val io.value ≤ val (F32.mul (F32.add a b) (F32.lit (1 / 2))) then
        F32.sub (F32.lit 1) (F32.mul (F32.mul (F32.lit 2) (F32.div (F32.sub io.value a) (F32.sub b a)))
          (F32.div (F32.sub io.value a) (F32.sub b a)))
      else F32.mul (F32.mul (F32.lit 2) (F32.div (F32.sub io.value b) (F32.sub b a)))
        (F32.div (F32.sub io.value b) (F32.sub b a))) := by
  have e1 : Arith.le io.value a = decide (val io.value ≤ val a) := le_fin fx fa
  have e2 : Arith.le b io.value = decide (val b ≤ val io.value) := le_fin fb fx
  have e3 : Arith.le a io.value = decide (val a ≤ val io.value) := le_fin fa fx
  have e4 : Arith.le io.value b = decide (val io.value ≤ val b) := le_fin fx fb
  have e5 : Arith.le io.value (Arith.mul (Arith.add a b) (Arith.lit (1 / 2))) =
    decide (val io.value ≤ val (F32.mul (F32.add a b) (F32.lit (1 / 2)))) := le_fin fx fm
  have e6 : Arith.le (Arith.mul (Arith.add a b) (Arith.lit (1 / 2))) io.value =
    decide (val (F32.mul (F32.add a b) (F32.lit (1 / 2))) ≤ val io.value) := le_fin fm fx
  unfold SMF ZMF
  simp only [hx, h0, h1, Out.bind_ok, Out.pure_eq, e1, e2, e3, e4, e5, e6, decide_eq_true_eq, Bool.and_eq_true]
  by_cases c1 : val io.value ≤ val a
  · simp only [if_pos c1]; exact ⟨rfl, rfl⟩
  · by_cases c2 : val b ≤ val io.value
    · simp only [if_neg c1, if_pos c2]; exact ⟨rfl, rfl⟩
    · have c3 : val a ≤ val io.value := (not_le.1 c1).le
      have c4 : val io.value ≤ val b := (not_le.1 c2).le
      by_cases c5 : val io.value ≤ val (F32.mul (F32.add a b) (F32.lit (1 / 2)))
      · simp only [if_neg c1, if_neg c2, if_pos c5, if_pos (And.intro c3 c5)]; exact ⟨rfl, rfl⟩
      · simp only [if_neg c1, if_neg c2, if_neg c5, if_pos (And.intro c4 (not_le.1 c5).le), if_neg (fun h : _ ∧ _ => c5 h.2)]
        exact ⟨rfl, rfl⟩

/-- **C154** (S-shaped and Z-shaped sets) within `1e-6` of the exact membership and in [0, 1], for sets whose feet are at most
a thousand widths away from zero. -/
theorem C154_sz (inp : Nat → Out (IO (BitVec 32))) (p : Nat → Out (BitVec 32)) (n : Nat) (io : IO (BitVec 32))
    (a b : BitVec 32) (hx : inp 0 = .ok io) (h0 : p 0 = .ok a) (h1 : p 1 = .ok b)
    (fx : Fin18 io.value) (fa : Fin18 a) (fb : Fin18 b) (g : 1e-18 ≤ (val b : ℝ) - val a)
    (ka : |(val a : ℝ)| ≤ 1000 * (val b - val a)) (kb : |(val b : ℝ)| ≤ 1000 * (val b - val a)) :
    (∃ y, SMF inp p n = .ok y ∧ F32.Finite y ∧ 0 ≤ val y ∧ val y ≤ 1 ∧
      |(val y : ℝ) - sCurve (val a : ℝ) (val b) (val io.value)| ≤ 1e-6) ∧
    (∃ y, ZMF inp p n = .ok y ∧ F32.Finite y ∧ 0 ≤ val y ∧ val y ≤ 1 ∧
      |(val y : ℝ) - (1 - sCurve (val a : ℝ) (val b) (val io.value))| ≤ 1e-6) := by
  have hab := wide_lt g
  -- the midpoint is finite
  have fm : F32.Finite (F32.mul (F32.add a b) (F32.lit (1 / 2))) := by
    have ch : F32.Finite (F32.lit (1 / 2)) ∧ val (F32.lit (1 / 2)) = 1 / 2 := by decide +kernel
    have nh : F32.Near (F32.lit (1 / 2)) (1 / 2) 0 := ⟨ch.1, by rw [ch.2]; norm_num⟩
    have a18 := fa.2
    have b18 := fb.2
    have s18 := abs_add_le (val a : ℝ) (val b)
    have ns : F32.Near (F32.add a b) ((val a : ℝ) + val b) 1e18 :=
      F32.Near.add 2e18 (F32.Near.self fa.1) (F32.Near.self fb.1) (by norm_num at a18 b18 ⊢; linarith) (by norm_num)
        (by norm_num)
    exact (F32.Near.mul (e' := 1e19) 2e18 (1 / 2) 1e18 5e18 ns nh (by norm_num at a18 b18 ⊢; linarith) (by norm_num) (by norm_num)
      (by rw [abs_mul, abs_of_pos (by norm_num : (0 : ℝ) < 1 / 2)]; norm_num at a18 b18 ⊢; linarith) (by norm_num) (by norm_num)).fin
  obtain ⟨eS, eZ⟩ := sz_code inp p n io a b hx h0 h1 fx.1 fa.1 fb.1 fm
  rw [eS, eZ]
  by_cases c1 : val io.value ≤ val a
  · have c1' : (val io.value : ℝ) ≤ val a := by exact_mod_cast c1
    have sc : sCurve (val a : ℝ) (val b) (val io.value) = 0 := by unfold sCurve; rw [if_pos c1']
    simp only [if_pos c1]
    exact ⟨⟨_, rfl, l0.1, by rw [l0.2.1], by rw [l0.2.1]; norm_num, by rw [l0.2.1, sc]; norm_num⟩,
      ⟨_, rfl, l0.2.2.1, by rw [l0.2.2.2]; norm_num, by rw [l0.2.2.2], by rw [l0.2.2.2, sc]; norm_num⟩⟩
  · by_cases c2 : val b ≤ val io.value
    · have c1' : ¬ (val io.value : ℝ) ≤ val a := by exact_mod_cast c1
      have c2' : (val b : ℝ) ≤ val io.value := by exact_mod_cast c2
      have sc : sCurve (val a : ℝ) (val b) (val io.value) = 1 := by unfold sCurve; rw [if_neg c1', if_pos c2']
      simp only [if_neg c1, if_pos c2]
      exact ⟨⟨_, rfl, l0.2.2.1, by rw [l0.2.2.2]; norm_num, by rw [l0.2.2.2], by rw [l0.2.2.2, sc]; norm_num⟩,
        ⟨_, rfl, l0.1, by rw [l0.2.1], by rw [l0.2.1]; norm_num, by rw [l0.2.1, sc]; norm_num⟩⟩
    · obtain ⟨-, L, R⟩ := arcs fx fa fb g ka kb (not_le.1 c1) (not_le.1 c2)
      have u := sCurve_unit (val a : ℝ) (val b) (val io.value)
      simp only [if_neg c1, if_neg c2]
      by_cases c5 : val io.value ≤ val (F32.mul (F32.add a b) (F32.lit (1 / 2)))
      · simp only [if_pos c5]
        obtain ⟨m, m0, m1⟩ := L c5
        obtain ⟨k, k0, k1⟩ := one_sub_near m (by norm_num) m0 m1 u.1 u.2
        exact ⟨⟨_, rfl, m.fin, m0, m1, m.err.trans (by norm_num)⟩, ⟨_, rfl, k.fin, k0, k1, k.err.trans (by norm_num)⟩⟩
      · simp only [if_neg c5]
        obtain ⟨m, m0, m1⟩ := R (not_le.1 c5).le
        obtain ⟨k, k0, k1⟩ := one_sub_near m (by norm_num) m0 m1 (by linarith [u.2]) (by linarith [u.1])
        rw [sub_sub_cancel] at k
        exact ⟨⟨_, rfl, k.fin, k0, k1, k.err.trans (by norm_num)⟩, ⟨_, rfl, m.fin, m0, m1, m.err.trans (by norm_num)⟩⟩

theorem absf_eq (x : BitVec 32) : (Arith.absf x : BitVec 32) = Ffmath.absolute x := by
  apply eq_of_neg_mag
  · rw [(Ffmath.absolute_spec _).1]; exact (pack_spec _ (mag_lt x)).1
  · rw [(Ffmath.absolute_spec _).2]; exact (pack_spec _ (mag_lt x)).2

/-- **C154** (Pi-shaped sets) within `2.1e-6` of the exact membership and in [0, 1]. -/
theorem C154_pi (inp : Nat → Out (IO (BitVec 32))) (p : Nat → Out (BitVec 32)) (n : Nat) (io : IO (BitVec 32))
    (a b c d : BitVec 32) (hx : inp 0 = .ok io) (h0 : p 0 = .ok a) (h1 : p 1 = .ok b) (h2 : p 2 = .ok c) (h3 : p 3 = .ok d)
    (fx : Fin18 io.value) (fa : Fin18 a) (fb : Fin18 b) (fc : Fin18 c) (fd : Fin18 d)
    (g : 1e-18 ≤ (val b : ℝ) - val a) (ka : |(val a : ℝ)| ≤ 1000 * (val b - val a)) (kb : |(val b : ℝ)| ≤ 1000 * (val b - val a))
    (g' : 1e-18 ≤ (val d : ℝ) - val c) (kc : |(val c : ℝ)| ≤ 1000 * (val d - val c))
    (kd : |(val d : ℝ)| ≤ 1000 * (val d - val c)) :
    ∃ y, PiMF inp p n = .ok y ∧ F32.Finite y ∧ 0 ≤ val y ∧ val y ≤ 1 ∧
      |(val y : ℝ) - sCurve (val a : ℝ) (val b) (val io.value) * (1 - sCurve (val c : ℝ) (val d) (val io.value))| ≤ 2.1e-6 := by
  obtain ⟨⟨s, es, fs, s0, s1, se⟩, -⟩ := C154_sz inp p n io a b hx h0 h1 fx fa fb g ka kb
  obtain ⟨-, ⟨z, ez, fz, z0, z1, ze⟩⟩ := C154_sz inp (fun k => p (2 + k)) n io c d hx h2 h3 fx fc fd g' kc kd
  have u := sCurve_unit (val a : ℝ) (val b) (val io.value)
  have v := sCurve_unit (val c : ℝ) (val d) (val io.value)
  have m : F32.Near (F32.mul s z) (sCurve (val a : ℝ) (val b) (val io.value) * (1 - sCurve (val c : ℝ) (val d) (val io.value))) 2.1e-6 := by
    refine F32.Near.mul 1 1 2.00001e-6 1.001 ⟨fs, se⟩ ⟨fz, ze⟩ ?_ ?_ (by norm_num) ?_ (by norm_num) (by norm_num)
    · rw [abs_of_nonneg u.1]; exact u.2
    · rw [abs_of_nonneg (by linarith [v.2])]; linarith [v.1]
    · rw [abs_of_nonneg (mul_nonneg u.1 (by linarith [v.2]))]
      have := mul_le_mul u.2 (show 1 - sCurve (val c : ℝ) (val d) (val io.value) ≤ 1 by linarith [v.1]) (by linarith [v.2]) zero_le_one
      norm_num at this ⊢; linarith
  have m0 : 0 ≤ val (F32.mul s z) := by rw [mul_fin fs fz]; exact rnd_nonneg (mul_nonneg s0 z0)
  have m1 : val (F32.mul s z) ≤ 1 := by rw [mul_fin fs fz]; exact rnd_le_one (mul_le_one₀ s1 z0 z1)
  have ev : val (Ffmath.absolute (F32.mul s z)) = val (F32.mul s z) := by rw [Ffmath.absolute_val, abs_of_nonneg m0]
  have ea := absf_eq (F32.mul s z)
  refine ⟨Arith.absf (F32.mul s z), ?_, ?_⟩
  · unfold PiMF
    rw [es, Out.bind_ok, ez, Out.bind_ok]; rfl
  · rw [ea, ev]
    exact ⟨Ffmath.absolute_finite.2 m.fin, m0, m1, m.err⟩

theorem ex_fin18 : ∀ q ∈ [(-3 : ℚ), 1, 2, 3, 7], F32.Finite (F32.lit q) ∧ val (F32.lit q) = q := by decide +kernel

theorem fin18_lit {q : ℚ} (h : q ∈ [(-3 : ℚ), 1, 2, 3, 7]) : Fin18 (F32.lit q) := by
  obtain ⟨f, e⟩ := ex_fin18 q h
  refine ⟨f, ?_⟩
  rw [e]
  simp only [List.mem_cons, List.not_mem_nil, or_false] at h
  rcases h with rfl | rfl | rfl | rfl | rfl <;> norm_num

/-- Example: the hypotheses of `C154_tri` hold of the corners −3, 1 and 7 at 3, and those of `C154_sz` of
the curve from −3 to 7. -/
example : Fin18 (F32.lit (3)) ∧ Fin18 (F32.lit (-3)) ∧ Fin18 (F32.lit 1) ∧ Fin18 (F32.lit 7) ∧
    1e-18 ≤ (val (F32.lit 1) : ℝ) - val (F32.lit (-3)) ∧ 1e-18 ≤ (val (F32.lit 7) : ℝ) - val (F32.lit 1) ∧
    |(val (F32.lit (-3)) : ℝ)| ≤ 1000 * (val (F32.lit 7) - val (F32.lit (-3))) ∧
    |(val (F32.lit 7) : ℝ)| ≤ 1000 * (val (F32.lit 7) - val (F32.lit (-3))) := by
  refine ⟨fin18_lit (by decide), fin18_lit (by decide), fin18_lit (by decide), fin18_lit (by decide), ?_⟩
  rw [(ex_fin18 1 (by decide)).2, (ex_fin18 (-3) (by decide)).2, (ex_fin18 7 (by decide)).2]
  norm_num

end Verif.Fis
