import Verif.Smoother.Props
import Verif.F32.Hull

/-!
# The smoothers in binary32 (C134, C135)

The theorems of `Props.lean` are about exact arithmetic. Here `real_t` is `float` with rounding:
`R = BitVec 32` with the instance `ieeeArith`.
-/

namespace Verif.Smoother

open Arith F32

/-- Every output `y` of a sequence of calls satisfies `Q seen y`, where `seen` are the samples since
the last successful `setup` or `reset` (newest first). Not a definition of the repository. -/
def AllOut {S P F : Type} (setup : S → P → S × Bool) (reset : S → S) (smooth : S → F → S × F)
    (Q : List F → F → Prop) : S → List F → List (Ev P F) → Prop
  | _, _, [] => True
  | s, seen, .setup p :: es =>
    AllOut setup reset smooth Q (setup s p).1 (if (setup s p).2 then [] else seen) es
  | s, _, .reset :: es => AllOut setup reset smooth Q (reset s) [] es
  | s, seen, .smooth x :: es =>
    Q (x :: seen) (smooth s x).2 ∧ AllOut setup reset smooth Q (smooth s x).1 (x :: seen) es

theorem allOut_of_inv {S P F : Type} (setup : S → P → S × Bool) (reset : S → S)
    (smooth : S → F → S × F) (Q : List F → F → Prop) (L : F → Prop) (LP : P → Prop)
    (I : S → List F → Prop) (hsetup : ∀ s seen p, LP p → I s seen → I (setup s p).1 (if (setup s p).2 then [] else seen))
    (hreset : ∀ s seen, I s seen → I (reset s) [])
    (hsmooth : ∀ s seen x, L x → I s seen →
      Q (x :: seen) (smooth s x).2 ∧ I (smooth s x).1 (x :: seen))
    (es : List (Ev P F)) (hes : ∀ x, Ev.smooth x ∈ es → L x) (hps : ∀ p, Ev.setup p ∈ es → LP p)
    (s : S) (seen : List F) (h : I s seen) : AllOut setup reset smooth Q s seen es := by
  induction es generalizing s seen with
  | nil => trivial
  | cons e es ih =>
    have ih := ih (fun x hx => hes x (List.mem_cons_of_mem _ hx))
      fun p hp => hps p (List.mem_cons_of_mem _ hp)
    cases e with
    | setup p => exact ih _ _ (hsetup s seen p (hps p List.mem_cons_self) h)
    | reset => exact ih _ _ (hreset s seen h)
    | smooth x =>
      have hx := hes x List.mem_cons_self
      exact ⟨(hsmooth s seen x hx h).1, ih _ _ (hsmooth s seen x hx h).2⟩

/-- The float `y` is finite and its value lies between the least and the greatest value of `l`. -/
def HullF (l : List (BitVec 32)) (y : BitVec 32) : Prop :=
  Finite y ∧ (∃ a ∈ l, val a ≤ val y) ∧ ∃ b ∈ l, val y ≤ val b

theorem hullF_between {l : List (BitVec 32)} {u x y : BitVec 32} (hf : Finite y) (h : HullF l u)
    (h1 : min (val x) (val u) ≤ val y) (h2 : val y ≤ max (val x) (val u)) : HullF (x :: l) y := by
  obtain ⟨_, ⟨a, ha, ha'⟩, ⟨b, hb, hb'⟩⟩ := h
  refine ⟨hf, ?_, ?_⟩
  · rcases le_total (val x) (val u) with h | h
    · exact ⟨x, by simp, by rwa [min_eq_left h] at h1⟩
    · exact ⟨a, by simp [ha], by rw [min_eq_right h] at h1; exact ha'.trans h1⟩
  · rcases le_total (val x) (val u) with h | h
    · exact ⟨b, by simp [hb], by rw [max_eq_right h] at h2; exact h2.trans hb'⟩
    · exact ⟨x, by simp, by rwa [max_eq_left h] at h2⟩

theorem lit01 : Finite (F32.lit 0) ∧ val (F32.lit 0) = 0 ∧ Finite (F32.lit 1) ∧ val (F32.lit 1) = 1 := by
  decide +kernel

/-- The test `0 < a && a < 1` of the setup functions, on bit patterns. -/
theorem unit_iff {a : BitVec 32}
    (h : (Arith.lt (Arith.lit 0 : BitVec 32) a && Arith.lt a (Arith.lit 1 : BitVec 32)) = true) :
    Finite a ∧ 0 < val a ∧ val a < 1 := by
  obtain ⟨h0, h1⟩ := Bool.and_eq_true_iff.1 h
  change F32.lt (F32.lit 0) a = true at h0
  change F32.lt a (F32.lit 1) = true at h1
  obtain ⟨n0, n1, k0⟩ := of_decide_eq_true h0
  obtain ⟨_, _, k1⟩ := of_decide_eq_true h1
  rw [← val_lt_iff, lit01.2.1] at k0
  have k1' := k1
  rw [← val_lt_iff, lit01.2.2.2] at k1'
  have e : key (F32.lit 1) = 1065353216 := by decide +kernel
  have e0 : (0 : ℤ) ≤ key a := by
    have := of_decide_eq_true h0
    have z : key (F32.lit 0) = 0 := by decide +kernel
    omega
  exact ⟨finite_of_key (by omega), k0, k1'⟩

/-- **C134** (hull). In binary32, from a new object (`alpha = 0.9F`) and whatever the sequence of
calls, every output of `smootherLPF1` is finite and lies between the least and the greatest sample
seen since the last `setup` or `reset`: rounding never carries it outside. -/
theorem C134_hull (y1 : BitVec 32) (es : List (Ev (BitVec 32) (BitVec 32)))
    (hes : ∀ x, Ev.smooth x ∈ es → Finite x ∧ |val x| ≤ 1.7e38) :
    AllOut LPF1.setup (fun s => { s with init := true }) LPF1.smooth HullF
      (⟨F32.lit (9 / 10), y1, true⟩ : LPF1 (BitVec 32)) [] es := by
  refine allOut_of_inv _ _ _ _ (fun x => F32.Finite x ∧ |val x| ≤ 1.7e38) (fun _ => True)
    (fun (s : LPF1 (BitVec 32)) seen => (F32.Finite s.alpha ∧ 0 < val s.alpha ∧ val s.alpha < 1) ∧
      (∀ x ∈ seen, |val x| ≤ 1.7e38) ∧ (s.init = false → HullF seen s.y1)) ?_ ?_ ?_ es hes
    (fun _ _ => trivial) _ _ ?_
  · intro s seen p _ ⟨h1, h2, h3⟩
    unfold LPF1.setup
    split_ifs with hc
    · exact ⟨unit_iff hc, by simp, by simp⟩
    · simp_all
    · simp_all
    · exact ⟨h1, h2, h3⟩
  · intro s seen ⟨h1, h2, h3⟩
    exact ⟨h1, by simp, by simp⟩
  · intro s seen x ⟨fx, bx⟩ ⟨h1, h2, h3⟩
    have h2' : ∀ z ∈ x :: seen, |val z| ≤ 1.7e38 := by
      intro z hz
      rcases List.mem_cons.1 hz with rfl | hz
      · exact bx
      · exact h2 z hz
    have key : HullF (x :: seen) (s.smooth x).2 := by
      unfold LPF1.smooth
      cases hi : s.init with
      | true =>
        obtain ⟨f, e⟩ := step_self h1.1 fx
        exact ⟨f, ⟨x, by simp, e.ge⟩, ⟨x, by simp, e.le⟩⟩
      | false =>
        have hh := h3 hi
        have hy : |val s.y1| ≤ 1.7e38 := by
          obtain ⟨_, ⟨a, ha, ha'⟩, ⟨b, hb, hb'⟩⟩ := hh
          have := abs_le.1 (h2 a ha)
          have := abs_le.1 (h2 b hb)
          rw [abs_le]
          constructor <;> linarith
        obtain ⟨f, e1, e2⟩ := step_between h1.1 fx hh.1 h1.2.1.le h1.2.2 (by
          rw [abs_le] at bx hy ⊢
          norm_num at bx hy ⊢
          constructor <;> linarith)
        exact hullF_between f hh e1 e2
    refine ⟨key, ?_, h2', ?_⟩
    · unfold LPF1.smooth
      cases s.init <;> exact h1
    · intro _
      exact key
  · refine ⟨?_, by simp, by simp⟩
    dsimp only
    decide +kernel

/-- **C134** (constants). In binary32 a constant signal passes through `smootherLPF1` with its exact
value, for every accepted parameter and as long as it lasts. -/
theorem C134_const (s : LPF1 (BitVec 32)) (a c : BitVec 32) (hc : Finite c)
    (ha : (s.setup a).2 = true) (n : Nat) :
    val (((fun t : LPF1 (BitVec 32) => (t.smooth c).1)^[n] (s.setup a).1).smooth c).2 = val c := by
  have hu : Finite a ∧ 0 < val a ∧ val a < 1 ∧ (s.setup a).1 = { s with alpha := a, init := true } := by
    unfold LPF1.setup at ha ⊢
    split_ifs at ha ⊢ with h
    · exact ⟨(unit_iff h).1, (unit_iff h).2.1, (unit_iff h).2.2, rfl⟩
  obtain ⟨fa, a0, a1, e⟩ := hu
  rw [e]
  have step : ∀ t : LPF1 (BitVec 32), t.alpha = a → (t.init = false → Finite t.y1 ∧ val t.y1 = val c) →
      val (t.smooth c).2 = val c ∧ (t.smooth c).1.alpha = a ∧
        ((t.smooth c).1.init = false → Finite (t.smooth c).1.y1 ∧ val (t.smooth c).1.y1 = val c) := by
    intro t ht hy
    have key : Finite (t.smooth c).2 ∧ val (t.smooth c).2 = val c := by
      unfold LPF1.smooth
      cases hi : t.init with
      | true =>
        change Finite (F32.add c (F32.mul t.alpha (F32.sub c c))) ∧
          val (F32.add c (F32.mul t.alpha (F32.sub c c))) = _
        rw [ht]
        exact step_self fa hc
      | false =>
        obtain ⟨fy, ey⟩ := hy hi
        change Finite (F32.add c (F32.mul t.alpha (F32.sub t.y1 c))) ∧
          val (F32.add c (F32.mul t.alpha (F32.sub t.y1 c))) = _
        rw [ht]
        obtain ⟨f, e1, e2⟩ := step_between fa hc fy a0.le a1 (by rw [ey]; simp; norm_num)
        rw [ey, min_self] at e1
        rw [ey, max_self] at e2
        exact ⟨f, le_antisymm e2 e1⟩
    refine ⟨key.2, ?_, fun _ => key⟩
    unfold LPF1.smooth
    cases t.init <;> exact ht
  have inv : ∀ n : Nat, ((fun t : LPF1 (BitVec 32) => (t.smooth c).1)^[n]
        { s with alpha := a, init := true }).alpha = a ∧
      (((fun t : LPF1 (BitVec 32) => (t.smooth c).1)^[n] { s with alpha := a, init := true }).init = false →
        Finite ((fun t : LPF1 (BitVec 32) => (t.smooth c).1)^[n] { s with alpha := a, init := true }).y1 ∧
        val ((fun t : LPF1 (BitVec 32) => (t.smooth c).1)^[n] { s with alpha := a, init := true }).y1 =
          val c) := by
    intro n
    induction n with
    | zero => exact ⟨rfl, by simp⟩
    | succ n ih =>
      rw [Function.iterate_succ_apply']
      exact (step _ ih.1 ih.2).2
  exact (step _ (inv n).1 (inv n).2).1

-- C134: three samples, the middle one an outlier; all outputs are inside [1, 1000]
example : let s := ((⟨F32.lit (9 / 10), 0, true⟩ : LPF1 (BitVec 32)).setup (F32.lit (1 / 4))).1
    let a := s.smooth (F32.lit 1)
    let b := a.1.smooth (F32.lit 1000)
    let c := b.1.smooth (F32.lit 1)
    val a.2 = 1 ∧ val b.2 = 750.25 ∧ val c.2 = 188.3125 := by decide +kernel

/-- The bound on the samples in `C134_hull` cannot be dropped: the largest float followed by its
negative makes the difference overflow. -/
theorem C134_bound_needed : let a := (⟨F32.lit (9 / 10), 0, true⟩ : LPF1 (BitVec 32)).smooth 0x7F7FFFFF#32
    IsInf (a.1.smooth 0xFF7FFFFF#32).2 := by decide +kernel

/-! ## The exponentially weighted filter -/

/-- The outputs of a sequence of calls (`none`: `reset`, `some x`: `smooth( x )`).
Not a definition of the repository. -/
def outs {S F : Type} (reset : S → S) (smooth : S → F → S × F) : S → List (Option F) → List F
  | _, [] => []
  | s, none :: es => outs reset smooth (reset s) es
  | s, some x :: es => (smooth s x).2 :: outs reset smooth (smooth s x).1 es

theorem outs_of_inv {S F : Type} (reset : S → S) (smooth : S → F → S × F) (Q L : F → Prop)
    (I : S → Prop) (hreset : ∀ s, I s → I (reset s))
    (hsmooth : ∀ s x, L x → I s → Q (smooth s x).2 ∧ I (smooth s x).1) (es : List (Option F))
    (hes : ∀ x, some x ∈ es → L x) (s : S) (h : I s) : ∀ y ∈ outs reset smooth s es, Q y := by
  induction es generalizing s with
  | nil => intro y hy; cases hy
  | cons e es ih =>
    have ih := ih fun x hx => hes x (List.mem_cons_of_mem _ hx)
    cases e with
    | none => exact ih _ (hreset s h)
    | some x =>
      have hx := hsmooth s x (hes x List.mem_cons_self) h
      intro y hy
      rcases List.mem_cons.1 hy with rfl | hy
      · exact hx.1
      · exact ih _ hx.2 y hy

/-- One weight update `w := lambda * w + 1`. -/
theorem expw_weight {lam w : BitVec 32} {G : ℚ} (fl : F32.Finite lam) (l0 : 0 < val lam)
    (hG : G = 1 - val lam) (hG0 : 1 / 65536 ≤ G) (fw : F32.Finite w) (w0 : 1 ≤ val w)
    (w1 : val w * G ≤ 2) :
    F32.Finite (F32.add (F32.mul lam w) (F32.lit 1)) ∧
      1 ≤ val (F32.add (F32.mul lam w) (F32.lit 1)) ∧
      val (F32.add (F32.mul lam w) (F32.lit 1)) * G ≤ 2 := by
  have hG1 : G ≤ 1 := by linarith
  have hw : val w ≤ 131072 := by nlinarith
  have q0 : 0 ≤ val lam * val w := by positivity
  have q1 : val lam * val w ≤ 131072 := by nlinarith
  have qa : |val lam * val w| ≤ 131072 := by rw [abs_of_nonneg q0]; exact q1
  obtain ⟨f1, e1⟩ := rnd_mag (s := (neg lam ^^ neg w)) (qa.trans (by norm_num))
  have z1 : 0 ≤ val (rnd (neg lam ^^ neg w) (val lam * val w)) := rnd_nonneg q0
  rw [mul_fin fl fw, add_fin f1 lit01.2.2.1]
  generalize val (rnd (neg lam ^^ neg w) (val lam * val w)) = p at *
  generalize (neg (rnd (neg lam ^^ neg w) (val lam * val w)) && neg (F32.lit 1)) = s at *
  rw [abs_of_nonneg q0, abs_le] at e1
  norm_num at e1
  have p1 : p + 1 ≤ 131074 := by linarith
  rw [lit01.2.2.2]
  have pa : |p + 1| ≤ 131074 := by rw [abs_of_nonneg (by linarith)]; exact p1
  obtain ⟨f2, e2⟩ := rnd_mag (s := s) (pa.trans (by norm_num))
  refine ⟨f2, ?_, ?_⟩
  · exact rnd_ge_one (by linarith)
  · rw [abs_of_nonneg (a := p + 1) (by linarith), abs_le] at e2
    norm_num at e2
    have hv : val (rnd s (p + 1)) ≤ val w - val w * G + 1.02 := by
      have : val lam * val w = val w - val w * G := by rw [hG]; ring
      rw [this] at e1
      norm_num at e1 e2 ⊢
      linarith [mul_nonneg (by linarith : (0:ℚ) ≤ val w) (by linarith : 0 ≤ G)]
    have h3 : val (rnd s (p + 1)) * G ≤ (val w - val w * G + 1.02) * G :=
      mul_le_mul_of_nonneg_right hv (by linarith)
    nlinarith

/-- One mean update `m * (1 - iw) + iw * x` keeps the bound `B = M + D`, where `D * G = 2^-20 * M`. -/
theorem expw_mean {iw m x : BitVec 32} {G M D : ℚ} (fi : F32.Finite iw) (fm : F32.Finite m)
    (fx : F32.Finite x) (hG0 : 1 / 65536 ≤ G) (hM : 1e-30 ≤ M) (hM2 : M ≤ 1e38)
    (hD : D * G = M / 1048576) (i0 : 49 / 100 * G ≤ val iw) (i1 : val iw ≤ 1)
    (hm : |val m| ≤ M + D) (hx : |val x| ≤ M) :
    F32.Finite (F32.add (F32.mul m (F32.sub (F32.lit 1) iw)) (F32.mul iw x)) ∧
      |val (F32.add (F32.mul m (F32.sub (F32.lit 1) iw)) (F32.mul iw x))| ≤ M + D := by
  have i00 : 0 < val iw := by linarith
  have M0 : 0 < M := lt_of_lt_of_le (by norm_num) hM
  have D0 : 0 ≤ D := by
    by_contra hc
    have : D * G < 0 := mul_neg_of_neg_of_pos (not_le.1 hc) (by linarith)
    rw [hD] at this
    linarith
  have D1 : D ≤ M / 16 := by
    have : D * (1 / 65536) ≤ D * G := mul_le_mul_of_nonneg_left hG0 D0
    rw [hD] at this
    linarith
  -- 1 - iw
  have s0 : 0 ≤ 1 - val iw := by linarith
  obtain ⟨f1, e1⟩ := rnd_mag_le (s := (neg (F32.lit 1) && !neg iw)) (q := 1 - val iw)
    (abs_of_nonneg s0).le (by norm_num; linarith)
  have z1 := rnd_nonneg (s := (neg (F32.lit 1) && !neg iw)) s0
  have o1 := rnd_le_one (s := (neg (F32.lit 1) && !neg iw)) (q := 1 - val iw) (by linarith)
  rw [sub_fin lit01.2.2.1 fi, lit01.2.2.2]
  rw [abs_of_nonneg z1] at e1
  generalize rnd (neg (F32.lit 1) && !neg iw) (1 - val iw) = S at *
  -- m * (1 - iw)
  have pB : |val m * val S| ≤ (M + D) * val S := by
    rw [abs_mul, abs_of_nonneg z1]
    exact mul_le_mul_of_nonneg_right hm z1
  have pB2 : (M + D) * val S ≤ M + D := by nlinarith
  have pB3 : (M + D) * val S ≤ (M + D) * (1 - val iw + (1 - val iw) / 16777216 + 1e-45) :=
    mul_le_mul_of_nonneg_left e1 (by linarith)
  obtain ⟨f2, e2⟩ := rnd_mag_le (s := (neg m ^^ neg S)) pB
    (pB2.trans (by norm_num at hM2 ⊢; linarith))
  rw [mul_fin fm f1]
  -- iw * x
  have rB : |val iw * val x| ≤ val iw * M := by
    rw [abs_mul, abs_of_pos i00]
    exact mul_le_mul_of_nonneg_left hx i00.le
  have rB2 : val iw * M ≤ M := by nlinarith
  obtain ⟨f3, e3⟩ := rnd_mag_le (s := (neg iw ^^ neg x)) rB
    (rB2.trans (by norm_num at hM2 ⊢; linarith))
  rw [mul_fin fi fx]
  generalize rnd (neg m ^^ neg S) (val m * val S) = P at *
  generalize rnd (neg iw ^^ neg x) (val iw * val x) = Q at *
  have sB := abs_add_le' e2 e3
  have hZ : 49 / 100 * (M / 1048576) ≤ val iw * D := by
    rw [← hD]
    have := mul_le_mul_of_nonneg_right i0 D0
    linarith
  have hY0 : 0 ≤ val iw * M := by positivity
  have hX : (M + D) * (1 - val iw) = M + D - val iw * M - val iw * D := by ring
  have pB4 : (M + D) * val S ≤ (M + D - val iw * M - val iw * D) * (1 + 1 / 16777216) +
      (M + D) * 1e-45 := by
    rw [← hX]
    refine pB3.trans (le_of_eq ?_)
    ring
  generalize (M + D) * val S = W at *
  generalize val iw * M = Y at *
  generalize val iw * D = Z at *
  rw [add_fin f2 f3]
  obtain ⟨f4, e4⟩ := rnd_mag_le (s := (neg P && neg Q)) sB (by norm_num at hM2 ⊢; linarith)
  refine ⟨f4, e4.trans ?_⟩
  norm_num at hM hM2 pB4 ⊢
  linarith

/-- The reciprocal of the weight. -/
theorem expw_recip {w : BitVec 32} {G : ℚ} (fw : F32.Finite w) (w0 : 1 ≤ val w)
    (w1 : val w * G ≤ 2) (hG0 : 1 / 65536 ≤ G) :
    F32.Finite (F32.div (F32.lit 1) w) ∧ 49 / 100 * G ≤ val (F32.div (F32.lit 1) w) ∧
      val (F32.div (F32.lit 1) w) ≤ 1 := by
  rw [div_fin lit01.2.2.1 fw (by linarith), lit01.2.2.2]
  have h1 : 1 / val w ≤ 1 := by rw [div_le_one (by linarith)]; exact w0
  have h2 : G / 2 ≤ 1 / val w := by
    rw [le_div_iff₀ (by linarith)]; linarith
  have h0 : 0 ≤ 1 / val w := by linarith
  have ha : |1 / val w| ≤ 1 := by rw [abs_of_nonneg h0]; exact h1
  obtain ⟨f, e⟩ := rnd_mag (s := (neg (F32.lit 1) ^^ neg w)) (ha.trans (by norm_num))
  refine ⟨f, ?_, rnd_le_one h1⟩
  rw [abs_of_nonneg h0, abs_le] at e
  generalize 1 / val w = q at *
  norm_num at e
  linarith

/-- **C135.** In binary32, after `setup( lambda )` with an accepted `lambda` at most `1 - 2^-16`, every
output of `smootherEXPW` is finite and exceeds the bound `M` of the samples by at most the factor
`1 + 2^-20 / (1 - lambda)`, however long the filter runs. -/
theorem C135_expw (s : EXPW (BitVec 32)) (lam : BitVec 32) (hs : (s.setup lam).2 = true)
    (hl : val lam ≤ 1 - 1 / 65536) (M : ℚ) (hM : 1e-30 ≤ M) (hM2 : M ≤ 1e38)
    (es : List (Option (BitVec 32))) (hes : ∀ x, some x ∈ es → F32.Finite x ∧ |val x| ≤ M) :
    ∀ y ∈ outs (fun t => { t with init := true }) EXPW.smooth (s.setup lam).1 es,
      F32.Finite y ∧ |val y| ≤ M * (1 + 1 / 1048576 / (1 - val lam)) := by
  have hu : F32.Finite lam ∧ 0 < val lam ∧ val lam < 1 ∧
      (s.setup lam).1 = { s with lambda := lam, m := F32.lit 0, w := F32.lit 1, init := true } := by
    unfold EXPW.setup at hs ⊢
    split_ifs at hs ⊢ with h
    · exact ⟨(unit_iff h).1, (unit_iff h).2.1, (unit_iff h).2.2, rfl⟩
  obtain ⟨fl, l0, l1, e⟩ := hu
  have M0 : 0 < M := lt_of_lt_of_le (by norm_num) hM
  obtain ⟨G, hG⟩ : ∃ G, G = 1 - val lam := ⟨_, rfl⟩
  have hG0 : 1 / 65536 ≤ G := by linarith
  have hD : M * (1 + 1 / 1048576 / (1 - val lam)) = M + M / 1048576 / G := by
    rw [hG]; ring
  have hDG : M / 1048576 / G * G = M / 1048576 := by
    rw [div_mul_cancel₀]
    linarith
  have hD0 : 0 ≤ M / 1048576 / G := by
    have : 0 ≤ G := by linarith
    positivity
  rw [hD, e]
  refine outs_of_inv _ _ _ (fun x => F32.Finite x ∧ |val x| ≤ M)
    (fun t : EXPW (BitVec 32) => t.lambda = lam ∧ F32.Finite t.w ∧ 1 ≤ val t.w ∧ val t.w * G ≤ 2 ∧
      (t.init = false → F32.Finite t.m ∧ |val t.m| ≤ M + M / 1048576 / G)) ?_ ?_ es hes _ ?_
  · intro t ⟨h1, h2, h3, h4, _⟩
    exact ⟨h1, h2, h3, h4, by simp⟩
  · intro t x ⟨fx, hx⟩ ⟨h1, h2, h3, h4, h5⟩
    have step : ∀ w m : BitVec 32, F32.Finite w → 1 ≤ val w → val w * G ≤ 2 → F32.Finite m →
        |val m| ≤ M + M / 1048576 / G →
        let w' := F32.add (F32.mul lam w) (F32.lit 1)
        let iw := F32.div (F32.lit 1) w'
        let m' := F32.add (F32.mul m (F32.sub (F32.lit 1) iw)) (F32.mul iw x)
        (F32.Finite m' ∧ |val m'| ≤ M + M / 1048576 / G) ∧ F32.Finite w' ∧ 1 ≤ val w' ∧
          val w' * G ≤ 2 := by
      intro w m a1 a2 a3 a4 a5
      obtain ⟨b1, b2, b3⟩ := expw_weight fl l0 hG hG0 a1 a2 a3
      obtain ⟨c1, c2, c3⟩ := expw_recip b1 b2 b3 hG0
      exact ⟨expw_mean c1 a4 fx hG0 hM hM2 hDG c2 c3 a5 hx, b1, b2, b3⟩
    unfold EXPW.smooth
    cases hi : t.init with
    | true =>
      obtain ⟨k1, k2, k3, k4⟩ := step (F32.lit 1) x lit01.2.2.1 (by rw [lit01.2.2.2])
        (by rw [lit01.2.2.2, one_mul, hG]; linarith) fx (by linarith)
      rw [← h1] at k1 k2 k3 k4
      exact ⟨k1, h1, k2, k3, k4, fun _ => k1⟩
    | false =>
      obtain ⟨k1, k2, k3, k4⟩ := step t.w t.m h2 h3 h4 (h5 hi).1 (h5 hi).2
      rw [← h1] at k1 k2 k3 k4
      exact ⟨k1, h1, k2, k3, k4, fun _ => k1⟩
  · refine ⟨rfl, lit01.2.2.1, ?_, ?_, by simp⟩
    · change 1 ≤ val (F32.lit 1)
      rw [lit01.2.2.2]
    · change val (F32.lit 1) * G ≤ 2
      rw [lit01.2.2.2, one_mul, hG]; linarith

/-- The tolerance in `C135_expw` is needed: with `lambda = 0.8F` the third output for the constant
input `0x3F800005` (just above one) is larger than every input. -/
theorem C135_exact_false : let c := 0x3F800005#32
    let a := (⟨F32.lit (8 / 10), 0, F32.lit 1, true⟩ : EXPW (BitVec 32)).smooth c
    let b := a.1.smooth c
    val c < val (b.1.smooth c).2 := by decide +kernel

-- C135: the hypotheses hold for `lambda = 0.8F` and samples of magnitude at most 1000
example : let s := (⟨0, 0, 0, true⟩ : EXPW (BitVec 32))
    (s.setup (F32.lit (8 / 10))).2 = true ∧ val (F32.lit (8 / 10)) ≤ 1 - 1 / 65536 ∧
    outs (fun t => { t with init := true }) EXPW.smooth (s.setup (F32.lit (8 / 10))).1
      [some (F32.lit 1000), some (F32.lit (-1000)), none, some (F32.lit 4)] =
      [F32.lit 1000, 1127502832#32, F32.lit 4] := by decide +kernel

end Verif.Smoother
