import Verif.Smoother.FloatWindow
import Verif.Fis.Float

/-!
# The recursive smoothers in binary32 follow the exact ones for ever (C162)

The binary32 object and the same object in exact real arithmetic receive the same calls; the distance of their outputs is bounded
independently of the number of calls.
-/

namespace Verif.Smoother

open Arith F32 Ltisys

/-- The calls with the samples as real numbers. Not a definition of the repository. -/
noncomputable def realCalls (es : List (Option (BitVec 32))) : List (Option ℝ) := es.map (Option.map fun x => (val x : ℝ))

theorem outs_near {S S' : Type} (reset : S → S) (smooth : S → BitVec 32 → S × BitVec 32) (reset' : S' → S')
    (smooth' : S' → ℝ → S' × ℝ) (E : ℝ) (L : BitVec 32 → Prop) (I : S → S' → Prop)
    (hreset : ∀ s s', I s s' → I (reset s) (reset' s'))
    (hsmooth : ∀ s s' x, L x → I s s' → F32.Near (smooth s x).2 (smooth' s' (val x : ℝ)).2 E ∧
      I (smooth s x).1 (smooth' s' (val x : ℝ)).1)
    (es : List (Option (BitVec 32))) (hes : ∀ x, some x ∈ es → L x) (s : S) (s' : S') (h : I s s') :
    List.Forall₂ (fun y y' => F32.Near y y' E) (outs reset smooth s es) (outs reset' smooth' s' (realCalls es)) := by
  induction es generalizing s s' with
  | nil => exact .nil
  | cons e es ih =>
    have ih := ih fun x hx => hes x (List.mem_cons_of_mem _ hx)
    cases e with
    | none => exact ih _ _ (hreset s s' h)
    | some x =>
      have hx := hsmooth s s' x (hes x List.mem_cons_self) h
      exact .cons hx.1 (ih _ _ hx.2)

theorem one_near : F32.Near (F32.lit 1) 1 0 := ⟨Fis.one_val.1, by rw [Fis.one_val.2]; norm_num⟩

/-- One step of the level of `smootherLPF1`. -/
theorem lpf1_track {al y1 x : BitVec 32} {Y M e : ℝ} (fa : F32.Finite al) (a0 : 0 ≤ (val al : ℝ)) (a1 : (val al : ℝ) ≤ 1 - 1e-4)
    (hM : 1e-30 ≤ M) (hM2 : M ≤ 1e30) (he : (1 - (val al : ℝ)) * e = 3.2e-7 * M) (hy : F32.Near y1 Y e) (hY : |Y| ≤ M)
    (fx : F32.Finite x) (hx : |(val x : ℝ)| ≤ M) :
    F32.Near (F32.add x (F32.mul al (F32.sub y1 x))) (val x + val al * (Y - val x)) e ∧
      |(val x : ℝ) + val al * (Y - val x)| ≤ M := by
  obtain ⟨a, ha⟩ : ∃ a : ℝ, a = val al := ⟨_, rfl⟩
  obtain ⟨X, hX⟩ : ∃ X : ℝ, X = val x := ⟨_, rfl⟩
  rw [← ha] at a0 a1 he ⊢
  rw [← hX] at hx ⊢
  have e0 : 0 ≤ e := by
    by_contra h
    push Not at h
    have : (1 - a) * e ≤ 0 := mul_nonpos_of_nonneg_of_nonpos (by norm_num at a1; linarith) h.le
    norm_num at he hM; linarith
  have eb : e ≤ 3.2e-3 * M := by
    have h1 : 1e-4 * e ≤ (1 - a) * e := mul_le_mul_of_nonneg_right (by norm_num at a1 ⊢; linarith) e0
    rw [he] at h1
    norm_num at h1 ⊢; linarith
  have ae : a * e = e - 3.2e-7 * M := by linarith
  have aM0 : 0 ≤ a * M := mul_nonneg a0 (by norm_num at hM; linarith)
  have aM : a * M ≤ M := by
    have : a * M ≤ 1 * M := mul_le_mul_of_nonneg_right (by norm_num at a1; linarith) (by norm_num at hM; linarith)
    linarith
  have d1 : |Y - X| ≤ 2 * M := (abs_sub _ _).trans (by linarith)
  have nx : F32.Near x X 0 := by rw [hX]; exact F32.Near.self fx
  have na : F32.Near al a 0 := by rw [ha]; exact F32.Near.self fa
  have n1 : F32.Near (F32.sub y1 x) (Y - X) (e + 1.2e-7 * M) := by
    refine F32.Near.sub (2 * M + e) hy nx (by linarith) (by norm_num at hM2 eb ⊢; linarith) ?_
    norm_num at hM eb ⊢; linarith
  have n2 : F32.Near (F32.mul al (F32.sub y1 x)) (a * (Y - X)) (a * e + 2.5e-7 * M) := by
    refine F32.Near.mul a (2 * M) (a * e + 1.2e-7 * M) (2.01 * M) na n1 (by rw [abs_of_nonneg a0]) d1 ?_ ?_ ?_ ?_
    · have : a * (e + 1.2e-7 * M) = a * e + 1.2e-7 * (a * M) := by ring
      rw [this]; norm_num at aM ⊢; linarith
    · have : |a * (Y - X)| ≤ 2 * M := by
        rw [abs_mul, abs_of_nonneg a0]
        have : a * |Y - X| ≤ 1 * (2 * M) := mul_le_mul (by norm_num at a1; linarith) d1 (abs_nonneg _) (by norm_num)
        linarith
      generalize |a * (Y - X)| = q at *
      norm_num at eb ae hM ⊢; linarith
    · norm_num at hM2 ⊢; linarith
    · norm_num at hM ⊢; linarith
  have hull : |X + a * (Y - X)| ≤ M := by
    have : X + a * (Y - X) = (1 - a) * X + a * Y := by ring
    rw [this]
    refine (abs_add_le _ _).trans ?_
    rw [abs_mul, abs_mul, abs_of_nonneg a0, abs_of_nonneg (by norm_num at a1; linarith : (0 : ℝ) ≤ 1 - a)]
    have h1 : (1 - a) * |X| ≤ (1 - a) * M := mul_le_mul_of_nonneg_left hx (by norm_num at a1; linarith)
    have h2 : a * |Y| ≤ a * M := mul_le_mul_of_nonneg_left hY a0
    linarith
  refine ⟨?_, hull⟩
  refine F32.Near.add (1.01 * M) nx n2 ?_ (by norm_num at hM2 ⊢; linarith) ?_
  · norm_num at eb ae hM ⊢; linarith
  · rw [ae]; norm_num at hM ⊢; linarith

/-- **C162** (`smootherLPF1`). In binary32 the filter with a coefficient of at most `1 - 1e-4` stays for ever within
`3.2e-7 M / (1 - a)` of the filter in exact arithmetic, `M` the greatest sample. -/
theorem C162_lpf1 (s0 : LPF1 (BitVec 32)) (s0' : LPF1 ℝ) (al : BitVec 32) (h : (s0.setup al).2 = true) (fa : F32.Finite al)
    (ha : (val al : ℝ) ≤ 1 - 1e-4) (M : ℝ) (hM : 1e-30 ≤ M) (hM2 : M ≤ 1e30) (es : List (Option (BitVec 32)))
    (hes : ∀ x, some x ∈ es → F32.Finite x ∧ |(val x : ℝ)| ≤ M) :
    (s0'.setup (val al : ℝ)).2 = true ∧
    List.Forall₂ (fun y y' => F32.Near y y' (3.2e-7 * M / (1 - val al)))
      (outs (fun s => { s with init := true }) LPF1.smooth (s0.setup al).1 es)
      (outs (fun s => { s with init := true }) LPF1.smooth (s0'.setup (val al : ℝ)).1 (realCalls es)) := by
  have hc : (F32.lt (F32.lit 0) al && F32.lt al (F32.lit 1)) = true := by
    by_contra hc
    have : s0.setup al = (s0, false) := if_neg hc
    rw [this] at h; cases h
  have hs : s0.setup al = ({ s0 with alpha := al, init := true }, true) := if_pos hc
  rw [Bool.and_eq_true, lt_fin Fis.zero_val.1 fa, lt_fin fa Fis.one_val.1, decide_eq_true_eq, decide_eq_true_eq, Fis.zero_val.2,
    Fis.one_val.2] at hc
  have a0 : (0 : ℝ) < val al := by exact_mod_cast hc.1
  have a1 : (val al : ℝ) < 1 := by exact_mod_cast hc.2
  have hs' : s0'.setup (val al : ℝ) = ({ s0' with alpha := (val al : ℝ), init := true }, true) := by
    unfold LPF1.setup
    rw [if_pos (by simp only [fLit, fLt, Rat.cast_zero, Rat.cast_one, Bool.and_eq_true, decide_eq_true_eq]; exact ⟨a0, a1⟩)]
  refine ⟨by rw [hs'], ?_⟩
  rw [hs, hs']
  obtain ⟨e, he⟩ : ∃ e : ℝ, e = 3.2e-7 * M / (1 - val al) := ⟨_, rfl⟩
  have he2 : (1 - (val al : ℝ)) * e = 3.2e-7 * M := by
    rw [he, mul_div_cancel₀ _ (by linarith : 1 - (val al : ℝ) ≠ 0)]
  have e0 : 0 ≤ e := by rw [he]; exact div_nonneg (by norm_num at hM ⊢; linarith) (by linarith)
  rw [← he]
  refine outs_near _ _ _ _ e (fun x => F32.Finite x ∧ |(val x : ℝ)| ≤ M)
    (fun s s' => s.alpha = al ∧ s'.alpha = (val al : ℝ) ∧ s.init = s'.init ∧ (s.init = false → F32.Near s.y1 s'.y1 e ∧ |s'.y1| ≤ M))
    ?_ ?_ es hes _ _ ?_
  · rintro s s' ⟨h1, h2, _, _⟩
    exact ⟨h1, h2, rfl, by simp⟩
  · rintro s s' x ⟨fx, hx⟩ ⟨h1, h2, h3, h4⟩
    have key : ∃ y1 Y, (F32.Near y1 Y e ∧ |Y| ≤ M) ∧ s.smooth x = ({ s with init := false, y1 := F32.add x (F32.mul al (F32.sub y1 x)) },
        F32.add x (F32.mul al (F32.sub y1 x))) ∧ s'.smooth (val x : ℝ) = ({ s' with init := false, y1 := val x + val al * (Y - val x) },
        val x + val al * (Y - val x)) := by
      cases hi : s.init with
      | true =>
        refine ⟨x, val x, ⟨(F32.Near.self fx).mono e0, hx⟩, ?_, ?_⟩
        · unfold LPF1.smooth; rw [hi, if_pos rfl]; dsimp only; rw [h1]; rfl
        · unfold LPF1.smooth; rw [← h3, hi, if_pos rfl]; dsimp only; rw [h2]; rfl
      | false =>
        refine ⟨s.y1, s'.y1, h4 hi, ?_, ?_⟩
        · unfold LPF1.smooth; rw [hi, if_neg (by simp)]; dsimp only; rw [h1, hi]; rfl
        · unfold LPF1.smooth; rw [← h3, hi, if_neg (by simp)]; dsimp only; rw [h2, ← h3, hi]; rfl
    obtain ⟨y1, Y, ⟨k1, k2⟩, k3, k4⟩ := key
    have := lpf1_track fa a0.le ha hM hM2 he2 k1 k2 fx hx
    rw [k3, k4]
    exact ⟨this.1, h1, h2, rfl, fun _ => this⟩
  · exact ⟨rfl, rfl, rfl, by simp⟩

/-- One step of `(1 - a) u + a v` when the second summand is given as a float near `a v`, with the fixed point of the error. -/
theorem blend_track {al l p : BitVec 32} {U V M e d : ℝ} (fa : F32.Finite al) (a0 : 1e-4 ≤ (val al : ℝ)) (a1 : (val al : ℝ) < 1)
    (hM : 1e-30 ≤ M) (hM2 : M ≤ 1e30) (e0 : 0 ≤ e) (eb : e ≤ 0.01 * M) (d0 : 0 ≤ d) (_db : d ≤ 0.01 * M)
    (he : d + 1.9e-7 * M ≤ (val al : ℝ) * e) (hl : F32.Near l U e) (hU : |U| ≤ M) (hp : F32.Near p (val al * V) d) (hV : |V| ≤ M) :
    F32.Near (F32.add (F32.mul (F32.sub (F32.lit 1) al) l) p) ((1 - val al) * U + val al * V) e ∧
      |(1 - (val al : ℝ)) * U + val al * V| ≤ M := by
  obtain ⟨a, ha⟩ : ∃ a : ℝ, a = val al := ⟨_, rfl⟩
  rw [← ha] at a0 a1 he hp ⊢
  have a0' : 0 ≤ a := by norm_num at a0; linarith
  have M0 : 0 ≤ M := by norm_num at hM; linarith
  have na : F32.Near al a 0 := by rw [ha]; exact F32.Near.self fa
  have n1 : F32.Near (F32.sub (F32.lit 1) al) (1 - a) 6e-8 := by
    refine F32.Near.sub 1 one_near na ?_ (by norm_num) (by norm_num)
    rw [abs_of_nonneg (by linarith)]; linarith
  have q1 : |(1 - a) * U| ≤ (1 - a) * M := by
    rw [abs_mul, abs_of_nonneg (by linarith)]; exact mul_le_mul_of_nonneg_left hU (by linarith)
  have q2 : |a * V| ≤ a * M := by
    rw [abs_mul, abs_of_nonneg a0']; exact mul_le_mul_of_nonneg_left hV a0'
  have aM : 0 ≤ a * M := mul_nonneg a0' M0
  have ae0 : 0 ≤ a * e := mul_nonneg a0' e0
  have n2 : F32.Near (F32.mul (F32.sub (F32.lit 1) al) l) ((1 - a) * U) (e - a * e + 1.22e-7 * M) := by
    refine F32.Near.mul (1 - a) M (e - a * e + 6.07e-8 * M) (1.02 * M) n1 hl (by rw [abs_of_nonneg]; linarith) hU ?_ ?_ ?_ ?_
    · norm_num at eb ⊢; linarith
    · generalize |(1 - a) * U| = q at *
      norm_num at eb ⊢; linarith
    · norm_num at hM2 ⊢; linarith
    · norm_num at hM ⊢; linarith
  have hull : |(1 - a) * U + a * V| ≤ M := (abs_add_le _ _).trans (by linarith)
  refine ⟨?_, hull⟩
  refine F32.Near.add (1.03 * M) n2 hp ?_ (by norm_num at hM2 ⊢; linarith) ?_
  · norm_num at eb _db ⊢; linarith
  · norm_num at he hM ⊢; linarith

/-- The error of the level. -/
theorem level_track {al l x : BitVec 32} {U M e : ℝ} (fa : F32.Finite al) (a0 : 1e-4 ≤ (val al : ℝ)) (a1 : (val al : ℝ) < 1)
    (hM : 1e-30 ≤ M) (hM2 : M ≤ 1e30) (he : (val al : ℝ) * e = 2.6e-7 * M) (hl : F32.Near l U e) (hU : |U| ≤ M)
    (fx : F32.Finite x) (hx : |(val x : ℝ)| ≤ M) :
    F32.Near (F32.add (F32.mul (F32.sub (F32.lit 1) al) l) (F32.mul al x)) ((1 - val al) * U + val al * val x) e ∧
      |(1 - (val al : ℝ)) * U + val al * val x| ≤ M := by
  have M0 : 0 ≤ M := by norm_num at hM; linarith
  have a0' : 0 < (val al : ℝ) := by norm_num at a0; linarith
  have e0 : 0 ≤ e := by
    by_contra h
    push Not at h
    have := mul_neg_of_pos_of_neg a0' h
    norm_num at he hM; linarith
  have eb : e ≤ 0.01 * M := by
    have := mul_le_mul_of_nonneg_right a0 e0
    norm_num at this he hM ⊢; linarith
  have q : |(val al : ℝ) * val x| ≤ M := by
    rw [abs_mul, abs_of_pos a0']
    have := mul_le_mul a1.le hx (abs_nonneg _) (by norm_num)
    linarith
  have n1 : F32.Near (F32.mul al x) (val al * val x) (6.1e-8 * M) := by
    refine F32.Near.mul 1 M 0 M (F32.Near.self fa) (F32.Near.self fx) (by rw [abs_of_pos a0']; exact a1.le) hx (by simp)
      (by linarith) (by norm_num at hM2 ⊢; linarith) ?_
    norm_num at hM ⊢; linarith
  exact blend_track fa a0 a1 hM hM2 e0 eb (by positivity) (by norm_num; linarith) (by norm_num at he ⊢; linarith) hl hU n1 hx

/-- The error of the trend. -/
theorem trend_track {be b l l' : BitVec 32} {T U U' M e f : ℝ} (fb : F32.Finite be) (b0 : 1e-4 ≤ (val be : ℝ)) (b1 : (val be : ℝ) < 1)
    (hM : 1e-30 ≤ M) (hM2 : M ≤ 1e29) (e0 : 0 ≤ e) (eb : e ≤ 0.003 * M) (fM : f ≤ 0.02 * M)
    (hf : (val be : ℝ) * f = 2 * val be * e + 7e-7 * M) (hl : F32.Near l U e) (hl' : F32.Near l' U' e)
    (hU : |U| ≤ M) (hU' : |U'| ≤ M) (hb : F32.Near b T f) (hT : |T| ≤ 2 * M) :
    F32.Near (F32.add (F32.mul (F32.sub (F32.lit 1) be) b) (F32.mul be (F32.sub l' l))) ((1 - val be) * T + val be * (U' - U)) f ∧
      |(1 - (val be : ℝ)) * T + val be * (U' - U)| ≤ 2 * M := by
  have M0 : 0 ≤ M := by norm_num at hM; linarith
  have b0' : 0 < (val be : ℝ) := by norm_num at b0; linarith
  have f0 : 0 ≤ f := by
    by_contra h
    push Not at h
    have h1 := mul_neg_of_pos_of_neg b0' h
    have h2 := mul_nonneg b0'.le e0
    norm_num at hf hM; linarith
  have d : |U' - U| ≤ 2 * M := (abs_sub _ _).trans (by linarith)
  have n1 : F32.Near (F32.sub l' l) (U' - U) (2 * e + 1.21e-7 * M) := by
    refine F32.Near.sub (2.01 * M) hl' hl (by norm_num at eb ⊢; linarith) (by norm_num at hM2 ⊢; linarith) ?_
    norm_num at hM ⊢; linarith
  have be0 : 0 ≤ (val be : ℝ) * e := mul_nonneg b0'.le e0
  have be1 : (val be : ℝ) * e ≤ e := by
    have := mul_le_mul_of_nonneg_right b1.le e0
    linarith
  have bM : (val be : ℝ) * M ≤ M := by
    have := mul_le_mul_of_nonneg_right b1.le M0
    linarith
  have n2 : F32.Near (F32.mul be (F32.sub l' l)) (val be * (U' - U)) (2 * (val be * e) + 2.5e-7 * M) := by
    refine F32.Near.mul (val be) (2 * M) (2 * (val be * e) + 1.21e-7 * M) (2.02 * M) (F32.Near.self fb) n1
      (by rw [abs_of_pos b0']) d ?_ ?_ ?_ ?_
    · have : (val be : ℝ) * (2 * e + 1.21e-7 * M) = 2 * (val be * e) + 1.21e-7 * (val be * M) := by ring
      rw [this]; norm_num; linarith
    · have : |(val be : ℝ) * (U' - U)| ≤ 2 * M := by
        rw [abs_mul, abs_of_pos b0']
        have := mul_le_mul b1.le d (abs_nonneg _) (by norm_num)
        linarith
      generalize |(val be : ℝ) * (U' - U)| = q at *
      norm_num at eb ⊢; linarith
    · norm_num at hM2 ⊢; linarith
    · norm_num at hM ⊢; linarith
  exact blend_track (M := 2 * M) fb b0 b1 (by norm_num at hM ⊢; linarith) (by norm_num at hM2 ⊢; linarith) f0
    (by norm_num at fM ⊢; linarith) (by positivity) (by norm_num at eb ⊢; linarith) (by rw [hf]; norm_num; linarith) hb hT n2 d

/-- **C162** (`smootherDESF`). In binary32 the filter with coefficients `a` and `b` of at least `1e-4` stays for ever within
`(1 + 2 n) 2.6e-7 M / a + n 7e-7 M / b + 4e-7 (1 + n) M` of the filter in exact arithmetic, `M` the greatest sample and `n` the
number of steps ahead. -/
theorem C162_desf (s0 : DESF (BitVec 32)) (s0' : DESF ℝ) (al be : BitVec 32) (n : Nat) (h : (s0.setup al be n).2 = true)
    (fa : F32.Finite al) (fb : F32.Finite be) (ha : 1e-4 ≤ (val al : ℝ)) (hb : 1e-4 ≤ (val be : ℝ)) (hn : n ≤ 100000)
    (M : ℝ) (hM : 1e-30 ≤ M) (hM2 : M ≤ 1e29) (es : List (Option (BitVec 32)))
    (hes : ∀ x, some x ∈ es → F32.Finite x ∧ |(val x : ℝ)| ≤ M) :
    (s0'.setup (val al : ℝ) (val be : ℝ) n).2 = true ∧
    List.Forall₂ (fun y y' => F32.Near y y' ((1 + 2 * n) * (2.6e-7 * M / val al) + n * (7e-7 * M / val be) + 4e-7 * (1 + n) * M))
      (outs (fun s => { s with init := true }) DESF.smooth (s0.setup al be n).1 es)
      (outs (fun s => { s with init := true }) DESF.smooth (s0'.setup (val al : ℝ) (val be : ℝ) n).1 (realCalls es)) := by
  have hc : (F32.lt (F32.lit 0) al && F32.lt al (F32.lit 1) && F32.lt (F32.lit 0) be && F32.lt be (F32.lit 1)) = true := by
    by_contra hc
    have : s0.setup al be n = (s0, false) := if_neg hc
    rw [this] at h; cases h
  have hs : s0.setup al be n = ({ s0 with alpha := al, beta := be, n := F32.lit n, init := true }, true) := if_pos hc
  rw [Bool.and_eq_true, Bool.and_eq_true, Bool.and_eq_true, lt_fin Fis.zero_val.1 fa, lt_fin fa Fis.one_val.1,
    lt_fin Fis.zero_val.1 fb, lt_fin fb Fis.one_val.1, decide_eq_true_eq, decide_eq_true_eq, decide_eq_true_eq,
    decide_eq_true_eq, Fis.zero_val.2, Fis.one_val.2] at hc
  obtain ⟨⟨⟨q1, q2⟩, q3⟩, q4⟩ := hc
  have a0 : (0 : ℝ) < val al := by exact_mod_cast q1
  have a1 : (val al : ℝ) < 1 := by exact_mod_cast q2
  have b0 : (0 : ℝ) < val be := by exact_mod_cast q3
  have b1 : (val be : ℝ) < 1 := by exact_mod_cast q4
  have hs' : s0'.setup (val al : ℝ) (val be : ℝ) n =
      ({ s0' with alpha := (val al : ℝ), beta := (val be : ℝ), n := n, init := true }, true) := by
    unfold DESF.setup
    rw [if_pos (by
      simp only [fLit, fLt, Rat.cast_zero, Rat.cast_one, Bool.and_eq_true, decide_eq_true_eq]; exact ⟨⟨⟨a0, a1⟩, b0⟩, b1⟩)]
    simp
  refine ⟨by rw [hs'], ?_⟩
  rw [hs, hs']
  have M0 : 0 ≤ M := by norm_num at hM; linarith
  obtain ⟨e, he⟩ : ∃ e : ℝ, e = 2.6e-7 * M / val al := ⟨_, rfl⟩
  have he2 : (val al : ℝ) * e = 2.6e-7 * M := by rw [he, mul_div_cancel₀ _ a0.ne']
  have e0 : 0 ≤ e := by rw [he]; positivity
  have eb : e ≤ 0.003 * M := by
    have := mul_le_mul_of_nonneg_right ha e0
    norm_num at this he2 hM ⊢; linarith
  obtain ⟨g, hg⟩ : ∃ g : ℝ, g = 7e-7 * M / val be := ⟨_, rfl⟩
  have hg2 : (val be : ℝ) * g = 7e-7 * M := by rw [hg, mul_div_cancel₀ _ b0.ne']
  have g0 : 0 ≤ g := by rw [hg]; positivity
  have gb : g ≤ 0.007 * M := by
    have := mul_le_mul_of_nonneg_right hb g0
    norm_num at this hg2 hM ⊢; linarith
  rw [← he, ← hg]
  have n0 : (0 : ℝ) ≤ n := by positivity
  have nb : (n : ℝ) ≤ 100000 := by exact_mod_cast hn
  obtain ⟨fl, el⟩ := litNat (n := n) (by omega)
  have nn : F32.Near (F32.lit n) (n : ℝ) 0 := ⟨fl, by rw [el]; simp⟩
  refine outs_near _ _ _ _ _ (fun x => F32.Finite x ∧ |(val x : ℝ)| ≤ M)
    (fun s s' => (s.alpha = al ∧ s.beta = be ∧ s.n = F32.lit n) ∧ (s'.alpha = (val al : ℝ) ∧ s'.beta = (val be : ℝ) ∧ s'.n = (n : ℝ)) ∧
      s.init = s'.init ∧ (s.init = false → (F32.Near s.lt s'.lt e ∧ |s'.lt| ≤ M) ∧ F32.Near s.bt s'.bt (2 * e + g) ∧ |s'.bt| ≤ 2 * M))
    ?_ ?_ es hes _ _ ?_
  · rintro s s' ⟨h1, h2, _, _⟩
    exact ⟨h1, h2, rfl, by simp⟩
  · rintro s s' x ⟨fx, hx⟩ ⟨⟨h1, h1b, h1c⟩, ⟨h2, h2b, h2c⟩, h3, h4⟩
    have key : ∃ l U b T, ((F32.Near l U e ∧ |U| ≤ M) ∧ F32.Near b T (2 * e + g) ∧ |T| ≤ 2 * M) ∧
        (let l' := F32.add (F32.mul (F32.sub (F32.lit 1) al) l) (F32.mul al x)
         let b' := F32.add (F32.mul (F32.sub (F32.lit 1) be) b) (F32.mul be (F32.sub l' l))
         s.smooth x = ({ s with init := false, lt := l', bt := b' }, F32.add l' (F32.mul (F32.lit n) b'))) ∧
        (let U' := (1 - (val al : ℝ)) * U + val al * val x
         let T' := (1 - (val be : ℝ)) * T + val be * (U' - U)
         s'.smooth (val x : ℝ) = ({ s' with init := false, lt := U', bt := T' }, U' + n * T')) := by
      cases hi : s.init with
      | true =>
        refine ⟨x, val x, x, val x, ⟨⟨(F32.Near.self fx).mono e0, hx⟩, (F32.Near.self fx).mono (by linarith), by linarith⟩, ?_, ?_⟩
        · unfold DESF.smooth; rw [hi, if_pos rfl]; dsimp only; rw [h1, h1b, h1c]; rfl
        · unfold DESF.smooth; rw [← h3, hi, if_pos rfl]; dsimp only; rw [h2, h2b, h2c]; simp
      | false =>
        refine ⟨s.lt, s'.lt, s.bt, s'.bt, h4 hi, ?_, ?_⟩
        · unfold DESF.smooth; rw [hi, if_neg (by simp)]; dsimp only; rw [h1, h1b, h1c, hi]; rfl
        · unfold DESF.smooth; rw [← h3, hi, if_neg (by simp)]; dsimp only; rw [h2, h2b, h2c, ← h3, hi]; simp
    obtain ⟨l, U, b, T, ⟨⟨k1, k2⟩, k3, k4⟩, k5, k6⟩ := key
    obtain ⟨r1, r2⟩ := level_track fa ha a1 hM (by norm_num at hM2 ⊢; linarith) he2 k1 k2 fx hx
    obtain ⟨r3, r4⟩ := trend_track fb hb b1 hM hM2 e0 eb (f := 2 * e + g) (by norm_num at eb gb ⊢; linarith)
      (by linarith) k1 r1 k2 r2 k3 k4
    dsimp only at k5 k6
    rw [k5, k6]
    generalize F32.add (F32.mul (F32.sub (F32.lit 1) al) l) (F32.mul al x) = l' at *
    generalize (1 - (val al : ℝ)) * U + val al * val x = U' at *
    generalize F32.add (F32.mul (F32.sub (F32.lit 1) be) b) (F32.mul be (F32.sub l' l)) = b' at *
    generalize (1 - (val be : ℝ)) * T + val be * (U' - U) = T' at *
    refine ⟨?_, ⟨h1, h1b, h1c⟩, ⟨h2, h2b, h2c⟩, rfl, fun _ => ⟨⟨r1, r2⟩, r3, r4⟩⟩
    have nM : 0 ≤ (n : ℝ) * M := by positivity
    have nM2 : (n : ℝ) * M ≤ 100000 * M := mul_le_mul_of_nonneg_right nb M0
    have nT : |(n : ℝ) * T'| ≤ 2 * (n * M) := by
      rw [abs_mul, abs_of_nonneg n0]
      have := mul_le_mul_of_nonneg_left r4 n0
      linarith
    have ne : (n : ℝ) * (2 * e + g) ≤ 0.02 * (n * M) := by
      have := mul_le_mul_of_nonneg_left (show 2 * e + g ≤ 0.02 * M by norm_num at eb gb ⊢; linarith) n0
      linarith
    have ne0 : 0 ≤ (n : ℝ) * (2 * e + g) := by positivity
    have m1 : F32.Near (F32.mul (F32.lit n) b') (n * T') (n * (2 * e + g) + 1.3e-7 * (n * M) + 1e-45) := by
      refine F32.Near.mul n (2 * M) (n * (2 * e + g)) (2.02 * (n * M)) nn r3 (by rw [abs_of_nonneg n0]) r4 (by simp) ?_ ?_ ?_
      · linarith
      · norm_num at hM2 ⊢; linarith
      · norm_num; linarith
    refine F32.Near.add (1.01 * M + 2.03 * (n * M)) r1 m1 ?_ (by norm_num at hM2 ⊢; linarith) ?_
    · refine (add_le_add_left ((abs_add_le _ _).trans (add_le_add r2 nT)) _).trans ?_
      norm_num at hM eb ne ⊢; linarith
    · have e1 : (1 + 2 * (n : ℝ)) * e + n * g + 4e-7 * (1 + n) * M = e + n * (2 * e + g) + 4e-7 * M + 4e-7 * (n * M) := by ring
      rw [e1]
      norm_num at hM ⊢; linarith
  · exact ⟨⟨rfl, rfl, rfl⟩, ⟨rfl, rfl, rfl⟩, rfl, by simp⟩

/-- Parameters that meet the hypotheses of `C162_lpf1` and of `C162_desf`. -/
example : ((⟨0, 0, true⟩ : LPF1 (BitVec 32)).setup (F32.lit 0.9)).2 = true ∧
    ((⟨0, 0, 0, 0, 0, true⟩ : DESF (BitVec 32)).setup (F32.lit 0.3) (F32.lit 0.1) 4).2 = true ∧ F32.Finite (F32.lit 0.9) ∧
    val (F32.lit 0.9) ≤ 1 - 1e-4 ∧ F32.Finite (F32.lit 0.3) ∧ F32.Finite (F32.lit 0.1) ∧ 1e-4 ≤ val (F32.lit 0.3) ∧
    1e-4 ≤ val (F32.lit 0.1) := by decide +kernel

/-- The binary32 outputs for the samples 1, 2, 3. -/
example : outs (fun s => { s with init := true }) DESF.smooth
      ((⟨0, 0, 0, 0, 0, true⟩ : DESF (BitVec 32)).setup (F32.lit 0.3) (F32.lit 0.1) 4).1
      [some (F32.lit 1), some (F32.lit 2), none, some (F32.lit 3)] =
    [1083388723#32, 1083514552#32, 1096600780#32] := by decide +kernel

end Verif.Smoother
