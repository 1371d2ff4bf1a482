import Verif.Smoother.Float

/-!
# The scalar Kalman filter in binary32 (C137)
-/

namespace Verif.Smoother

open Arith F32

theorem one_mul_fin {b : BitVec 32} (hb : F32.Finite b) : F32.mul (F32.lit 1) b = b := by
  have e : F32.neg (F32.lit 1) = false := by decide +kernel
  rw [mul_fin lit01.2.2.1 hb, lit01.2.2.2, one_mul, e, Bool.false_xor, rnd_self hb]

theorem mul_one_fin {b : BitVec 32} (hb : F32.Finite b) : F32.mul b (F32.lit 1) = b := by
  rw [F32.mul_comm, one_mul_fin hb]

/-- The covariances are in a reasonable proportion: `r` between `2^-60` and `2^60`, `q` and `p` at
most `2^20 r`. Not a definition of the repository. -/
def KOK (q r p : BitVec 32) : Prop :=
  F32.Finite q ∧ F32.Finite r ∧ F32.Finite p ∧ 2 ^ (-60 : ℤ) ≤ val r ∧ val r ≤ 2 ^ (60 : ℤ) ∧
    0 ≤ val q ∧ val q ≤ 1048576 * val r ∧ 0 ≤ val p ∧ val p ≤ 1048576 * val r

/-- One covariance and gain update with rounded operations: the gain is at least 0 and below 1, the
covariance stays in proportion. -/
theorem klmn_gain {q r p : BitVec 32} (h : KOK q r p) :
    let p1 := F32.add p q
    let g := F32.div p1 (F32.add r p1)
    let p' := F32.mul (F32.sub (F32.lit 1) g) p1
    F32.Finite p1 ∧ F32.Finite g ∧ 0 ≤ val g ∧ val g < 1 ∧ KOK q r p' := by
  obtain ⟨fq, fr, fp, r0, r1, q0, q1, p0, p1⟩ := h
  intro P1 g p'
  have R0 : (8.6e-19 : ℚ) ≤ val r := le_trans (by norm_num) r0
  have R1 : val r ≤ 1.16e18 := r1.trans (by norm_num)
  -- predicted covariance
  have s0 : 0 ≤ val p + val q := by linarith
  have sB : |val p + val q| ≤ 2097152 * val r := by rw [abs_of_nonneg s0]; linarith
  obtain ⟨fP, eP⟩ := rnd_mag_le (s := (neg p && neg q)) sB (by norm_num at R1 ⊢; linarith)
  have zP := rnd_nonneg (s := (neg p && neg q)) s0
  have dP : P1 = rnd (neg p && neg q) (val p + val q) := add_fin fp fq
  rw [← dP] at fP eP zP
  rw [abs_of_nonneg zP] at eP
  have P1b : val P1 ≤ 2097153 * val r := by norm_num at eP R0 ⊢; linarith
  -- denominator
  have t0 : 0 ≤ val r + val P1 := by linarith
  have tB : |val r + val P1| ≤ 2097154 * val r := by rw [abs_of_nonneg t0]; linarith
  obtain ⟨fD, eD⟩ := rnd_mag (s := (neg r && neg P1)) (tB.trans (by norm_num at R1 ⊢; linarith))
  have dD : F32.add r P1 = rnd (neg r && neg P1) (val r + val P1) := add_fin fr fP
  have hDr : val P1 ≤ val (rnd (neg r && neg P1) (val r + val P1)) := le_rnd fP (by linarith)
  have hDr2 : val r ≤ val (rnd (neg r && neg P1) (val r + val P1)) := le_rnd fr (by linarith)
  rw [← dD] at fD eD hDr hDr2
  rw [abs_of_nonneg t0, abs_le] at eD
  have hD0 : 0 < val (F32.add r P1) := by
    have : (0 : ℚ) < 8.6e-19 := by norm_num
    linarith
  -- gain
  have g0 : 0 ≤ val P1 / val (F32.add r P1) := div_nonneg zP hD0.le
  have top : F32.Finite 0x3F7FFFFF#32 ∧ val 0x3F7FFFFF#32 = 1 - 1 / 16777216 := by decide +kernel
  have g1 : val P1 / val (F32.add r P1) ≤ 1 - 1 / 16777216 := by
    rw [div_le_iff₀ hD0]
    norm_num at eD R0 ⊢
    linarith
  have dg : g = rnd (neg P1 ^^ neg (F32.add r P1)) (val P1 / val (F32.add r P1)) :=
    div_fin fP fD hD0.ne'
  obtain ⟨fg, eg⟩ := rnd_mag (s := (neg P1 ^^ neg (F32.add r P1)))
    (q := val P1 / val (F32.add r P1)) (by
      rw [abs_of_nonneg g0]; exact g1.trans (by norm_num))
  have zg := rnd_nonneg (s := (neg P1 ^^ neg (F32.add r P1))) g0
  have og := rnd_le (s := (neg P1 ^^ neg (F32.add r P1))) (q := val P1 / val (F32.add r P1)) top.1
    (by rw [top.2]; exact g1)
  rw [← dg] at fg eg zg og
  rw [top.2] at og
  have og' : val g < 1 := by linarith
  -- 1 - gain
  have u0 : 0 ≤ 1 - val g := by linarith
  obtain ⟨fu, eu⟩ := rnd_mag_le (s := (neg (F32.lit 1) && !neg g)) (q := 1 - val g)
    (abs_of_nonneg u0).le (by norm_num; linarith)
  have zu := rnd_nonneg (s := (neg (F32.lit 1) && !neg g)) u0
  have du : F32.sub (F32.lit 1) g = rnd (neg (F32.lit 1) && !neg g) (1 - val g) := by
    rw [sub_fin lit01.2.2.1 fg, lit01.2.2.2]
  rw [← du] at fu eu zu
  rw [abs_of_nonneg zu] at eu
  -- new covariance
  have key : (1 - val g) * val P1 ≤ 13 / 10 * val r := by
    rw [abs_of_nonneg g0, abs_le] at eg
    have hq : val P1 / val (F32.add r P1) * val (F32.add r P1) = val P1 := div_mul_cancel₀ _ hD0.ne'
    have hq2 : val P1 / val (F32.add r P1) * val P1 ≥ val P1 - (val (F32.add r P1) - val P1) := by
      have : val P1 / val (F32.add r P1) * (val (F32.add r P1) - val P1) ≤
          1 * (val (F32.add r P1) - val P1) :=
        mul_le_mul_of_nonneg_right (by linarith) (by linarith)
      rw [mul_sub, hq, one_mul] at this
      linarith
    have hg : val g ≥ val P1 / val (F32.add r P1) - 1 / 16777216 - 1e-45 := by
      have := eg.1
      have : val P1 / val (F32.add r P1) / 16777216 ≤ 1 / 16777216 := by linarith
      linarith
    have hm : (1 - val g) * val P1 ≤
        (1 - (val P1 / val (F32.add r P1) - 1 / 16777216 - 1e-45)) * val P1 :=
      mul_le_mul_of_nonneg_right (by linarith) zP
    refine hm.trans ?_
    have e : (1 - (val P1 / val (F32.add r P1) - 1 / 16777216 - 1e-45)) * val P1 =
      val P1 - val P1 / val (F32.add r P1) * val P1 + (1 / 16777216 + 1e-45) * val P1 := by ring
    rw [e]
    generalize val P1 / val (F32.add r P1) * val P1 = Z at *
    norm_num at eD R0 hq2 ⊢
    linarith
  have v0 : 0 ≤ val (F32.sub (F32.lit 1) g) * val P1 := mul_nonneg zu zP
  have vB : |val (F32.sub (F32.lit 1) g) * val P1| ≤ 15 / 10 * val r := by
    rw [abs_of_nonneg v0]
    have : val (F32.sub (F32.lit 1) g) * val P1 ≤
        (1 - val g + (1 - val g) / 16777216 + 1e-45) * val P1 := mul_le_mul_of_nonneg_right eu zP
    refine this.trans ?_
    have e : (1 - val g + (1 - val g) / 16777216 + 1e-45) * val P1 =
      (1 - val g) * val P1 * (1 + 1 / 16777216) + 1e-45 * val P1 := by ring
    rw [e]
    generalize (1 - val g) * val P1 = Z at *
    norm_num at R0 ⊢
    linarith
  obtain ⟨fv, ev⟩ := rnd_mag_le (s := (neg (F32.sub (F32.lit 1) g) ^^ neg P1)) vB
    (by norm_num at R1 ⊢; linarith)
  have zv := rnd_nonneg (s := (neg (F32.sub (F32.lit 1) g) ^^ neg P1)) v0
  have dv : p' = rnd (neg (F32.sub (F32.lit 1) g) ^^ neg P1) (val (F32.sub (F32.lit 1) g) * val P1) :=
    mul_fin fu fP
  rw [← dv] at fv ev zv
  rw [abs_of_nonneg zv] at ev
  refine ⟨fP, fg, zg, og', fq, fr, fv, r0, r1, q0, q1, zv, ?_⟩
  norm_num at ev R0 ⊢
  linarith

/-- One call of a filter set up with unit `A` and `H`, in terms of the rounded operations. -/
theorem klmn_smooth {z q r p x : BitVec 32} (g : BitVec 32) (hz : F32.Finite z) (h : KOK q r p) :
    (⟨z, F32.lit 1, F32.lit 1, q, r, p, g, false⟩ : KLMN (BitVec 32)).smooth x =
      (⟨F32.add z (F32.mul (F32.div (F32.add p q) (F32.add r (F32.add p q))) (F32.sub x z)),
        F32.lit 1, F32.lit 1, q, r,
        F32.mul (F32.sub (F32.lit 1) (F32.div (F32.add p q) (F32.add r (F32.add p q)))) (F32.add p q),
        F32.div (F32.add p q) (F32.add r (F32.add p q)), false⟩,
       F32.add z (F32.mul (F32.div (F32.add p q) (F32.add r (F32.add p q))) (F32.sub x z))) := by
  obtain ⟨b1, b2, _⟩ := klmn_gain h
  have e1 : F32.mul (F32.mul (F32.lit 1) (F32.lit 1)) p = p := by
    rw [one_mul_fin lit01.2.2.1, one_mul_fin h.2.2.1]
  have key : ∀ z1 p1 pH hpH hz1 gh : BitVec 32,
      F32.mul (F32.lit 1) z = z1 → F32.add (F32.mul (F32.mul (F32.lit 1) (F32.lit 1)) p) q = p1 →
      F32.mul p1 (F32.lit 1) = pH → F32.mul (F32.lit 1) pH = hpH → F32.mul (F32.lit 1) z1 = hz1 →
      F32.mul (F32.div pH (F32.add r hpH)) (F32.lit 1) = gh →
      (⟨z, F32.lit 1, F32.lit 1, q, r, p, g, false⟩ : KLMN (BitVec 32)).smooth x =
      (⟨F32.add z1 (F32.mul (F32.div pH (F32.add r hpH)) (F32.sub x hz1)), F32.lit 1, F32.lit 1, q, r,
        F32.mul (F32.sub (F32.lit 1) gh) p1, F32.div pH (F32.add r hpH), false⟩,
       F32.add z1 (F32.mul (F32.div pH (F32.add r hpH)) (F32.sub x hz1))) := by
    rintro _ _ _ _ _ _ rfl rfl rfl rfl rfl rfl
    rfl
  exact key z _ _ _ z _ (one_mul_fin hz) (by rw [e1]) (mul_one_fin b1) (one_mul_fin b1)
    (one_mul_fin hz) (mul_one_fin b2)

/-- **C137.** In binary32, whatever the sequence of calls on a new object, as long as the noise
covariances given to `setup` are in the proportion of `KOK`, every output of `smootherKLMN` is finite and
lies between the least and the greatest sample seen since the last `setup` or `reset`. -/
theorem C137_klmn (xS g : BitVec 32) (es : List (Ev (BitVec 32 × BitVec 32 × BitVec 32) (BitVec 32)))
    (hes : ∀ x, Ev.smooth x ∈ es → F32.Finite x ∧ |val x| ≤ 1.7e38)
    (hps : ∀ p, Ev.setup p ∈ es → KOK p.1 p.2.1 p.2.2) :
    AllOut (fun s p => KLMN.setup s p.1 p.2.1 p.2.2) (fun s => { s with init := true }) KLMN.smooth HullF
      (⟨xS, F32.lit 1, F32.lit 1, F32.lit 100, F32.lit (9 / 10), F32.lit 100, g, true⟩ :
        KLMN (BitVec 32)) [] es := by
  refine allOut_of_inv _ _ _ _ (fun x => F32.Finite x ∧ |val x| ≤ 1.7e38)
    (fun p => KOK p.1 p.2.1 p.2.2)
    (fun (s : KLMN (BitVec 32)) seen => s.A = F32.lit 1 ∧ s.H = F32.lit 1 ∧ KOK s.q s.r s.p ∧
      (∀ x ∈ seen, |val x| ≤ 1.7e38) ∧ (s.init = false → HullF seen s.xS)) ?_ ?_ ?_ es hes hps _ _ ?_
  · intro s seen p hp ⟨h1, h2, h3, h4, h5⟩
    unfold KLMN.setup
    split_ifs with hc
    · exact ⟨rfl, rfl, hp, by simp, by simp⟩
    · simp_all
    · simp_all
    · exact ⟨h1, h2, h3, h4, h5⟩
  · intro s seen ⟨h1, h2, h3, h4, h5⟩
    exact ⟨h1, h2, h3, by simp, by simp⟩
  · intro s seen x ⟨fx, bx⟩ ⟨h1, h2, h3, h4, h5⟩
    have h4' : ∀ z ∈ x :: seen, |val z| ≤ 1.7e38 := by
      intro z hz
      rcases List.mem_cons.1 hz with rfl | hz
      · exact bx
      · exact h4 z hz
    obtain ⟨z, A, H, q, r, p, gn, init⟩ := s
    dsimp only at h1 h2 h3 h5
    subst h1 h2
    obtain ⟨b1, b2, b3, b4, b5⟩ := klmn_gain h3
    cases init with
    | true =>
      rw [show (⟨z, F32.lit 1, F32.lit 1, q, r, p, gn, true⟩ : KLMN (BitVec 32)).smooth x =
        (⟨x, F32.lit 1, F32.lit 1, q, r, p, gn, false⟩ : KLMN (BitVec 32)).smooth x from rfl,
        klmn_smooth gn fx h3]
      obtain ⟨f, e⟩ := step_self b2 fx
      have hh : HullF (x :: seen) (F32.add x (F32.mul (F32.div (F32.add p q) (F32.add r (F32.add p q)))
          (F32.sub x x))) := ⟨f, ⟨x, by simp, e.ge⟩, ⟨x, by simp, e.le⟩⟩
      exact ⟨hh, rfl, rfl, b5, h4', fun _ => hh⟩
    | false =>
      have hz := h5 rfl
      rw [klmn_smooth gn hz.1 h3]
      have hy : |val z| ≤ 1.7e38 := by
        obtain ⟨_, ⟨a, ha, ha'⟩, ⟨b, hb, hb'⟩⟩ := hz
        have := abs_le.1 (h4 a ha)
        have := abs_le.1 (h4 b hb)
        rw [abs_le]
        constructor <;> linarith
      obtain ⟨f, e1, e2⟩ := step_between b2 hz.1 fx b3 b4 (by
        rw [abs_le] at bx hy ⊢
        norm_num at bx hy ⊢
        constructor <;> linarith)
      rw [min_comm] at e1
      rw [max_comm] at e2
      have hh := hullF_between f hz e1 e2
      exact ⟨hh, rfl, rfl, b5, h4', fun _ => hh⟩
  · refine ⟨rfl, rfl, ?_, by simp, by simp⟩
    change KOK (F32.lit 100) (F32.lit (9 / 10)) (F32.lit 100)
    unfold KOK
    decide +kernel

-- C137: the covariances of the documentation's example, and a run with an outlier
example : KOK (F32.lit 100) (F32.lit (9 / 10)) (F32.lit 100) ∧
    KOK (F32.lit (1 / 100)) (F32.lit 1) (F32.lit 1) := by unfold KOK; decide +kernel
example : let s := ((⟨0, F32.lit 1, F32.lit 1, 0, 0, 0, 0, true⟩ : KLMN (BitVec 32)).setup
      (F32.lit (1 / 100)) (F32.lit 1) (F32.lit 1)).1
    let a := s.smooth (F32.lit 1)
    let b := a.1.smooth (F32.lit 1000)
    val a.2 = 1 ∧ 339 < val b.2 ∧ val b.2 < 340 := by decide +kernel

/-- The proportion of the covariances in `C137_klmn` is needed: with `q = 1e20` the gain is rounded to 1 and
the state is moved past the new sample. -/
theorem C137_proportion_needed :
    let s := ((⟨0, F32.lit 1, F32.lit 1, 0, 0, 0, 0, true⟩ : KLMN (BitVec 32)).setup
      (F32.lit 100000000000000000000) (F32.lit 1) (F32.lit 1)).1
    let a := s.smooth (F32.lit (-16777216))
    val (F32.lit (3 / 2)) < val (a.1.smooth (F32.lit (3 / 2))).2 := by decide +kernel

end Verif.Smoother
