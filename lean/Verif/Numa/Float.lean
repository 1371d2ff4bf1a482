import Verif.Numa.Converge
import Verif.Smoother.FloatTrack

/-!
# The integrators and derivatives in binary32 (C166)
-/

namespace Verif.Numa

open Arith F32

/-- The increment of the integral in one step in binary32. Not a definition of the repository. -/
def incF (m : IMethod) (s x1 x2 dt : BitVec 32) : BitVec 32 :=
  match m with
  | .rectangular => F32.mul s dt
  | .trapezoidal => F32.mul (F32.mul (F32.lit (1 / 2)) (F32.add s x1)) dt
  | .simpson => F32.mul (F32.mul (F32.div (F32.lit 1) (F32.lit 6)) (F32.add (F32.add s (F32.mul (F32.lit 4) x1)) x2)) dt
  | .quadratic => F32.mul (F32.mul (F32.div (F32.lit 1) (F32.lit 12))
      (F32.sub (F32.add (F32.mul (F32.lit 5) s) (F32.mul (F32.lit 8) x1)) x2)) dt
  | .other => F32.lit 0

theorem integrate_incF (I0 x1 x2 s dt : BitVec 32) (m : IMethod) (hm : m ≠ .other) (d : DMethod) :
    ((⟨I0, x1, x2, m, d⟩ : NState (BitVec 32)).integrate s dt).1 = ⟨F32.add I0 (incF m s x1 x2 dt), s, x1, m, d⟩ := by
  cases m <;> first | exact absurd rfl hm | rfl

theorem natNear (n : ℕ) (h : n ≤ 16777216) : F32.Near (F32.lit n) n 0 := by
  obtain ⟨h1, h2⟩ := Smoother.litNat h
  exact ⟨h1, by rw [h2]; simp⟩

theorem sixth_near : F32.Near (F32.div (F32.lit 1) (F32.lit 6)) (1 / 6) 1e-8 := by
  have h : F32.Finite (F32.div (F32.lit 1) (F32.lit 6)) ∧ |val (F32.div (F32.lit 1) (F32.lit 6)) - 1 / 6| ≤ 1e-8 := by decide +kernel
  refine ⟨h.1, ?_⟩
  have : ((|val (F32.div (F32.lit 1) (F32.lit 6)) - 1 / 6| : ℚ) : ℝ) ≤ ((1e-8 : ℚ) : ℝ) := by exact_mod_cast h.2
  push_cast at this; norm_num at this ⊢; exact this

theorem twelfth_near : F32.Near (F32.div (F32.lit 1) (F32.lit 12)) (1 / 12) 5e-9 := by
  have h : F32.Finite (F32.div (F32.lit 1) (F32.lit 12)) ∧ |val (F32.div (F32.lit 1) (F32.lit 12)) - 1 / 12| ≤ 5e-9 := by decide +kernel
  refine ⟨h.1, ?_⟩
  have : ((|val (F32.div (F32.lit 1) (F32.lit 12)) - 1 / 12| : ℚ) : ℝ) ≤ ((5e-9 : ℚ) : ℝ) := by exact_mod_cast h.2
  push_cast at this; norm_num at this ⊢; exact this

/-- The mean of the samples in one step. -/
theorem scaled {t dt : BitVec 32} {q S : ℝ} (ht : F32.Near t q (7.5e-7 * S)) (hq : |q| ≤ 7 / 6 * S) (hS : 1e-30 ≤ S) (hS2 : S ≤ 1e30)
    (fd : F32.Finite dt) (d0 : 1e-6 ≤ (val dt : ℝ)) (d1 : (val dt : ℝ) ≤ 1e6) :
    F32.Near (F32.mul t dt) (q * val dt) (9e-7 * (S * val dt)) ∧ |q * (val dt : ℝ)| ≤ 7 / 6 * (S * val dt) := by
  obtain ⟨D, hD⟩ : ∃ D : ℝ, D = val dt := ⟨_, rfl⟩
  have nd : F32.Near dt D 0 := by rw [hD]; exact F32.Near.self fd
  rw [← hD] at d0 d1 ⊢
  have D0 : 0 ≤ D := by norm_num at d0; linarith
  have S0 : 0 ≤ S := by norm_num at hS; linarith
  have hb : |q * D| ≤ 7 / 6 * (S * D) := by
    rw [abs_mul, abs_of_nonneg D0]
    have := mul_le_mul_of_nonneg_right hq D0
    linarith
  have f1 : 1e-36 ≤ S * D := by
    have := mul_le_mul hS d0 (by norm_num) S0
    norm_num at this ⊢; linarith
  have f2 : S * D ≤ 1e36 := by
    have := mul_le_mul hS2 d1 D0 (by norm_num)
    norm_num at this ⊢; linarith
  refine ⟨?_, hb⟩
  refine F32.Near.mul (7 / 6 * S) D (7.5e-7 * (S * D)) (1.2 * (S * D)) ht nd hq (by rw [abs_of_nonneg D0]) (by linarith) ?_ ?_ ?_
  · generalize |q * D| = r at *
    norm_num at f1 ⊢; linarith
  · norm_num at f2 ⊢; linarith
  · norm_num at f1 ⊢; linarith

/-- One increment. -/
theorem inc_near {s x1 x2 dt : BitVec 32} {S : ℝ} (m : IMethod) (hm : m ≠ .other) (hS : 1e-30 ≤ S) (hS2 : S ≤ 1e30)
    (fs : F32.Finite s) (f1 : F32.Finite x1) (f2 : F32.Finite x2) (bs : |(val s : ℝ)| ≤ S) (b1 : |(val x1 : ℝ)| ≤ S) (b2 : |(val x2 : ℝ)| ≤ S)
    (fd : F32.Finite dt) (d0 : 1e-6 ≤ (val dt : ℝ)) (d1 : (val dt : ℝ) ≤ 1e6) :
    F32.Near (incF m s x1 x2 dt) (inc m (val s) (val x1) (val x2) (val dt)) (9e-7 * (S * val dt)) ∧
      |inc m (val s : ℝ) (val x1) (val x2) (val dt)| ≤ 7 / 6 * (S * val dt) := by
  have S0 : 0 ≤ S := by norm_num at hS; linarith
  have ns := F32.Near.self fs
  have n1 := F32.Near.self f1
  have n2 := F32.Near.self f2
  generalize (val s : ℝ) = a at *
  generalize (val x1 : ℝ) = b at *
  generalize (val x2 : ℝ) = c at *
  obtain ⟨bs1, bs2⟩ := abs_le.1 bs
  obtain ⟨b11, b12⟩ := abs_le.1 b1
  obtain ⟨b21, b22⟩ := abs_le.1 b2
  cases m with
  | other => exact absurd rfl hm
  | rectangular => exact scaled (ns.mono (by positivity)) (by linarith) hS hS2 fd d0 d1
  | trapezoidal =>
    have nh : F32.Near (F32.lit (1 / 2)) (1 / 2) 0 := ⟨Fis.half_val.1, by rw [Fis.half_val.2]; norm_num⟩
    have m1 : F32.Near (F32.add s x1) (a + b) (1.3e-7 * S) := by
      refine F32.Near.add (2 * S) ns n1 ?_ (by norm_num at hS2 ⊢; linarith) (by norm_num at hS ⊢; linarith)
      have := abs_add_le a b; linarith
    have m2 : F32.Near (F32.mul (F32.lit (1 / 2)) (F32.add s x1)) (1 / 2 * (a + b)) (7.5e-7 * S) := by
      refine F32.Near.mul (1 / 2) (2 * S) (0.7e-7 * S) (1.1 * S) nh m1 (by norm_num) ((abs_add_le a b).trans (by linarith)) (by norm_num; linarith) ?_
        (by norm_num at hS2 ⊢; linarith) (by norm_num at hS ⊢; linarith)
      have : |1 / 2 * (a + b)| ≤ S := by rw [_root_.abs_le]; constructor <;> linarith
      generalize |1 / 2 * (a + b)| = r at *
      norm_num; linarith
    exact scaled m2 (by rw [_root_.abs_le]; constructor <;> linarith) hS hS2 fd d0 d1
  | simpson =>
    have m1 : F32.Near (F32.mul (F32.lit 4) x1) (4 * b) (2.5e-7 * S) := by
      refine F32.Near.mul 4 S 0 (4 * S) (by exact_mod_cast natNear 4 (by norm_num)) n1 (by norm_num) b1 (by norm_num) ?_
        (by norm_num at hS2 ⊢; linarith) (by norm_num at hS ⊢; linarith)
      rw [abs_mul, abs_of_pos (by norm_num : (0 : ℝ) < 4)]; linarith
    have m2 : F32.Near (F32.add s (F32.mul (F32.lit 4) x1)) (a + 4 * b) (5.6e-7 * S) := by
      refine F32.Near.add (5.001 * S) ns m1 ?_ (by norm_num at hS2 ⊢; linarith) (by norm_num at hS ⊢; linarith)
      have : |a + 4 * b| ≤ 5 * S := by rw [_root_.abs_le]; constructor <;> linarith
      norm_num; linarith
    have m3 : F32.Near (F32.add (F32.add s (F32.mul (F32.lit 4) x1)) x2) (a + 4 * b + c) (9.3e-7 * S) := by
      refine F32.Near.add (6.001 * S) m2 n2 ?_ (by norm_num at hS2 ⊢; linarith) (by norm_num at hS ⊢; linarith)
      have : |a + 4 * b + c| ≤ 6 * S := by rw [_root_.abs_le]; constructor <;> linarith
      norm_num; linarith
    have m4 : F32.Near (F32.mul (F32.div (F32.lit 1) (F32.lit 6)) (F32.add (F32.add s (F32.mul (F32.lit 4) x1)) x2))
        (1 / 6 * (a + 4 * b + c)) (7.5e-7 * S) := by
      refine F32.Near.mul (1 / 6) (6 * S) (2.2e-7 * S) (1.1 * S) sixth_near m3 (by norm_num)
        (by rw [_root_.abs_le]; constructor <;> linarith) (by norm_num; linarith) ?_
        (by norm_num at hS2 ⊢; linarith) (by norm_num at hS ⊢; linarith)
      have : |1 / 6 * (a + 4 * b + c)| ≤ S := by rw [_root_.abs_le]; constructor <;> linarith
      generalize |1 / 6 * (a + 4 * b + c)| = r at *
      norm_num; linarith
    exact scaled m4 (by rw [_root_.abs_le]; constructor <;> linarith) hS hS2 fd d0 d1
  | quadratic =>
    have m1 : F32.Near (F32.mul (F32.lit 5) s) (5 * a) (3e-7 * S) := by
      refine F32.Near.mul 5 S 0 (5 * S) (by exact_mod_cast natNear 5 (by norm_num)) ns (by norm_num) bs (by norm_num) ?_
        (by norm_num at hS2 ⊢; linarith) (by norm_num at hS ⊢; linarith)
      rw [abs_mul, abs_of_pos (by norm_num : (0 : ℝ) < 5)]; linarith
    have m2 : F32.Near (F32.mul (F32.lit 8) x1) (8 * b) (5e-7 * S) := by
      refine F32.Near.mul 8 S 0 (8 * S) (by exact_mod_cast natNear 8 (by norm_num)) n1 (by norm_num) b1 (by norm_num) ?_
        (by norm_num at hS2 ⊢; linarith) (by norm_num at hS ⊢; linarith)
      rw [abs_mul, abs_of_pos (by norm_num : (0 : ℝ) < 8)]; linarith
    have m3 : F32.Near (F32.add (F32.mul (F32.lit 5) s) (F32.mul (F32.lit 8) x1)) (5 * a + 8 * b) (1.6e-6 * S) := by
      refine F32.Near.add (13.001 * S) m1 m2 ?_ (by norm_num at hS2 ⊢; linarith) (by norm_num at hS ⊢; linarith)
      have : |5 * a + 8 * b| ≤ 13 * S := by rw [_root_.abs_le]; constructor <;> linarith
      norm_num; linarith
    have m4 : F32.Near (F32.sub (F32.add (F32.mul (F32.lit 5) s) (F32.mul (F32.lit 8) x1)) x2) (5 * a + 8 * b - c) (2.5e-6 * S) := by
      refine F32.Near.sub (14.001 * S) m3 n2 ?_ (by norm_num at hS2 ⊢; linarith) (by norm_num at hS ⊢; linarith)
      have : |5 * a + 8 * b - c| ≤ 14 * S := by rw [_root_.abs_le]; constructor <;> linarith
      norm_num; linarith
    have m5 : F32.Near (F32.mul (F32.div (F32.lit 1) (F32.lit 12)) (F32.sub (F32.add (F32.mul (F32.lit 5) s) (F32.mul (F32.lit 8) x1)) x2))
        (1 / 12 * (5 * a + 8 * b - c)) (7.5e-7 * S) := by
      refine F32.Near.mul (1 / 12) (14 * S) (3e-7 * S) (1.2 * S) twelfth_near m4 (by norm_num)
        (by rw [_root_.abs_le]; constructor <;> linarith) (by norm_num; linarith) ?_
        (by norm_num at hS2 ⊢; linarith) (by norm_num at hS ⊢; linarith)
      have : |1 / 12 * (5 * a + 8 * b - c)| ≤ 7 / 6 * S := by rw [_root_.abs_le]; constructor <;> linarith
      generalize |1 / 12 * (5 * a + 8 * b - c)| = r at *
      norm_num; linarith
    exact scaled m5 (by rw [_root_.abs_le]; constructor <;> linarith) hS hS2 fd d0 d1

/-- Feed samples to an integrator over any arithmetic. Not a definition of the repository. -/
def feedIn {R : Type} [Arith R] (st : NState R) (dt : R) (l : List R) : NState R := l.foldl (fun st s => (st.integrate s dt).1) st

/-- **C166** (integration). In binary32 the integral differs, after any number `n` of steps up to a million, from the integral the same
rule gives in exact arithmetic by at most `n` half roundings of the greatest possible magnitude `B` of the integral, and `1e-6 B`. -/
theorem C166_integral_partial (m : IMethod) (hm : m ≠ .other) (d : DMethod) (I0 x1 x2 dt : BitVec 32) (l : List (BitVec 32)) (S B : ℝ)
    (hS : 1e-30 ≤ S) (hS2 : S ≤ 1e30) (fI : F32.Finite I0) (f1 : F32.Finite x1) (f2 : F32.Finite x2)
    (b1 : |(val x1 : ℝ)| ≤ S) (b2 : |(val x2 : ℝ)| ≤ S) (fd : F32.Finite dt) (d0 : 1e-6 ≤ (val dt : ℝ)) (d1 : (val dt : ℝ) ≤ 1e6)
    (hl : ∀ s ∈ l, F32.Finite s ∧ |(val s : ℝ)| ≤ S) (hn : l.length ≤ 1000000)
    (hB : |(val I0 : ℝ)| + 1.2 * (l.length * (S * val dt)) ≤ B) (hB1 : 1e-30 ≤ B) (hB2 : B ≤ 1e37) :
    F32.Near (feedIn ⟨I0, x1, x2, m, d⟩ dt l).x0
      (feedIn (⟨val I0, val x1, val x2, m, d⟩ : NState ℝ) (val dt) (l.map fun s => (val s : ℝ))).x0 ((l.length * 7e-8 + 1e-6) * B) := by
  obtain ⟨D, hD⟩ : ∃ D : ℝ, D = val dt := ⟨_, rfl⟩
  have D0 : 0 ≤ D := by rw [hD]; norm_num at d0; linarith
  have S0 : 0 ≤ S := by norm_num at hS; linarith
  have SD0 : 0 ≤ S * D := mul_nonneg S0 D0
  have B0 : 0 ≤ B := by norm_num at hB1; linarith
  -- invariant, from any state of the same kind
  have key : ∀ (l : List (BitVec 32)) (k : ℕ) (I x1 x2 : BitVec 32) (J : ℝ), (∀ s ∈ l, F32.Finite s ∧ |(val s : ℝ)| ≤ S) →
      F32.Finite x1 → F32.Finite x2 → |(val x1 : ℝ)| ≤ S → |(val x2 : ℝ)| ≤ S → k + l.length ≤ 1000000 →
      F32.Near I J (k * (7e-8 * B + 9.1e-7 * (S * D))) → |J| + 7 / 6 * (l.length * (S * D)) ≤ B → (k + l.length : ℕ) * (S * D) ≤ B →
      F32.Near (feedIn ⟨I, x1, x2, m, d⟩ dt l).x0
        (feedIn (⟨J, val x1, val x2, m, d⟩ : NState ℝ) (val dt) (l.map fun s => (val s : ℝ))).x0
        ((k + l.length : ℕ) * (7e-8 * B + 9.1e-7 * (S * D))) := by
    intro l
    induction l with
    | nil => intro k I x1 x2 J _ _ _ _ _ _ h _ _; simpa [feedIn] using h
    | cons s l ih =>
      intro k I x1 x2 J hl f1 f2 b1 b2 hk hI hJ hkB
      have hs := hl s List.mem_cons_self
      obtain ⟨g1, g2⟩ := inc_near m hm hS hS2 hs.1 f1 f2 hs.2 b1 b2 fd d0 d1
      rw [← hD] at g1 g2
      simp only [feedIn, List.foldl_cons, List.map_cons]
      rw [integrate_incF _ _ _ _ _ m hm, integrate_inc]
      simp only [List.length_cons] at hk hJ hkB
      push_cast at hJ
      have q1 : (k : ℝ) * (S * D) ≤ B := by
        refine le_trans (mul_le_mul_of_nonneg_right ?_ SD0) hkB
        push_cast; have : (0 : ℝ) ≤ l.length := by positivity
        linarith
      have q2 : (k : ℝ) ≤ 1e6 := by norm_num; exact_mod_cast (by omega : k ≤ 1000000)
      have q3 : (k : ℝ) * B ≤ 1e6 * B := mul_le_mul_of_nonneg_right q2 B0
      have q4 : 0 ≤ (l.length : ℝ) * (S * D) := by positivity
      have q5 : S * D ≤ B := by
        have h0 := abs_nonneg J
        nlinarith
      have := ih (k + 1) (F32.add I (incF m s x1 x2 dt)) s x1 (J + inc m (val s) (val x1) (val x2) (val dt))
        (fun s hs => hl s (List.mem_cons_of_mem _ hs)) hs.1 f1 hs.2 b1 (by omega) ?_ ?_ (by rwa [show k + 1 + l.length = k + (l.length + 1) by omega])
      · rw [show k + 1 + l.length = k + (s :: l).length by simp only [List.length_cons]; omega] at this
        exact this
      · rw [← hD]
        refine F32.Near.add (1.09 * B) hI g1 ?_ (by norm_num at hB2 ⊢; linarith) ?_
        · have h1 : |J + inc m (val s : ℝ) (val x1) (val x2) D| ≤ B := by
            refine (abs_add_le _ _).trans ?_
            linarith
          have h2 : (k : ℝ) * (7e-8 * B + 9.1e-7 * (S * D)) = 7e-8 * (k * B) + 9.1e-7 * (k * (S * D)) := by ring
          rw [h2]
          generalize |J + inc m (val s : ℝ) (val x1) (val x2) D| = r at *
          norm_num at q3 ⊢; linarith
        · push_cast
          have : ((k : ℝ) + 1) * (7e-8 * B + 9.1e-7 * (S * D)) = k * (7e-8 * B + 9.1e-7 * (S * D)) + (7e-8 * B + 9.1e-7 * (S * D)) := by ring
          rw [this]
          generalize (k : ℝ) * (7e-8 * B + 9.1e-7 * (S * D)) = r
          norm_num at hB1 ⊢; linarith
      · rw [← hD]
        have := abs_add_le J (inc m (val s : ℝ) (val x1) (val x2) D)
        linarith
  have l0 : 0 ≤ (l.length : ℝ) * (S * D) := by positivity
  rw [← hD] at hB
  have h0 := abs_nonneg (val I0 : ℝ)
  have hn1 : (l.length : ℝ) * (S * D) ≤ B := by norm_num at hB; linarith
  refine (key l 0 I0 x1 x2 (val I0) hl f1 f2 b1 b2 (by omega) (by simpa using F32.Near.self fI) (by norm_num at hB; linarith) (by simpa using hn1)).mono ?_
  rw [zero_add]
  norm_num
  nlinarith

/-- **C166 is false of the code without a bound on the number of steps**: a fresh rectangular integrator fed the constant 1 in steps of
1 counts exactly up to 16777216 and stays there, however many samples follow. -/
theorem C166_stall_false (n : ℕ) :
    (val (feedIn (⟨F32.lit 0, F32.lit 0, F32.lit 0, .rectangular, .twoPoints⟩ : NState (BitVec 32)) (F32.lit 1)
        (List.replicate n (F32.lit 1))).x0 : ℝ) = min n 16777216 ∧
    (feedIn (⟨0, 0, 0, .rectangular, .twoPoints⟩ : NState ℝ) 1 (List.replicate n 1)).x0 = n := by
  constructor
  · have key : ∀ (n k : ℕ) (I x1 x2 : BitVec 32), F32.Finite I → val I = min (k : ℚ) 16777216 →
        val (feedIn (⟨I, x1, x2, .rectangular, .twoPoints⟩ : NState (BitVec 32)) (F32.lit 1) (List.replicate n (F32.lit 1))).x0 =
          min ((k + n : ℕ) : ℚ) 16777216 := by
      intro n
      induction n with
      | zero => intro k I x1 x2 _ h; simpa [feedIn] using h
      | succ n ih =>
        intro k I x1 x2 fI hI
        have e1 : F32.mul (F32.lit 1) (F32.lit 1) = F32.lit 1 := by decide +kernel
        have o := Smoother.litNat (n := 1) (by norm_num)
        simp only [Nat.cast_one] at o
        simp only [feedIn, List.replicate_succ, List.foldl_cons]
        rw [integrate_incF _ _ _ _ _ _ (by simp)]
        simp only [incF, e1]
        have := ih (k + 1) (F32.add I (F32.lit 1)) (F32.lit 1) x1 ?_ ?_
        · rw [show k + (n + 1) = k + 1 + n by omega]; exact this
        · rw [F32.add_fin fI o.1, o.2, hI]
          refine F32.rnd_finite ?_
          have a1 : (0 : ℚ) ≤ min (k : ℚ) 16777216 := by positivity
          have a2 : min (k : ℚ) 16777216 ≤ 16777216 := min_le_right _ _
          rw [abs_of_nonneg (by linarith)]
          refine le_trans (by linarith : _ ≤ (16777217 : ℚ)) (by norm_num)
        · rw [F32.add_fin fI o.1, o.2, hI]
          by_cases hk : k < 16777216
          · have k1 : (k : ℚ) ≤ 16777216 := by exact_mod_cast hk.le
            have k2 : ((k + 1 : ℕ) : ℚ) ≤ 16777216 := by exact_mod_cast hk
            rw [min_eq_left k1, min_eq_left k2]
            have := (F32.rnd_int (F32.neg I && F32.neg (F32.lit 1)) (k := ((k + 1 : ℕ) : ℤ)) (by rw [abs_of_nonneg (by omega)]; omega)).2
            push_cast at this ⊢
            exact this
          · have k1 : (16777216 : ℚ) ≤ k := by exact_mod_cast (by omega : 16777216 ≤ k)
            rw [min_eq_right k1, min_eq_right (by push_cast; linarith)]
            have : ∀ b : Bool, val (F32.rnd b (16777216 + 1)) = 16777216 := by decide +kernel
            exact this _
    have := key n 0 (F32.lit 0) (F32.lit 0) (F32.lit 0) (by decide +kernel) (by decide +kernel)
    rw [this, zero_add]; push_cast; rfl
  · have : ∀ c x1 x2 : ℝ, (feedIn (⟨c, x1, x2, .rectangular, .twoPoints⟩ : NState ℝ) 1 (List.replicate n 1)).x0 = c + n := by
      induction n with
      | zero => intro c; simp [feedIn]
      | succ n ih =>
        intro c x1 x2
        simp only [feedIn, List.replicate_succ, List.foldl_cons] at ih ⊢
        rw [integrate_inc]
        simp only [inc, mul_one]
        rw [ih]; push_cast; ring
    rw [this, zero_add]

/-- **C166** (derivatives). In binary32 the three derivative methods give the value of their formula up to `1.3e-6 S / dt`, `S` the
greatest of the three samples. -/
theorem C166_derivative (m : DMethod) (i : IMethod) (upd : Bool) (I0 s x1 x2 dt : BitVec 32) (J S : ℝ) (hS : 1e-30 ≤ S) (hS2 : S ≤ 1e30)
    (fs : F32.Finite s) (f1 : F32.Finite x1) (f2 : F32.Finite x2) (bs : |(val s : ℝ)| ≤ S) (b1 : |(val x1 : ℝ)| ≤ S) (b2 : |(val x2 : ℝ)| ≤ S)
    (fd : F32.Finite dt) (d0 : 1e-6 ≤ (val dt : ℝ)) (d1 : (val dt : ℝ) ≤ 1e6) :
    F32.Near ((⟨I0, x1, x2, i, m⟩ : NState (BitVec 32)).derive s dt upd).2
      ((⟨J, val x1, val x2, i, m⟩ : NState ℝ).derive (val s) (val dt) upd).2 (1.3e-6 * (S / val dt)) := by
  have S0 : 0 ≤ S := by norm_num at hS; linarith
  have ns := F32.Near.self fs
  have n1 := F32.Near.self f1
  have n2 := F32.Near.self f2
  have nd := F32.Near.self fd
  simp only [NState.derive, fLit, fSub, fAdd, fMul, fDiv, Rat.cast_ofNat, Rat.cast_zero]
  generalize (val s : ℝ) = a at *
  generalize (val x1 : ℝ) = b at *
  generalize (val x2 : ℝ) = c at *
  generalize (val dt : ℝ) = D at *
  obtain ⟨bs1, bs2⟩ := abs_le.1 bs
  obtain ⟨b11, b12⟩ := abs_le.1 b1
  obtain ⟨b21, b22⟩ := abs_le.1 b2
  have D0 : 0 < D := by norm_num at d0; linarith
  have q1 : 1e-36 ≤ S / D := by
    rw [le_div_iff₀ D0]
    norm_num at hS d1 ⊢; linarith
  have q2 : S / D ≤ 1e36 := by
    rw [div_le_iff₀ D0]
    norm_num at hS2 d0 ⊢; linarith
  have dd : F32.Near (F32.mul (F32.lit 2) dt) (2 * D) (1.3e-7 * D) := by
    refine F32.Near.mul 2 D 0 (2 * D) (by exact_mod_cast natNear 2 (by norm_num)) nd (by norm_num) (by rw [abs_of_pos D0]) (by norm_num) ?_
      (by norm_num at d1 ⊢; linarith) (by norm_num at d0 ⊢; linarith)
    rw [abs_of_pos (by linarith)]; linarith
  have quot : ∀ {t : BitVec 32} {q : ℝ}, F32.Near t q (1.35e-6 * S) → |q| ≤ 8 * S →
      F32.Near (F32.div t (F32.mul (F32.lit 2) dt)) (q / (2 * D)) (1.3e-6 * (S / D)) := by
    intro t q ht hq
    have hP : |q / (2 * D)| ≤ 4 * (S / D) := by
      rw [abs_div, abs_of_pos (by linarith : 0 < 2 * D), div_le_iff₀ (by linarith)]
      calc |q| ≤ 8 * S := hq
        _ = 4 * (S / D) * (2 * D) := by field_simp; ring
    refine F32.Near.div (4 * (S / D)) (1.99 * D) (9.5e-7 * (S / D)) (4.01 * (S / D)) ht dd (by linarith) (by linarith) ?_ hP ?_ ?_ ?_ ?_
    · rw [abs_of_pos (by linarith)]; norm_num; linarith
    · rw [div_le_iff₀ (by linarith)]
      have e1 : 4 * (S / D) * (1.3e-7 * D) = 5.2e-7 * S := by field_simp; norm_num
      have e2 : 9.5e-7 * (S / D) * (1.99 * D) = 1.8905e-6 * S := by field_simp; norm_num
      rw [e1, e2]; norm_num; linarith
    · norm_num at q1 ⊢; linarith
    · norm_num at q2 ⊢; linarith
    · norm_num at q1 ⊢; linarith
  have lm : ∀ (n : ℕ) (x : BitVec 32) (y : ℝ), F32.Near x y 0 → |y| ≤ S → 0 < n → n ≤ 4 → F32.Near (F32.mul (F32.lit n) x) (n * y) (n * (6.1e-8 * S)) := by
    intro n x y hx hy n0 n4
    have c0 : (1 : ℝ) ≤ n := by exact_mod_cast n0
    have c4 : (n : ℝ) ≤ 4 := by exact_mod_cast n4
    have p1 : S ≤ n * S := by nlinarith
    have p2 : n * S ≤ 4 * S := by nlinarith
    refine F32.Near.mul n S 0 (n * S) (natNear n (by omega)) hx (by rw [abs_of_nonneg (by linarith)]) hy (by norm_num) ?_
      (by norm_num at hS2 ⊢; linarith) ?_
    · rw [abs_mul, abs_of_nonneg (by linarith : (0 : ℝ) ≤ n)]
      have := mul_le_mul_of_nonneg_left hy (by linarith : (0 : ℝ) ≤ n)
      linarith
    · have : (n : ℝ) * (6.1e-8 * S) = 6.1e-8 * (n * S) := by ring
      rw [this]; norm_num at hS ⊢; linarith
  cases m with
  | twoPoints =>
    have m1 : F32.Near (F32.sub s x1) (a - b) (1.3e-7 * S) := by
      refine F32.Near.sub (2 * S) ns n1 ?_ (by norm_num at hS2 ⊢; linarith) (by norm_num at hS ⊢; linarith)
      have : |a - b| ≤ 2 * S := by rw [_root_.abs_le]; constructor <;> linarith
      linarith
    have hP : |(a - b) / D| ≤ 2 * (S / D) := by
      rw [abs_div, abs_of_pos D0, div_le_iff₀ D0]
      calc |a - b| ≤ 2 * S := by rw [_root_.abs_le]; constructor <;> linarith
        _ = 2 * (S / D) * D := by field_simp
    refine F32.Near.div (2 * (S / D)) D (1.3e-7 * (S / D)) (2.01 * (S / D)) m1 nd D0.ne' D0 (by rw [abs_of_pos D0]; linarith) hP ?_ ?_ ?_ ?_
    · rw [div_le_iff₀ D0, mul_zero, add_zero]
      have : 1.3e-7 * (S / D) * D = 1.3e-7 * S := by field_simp
      rw [this]
    · norm_num at q1 ⊢; linarith
    · norm_num at q2 ⊢; linarith
    · norm_num at q1 ⊢; linarith
  | backward =>
    refine quot ?_ (by rw [_root_.abs_le]; constructor <;> linarith)
    have m1 := lm 3 s a ns bs (by norm_num) (by norm_num)
    have m2 := lm 4 x1 b n1 b1 (by norm_num) (by norm_num)
    norm_num at m1 m2
    have m3 : F32.Near (F32.sub (F32.mul (F32.lit 3) s) (F32.mul (F32.lit 4) x1)) (3 * a - 4 * b) (8.5e-7 * S) := by
      refine F32.Near.sub (7.001 * S) m1 m2 ?_ (by norm_num at hS2 ⊢; linarith) (by norm_num at hS ⊢; linarith)
      have : |3 * a - 4 * b| ≤ 7 * S := by rw [_root_.abs_le]; constructor <;> linarith
      norm_num; linarith
    refine F32.Near.add (8.001 * S) m3 n2 ?_ (by norm_num at hS2 ⊢; linarith) (by norm_num at hS ⊢; linarith)
    have : |3 * a - 4 * b + c| ≤ 8 * S := by rw [_root_.abs_le]; constructor <;> linarith
    norm_num; linarith
  | forward =>
    refine quot ?_ (by rw [_root_.abs_le]; constructor <;> linarith)
    have m1 := lm 4 x1 b n1 b1 (by norm_num) (by norm_num)
    have m2 := lm 3 x2 c n2 b2 (by norm_num) (by norm_num)
    norm_num at m1 m2
    have m3 : F32.Near (F32.sub (F32.mul (F32.lit 4) x1) (F32.mul (F32.lit 3) x2)) (4 * b - 3 * c) (8.5e-7 * S) := by
      refine F32.Near.sub (7.001 * S) m1 m2 ?_ (by norm_num at hS2 ⊢; linarith) (by norm_num at hS ⊢; linarith)
      have : |4 * b - 3 * c| ≤ 7 * S := by rw [_root_.abs_le]; constructor <;> linarith
      norm_num; linarith
    refine F32.Near.sub (8.001 * S) m3 ns ?_ (by norm_num at hS2 ⊢; linarith) (by norm_num at hS ⊢; linarith)
    have : |4 * b - 3 * c - a| ≤ 8 * S := by rw [_root_.abs_le]; constructor <;> linarith
    norm_num; linarith
  | other => exact (⟨Fis.zero_val.1, by rw [show Arith.lit (R := BitVec 32) 0 = F32.lit 0 from rfl, Fis.zero_val.2]; simp; positivity⟩)

-- a fresh integrator fed a thousand ones in steps of a millisecond
example : F32.Near (feedIn (⟨F32.lit 0, F32.lit 0, F32.lit 0, .trapezoidal, .twoPoints⟩ : NState (BitVec 32)) (F32.lit (1 / 1024))
      (List.replicate 1000 (F32.lit 1))).x0
    (feedIn (⟨val (F32.lit 0), val (F32.lit 0), val (F32.lit 0), .trapezoidal, .twoPoints⟩ : NState ℝ) (val (F32.lit (1 / 1024)))
      ((List.replicate 1000 (F32.lit 1)).map fun s => (val s : ℝ))).x0 (7.2e-5 * 2) := by
  have hz : val (F32.lit 0) = 0 := by decide +kernel
  have ho : val (F32.lit 1) = 1 := by decide +kernel
  have hd : F32.Finite (F32.lit (1 / 1024)) ∧ val (F32.lit (1 / 1024)) = 1 / 1024 := by decide +kernel
  have fz : F32.Finite (F32.lit 0) := by decide +kernel
  have fo : F32.Finite (F32.lit 1) := by decide +kernel
  refine (C166_integral_partial .trapezoidal (by simp) .twoPoints (F32.lit 0) (F32.lit 0) (F32.lit 0) (F32.lit (1 / 1024))
    (List.replicate 1000 (F32.lit 1)) 1 2 (by norm_num) (by norm_num) fz fz fz (by rw [hz]; norm_num) (by rw [hz]; norm_num)
    hd.1 (by rw [hd.2]; norm_num) (by rw [hd.2]; norm_num) ?_ (by rw [List.length_replicate]; norm_num) ?_ (by norm_num) (by norm_num)).mono ?_
  · intro s hs
    rw [List.eq_of_mem_replicate hs]
    exact ⟨fo, by rw [ho]; norm_num⟩
  · rw [hz, hd.2, List.length_replicate]; norm_num
  · rw [List.length_replicate]; norm_num

-- the slope of 1, 2, 4 in steps of 1/1024
example : F32.Near ((⟨F32.lit 0, F32.lit 2, F32.lit 1, .trapezoidal, .backward⟩ : NState (BitVec 32)).derive (F32.lit 4) (F32.lit (1 / 1024)) true).2
    ((⟨0, val (F32.lit 2), val (F32.lit 1), .trapezoidal, .backward⟩ : NState ℝ).derive (val (F32.lit 4)) (val (F32.lit (1 / 1024))) true).2
    (1.3e-6 * (4 / val (F32.lit (1 / 1024)))) := by
  have h1 : F32.Finite (F32.lit 1) ∧ val (F32.lit 1) = 1 := by decide +kernel
  have h2 : F32.Finite (F32.lit 2) ∧ val (F32.lit 2) = 2 := by decide +kernel
  have h4 : F32.Finite (F32.lit 4) ∧ val (F32.lit 4) = 4 := by decide +kernel
  have hd : F32.Finite (F32.lit (1 / 1024)) ∧ val (F32.lit (1 / 1024)) = 1 / 1024 := by decide +kernel
  exact C166_derivative .backward .trapezoidal true _ _ _ _ _ 0 4 (by norm_num) (by norm_num) h4.1 h2.1 h1.1
    (by rw [h4.2]; norm_num) (by rw [h2.2]; norm_num) (by rw [h1.2]; norm_num) hd.1 (by rw [hd.2]; norm_num) (by rw [hd.2]; norm_num)

end Verif.Numa
