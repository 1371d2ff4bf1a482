import Verif.Fp16.Props
import Verif.Ffmath.TrigReal
import Mathlib.Analysis.Real.Pi.Bounds

/-!
# `fp16::sin` and `fp16::cos` against the real functions (C118, C119)

A raw value `r` stands for the real number `r / 65536`.
-/

namespace Verif.Fp16

/-- Rounded quotient by `2^16` of a nonnegative product (not a definition of the repository). -/
def M (p : Int) : Int := (p + 32768) / 65536

theorem M_nonneg {p : Int} (h : 0 ≤ p) : 0 ≤ M p := by unfold M; omega

theorem M_mono {p q : Int} (h : p ≤ q) : M p ≤ M q := by unfold M; omega

theorem M_rndMul {p : Int} (h : 0 ≤ p) : rndMul p = M p := by unfold M rndMul; rw [if_pos h]

theorem M_real (p : Int) : |(M p : ℝ) - p / 65536| ≤ 1 / 2 := by
  have h1 : M p * 65536 ≤ p + 32768 := by unfold M; omega
  have h2 : p + 32768 < M p * 65536 + 65536 := by unfold M; omega
  have h1' : (M p : ℝ) * 65536 ≤ p + 32768 := by exact_mod_cast h1
  have h2' : (p : ℝ) + 32768 ≤ M p * 65536 + 65536 := by exact_mod_cast h2.le
  rw [abs_le]; constructor <;> linarith

/-- Product of a signed and a nonnegative number. -/
theorem mul_sgn {s p q : Int} (hs : s = 1 ∨ s = -1) (hp : 0 ≤ p ∧ p < 2147483648)
    (hq : 0 ≤ q ∧ q < 2147483648) (hb : M (p * q) < 2147483648) :
    mul (s * p) q = .ok (s * M (p * q)) := by
  have hpq : 0 ≤ p * q := mul_nonneg hp.1 hq.1
  have hM := M_nonneg hpq
  have hn := rndMul_nearest (p * q)
  rw [M_rndMul hpq] at hn
  have hN : Num (M (p * q)) := by unfold Num; omega
  rcases hs with rfl | rfl
  · rw [one_mul, one_mul]
    exact C22_nonneg_partial p q _ (by unfold I32; omega) (by unfold I32; omega) ⟨hp.1, hq.1⟩ hn hN
  · rcases eq_or_lt_of_le hp.1 with h0 | h0
    · subst h0
      have : M (0 * q) = 0 := by rw [zero_mul]; decide
      rw [this] at hn hN ⊢
      simpa using C22_nonneg_partial 0 q 0 (by unfold I32; omega) (by unfold I32; omega)
        ⟨le_rfl, hq.1⟩ hn hN
    · have hn2 : NearestAway (-M (p * q)) (q * -p) 65536 := by
        have e : q * -p = -(p * q) := by ring
        rw [e]
        have h1 : M (p * q) * 65536 ≤ p * q + 32768 := by unfold M; omega
        have h2 : p * q + 32768 < M (p * q) * 65536 + 65536 := by unfold M; omega
        unfold NearestAway
        generalize p * q = P at *
        generalize M P = Q at *
        refine ⟨by omega, by omega, by omega, by omega⟩
      have := ((C22_mixed_partial q (-p) _ (by unfold I32; omega) (by unfold I32; omega)
        ⟨hq.1, by omega⟩ hn2).1 (by unfold Num; omega)).2
      simpa using this

theorem sgn_tdiv {s m d : Int} (hs : s = 1 ∨ s = -1) (hm : 0 ≤ m) :
    (s * m).tdiv d = s * (m / d) := by
  rcases hs with rfl | rfl
  · rw [one_mul, one_mul, Int.tdiv_eq_ediv_of_nonneg hm]
  · rw [neg_one_mul, neg_one_mul, Int.neg_tdiv, Int.tdiv_eq_ediv_of_nonneg hm]

/-- Bound of a rounded product. -/
theorem M_le {p q B C : Int} (hp : 0 ≤ p ∧ p ≤ B) (hq : 0 ≤ q ∧ q ≤ C) :
    0 ≤ M (p * q) ∧ M (p * q) ≤ M (B * C) :=
  ⟨M_nonneg (mul_nonneg hp.1 hq.1),
   M_mono (mul_le_mul hp.2 hq.2 hq.1 (hp.1.trans hp.2))⟩

theorem M_ge {p q B C : Int} (hp : B ≤ p) (hq : C ≤ q) (hB : 0 ≤ B) (hC : 0 ≤ C) :
    M (B * C) ≤ M (p * q) :=
  M_mono (mul_le_mul hp hq hC (hB.trans hp))

/-- The value computed by the series, once the argument has been reduced. -/
theorem sin_val {x s a : Int} (hs : s = 1 ∨ s = -1) (ha : 0 ≤ a ∧ a ≤ 205888)
    (hw : wrapToPi x = .ok (s * a)) {m2 m3 m5 m7 m9 m11 : Int} (e2 : m2 = M (a * a))
    (e3 : m3 = M (a * m2)) (e5 : m5 = M (m3 * m2)) (e7 : m7 = M (m5 * m2))
    (e9 : m9 = M (m7 * m2)) (e11 : m11 = M (m9 * m2)) :
    sin x = .ok (s * (a - m3 / 6 + m5 / 120 - m7 / 5040 + m9 / 362880)
      - if a ≤ 168645 then s * (m11 / 39916800) else -53) := by
  have b2 := M_le ha ha
  rw [← e2, show M (205888 * 205888) = 646818 by decide] at b2
  have b3 := M_le ha b2
  rw [← e3, show M (205888 * 646818) = 2032044 by decide] at b3
  have b5 := M_le b3 b2
  rw [← e5, show M (2032044 * 646818) = 20055582 by decide] at b5
  have b7 := M_le b5 b2
  rw [← e7, show M (20055582 * 646818) = 197941764 by decide] at b7
  have b9 := M_le b7 b2
  rw [← e9, show M (197941764 * 646818) = 1953617796 by decide] at b9
  have f2 : mul (s * a) (s * a) = .ok m2 := by
    have h : s * a * (s * a) = a * a := by rcases hs with rfl | rfl <;> ring
    have hs' : -205888 ≤ s * a ∧ s * a ≤ 205888 := by rcases hs with rfl | rfl <;> omega
    refine C22_small_partial _ _ _ (by omega) (by omega) ?_ (by unfold Num; omega)
    rw [h, e2, ← M_rndMul (mul_nonneg ha.1 ha.1)]
    exact rndMul_nearest _
  have f3 : mul (s * a) m2 = .ok (s * m3) := by
    rw [e3]; exact mul_sgn hs (by omega) (by omega) (by omega)
  have f5 : mul (s * m3) m2 = .ok (s * m5) := by
    rw [e5]; exact mul_sgn hs (by omega) (by omega) (by omega)
  have f7 : mul (s * m5) m2 = .ok (s * m7) := by
    rw [e7]; exact mul_sgn hs (by omega) (by omega) (by omega)
  have f9 : mul (s * m7) m2 = .ok (s * m9) := by
    rw [e9]; exact mul_sgn hs (by omega) (by omega) (by omega)
  have f11 : mul (s * m9) m2 = .ok (if a ≤ 168645 then s * m11 else sentinel) ∧
      (a ≤ 168645 → 0 ≤ m11 ∧ m11 < 2147483648) := by
    by_cases h : a ≤ 168645
    · have ha' : 0 ≤ a ∧ a ≤ 168645 := ⟨ha.1, h⟩
      have c2 := M_le ha' ha'
      rw [← e2, show M (168645 * 168645) = 433977 by decide] at c2
      have c3 := M_le ha' c2
      rw [← e3, show M (168645 * 433977) = 1116761 by decide] at c3
      have c5 := M_le c3 c2
      rw [← e5, show M (1116761 * 433977) = 7395151 by decide] at c5
      have c7 := M_le c5 c2
      rw [← e7, show M (7395151 * 433977) = 48970420 by decide] at c7
      have c9 := M_le c7 c2
      rw [← e9, show M (48970420 * 433977) = 324280334 by decide] at c9
      have c11 := M_le c9 c2
      rw [← e11, show M (324280334 * 433977) = 2147372536 by decide] at c11
      refine ⟨?_, fun _ => by omega⟩
      rw [if_pos h, e11]
      exact mul_sgn hs (by omega) (by omega) (by omega)
    · refine ⟨?_, fun h' => absurd h' h⟩
      rw [if_neg h]
      have ha' : (168646 : Int) ≤ a := by omega
      have c2 := M_ge ha' ha' (by omega) (by omega)
      rw [← e2, show M (168646 * 168646) = 433982 by decide] at c2
      have c3 := M_ge ha' c2 (by omega) (by omega)
      rw [← e3, show M (168646 * 433982) = 1116781 by decide] at c3
      have c5 := M_ge c3 c2 (by omega) (by omega)
      rw [← e5, show M (1116781 * 433982) = 7395368 by decide] at c5
      have c7 := M_ge c5 c2 (by omega) (by omega)
      rw [← e7, show M (7395368 * 433982) = 48972421 by decide] at c7
      have c9 := M_ge c7 c2 (by omega) (by omega)
      rw [← e9, show M (48972421 * 433982) = 324297321 by decide] at c9
      have hP : 140739199962222 ≤ m9 * m2 := by
        have := mul_le_mul c9 c2 (by omega) (by omega)
        norm_num at this ⊢; exact this
      rcases hs with rfl | rfl
      · rw [one_mul, mul_eq m9 m2 (by unfold I32; omega) (by unfold I32; omega), if_neg (by omega)]
        unfold I32
        have h1 : 0 ≤ m9 / 65536 ∧ m9 / 65536 ≤ 29811 := by omega
        have h2 : 0 ≤ m2 / 65536 ∧ m2 / 65536 ≤ 9 := by omega
        have h3 : 0 ≤ m9 % 65536 ∧ m9 % 65536 ≤ 65535 := by omega
        have h4 : 0 ≤ m2 % 65536 ∧ m2 % 65536 ≤ 65535 := by omega
        have g1 := mul_le_mul h1.2 h4.2 h4.1 (by omega)
        have g2 := mul_le_mul h2.2 h3.2 h3.1 (by omega)
        have g3 := mul_nonneg h1.1 h4.1
        have g4 := mul_nonneg h2.1 h3.1
        omega
      · have hn : NearestAway (-M (m9 * m2)) (m2 * -m9) 65536 := by
          have e : m2 * -m9 = -(m9 * m2) := by ring
          rw [e]
          have h1 : M (m9 * m2) * 65536 ≤ m9 * m2 + 32768 := by unfold M; omega
          have h2 : m9 * m2 + 32768 < M (m9 * m2) * 65536 + 65536 := by unfold M; omega
          unfold NearestAway
          generalize m9 * m2 = P at *
          generalize M P = Q at *
          refine ⟨by omega, by omega, by omega, by omega⟩
        have := ((C22_mixed_partial m2 (-m9) _ (by unfold I32; omega) (by unfold I32; omega)
          ⟨by omega, by omega⟩ hn).2 (by
            have e : m2 * -m9 = -(m9 * m2) := by ring
            rw [e]; omega)).2
        simpa using this
  unfold sin
  rw [hw]
  simp only [Out.bind_ok, f2, f3, f5, f7, f9, f11.1, sgn_tdiv hs b3.1, sgn_tdiv hs b5.1,
    sgn_tdiv hs b7.1, sgn_tdiv hs b9.1]
  have q3 : 0 ≤ m3 / 6 ∧ m3 / 6 ≤ 338675 := by omega
  have q5 : 0 ≤ m5 / 120 ∧ m5 / 120 ≤ 167131 := by omega
  have q7 : 0 ≤ m7 / 5040 ∧ m7 / 5040 ≤ 39275 := by omega
  have q9 : 0 ≤ m9 / 362880 ∧ m9 / 362880 ≤ 5384 := by omega
  have q11 : (if a ≤ 168645 then s * m11 else sentinel).tdiv 39916800
      = (if a ≤ 168645 then s * (m11 / 39916800) else -53) := by
    split
    · rename_i h; exact sgn_tdiv hs (f11.2 h).1
    · decide
  have q11' : -53 ≤ (if a ≤ 168645 then s * (m11 / 39916800) else -53) ∧
      (if a ≤ 168645 then s * (m11 / 39916800) else -53) ≤ 53 := by
    split
    · rename_i h
      have := f11.2 h
      rcases hs with rfl | rfl <;> omega
    · omega
  rw [q11]
  generalize (if a ≤ 168645 then s * (m11 / 39916800) else -53) = t at *
  generalize m3 / 6 = d3 at *
  generalize m5 / 120 = d5 at *
  generalize m7 / 5040 = d7 at *
  generalize m9 / 362880 = d9 at *
  rcases hs with rfl | rfl
  · simp only [one_mul]
    rw [chk_ok (by omega), Out.bind_ok, chk_ok (by omega), Out.bind_ok, chk_ok (by omega),
      Out.bind_ok, chk_ok (by omega), Out.bind_ok, chk_ok (by omega)]
  · simp only [neg_one_mul]
    rw [chk_ok (by omega), Out.bind_ok, chk_ok (by omega), Out.bind_ok, chk_ok (by omega),
      Out.bind_ok, chk_ok (by omega), Out.bind_ok, chk_ok (by omega)]
    congr 1; ring

/-- One step of the power recurrence, with rounding errors. -/
theorem pow_step {m m2 : Int} {U V D : ℝ} (hV : 0 ≤ V) (h : |(m : ℝ) - 65536 * V| ≤ D)
    (h2 : |(m2 : ℝ) - 65536 * U ^ 2| ≤ 1 / 2) :
    |(M (m * m2) : ℝ) - 65536 * (V * U ^ 2)| ≤ D * (U ^ 2 + 1 / 131072) + V / 2 + 1 / 2 := by
  have h0 := M_real (m * m2)
  push_cast at h0
  have hD : 0 ≤ D := (abs_nonneg _).trans h
  have e : (M (m * m2) : ℝ) - 65536 * (V * U ^ 2)
      = ((M (m * m2) : ℝ) - m * m2 / 65536) + ((m : ℝ) - 65536 * V) * (m2 / 65536)
        + V * ((m2 : ℝ) - 65536 * U ^ 2) := by ring
  have g : |(m2 : ℝ) / 65536| ≤ U ^ 2 + 1 / 131072 := by
    have := sq_nonneg U
    rw [abs_le] at h2 ⊢
    constructor <;> [linarith [h2.1]; linarith [h2.2]]
  have g1 : |((m : ℝ) - 65536 * V) * (m2 / 65536)| ≤ D * (U ^ 2 + 1 / 131072) := by
    rw [abs_mul]; exact mul_le_mul h g (abs_nonneg _) hD
  have g2 : |V * ((m2 : ℝ) - 65536 * U ^ 2)| ≤ V / 2 := by
    rw [abs_mul, abs_of_nonneg hV]
    have := mul_le_mul_of_nonneg_left h2 hV
    linarith
  rw [e]
  refine (abs_add_three _ _ _).trans ?_
  linarith

theorem ediv_real {m : Int} (d : Int) (hd : 0 < d) :
    (m : ℝ) / d - 1 ≤ ((m / d : Int) : ℝ) ∧ ((m / d : Int) : ℝ) ≤ (m : ℝ) / d := by
  have h1 : m / d * d ≤ m := Int.ediv_mul_le m (by omega)
  have h2 : m < (m / d + 1) * d := Int.lt_ediv_add_one_mul_self m hd
  have hd' : (0 : ℝ) < d := by exact_mod_cast hd
  have h1' : ((m / d : Int) : ℝ) * d ≤ m := by exact_mod_cast h1
  have h2' : (m : ℝ) ≤ (((m / d : Int) : ℝ) + 1) * d := by exact_mod_cast h2.le
  constructor
  · rw [sub_le_iff_le_add, div_le_iff₀ hd']; exact h2'
  · rw [le_div_iff₀ hd']; exact h1'

theorem sin_series {U : ℝ} (h0 : 0 ≤ U) (h1 : U ≤ 3.1417) :
    |Real.sin U - (U - U ^ 3 / 6 + U ^ 5 / 120 - U ^ 7 / 5040 + U ^ 9 / 362880
      - U ^ 11 / 39916800 + U ^ 13 / 6227020800 - U ^ 15 / 1307674368000
      + U ^ 17 / 355687428096000)| ≤ 1e-7 := by
  have h := (Ffmath.trig_taylor (x := U) (n := 19) (by
    rw [abs_of_nonneg h0]; norm_num; linarith)).1
  have e : (∑ m ∈ Finset.range 19, (Ffmath.sinC m : ℝ) * U ^ m) = U - U ^ 3 / 6 + U ^ 5 / 120 - U ^ 7 / 5040 + U ^ 9 / 362880
      - U ^ 11 / 39916800 + U ^ 13 / 6227020800 - U ^ 15 / 1307674368000
      + U ^ 17 / 355687428096000 := by
    simp only [Finset.sum_range_succ, Finset.sum_range_zero, Ffmath.sinC]
    norm_num [Nat.factorial]
    ring
  rw [e, abs_of_nonneg h0] at h
  refine h.trans ?_
  have : U ^ 19 ≤ 3.1417 ^ 19 := pow_le_pow_left₀ h0 h1 19
  norm_num [Nat.factorial] at this ⊢
  linarith

/-- Rounding errors of the series of `fp16::sin`, in units of the last place. -/
theorem sin_err {a m2 m3 m5 m7 m9 m11 : Int} (ha : 0 ≤ a ∧ a ≤ 205888) (e2 : m2 = M (a * a))
    (e3 : m3 = M (a * m2)) (e5 : m5 = M (m3 * m2)) (e7 : m7 = M (m5 * m2))
    (e9 : m9 = M (m7 * m2)) (e11 : m11 = M (m9 * m2)) {U : ℝ} (hU : U = a / 65536) :
    |((a - m3 / 6 + m5 / 120 - m7 / 5040 + m9 / 362880 : Int) : ℝ)
        - 65536 * (U - U ^ 3 / 6 + U ^ 5 / 120 - U ^ 7 / 5040 + U ^ 9 / 362880)| ≤ 2.78 ∧
    |((m11 / 39916800 : Int) : ℝ) - 65536 * (U ^ 11 / 39916800)| ≤ 1.01 := by
  have ha0 : (0 : ℝ) ≤ a := by exact_mod_cast ha.1
  have ha1 : (a : ℝ) ≤ 205888 := by exact_mod_cast ha.2
  have U0 : 0 ≤ U := by rw [hU]; positivity
  have U1 : U ≤ 3.1417 := by rw [hU, div_le_iff₀ (by norm_num)]; norm_num; linarith
  have haU : (a : ℝ) = 65536 * U := by rw [hU]; ring
  have P2 : U ^ 2 + 1 / 131072 ≤ 9.8703 := by nlinarith
  have h2 : |(m2 : ℝ) - 65536 * U ^ 2| ≤ 1 / 2 := by
    have := M_real (a * a)
    rw [← e2] at this
    push_cast at this
    rw [haU] at this
    rwa [show 65536 * U * (65536 * U) / 65536 = 65536 * U ^ 2 by ring] at this
  have p3 := pow_le_pow_left₀ U0 U1 3
  have p5 := pow_le_pow_left₀ U0 U1 5
  have p7 := pow_le_pow_left₀ U0 U1 7
  have p9 := pow_le_pow_left₀ U0 U1 9
  have n3 := pow_nonneg U0 3
  have n5 := pow_nonneg U0 5
  have n7 := pow_nonneg U0 7
  have n9 := pow_nonneg U0 9
  norm_num at p3 p5 p7 p9
  have h3 : |(m3 : ℝ) - 65536 * U ^ 3| ≤ 2.0709 := by
    have := pow_step (m := a) (D := 0) U0 (by rw [haU]; simp) h2
    rw [← e3, show U * U ^ 2 = U ^ 3 by ring] at this
    refine this.trans ?_
    norm_num at U1 ⊢; linarith
  have step : ∀ {m m' : Int} {V D D' : ℝ}, 0 ≤ V → |(m : ℝ) - 65536 * V| ≤ D → m' = M (m * m2) →
      D * 9.8703 + V / 2 + 1 / 2 ≤ D' → |(m' : ℝ) - 65536 * (V * U ^ 2)| ≤ D' := by
    intro m m' V D D' hV h e hD
    have := pow_step hV h h2
    rw [← e] at this
    have hD0 : 0 ≤ D := (abs_nonneg _).trans h
    have := mul_le_mul_of_nonneg_left P2 hD0
    linarith
  have h5 : |(m5 : ℝ) - 65536 * U ^ 5| ≤ 36.46 := by
    have := step n3 h3 e5 (D' := 36.46) (by norm_num; linarith)
    rwa [show U ^ 3 * U ^ 2 = U ^ 5 by ring] at this
  have h7 : |(m7 : ℝ) - 65536 * U ^ 7| ≤ 513.6 := by
    have := step n5 h5 e7 (D' := 513.6) (by norm_num; linarith)
    rwa [show U ^ 5 * U ^ 2 = U ^ 7 by ring] at this
  have h9 : |(m9 : ℝ) - 65536 * U ^ 9| ≤ 6581.5 := by
    have := step n7 h7 e9 (D' := 6581.5) (by norm_num; linarith)
    rwa [show U ^ 7 * U ^ 2 = U ^ 9 by ring] at this
  have h11 : |(m11 : ℝ) - 65536 * U ^ 11| ≤ 79900 := by
    have := step n9 h9 e11 (D' := 79900) (by norm_num; linarith)
    rwa [show U ^ 9 * U ^ 2 = U ^ 11 by ring] at this
  have d3 := ediv_real (m := m3) 6 (by norm_num)
  have d5 := ediv_real (m := m5) 120 (by norm_num)
  have d7 := ediv_real (m := m7) 5040 (by norm_num)
  have d9 := ediv_real (m := m9) 362880 (by norm_num)
  have d11 := ediv_real (m := m11) 39916800 (by norm_num)
  push_cast at d3 d5 d7 d9 d11
  rw [abs_le] at h3 h5 h7 h9 h11
  push_cast
  constructor
  · rw [abs_le]
    norm_num at h3 h5 h7 h9 ⊢
    constructor <;> linarith [h3.1, h3.2, h5.1, h5.2, h7.1, h7.2, h9.1, h9.2, d3.1, d3.2, d5.1, d5.2,
      d7.1, d7.2, d9.1, d9.2]
  · rw [abs_le]
    norm_num at h11 ⊢
    constructor <;> linarith [h11.1, h11.2, d11.1, d11.2]

/-- Accuracy of `fp16::sin` relative to the reduced argument. -/
theorem sin_reduced {x w : Int} (hw : wrapToPi x = .ok w) (hb : -205888 ≤ w ∧ w ≤ 205888) :
    ∃ r : Int, sin x = .ok r ∧ |(r : ℝ) - 65536 * Real.sin (w / 65536)| ≤ 540 ∧
      (-168645 ≤ w → w ≤ 168645 → |(r : ℝ) - 65536 * Real.sin (w / 65536)| ≤ 6.2) := by
  obtain ⟨s, a, hs, ha, rfl⟩ : ∃ s a : Int, (s = 1 ∨ s = -1) ∧ (0 ≤ a ∧ a ≤ 205888) ∧ w = s * a := by
    rcases le_total 0 w with h | h
    · exact ⟨1, w, Or.inl rfl, ⟨h, hb.2⟩, by ring⟩
    · exact ⟨-1, -w, Or.inr rfl, by omega, by ring⟩
  have hv := sin_val hs ha hw rfl rfl rfl rfl rfl rfl
  obtain ⟨g1, g2⟩ := sin_err ha rfl rfl rfl rfl rfl rfl (U := (a : ℝ) / 65536) rfl
  refine ⟨_, hv, ?_⟩
  generalize M (a * a) = m2 at *
  generalize M (a * m2) = m3 at *
  generalize M (m3 * m2) = m5 at *
  generalize M (m5 * m2) = m7 at *
  generalize M (m7 * m2) = m9 at *
  generalize M (m9 * m2) = m11 at *
  generalize a - m3 / 6 + m5 / 120 - m7 / 5040 + m9 / 362880 = v at *
  generalize m11 / 39916800 = t at *
  have ha0 : (0 : ℝ) ≤ a := by exact_mod_cast ha.1
  have ha1 : (a : ℝ) ≤ 205888 := by exact_mod_cast ha.2
  have U0 : 0 ≤ (a : ℝ) / 65536 := by positivity
  have U1 : (a : ℝ) / 65536 ≤ 3.1417 := by rw [div_le_iff₀ (by norm_num)]; norm_num; linarith
  have hS := sin_series U0 U1
  have hn : a ≤ 168645 → (a : ℝ) / 65536 ≤ 2.57332 := by
    intro h
    have : (a : ℝ) ≤ 168645 := by exact_mod_cast h
    rw [div_le_iff₀ (by norm_num)]; norm_num; linarith
  have hsin : Real.sin (((s * a : Int) : ℝ) / 65536) = s * Real.sin (a / 65536) := by
    rcases hs with rfl | rfl
    · simp
    · push_cast
      rw [show (-1 : ℝ) * a / 65536 = -(a / 65536) by ring, Real.sin_neg]; ring
  rw [hsin]
  generalize (a : ℝ) / 65536 = U at *
  have hU2 : U ^ 2 ≤ 9.871 := by nlinarith
  have n11 := pow_nonneg U0 11
  have n13 := pow_nonneg U0 13
  have n15 := pow_nonneg U0 15
  have n17 := pow_nonneg U0 17
  have k13 : U ^ 13 ≤ U ^ 11 * 9.871 := by
    rw [show U ^ 13 = U ^ 11 * U ^ 2 by ring]; exact mul_le_mul_of_nonneg_left hU2 n11
  have k15 : U ^ 15 ≤ U ^ 13 * 9.871 := by
    rw [show U ^ 15 = U ^ 13 * U ^ 2 by ring]; exact mul_le_mul_of_nonneg_left hU2 n13
  have k17 : U ^ 17 ≤ U ^ 15 * 9.871 := by
    rw [show U ^ 17 = U ^ 15 * U ^ 2 by ring]; exact mul_le_mul_of_nonneg_left hU2 n15
  have p11 := pow_le_pow_left₀ U0 U1 11
  have near : a ≤ 168645 → |(v : ℝ) - t - 65536 * Real.sin U| ≤ 6.2 := by
    intro h
    have p13 := pow_le_pow_left₀ U0 (hn h) 13
    rw [abs_le] at g1 g2 hS ⊢
    norm_num at p13 g1 g2 hS k13 k15 k17 ⊢
    constructor <;> linarith [g1.1, g1.2, g2.1, g2.2, hS.1, hS.2]
  have far : -55.9 ≤ (v : ℝ) - 65536 * Real.sin U - 53 ∧ (v : ℝ) - 65536 * Real.sin U ≤ 486.9 := by
    rw [abs_le] at g1 hS
    norm_num at p11 g1 hS k13 k15 k17 ⊢
    constructor <;> linarith [g1.1, g1.2, hS.1, hS.2]
  by_cases h : a ≤ 168645
  · rw [if_pos h]
    have nr := near h
    have : |((s * v - s * t : Int) : ℝ) - 65536 * (s * Real.sin U)| ≤ 6.2 := by
      rcases hs with rfl | rfl
      · push_cast; simpa using nr
      · rw [← abs_neg] at nr
        push_cast
        convert nr using 2; ring
    exact ⟨this.trans (by norm_num), fun _ _ => this⟩
  · rw [if_neg h]
    refine ⟨?_, fun h1 h2 => absurd ?_ h⟩
    · rcases hs with rfl | rfl
      · push_cast
        rw [abs_le]; norm_num at far ⊢
        constructor <;> linarith [far.1, far.2]
      · push_cast
        rw [abs_le]; norm_num at far ⊢
        constructor <;> linarith [far.1, far.2]
    · rcases hs with rfl | rfl <;> omega

/-- Distance of the period used by `wrapToPi` from `2 pi`. -/
theorem period_err : |(411775 : ℝ) / 65536 - 2 * Real.pi| ≤ 2.56e-6 := by
  have h1 := Real.pi_gt_d20
  have h2 := Real.pi_lt_d20
  rw [abs_le]; norm_num at h1 h2 ⊢; constructor <;> linarith

/-- Error caused by the reduction of the argument. -/
theorem wrap_sin (x k : Int) :
    |Real.sin (((x + k * 411775 : Int) : ℝ) / 65536) - Real.sin (x / 65536)| ≤ |(k : ℝ)| * 2.56e-6 := by
  have e : ((x + k * 411775 : Int) : ℝ) / 65536
      = (x / 65536 + k * (411775 / 65536 - 2 * Real.pi)) + k * (2 * Real.pi) := by push_cast; ring
  rw [e, Real.sin_add_int_mul_two_pi]
  refine (Ffmath.abs_sin_sub _ _).trans ?_
  rw [add_sub_cancel_left, abs_mul]
  exact mul_le_mul_of_nonneg_left period_err (abs_nonneg _)

/-- `div` by a positive number, against the real quotient. -/
theorem div_real {x y : Int} (hx : Num x) (hy : 0 < y ∧ y < 2147483648)
    (h : x.natAbs < y.natAbs * 32768) :
    ∃ r : Int, div x y = .ok r ∧ |(r : ℝ) - 65536 * x / y| ≤ 1 / 2 ∧ r.natAbs ≤ 2147483648 := by
  have hn := quot_nearest x y (by omega) _ rfl
  have hd := div_eq x y hx (by unfold Num; omega) (by omega)
  rw [if_pos h.le, if_neg h.ne] at hd
  have hQ : (x.natAbs * 131072 + y.natAbs) / (2 * y.natAbs) ≤ 2147483648 := by
    apply Nat.le_of_lt_succ
    rw [Nat.div_lt_iff_lt_mul (by omega)]; omega
  generalize (x.natAbs * 131072 + y.natAbs) / (2 * y.natAbs) = Q at *
  have hy' : (0 : ℝ) < y := by exact_mod_cast hy.1
  have fin : ∀ r : Int, NearestAway r (divNum x y) y.natAbs → |(r : ℝ) - 65536 * x / y| ≤ 1 / 2 := by
    intro r hr
    unfold NearestAway divNum at hr
    rw [if_neg (by omega)] at hr
    have ey : ((y.natAbs : Nat) : Int) = y := by omega
    rw [ey] at hr
    have h1 : -(y : ℝ) ≤ 2 * (r * y - 65536 * x) := by exact_mod_cast hr.1
    have h2 : 2 * ((r : ℝ) * y - 65536 * x) ≤ y := by exact_mod_cast hr.2.1
    have e : (r : ℝ) - 65536 * x / y = (r * y - 65536 * x) / y := by field_simp
    rw [e, abs_le, le_div_iff₀ hy', div_le_iff₀ hy']
    constructor <;> linarith
  split at hd
  · rename_i hs
    rw [if_pos hs] at hn
    exact ⟨_, hd, fin _ hn, by omega⟩
  · rename_i hs
    rw [if_neg hs] at hn
    exact ⟨_, hd, fin _ hn, by omega⟩

end Verif.Fp16
