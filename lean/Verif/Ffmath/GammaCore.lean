import Verif.Ffmath.GammaReal
import Verif.F32.PolyInt
import Verif.Ffmath.Gamma

/-!
# Accuracy of `tgamma` for positive arguments below 12 (C151)

The rational function of `/repo/src/ffmath.cpp` lines 1007-1024, with the coefficients rounded to binary32, is compared with the gamma
function on `[1, 2]` (`GammaReal.lean`); the rounding errors of its evaluation are bounded; the products of the functional equation
carry the bound to the whole range.
-/

namespace Verif.Ffmath

open Verif.F32

/-! ## Rational functions and `log Γ` -/

/-- `e` times the common denominator plus `g` times the difference of a rational function and `lgs2`, times the denominators. Not a
definition of the repository. -/
def diffPoly (s e g : ℚ) (NA DA : List ℚ) : List ℚ :=
  padd (psmul e (pmul DA (pshift s lgsD))) (psmul g (padd (pmul NA (pshift s lgsD)) (psmul (-1) (pmul (pshift s lgsN) DA))))

theorem second_close {NA DA : List ℚ} {s e : ℚ} {K M : ℕ} {a b : ℤ} (hK : 0 < K) (hM : 0 < M) (hab : a < b)
    (h1 : pposi (diffPoly s e 1 NA DA) K M a b = true) (h2 : pposi (diffPoly s e (-1) NA DA) K M a b = true)
    {z : ℝ} (hz1 : (a : ℝ) / M ≤ z) (hz2 : z ≤ (b : ℝ) / M) (hs : 0 < z + s) (hD : 0 < peval DA z) :
    |peval NA z / peval DA z - lgs2 (z + s)| ≤ e := by
  obtain ⟨d0, hl⟩ := lgs2_eq hs
  have p1 := pposi_sound h1 hK hM hab z hz1 hz2
  have p2 := pposi_sound h2 hK hM hab z hz1 hz2
  simp only [diffPoly, peval_padd, peval_psmul, peval_pmul, peval_pshift] at p1 p2
  push_cast at p1 p2
  rw [hl]
  generalize peval lgsD (z + s) = DL at *
  generalize peval lgsN (z + s) = NL at *
  generalize peval NA z = N at *
  generalize peval DA z = D at *
  rw [div_sub_div _ _ hD.ne' d0.ne', abs_div, abs_of_pos (mul_pos hD d0), div_le_iff₀ (mul_pos hD d0), abs_le]
  constructor <;> nlinarith

/-- The numerator plus the denominator of the rational function of `tgamma` with the coefficients of `/repo/src/ffmath.cpp` lines
1008-1023 rounded to binary32, times `-2^23`. Not a definition of the repository (checked by `core_exact`). -/
def gU : List ℚ := [965799378944, 572135047168, 263306391552, 74768957440, 18797239296, 3236536320, 540676352, 50957264, 6007796]
/-- The denominator, times `-2^23`. Not a definition of the repository (checked by `core_exact`). -/
def gQ : List ℚ := [965799378944, 1129609560064, -39894929408, -189063446528, 26069878784, 8515748864, -2645352704, 258706608, -8388608]

/-- Numerator of the second derivative of the logarithm of `p / q`. Not a definition of the repository. -/
def ratN (p q : List ℚ) : List ℚ := padd (pmul (padd (pmul (pder (pder p)) p) (psmul (-1) (pmul (pder p) (pder p)))) (pmul q q))
  (psmul (-1) (pmul (padd (pmul (pder (pder q)) q) (psmul (-1) (pmul (pder q) (pder q)))) (pmul p p)))
/-- Denominator of the second derivative of the logarithm of `p / q`. Not a definition of the repository. -/
def ratD (p q : List ℚ) : List ℚ := pmul (pmul p p) (pmul q q)

theorem gamma_check1 : pposi (diffPoly 1 1e-6 1 (ratN gU gQ) (ratD gU gQ)) 1000000 1 0 1 = true := by decide +kernel
theorem gamma_check2 : pposi (diffPoly 1 1e-6 (-1) (ratN gU gQ) (ratD gU gQ)) 1000000 1 0 1 = true := by decide +kernel
theorem gU_check1 : pposc (padd (psmul (112 / 100) gQ) (psmul (-1) gU)) 0 (1 / 16) 8 = true := by decide +kernel
theorem gU_check2 : pposc (padd gU (psmul (-88 / 100) gQ)) 0 (1 / 16) 8 = true := by decide +kernel
theorem gQ_check : pposc (padd [-900000000000] gQ) 0 (1 / 16) 8 = true := by decide +kernel

theorem gU_pos {z : ℝ} (h0 : 0 ≤ z) : 0 < peval gU z := by
  simp only [gU, peval_cons, peval_nil]
  push_cast
  positivity

theorem gQ_pos {z : ℝ} (h0 : 0 ≤ z) (h1 : z ≤ 1) : 900000000000 ≤ peval gQ z := by
  have := pposc_sound gQ_check (by norm_num) z (by exact_mod_cast h0) (by norm_num; exact h1)
  rw [peval_padd, peval_cons, peval_nil] at this
  push_cast at this
  linarith

theorem hasDerivAt_log_peval {p : List ℚ} {z : ℝ} (h : 0 < peval p z) :
    HasDerivAt (fun z => Real.log (peval p z)) (peval (pder p) z / peval p z) z := (hasDerivAt_peval p z).log h.ne'

/-- The rational function is the gamma function on `[1, 2]`, in logarithms. -/
theorem core_log {z : ℝ} (h0 : 0 ≤ z) (h1 : z ≤ 1) :
    |Real.log (peval gU z) - Real.log (peval gQ z) - Real.log (Real.Gamma (z + 1))| ≤ 3e-7 := by
  have dom : ∀ x ∈ Set.Icc (0 : ℝ) 1, 0 < x + 1 ∧ 0 < peval gU x ∧ 0 < peval gQ x := fun x hx =>
    ⟨by linarith [hx.1], gU_pos hx.1, lt_of_lt_of_le (by norm_num) (gQ_pos hx.1 hx.2)⟩
  have hsh : ∀ x : ℝ, HasDerivAt (fun x : ℝ => x + 1) 1 x := fun x => (hasDerivAt_id x).add_const 1
  have d1 : ∀ x ∈ Set.Icc (0 : ℝ) 1, HasDerivAt (fun z => Real.log (peval gU z) - Real.log (peval gQ z) - lgs (z + 1))
      (peval (pder gU) x / peval gU x - peval (pder gQ) x / peval gQ x - lgs1 (x + 1)) x := fun x hx => by
    obtain ⟨a, b, c⟩ := dom x hx
    have := ((hasDerivAt_log_peval b).sub (hasDerivAt_log_peval c)).sub ((hasDerivAt_lgs a).comp x (hsh x))
    rw [mul_one] at this
    exact this
  have d2 : ∀ x ∈ Set.Icc (0 : ℝ) 1, HasDerivAt (fun z => peval (pder gU) z / peval gU z - peval (pder gQ) z / peval gQ z - lgs1 (z + 1))
      (peval (ratN gU gQ) x / peval (ratD gU gQ) x - lgs2 (x + 1)) x := fun x hx => by
    obtain ⟨a, b, c⟩ := dom x hx
    have := (((hasDerivAt_peval (pder gU) x).div (hasDerivAt_peval gU x) b.ne').sub
      ((hasDerivAt_peval (pder gQ) x).div (hasDerivAt_peval gQ x) c.ne')).sub ((hasDerivAt_lgs1 a).comp x (hsh x))
    refine this.congr_deriv ?_
    simp only [ratN, ratD, peval_padd, peval_psmul, peval_pmul]
    generalize peval (pder (pder gU)) x = u2
    generalize peval (pder (pder gQ)) x = q2
    generalize peval (pder gU) x = u1
    generalize peval (pder gQ) x = q1
    generalize peval gU x = u at *
    generalize peval gQ x = q at *
    push_cast
    field_simp
    ring
  have d3 : ∀ x ∈ Set.Icc (0 : ℝ) 1, |peval (ratN gU gQ) x / peval (ratD gU gQ) x - lgs2 (x + 1)| ≤ 1e-6 := fun x hx => by
    obtain ⟨a, b, c⟩ := dom x hx
    have := second_close (by norm_num) (by norm_num) (by norm_num) gamma_check1 gamma_check2 (z := x) (by norm_num; exact hx.1) (by norm_num; exact hx.2)
      (by exact_mod_cast a) (by simp only [ratD, peval_pmul]; positivity)
    norm_num at this ⊢
    exact this
  have small : ∀ x : ℝ, 1 ≤ x → 1 / (1260 * (x + 6) ^ 5) ≤ 5e-8 := fun x hx => by
    rw [div_le_iff₀ (by positivity)]
    have : (7 : ℝ) ^ 5 ≤ (x + 6) ^ 5 := by gcongr; linarith
    norm_num at this ⊢
    linarith
  have b0 := lgs_bounds (x := 1) one_pos
  have b1 := lgs_bounds (x := 2) two_pos
  have bz := lgs_bounds (x := z + 1) (by linarith)
  have s0 := small 1 le_rfl
  have s1 := small 2 (by norm_num)
  have sz := small (z + 1) (by linarith)
  rw [Real.Gamma_one, Real.log_one] at b0
  rw [Real.Gamma_two, Real.log_one] at b1
  -- the end points
  have f0 : |Real.log (peval gU 0) - Real.log (peval gQ 0) - lgs (0 + 1)| ≤ 5e-8 := by
    have e : peval gU 0 = peval gQ 0 := by simp [gU, gQ, peval_cons]
    rw [e, sub_self, zero_sub, abs_neg, zero_add, abs_le]
    constructor <;> linarith
  have f1 : |Real.log (peval gU 1) - Real.log (peval gQ 1) - lgs (1 + 1)| ≤ 7.5e-8 := by
    have hu : peval gU 1 = 1898641192132 := by simp only [gU, peval_cons, peval_nil]; norm_num
    have hq : peval gQ 1 = 1898641156016 := by simp only [gQ, peval_cons, peval_nil]; norm_num
    rw [hu, hq, ← Real.log_div (by norm_num) (by norm_num)]
    have l1 := Real.log_le_sub_one_of_pos (x := (1898641192132 : ℝ) / 1898641156016) (by norm_num)
    have l2 := Real.log_nonneg (x := (1898641192132 : ℝ) / 1898641156016) (by norm_num)
    norm_num at l1 l2 b1 s1 ⊢
    rw [abs_le]
    constructor <;> linarith
  have hF : |Real.log (peval gU z) - Real.log (peval gQ z) - lgs (z + 1)| ≤ 2.1e-7 := by
    rcases eq_or_lt_of_le h0 with rfl | h0
    · exact f0.trans (by norm_num)
    rcases eq_or_lt_of_le h1 with rfl | h1
    · exact f1.trans (by norm_num)
    have h := three_points d1 d2 d3 le_rfl h0 h1 le_rfl
    generalize Real.log (peval gU z) - Real.log (peval gQ z) - lgs (z + 1) = Fz at *
    generalize Real.log (peval gU 0) - Real.log (peval gQ 0) - lgs (0 + 1) = F0 at *
    generalize Real.log (peval gU 1) - Real.log (peval gQ 1) - lgs (1 + 1) = F1 at *
    have hz : (1 - z) * (z - 0) * (1 - 0) ≤ 1 / 4 := by nlinarith [sq_nonneg (z - 1 / 2)]
    rw [abs_le] at h f0 f1 ⊢
    have a1 : (1 - z) * F0 ≤ (1 - z) * 5e-8 := mul_le_mul_of_nonneg_left f0.2 (by linarith)
    have a2 : (1 - z) * (-5e-8) ≤ (1 - z) * F0 := mul_le_mul_of_nonneg_left f0.1 (by linarith)
    have a3 : z * F1 ≤ z * 7.5e-8 := mul_le_mul_of_nonneg_left f1.2 h0.le
    have a4 : z * (-7.5e-8) ≤ z * F1 := mul_le_mul_of_nonneg_left f1.1 h0.le
    norm_num at h a1 a2 a3 a4 hz ⊢
    constructor <;> nlinarith
  rw [abs_le] at hF ⊢
  generalize 1 / (1260 * (z + 1 + 6) ^ 5) = w at *
  norm_num at hF sz ⊢
  constructor <;> linarith

theorem gU_ratio {z : ℝ} (h0 : 0 ≤ z) (h1 : z ≤ 1) : 0.88 ≤ peval gU z / peval gQ z ∧ peval gU z / peval gQ z ≤ 1.12 := by
  have q := gQ_pos h0 h1
  have p1 := pposc_sound gU_check1 (by norm_num) z (by exact_mod_cast h0) (by norm_num; exact h1)
  have p2 := pposc_sound gU_check2 (by norm_num) z (by exact_mod_cast h0) (by norm_num; exact h1)
  simp only [peval_padd, peval_psmul] at p1 p2
  push_cast at p1 p2
  have q0 : 0 < peval gQ z := by linarith
  rw [le_div_iff₀ q0, div_le_iff₀ q0]
  norm_num at p1 p2 ⊢
  constructor <;> linarith

/-- The rational function is the gamma function on `[1, 2]`. -/
theorem core_gamma {z : ℝ} (h0 : 0 ≤ z) (h1 : z ≤ 1) :
    |peval gU z / peval gQ z - Real.Gamma (z + 1)| ≤ 3.1e-7 * Real.Gamma (z + 1) := by
  have h := core_log h0 h1
  have q : 0 < peval gQ z := by linarith [gQ_pos h0 h1]
  have u := gU_pos h0
  have g : 0 < Real.Gamma (z + 1) := Real.Gamma_pos_of_pos (by linarith)
  rw [← Real.log_div u.ne' q.ne', ← Real.log_div (div_pos u q).ne' g.ne'] at h
  have r : 0 < peval gU z / peval gQ z := div_pos u q
  generalize peval gU z / peval gQ z = R at *
  generalize Real.Gamma (z + 1) = G at *
  have e : |R / G - 1| ≤ 3.1e-7 := by
    rw [← Real.exp_log (div_pos r g)]
    generalize Real.log (R / G) = t at h
    have := Real.abs_exp_sub_one_le (x := t) (h.trans (by norm_num))
    have h2 := Real.norm_exp_sub_one_sub_id_le (x := t) (by rw [Real.norm_eq_abs]; exact h.trans (by norm_num))
    rw [Real.norm_eq_abs, Real.norm_eq_abs] at h2
    have h3 := abs_add_le (Real.exp t - 1 - t) t
    rw [sub_add_cancel] at h3
    have h4 : |t| ^ 2 ≤ (3e-7) ^ 2 := by gcongr
    rw [sq_abs] at h2
    norm_num at h h3 h4 ⊢
    linarith
  have : R - G = (R / G - 1) * G := by field_simp
  rw [this, abs_mul, abs_of_pos g]
  gcongr

/-! ## Rounding errors of the Horner schemes -/

/-- Bounds of the value and of the error after a Horner scheme of the form `d * z + c` with `|z| ≤ Z`, started with the bounds `B` and
`E`. Not a definition of the repository. -/
def addErr (Z : ℚ) : List ℚ → ℚ → ℚ → Option (ℚ × ℚ)
  | [], B, E => some (B, E)
  | c :: cs, B, E =>
    let E1 := Z * E + (Z * B + Z * E) / 16777216 + 1e-45
    let B2 := Z * B + |val (lit c)|
    if Finite (lit c) ∧ 0 ≤ E ∧ Z * B + Z * E ≤ 1e38 ∧ B2 + E1 ≤ 1e38 then addErr Z cs B2 (E1 + (B2 + E1) / 16777216 + 1e-45) else none

/-- The same for the form `z * (d + c)`. Not a definition of the repository. -/
def mulErr (Z : ℚ) : List ℚ → ℚ → ℚ → Option (ℚ × ℚ)
  | [], B, E => some (B, E)
  | c :: cs, B, E =>
    let B1 := B + |val (lit c)|
    let E1 := E + (B1 + E) / 16777216 + 1e-45
    if Finite (lit c) ∧ 0 ≤ E ∧ B1 + E ≤ 1e38 ∧ Z * B1 + Z * E1 ≤ 1e38 then
      mulErr Z cs (Z * B1) (Z * E1 + (Z * B1 + Z * E1) / 16777216 + 1e-45) else none

theorem hornerAdd_near {z : BitVec 32} (fz : F32.Finite z) {Z : ℚ} (hz : |val z| ≤ Z) : ∀ (cs : List ℚ) (s : BitVec 32) (q : ℝ) (B E B' E' : ℚ),
    Near s q E → |q| ≤ B → addErr Z cs B E = some (B', E') →
    Near (hornerAdd z cs s) ((cs.map fun c => val (lit c)).foldl (fun (d : ℝ) (c : ℚ) => d * val z + c) q) E' := by
  have hzr : |(val z : ℝ)| ≤ Z := by exact_mod_cast hz
  have hZ : (0 : ℝ) ≤ Z := (abs_nonneg _).trans hzr
  intro cs
  induction cs with
  | nil =>
    intro s q B E B' E' h hq he
    simp only [addErr, Option.some.injEq, Prod.mk.injEq] at he
    rw [← he.2]; exact h
  | cons c cs ih =>
    intro s q B E B' E' h hq he
    rw [addErr] at he
    split_ifs at he with hc
    obtain ⟨c1, c2, c3, c4⟩ := hc
    have hE : (0 : ℝ) ≤ E := by exact_mod_cast c2
    have k3 : ((Z * B + Z * E : ℚ) : ℝ) ≤ ((1e38 : ℚ) : ℝ) := by exact_mod_cast c3
    have k4 : ((Z * B + |val (lit c)| + (Z * E + (Z * B + Z * E) / 16777216 + 1e-45) : ℚ) : ℝ) ≤ ((1e38 : ℚ) : ℝ) := by exact_mod_cast c4
    push_cast at k3 k4
    have hm : |q * val z| ≤ B * Z := by rw [abs_mul]; exact mul_le_mul hq hzr (abs_nonneg _) ((abs_nonneg _).trans hq)
    have n1 : Near (F32.mul s z) (q * val z) (Z * E + (Z * B + Z * E) / 16777216 + 1e-45) :=
      Near.mul B Z (Z * E) (Z * B + Z * E) h (Near.self fz) hq hzr (by ring_nf; rfl) (by linarith) (by norm_num at k3 ⊢; linarith) (by norm_num)
    have n2 : Near (F32.add (F32.mul s z) (lit c)) (q * val z + val (lit c)) ((Z * E + (Z * B + Z * E) / 16777216 + 1e-45) +
        (Z * B + |(val (lit c) : ℝ)| + (Z * E + (Z * B + Z * E) / 16777216 + 1e-45)) / 16777216 + 1e-45) :=
      Near.add (Z * B + |(val (lit c) : ℝ)| + (Z * E + (Z * B + Z * E) / 16777216 + 1e-45)) n1 (Near.self c1)
        (by have := abs_add_le (q * val z) ((val (lit c) : ℚ) : ℝ); linarith) (by norm_num at k4 ⊢; linarith) (by norm_num)
    have := ih _ _ (Z * B + |val (lit c)|) _ B' E' (n2.mono (le_of_eq (by push_cast; norm_num)))
      (by push_cast; have := abs_add_le (q * val z) ((val (lit c) : ℚ) : ℝ); linarith) he
    exact this

theorem hornerMul_near {z : BitVec 32} (fz : F32.Finite z) {Z : ℚ} (hz : |val z| ≤ Z) : ∀ (cs : List ℚ) (s : BitVec 32) (q : ℝ) (B E B' E' : ℚ),
    Near s q E → |q| ≤ B → mulErr Z cs B E = some (B', E') →
    Near (hornerMul z cs s) ((cs.map fun c => val (lit c)).foldl (fun (d : ℝ) (c : ℚ) => val z * (d + c)) q) E' := by
  have hzr : |(val z : ℝ)| ≤ Z := by exact_mod_cast hz
  have hZ : (0 : ℝ) ≤ Z := (abs_nonneg _).trans hzr
  intro cs
  induction cs with
  | nil =>
    intro s q B E B' E' h hq he
    simp only [mulErr, Option.some.injEq, Prod.mk.injEq] at he
    rw [← he.2]; exact h
  | cons c cs ih =>
    intro s q B E B' E' h hq he
    rw [mulErr] at he
    split_ifs at he with hc
    obtain ⟨c1, c2, c3, c4⟩ := hc
    have hE : (0 : ℝ) ≤ E := by exact_mod_cast c2
    have k3 : ((B + |val (lit c)| + E : ℚ) : ℝ) ≤ ((1e38 : ℚ) : ℝ) := by exact_mod_cast c3
    have k4 : ((Z * (B + |val (lit c)|) + Z * (E + (B + |val (lit c)| + E) / 16777216 + 1e-45) : ℚ) : ℝ) ≤ ((1e38 : ℚ) : ℝ) := by exact_mod_cast c4
    push_cast at k3 k4
    have hs : |q + val (lit c)| ≤ B + |(val (lit c) : ℝ)| := by
      have := abs_add_le q ((val (lit c) : ℚ) : ℝ); linarith
    have n1 : Near (F32.add s (lit c)) (q + val (lit c)) (E + (B + |(val (lit c) : ℝ)| + E) / 16777216 + 1e-45) :=
      Near.add (B + |(val (lit c) : ℝ)| + E) h (Near.self c1) (by linarith) (by norm_num at k3 ⊢; linarith) (by norm_num)
    have hm : |(val z : ℝ) * (q + val (lit c))| ≤ Z * (B + |(val (lit c) : ℝ)|) := by
      rw [abs_mul]; exact mul_le_mul hzr hs (abs_nonneg _) hZ
    have n2 : Near (F32.mul z (F32.add s (lit c))) (val z * (q + val (lit c))) (Z * (E + (B + |(val (lit c) : ℝ)| + E) / 16777216 + 1e-45) +
        (Z * (B + |(val (lit c) : ℝ)|) + Z * (E + (B + |(val (lit c) : ℝ)| + E) / 16777216 + 1e-45)) / 16777216 + 1e-45) :=
      Near.mul Z (B + |(val (lit c) : ℝ)|) (Z * (E + (B + |(val (lit c) : ℝ)| + E) / 16777216 + 1e-45)) _ (Near.self fz) n1 hzr hs
        (by ring_nf; rfl) (add_le_add_left hm _) (by norm_num at k4 ⊢; linarith) le_rfl
    have := ih _ _ (Z * (B + |val (lit c)|)) _ B' E' (n2.mono (le_of_eq (by push_cast; norm_num)))
      (by push_cast; exact hm) he
    exact this

theorem gammaP_vals : gammaP.map (fun c => val (lit c)) =
    [-3599101/2097152, 6492167/262144, -6222713/16384, 5155481/8192, 7102187/8192, -4025763/128, -4626485/128, 4253193/64] := by decide +kernel
theorem gammaQ_vals : gammaQ.map (fun c => val (lit c)) =
    [-16169163/524288, 10333409/32768, -8316161/8192, -12729433/4096, 11539517/512, 9739973/2048, -8618237/64, -14736929/128] := by decide +kernel

theorem core_exact (z : ℝ) :
    ((gammaP.map fun c => val (lit c)).foldl (fun (d : ℝ) (c : ℚ) => z * (d + c)) 0 = -(peval gU z - peval gQ z) / 8388608) ∧
    ((gammaQ.map fun c => val (lit c)).foldl (fun (d : ℝ) (c : ℚ) => d * z + c) 1 = -peval gQ z / 8388608) := by
  rw [gammaP_vals, gammaQ_vals]
  simp only [List.foldl_cons, List.foldl_nil, gU, gQ, peval_cons, peval_nil]
  push_cast
  constructor <;> ring

theorem coreErrP : ∃ B E : ℚ, mulErr 1 gammaP 0 0 = some (B, E) ∧ E ≤ 0.03 := by
  refine ⟨((mulErr 1 gammaP 0 0).getD (0, 0)).1, ((mulErr 1 gammaP 0 0).getD (0, 0)).2, ?_, ?_⟩ <;> decide +kernel
theorem coreErrQ : ∃ B E : ℚ, addErr 1 gammaQ 1 0 = some (B, E) ∧ E ≤ 0.046 := by
  refine ⟨((addErr 1 gammaQ 1 0).getD (0, 0)).1, ((addErr 1 gammaQ 1 0).getD (0, 0)).2, ?_, ?_⟩ <;> decide +kernel

/-- The computed rational function. -/
theorem core_near {z : BitVec 32} (fz : F32.Finite z) (h0 : 0 ≤ val z) (h1 : val z ≤ 1) :
    Near (gammaCore z) (peval gU (val z) / peval gQ (val z)) 4.1e-7 := by
  have r0 : (0 : ℝ) ≤ (val z : ℝ) := by exact_mod_cast h0
  have r1 : (val z : ℝ) ≤ 1 := by exact_mod_cast h1
  obtain ⟨B1, E1, e1, b1⟩ := coreErrP
  obtain ⟨B2, E2, e2, b2⟩ := coreErrQ
  have hz : |val z| ≤ 1 := by rw [abs_of_nonneg h0]; exact h1
  have n1 := hornerMul_near fz hz gammaP (lit 0) 0 0 0 B1 E1 (by simpa [c_zero.2] using Near.self c_zero.1) (by simp) e1
  have n2 := hornerAdd_near fz hz gammaQ (lit 1) 1 1 0 B2 E2 (by simpa [c_one.2] using Near.self c_one.1) (by simp) e2
  rw [(core_exact _).1] at n1
  rw [(core_exact _).2] at n2
  have q0 := gQ_pos r0 r1
  obtain ⟨u1, u2⟩ := gU_ratio r0 r1
  have qp : 0 < peval gQ (val z) := by linarith
  have b1' : (E1 : ℝ) ≤ 0.03 := by
    have : ((E1 : ℚ) : ℝ) ≤ ((0.03 : ℚ) : ℝ) := by exact_mod_cast b1
    norm_num at this ⊢; exact this
  have b2' : (E2 : ℝ) ≤ 0.046 := by
    have : ((E2 : ℚ) : ℝ) ≤ ((0.046 : ℚ) : ℝ) := by exact_mod_cast b2
    norm_num at this ⊢; exact this
  have er : -(peval gU (val z) - peval gQ (val z)) / 8388608 / (-peval gQ (val z) / 8388608) = peval gU (val z) / peval gQ (val z) - 1 := by
    field_simp
  have hr : |peval gU (val z) / peval gQ (val z) - 1| ≤ 0.12 := by
    rw [abs_le]; norm_num at u1 u2 ⊢; constructor <;> linarith
  have n3 := Near.div (e' := 3.4e-7) 0.12 107000 3.32e-7 0.121 (n1.mono b1') (n2.mono b2') (by
    intro h; rw [neg_div, neg_eq_zero, div_eq_zero_iff] at h; rcases h with h | h <;> norm_num at h; linarith) (by norm_num)
    (by rw [neg_div, abs_neg, abs_of_pos (by positivity), le_div_iff₀ (by norm_num)]; norm_num; linarith)
    (by rw [er]; exact hr) (by norm_num) (by norm_num) (by norm_num) (by norm_num)
  rw [er] at n3
  have c1 : Near (lit 1) 1 0 := by simpa [c_one.2] using Near.self c_one.1
  have n4 := Near.add (e' := 4.1e-7) 1.13 n3 c1 (by
    rw [sub_add_cancel, abs_of_nonneg (by norm_num at u1 ⊢; linarith)]; norm_num at u2 ⊢; linarith) (by norm_num) (by norm_num)
  rw [sub_add_cancel] at n4
  exact n4

end Verif.Ffmath
