import Verif.Smoother.Lemmas
import Verif.Tdl.Lemmas

/-!
# Property C40: configuration of the smoothers, in any arithmetic
-/

namespace Verif.Smoother

open Arith Ltisys

variable {R : Type} [Arith R]

/-- `0 < a < 1`, as the comparisons of the arithmetic decide it (false for NaN). -/
def Unit01 (a : R) : Prop := (lit 0 <. a) = true ∧ (a <. lit 1) = true

/-- **C40** (`smootherLPF1`) -/
theorem C40_lpf1 (s : LPF1 R) (a : R) :
    ((s.setup a).2 = true ↔ Unit01 a) ∧ ((s.setup a).2 = false → (s.setup a).1 = s) ∧
    ((s.setup a).2 = true → (s.setup a).1.alpha = a ∧ (s.setup a).1.init = true) := by
  unfold LPF1.setup Unit01
  cases lit 0 <. a <;> cases a <. lit 1 <;> simp

/-- **C40** (`smootherLPF2`) -/
theorem C40_lpf2 [Trans R] (s : LPF2 R) (a : R) :
    ((s.setup a).2 = true ↔ Unit01 a) ∧ ((s.setup a).2 = false → (s.setup a).1 = s) ∧
    ((s.setup a).2 = true → (s.setup a).1.init = true) := by
  unfold LPF2.setup Unit01
  cases lit 0 <. a <;> cases a <. lit 1 <;> simp

/-- **C40** (`smootherEXPW`) -/
theorem C40_expw (s : EXPW R) (a : R) :
    ((s.setup a).2 = true ↔ Unit01 a) ∧ ((s.setup a).2 = false → (s.setup a).1 = s) ∧
    ((s.setup a).2 = true → (s.setup a).1.lambda = a ∧ (s.setup a).1.init = true) := by
  unfold EXPW.setup Unit01
  cases lit 0 <. a <;> cases a <. lit 1 <;> simp

/-- **C40** (`smootherKLMN`) -/
theorem C40_klmn (s : KLMN R) (q r p : R) :
    ((s.setup q r p).2 = true ↔ (lit 0 <. q) = true ∧ (lit 0 <. r) = true ∧ (lit 0 <. p) = true) ∧
    ((s.setup q r p).2 = false → (s.setup q r p).1 = s) ∧
    ((s.setup q r p).2 = true → (s.setup q r p).1.q = q ∧ (s.setup q r p).1.r = r ∧
      (s.setup q r p).1.p = p ∧ (s.setup q r p).1.init = true) := by
  unfold KLMN.setup
  cases lit 0 <. q <;> cases lit 0 <. r <;> cases lit 0 <. p <;> simp

/-- **C40** (`smootherDESF`) -/
theorem C40_desf (s : DESF R) (a b : R) (n : Nat) :
    ((s.setup a b n).2 = true ↔ Unit01 a ∧ Unit01 b) ∧
    ((s.setup a b n).2 = false → (s.setup a b n).1 = s) ∧
    ((s.setup a b n).2 = true → (s.setup a b n).1.alpha = a ∧ (s.setup a b n).1.beta = b ∧
      (s.setup a b n).1.n = lit n ∧ (s.setup a b n).1.init = true) := by
  unfold DESF.setup Unit01
  cases lit 0 <. a <;> cases a <. lit 1 <;> cases lit 0 <. b <;> cases b <. lit 1 <;> simp

/-- **C40** (`smootherMWM2`) any window that is a null pointer or has the stated number of cells. -/
theorem C40_mwm2 (s : MWM2 R) (window : Option (Array R)) (n : Nat)
    (hw : ∀ a, window = some a → n ≤ a.size) :
    ∃ s' b, s.setup window n = .ok (s', b) ∧ (b = true ↔ window.isSome ∧ 0 < n) ∧
      (b = false → s' = s) ∧ (b = true → s'.tdl.n = n ∧ s'.init = true) := by
  unfold MWM2.setup
  cases window with
  | none => exact ⟨s, false, rfl, by simp, fun _ => rfl, by simp⟩
  | some a =>
    by_cases hn : 0 < n
    · obtain ⟨t, ht, _, hinv⟩ := Tdl.inv_setup s.tdl.undef a n (lit 0) hn (hw a rfl)
      simp only [gt_iff_lt, hn, if_true, ht, Out.bind_ok, Out.pure_eq]
      exact ⟨_, true, rfl, by simp, by simp, fun _ => ⟨hinv.neq, rfl⟩⟩
    · simp only [gt_iff_lt, hn, if_false]
      exact ⟨s, false, rfl, by simp, fun _ => rfl, by simp⟩

/-- **C40** (`smootherMOR1`) -/
theorem C40_mor1 (s : MOR1 R) (window : Option (Array R)) (n : Nat) (a : R) :
    ((s.setup window n a).2 = true ↔ window.isSome ∧ 0 < n ∧ Unit01 a) ∧
    ((s.setup window n a).2 = false → (s.setup window n a).1 = s) ∧
    ((s.setup window n a).2 = true → (s.setup window n a).1.w = window ∧
      (s.setup window n a).1.wsize = n ∧ (s.setup window n a).1.alpha = a ∧
      (s.setup window n a).1.init = true) := by
  unfold MOR1.setup Unit01
  cases lit 0 <. a <;> cases a <. lit 1 <;> cases window <;> by_cases h : 0 < n <;> simp [h]

/-- **C40** (`smootherMOR2`) -/
theorem C40_mor2 (s : MOR2 R) (window : Option (Array R)) (n : Nat) (a : R)
    (hw : ∀ a, window = some a → n ≤ a.size) :
    ∃ s' b, s.setup window n a = .ok (s', b) ∧ (b = true ↔ window.isSome ∧ 0 < n ∧ Unit01 a) ∧
      (b = false → s' = s) ∧ (b = true → s'.tdl.n = n ∧ s'.alpha = a ∧ s'.init = true) := by
  unfold MOR2.setup Unit01
  cases window with
  | none => exact ⟨s, false, rfl, by simp, fun _ => rfl, by simp⟩
  | some v =>
    by_cases hn : 0 < n
    · obtain ⟨t, ht, _, hinv⟩ := Tdl.inv_setup s.tdl.undef v n (lit 0) hn (hw v rfl)
      cases lit 0 <. a <;> cases a <. lit 1
      · exact ⟨s, false, by simp [hn], by simp, fun _ => rfl, by simp⟩
      · exact ⟨s, false, by simp [hn], by simp, fun _ => rfl, by simp⟩
      · exact ⟨s, false, by simp [hn], by simp, fun _ => rfl, by simp⟩
      · simp only [gt_iff_lt, hn, decide_true, Bool.and_self, if_true, ht, Out.bind_ok, Out.pure_eq]
        exact ⟨_, true, rfl, by simp, by simp, fun _ => ⟨hinv.neq, rfl, rfl⟩⟩
    · exact ⟨s, false, by simp [hn], by simp [hn], fun _ => rfl, by simp⟩

/-- **C40** (`smootherALNF`, the overload with momentum) -/
theorem C40_alnf (s : ALNF R) (a m : R) (n : Nat) (window weights w1 : Option (Array R)) :
    ((s.setup a m n window weights w1).2 = true ↔
      window.isSome ∧ 0 < n ∧ Unit01 a ∧ Unit01 m) ∧
    ((s.setup a m n window weights w1).2 = false → (s.setup a m n window weights w1).1 = s) ∧
    ((s.setup a m n window weights w1).2 = true →
      (s.setup a m n window weights w1).1 = ⟨a, m, weights, w1, window, n, true⟩) := by
  unfold ALNF.setup Unit01
  cases lit 0 <. a <;> cases a <. lit 1 <;> cases lit 0 <. m <;> cases m <. lit 1 <;>
    cases window <;> by_cases h : 0 < n <;> simp [h]

/-- **C40 is false of the code for `smootherALNF` without momentum**: that overload rejects every
configuration, in any arithmetic in which `0 < 0` is false (here the rationals). -/
theorem C40_alnf_no_momentum_false :
    (∀ {R : Type} [Arith R], (lit 0 <. (lit 0 : R)) = false →
      ∀ (s : ALNF R) (a : R) (n : Nat) (window weights : Array R),
        s.setupNoMomentum a n window weights = (s, false)) ∧
    ((⟨0, 0, none, none, none, 0, true⟩ : ALNF ℚ).setupNoMomentum (1 / 2) 2 #[0, 0] #[0, 0]).2
      = false := by
  constructor
  · intro R _ h0 s a n window weights
    unfold ALNF.setupNoMomentum ALNF.setup
    rw [h0]; simp
  · decide +kernel

omit [Arith R] in
/-- **C40 is false of the code for `smootherMWM1`**: `setup` tests the previous window size, so a new
object (window size 0) rejects every configuration and stays unusable, however often `setup` is
called. -/
theorem C40_mwm1_false (s : MWM1 R) (h0 : s.wsize = 0) (window : Option (Array R)) (n : Nat) :
    s.setup window n = (s, false) := by
  unfold MWM1.setup
  simp [h0]

omit [Arith R] in
/-- **C40** (`smootherMWM1`; partial: objects whose window size is already positive) a rejected `setup`
changes nothing; an accepted one installs the window. Missing: the size argument is not
checked. -/
theorem C40_mwm1_partial (s : MWM1 R) (h0 : 0 < s.wsize) (window : Option (Array R)) (n : Nat) :
    ((s.setup window n).2 = true ↔ window.isSome) ∧
    ((s.setup window n).2 = false → (s.setup window n).1 = s) ∧
    ((s.setup window n).2 = true → (s.setup window n).1 = ⟨window, n, true⟩) := by
  unfold MWM1.setup
  cases window <;> simp [h0]

variable [Trans R]

/-- **C40 is false of the code for `smootherGMWF`**: instead of rejecting a null kernel it dereferences
it. See also `C40_gmwf_offset_false`. -/
theorem C40_gmwf_false (s : GMWF R) (window : Array R) (sg c : R) (n : Nat) (hn : 0 < n)
    (hc : (c <. lit n) = true) (hs : (lit 0 <. sg) = true) :
    s.setup sg c (some window) none n = .ub := by
  unfold GMWF.setup
  simp [hn, hc, hs, deref]

omit [Arith R] [Trans R] in
theorem wrArr_size {a b : Array R} {i : Nat} {v : R} (h : wrArr a i v = .ok b) : b.size = a.size := by
  unfold wrArr at h
  split_ifs at h with hi
  cases h
  simp

theorem gaussLoop_total (l c r : R) (n i : Nat) (a : Array R) (sum : R) (h : i + n ≤ a.size) :
    ∃ a' s', gaussLoop l c r n i a sum = .ok (a', s') ∧ a'.size = a.size := by
  induction n generalizing i a sum with
  | zero => exact ⟨a, sum, rfl, rfl⟩
  | succ n ih =>
    have hi : i < a.size := by omega
    rw [gaussLoop]
    simp only [wrArr_ok hi, Out.bind_ok]
    generalize (Trans.exp _ : R) = v
    obtain ⟨a', s', h1, h2⟩ := ih (i + 1) (a.set i v) (sum +. v) (by rw [Array.size_set]; omega)
    exact ⟨a', s', h1, by simpa using h2⟩

omit [Trans R] in
theorem normLoop_total (S : R) (n i : Nat) (a : Array R) (h : i + n ≤ a.size) :
    ∃ a', normLoop S n i a = .ok a' ∧ a'.size = a.size := by
  induction n generalizing i a with
  | zero => exact ⟨a, rfl, rfl⟩
  | succ n ih =>
    have hi : i < a.size := by omega
    rw [normLoop]
    simp only [rdArr_ok hi, wrArr_ok hi, Out.bind_ok]
    obtain ⟨a', h1, h2⟩ := ih (i + 1) (a.set i (a[i] /. S)) (by rw [Array.size_set]; omega)
    exact ⟨a', h1, by simpa using h2⟩

/-- **C40** (`smootherGMWF`; partial: given a kernel array of the stated size) `setup` accepts exactly
the configurations with a window, a positive size, an offset below the size and a positive deviation;
a rejected one changes nothing. Missing: the documented range of the offset, the check of the kernel
pointer. -/
theorem C40_gmwf_partial (s : GMWF R) (window : Option (Array R)) (kernel : Array R) (sg c : R)
    (n : Nat) (hk : n ≤ kernel.size) :
    ∃ s' b, s.setup sg c window (some kernel) n = .ok (s', b) ∧
      (b = true ↔ window.isSome ∧ 0 < n ∧ (c <. lit n) = true ∧ (lit 0 <. sg) = true) ∧
      (b = false → s' = s) ∧
      (b = true → s'.w = window ∧ s'.wsize = n ∧ s'.init = true ∧
        ∃ k, s'.k = some k ∧ k.size = kernel.size) := by
  by_cases hc : (window.isSome && decide (n > 0) && (c <. lit n) && (lit 0 <. sg)) = true
  · obtain ⟨k1, sm, h1, h2⟩ := gaussLoop_total (lit ((n - 1 : Nat) : ℚ)) (c -. lit ((n - 1 : Nat) : ℚ))
      (lit 2 *. sg *. sg) n 0 kernel (lit 0) (by omega)
    obtain ⟨k2, h3, h4⟩ := normLoop_total sm n 0 k1 (by omega)
    refine ⟨{ s with w := window, k := some k2, wsize := n, init := true }, true, ?_, ?_, by simp,
      fun _ => ⟨rfl, rfl, rfl, k2, rfl, by omega⟩⟩
    · unfold GMWF.setup
      simp only [hc, if_true, deref, Out.bind_ok, h1, h3, Out.pure_eq]
    · simp only [Bool.and_eq_true, decide_eq_true_eq] at hc
      simp [hc]
  · refine ⟨s, false, ?_, ?_, fun _ => rfl, by simp⟩
    · unfold GMWF.setup
      rw [if_neg hc]; rfl
    · simp only [Bool.and_eq_true, decide_eq_true_eq] at hc
      constructor
      · intro h; cases h
      · intro ⟨h1, h2, h3, h4⟩; exact absurd ⟨⟨⟨h1, h2⟩, h3⟩, h4⟩ hc

/-- **C40 is false of the code for `smootherGMWF`**: offsets outside the documented range
`0 < c < wk_size - 1` are accepted (witness: `c = -5` with 3 cells). -/
theorem C40_gmwf_offset_false [Trans ℚ] (s : GMWF ℚ) :
    ∃ s', s.setup 1 (-5) (some #[0, 0, 0]) (some #[0, 0, 0]) 3 = .ok (s', true) := by
  obtain ⟨s', b, h1, h2, _⟩ := C40_gmwf_partial s (some #[0, 0, 0]) #[0, 0, 0] 1 (-5) 3 (by decide)
  have : b = true := h2.mpr ⟨rfl, by decide, by decide +kernel, by decide +kernel⟩
  rw [this] at h1
  exact ⟨s', h1⟩

-- C40: accepted and rejected configurations over the rationals
example : ((⟨9 / 10, 0, true⟩ : LPF1 ℚ).setup (1 / 2)).2 = true ∧
    ((⟨9 / 10, 0, true⟩ : LPF1 ℚ).setup 1).2 = false := by decide +kernel
example : (⟨⟨#[], 0, 0, 0, 0⟩, 0, true⟩ : MWM2 ℚ).setup (some #[0, 0]) 0
    = .ok (⟨⟨#[], 0, 0, 0, 0⟩, 0, true⟩, false) := by decide +kernel
example : ((⟨none, 0, 8 / 10, 0, true⟩ : MOR1 ℚ).setup (some #[0]) 1 (1 / 2)).2 = true := by
  decide +kernel
example : ((⟨0, 1, 1, 100, 1, 100, 0, true⟩ : KLMN ℚ).setup 1 0 3).2 = false := by decide +kernel

end Verif.Smoother
