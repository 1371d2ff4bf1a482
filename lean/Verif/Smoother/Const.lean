import Verif.Smoother.Props
import Mathlib.Algebra.BigOperators.Field

/-!
# Property C38: constants pass through the smoothers

Also the closed form of the Gaussian window filter (C61).
-/

namespace Verif.Smoother

open Arith Ltisys

variable {K : Type} [Field K] [LinearOrder K] [IsStrictOrderedRing K]

/-- `k` calls `smooth( c )` have no undefined behaviour and return `c`. -/
def ConstRun {S : Type} (smooth : S → K → Out (S × K)) (c : K) : Nat → S → Prop
  | 0, _ => True
  | k + 1, s => ∃ s', smooth s c = .ok (s', c) ∧ ConstRun smooth c k s'

/-- After any sequence of calls (`none`: `reset`, `some x`: `smooth( x )`) followed by a `reset`, `k`
calls `smooth( c )` return `c`. -/
def ConstAfterReset {S : Type} (reset : S → S) (smooth : S → K → Out (S × K)) (c : K) (k : Nat) :
    S → List (Option K) → Prop
  | s, [] => ConstRun smooth c k (reset s)
  | s, none :: es => ConstAfterReset reset smooth c k (reset s) es
  | s, some x :: es => ∃ s' y, smooth s x = .ok (s', y) ∧ ConstAfterReset reset smooth c k s' es

omit [Field K] [LinearOrder K] [IsStrictOrderedRing K] in
theorem constAfterReset_of_inv {S : Type} (reset : S → S) (smooth : S → K → Out (S × K)) (c : K)
    (k : Nat) (I J : S → Prop) (hreset : ∀ s, I s → I (reset s))
    (hsmooth : ∀ s x, I s → ∃ s' y, smooth s x = .ok (s', y) ∧ I s')
    (hJ : ∀ s, I s → J (reset s)) (hconst : ∀ s, J s → ∃ s', smooth s c = .ok (s', c) ∧ J s')
    (es : List (Option K)) (s : S) (hi : I s) : ConstAfterReset reset smooth c k s es := by
  induction es generalizing s with
  | nil =>
    have : ∀ k s, J s → ConstRun smooth c k s := by
      intro k
      induction k with
      | zero => intros; trivial
      | succ k ih =>
        intro s hs
        obtain ⟨s', h1, h2⟩ := hconst s hs
        exact ⟨s', h1, ih s' h2⟩
    exact this k _ (hJ s hi)
  | cons e es ih =>
    cases e with
    | none => exact ih _ (hreset s hi)
    | some x =>
      obtain ⟨s', y, h1, h2⟩ := hsmooth s x hi
      exact ⟨s', y, h1, ih s' h2⟩

omit [Field K] [LinearOrder K] [IsStrictOrderedRing K] in
theorem constAfterReset_of_window {S : Type} (reset : S → S) (smooth : S → K → Out (S × K))
    (F : (Nat → K) → K) (hF : ∀ c, F (fun _ => c) = c) (c : K) (k : Nat) (es : List (Option K))
    (s : S) (h : Option (Nat → K)) (hw : ∀ es, WindowRun reset smooth F s h es) :
    ConstAfterReset reset smooth c k s es := by
  induction es generalizing s h with
  | nil =>
    have : ∀ k s h, (h = none ∨ h = some (fun _ => c)) → (∀ es, WindowRun reset smooth F s h es) →
        ConstRun smooth c k s := by
      intro k
      induction k with
      | zero => intros; trivial
      | succ k ih =>
        intro s h hh hs
        have e : push c (h.getD fun _ => c) = fun _ => c := by
          rcases hh with rfl | rfl <;> exact push_const c
        obtain ⟨s', h1, _⟩ := hs [some c]
        refine ⟨s', by rw [h1, e, hF], ih s' _ (.inr rfl) fun es => ?_⟩
        obtain ⟨s'', h3, h4⟩ := hs (some c :: es)
        rw [h1] at h3
        cases h3
        rw [e] at h4
        exact h4
    exact this k _ none (.inl rfl) fun es => hw (none :: es)
  | cons e es ih =>
    cases e with
    | none => exact ih _ none fun es => hw (none :: es)
    | some x =>
      obtain ⟨s', h1, _⟩ := hw [some x]
      refine ⟨s', _, h1, ih s' (some (push x (h.getD fun _ => x))) fun es => ?_⟩
      obtain ⟨s'', h3, h4⟩ := hw (some x :: es)
      rw [h1] at h3
      cases h3
      exact h4

omit [IsStrictOrderedRing K] in
/-- **C38** (`smootherLPF1`) -/
theorem C38_lpf1 (s : LPF1 K) (c : K) (k : Nat) (es : List (Option K)) :
    ConstAfterReset (fun s => { s with init := true }) (fun s x => .ok (LPF1.smooth s x)) c k s es := by
  refine constAfterReset_of_inv _ _ c k (fun _ => True) (fun s => s.init = false → s.y1 = c)
    (fun _ _ => trivial) (fun s x _ => ⟨_, _, rfl, trivial⟩) (by simp) (fun s hs => ?_) es s trivial
  have : (s.smooth c).2 = c := by
    unfold LPF1.smooth
    cases hi : s.init <;> simp [hi, hs]
  exact ⟨(s.smooth c).1, congrArg Out.ok (Prod.ext rfl this), fun _ => this⟩

/-- **C38** (`smootherLPF2`) after an accepted `setup`; the square root only has to be
nonnegative. -/
theorem C38_lpf2 [Trans K] (hsqrt : ∀ x : K, 0 ≤ x → 0 ≤ Trans.sqrt x) (s0 s : LPF2 K) (a : K)
    (hset : s0.setup a = (s, true)) (c : K) (k : Nat) (es : List (Option K)) :
    ConstAfterReset (fun s => { s with init := true }) (fun s x => .ok (LPF2.smooth s x)) c k s es := by
  have hp : s.k + s.b1 + s.k - s.a1 - s.a2 = 1 := by
    unfold LPF2.setup at hset
    split_ifs at hset with hc
    · simp only [fLit, fLt, Rat.cast_zero, Rat.cast_one, Bool.and_eq_true, decide_eq_true_eq] at hc
      simp only [fLit, fMul, fAdd, fSub, fDiv, Rat.cast_one, Rat.cast_ofNat, Prod.mk.injEq,
        and_true] at hset
      rw [← hset]
      have h1 := hsqrt (2 * a) (by linarith)
      have h2 : 1 + Trans.sqrt (2 * a) + a * a ≠ 0 := by nlinarith
      dsimp only
      generalize Trans.sqrt (2 * a) = p at *
      field_simp
      ring
    · simp at hset
  refine constAfterReset_of_inv (fun s : LPF2 K => { s with init := true }) _ c k (fun s => s.k + s.b1 + s.k - s.a1 - s.a2 = 1)
    (fun s => s.k + s.b1 + s.k - s.a1 - s.a2 = 1 ∧
      (s.init = false → s.y1 = c ∧ s.y2 = c ∧ s.x1 = c ∧ s.x2 = c))
    (fun s h => h) (fun s x h => ⟨(s.smooth x).1, (s.smooth x).2, rfl, ?_⟩)
    (fun s h => ⟨h, by simp⟩) (fun s ⟨h1, h2⟩ => ?_) es s hp
  · unfold LPF2.smooth
    cases s.init <;> exact h
  · have e : s.k * c + s.b1 * c + s.k * c - s.a1 * c - s.a2 * c = c := by
      calc _ = (s.k + s.b1 + s.k - s.a1 - s.a2) * c := by ring
        _ = c := by rw [h1, one_mul]
    refine ⟨(s.smooth c).1, ?_, ?_⟩
    · unfold LPF2.smooth
      cases hi : s.init
      · obtain ⟨a1, a2, a3, a4⟩ := h2 hi
        simp [a1, a2, a3, a4, e]
      · simp [e]
    · unfold LPF2.smooth
      cases hi : s.init
      · obtain ⟨a1, a2, a3, a4⟩ := h2 hi
        simp [a1, a2, a3, a4, e, h1]
      · simp [e, h1]

omit [IsStrictOrderedRing K] in
/-- **C38** (`smootherEXPW`) -/
theorem C38_expw (s : EXPW K) (c : K) (k : Nat) (es : List (Option K)) :
    ConstAfterReset (fun s => { s with init := true }) (fun s x => .ok (EXPW.smooth s x)) c k s es := by
  refine constAfterReset_of_inv _ _ c k (fun _ => True) (fun s => s.init = false → s.m = c)
    (fun _ _ => trivial) (fun s x _ => ⟨_, _, rfl, trivial⟩) (by simp) (fun s hs => ?_) es s trivial
  have : (s.smooth c).2 = c := by
    have e : ∀ t : K, c * (1 - t) + t * c = c := by intro t; ring
    unfold EXPW.smooth
    cases hi : s.init
    · simp only [hs hi, Bool.false_eq_true, if_false, fAdd, fMul, fSub, fLit, Rat.cast_one, e]
    · simp only [if_true, fAdd, fMul, fSub, fLit, Rat.cast_one, e]
  exact ⟨(s.smooth c).1, congrArg Out.ok (Prod.ext rfl this), fun _ => this⟩

omit [IsStrictOrderedRing K] in
/-- **C38** (`smootherKLMN`) after an accepted `setup`. -/
theorem C38_klmn (s0 s : KLMN K) (q r p : K) (hset : s0.setup q r p = (s, true)) (c : K) (k : Nat)
    (es : List (Option K)) :
    ConstAfterReset (fun s => { s with init := true }) (fun s x => .ok (KLMN.smooth s x)) c k s es := by
  have hp : s.A = 1 ∧ s.H = 1 := by
    unfold KLMN.setup at hset
    split_ifs at hset with hc
    · simp only [fLit, Rat.cast_one, Prod.mk.injEq, and_true] at hset
      rw [← hset]; exact ⟨rfl, rfl⟩
    · simp at hset
  refine constAfterReset_of_inv (fun s : KLMN K => { s with init := true }) _ c k (fun s => s.A = 1 ∧ s.H = 1)
    (fun s => (s.A = 1 ∧ s.H = 1) ∧ (s.init = false → s.xS = c))
    (fun s h => h) (fun s x h => ⟨(s.smooth x).1, (s.smooth x).2, rfl, ?_⟩)
    (fun s h => ⟨h, by simp⟩) (fun s ⟨⟨hA, hH⟩, hs⟩ => ?_) es s hp
  · unfold KLMN.smooth
    cases s.init <;> exact h
  · have : (s.smooth c).2 = c := by
      unfold KLMN.smooth
      cases hi : s.init
      · simp [hs hi, hA, hH]
      · simp [hA, hH]
    refine ⟨(s.smooth c).1, congrArg Out.ok (Prod.ext rfl this), ?_, fun _ => this⟩
    unfold KLMN.smooth
    cases s.init <;> exact ⟨hA, hH⟩

/-- **C38** (`smootherMWM2`) after an accepted `setup`. -/
theorem C38_mwm2 (s0 : MWM2 K) (area : Array K) (n : Nat) (hn : 0 < n) (hs : n ≤ area.size) (c : K)
    (k : Nat) (es : List (Option K)) : ∃ s, s0.setup (some area) n = .ok (s, true) ∧
    ConstAfterReset (fun s => { s with init := true }) MWM2.smooth c k s es := by
  obtain ⟨s, h1, h2⟩ := C37_mwm2 s0 area n hn hs
  exact ⟨s, h1, constAfterReset_of_window _ _ (mean n) (mean_const n hn) c k es s none h2⟩

/-- **C38** (`smootherMWM1`) for an object that has a window. -/
theorem C38_mwm1 (area : Array K) (n : Nat) (hn : 0 < n) (hs : n ≤ area.size) (c : K)
    (k : Nat) (es : List (Option K)) :
    ConstAfterReset (fun s => { s with init := true }) MWM1.smooth c k
      (⟨some area, n, true⟩ : MWM1 K) es :=
  constAfterReset_of_window _ _ (mean n) (mean_const n hn) c k es _ none
    (C37_mwm1_partial area n hn hs)

/-- **C38** (`smootherMOR1`) after an accepted `setup`. -/
theorem C38_mor1 (s0 s : MOR1 K) (area : Array K) (n : Nat) (alpha : K) (hs : n ≤ area.size)
    (hset : s0.setup (some area) n alpha = (s, true)) (c : K) (k : Nat) (es : List (Option K)) :
    ConstAfterReset (fun s => { s with init := true }) MOR1.smooth c k s es := by
  have hp : 0 < n ∧ 0 < alpha := by
    unfold MOR1.setup at hset
    split_ifs at hset with hc
    · simp only [Bool.and_eq_true, decide_eq_true_eq, fLt, fLit, Rat.cast_zero] at hc
      exact ⟨hc.1.1.2, hc.1.2⟩
    · simp at hset
  have hrob : robust alpha n (fun _ => c) c = c := by
    unfold robust; rw [mean_const n hp.1]; simp
  have hw := C39_mor1 s0 area n alpha hs s hset
  generalize hh : (none : Option (Nat → K)) = h at hw
  clear hset hh
  induction es generalizing s h with
  | nil =>
    have : ∀ k s h, (h = none ∨ h = some (fun _ => c)) →
        (∀ es, RobustRun (fun s => { s with init := true }) MOR1.smooth alpha n s h es) →
        ConstRun MOR1.smooth c k s := by
      intro k
      induction k with
      | zero => intros; trivial
      | succ k ih =>
        intro s h hh hs
        have e : h.getD (fun _ => c) = fun _ => c := by rcases hh with rfl | rfl <;> rfl
        obtain ⟨s', h1, _⟩ := hs [some c]
        rw [e, hrob] at h1
        refine ⟨s', h1, ih s' _ (.inr rfl) fun es => ?_⟩
        obtain ⟨s'', h3, h4⟩ := hs (some c :: es)
        rw [e, hrob] at h3
        rw [h1] at h3
        cases h3
        rw [e, hrob, push_const] at h4
        exact h4
    exact this k _ none (.inl rfl) fun es => hw (none :: es)
  | cons e es ih =>
    cases e with
    | none => exact ih _ none fun es => hw (none :: es)
    | some x =>
      obtain ⟨s', h1, _⟩ := hw [some x]
      refine ⟨s', _, h1, ih s' (some (push (robust alpha n (h.getD fun _ => x) x)
        (h.getD fun _ => x))) fun es => ?_⟩
      obtain ⟨s'', h3, h4⟩ := hw (some x :: es)
      rw [h1] at h3
      cases h3
      exact h4

omit [IsStrictOrderedRing K] in
/-- **C38** (`smootherMOR2`) after an accepted `setup`. -/
theorem C38_mor2 (s0 : MOR2 K) (area : Array K) (n : Nat) (alpha : K) (hn : 0 < n)
    (hs : n ≤ area.size) (ha : 0 < alpha) (ha' : alpha < 1) (c : K) (k : Nat)
    (es : List (Option K)) : ∃ s, s0.setup (some area) n alpha = .ok (s, true) ∧
    ConstAfterReset (fun s => { s with init := true }) MOR2.smooth c k s es := by
  obtain ⟨t, ht, _, hinv⟩ := Tdl.inv_setup s0.tdl.undef area n (lit 0) hn hs
  have safe : ∀ (s : MOR2 K) (x : K), (∃ g, Tdl.Inv area n g s.tdl) →
      ∃ s', s.smooth x = .ok (s', x) ∧ ∃ g, Tdl.Inv area n g s'.tdl := by
    rintro s x ⟨g, hg⟩
    have hf : ∃ t g', (if s.init then do
          let t ← Tdl.flush s.tdl x
          pure { s with tdl := t, sum := lit s.tdl.n *. x, m := x, init := false }
        else pure s : Out (MOR2 K)) = .ok t ∧ Tdl.Inv area n g' t.tdl := by
      cases hi : s.init with
      | true =>
        obtain ⟨t, k1, _, k3⟩ := Tdl.inv_step hg (.flush x)
        have k1' : Tdl.flush s.tdl x = .ok t := k1
        exact ⟨{ s with tdl := t, sum := lit s.tdl.n *. x, m := x, init := false }, _,
          by simp only [if_true, k1', Out.bind_ok, Out.pure_eq], k3⟩
      | false => exact ⟨s, g, rfl, hg⟩
    obtain ⟨t, g', e1, e2⟩ := hf
    obtain ⟨t', k1, _, k3⟩ := Tdl.inv_insert e2
      (if t.alpha *. absf t.m <. absf (t.m -. x) then t.m else x)
    unfold MOR2.smooth
    dsimp only
    rw [e1]
    simp only [Out.bind_ok, Tdl.oldest_of_inv e2, k1, Out.pure_eq]
    exact ⟨_, rfl, _, k3⟩
  refine ⟨{ s0 with tdl := t, alpha := alpha, sum := lit 0, m := lit 0, init := true }, ?_, ?_⟩
  · unfold MOR2.setup
    simp only [hn, ha, ha', decide_true, fLt, fLit, Rat.cast_zero, Rat.cast_one,
      Bool.and_self, if_true]
    simp only [fLit, Rat.cast_zero] at ht
    rw [ht]; rfl
  · exact constAfterReset_of_inv (fun s : MOR2 K => { s with init := true }) _ c k (fun s => ∃ g, Tdl.Inv area n g s.tdl)
      (fun s => ∃ g, Tdl.Inv area n g s.tdl) (fun s h => h)
      (fun s x h => by obtain ⟨s', h1, h2⟩ := safe s x h; exact ⟨s', x, h1, h2⟩) (fun s h => h)
      (fun s h => safe s c h) es _ ⟨_, hinv⟩

/-! ### Gaussian window -/

/-- The Gaussian centred at `c` with deviation `sg`, at the window index `j`. -/
def gauss [Trans K] (sg c : K) (j : Nat) : K := Trans.exp (-((j - c) * (j - c)) / (2 * sg * sg))

omit [IsStrictOrderedRing K] in
theorem gaussLoop_ok [Trans K] (sg c l : K) (n i : Nat) (a : Array K) (sum : K)
    (h : i + n ≤ a.size) :
    ∃ a', gaussLoop l (c -. l) (lit 2 *. sg *. sg) n i a sum
        = .ok (a', sum + ∑ j ∈ Finset.range n, gauss sg c (i + j)) ∧ a'.size = a.size ∧
      (∀ j, i ≤ j → j < i + n → rdArr a' j = .ok (gauss sg c j)) ∧
      (∀ j, (j < i ∨ i + n ≤ j) → rdArr a' j = rdArr a j) := by
  induction n generalizing i a sum with
  | zero => exact ⟨a, by simp [gaussLoop], rfl, by intros; omega, fun _ _ => rfl⟩
  | succ n ih =>
    have hi : i < a.size := by omega
    have hv : Trans.exp (Arith.neg ((lit (i : ℚ) -. l -. (c -. l)) *. (lit (i : ℚ) -. l -. (c -. l)))
        /. (lit 2 *. sg *. sg)) = gauss sg c i := by
      simp only [fLit, fSub, fMul, fNeg, fDiv, Rat.cast_natCast, Rat.cast_ofNat, gauss]
      congr 2
      ring
    obtain ⟨a', h1, h2, h3, h4⟩ := ih (i + 1) (a.set i (gauss sg c i)) (sum + gauss sg c i)
      (by simp; omega)
    refine ⟨a', ?_, by simpa using h2, fun j hj hj' => ?_, fun j hj => ?_⟩
    · rw [gaussLoop, hv, wrArr_ok hi, Out.bind_ok, fAdd, h1, Finset.sum_range_succ']
      simp only [Out.ok.injEq, Prod.mk.injEq, true_and, Nat.add_zero]
      rw [add_assoc, add_comm (gauss sg c i)]
      congr 2
      refine Finset.sum_congr rfl fun j _ => ?_
      congr 1; omega
    · by_cases e : i = j
      · subst e
        rw [h4 i (.inl (by omega)), rdArr_set hi, if_pos rfl]
      · exact h3 j (by omega) (by omega)
    · rw [h4 j (by omega), rdArr_set hi, if_neg (by omega)]

omit [IsStrictOrderedRing K] in
theorem normLoop_ok (S : K) (n i : Nat) (a : Array K) (h : i + n ≤ a.size) (g : Nat → K)
    (hg : ∀ j, i ≤ j → j < i + n → rdArr a j = .ok (g j)) :
    ∃ a', normLoop S n i a = .ok a' ∧ a'.size = a.size ∧
      (∀ j, i ≤ j → j < i + n → rdArr a' j = .ok (g j / S)) ∧
      (∀ j, (j < i ∨ i + n ≤ j) → rdArr a' j = rdArr a j) := by
  induction n generalizing i a with
  | zero => exact ⟨a, by simp [normLoop], rfl, by intros; omega, fun _ _ => rfl⟩
  | succ n ih =>
    have hi : i < a.size := by omega
    obtain ⟨a', h1, h2, h3, h4⟩ := ih (i + 1) (a.set i (g i / S)) (by simp; omega) (by
      intro j hj hj'
      rw [rdArr_set hi, if_neg (by omega)]
      exact hg j (by omega) (by omega))
    refine ⟨a', ?_, by simpa using h2, fun j hj hj' => ?_, fun j hj => ?_⟩
    · rw [normLoop, hg i le_rfl (by omega), Out.bind_ok, fDiv, wrArr_ok hi, Out.bind_ok, h1]
    · by_cases e : i = j
      · subst e
        rw [h4 i (.inl (by omega)), rdArr_set hi, if_pos rfl]
      · exact h3 j (by omega) (by omega)
    · rw [h4 j (by omega), rdArr_set hi, if_neg (by omega)]

/-- The weighted mean of the window with the weights `gauss sg c 0, ..., gauss sg c (n-1)`. -/
def gaussMean [Trans K] (sg c : K) (n : Nat) (h : Nat → K) : K :=
  (∑ j ∈ Finset.range n, gauss sg c j * h j) / ∑ j ∈ Finset.range n, gauss sg c j

/-- **C61** after an accepted `setup` of `smootherGMWF`, every output is the mean of the last `n`
samples weighted by a Gaussian of deviation `sg` centred at age `c`. -/
theorem C61_gaussian [Trans K] (s0 : GMWF K) (sg c : K) (window kernel : Array K) (n : Nat)
    (hn : 0 < n) (hw : n ≤ window.size) (hk : n ≤ kernel.size) (hc : c < n) (hsg : 0 < sg) :
    ∃ s, s0.setup sg c (some window) (some kernel) n = .ok (s, true) ∧ ∀ es : List (Option K),
      WindowRun (fun s => { s with init := true }) GMWF.smooth (gaussMean sg c n) s none es := by
  obtain ⟨k1, a1, a2, a3, _⟩ :=
    gaussLoop_ok sg c (lit ((n - 1 : Nat) : ℚ)) n 0 kernel (lit 0) (by omega)
  obtain ⟨k2, b1, b2, b3, _⟩ := normLoop_ok (lit 0 + ∑ j ∈ Finset.range n, gauss sg c (0 + j)) n 0 k1
    (by omega) (gauss sg c) a3
  refine ⟨{ s0 with w := some window, k := some k2, wsize := n, init := true }, ?_, fun es => ?_⟩
  · unfold GMWF.setup
    simp only [Option.isSome_some, hn, decide_true, fLit, fLt, Rat.cast_natCast,
      Rat.cast_zero, hc, hsg, if_true, deref, Out.bind_ok, Bool.and_self]
    simp only [fLit, Rat.cast_natCast, Rat.cast_zero] at a1 b1
    rw [a1, Out.bind_ok]
    dsimp only
    rw [b1, Out.bind_ok, Out.pure_eq]
  · refine windowRun_of_inv _ _ _ (fun s h => s.wsize = n ∧ s.k = some k2 ∧ WinInv n s.w s.init h)
      ?_ ?_ es _ _ ?_
    · rintro s h ⟨h1, h1', ⟨a, h2, h3, _⟩, _⟩
      exact ⟨h1, h1', ⟨a, h2, h3, by simp⟩, by simp⟩
    · rintro s h x ⟨h1, h1', h2⟩
      obtain ⟨a, b, e1, e2, e3, e4⟩ := winInv_fill n s.w s.init h x h2
      obtain ⟨w', c1, c2, c3, _⟩ := updateFIR_sum b n x (some k2)
        (fun j => gauss sg c j / (lit 0 + ∑ j ∈ Finset.range n, gauss sg c (0 + j))) _ hn e4
        (by intro a ha; cases ha; exact ⟨by omega, fun j hj => b3 j (by omega) (by omega)⟩) (by simp)
      refine ⟨{ s with w := some w', init := false }, ?_, h1, h1',
        ⟨w', rfl, by omega, fun _ => ⟨_, rfl, c3⟩⟩, by simp⟩
      unfold GMWF.smooth
      simp only [e1, deref, Out.bind_ok, h1, e2, h1', c1, Out.pure_eq]
      simp only [fLit, Rat.cast_zero, zero_add, gaussMean, Finset.sum_div, div_mul_eq_mul_div]
    · exact ⟨rfl, rfl, ⟨window, rfl, hw, by simp⟩, by simp⟩

/-- **C38** (`smootherGMWF`) after an accepted `setup`; the exponential only has to be positive. -/
theorem C38_gmwf [Trans K] (hexp : ∀ x : K, 0 < Trans.exp x) (s0 : GMWF K) (sg c0 : K)
    (window kernel : Array K) (n : Nat) (hn : 0 < n) (hw : n ≤ window.size) (hk : n ≤ kernel.size)
    (hc : c0 < n) (hsg : 0 < sg) (c : K) (k : Nat) (es : List (Option K)) :
    ∃ s, s0.setup sg c0 (some window) (some kernel) n = .ok (s, true) ∧
      ConstAfterReset (fun s => { s with init := true }) GMWF.smooth c k s es := by
  obtain ⟨s, h1, h2⟩ := C61_gaussian s0 sg c0 window kernel n hn hw hk hc hsg
  refine ⟨s, h1, constAfterReset_of_window _ _ _ (fun c => ?_) c k es s none h2⟩
  have : 0 < ∑ j ∈ Finset.range n, gauss sg c0 j :=
    Finset.sum_pos (fun j _ => hexp _) ⟨0, by simpa using hn⟩
  rw [gaussMean, ← Finset.sum_mul]
  field_simp

/-! ### Adaptive LMS filter -/

omit [IsStrictOrderedRing K] in
theorem lmsLoop_ok (alpha x xe : K) (xx : Array K) (n : Nat) (hx : n ≤ xx.size) (k i : Nat)
    (w : Array K) (h : i + k ≤ w.size) (hi : i + k ≤ n) :
    ∃ w', lmsLoop alpha x xe xx k i w = .ok w' ∧ w'.size = w.size ∧
      (x = xe → ∀ j, rdArr w' j = rdArr w j) := by
  induction k generalizing i w with
  | zero => exact ⟨w, rfl, rfl, fun _ _ => rfl⟩
  | succ k ih =>
    have h1 : i < w.size := by omega
    have h2 : i < xx.size := by omega
    obtain ⟨w', a1, a2, a3⟩ := ih (i + 1) (w.set i (w[i] +. alpha *. (x -. xe) *. xx[i]))
      (by simp; omega) (by omega)
    refine ⟨w', ?_, by simpa using a2, fun e j => ?_⟩
    · rw [lmsLoop, rdArr_ok h1, Out.bind_ok, rdArr_ok h2, Out.bind_ok, wrArr_ok h1, Out.bind_ok, a1]
    · rw [a3 e, rdArr_set h1]
      split_ifs with e'
      · subst e'
        rw [rdArr_ok h1, e]; simp
      · rfl

/-- **C38** (`smootherALNF`; partial: objects without momentum buffer, `w1 = nullptr`) after an accepted
`setup`. See `C38_alnf_momentum_false`. -/
theorem C38_alnf_partial (s0 s : ALNF K) (a m : K) (n : Nat) (window weights : Array K)
    (hset : s0.setup a m n (some window) (some weights) none = (s, true)) (hw : n ≤ window.size)
    (hv : n ≤ weights.size) (c : K) (k : Nat) (es : List (Option K)) :
    ConstAfterReset (fun s => { s with init := true }) ALNF.smooth c k s es := by
  have hp : 0 < n ∧ s.n = n ∧ s.w_1 = none ∧ s.xx = some window ∧ s.w = some weights := by
    unfold ALNF.setup at hset
    rw [ite_self] at hset
    split_ifs at hset with hc
    · simp only [Prod.mk.injEq, and_true] at hset
      simp only [Bool.and_eq_true, decide_eq_true_eq] at hc
      refine ⟨hc.1.1.1.1.2, ?_⟩
      rw [← hset]; simp
    · simp at hset
  obtain ⟨hn, p1, p2, p3, p4⟩ := hp
  have hn0 : (n : K) ≠ 0 := by exact_mod_cast hn.ne'
  let I : ALNF K → Prop := fun s => s.n = n ∧ s.w_1 = none ∧
    (∃ xx, s.xx = some xx ∧ n ≤ xx.size ∧ ∃ w, s.w = some w ∧ n ≤ w.size)
  let J : ALNF K → Prop := fun s => I s ∧ (s.init = false → ∃ xx w, s.xx = some xx ∧ s.w = some w ∧
    Holds xx n (fun _ => c) ∧ Holds w n (fun _ => 1 / (n : K)))
  -- one call: no undefined behaviour, the prediction, the weights
  have step : ∀ (s : ALNF K) (x : K) , I s → ∃ s' y, s.smooth x = .ok (s', y) ∧ I s' ∧
      (x = c → J s → y = c ∧ J s') := by
    rintro s x ⟨q1, q2, xx, q3, q4, w, q5, q6⟩
    -- arrays after the optional initialisation
    have hx : ∃ xx', (if s.init then windowSet xx n x else .ok xx) = .ok xx' ∧ n ≤ xx'.size ∧
        ∃ g, Holds xx' n g ∧ (x = c → J s → g = fun _ => c) := by
      cases hi : s.init with
      | true =>
        obtain ⟨b, k1, k2, k3, _⟩ := windowSet_ok x xx n q4
        exact ⟨b, k1, by omega, _, k3, fun e _ => by rw [e]⟩
      | false =>
        by_cases hJ : J s
        · obtain ⟨xx', w', r1, r2, r3, r4⟩ := hJ.2 hi
          rw [q3] at r1; cases r1
          exact ⟨xx, rfl, q4, _, r3, fun _ _ => rfl⟩
        · exact ⟨xx, rfl, q4, fun i => if h : i < xx.size then xx[i] else x,
            ⟨q4, fun i hi' => by
              rw [rdArr_ok (show i < _ by omega)]; exact congrArg Out.ok (dif_pos _).symm⟩, fun _ h => absurd h hJ⟩
    have hw' : ∃ w', (if s.init then windowSet w n ((1 : K) / n) else .ok w) = .ok w' ∧ n ≤ w'.size ∧
        ∃ g, Holds w' n g ∧ (J s → g = fun _ => 1 / (n : K)) := by
      cases hi : s.init with
      | true =>
        obtain ⟨b, k1, k2, k3, _⟩ := windowSet_ok ((1 : K) / n) w n q6
        exact ⟨b, k1, by omega, _, k3, fun _ => rfl⟩
      | false =>
        by_cases hJ : J s
        · obtain ⟨xx', w', r1, r2, r3, r4⟩ := hJ.2 hi
          rw [q5] at r2; cases r2
          exact ⟨w, rfl, q6, _, r4, fun _ => rfl⟩
        · exact ⟨w, rfl, q6, fun i => if h : i < w.size then w[i] else x,
            ⟨q6, fun i hi' => by
              rw [rdArr_ok (show i < _ by omega)]; exact congrArg Out.ok (dif_pos _).symm⟩, fun h => absurd h hJ⟩
    obtain ⟨xx', x1, x2, gx, x3, x4⟩ := hx
    obtain ⟨w', w1, w2, gw, w3, w4⟩ := hw'
    obtain ⟨xx2, f1, f2, f3, _⟩ := updateFIR_sum xx' n x (some w') gw gx hn x3
      (by intro a ha; cases ha; exact w3) (by simp)
    obtain ⟨w3', l1, l2, l3⟩ := lmsLoop_ok s.alpha x (∑ j ∈ Finset.range n, gw j * push x gx j) xx2 n
      (by omega) n 0 w' (by omega) (by omega)
    refine ⟨{ s with xx := some xx2, w := some w3', w_1 := none, init := false },
      ∑ j ∈ Finset.range n, gw j * push x gx j, ?_, ⟨q1, rfl, xx2, rfl, by omega, w3', rfl, by omega⟩, ?_⟩
    · unfold ALNF.smooth
      simp only [q3, q5, q2, deref, Out.bind_ok, q1, x1, fDiv, fLit, Rat.cast_one, Rat.cast_natCast,
        w1, Out.pure_eq, f1, l1]
    · intro hxc hJ
      subst hxc
      obtain rfl := x4 rfl hJ
      obtain rfl := w4 hJ
      rw [push_const] at *
      have e : ∑ j ∈ Finset.range n, 1 / (n : K) * x = x := by
        rw [sum_const]; field_simp
      refine ⟨e, ⟨q1, rfl, xx2, rfl, by omega, w3', rfl, by omega⟩, fun _ =>
        ⟨xx2, w3', rfl, rfl, f3, by omega, fun i hi => ?_⟩⟩
      rw [l3 e.symm]
      exact w3.2 i hi
  refine constAfterReset_of_inv (fun s : ALNF K => { s with init := true }) _ c k I J (fun s h => h) (fun s x h => ?_)
    (fun s h => ⟨h, by simp⟩) (fun s h => ?_) es s ⟨p1, p2, window, p3, hw, weights, p4, hv⟩
  · obtain ⟨s', y, h1, h2, _⟩ := step s x h
    exact ⟨s', y, h1, h2⟩
  · obtain ⟨s', y, h1, _, h3⟩ := step s c h.1
    obtain ⟨e, h4⟩ := h3 rfl h
    exact ⟨s', by rw [h1, e], h4⟩

/-- **C38 is false of the code for `smootherALNF` with a momentum buffer**: with arrays of the
documented size the first call reads `w[ n ]`, out of bounds, for every accepted parameters and every
sample. -/
theorem C38_alnf_momentum_false (s0 s : ALNF K) (a m : K) (n : Nat) (window weights w1 : Array K)
    (hset : s0.setup a m n (some window) (some weights) (some w1) = (s, true))
    (hw : window.size = n) (hv : weights.size = n) (hv1 : w1.size = n) (x : K) :
    s.smooth x = .ub := by
  unfold ALNF.setup at hset
  split_ifs at hset with hc hm
  · simp only [Prod.mk.injEq, and_true] at hset
    simp only [Bool.and_eq_true, decide_eq_true_eq] at hc
    have hn : 0 < n := hc.1.1.1.1.2
    rw [← hset]
    obtain ⟨b, k1, k2, k3, _⟩ := windowSet_ok x window n (by omega)
    obtain ⟨b', k1', k2', k3', _⟩ := windowSet_ok (lit 1 /. lit n : K) weights n (by omega)
    obtain ⟨b'', k1'', _, _, _⟩ := windowSet_ok (lit 1 /. lit n : K) w1 n (by omega)
    obtain ⟨xx2, f1, f2, f3, _⟩ := updateFIR_sum b n x (some b') _ _ hn k3
      (by intro a ha; cases ha; exact k3') (by simp)
    unfold ALNF.smooth
    simp only [deref, Out.bind_ok, if_true, k1, k1', k1'', Out.pure_eq, f1]
    obtain ⟨n', rfl⟩ : ∃ n', n = n' + 1 := ⟨n - 1, by omega⟩
    rw [momentumLoop, k3'.2 0 hn, Out.bind_ok]
    have : rdArr b' (n' + 1 + 0) = .ub := by
      unfold rdArr; rw [dif_neg (by omega)]
    rw [this]; rfl
  · simp_all
  · simp at hset

/-! ### Double exponential smoothing -/

omit [IsStrictOrderedRing K] in
/-- The `k`-th output of `smootherDESF` on the constant `c` is `c + nS * (1 - beta)^(k+1) * c`. -/
theorem desf_const (s0 s : DESF K) (a b : K) (nS : Nat) (hset : s0.setup a b nS = (s, true)) (c : K)
    (k : Nat) : (((fun s : DESF K => (s.smooth c).1)^[k] s).smooth c).2
      = c + nS * ((1 - b) ^ (k + 1) * c) := by
  have hp : s.beta = b ∧ s.n = nS ∧ s.init = true := by
    unfold DESF.setup at hset
    split_ifs at hset with hc
    · simp only [Prod.mk.injEq, and_true, fLit, Rat.cast_natCast] at hset
      rw [← hset]; exact ⟨rfl, rfl, rfl⟩
    · simp at hset
  have hinv : ∀ k, let t := (fun s : DESF K => (s.smooth c).1)^[k] s
      t.beta = b ∧ t.n = nS ∧ (if t.init then k = 0 else t.lt = c ∧ t.bt = (1 - b) ^ k * c) := by
    intro k
    induction k with
    | zero => simp [hp]
    | succ k ih =>
      rw [Function.iterate_succ_apply']
      obtain ⟨h1, h2, h3⟩ := ih
      generalize (fun s : DESF K => (s.smooth c).1)^[k] s = t at *
      unfold DESF.smooth
      cases hi : t.init with
      | true =>
        rw [hi, if_pos rfl] at h3
        subst h3
        simp only [if_true, fAdd, fMul, fSub, fLit, Rat.cast_one, Bool.false_eq_true, if_false]
        refine ⟨h1, h2, by ring, ?_⟩
        rw [h1]; ring
      | false =>
        rw [hi] at h3
        simp only [Bool.false_eq_true, if_false] at h3
        simp only [Bool.false_eq_true, fAdd, fMul, fSub, fLit, Rat.cast_one, if_false, h3.1, h3.2, hi]
        refine ⟨h1, h2, by ring, ?_⟩
        rw [h1]; ring
  obtain ⟨h1, h2, h3⟩ := hinv k
  generalize (fun s : DESF K => (s.smooth c).1)^[k] s = t at *
  unfold DESF.smooth
  cases hi : t.init with
  | true =>
    rw [hi, if_pos rfl] at h3
    subst h3
    simp only [if_true, fAdd, fMul, fSub, fLit, Rat.cast_one, h1, h2]
    ring
  | false =>
    rw [hi] at h3
    simp only [Bool.false_eq_true, if_false] at h3
    simp only [Bool.false_eq_true, fAdd, fMul, fSub, fLit, Rat.cast_one, if_false, h3.1, h3.2, h1, h2]
    ring

omit [IsStrictOrderedRing K] in
/-- **C38** (`smootherDESF`; partial) with `nS = 0` constants pass through. -/
theorem C38_desf_partial (s0 s : DESF K) (a b : K) (hset : s0.setup a b 0 = (s, true)) (c : K)
    (k : Nat) : (((fun s : DESF K => (s.smooth c).1)^[k] s).smooth c).2 = c := by
  rw [desf_const s0 s a b 0 hset c k]; simp

/-- **C38 is false of the code for `smootherDESF`**: with a forecast horizon `nS ≥ 1` no accepted
parameters let any nonzero constant through, at any step (the initial trend is the first sample). -/
theorem C38_desf_false (s0 s : DESF K) (a b : K) (nS : Nat) (hn : 0 < nS)
    (hset : s0.setup a b nS = (s, true)) (c : K) (hc : c ≠ 0) (k : Nat) :
    (((fun s : DESF K => (s.smooth c).1)^[k] s).smooth c).2 ≠ c := by
  rw [desf_const s0 s a b nS hset c k]
  have hb : b < 1 := by
    unfold DESF.setup at hset
    split_ifs at hset with h
    · simp only [Bool.and_eq_true, fLt, fLit, decide_eq_true_eq, Rat.cast_one] at h
      exact h.2
    · simp at hset
  have h1 : (nS : K) ≠ 0 := by exact_mod_cast hn.ne'
  have h2 : (1 - b) ^ (k + 1) ≠ 0 := pow_ne_zero _ (by linarith)
  intro h
  have : (nS : K) * ((1 - b) ^ (k + 1) * c) = 0 := by linarith
  exact mul_ne_zero h1 (mul_ne_zero h2 hc) this

-- C38: accepted configurations
example : ((⟨1 / 5, 1 / 5, 0, 0, 1, true⟩ : DESF ℚ).setup (1 / 2) (1 / 2) 1).2 = true := by
  decide +kernel
example : ((⟨0, 0, none, none, none, 0, true⟩ : ALNF ℚ).setup (1 / 2) (1 / 2) 2 (some #[0, 0])
    (some #[0, 0]) none).2 = true := by decide +kernel
example : ((⟨0, 1, 1, 100, 1, 100, 0, true⟩ : KLMN ℚ).setup 1 2 3).2 = true := by decide +kernel
example : (do
    let s := ((⟨none, 0, 8 / 10, 0, true⟩ : MOR1 ℚ).setup (some #[1, 2, 3]) 3 (1 / 2)).1
    let (s, a) ← s.smooth 7
    let (_, b) ← s.smooth 7
    pure (a, b) : Out (ℚ × ℚ)) = .ok (7, 7) := by decide +kernel

end Verif.Smoother
