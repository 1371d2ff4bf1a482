import Verif.Ffmath.Circle

/-!
# `inPolygon` (C98)

The model of the function, over IEEE binary32 arithmetic, and what holds of it.
-/

namespace Verif.Ffmath

open Verif F32

/-- The variables of the first loop of `ffmath::inPolygon`, `/repo/src/ffmath.cpp` line 787. -/
structure Box where
  maxY : BitVec 32
  maxX : BitVec 32
  minY : BitVec 32
  minX : BitVec 32

/-- The body of the first loop of `ffmath::inPolygon`, `/repo/src/ffmath.cpp` lines 789-794. -/
def boxStep (px py : Array (BitVec 32)) (b : Box) (i : Nat) : Out Box := do
  let yi ← rdArr py i
  let xi ← rdArr px i
  pure { maxY := if F32.lt b.maxY yi then yi else b.maxY
         maxX := if F32.lt b.maxX xi then xi else b.maxX
         minY := if F32.lt yi b.minY then yi else b.minY
         minX := if F32.lt xi b.minX then xi else b.minX }

/-- The body of the second loop of `ffmath::inPolygon`, `/repo/src/ffmath.cpp` lines 799-808; the state is `(retVal, j)`. -/
def crossStep (x y : BitVec 32) (px py : Array (BitVec 32)) (s : Bool × Nat) (i : Nat) : Out (Bool × Nat) := do
  let xi ← rdArr px i
  let xj ← rdArr px s.2
  if (F32.lt x xi) != (F32.lt x xj) then do
    let yj ← rdArr py s.2
    let yi ← rdArr py i
    let dx := F32.sub xj xi
    let dy := F32.sub yj yi
    let q := F32.div (F32.mul dy (F32.sub x xi)) (F32.add dx yi)
    pure (if F32.lt y q then !s.1 else s.1, i)
  else pure (s.1, i)

/-- `ffmath::inPolygon`, `/repo/src/ffmath.cpp` lines 779-812. The arrays are the memory behind the pointers, `p` the argument; a read
outside an array is undefined behaviour. `p - 1U` does not wrap where it is used, since with `p = 0` the reads of line 787 precede it;
with `p = 0` and non-empty arrays the loop does not run and `j` is not read. -/
def inPolygon (x y : BitVec 32) (px py : Array (BitVec 32)) (p : Nat) : Out Bool := do
  let y0 ← rdArr py 0
  let x0 ← rdArr px 0
  let b ← (List.range p).foldlM (boxStep px py) { maxY := y0, maxX := x0, minY := y0, minX := x0 }
  if F32.le b.minY y && F32.le y b.maxY && F32.le b.minX x && F32.le x b.maxX then do
    let r ← (List.range p).foldlM (crossStep x y px py) (false, p - 1)
    pure r.1
  else pure false

theorem boxStep_ok {px py : Array (BitVec 32)} {b : Box} {i : Nat} (hx : i < px.size) (hy : i < py.size) :
    ∃ b', boxStep px py b i = .ok b' := by
  unfold boxStep
  rw [rdArr_ok hy, rdArr_ok hx]
  exact ⟨_, rfl⟩

theorem crossStep_ok {x y : BitVec 32} {px py : Array (BitVec 32)} {s : Bool × Nat} {i : Nat} (hx : i < px.size) (hy : i < py.size)
    (jx : s.2 < px.size) (jy : s.2 < py.size) : ∃ b', crossStep x y px py s i = .ok (b', i) := by
  unfold crossStep
  rw [rdArr_ok hx, rdArr_ok jx, rdArr_ok jy, rdArr_ok hy]
  simp only [Out.bind_ok, Out.pure_eq]
  split
  · exact ⟨_, rfl⟩
  · exact ⟨_, rfl⟩

theorem boxes_ok {px py : Array (BitVec 32)} (l : List Nat) (h : ∀ i ∈ l, i < px.size ∧ i < py.size) (b : Box) :
    ∃ b', l.foldlM (boxStep px py) b = .ok b' := by
  induction l generalizing b with
  | nil => exact ⟨b, rfl⟩
  | cons i l ih =>
    obtain ⟨b', e⟩ := boxStep_ok (b := b) (h i (by simp)).1 (h i (by simp)).2
    rw [List.foldlM_cons, e, Out.bind_ok]
    exact ih (fun k hk => h k (by simp [hk])) b'

theorem crosses_ok {x y : BitVec 32} {px py : Array (BitVec 32)} (l : List Nat) (h : ∀ i ∈ l, i < px.size ∧ i < py.size) (s : Bool × Nat)
    (jx : s.2 < px.size) (jy : s.2 < py.size) : ∃ r, l.foldlM (crossStep x y px py) s = .ok r := by
  induction l generalizing s with
  | nil => exact ⟨s, rfl⟩
  | cons i l ih =>
    have hi := h i (by simp)
    obtain ⟨b', e⟩ := crossStep_ok (x := x) (y := y) (s := s) hi.1 hi.2 jx jy
    rw [List.foldlM_cons, e, Out.bind_ok]
    exact ih (fun k hk => h k (by simp [hk])) (b', i) hi.1 hi.2

/-- **C98** (part) With at least one vertex and no more than the arrays hold, the function has no undefined behaviour, whatever the
coordinates. -/
theorem C98_defined (x y : BitVec 32) (px py : Array (BitVec 32)) (p : Nat) (h : 0 < p) (hx : p ≤ px.size) (hy : p ≤ py.size) :
    ∃ b, inPolygon x y px py p = .ok b := by
  have hl : ∀ i ∈ List.range p, i < px.size ∧ i < py.size := by
    intro i hi; have := List.mem_range.1 hi; omega
  unfold inPolygon
  rw [rdArr_ok (by omega), rdArr_ok (by omega)]
  simp only [Out.bind_ok]
  obtain ⟨b, e⟩ := boxes_ok (List.range p) hl { maxY := py[0], maxX := px[0], minY := py[0], minX := px[0] }
  rw [e, Out.bind_ok]
  split
  · obtain ⟨r, e2⟩ := crosses_ok (x := x) (y := y) (List.range p) hl (false, p - 1) (by simp only; omega) (by simp only; omega)
    rw [e2]; exact ⟨_, rfl⟩
  · exact ⟨_, rfl⟩

/-- **C98** (part, a negation) An empty polygon is undefined behaviour: the first vertex is read before the count is looked at. -/
theorem C98_empty (x y : BitVec 32) (px : Array (BitVec 32)) : inPolygon x y px #[] 0 = .ub := by
  unfold inPolygon
  have : rdArr (#[] : Array (BitVec 32)) 0 = .ub := by simp [rdArr]
  rw [this]; rfl

/-- Every bound is a coordinate. -/
theorem boxes_mem {px py : Array (BitVec 32)} (l : List Nat) (P : Nat → Prop) (hP : ∀ i ∈ l, P i) (b b' : Box)
    (e : l.foldlM (boxStep px py) b = .ok b')
    (h : (∃ i, P i ∧ py[i]? = some b.maxY) ∧ (∃ i, P i ∧ px[i]? = some b.maxX) ∧ (∃ i, P i ∧ py[i]? = some b.minY) ∧
      (∃ i, P i ∧ px[i]? = some b.minX)) :
    (∃ i, P i ∧ py[i]? = some b'.maxY) ∧ (∃ i, P i ∧ px[i]? = some b'.maxX) ∧ (∃ i, P i ∧ py[i]? = some b'.minY) ∧
      (∃ i, P i ∧ px[i]? = some b'.minX) := by
  induction l generalizing b with
  | nil => cases e; exact h
  | cons i l ih =>
    rw [List.foldlM_cons, Out.bind_eq_ok] at e
    obtain ⟨c, e1, e2⟩ := e
    refine ih (fun k hk => hP k (by simp [hk])) c e2 ?_
    unfold boxStep at e1
    rw [Out.bind_eq_ok] at e1
    obtain ⟨yi, ey, e1⟩ := e1
    rw [Out.bind_eq_ok] at e1
    obtain ⟨xi, ex, e1⟩ := e1
    rw [rdArr_eq_ok] at ex ey
    have hi := hP i (by simp)
    cases e1
    obtain ⟨h1, h2, h3, h4⟩ := h
    refine ⟨?_, ?_, ?_, ?_⟩ <;> simp only <;> split
    · exact ⟨i, hi, ey⟩
    · exact h1
    · exact ⟨i, hi, ex⟩
    · exact h2
    · exact ⟨i, hi, ey⟩
    · exact h3
    · exact ⟨i, hi, ex⟩
    · exact h4

/-- **C98** (part) A point that is reported inside lies in the bounding box of the vertices: some vertex is not above it, some not
below, some not to the right and some not to the left. In particular a NaN point, and a point beyond all the vertices, are outside. -/
theorem C98_box (x y : BitVec 32) (px py : Array (BitVec 32)) (p : Nat) (h : inPolygon x y px py p = .ok true) :
    ∃ i j k l, i < p ∧ j < p ∧ k < p ∧ l < p ∧
      (∃ v, py[i]? = some v ∧ F32.le v y = true) ∧ (∃ v, py[j]? = some v ∧ F32.le y v = true) ∧
      (∃ v, px[k]? = some v ∧ F32.le v x = true) ∧ (∃ v, px[l]? = some v ∧ F32.le x v = true) := by
  unfold inPolygon at h
  rw [Out.bind_eq_ok] at h
  obtain ⟨y0, ey, h⟩ := h
  rw [Out.bind_eq_ok] at h
  obtain ⟨x0, ex, h⟩ := h
  rw [Out.bind_eq_ok] at h
  obtain ⟨b, eb, h⟩ := h
  rw [rdArr_eq_ok] at ex ey
  split at h
  swap
  · cases h
  rename_i hc
  simp only [Bool.and_eq_true] at hc
  rw [Out.bind_eq_ok] at h
  obtain ⟨r, er, h⟩ := h
  have hp : 0 < p := by
    rcases Nat.eq_zero_or_pos p with rfl | hp
    · cases er; cases h
    · exact hp
  obtain ⟨⟨j, pj, hj⟩, ⟨l, pl, hl⟩, ⟨i, pi, hi⟩, ⟨k, pk, hk⟩⟩ := boxes_mem (List.range p) (fun i => i < p) (fun i hi => List.mem_range.1 hi) _ b eb
    ⟨⟨0, hp, ey⟩, ⟨0, hp, ex⟩, ⟨0, hp, ey⟩, ⟨0, hp, ex⟩⟩
  exact ⟨i, j, k, l, pi, pj, pk, pl, ⟨_, hi, hc.1.1.1⟩, ⟨_, hj, hc.1.1.2⟩, ⟨_, hk, hc.1.2⟩, ⟨_, hl, hc.2⟩⟩

/-- **C98** (part) A point that is not a number is outside of every polygon. -/
theorem C98_nan (x y : BitVec 32) (px py : Array (BitVec 32)) (p : Nat) (hn : IsNaN x ∨ IsNaN y) (h : 0 < p) (hx : p ≤ px.size)
    (hy : p ≤ py.size) : inPolygon x y px py p = .ok false := by
  obtain ⟨b, e⟩ := C98_defined x y px py p h hx hy
  cases b with
  | false => exact e
  | true =>
    obtain ⟨i, j, k, l, -, -, -, -, ⟨v, -, hv⟩, -, ⟨w, -, hw⟩, -⟩ := C98_box x y px py p e
    unfold F32.le at hv hw
    rw [decide_eq_true_eq] at hv hw
    rcases hn with hn | hn
    · exact absurd hn hw.2.1
    · exact absurd hn hv.2.1

/-- A number is a zero or a NaN. Not a definition of the repository. -/
def ZeroOrNaN (c : BitVec 32) : Prop := IsNaN c ∨ mag c = 0

theorem zn_rnd (s : Bool) : ZeroOrNaN (rnd s 0) := by
  right; cases s <;> decide +kernel

theorem zn_qnan : ZeroOrNaN qnan := Or.inl (by decide +kernel)

theorem zn_self (v : BitVec 32) : ZeroOrNaN (sub v v) := by
  by_cases hn : IsNaN v
  · left
    unfold sub add
    rw [if_pos (Or.inl hn)]; decide +kernel
  rcases trichotomy hn with hf | rfl | rfl
  · rw [sub_fin hf hf, sub_self]; exact zn_rnd _
  · left; decide +kernel
  · left; decide +kernel

theorem zn_mul {d : BitVec 32} (a : BitVec 32) (h : ZeroOrNaN d) : ZeroOrNaN (mul d a) := by
  rcases h with h | h
  · left; unfold mul; rw [if_pos (Or.inl h)]; decide +kernel
  · have hf : Finite d := by rw [finite_iff]; omega
    by_cases hn : IsNaN a
    · left; unfold mul; rw [if_pos (Or.inr hn)]; decide +kernel
    · rcases trichotomy hn with ha | ha
      · rw [mul_fin hf ha, val_eq_zero.2 h, zero_mul]; exact zn_rnd _
      · have hi : IsInf a := by rcases ha with rfl | rfl <;> decide +kernel
        unfold mul
        rw [if_neg (by simp [hf.notNaN, hn]), if_pos (Or.inr hi), if_pos (Or.inl h)]
        exact zn_qnan

theorem zn_div {d : BitVec 32} (e : BitVec 32) (h : ZeroOrNaN d) : ZeroOrNaN (div d e) := by
  rcases h with h | h
  · left; unfold div; rw [if_pos (Or.inl h)]; decide +kernel
  · have hf : Finite d := by rw [finite_iff]; omega
    unfold div
    split
    · exact zn_qnan
    rw [if_neg hf.notInf]
    split
    · right; cases neg d ^^ neg e <;> decide +kernel
    · split
      · exact zn_qnan
      · rw [val_eq_zero.2 h, zero_div]; exact zn_rnd _

theorem zn_lt {y c : BitVec 32} (hy : F32.le (lit 0) y = true) (h : ZeroOrNaN c) : F32.lt y c = false := by
  rw [← Bool.not_eq_true]
  intro hl
  rcases h with h | h
  · unfold F32.lt at hl
    rw [decide_eq_true_eq] at hl
    exact hl.2.1 h
  · have h1 := lt_key hl
    have h2 := le_key hy
    have h3 : key (lit 0) = 0 := by decide +kernel
    have h4 : key c = 0 := by unfold F32.key; rw [h]; simp
    omega

theorem crossStep_rect {x y : BitVec 32} {px py : Array (BitVec 32)} {j i : Nat} (h0 : F32.le (lit 0) y = true)
    (hx : i < px.size) (hy : i < py.size) (jx : j < px.size) (jy : j < py.size)
    (hr : px[i]? = px[j]? ∨ py[i]? = py[j]?) : crossStep x y px py (false, j) i = .ok (false, i) := by
  unfold crossStep
  rw [rdArr_ok hx, rdArr_ok jx, rdArr_ok jy, rdArr_ok hy]
  simp only [Out.bind_ok, Out.pure_eq]
  split
  · rename_i hne
    rcases hr with hr | hr
    · exfalso
      rw [Array.getElem?_eq_getElem hx, Array.getElem?_eq_getElem jx] at hr
      rw [Option.some.inj hr] at hne
      simp at hne
    · rw [Array.getElem?_eq_getElem hy, Array.getElem?_eq_getElem jy] at hr
      rw [Option.some.inj hr, zn_lt h0 (zn_div _ (zn_mul _ (zn_self _)))]
      rfl
  · rfl

theorem crosses_rect {x y : BitVec 32} {px py : Array (BitVec 32)} {p : Nat} (h0 : F32.le (lit 0) y = true) (hx : p ≤ px.size)
    (hy : p ≤ py.size) (hr : ∀ i, i < p → px[i]? = px[if i = 0 then p - 1 else i - 1]? ∨ py[i]? = py[if i = 0 then p - 1 else i - 1]?)
    (n : Nat) (hn : n ≤ p) (hp : 0 < p) :
    (List.range n).foldlM (crossStep x y px py) (false, p - 1) = .ok (false, if n = 0 then p - 1 else n - 1) := by
  induction n with
  | zero => rfl
  | succ n ih =>
    rw [List.range_succ, List.foldlM_append, ih (by omega), Out.bind_ok, List.foldlM_cons,
      crossStep_rect h0 (by omega) (by omega) (by split <;> omega) (by split <;> omega) (hr n (by omega))]
    simp

/-- **C98** (part, a negation) No point with a non-negative ordinate is inside a polygon whose edges are all horizontal or vertical,
e.g. a rectangle: the function divides by `dx + py[i]` instead of dividing by `dx` and adding `py[i]`. -/
theorem C98_rectilinear (x y : BitVec 32) (px py : Array (BitVec 32)) (p : Nat) (h : 0 < p) (hx : p ≤ px.size) (hy : p ≤ py.size)
    (h0 : F32.le (lit 0) y = true)
    (hr : ∀ i, i < p → px[i]? = px[if i = 0 then p - 1 else i - 1]? ∨ py[i]? = py[if i = 0 then p - 1 else i - 1]?) :
    inPolygon x y px py p = .ok false := by
  have hl : ∀ i ∈ List.range p, i < px.size ∧ i < py.size := by
    intro i hi; have := List.mem_range.1 hi; omega
  unfold inPolygon
  rw [rdArr_ok (by omega), rdArr_ok (by omega)]
  simp only [Out.bind_ok]
  obtain ⟨b, e⟩ := boxes_ok (List.range p) hl { maxY := py[0], maxX := px[0], minY := py[0], minX := px[0] }
  rw [e, Out.bind_ok]
  split
  · rw [crosses_rect h0 hx hy hr p le_rfl h]; rfl
  · rfl

/-- **C98** (negation) The centre of the unit square is reported outside, and `(1.875, 0.125)`, which is below the edge from `(0, 0)` to
`(4, 1)`, is reported inside the triangle `(0, 0), (4, 1), (2, 4)`. -/
theorem C98_false : inPolygon (lit 0.5) (lit 0.5) #[lit 0, lit 1, lit 1, lit 0] #[lit 0, lit 0, lit 1, lit 1] 4 = .ok false ∧
    inPolygon (lit 1.875) (lit 0.125) #[lit 0, lit 4, lit 2] #[lit 0, lit 1, lit 4] 3 = .ok true ∧
    4 * val (lit 0.125) < val (lit 1.875) := by decide +kernel

/-- The unit square meets the hypotheses of `C98_rectilinear`. -/
example : let px := #[lit 0, lit 1, lit 1, lit 0]; let py := #[lit 0, lit 0, lit 1, lit 1]
    F32.le (lit 0) (lit 0.5) = true ∧
    ∀ i, i < 4 → px[i]? = px[if i = 0 then 4 - 1 else i - 1]? ∨ py[i]? = py[if i = 0 then 4 - 1 else i - 1]? := by decide +kernel

/-- A polygon with which the function does answer `true`: the hypotheses of the theorems above. -/
example : inPolygon (lit 1.5) (lit 1) #[lit 0, lit 4, lit 2] #[lit 0, lit 1, lit 4] 3 = .ok true ∧
    (0 < 3 ∧ 3 ≤ (#[lit 0, lit 4, lit 2] : Array (BitVec 32)).size) := by decide +kernel

end Verif.Ffmath
