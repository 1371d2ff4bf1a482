import Verif.Mat.Model

/-!
# Loops over matrices
-/

namespace Verif.Mat

open Arith

variable {R : Type} [Arith R]

omit [Arith R] in
theorem get_ok {r c : Nat} (M : Mx r c R) (i : Fin r) (j : Fin c) : get M i j = .ok (M i j) := by
  unfold get
  rw [dif_pos ⟨i.2, j.2⟩]

/-- The array after a write. -/
def upd {r c : Nat} (M : Mx r c R) (i : Fin r) (j : Fin c) (v : R) : Mx r c R :=
  fun a b => if a = i ∧ b = j then v else M a b

omit [Arith R] in
theorem put_ok {r c : Nat} (M : Mx r c R) (i : Fin r) (j : Fin c) (v : R) :
    put M i j v = .ok (upd M i j v) := by
  unfold put upd
  rw [if_pos ⟨i.2, j.2⟩]
  simp only [Fin.ext_iff]

/-- Rule for loops. -/
theorem loop_inv {S : Type} (f : Nat → S → Out S) (P : Nat → S → Prop) (n : Nat)
    (hstep : ∀ i s, i < n → P i s → ∃ s', f i s = .ok s' ∧ P (i + 1) s') (k i : Nat) (s : S)
    (hk : i + k = n) (h : P i s) : ∃ s', loop f k i s = .ok s' ∧ P n s' := by
  induction k generalizing i s with
  | zero =>
    obtain rfl : i = n := by omega
    exact ⟨s, rfl, h⟩
  | succ k ih =>
    obtain ⟨s', h1, h2⟩ := hstep i s (by omega) h
    obtain ⟨s'', h3, h4⟩ := ih (i + 1) s' (by omega) h2
    exact ⟨s'', by rw [loop, h1, Out.bind_ok, h3], h4⟩

/-- Rule for the nested loops. -/
theorem for2_inv {S : Type} (r c : Nat) (f : Nat → Nat → S → Out S) (P : Nat → Nat → S → Prop)
    (hrow : ∀ i s, i < r → P i c s → P (i + 1) 0 s)
    (hstep : ∀ (i : Fin r) (j : Fin c) s, P i j s → ∃ s', f i j s = .ok s' ∧ P i (j + 1) s')
    (s : S) (h : P 0 0 s) : ∃ s', for2 r c f s = .ok s' ∧ P r 0 s' := by
  refine loop_inv _ (fun i s => P i 0 s) r ?_ r 0 s (by omega) h
  intro i s hi hs
  obtain ⟨s', h1, h2⟩ := loop_inv (fun j s => f i j s) (fun j s => P i j s) c
    (fun j s hj hs => hstep ⟨i, hi⟩ ⟨j, hj⟩ s hs) c 0 s (by omega) hs
  exact ⟨s', h1, hrow i s' hi h2⟩

omit [Arith R] in
/-- Nested loops that rewrite each cell from its old value. -/
theorem for2_cell {r c : Nat} (f : Nat → Nat → Mx r c R → Out (Mx r c R)) (φ : Fin r → Fin c → R → R)
    (hf : ∀ (i : Fin r) (j : Fin c) M, f i j M = .ok (upd M i j (φ i j (M i j)))) (M : Mx r c R) :
    for2 r c f M = .ok (fun a b => φ a b (M a b)) := by
  obtain ⟨M', h1, h2⟩ := for2_inv r c f
    (fun i j M' => ∀ a b, M' a b = if a.val < i ∨ (a.val = i ∧ b.val < j) then φ a b (M a b) else M a b)
    (by
      intro i s _ h a b
      rw [h a b]
      by_cases c1 : a.val < i + 1
      · have := b.2
        rw [if_pos (by omega), if_pos (by omega)]
      · rw [if_neg (by omega), if_neg (by omega)])
    (by
      intro i j s h
      refine ⟨_, hf i j s, fun a b => ?_⟩
      unfold upd
      by_cases e : a = i ∧ b = j
      · obtain ⟨rfl, rfl⟩ := e
        rw [if_pos ⟨rfl, rfl⟩, h a b, if_neg (by omega), if_pos (by omega)]
      · rw [if_neg e, h a b]
        have : ¬(a.val = i.val ∧ b.val = j.val) := by simpa [Fin.ext_iff] using e
        by_cases c1 : a.val < i.val ∨ (a.val = i.val ∧ b.val < j.val)
        · rw [if_pos c1, if_pos (by omega)]
        · rw [if_neg c1, if_neg (by omega)])
    M (by intro a b; rw [if_neg (by omega)])
  rw [h1]
  congr 1
  funext a b
  rw [h2 a b, if_pos (.inl a.2)]

theorem zero_eq {r c : Nat} (u : Mx r c R) : zero u = .ok (fun _ _ => lit 0) := by
  unfold zero
  rw [for2_cell _ (fun _ _ _ => lit 0)]
  intro i j M
  rw [put_ok]

omit [Arith R] in
theorem copy_eq {r c : Nat} (u A : Mx r c R) : copy u A = .ok A := by
  unfold copy
  rw [for2_cell _ (fun i j _ => A i j)]
  intro i j M
  rw [get_ok, Out.bind_ok, put_ok]

theorem mapNew_eq {r c : Nat} (u : Mx r c R) (f : R → R) (A : Mx r c R) :
    mapNew u f A = .ok (fun i j => f (A i j)) := by
  unfold mapNew
  rw [zero_eq, Out.bind_ok, for2_cell _ (fun i j _ => f (A i j))]
  intro i j M
  rw [get_ok, Out.bind_ok, put_ok]

theorem add_eq {r c : Nat} (u A B : Mx r c R) : add u A B = .ok (fun i j => A i j +. B i j) := by
  unfold add
  rw [zero_eq, Out.bind_ok, for2_cell _ (fun i j _ => A i j +. B i j)]
  intro i j M
  rw [get_ok, Out.bind_ok, get_ok, Out.bind_ok, put_ok]

theorem sub_eq {r c : Nat} (u A B : Mx r c R) : sub u A B = .ok (fun i j => A i j -. B i j) := by
  unfold sub
  rw [zero_eq, Out.bind_ok, for2_cell _ (fun i j _ => A i j -. B i j)]
  intro i j M
  rw [get_ok, Out.bind_ok, get_ok, Out.bind_ok, put_ok]

/-- The sum of products in the order of the code. -/
def dot {c : Nat} (f g : Fin c → R) : R :=
  (List.finRange c).foldl (fun x k => x +. f k *. g k) (lit 0)

/-- `dot` over the first `k` terms. -/
def dotTo {c : Nat} (f g : Fin c → R) (k : Nat) : R :=
  ((List.finRange c).take k).foldl (fun x k => x +. f k *. g k) (lit 0)

theorem dotTo_succ {c : Nat} (f g : Fin c → R) (k : Fin c) :
    dotTo f g (k + 1) = dotTo f g k +. f k *. g k := by
  unfold dotTo
  rw [List.take_succ_eq_append_getElem (by simp), List.foldl_append]
  simp

omit [Arith R] in
theorem upd_upd {r c : Nat} (M : Mx r c R) (i : Fin r) (j : Fin c) (v w : R) :
    upd (upd M i j v) i j w = upd M i j w := by
  funext a b
  unfold upd
  split_ifs <;> rfl

omit [Arith R] in
theorem upd_same {r c : Nat} (M : Mx r c R) (i : Fin r) (j : Fin c) (v : R) : upd M i j v i j = v := by
  unfold upd
  rw [if_pos ⟨rfl, rfl⟩]

theorem mul_eq {r c n : Nat} (u : Mx r n R) (A : Mx r c R) (B : Mx c n R) :
    mul u A B = .ok (fun i j => dot (A i) (fun k => B k j)) := by
  unfold mul
  rw [zero_eq, Out.bind_ok, for2_cell _ (fun i j _ => dot (A i) (fun k => B k j))]
  intro i j M
  rw [put_ok, Out.bind_ok]
  obtain ⟨M', h1, h2⟩ := loop_inv (fun k M => do
      let x ← get M i j
      let a ← get A i k
      let b ← get B k j
      put M i j (x +. a *. b)) (fun k M' => M' = upd M i j (dotTo (A i) (fun k => B k j) k)) c
    (by
      rintro k _ hk rfl
      have ha := get_ok A i ⟨k, hk⟩
      have hb := get_ok B ⟨k, hk⟩ j
      dsimp only at ha hb
      refine ⟨_, ?_, rfl⟩
      rw [get_ok, Out.bind_ok, ha, Out.bind_ok, hb, Out.bind_ok, put_ok, upd_upd, upd_same]
      have := dotTo_succ (A i) (fun k => B k j) ⟨k, hk⟩
      dsimp only at this
      rw [this])
    c 0 (upd M i j (lit 0)) (by omega) (by simp [dotTo])
  rw [h1, h2]
  congr 2
  unfold dot dotTo
  rw [List.take_of_length_le (by simp)]

omit [Arith R] in
theorem transpose_aux {r c : Nat} (A : Mx r c R) (M : Mx c r R) :
    for2 r c (fun i j M => do
      let v ← get A i j
      put M j i v) M = .ok (fun i j => A j i) := by
  obtain ⟨M', h1, h2⟩ := for2_inv r c (fun i j M => do
      let v ← get A i j
      put M j i v)
    (fun i j M' => ∀ a b, M' a b = if b.val < i ∨ (b.val = i ∧ a.val < j) then A b a else M a b)
    (by
      intro i s _ h a b
      rw [h a b]
      by_cases c1 : b.val < i + 1
      · have := a.2
        rw [if_pos (by omega), if_pos (by omega)]
      · rw [if_neg (by omega), if_neg (by omega)])
    (by
      intro i j s h
      refine ⟨upd s j i (A i j), by rw [get_ok, Out.bind_ok, put_ok], fun a b => ?_⟩
      unfold upd
      by_cases e : a = j ∧ b = i
      · obtain ⟨rfl, rfl⟩ := e
        rw [if_pos ⟨rfl, rfl⟩, if_pos (by omega)]
      · rw [if_neg e, h a b]
        have : ¬(a.val = j.val ∧ b.val = i.val) := by simpa [Fin.ext_iff] using e
        by_cases c1 : b.val < i.val ∨ (b.val = i.val ∧ a.val < j.val)
        · rw [if_pos c1, if_pos (by omega)]
        · rw [if_neg c1, if_neg (by omega)])
    M (by intro a b; rw [if_neg (by omega)])
  rw [h1]
  congr 1
  funext a b
  rw [h2 a b, if_pos (.inl b.2)]

theorem special_eq {n : Nat} (u : Mx n n R) (value : R) :
    special u .identity value = .ok (fun i j => if i = j then value else lit 0) ∧
    special u .all value = .ok (fun _ _ => value) ∧
    special u .zero value = .ok (fun _ _ => lit 0) := by
  refine ⟨?_, ?_, ?_⟩
  · unfold special
    dsimp only
    rw [for2_cell _ (fun i j _ => if i = j then value else lit 0)]
    intro i j M
    by_cases h : i = j
    · rw [if_pos (by rw [h]), if_pos h, put_ok]
    · rw [if_neg (fun e => h (Fin.ext e)), if_neg h, put_ok]
  · unfold special
    dsimp only
    rw [for2_cell _ (fun _ _ _ => value)]
    intro i j M
    rw [put_ok]
  · unfold special
    dsimp only
    rw [for2_cell _ (fun _ _ _ => lit 0)]
    intro i j M
    rw [put_ok]

/-- One step of `inv`, in closed form, for any arithmetic. -/
theorem invStep_eq {n : Nat} (i : Fin n) (X I : Mx n n R) :
    invStep i.val (X, I) = .ok
      (fun a b => if a = i then X i b /. X i i else X a b -. X a i *. (X i b /. X i i),
       fun a b => if a = i then I i b /. X i i else I a b -. X a i *. (I i b /. X i i)) := by
  unfold invStep
  dsimp only
  rw [get_ok, Out.bind_ok]
  set p := X i i with hp
  -- scaling of row i
  obtain ⟨s, h1, hs1, hs2⟩ := loop_inv (fun j (s : Mx n n R × Mx n n R) => do
      let x ← get s.1 i j
      let X ← put s.1 i j (x /. p)
      let y ← get s.2 i j
      let I ← put s.2 i j (y /. p)
      pure (X, I))
    (fun j s => (∀ a b, s.1 a b = if a = i ∧ b.val < j then X i b /. p else X a b) ∧
      (∀ a b, s.2 a b = if a = i ∧ b.val < j then I i b /. p else I a b)) n
    (by
      rintro j s hj ⟨h1, h2⟩
      have ex := get_ok s.1 i ⟨j, hj⟩
      have ey := get_ok s.2 i ⟨j, hj⟩
      have ew := put_ok s.1 i ⟨j, hj⟩
      have ez := put_ok s.2 i ⟨j, hj⟩
      dsimp only at ex ey ew ez
      refine ⟨(upd s.1 i ⟨j, hj⟩ (s.1 i ⟨j, hj⟩ /. p), upd s.2 i ⟨j, hj⟩ (s.2 i ⟨j, hj⟩ /. p)), ?_, ?_, ?_⟩
      · rw [ex, Out.bind_ok, ew, Out.bind_ok, ey, Out.bind_ok, ez, Out.bind_ok]
        rfl
      · intro a b
        unfold upd
        dsimp only
        by_cases e : a = i ∧ b = ⟨j, hj⟩
        · obtain ⟨rfl, rfl⟩ := e
          rw [if_pos ⟨rfl, rfl⟩, h1, if_neg (by simp), if_pos ⟨rfl, by simp⟩]
        · rw [if_neg e, h1]
          have : ¬(a = i ∧ b.val = j) := fun h => e ⟨h.1, Fin.ext h.2⟩
          by_cases c1 : a = i ∧ b.val < j
          · rw [if_pos c1, if_pos ⟨c1.1, by omega⟩]
          · rw [if_neg c1, if_neg (fun h => c1 ⟨h.1, by
              have h3 : b.val ≠ j := fun h4 => this ⟨h.1, h4⟩
              omega⟩)]
      · intro a b
        unfold upd
        dsimp only
        by_cases e : a = i ∧ b = ⟨j, hj⟩
        · obtain ⟨rfl, rfl⟩ := e
          rw [if_pos ⟨rfl, rfl⟩, h2, if_neg (by simp), if_pos ⟨rfl, by simp⟩]
        · rw [if_neg e, h2]
          have : ¬(a = i ∧ b.val = j) := fun h => e ⟨h.1, Fin.ext h.2⟩
          by_cases c1 : a = i ∧ b.val < j
          · rw [if_pos c1, if_pos ⟨c1.1, by omega⟩]
          · rw [if_neg c1, if_neg (fun h => c1 ⟨h.1, by
              have h3 : b.val ≠ j := fun h4 => this ⟨h.1, h4⟩
              omega⟩)])
    n 0 (X, I) (by omega) ⟨by intro a b; rw [if_neg (by simp)], by intro a b; rw [if_neg (by simp)]⟩
  rw [h1, Out.bind_ok]
  -- elimination of column i
  set XS : Mx n n R := fun a b => if a = i then X i b /. p else X a b -. X a i *. (X i b /. p) with hXS
  set IS : Mx n n R := fun a b => if a = i then I i b /. p else I a b -. X a i *. (I i b /. p) with hIS
  have e1 : ∀ a b, s.1 a b = if a = i then X i b /. p else X a b := by
    intro a b
    rw [hs1 a b]
    simp only [b.2, and_true]
  have e2 : ∀ a b, s.2 a b = if a = i then I i b /. p else I a b := by
    intro a b
    rw [hs2 a b]
    simp only [b.2, and_true]
  obtain ⟨t, h2, ht1, ht2⟩ := loop_inv (fun j (s : Mx n n R × Mx n n R) =>
      if j ≠ i then do
        let factor ← get s.1 j i
        loop (fun k s => do
          let x ← get s.1 j k
          let p ← get s.1 i k
          let X ← put s.1 j k (x -. factor *. p)
          let y ← get s.2 j k
          let q ← get s.2 i k
          let I ← put s.2 j k (y -. factor *. q)
          pure (X, I)) n 0 s
      else .ok s)
    (fun j s => (∀ a b, s.1 a b = if a = i ∨ a.val < j then XS a b else X a b) ∧
      (∀ a b, s.2 a b = if a = i ∨ a.val < j then IS a b else I a b)) n
    (by
      rintro j s hj ⟨h1, h2⟩
      by_cases e : j = i.val
      · refine ⟨s, by rw [if_neg (by simpa using e)], ?_, ?_⟩
        · intro a b
          rw [h1 a b]
          by_cases c1 : a = i ∨ a.val < j
          · rw [if_pos c1, if_pos (by rcases c1 with h | h; exacts [.inl h, .inr (by omega)])]
          · rw [if_neg c1, if_neg (by
              rintro (h | h)
              · exact c1 (.inl h)
              · exact c1 (by
                  by_cases h3 : a.val < j
                  · exact .inr h3
                  · exact .inl (Fin.ext (by omega))))]
        · intro a b
          rw [h2 a b]
          by_cases c1 : a = i ∨ a.val < j
          · rw [if_pos c1, if_pos (by rcases c1 with h | h; exacts [.inl h, .inr (by omega)])]
          · rw [if_neg c1, if_neg (by
              rintro (h | h)
              · exact c1 (.inl h)
              · exact c1 (by
                  by_cases h3 : a.val < j
                  · exact .inr h3
                  · exact .inl (Fin.ext (by omega))))]
      · rw [if_pos e]
        have efac := get_ok s.1 ⟨j, hj⟩ i
        dsimp only at efac
        have hji : (⟨j, hj⟩ : Fin n) ≠ i := fun h => e (by rw [← h])
        have hfac : s.1 ⟨j, hj⟩ i = X ⟨j, hj⟩ i := by
          rw [h1, if_neg (by rintro (h | h); exacts [hji h, by simp at h])]
        rw [efac, Out.bind_ok, hfac]
        obtain ⟨t, g1, g2, g3⟩ := loop_inv (fun k (s : Mx n n R × Mx n n R) => do
            let x ← get s.1 j k
            let p ← get s.1 i k
            let X_1 ← put s.1 j k (x -. X ⟨j, hj⟩ i *. p)
            let y ← get s.2 j k
            let q ← get s.2 i k
            let I ← put s.2 j k (y -. X ⟨j, hj⟩ i *. q)
            pure (X_1, I))
          (fun k t => (∀ a b, t.1 a b = if a.val = j ∧ b.val < k then XS a b else s.1 a b) ∧
            (∀ a b, t.2 a b = if a.val = j ∧ b.val < k then IS a b else s.2 a b)) n
          (by
            rintro k t hk ⟨q1, q2⟩
            have a1 := get_ok t.1 ⟨j, hj⟩ ⟨k, hk⟩
            have a2 := get_ok t.1 i ⟨k, hk⟩
            have a3 := put_ok t.1 ⟨j, hj⟩ ⟨k, hk⟩
            have b1 := get_ok t.2 ⟨j, hj⟩ ⟨k, hk⟩
            have b2 := get_ok t.2 i ⟨k, hk⟩
            have b3 := put_ok t.2 ⟨j, hj⟩ ⟨k, hk⟩
            dsimp only at a1 a2 a3 b1 b2 b3
            have v1 : t.1 ⟨j, hj⟩ ⟨k, hk⟩ -. X ⟨j, hj⟩ i *. t.1 i ⟨k, hk⟩ = XS ⟨j, hj⟩ ⟨k, hk⟩ := by
              rw [q1, if_neg (by simp), h1, if_neg (by rintro (h | h); exacts [hji h, by simp at h]), q1,
                if_neg (by rintro ⟨h, _⟩; exact e h.symm), h1, if_pos (.inl rfl), hXS]
              dsimp only
              rw [if_neg hji, if_pos rfl]
            have v2 : t.2 ⟨j, hj⟩ ⟨k, hk⟩ -. X ⟨j, hj⟩ i *. t.2 i ⟨k, hk⟩ = IS ⟨j, hj⟩ ⟨k, hk⟩ := by
              rw [q2, if_neg (by simp), h2, if_neg (by rintro (h | h); exacts [hji h, by simp at h]), q2,
                if_neg (by rintro ⟨h, _⟩; exact e h.symm), h2, if_pos (.inl rfl), hIS]
              dsimp only
              rw [if_neg hji, if_pos rfl]
            refine ⟨(upd t.1 ⟨j, hj⟩ ⟨k, hk⟩ (XS ⟨j, hj⟩ ⟨k, hk⟩), upd t.2 ⟨j, hj⟩ ⟨k, hk⟩ (IS ⟨j, hj⟩ ⟨k, hk⟩)),
              ?_, ?_, ?_⟩
            · rw [a1, Out.bind_ok, a2, Out.bind_ok, v1, a3, Out.bind_ok, b1, Out.bind_ok, b2, Out.bind_ok, v2,
                b3, Out.bind_ok]
              rfl
            · intro a b
              unfold upd
              dsimp only
              by_cases e : a = ⟨j, hj⟩ ∧ b = ⟨k, hk⟩
              · obtain ⟨rfl, rfl⟩ := e
                rw [if_pos ⟨rfl, rfl⟩, if_pos ⟨rfl, by simp⟩]
              · rw [if_neg e, q1]
                have : ¬(a.val = j ∧ b.val = k) := fun h => e ⟨Fin.ext h.1, Fin.ext h.2⟩
                by_cases c1 : a.val = j ∧ b.val < k
                · rw [if_pos c1, if_pos (by omega)]
                · rw [if_neg c1, if_neg (by omega)]
            · intro a b
              unfold upd
              dsimp only
              by_cases e : a = ⟨j, hj⟩ ∧ b = ⟨k, hk⟩
              · obtain ⟨rfl, rfl⟩ := e
                rw [if_pos ⟨rfl, rfl⟩, if_pos ⟨rfl, by simp⟩]
              · rw [if_neg e, q2]
                have : ¬(a.val = j ∧ b.val = k) := fun h => e ⟨Fin.ext h.1, Fin.ext h.2⟩
                by_cases c1 : a.val = j ∧ b.val < k
                · rw [if_pos c1, if_pos (by omega)]
                · rw [if_neg c1, if_neg (by omega)])
          n 0 s (by omega) ⟨by intro a b; rw [if_neg (by simp)], by intro a b; rw [if_neg (by simp)]⟩
        refine ⟨t, g1, ?_, ?_⟩
        · intro a b
          rw [g2 a b, h1 a b]
          by_cases c1 : a.val = j
          · rw [if_pos ⟨c1, b.2⟩, if_pos (.inr (by omega))]
          · rw [if_neg (fun h => c1 h.1)]
            by_cases c2 : a = i ∨ a.val < j
            · rw [if_pos c2, if_pos (by rcases c2 with h | h; exacts [.inl h, .inr (by omega)])]
            · rw [if_neg c2, if_neg (by
                rintro (h | h)
                · exact c2 (.inl h)
                · exact c2 (.inr (by omega)))]
        · intro a b
          rw [g3 a b, h2 a b]
          by_cases c1 : a.val = j
          · rw [if_pos ⟨c1, b.2⟩, if_pos (.inr (by omega))]
          · rw [if_neg (fun h => c1 h.1)]
            by_cases c2 : a = i ∨ a.val < j
            · rw [if_pos c2, if_pos (by rcases c2 with h | h; exacts [.inl h, .inr (by omega)])]
            · rw [if_neg c2, if_neg (by
                rintro (h | h)
                · exact c2 (.inl h)
                · exact c2 (.inr (by omega)))])
    n 0 s (by omega)
    (by
      constructor
      · intro a b
        rw [e1 a b]
        by_cases c1 : a = i
        · subst c1; rw [if_pos rfl, if_pos (.inl rfl), hXS]; dsimp only; rw [if_pos rfl]
        · rw [if_neg c1, if_neg (by rintro (h | h); exacts [c1 h, by omega])]
      · intro a b
        rw [e2 a b]
        by_cases c1 : a = i
        · subst c1; rw [if_pos rfl, if_pos (.inl rfl), hIS]; dsimp only; rw [if_pos rfl]
        · rw [if_neg c1, if_neg (by rintro (h | h); exacts [c1 h, by omega])])
  rw [h2]
  congr 1
  refine Prod.ext ?_ ?_
  · funext a b
    rw [ht1 a b, if_pos (.inr a.2)]
  · funext a b
    rw [ht2 a b, if_pos (.inr a.2)]

end Verif.Mat
