import Verif.Algorithm.Model

/-! # Notions used to state the properties of `algorithm.hpp` (independent of the code) -/

namespace Verif.Algorithm

variable {α : Type}

/-- Strict weak order, with equivalence = incomparability. -/
structure StrictWeak (lt : α → α → Bool) : Prop where
  asymm : ∀ x y, lt x y = true → lt y x = false
  trans' : ∀ x y z, lt y x = false → lt z y = false → lt z x = false

/-- Visiting a list in order with a stateful callback: final state and new elements. -/
def visit {σ : Type} (fn : σ → α → σ × α) : σ → List α → σ × List α
  | st, [] => (st, [])
  | st, x :: xs =>
    let r := fn st x
    let rs := visit fn r.1 xs
    (rs.1, r.2 :: rs.2)

/-- Partitioned with respect to the key: smaller elements, then equal ones, then the rest. -/
def Partitioned (lt eqv : α → α → Bool) (a : Array α) (key : α) (f l : Nat) : Prop :=
  ∀ i j x y, f ≤ i → i ≤ j → j ≤ l → a[i]? = some x → a[j]? = some y →
    (lt y key = true → eqv y key = false → eqv x key = false) ∧
    (lt x key = false → eqv x key = false → eqv y key = false)

end Verif.Algorithm
