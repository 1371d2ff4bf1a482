/-!
# Outcomes of C++ code

Undefined behaviour and non-termination are made distinct outcomes, so that a
theorem whose conclusion is `Out.ok v` also states that the modelled code is free
of undefined behaviour and terminates on the given input.
-/

namespace Verif

/-- Outcome of running a piece of C++: a value, undefined behaviour (signed
overflow, out-of-bounds access, over-wide shift), or non-termination (only used for
`while` loops modelled with fuel). Not a definition of the repository. -/
inductive Out (α : Type u) where
  | ok (a : α)
  | ub
  | diverge
  deriving DecidableEq, Repr

namespace Out

/-- Sequencing: stop at the first `ub`/`diverge`. Not a definition of the repository. -/
protected def bind {α : Type u} {β : Type v} : Out α → (α → Out β) → Out β
  | ok a, f => f a
  | ub, _ => ub
  | diverge, _ => diverge

instance : Monad Out where
  pure := ok
  bind := Out.bind

@[simp] theorem pure_eq {α : Type u} (a : α) : (pure a : Out α) = ok a := rfl
@[simp] theorem bind_ok {α β : Type u} (a : α) (f : α → Out β) : (ok a >>= f) = f a := rfl
@[simp] theorem bind_ub {α β : Type u} (f : α → Out β) : ((ub : Out α) >>= f) = ub := rfl
@[simp] theorem bind_diverge {α β : Type u} (f : α → Out β) :
    ((diverge : Out α) >>= f) = diverge := rfl

theorem bind_eq_ok {α β : Type u} {x : Out α} {f : α → Out β} {b : β} :
    (x >>= f) = ok b ↔ ∃ a, x = ok a ∧ f a = ok b := by
  cases x <;> simp

@[simp] theorem map_ok {α β : Type u} (f : α → β) (a : α) : f <$> (ok a) = ok (f a) := rfl

instance : LawfulMonad Out := LawfulMonad.mk' Out
  (id_map := by intro α x; cases x <;> rfl)
  (pure_bind := by intros; rfl)
  (bind_assoc := by intro α β γ x f g; cases x <;> rfl)

end Out

/-- Checked array read: outside the array is undefined behaviour. -/
def rdArr {α : Type u} (a : Array α) (i : Nat) : Out α :=
  if h : i < a.size then .ok a[i] else .ub

/-- Checked array write: outside the array is undefined behaviour. -/
def wrArr {α : Type u} (a : Array α) (i : Nat) (v : α) : Out (Array α) :=
  if h : i < a.size then .ok (a.set i v) else .ub

theorem rdArr_ok {α : Type u} {a : Array α} {i : Nat} (h : i < a.size) :
    rdArr a i = .ok a[i] := by simp [rdArr, h]

theorem wrArr_ok {α : Type u} {a : Array α} {i : Nat} {v : α} (h : i < a.size) :
    wrArr a i v = .ok (a.set i v) := by simp [wrArr, h]

theorem rdArr_set {α : Type u} {a : Array α} {i j : Nat} {v : α} (h : i < a.size) :
    rdArr (a.set i v) j = if i = j then .ok v else rdArr a j := by
  unfold rdArr
  by_cases hj : j < a.size
  · simp only [Array.size_set, hj, dif_pos, Array.getElem_set]
    split <;> rfl
  · have : i ≠ j := by omega
    simp [hj, this]

theorem rdArr_eq_ok {α : Type u} {a : Array α} {i : Nat} {v : α} :
    rdArr a i = .ok v ↔ a[i]? = some v := by
  unfold rdArr
  by_cases h : i < a.size
  · simp [h]
  · simp [h]

end Verif
