import Verif.Tdl.Model

/-!
# Specification of the delay line

A delay line denotes an infinite history `h : Nat → α`, `h i` being the value that was
inserted `i` insertions ago (the last flush value if there were not so many).
-/

namespace Verif.Tdl.Spec

variable {α : Type}

/-- Effect of one call on the history. -/
def step (h : Nat → α) : Op α → (Nat → α)
  | .insert x => fun i => match i with
    | 0 => x
    | i + 1 => h i
  | .flush v => fun _ => v

/-- Effect of a sequence of calls on the history. -/
def run (h : Nat → α) (ops : List (Op α)) : Nat → α := ops.foldl step h

end Verif.Tdl.Spec
