import Verif.Fis.Model

/-!
# Rule bases and their encoding

The rules as a user writes them with the macros of `/repo/src/include/fis.hpp` lines 430-490, and the
list of rule items the preprocessor makes of them.
-/

namespace Verif.Fis

open Arith

/-- `<input> IS <set>` or `<input> IS_NOT <set>`. Not a definition of the repository. -/
structure Term where
  inp : Nat
  mf : Nat
  neg : Bool
  deriving DecidableEq, Repr

/-- A connector between two terms. Not a definition of the repository. -/
inductive Conn where
  | and | or
  deriving DecidableEq, Repr

/-- `IF head (c t)* THEN first (AND more)* END`. Not a definition of the repository. -/
structure Rule where
  head : Term
  tail : List (Conn × Term)
  first : Term
  more : List Term
  deriving DecidableEq, Repr

/-- The item of a connector. `/repo/src/include/fis.hpp` lines 431-432. -/
def Conn.item : Conn → Int
  | .and => AND
  | .or => OR

/-- `IS` is `, ( mf + 1 )` and `IS_NOT` is `, -( mf + 1 )`.
`/repo/src/include/fis.hpp` lines 434-436. -/
def setItem (mf : Nat) (neg : Bool) : Int := if neg then -((mf : Int) + 1) else (mf : Int) + 1

/-- The two items of a term. `/repo/src/include/fis.hpp` lines 430-436. -/
def Term.items (t : Term) : List Int := [(t.inp : Int), setItem t.mf t.neg]

/-- The items of the terms after the first one. `/repo/src/include/fis.hpp` lines 431-432. -/
def tailItems : List (Conn × Term) → List Int
  | [] => []
  | (c, t) :: l => c.item :: (t.items ++ tailItems l)

/-- The items of the consequents after the first one. `/repo/src/include/fis.hpp` line 431. -/
def moreItems : List Term → List Int
  | [] => []
  | t :: l => AND :: (t.items ++ moreItems l)

/-- The items of a rule. `/repo/src/include/fis.hpp` lines 430-436. -/
def Rule.items (r : Rule) : List Int :=
  r.head.items ++ tailItems r.tail ++ [THEN] ++ r.first.items ++ moreItems r.more

/-- The items of the rules of a rule base. -/
def ruleItems : List Rule → List Int
  | [] => []
  | r :: l => r.items ++ ruleItems l

/-- A whole rule base. `/repo/src/include/fis.hpp` lines 457, 476. -/
def program (rs : List Rule) : List Int := RULES_BEGIN :: (ruleItems rs ++ [RULES_END])

variable {R : Type} [Arith R]

/-- Degree to which a term holds: the membership of its set limited to [0, 1], complemented for
`IS_NOT`. Not a definition of the repository. -/
def degree (ms : Array (MF R)) (t : Term) : R :=
  match ms[t.mf]? with
  | none => lit 0
  | some m => if t.neg then lit 1 -. bound01 m.fx else bound01 m.fx

/-- The operator configured for a connector. Not a definition of the repository. -/
def connOp (andOp orOp : Op) : Conn → Op
  | .and => andOp
  | .or => orOp

/-- Strength of a rule: its terms combined from left to right. Not a definition of the repository. -/
def strength (ms : Array (MF R)) (andOp orOp : Op) (r : Rule) : R :=
  r.tail.foldl (fun acc ct => (connOp andOp orOp ct.1).app acc (degree ms ct.2)) (Sum (lit 0) (degree ms r.head))

/-- Strength times the rule weight, limited to [0, 1], when there are weights.
Not a definition of the repository. -/
def weighted (weights : Option (Array R)) (k : Nat) (x : R) : R :=
  match weights with
  | none => x
  | some rw =>
    match rw[k]? with
    | none => x
    | some b => x *. bound01 b

end Verif.Fis
