import Verif.Base

/-!
# Model of `/repo/src/include/algorithm.hpp`

Polymorphic in the element type `α`; `operator<` and `operator==` are arbitrary Boolean
functions `lt`, `eqv`. The template parameter `n` is the size of the array. Index variables
of type `int` hold positions of the array; `n` is assumed to fit an `int`. `size_t` is a
`Nat` except where the code wraps around (`subSize`).
-/

namespace Verif.Algorithm

variable {α : Type}

/-- `algorithm::swap( array[i], array[j] )`. `/repo/src/include/algorithm.hpp` lines 36-42. -/
def swapAt (a : Array α) (i j : Nat) : Out (Array α) := do
  let x ← rdArr a i
  let y ← rdArr a j
  let a ← wrArr a i y
  wrArr a j x

/-- The test of one loop iteration of `sort`: with a comparator `comp( array[i],
array[pivotIndex] )`, otherwise `array[i] < pivotValue`. `/repo/src/include/algorithm.hpp` lines 120-126. -/
def sortTest (lt : α → α → Bool) (comp : Option (α → α → Bool)) (a : Array α) (pv : α)
    (i q : Nat) : Out Bool := do
  let x ← rdArr a i
  match comp with
  | some c => do
    let y ← rdArr a q
    pure (c x y)
  | none => pure (lt x pv)

/-- The `for` loop of `sort`, `k` iterations left, `i = end - k`; returns the array and
`pivotIndex`. `/repo/src/include/algorithm.hpp` lines 119-130. -/
def partLoop (lt : α → α → Bool) (comp : Option (α → α → Bool)) (pv : α) :
    Nat → Nat → Nat → Array α → Out (Array α × Nat)
  | 0, _, q, a => .ok (a, q)
  | k + 1, i, q, a => do
    if ← sortTest lt comp a pv i q then
      let a ← swapAt a i q
      partLoop lt comp pv k (i + 1) (q + 1) a
    else
      partLoop lt comp pv k (i + 1) q a

/-- `sort_stack::push`: a value pushed on a full stack (capacity `cap`) is dropped.
`/repo/src/include/algorithm.hpp` lines 61-66. The top of the stack is the head of the list. -/
def push (cap : Nat) (st : List (Nat × Nat)) (v : Nat × Nat) : List (Nat × Nat) :=
  if st.length < cap then v :: st else st

/-- The `while` loop of `sort`. `cap` is the template parameter `n`. The comparisons
`pivotIndex - 1 > start` (on `int`) is written `pivotIndex > start + 1`. Running out of
fuel is the outcome `diverge`. `/repo/src/include/algorithm.hpp` lines 111-138. -/
def sortLoop (lt : α → α → Bool) (comp : Option (α → α → Bool)) (cap : Nat) :
    Nat → List (Nat × Nat) → Array α → Out (Array α)
  | _, [], a => .ok a
  | 0, _ :: _, _ => .diverge
  | fuel + 1, (s, e) :: st, a => do
    let pv ← rdArr a e
    let (a, q) ← partLoop lt comp pv (e - s) s s a
    let a ← swapAt a q e
    let st := if q > s + 1 then push cap st (s, q - 1) else st
    let st := if q + 1 < e then push cap st (q + 1, e) else st
    sortLoop lt comp cap fuel st a

/-- `algorithm::sort`. `/repo/src/include/algorithm.hpp` lines 99-140. -/
def sort (lt : α → α → Bool) (comp : Option (α → α → Bool)) (a : Array α)
    (first last : Nat) : Out (Array α) :=
  if a.size > 1 then
    sortLoop lt comp a.size (a.size + 1) (push a.size [] (first, last)) a
  else .ok a

/-- The `while` loop of `reverse`; the fuel is the number of swaps available. `/repo/src/include/algorithm.hpp` lines 157-161. -/
def reverseLoop : Nat → Nat → Nat → Array α → Out (Array α)
  | 0, s, e, a => if s < e then .diverge else .ok a
  | fuel + 1, s, e, a =>
    if s < e then do
      let a ← swapAt a s e
      reverseLoop fuel (s + 1) (e - 1) a
    else .ok a

/-- `algorithm::reverse`. `/repo/src/include/algorithm.hpp` lines 149-163. -/
def reverse (a : Array α) (first last : Nat) : Out (Array α) :=
  if last > first then reverseLoop (last - first) first last a else .ok a

/-- `a - b` on `size_t` (64 bits, wraps around). Used by `/repo/src/include/algorithm.hpp` lines 182-193. -/
def subSize (a b : Nat) : Nat := (a + 2 ^ 64 - b) % 2 ^ 64

/-- `algorithm::rotate`; `k` is an `int`, `-k` overflows for `INT_MIN`. `/repo/src/include/algorithm.hpp` lines 173-196. -/
def rotate (a : Array α) (k : Int) : Out (Array α) :=
  let n := a.size
  if k ≠ 0 then
    if k > 0 then do
      let r := k.toNat % n
      let a ← reverse a (subSize n r) (subSize n 1)
      let a ← reverse a 0 (subSize (subSize n r) 1)
      reverse a 0 (subSize n 1)
    else if k = -2 ^ 31 then .ub
    else do
      let r := (-k).toNat % n
      let a ← reverse a 0 (subSize r 1)
      let a ← reverse a r (subSize n 1)
      reverse a 0 (subSize n 1)
  else .ok a

/-- Loop of `fill`, `k` iterations left. `/repo/src/include/algorithm.hpp` lines 213-215. -/
def fillLoop (value : α) : Nat → Nat → Array α → Out (Array α)
  | 0, _, a => .ok a
  | k + 1, i, a => do
    let a ← wrArr a i value
    fillLoop value k (i + 1) a

/-- `algorithm::fill`; `last + 1 - first` iterations (`last < SIZE_MAX`). `/repo/src/include/algorithm.hpp` lines 207-216. -/
def fill (a : Array α) (value : α) (first last : Nat) : Out (Array α) :=
  fillLoop value (last + 1 - first) first a

/-- Loop of `find`, `k` iterations left; a pointer is the index of the element. `/repo/src/include/algorithm.hpp` lines 240-245. -/
def findLoop (eqv : α → α → Bool) (a : Array α) (key : α) : Nat → Nat → Out (Option Nat)
  | 0, _ => .ok none
  | k + 1, i => do
    let x ← rdArr a i
    if eqv x key then pure (some i) else findLoop eqv a key k (i + 1)

/-- `algorithm::find`. `/repo/src/include/algorithm.hpp` lines 232-247. -/
def find (eqv : α → α → Bool) (a : Array α) (key : α) (first last : Nat) : Out (Option Nat) :=
  findLoop eqv a key (last + 1 - first) first

/-- Loop of `any_of`. `/repo/src/include/algorithm.hpp` lines 270-275. -/
def anyLoop (pred : α → Bool) (a : Array α) : Nat → Nat → Out Bool
  | 0, _ => .ok false
  | k + 1, i => do
    let x ← rdArr a i
    if pred x then pure true else anyLoop pred a k (i + 1)

/-- `algorithm::any_of`. `/repo/src/include/algorithm.hpp` lines 262-277. -/
def any_of (pred : α → Bool) (a : Array α) (first last : Nat) : Out Bool :=
  anyLoop pred a (last + 1 - first) first

/-- Loop of `all_of`. `/repo/src/include/algorithm.hpp` lines 300-305. -/
def allLoop (pred : α → Bool) (a : Array α) : Nat → Nat → Out Bool
  | 0, _ => .ok true
  | k + 1, i => do
    let x ← rdArr a i
    if !pred x then pure false else allLoop pred a k (i + 1)

/-- `algorithm::all_of`. `/repo/src/include/algorithm.hpp` lines 292-307. -/
def all_of (pred : α → Bool) (a : Array α) (first last : Nat) : Out Bool :=
  allLoop pred a (last + 1 - first) first

/-- Loop of `replace_if` (breaks after the first replacement). `/repo/src/include/algorithm.hpp` lines 354-359. -/
def replaceIfLoop (pred : α → Bool) (new_value : α) : Nat → Nat → Array α → Out (Array α)
  | 0, _, a => .ok a
  | k + 1, i, a => do
    let x ← rdArr a i
    if pred x then wrArr a i new_value else replaceIfLoop pred new_value k (i + 1) a

/-- `algorithm::replace_if`. `/repo/src/include/algorithm.hpp` lines 347-360. -/
def replace_if (pred : α → Bool) (a : Array α) (new_value : α) (first last : Nat) :
    Out (Array α) :=
  replaceIfLoop pred new_value (last + 1 - first) first a

/-- `algorithm::replace`: the loop of `replace_if` with the test `old_value == array[i]`
(the two loops are textually the same otherwise). `old_value` and `new_value` are taken by
value: a reference into the array itself is not modelled. `/repo/src/include/algorithm.hpp` lines 320-333. -/
def replace (eqv : α → α → Bool) (a : Array α) (old_value new_value : α) (first last : Nat) :
    Out (Array α) :=
  replaceIfLoop (fun x => eqv old_value x) new_value (last + 1 - first) first a

/-- Loop of `count_if`. `/repo/src/include/algorithm.hpp` lines 382-386. -/
def countLoop (pred : α → Bool) (a : Array α) : Nat → Nat → Nat → Out Nat
  | 0, _, c => .ok c
  | k + 1, i, c => do
    let x ← rdArr a i
    countLoop pred a k (i + 1) (if pred x then c + 1 else c)

/-- `algorithm::count_if`. `/repo/src/include/algorithm.hpp` lines 374-388. -/
def count_if (pred : α → Bool) (a : Array α) (first last : Nat) : Out Nat :=
  countLoop pred a (last + 1 - first) first 0

/-- Loop of `find_if` (no break). `/repo/src/include/algorithm.hpp` lines 413-417. -/
def findIfLoop (pred : α → Bool) (a : Array α) : Nat → Nat → Option Nat → Out (Option Nat)
  | 0, _, f => .ok f
  | k + 1, i, f => do
    let x ← rdArr a i
    findIfLoop pred a k (i + 1) (if pred x then some i else f)

/-- `algorithm::find_if`. `/repo/src/include/algorithm.hpp` lines 405-419. -/
def find_if (pred : α → Bool) (a : Array α) (first last : Nat) : Out (Option Nat) :=
  findIfLoop pred a (last + 1 - first) first none

/-- Loop of `for_each`; the callback `void fn( T& )` is a function that gives the new value of
the element and may change an external state `σ`. `/repo/src/include/algorithm.hpp` lines 437-439. -/
def forEachLoop {σ : Type} (fn : σ → α → σ × α) : Nat → Nat → σ → Array α → Out (σ × Array α)
  | 0, _, st, a => .ok (st, a)
  | k + 1, i, st, a => do
    let x ← rdArr a i
    let (st, y) := fn st x
    let a ← wrArr a i y
    forEachLoop fn k (i + 1) st a

/-- `algorithm::for_each`. `/repo/src/include/algorithm.hpp` lines 431-440. -/
def for_each {σ : Type} (fn : σ → α → σ × α) (st : σ) (a : Array α) (first last : Nat) :
    Out (σ × Array α) :=
  forEachLoop fn (last + 1 - first) first st a

/-- `array[ i ]` with an `int` index. `/repo/src/include/algorithm.hpp` lines 472, 476. -/
def rdInt (a : Array α) (i : Int) : Out α := if 0 ≤ i then rdArr a i.toNat else .ub

/-- The `while` loop of `binary_search`. `( right - left )/2` is taken of a non-negative
number. `/repo/src/include/algorithm.hpp` lines 469-482. -/
def bsLoop (lt eqv : α → α → Bool) (a : Array α) (key : α) : Nat → Int → Int → Out (Option Int)
  | 0, left, right => if left ≤ right then .diverge else .ok none
  | fuel + 1, left, right =>
    if left ≤ right then do
      let mid := left + (right - left) / 2
      let x ← rdInt a mid
      if eqv x key then pure (some mid)
      else if lt x key then bsLoop lt eqv a key fuel (mid + 1) right
      else bsLoop lt eqv a key fuel left (mid - 1)
    else .ok none

/-- `algorithm::binary_search`. `/repo/src/include/algorithm.hpp` lines 459-484. -/
def binary_search (lt eqv : α → α → Bool) (a : Array α) (key : α) (first last : Nat) :
    Out (Option Int) :=
  bsLoop lt eqv a key (last + 1 - first) first last

end Verif.Algorithm
