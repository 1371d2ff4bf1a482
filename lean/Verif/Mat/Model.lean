import Verif.Base
import Verif.Arith

/-!
# Model of `/repo/src/include/mat.hpp`

A `mat<Rows, Cols>` is a function `Fin Rows → Fin Cols → R`; every access goes through `get` and
`put`, which are undefined behaviour outside the array.
-/

namespace Verif.Mat

open Arith

variable {R : Type} [Arith R]

/-- The member `real_t m[ Rows ][ Cols ]`. `/repo/src/include/mat.hpp` line 36. -/
abbrev Mx (r c : Nat) (R : Type) := Fin r → Fin c → R

/-- Reading `m[ i ][ j ]`. `/repo/src/include/mat.hpp` lines 100-103 and 431-439. -/
def get {r c : Nat} (M : Mx r c R) (i j : Nat) : Out R :=
  if h : i < r ∧ j < c then .ok (M ⟨i, h.1⟩ ⟨j, h.2⟩) else .ub

/-- Writing `m[ i ][ j ]`. `/repo/src/include/mat.hpp` lines 100-103 and 431-439. -/
def put {r c : Nat} (M : Mx r c R) (i j : Nat) (v : R) : Out (Mx r c R) :=
  if i < r ∧ j < c then .ok (fun a b => if a.val = i ∧ b.val = j then v else M a b) else .ub

/-- `for ( i = 0; i < n; ++i ) { f }` from index `i` with `k` iterations left. -/
def loop {S : Type} (f : Nat → S → Out S) : Nat → Nat → S → Out S
  | 0, _, s => .ok s
  | k + 1, i, s => do
    let s ← f i s
    loop f k (i + 1) s

/-- The two nested loops over rows and columns used by every operator, for example
`/repo/src/include/mat.hpp` lines 40-44. -/
def for2 {S : Type} (r c : Nat) (f : Nat → Nat → S → Out S) (s : S) : Out S :=
  loop (fun i s => loop (fun j s => f i j s) c 0 s) r 0 s

/-- `mat()` run on the uninitialised array `u`. `/repo/src/include/mat.hpp` lines 38-45. -/
def zero {r c : Nat} (u : Mx r c R) : Out (Mx r c R) :=
  for2 r c (fun i j M => put M i j (lit 0)) u

/-- `matSpecial`, `/repo/src/include/mat.hpp` lines 20-25. -/
inductive Special where
  | zero | identity | all | magic

/-- `mat( const matSpecial type, const real_t value )` run on the uninitialised array `u`; it can only
be instantiated for square matrices (`static_assert` in line 51).
`/repo/src/include/mat.hpp` lines 47-81. -/
def special {n : Nat} (u : Mx n n R) (type : Special) (value : R) : Out (Mx n n R) :=
  match type with
  | .identity => for2 n n (fun i j M => if i = j then put M i j value else put M i j (lit 0)) u
  | .all => for2 n n (fun i j M => put M i j value) u
  | .magic => .ok u
  | .zero => for2 n n (fun i j M => put M i j (lit 0)) u

/-- `mat( Args... args )` run on the uninitialised array `u`; the number of arguments is checked at
compile time. `/repo/src/include/mat.hpp` lines 83-93. -/
def ofElements {r c : Nat} (u : Mx r c R) (elements : Array R) : Out (Mx r c R) :=
  for2 r c (fun i j M => do
    let v ← rdArr elements (i * c + j)
    put M i j v) u

/-- `operator()( size_t index )`, reading. `/repo/src/include/mat.hpp` lines 105-113. -/
def getIndex {r c : Nat} (M : Mx r c R) (index : Nat) : Out R := get M (index / c) (index % c)

/-- Copy constructor run on the uninitialised array `u`. `/repo/src/include/mat.hpp` lines 116-123. -/
def copy {r c : Nat} (u : Mx r c R) (other : Mx r c R) : Out (Mx r c R) :=
  for2 r c (fun i j M => do
    let v ← get other i j
    put M i j v) u

/-- The operators that write `f( m[ i ][ j ] )` in a new matrix: `operator*`, `operator/`, `operator+`,
`operator-` with a scalar on either side and unary minus.
`/repo/src/include/mat.hpp` lines 164-173, 176-185, 188-197, 211-220, 244-253, 358-367, 370-379, 395-404. -/
def mapNew {r c : Nat} (u : Mx r c R) (f : R → R) (A : Mx r c R) : Out (Mx r c R) := do
  let result ← zero u
  for2 r c (fun i j M => do
    let v ← get A i j
    put M i j (f v)) result

/-- `operator+( const mat& )`, `/repo/src/include/mat.hpp` lines 126-135. -/
def add {r c : Nat} (u : Mx r c R) (A B : Mx r c R) : Out (Mx r c R) := do
  let result ← zero u
  for2 r c (fun i j M => do
    let a ← get A i j
    let b ← get B i j
    put M i j (a +. b)) result

/-- `operator-( const mat& )`, `/repo/src/include/mat.hpp` lines 137-146. -/
def sub {r c : Nat} (u : Mx r c R) (A B : Mx r c R) : Out (Mx r c R) := do
  let result ← zero u
  for2 r c (fun i j M => do
    let a ← get A i j
    let b ← get B i j
    put M i j (a -. b)) result

/-- `operator*( const mat& )`, `/repo/src/include/mat.hpp` lines 148-161. -/
def mul {r c n : Nat} (u : Mx r n R) (A : Mx r c R) (B : Mx c n R) : Out (Mx r n R) := do
  let result ← zero u
  for2 r n (fun i j M => do
    let M ← put M i j (lit 0)
    loop (fun k M => do
      let x ← get M i j
      let a ← get A i k
      let b ← get B k j
      put M i j (x +. a *. b)) c 0 M) result

/-- `operator*( const real_t& )`, `/repo/src/include/mat.hpp` lines 164-173. -/
def mulScalar {r c : Nat} (u A : Mx r c R) (s : R) : Out (Mx r c R) := mapNew u (fun v => v *. s) A

/-- `operator/( const real_t& )`, `/repo/src/include/mat.hpp` lines 176-185. -/
def divScalar {r c : Nat} (u A : Mx r c R) (s : R) : Out (Mx r c R) := mapNew u (fun v => v /. s) A

/-- `operator*( const real_t&, const mat& )`, `/repo/src/include/mat.hpp` lines 188-197. -/
def scalarMul {r c : Nat} (u A : Mx r c R) (s : R) : Out (Mx r c R) := mapNew u (fun v => s *. v) A

/-- `operator+( const real_t& )`, `/repo/src/include/mat.hpp` lines 211-220. -/
def addScalar {r c : Nat} (u A : Mx r c R) (s : R) : Out (Mx r c R) := mapNew u (fun v => v +. s) A

/-- `operator-( const real_t& )`, `/repo/src/include/mat.hpp` lines 244-253. -/
def subScalar {r c : Nat} (u A : Mx r c R) (s : R) : Out (Mx r c R) := mapNew u (fun v => v -. s) A

/-- `operator+( const real_t&, const mat& )`, `/repo/src/include/mat.hpp` lines 358-367. -/
def scalarAdd {r c : Nat} (u A : Mx r c R) (s : R) : Out (Mx r c R) := mapNew u (fun v => s +. v) A

/-- `operator-( const real_t&, const mat& )`, `/repo/src/include/mat.hpp` lines 370-379. -/
def scalarSub {r c : Nat} (u A : Mx r c R) (s : R) : Out (Mx r c R) := mapNew u (fun v => s -. v) A

/-- `operator-()`, `/repo/src/include/mat.hpp` lines 395-404. -/
def negate {r c : Nat} (u A : Mx r c R) : Out (Mx r c R) := mapNew u (fun v => -. v) A

/-- A `const real_t&` argument: an object outside the matrix, or an element of the matrix itself. -/
inductive Ref (R : Type) where
  | val (v : R)
  | elem (i j : Nat)

/-- Reading through a reference while the matrix is being modified. -/
def Ref.read {r c : Nat} (s : Ref R) (M : Mx r c R) : Out R :=
  match s with
  | .val v => .ok v
  | .elem i j => get M i j

/-- The compound assignments with a scalar: `m[ i ][ j ] = f( m[ i ][ j ], scalar )`, the scalar read
through its reference in every iteration.
`/repo/src/include/mat.hpp` lines 316-323, 326-333, 336-344, 347-355. -/
def scalarAssign {r c : Nat} (f : R → R → R) (A : Mx r c R) (s : Ref R) : Out (Mx r c R) :=
  for2 r c (fun i j M => do
    let v ← get M i j
    let x ← s.read M
    put M i j (f v x)) A

/-- `operator*=( const real_t& )`, `/repo/src/include/mat.hpp` lines 316-323. -/
def mulAssignScalar {r c : Nat} (A : Mx r c R) (s : Ref R) : Out (Mx r c R) :=
  scalarAssign (fun v x => v *. x) A s

/-- `operator/=( const real_t& )`, `/repo/src/include/mat.hpp` lines 326-333. -/
def divAssignScalar {r c : Nat} (A : Mx r c R) (s : Ref R) : Out (Mx r c R) :=
  scalarAssign (fun v x => v /. x) A s

/-- `operator+=( const real_t& )`, `/repo/src/include/mat.hpp` lines 336-344. -/
def addAssignScalar {r c : Nat} (A : Mx r c R) (s : Ref R) : Out (Mx r c R) :=
  scalarAssign (fun v x => v +. x) A s

/-- `operator-=( const real_t& )`, `/repo/src/include/mat.hpp` lines 347-355. -/
def subAssignScalar {r c : Nat} (A : Mx r c R) (s : Ref R) : Out (Mx r c R) :=
  scalarAssign (fun v x => v -. x) A s

/-- `operator++()`; `++x` on a `real_t` adds 1. `/repo/src/include/mat.hpp` lines 223-231. -/
def preInc {r c : Nat} (A : Mx r c R) : Out (Mx r c R) :=
  for2 r c (fun i j M => do
    let v ← get M i j
    put M i j (v +. lit 1)) A

/-- `operator++( int )`: the new object and the value returned.
`/repo/src/include/mat.hpp` lines 233-242. -/
def postInc {r c : Nat} (u A : Mx r c R) : Out (Mx r c R × Mx r c R) := do
  let temp ← copy u A
  let A ← for2 r c (fun i j M => do
    let v ← get M i j
    put M i j (v +. lit 1)) A
  pure (A, temp)

/-- `operator--()`; it increments. `/repo/src/include/mat.hpp` lines 256-264. -/
def preDec {r c : Nat} (A : Mx r c R) : Out (Mx r c R) :=
  for2 r c (fun i j M => do
    let v ← get M i j
    put M i j (v +. lit 1)) A

/-- `operator--( int )`: the new object and the value returned.
`/repo/src/include/mat.hpp` lines 266-275. -/
def postDec {r c : Nat} (u A : Mx r c R) : Out (Mx r c R × Mx r c R) := do
  let temp ← copy u A
  let A ← for2 r c (fun i j M => do
    let v ← get M i j
    put M i j (v -. lit 1)) A
  pure (A, temp)

/-- The operand of a compound assignment; `none` is `*this` itself. -/
def operand {r c : Nat} (other : Option (Mx r c R)) (M : Mx r c R) : Mx r c R :=
  match other with
  | some B => B
  | none => M

/-- `operator+=( const mat& )`, `/repo/src/include/mat.hpp` lines 278-285. -/
def addAssign {r c : Nat} (A : Mx r c R) (other : Option (Mx r c R)) : Out (Mx r c R) :=
  for2 r c (fun i j M => do
    let a ← get M i j
    let b ← get (operand other M) i j
    put M i j (a +. b)) A

/-- `operator-=( const mat& )`, `/repo/src/include/mat.hpp` lines 288-295. -/
def subAssign {r c : Nat} (A : Mx r c R) (other : Option (Mx r c R)) : Out (Mx r c R) :=
  for2 r c (fun i j M => do
    let a ← get M i j
    let b ← get (operand other M) i j
    put M i j (a -. b)) A

/-- `operator*=( const mat& )`; `*this = result` only compiles for a square operand.
`/repo/src/include/mat.hpp` lines 298-313. -/
def mulAssign {r c : Nat} (u A : Mx r c R) (B : Mx c c R) : Out (Mx r c R) := do
  let result ← mul u A B
  copy A result

/-- `operator=`, for an argument that is not the object itself. `/repo/src/include/mat.hpp` lines 382-392. -/
def assign {r c : Nat} (A other : Mx r c R) : Out (Mx r c R) := copy A other

/-- `operator!()`, the transpose. `/repo/src/include/mat.hpp` lines 418-428. -/
def transpose {r c : Nat} (u : Mx c r R) (A : Mx r c R) : Out (Mx c r R) := do
  let t ← zero u
  for2 r c (fun i j M => do
    let v ← get A i j
    put M j i v) t

/-- One iteration of the outer loop of `inv()` on `( X, I )`. `/repo/src/include/mat.hpp` lines 447-463. -/
def invStep {n : Nat} (i : Nat) (s : Mx n n R × Mx n n R) : Out (Mx n n R × Mx n n R) := do
  let pivot ← get s.1 i i
  let s ← loop (fun j s => do
    let x ← get s.1 i j
    let X ← put s.1 i j (x /. pivot)
    let y ← get s.2 i j
    let I ← put s.2 i j (y /. pivot)
    pure (X, I)) n 0 s
  loop (fun j s =>
    if j ≠ i then do
      let factor ← get s.1 j i
      loop (fun k s => do
        let x ← get s.1 j k
        let p ← get s.1 i k
        let X ← put s.1 j k (x -. factor *. p)
        let y ← get s.2 j k
        let q ← get s.2 i k
        let I ← put s.2 j k (y -. factor *. q)
        pure (X, I)) n 0 s
    else .ok s) n 0 s

/-- `inv()`, `/repo/src/include/mat.hpp` lines 441-466. -/
def inv {n : Nat} (u v A : Mx n n R) : Out (Mx n n R) := do
  let X ← copy u A
  let I ← special v .identity (lit 1)
  let s ← loop invStep n 0 (X, I)
  pure s.2

/-- Inner loop of `normInf()`: the sum of absolute values. `/repo/src/include/mat.hpp` lines 474-477. -/
def rowSum {r c : Nat} (A : Mx r c R) (i : Nat) : Out R :=
  loop (fun j sum => do
    let v ← get A i j
    pure (sum +. (if v <. lit 0 then -. v else v))) r 0 (lit 0)

/-- `normInf()`; the bounds of its loops are exchanged. `/repo/src/include/mat.hpp` lines 468-484. -/
def normInf {r c : Nat} (A : Mx r c R) : Out R :=
  loop (fun i maxM => do
    let sum ← rowSum A i
    let maxM := if i = 0 then sum else maxM
    pure (if maxM <. sum then sum else maxM)) c 0 (lit 0)

end Verif.Mat
