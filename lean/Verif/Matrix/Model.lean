/-
Model of include/altruct/structure/math/matrix.h.

A matrix is a list of rows (`std::vector<std::vector<T>>`).  Accesses are checked: `none` is an
access out of bounds or a division by zero.
-/
import Verif.Common.Vec
import Mathlib.Algebra.Field.Defs

namespace Altruct.LinAlg

abbrev Mat (α : Type) := List (List α)

section Ring
variable {α : Type} [CommRing α]

/-- `a[i][j]`. -/
def rd2 (M : Mat α) (i j : Nat) : Option α := do
  let r ← rd M i
  rd r j

/-- `a[i][j] = x`. -/
def wr2 (M : Mat α) (i j : Nat) (x : α) : Option (Mat α) := do
  let r ← rd M i
  let r ← wr r j x
  wr M i r

/-- matrix.h:23-29 the constructor of an `n x m` matrix (`m = 0` stands for `m = n`). -/
def mk (n m : Nat) (zero : α) : Mat α := List.replicate n (List.replicate (if m = 0 then n else m) zero)

/-- matrix.h:43-45 `rows` and matrix.h:47-49 `cols`. -/
def rows (M : Mat α) : Nat := M.length
def cols (M : Mat α) : Nat := match M.getLast? with
  | none => 0
  | some r => r.length

/-- matrix.h:70-72, 87-89, 123-125, 143-145 the inner loops `for (j = 0; j < m; j++) a[i][j] = f(a[i][j], rhs[i][j])`;
`k` iterations remain.  `none` as right-hand side is the matrix itself. -/
def zipRow (f : α → α → α) (rhs : Option (Mat α)) (i : Nat) : Nat → Nat → Mat α → Option (Mat α)
  | 0, _, M => some M
  | k + 1, j, M => do
    let x ← rd2 M i j
    let y ← rd2 (rhs.getD M) i j
    let M ← wr2 M i j (f x y)
    zipRow f rhs i k (j + 1) M

/-- matrix.h:69-73, 86-90, 122-126 the outer loops; `k` iterations remain. -/
def zipRows (f : α → α → α) (rhs : Option (Mat α)) (m : Nat) : Nat → Nat → Mat α → Option (Mat α)
  | 0, _, M => some M
  | k + 1, i, M => do
    let M ← zipRow f rhs i m 0 M
    zipRows f rhs m k (i + 1) M

/-- matrix.h:67-75 `operator +=`, matrix.h:84-92 `operator -=` and matrix.h:120-128 `operator *=` by a scalar
that is not stored in the matrix. -/
def addA (M : Mat α) (rhs : Option (Mat α)) : Option (Mat α) := zipRows (· + ·) rhs (cols M) (rows M) 0 M
def subA (M : Mat α) (rhs : Option (Mat α)) : Option (Mat α) := zipRows (· - ·) rhs (cols M) (rows M) 0 M
def scaleA (M : Mat α) (s : α) : Option (Mat α) := zipRows (fun x _ => x * s) none (cols M) (rows M) 0 M

/-- matrix.h:108-110 the innermost loop of `operator *=`; `n` iterations remain. -/
def dot (A B : Mat α) (i j : Nat) : Nat → Nat → α → Option α
  | 0, _, s => some s
  | n + 1, k, s => do
    let x ← rd2 A i k
    let y ← rd2 B k j
    dot A B i j n (k + 1) (s + x * y)

/-- matrix.h:106-112 the middle loop. -/
def mulRow (A B : Mat α) (m i : Nat) : Nat → Nat → Mat α → Option (Mat α)
  | 0, _, t => some t
  | n + 1, j, t => do
    let s ← dot A B i j m 0 0
    let t ← wr2 t i j s
    mulRow A B m i n (j + 1) t

/-- matrix.h:105-113 the outer loop. -/
def mulRows (A B : Mat α) (m p : Nat) : Nat → Nat → Mat α → Option (Mat α)
  | 0, _, t => some t
  | n + 1, i, t => do
    let t ← mulRow A B m i p 0 t
    mulRows A B m p n (i + 1) t

/-- matrix.h:101-115 `operator *=` by a matrix; `a[0][0]` is read first.  The result is a new matrix,
so the operands may be the same object. -/
def mulA (A B : Mat α) : Option (Mat α) := do
  let _ ← rd2 A 0 0
  mulRows A B (cols A) (cols B) (rows A) 0 (mk (rows A) (cols B) 0)

/-- matrix.h:239-241 the inner loop of `transpose`. -/
def trRow (A : Mat α) (i : Nat) : Nat → Nat → Mat α → Option (Mat α)
  | 0, _, t => some t
  | n + 1, j, t => do
    let x ← rd2 A i j
    let t ← wr2 t j i x
    trRow A i n (j + 1) t

/-- matrix.h:238-242 the outer loop of `transpose`. -/
def trRows (A : Mat α) (m : Nat) : Nat → Nat → Mat α → Option (Mat α)
  | 0, _, t => some t
  | n + 1, i, t => do
    let t ← trRow A i m 0 t
    trRows A m n (i + 1) t

/-- matrix.h:235-244 `transpose`. -/
def transpose (A : Mat α) : Option (Mat α) := trRows A (cols A) (rows A) 0 (mk (cols A) (rows A) 0)

/-- matrix.h:248-250 the loop of `identity`. -/
def idLoop : Nat → Nat → Mat α → Option (Mat α)
  | 0, _, t => some t
  | k + 1, i, t => do
    let t ← wr2 t i i 1
    idLoop k (i + 1) t

/-- matrix.h:246-252 `identity`. -/
def identity (n : Nat) : Option (Mat α) := idLoop n 0 (mk n n 0)

end Ring

section Field
variable {α : Type} [Field α] [DecidableEq α]

/-- matrix.h:170 the search for a pivot: the first row from `i` on with a non-zero entry in column
`j`, or `n`; `k` rows remain. -/
def findPivot (M : Mat α) (j : Nat) : Nat → Nat → Option Nat
  | 0, i => some i
  | k + 1, i => do
    let x ← rd2 M i j
    if x = 0 then findPivot M j k (i + 1) else some i

/-- `std::swap(mat.a[i], mat.a[j])`. -/
def swapRows (M : Mat α) (i j : Nat) : Option (Mat α) := do
  let a ← rd M i
  let b ← rd M j
  let M ← wr M i b
  wr M j a

/-- matrix.h:186-189 the normalisation of row `j`; `n` iterations remain. -/
def scaleRow (j : Nat) (pi : α) : Nat → Nat → Mat α × Mat α → Option (Mat α × Mat α)
  | 0, _, s => some s
  | n + 1, k, (M, I) => do
    let x ← rd2 M j k
    let M ← wr2 M j k (x * pi)
    let y ← rd2 I j k
    let I ← wr2 I j k (y * pi)
    scaleRow j pi n (k + 1) (M, I)

/-- matrix.h:193-196 and 204-207: row `i` minus `p` times row `j`; `n` iterations remain. -/
def subRow (i j : Nat) (p : α) : Nat → Nat → Mat α × Mat α → Option (Mat α × Mat α)
  | 0, _, s => some s
  | n + 1, k, (M, I) => do
    let x ← rd2 M i k
    let y ← rd2 M j k
    let M ← wr2 M i k (x - y * p)
    let x' ← rd2 I i k
    let y' ← rd2 I j k
    let I ← wr2 I i k (x' - y' * p)
    subRow i j p n (k + 1) (M, I)

/-- One row of the elimination loops, matrix.h:192-196 and 203-207. -/
def elimOne (n i j : Nat) (s : Mat α × Mat α) : Option (Mat α × Mat α) := do
  let p ← rd2 s.1 i j
  if p = 0 then some s else subRow i j p n 0 s

/-- matrix.h:191-197 `eliminate below`; `k` rows remain. -/
def elimBelow (n j : Nat) : Nat → Nat → Mat α × Mat α → Option (Mat α × Mat α)
  | 0, _, s => some s
  | k + 1, i, s => do
    let s ← elimOne n i j s
    elimBelow n j k (i + 1) s

/-- matrix.h:202-208 `eliminate above`; rows `i - 1, ..., 0` remain. -/
def elimAbove (n j : Nat) : Nat → Mat α × Mat α → Option (Mat α × Mat α)
  | 0, s => some s
  | i + 1, s => do
    let s ← elimOne n i j s
    elimAbove n j i s

/-- The state of `gauss`: the two matrices, the determinant and the rank. -/
structure St (α : Type) where
  M : Mat α
  I : Mat α
  det : α
  rank : Nat

/-- matrix.h:177-182 the transposition of rows. -/
def pivotSwap (i j : Nat) (s : St α) : Option (Mat α × Mat α × α) :=
  if i ≠ j then do
    let M ← swapRows s.M i j
    let I ← swapRows s.I i j
    some (M, I, -s.det)
  else some (s.M, s.I, s.det)

/-- matrix.h:170-197 one column of the first loop of `gauss`. -/
def column (n j : Nat) (s : St α) : Option (St α) := do
  let i ← findPivot s.M j (n - s.rank) s.rank
  if i ≥ n then some { s with det := 0 }
  else do
    let rank := s.rank + 1
    let (M, I, det) ← pivotSwap i j s
    let d ← rd2 M j j
    if d = 0 then none
    else do
      let (M, I) ← scaleRow j (1 / d) n 0 (M, I)
      let (M, I) ← elimBelow n j (n - rank) rank (M, I)
      some { M := M, I := I, det := det * d, rank := rank }

/-- matrix.h:169-198 the first loop of `gauss`; `k` columns remain. -/
def columns (n : Nat) : Nat → Nat → St α → Option (St α)
  | 0, _, s => some s
  | k + 1, j, s => do
    let s ← column n j s
    columns n k (j + 1) s

/-- matrix.h:200-209 the last loop of `gauss`: columns `j - 1, ..., 0` remain. -/
def backward (n : Nat) : Nat → Mat α × Mat α → Option (Mat α × Mat α)
  | 0, s => some s
  | j + 1, s => do
    let s ← elimAbove n j j s
    backward n j s

/-- matrix.h:163-212 `gauss`; `mat.a[0][0]` is read first. -/
def gauss (A : Mat α) : Option (St α) := do
  let _ ← rd2 A 0 0
  let n := rows A
  let I ← identity n
  let s ← columns n n 0 { M := A, I := I, det := 1, rank := 0 }
  if s.rank = n then do
    let (M, I) ← backward n n (s.M, s.I)
    some { s with M := M, I := I }
  else some s

/-- matrix.h:215-219 `inverse`, 222-226 `det`, 229-233 `rank`. -/
def inverse (A : Mat α) : Option (Mat α) := (gauss A).map St.I
def det (A : Mat α) : Option α := (gauss A).map St.det
def rank (A : Mat α) : Option Nat := (gauss A).map St.rank

end Field

end Altruct.LinAlg
