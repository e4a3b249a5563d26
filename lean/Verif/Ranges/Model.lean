/-
Model of `include/altruct/algorithm/math/ranges.h`.

An iterator range is the list of its elements; a forward loop is a recursion along the list, a
backward loop runs over indices with checked accesses.  `operator /` is `Polynom.cdiv` (undefined
for a zero divisor), so the same model serves fields and integers.
-/
import Verif.Common.Vec
import Verif.Base.Model
import Verif.Polynom.Model

namespace Altruct.Ranges

open Altruct.Polynom (Quo cdiv)

section Ring
variable {α : Type} [CommRing α]

/-- ranges.h:20-22 the loop of `range`. -/
def rangeLoop (step : α) : α → List α → List α
  | _, [] => []
  | v, _ :: l => v :: rangeLoop step (v + step) l

/-- ranges.h:18-23 `range`. -/
def range (step : α) (l : List α) : List α := rangeLoop step 0 l

/-- ranges.h:39-41 the loop of `powers`. -/
def powersLoop (base : α) : α → List α → List α
  | _, [] => []
  | v, _ :: l => v :: powersLoop base (v * base) l

/-- ranges.h:37-42 `powers`. -/
def powers (base : α) (l : List α) : List α := powersLoop base 1 l

/-- ranges.h:58-60 the loop of `factorials`. -/
def factLoop : α → α → List α → List α
  | _, _, [] => []
  | v, i, _ :: l => v :: factLoop (v * i) (i + 1) l

/-- ranges.h:56-61 `factorials`. -/
def factorials (l : List α) : List α := factLoop (1 : α) 1 l

/-- ranges.h:125-129 `power`. -/
def power (n : Int) (l : List α) : List α := l.map (fun x => Base.powT x n)

/-- ranges.h:178-182 `negate`. -/
def negate (l : List α) : List α := l.map (fun x => -x)

/-- ranges.h:193-195 the loop of `alternate`. -/
def alternateLoop : Int → List α → List α
  | _, [] => []
  | s, x :: l => (if s < 0 then -x else x) :: alternateLoop (-s) l

/-- ranges.h:191-196 `alternate`. -/
def alternate (l : List α) : List α := alternateLoop 1 l

/-- ranges.h:207-209 the loop of `accumulate`; `prev` is the element before. -/
def accLoop : α → List α → List α
  | _, [] => []
  | prev, x :: l => (x + prev) :: accLoop (x + prev) l

/-- ranges.h:204-210 `accumulate`. -/
def accumulate : List α → List α
  | [] => []
  | x :: l => x :: accLoop x l

/-- ranges.h:221-223 the loop of `differentiate`: positions `i, ..., 1` remain. -/
def diffLoop : Nat → List α → Option (List α)
  | 0, v => some v
  | i + 1, v => do
    let x ← rd v (i + 1)
    let y ← rd v i
    let v ← wr v (i + 1) (x - y)
    diffLoop i v

/-- ranges.h:218-224 `differentiate`. -/
def differentiate (v : List α) : Option (List α) :=
  if v.length = 0 then some v else diffLoop (v.length - 1) v

/-- ranges.h:103-105 the loop of `inverses_from_ifact`. -/
def fromIfactLoop : α → α → List α → List α
  | _, _, [] => []
  | f, i, x :: l => (x * f) :: fromIfactLoop (f * i) (i + 1) l

/-- ranges.h:100-106 `inverses_from_ifact`; it writes through `begin` even when the range is empty. -/
def inversesFromIfact : List α → Option (List α)
  | [] => none
  | _ :: l => some (0 :: fromIfactLoop 1 1 l)

end Ring

section Quo
variable {α : Type} [CommRing α] [DecidableEq α] [Quo α]

/-- ranges.h:79-81 the first loop of `inv_factorials`: `(val_k, fact_k)` after it. -/
def ifUp (n k : Nat) (val fact : α) : α × α :=
  if k + 1 < n then ifUp n (k + 1) (val + 1) (fact * (val + 1)) else (val, fact)
termination_by n - k

/-- ranges.h:83-85 the second loop of `inv_factorials`: positions `i - 1, ..., 0` remain. -/
def ifDown : Nat → α → α → List α → Option (List α)
  | 0, _, _, v => some v
  | i + 1, f, val, v => do
    let v ← wr v i f
    ifDown i (f * val) (val - 1) v

/-- ranges.h:76-86 `inv_factorials`. -/
def invFactorials (v : List α) (fact : α) (k : Nat) : Option (List α) := do
  let k := if k = 0 then 1 else k
  let (val, fact) := ifUp v.length k (k : α) fact
  let f ← cdiv 1 fact
  ifDown v.length f val v

/-- ranges.h:108-111 `inverses`. -/
def inverses (v : List α) : Option (List α) := do
  let v ← invFactorials v 1 1
  inversesFromIfact v

/-- ranges.h:138-143 `invert`. -/
def invert : List α → List α
  | [] => []
  | x :: v => (if x ≠ 0 then Quo.quo 1 x else x) :: invert v

/-- ranges.h:157-159 the cumulative products; `acc` is `vp[i - 1]`. -/
def cumProd (acc : α) : List α → List α
  | [] => []
  | x :: v => (x * acc) :: cumProd (x * acc) v

/-- ranges.h:164-168 the loop of `invert_field`: indices `n, ..., 1` remain. -/
def invFieldLoop (vp : List α) : Nat → α → List α → Option (List α × α)
  | 0, p, v => some (v, p)
  | n + 1, p, v => do
    let t ← rd v (n + 1)
    let q ← rd vp n
    let v ← wr v (n + 1) (p * q)
    invFieldLoop vp n (p * t) v

/-- ranges.h:153-170 `invert_field`. -/
def invertField : List α → Option (List α)
  | [] => some []
  | x :: v => do
    let vp := x :: cumProd x v
    let b ← rd vp v.length
    let p ← cdiv 1 b
    let (w, p) ← invFieldLoop vp v.length p (x :: v)
    wr w 0 p

end Quo

end Altruct.Ranges
