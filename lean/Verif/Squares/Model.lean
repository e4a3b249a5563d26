/-
Model of `include/altruct/algorithm/math/squares_r.h`.

Integers are unbounded (no overflow).  The lookup table (`std::unordered_map`) is a partial function, a `std::set` of pairs
is its strictly increasing list of elements.
-/
import Verif.Base.Model
import Verif.NumTheory.Model
import Verif.Common.Loop

namespace Altruct.Squares

open Altruct.Base (powT sqrtT)
open Altruct.NumTheory (sqrtCipolla)

/-- squares_r.h:23-27 the loop of `cornacchia`; `none` when `fuel` is used up (no termination). -/
def cornLoop (p : Int) : Nat → Int → Int → Option Int
  | 0, _, _ => none
  | fuel + 1, x, z => if 0 < x ∧ (p - 1).tdiv x < x then cornLoop p fuel (z.tmod x) x else some x

/-- squares_r.h:19-30 `cornacchia`; `none` is a division by zero or no termination. -/
def cornacchia (d : Int) (p : Nat) : Option (Int × Int) := do
  let x ← sqrtCipolla (-d) p
  let x := if (p : Int).tdiv 2 < x then p - x else x
  let x ← cornLoop p (p + 2) x p
  if d = 0 then none
  else some (x, sqrtT (((p : Int) - x * x).tdiv d))

/-- squares_r.h:35-43 `squares_r_prime`. -/
def prime (p : Nat) : Option (Int × Int) := do
  let r ← cornacchia 1 p
  some (if r.2 < r.1 then (r.2, r.1) else r)

/-- The lookup table. -/
abbrev Tbl := Nat → Option (Int × Int)

/-- squares_r.h:54-56 the inner loop of `squares_r_prime_table`; `none` when `fuel` is used up. -/
def tableInner (n a : Nat) : Nat → Nat → Tbl → Option Tbl
  | 0, _, _ => none
  | fuel + 1, b, t => if a * a + b * b ≤ n then tableInner n a fuel (b + 1) (Function.update t (a * a + b * b) (some ((a : Int), (b : Int)))) else some t

/-- squares_r.h:53-57 the outer loop of `squares_r_prime_table`; `none` when `fuel` is used up. -/
def tableOuter (n : Nat) : Nat → Nat → Tbl → Option Tbl
  | 0, _, _ => none
  | fuel + 1, a, t =>
    if a * a * 2 ≤ n then do
      let t ← tableInner n a (n + 2) a t
      tableOuter n fuel (a + 1) t
    else some t

/-- squares_r.h:51-59 `squares_r_prime_table`. -/
def table (n : Nat) : Option Tbl := tableOuter n (n + 2) 1 (fun _ => none)

/-- The order of `std::pair`. -/
def lt (x y : Int × Int) : Bool := decide (x.1 < y.1) || (decide (x.1 = y.1) && decide (x.2 < y.2))

/-- `std::set::insert`. -/
def insert (x : Int × Int) : List (Int × Int) → List (Int × Int)
  | [] => [x]
  | y :: l => if lt x y then x :: y :: l else if lt y x then y :: insert x l else y :: l

/-- squares_r.h:73-86 the loop that computes `z` and `q`; `none` is the early return of an empty list. -/
def baseLoop : List (Nat × Nat) → Int → Int → Option (Int × Int)
  | [], z, q => some (z, q)
  | (p, e) :: vf, z, q =>
    if p = 2 then baseLoop vf (if e % 2 = 1 then 1 else z) (q * powT (p : Int) ((e / 2 : Nat) : Int))
    else if p % 4 = 3 then
      if e % 2 = 1 then none else baseLoop vf z (q * powT (p : Int) ((e / 2 : Nat) : Int))
    else baseLoop vf z q

/-- squares_r.h:88, 101, 104 `max_b == 0 || b <= max_b`. -/
def fits (maxB b : Int) : Bool := decide (maxB = 0) || decide (b ≤ maxB)

/-- squares_r.h:100, 103 swaps the two numbers if needed. -/
def order (e f : Int) : Int × Int := if f < e then (f, e) else (e, f)

/-- squares_r.h:101, 104 the conditional insertion. -/
def insertFit (maxB : Int) (x : Int × Int) (s : List (Int × Int)) : List (Int × Int) := if fits maxB x.2 then insert x s else s

/-- squares_r.h:97-105 the loop over the representations found so far. -/
def stepLoop (maxB c d : Int) : List (Int × Int) → List (Int × Int) → List (Int × Int)
  | [], s => s
  | (a, b) :: v, s =>
    let s := insertFit maxB (order |a * c - b * d| (a * d + b * c)) s
    stepLoop maxB c d v (insertFit maxB (order |a * d - b * c| (a * c + b * d)) s)

/-- squares_r.h:95-107 `e` rounds. -/
def powLoop (maxB c d : Int) : Nat → List (Int × Int) → List (Int × Int)
  | 0, v => v
  | e + 1, v => powLoop maxB c d e (stepLoop maxB c d v [])

/-- squares_r.h:89-109 the loop over the primes that are 1 modulo 4. -/
def primeLoop (maxB : Int) : List (Nat × Nat) → Tbl → List (Int × Int) → Option (List (Int × Int) × Tbl)
  | [], tbl, v => some (v, tbl)
  | (p, e) :: vf, tbl, v =>
    if p % 4 = 1 then
      match tbl p with
      | some cd => primeLoop maxB vf tbl (powLoop maxB cd.1 cd.2 e v)
      | none => do
        let cd ← prime p
        primeLoop maxB vf (Function.update tbl p (some cd)) (powLoop maxB cd.1 cd.2 e v)
    else primeLoop maxB vf tbl v

/-- squares_r.h:111-114, 115-118, 119-122: the elements that satisfy a condition are transformed and appended, from the last
to the first. -/
def appendImages (c : Int × Int → Bool) (f : Int × Int → Int × Int) (v : List (Int × Int)) : List (Int × Int) :=
  v ++ (v.reverse.filter c).map f

/-- squares_r.h:110-123 signs and order. -/
def allSigns (v : List (Int × Int)) : List (Int × Int) :=
  let v := appendImages (fun x => x.1 != x.2) (fun x => (x.2, x.1)) v
  let v := appendImages (fun x => x.1 != 0) (fun x => (-x.1, x.2)) v
  appendImages (fun x => x.2 != 0) (fun x => (x.1, -x.2)) v

/-- squares_r.h:124 `std::sort` (the elements are ordered totally, so the sorted list does not depend on the algorithm). -/
def sort (v : List (Int × Int)) : List (Int × Int) := v.insertionSort (fun x y => lt y x = false)

/-- squares_r.h:70-126 `squares_r_list`, with the table after the call. -/
def list (vf : List (Nat × Nat)) (uniqueOnly : Bool) (tbl : Tbl) (maxB : Int := 0) : Option (List (Int × Int) × Tbl) :=
  match baseLoop vf 0 1 with
  | none => some ([], tbl)
  | some (z, q) => do
    let v := if fits maxB q then [(z * q, q)] else []
    let (v, tbl) ← primeLoop maxB vf tbl v
    some (sort (if uniqueOnly then v else allSigns v), tbl)

/-- squares_r.h:148-157 the loop of `squares_r`: `B`, `s` and `q`. -/
def countLoop : List (Nat × Nat) → Int × Int × Int → Int × Int × Int
  | [], r => r
  | (p, e) :: vf, (B, s, q) =>
    let (B, s) :=
      if p % 4 = 1 then (B * (e + 1), s)
      else if p % 4 = 3 then (if e % 2 = 1 then 0 else B, s)
      else if p = 2 then (B, if e % 2 = 1 then -1 else s)
      else (B, s)
    countLoop vf (B, s, if e % 2 = 1 then 0 else q)

/-- squares_r.h:146-161 `squares_r`. -/
def count (vf : List (Nat × Nat)) (uniqueOnly : Bool) : Int :=
  let r := countLoop vf (1, 1, 1)
  if uniqueOnly then
    let B := if r.1.tmod 2 = 1 then r.1 - r.2.1 else r.1
    B.tdiv 2 + r.2.2
  else r.1 * 4

end Altruct.Squares
