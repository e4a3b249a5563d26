/-
Model of `include/altruct/algorithm/collections/collections.h` and
`include/altruct/algorithm/math/reduce.h`.

An iterator range is a `List`; the counter of a run (`int`) is unbounded here.
`sorted`, `reversed` and `contains` only call `std::sort`, `std::reverse`, `std::find`, and
`reserve_more` has no observable effect; they are not modelled.
-/
import Verif.Common.Vec

namespace Altruct.Collections

variable {α β : Type}

/-- collections.h:67-73 the loop of `take`, `r` being the vector built so far. -/
def takeLoop : List α → Nat → List α → List α
  | [], _, r => r
  | x :: xs, n, r => if 0 < n then takeLoop xs (n - 1) (r ++ [x]) else r

/-- collections.h:67-73 `take`. -/
def take (l : List α) (n : Nat) : List α := takeLoop l n []

/-- collections.h:94-100 the loop of `filter`. -/
def filterLoop (p : α → Bool) : List α → List α → List α
  | [], r => r
  | x :: xs, r => filterLoop p xs (if p x then r ++ [x] else r)

/-- collections.h:94-100 `filter`. -/
def filter (p : α → Bool) (l : List α) : List α := filterLoop p l []

/-- collections.h:122-128 the loop of `transform`. -/
def transformLoop (f : α → β) : List α → List β → List β
  | [], r => r
  | x :: xs, r => transformLoop f xs (r ++ [f x])

/-- collections.h:122-128 `transform`. -/
def transform (f : α → β) (l : List α) : List β := transformLoop f l []

/-- collections.h:152-156 the body of the loop of `run_length`. -/
def runStep [DecidableEq α] (r : List (α × Nat)) (x : α) : List (α × Nat) :=
  match r.getLast? with
  | some (y, c) => if y = x then r.dropLast ++ [(y, c + 1)] else r ++ [(x, 1)]
  | none => r ++ [(x, 1)]

/-- collections.h:151-157 the loop of `run_length`. -/
def runLoop [DecidableEq α] : List α → List (α × Nat) → List (α × Nat)
  | [], r => r
  | x :: xs, r => runLoop xs (runStep r x)

/-- collections.h:149-159 `run_length`. -/
def runLength [DecidableEq α] (l : List α) : List (α × Nat) := runLoop l []

/-- collections.h:179-188 `compare`: the loop over both sequences, and the tests behind it. -/
def compare (eq lt : α → α → Bool) : List α → List α → Nat → Int
  | [], [], _ => 0
  | [], _ :: _, m => if m = 0 then 0 else -1
  | _ :: _, [], m => if m = 0 then 0 else 1
  | a :: as, b :: bs, m =>
    if m = 0 then 0
    else if !eq a b then (if lt a b then -1 else 1)
    else compare eq lt as bs (m - 1)

/-- reduce.h:18-25 `reduce`. -/
def reduce {τ : Type} (f : τ → α → τ) : List α → τ → τ
  | [], r => r
  | e :: es, r => reduce f es (f r e)

/-- reduce.h:33-36 `reduce_sum`. -/
def reduceSum [Add α] (c : List α) (id : α) : α := reduce (fun r e => r + e) c id

/-- reduce.h:44-47 `reduce_product`. -/
def reduceProduct [Mul α] (c : List α) (id : α) : α := reduce (fun r e => r * e) c id

/-- reduce.h:55-58 `reduce_min`. -/
def reduceMin (lt : α → α → Bool) (c : List α) (id : α) : α := reduce (fun r e => if lt e r then e else r) c id

/-- reduce.h:66-69 `reduce_max`. -/
def reduceMax (lt : α → α → Bool) (c : List α) (id : α) : α := reduce (fun r e => if lt r e then e else r) c id

/-- reduce.h:56 the default `id` of `reduce_min`, for a signed (`s = true`) or unsigned integer
type of `w` bits. -/
def minId (s : Bool) (w : Nat) : Int := if s then 2 ^ (w - 1) - 1 else 2 ^ w - 1

/-- reduce.h:67 the default `id` of `reduce_max`: minus the maximum, which an unsigned type wraps
around (types at least as wide as `int`). -/
def maxId (s : Bool) (w : Nat) : Int := if s then -(2 ^ (w - 1) - 1) else (-(2 ^ w - 1)) % 2 ^ w

/-- reduce.h:77-80 `reduce_mex` (unbounded integers: `r + 1` does not overflow). -/
def reduceMex (c : List Int) (id : Int) : Int := reduce (fun r e => if r < e then r else r + 1) c id

end Altruct.Collections
