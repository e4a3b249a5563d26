/-
Model of `include/altruct/algorithm/search/kmp_search.h` and
`include/altruct/algorithm/search/binary_search.h`.
-/
import Mathlib.Data.List.Basic

namespace Altruct.Search

variable {α : Type*} [DecidableEq α]

/-- kmp_search.h:32 / :39 `while (j != -1 && c != p[j]) j = b[j];`.  `size_t(-1)` is
`-1`.  `none`: an access out of bounds, or a step that does not decrease `j` (the C++
loop might then not terminate). -/
def fall (p : List α) (b : List Int) (c : α) (j : Int) : Option Int :=
  if j = -1 then some j
  else match p[j.toNat]? with
    | none => none
    | some pj =>
      if c ≠ pj then
        match b[j.toNat]? with
        | none => none
        | some j' => if -1 ≤ j' ∧ j' < j then fall p b c j' else none
      else some j
termination_by (j + 1).toNat
decreasing_by omega

/-- kmp_search.h:31-35 the preprocessing loop, state `(i, j, b)`. -/
def build (p : List α) (i : Nat) (j : Int) (b : List Int) : Option (List Int) :=
  if h : i < p.length then
    match fall p b p[i] j with
    | none => none
    | some j => if i + 1 < b.length then build p (i + 1) (j + 1) (b.set (i + 1) (j + 1)) else none
  else some b
termination_by p.length - i

/-- kmp_search.h:37-47 the search loop, state `(i, j, r)` and the list of positions
passed to the callback so far.  The callback may be stateful: it sees the whole history
of reported positions, the current one last. -/
def searchLoop (t p : List α) (b : List Int) (cb : List Nat → Bool)
    (i : Nat) (j : Int) (r : Nat) (calls : List Nat) : Option (List Nat × Nat) :=
  if h : i < t.length then
    match fall p b t[i] j with
    | none => none
    | some j =>
      let i := i + 1
      let j := j + 1
      if j = (p.length : Int) then
        let r := i - j.toNat
        let calls := calls ++ [r]
        if !cb calls then some (calls, r)
        else match b[j.toNat]? with
          | none => none
          | some j => searchLoop t p b cb i j r calls
      else searchLoop t p b cb i j r calls
  else some (calls, r)
termination_by t.length - i

/-- kmp_search.h:26-48 `kmp_search(t, n, p, m, callback)`: the positions passed to the
callback and the return value. -/
def kmpSearch (t p : List α) (cb : List Nat → Bool) : Option (List Nat × Nat) :=
  if p.length = 0 then some ([], 0)
  else if p.length > t.length then some ([], t.length)
  else match build p 0 (-1) (List.replicate (p.length + 1) (-1)) with
    | none => none
    | some b => searchLoop t p b cb 0 0 t.length []

/-- binary_search.h:18-28 `binary_search_pred` on an integral type; also returns the
list of points at which the predicate was evaluated. -/
def binarySearchPred (f : Int → Bool) (lo hi : Int) (evals : List Int) : Int × List Int :=
  if lo < hi then
    let mid := lo + (hi - lo).tdiv 2
    if f mid then binarySearchPred f lo mid (evals ++ [mid])
    else binarySearchPred f (mid + 1) hi (evals ++ [mid])
  else (lo, evals)
termination_by (hi - lo).toNat
decreasing_by
  all_goals rw [Int.tdiv_eq_ediv_of_nonneg (by omega)]; omega

/-- binary_search.h:41-54 `binary_search_num` on an integral type (`lo + eps` with
`eps ≥ 1`), state `(lo, hi, prev_mid)`. -/
def binarySearchNumLoop (f : Int → Bool) (eps : Int) (heps : 1 ≤ eps) (lo hi prev : Int)
    (evals : List Int) : Int × List Int :=
  if hi - lo ≥ eps then
    let mid := lo + (hi - lo).tdiv 2
    if mid = prev then (lo, evals)
    else if f mid then binarySearchNumLoop f eps heps lo mid mid (evals ++ [mid])
    else binarySearchNumLoop f eps heps (mid + eps) hi mid (evals ++ [mid])
  else (lo, evals)
termination_by (hi - lo).toNat
decreasing_by
  all_goals rw [Int.tdiv_eq_ediv_of_nonneg (by omega)]; omega

/-- binary_search.h:41-54 `binary_search_num(lo, hi, eps, predicate)`. -/
def binarySearchNum (f : Int → Bool) (eps : Int) (heps : 1 ≤ eps) (lo hi : Int) : Int × List Int :=
  binarySearchNumLoop f eps heps lo hi hi []

/-- binary_search.h:63-69 `lower_bound_num` with `eps = 1` on integers. -/
def lowerBoundNum (lo hi val : Int) (f : Int → Int) (decreasing : Bool) : Int :=
  if decreasing then (binarySearchNum (fun mid => f mid ≤ val) 1 (Int.le_refl 1) lo hi).1
  else (binarySearchNum (fun mid => f mid ≥ val) 1 (Int.le_refl 1) lo hi).1

/-- binary_search.h:78-84 `upper_bound_num` with `eps = 1` on integers. -/
def upperBoundNum (lo hi val : Int) (f : Int → Int) (decreasing : Bool) : Int :=
  if decreasing then (binarySearchNum (fun mid => f mid < val) 1 (Int.le_refl 1) lo hi).1
  else (binarySearchNum (fun mid => f mid > val) 1 (Int.le_refl 1) lo hi).1

end Altruct.Search
