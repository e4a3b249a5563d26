/-
Model of `experimental/include/altruct/algorithm/graph/sat2.h`.

`none` is an access out of bounds or a loop of `tarjan_scc` that has not ended after `fuel` rounds.
-/
import Verif.GraphAlg.ClosureModel
import Verif.GraphAlg.TarjanModel
import Verif.Common.Loop

namespace Altruct.GraphAlg

/-- sat2.h:32-36 the number of variables. -/
def satN : List (Int × Int) → Int → Int
  | [], n => n
  | t :: ts, n =>
    let n := max n (t.1.tdiv 2 + 1)
    let n := max n (t.2.tdiv 2 + 1)
    satN ts n

/-- A value used as an index of a node. -/
def litIx (u : Int) : Option Nat := if 0 ≤ u then some u.toNat else none

/-- sat2.h:39-44 edges for the given values. -/
def satPresets (sol : List Int) (n : Nat) (g : List (List Nat)) : Option (List (List Nat)) :=
  forUp (fun i g => do
    let x ← rd sol i
    if x ≠ -1 then
      let u ← litIx (i * 2 + x)
      addEdge g (u ^^^ 1) u
    else some g) 0 n g

/-- sat2.h:48-49, 61-62 a single literal stands for both. -/
def satNorm (t : Int × Int) : Int × Int :=
  let u := t.1
  let v := t.2
  let u := if u = -1 then v else u
  let v := if v = -1 then u else v
  (u, v)

/-- sat2.h:45-52 edges for the clauses; `some none` is the early `return false`. -/
def satClauses : List (Int × Int) → List (List Nat) → Option (Option (List (List Nat)))
  | [], g => some (some g)
  | t :: ts, g =>
    if t.1 = -1 ∧ t.2 = -1 then some none
    else do
      let u ← litIx (satNorm t).1
      let v ← litIx (satNorm t).2
      let g ← addEdge g (u ^^^ 1) v
      let g ← addEdge g (v ^^^ 1) u
      satClauses ts g

/-- sat2.h:54-56 one component. -/
def satComp : List Nat → List Int → Option (List Int)
  | [], sol => some sol
  | u :: us, sol => do
    let x ← rd sol (u / 2)
    if x = -1 then
      let sol ← wr sol (u / 2) ((u % 2 : Nat) : Int)
      satComp us sol
    else satComp us sol

/-- sat2.h:53-57 the components from the last to the first; the list is given in that order. -/
def satAssign : List (List Nat) → List Int → Option (List Int)
  | [], sol => some sol
  | c :: cs, sol => do
    let sol ← satComp c sol
    satAssign cs sol

/-- sat2.h:58-65 the final test. -/
def satCheck : List (Int × Int) → List Int → Option Bool
  | [], _ => some true
  | t :: ts, sol =>
    if t.1 = -1 ∧ t.2 = -1 then some false
    else do
      let u ← litIx (satNorm t).1
      let v ← litIx (satNorm t).2
      let x ← rd sol (u / 2)
      let y ← rd sol (v / 2)
      if x ≠ ((u % 2 : Nat) : Int) ∧ y ≠ ((v % 2 : Nat) : Int) then some false else satCheck ts sol

/-- sat2.h:31-66 `sat2(sol, clauses)`: the result and the new value of `sol`. -/
def sat2 (fuel : Nat) (sol : List Int) (clauses : List (Int × Int)) : Option (Bool × List Int) := do
  let n := (satN clauses 0).toNat
  let sol := if sol.length < n then sol ++ List.replicate (n - sol.length) (-1) else sol
  let g ← satPresets sol n (List.replicate (n * 2) [])
  let r ← satClauses clauses g
  match r with
  | none => some (false, sol)
  | some g =>
    let scc ← tarjanScc fuel g
    let sol ← satAssign scc.reverse sol
    let b ← satCheck clauses sol
    some (b, sol)

/-- sat2.h:69-73 `sat2(clauses)`. -/
def sat2' (fuel : Nat) (clauses : List (Int × Int)) : Option (List Int) := do
  let (b, sol) ← sat2 fuel [] clauses
  some (if b then sol else [])

end Altruct.GraphAlg
