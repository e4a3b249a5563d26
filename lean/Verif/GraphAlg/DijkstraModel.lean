/-
Model of `experimental/include/altruct/algorithm/graph/dijkstra.h` and `prim_spanning_tree.h`.

The `std::set` of pairs is the list of its elements in increasing order.  Weights are unbounded integers.  `none` is an
access out of bounds or a loop that has not ended after `fuel` rounds.
-/
import Verif.Common.Vec

namespace Altruct.GraphAlg

/-- `operator <` of `std::pair<W, int>`. -/
def qLt (a b : Int × Nat) : Prop := a.1 < b.1 ∨ (a.1 = b.1 ∧ a.2 < b.2)

instance (a b : Int × Nat) : Decidable (qLt a b) := by unfold qLt; infer_instance

/-- `std::set::insert`. -/
def qInsert (x : Int × Nat) : List (Int × Nat) → List (Int × Nat)
  | [] => [x]
  | y :: l => if qLt x y then x :: y :: l else if qLt y x then y :: qInsert x l else y :: l

/-- `std::set::erase(key)`. -/
def qErase (x : Int × Nat) (l : List (Int × Nat)) : List (Int × Nat) := l.filter (fun y => decide (y ≠ x))

/-- dijkstra.h:31-39 the edges of `u`. -/
def djEdges (u : Nat) : List (Nat × Int) → List (Int × Int) → List (Int × Nat) → Option (List (Int × Int) × List (Int × Nat))
  | [], res, q => some (res, q)
  | (v, w) :: es, res, q => do
    let a ← rd res u
    let dNew := a.2 + w
    let b ← rd res v
    if dNew < b.2 then
      let q := qErase (b.2, v) q
      let res ← wr res v ((u : Int), dNew)
      djEdges u es res (qInsert (dNew, v) q)
    else djEdges u es res q

/-- dijkstra.h:28-40 the main loop. -/
def djLoop (g : List (List (Nat × Int))) : Nat → List (Int × Int) → List (Int × Nat) → Option (List (Int × Int))
  | 0, _, _ => none
  | fuel + 1, res, q => match q with
    | [] => some res
    | (_, u) :: q => do
      let es ← rd g u
      let (res, q) ← djEdges u es res q
      djLoop g fuel res q

/-- dijkstra.h:24-42 `dijkstra`. -/
def dijkstra (fuel : Nat) (g : List (List (Nat × Int))) (src : Nat) (inf : Int) : Option (List (Int × Int)) := do
  let res ← wr (List.replicate g.length (-1, inf)) src ((src : Int), 0)
  djLoop g fuel res [(0, src)]

/-- prim_spanning_tree.h:31-39 the edges of `u`. -/
def primEdges (u : Nat) : List (Nat × Int) → List (Int × Int) → List (Int × Nat) → Option (List (Int × Int) × List (Int × Nat))
  | [], res, q => some (res, q)
  | (v, w) :: es, res, q => do
    let dNew := w
    let b ← rd res v
    let a ← rd res u
    if dNew < b.2 ∧ a.1 ≠ (v : Int) then
      let q := qErase (b.2, v) q
      let res ← wr res v ((u : Int), dNew)
      primEdges u es res (qInsert (dNew, v) q)
    else primEdges u es res q

/-- prim_spanning_tree.h:28-40 the main loop. -/
def primLoop (g : List (List (Nat × Int))) : Nat → List (Int × Int) → List (Int × Nat) → Option (List (Int × Int))
  | 0, _, _ => none
  | fuel + 1, res, q => match q with
    | [] => some res
    | (_, u) :: q => do
      let es ← rd g u
      let (res, q) ← primEdges u es res q
      primLoop g fuel res q

/-- prim_spanning_tree.h:24-42 `prim_spanning_tree`. -/
def prim (fuel : Nat) (g : List (List (Nat × Int))) (root : Nat) (inf : Int) : Option (List (Int × Int)) := do
  let res ← wr (List.replicate g.length (-1, inf)) root ((root : Int), 0)
  primLoop g fuel res [(0, root)]

end Altruct.GraphAlg
