/-
Model of `experimental/include/altruct/algorithm/graph/floyd_warshall.h`.

A graph is the list of its adjacency lists, an edge is its destination and its weight; weights are unbounded integers.
An entry of the result is the pair of the fields `v` and `w`.  `none` is an access out of bounds.
-/
import Verif.Common.Vec
import Verif.Common.Loop

namespace Altruct.GraphAlg

/-- `m[u][v]`. -/
def rd2 {α : Type} (m : List (List α)) (u v : Nat) : Option α := do
  let r ← rd m u
  rd r v

/-- `m[u][v] = x`. -/
def wr2 {α : Type} (m : List (List α)) (u v : Nat) (x : α) : Option (List (List α)) := do
  let r ← rd m u
  let r ← wr r v x
  wr m u r

/-- floyd_warshall.h:30-33 the edges of node `i`. -/
def fwEdges (i : Nat) : List (Nat × Int) → List (List (Int × Int)) → Option (List (List (Int × Int)))
  | [], m => some m
  | (v, w) :: es, m => do
    let x ← rd2 m i v
    let m ← wr2 m i v ((v : Int), min x.2 w)
    fwEdges i es m

/-- floyd_warshall.h:29-33 the row of node `i` before the main loop. -/
def fwInit (g : List (List (Nat × Int))) (i : Nat) (m : List (List (Int × Int))) : Option (List (List (Int × Int))) := do
  let m ← wr2 m i i ((i : Int), 0)
  let es ← rd g i
  fwEdges i es m

/-- floyd_warshall.h:38-45 the body of the main loop. -/
def fwBody (i u v : Nat) (m : List (List (Int × Int))) : Option (List (List (Int × Int))) := do
  let a ← rd2 m u i
  let b ← rd2 m i v
  if a.1 = -1 ∨ b.1 = -1 then some m
  else
    let dNew := a.2 + b.2
    let c ← rd2 m u v
    if dNew < c.2 then wr2 m u v (a.1, dNew) else some m

/-- floyd_warshall.h:24-50 `floyd_warshall`. -/
def floydWarshall (g : List (List (Nat × Int))) (inf : Int) : Option (List (List (Int × Int))) := do
  let n := g.length
  let m ← forUp (fwInit g) 0 n (List.replicate n (List.replicate n (-1, inf)))
  forUp (fun i => forUp (fun u => forUp (fwBody i u) 0 n) 0 n) 0 n m

end Altruct.GraphAlg
