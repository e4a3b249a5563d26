/-
Model of structure/graph/graph.h.

Vertices are natural numbers; an edge carries its destination and arbitrary data (nothing, or a weight).
`none` is an access out of bounds.
-/
import Verif.Common.Vec

namespace Altruct.Graph

/-- graph.h:13-18, 35-41 an edge: the destination and the data. -/
structure Edge (δ : Type) where
  v : Nat
  w : δ
deriving DecidableEq

variable {δ : Type}

/-- graph.h:70 the adjacency lists. -/
abbrev Adj (δ : Type) := List (List (Edge δ))

/-- graph.h:84 `add_node`. -/
def addNode (g : Adj δ) : Adj δ × Nat :=
  let g := g ++ [[]]
  (g, g.length - 1)

/-- graph.h:85 `add_edge`. -/
def addEdge (g : Adj δ) (u : Nat) (e : Edge δ) : Option (Adj δ) := do
  let l ← rd g u
  wr g u (l ++ [e])

/-- graph.h:87-91 `add_edge2`. -/
def addEdge2 (g : Adj δ) (u : Nat) (e : Edge δ) : Option (Adj δ) := do
  let l ← rd g u
  let g ← wr g u (l ++ [e])
  let l ← rd g e.v
  let g ← wr g e.v (l ++ [e])
  let l ← rd g e.v
  let b ← rd l (l.length - 1)
  let l ← wr l (l.length - 1) { b with v := u }
  wr g e.v l

/-- graph.h:94-101 and 109-117: the loop that removes by swapping with the last element; `upd` is applied to the
elements that stay. -/
def eraseLoop (del : Edge δ → Bool) (upd : Edge δ → Edge δ) : Nat → Nat → List (Edge δ) → Option (List (Edge δ))
  | fuel, i, l =>
    if i < l.length then
      match fuel with
      | 0 => none
      | fuel + 1 => do
        let x ← rd l i
        if del x then do
          let b ← rd l (l.length - 1)
          let l ← wr l i b
          let l ← wr l (l.length - 1) x
          eraseLoop del upd fuel i l.dropLast
        else do
          let l ← wr l i (upd x)
          eraseLoop del upd fuel (i + 1) l
    else some l

/-- graph.h:93-102 `delete_edge`. -/
def deleteEdge (g : Adj δ) (u v : Nat) : Option (Adj δ) := do
  let l ← rd g u
  let l ← eraseLoop (fun e => decide (e.v = v)) id l.length 0 l
  wr g u l

/-- graph.h:104-119 `delete_node`. -/
def deleteNode (g : Adj δ) (u : Nat) : Option (Adj δ) := do
  let v := g.length - 1
  let a ← rd g u
  let b ← rd g v
  let g ← wr g u b
  let g ← wr g v a
  let g := g.dropLast
  g.mapM fun l => eraseLoop (fun e => decide (e.v = u)) (fun e => if e.v = v then { e with v := u } else e) l.length 0 l

/-- `std::unique`: the first of every run of edges with the same destination; `e` is the one kept last. -/
def uniqFrom (e : Edge δ) : List (Edge δ) → List (Edge δ)
  | [] => [e]
  | f :: l => if e.v = f.v then uniqFrom e l else e :: uniqFrom f l

/-- `std::unique` followed by `erase`. -/
def uniq : List (Edge δ) → List (Edge δ)
  | [] => []
  | e :: l => uniqFrom e l

/-- graph.h:130-134 `deduplicate_edges`; `sort` is `std::sort`. -/
def deduplicateEdges (sort : List (Edge δ) → List (Edge δ)) (g : Adj δ) (u : Nat) : Option (Adj δ) := do
  let l ← rd g u
  wr g u (uniq (sort l))

/-- graph.h:127 the loop over all vertices, from `u`. -/
def dedupFrom (sort : List (Edge δ) → List (Edge δ)) : Nat → Nat → Adj δ → Option (Adj δ)
  | 0, _, g => some g
  | k + 1, u, g => do
    let g ← deduplicateEdges sort g u
    dedupFrom sort k (u + 1) g

/-- graph.h:121-128 `contract`. -/
def contract (sort : List (Edge δ) → List (Edge δ)) (g : Adj δ) (u v : Nat) : Option (Adj δ) := do
  let g ← deleteEdge g u v
  let g ← deleteEdge g v u
  let a ← rd g u
  let b ← rd g v
  let g ← wr g u (a ++ b)
  let g := g.map fun l => l.map fun e => if e.v = v then { e with v := u } else e
  let g ← deleteNode g v
  dedupFrom sort g.length 0 g

end Altruct.Graph
