/-
Model of `experimental/include/altruct/algorithm/graph/iterative_dfs.h` and `topological_sort.h`.

The visitor is a function on a state `σ` (the variables its closure refers to) that may fail.  `none` is an access out of bounds,
a failure of the visitor or a loop that has not ended after `fuel` rounds.
-/
import Verif.Common.Vec

namespace Altruct.GraphAlg

/-- The type of `visitor(root, parent, node, depth)`. -/
abbrev Visitor (σ : Type) := σ → Int → Int → Int → Int → Option (σ × Bool)

/-- iterative_dfs.h:44-60 the loop over the stack; the top of the stack is the head of the list. -/
def dfsLoop {σ : Type} (g : List (List Nat)) (visitor : Visitor σ) (o : Nat) :
    Nat → List Nat → List (Nat × Nat) → σ → Option (List Nat × σ)
  | 0, _, _, _ => none
  | fuel + 1, visited, stk, s => match stk with
    | [] => some (visited, s)
    | (u, i) :: stk => do
      let d := stk.length + 1
      let es ← rd g u
      if i < es.length then
        let v ← rd es i
        let seen ← rd visited v
        if seen ≠ 0 then dfsLoop g visitor o fuel visited ((u, i + 1) :: stk) s
        else do
          let (s, b) ← visitor s o u v d
          if b then
            let visited ← wr visited v 1
            dfsLoop g visitor o fuel visited ((v, 0) :: (u, i + 1) :: stk) s
          else dfsLoop g visitor o fuel visited ((u, i + 1) :: stk) s
      else do
        let (s, _) ← visitor s o u (-1) d
        dfsLoop g visitor o fuel visited stk s

/-- iterative_dfs.h:38-61 the loop over the roots. -/
def dfsRoots {σ : Type} (fuel : Nat) (g : List (List Nat)) (visitor : Visitor σ) : List Nat → List Nat → σ → Option σ
  | [], _, s => some s
  | o :: os, visited, s => do
    let seen ← rd visited o
    if seen ≠ 0 then dfsRoots fuel g visitor os visited s
    else do
      let (s, b) ← visitor s o (-1) o 0
      if b then
        let visited ← wr visited o 1
        let (visited, s) ← dfsLoop g visitor o fuel visited [(o, 0)] s
        dfsRoots fuel g visitor os visited s
      else
        let (visited, s) ← dfsLoop g visitor o fuel visited [] s
        dfsRoots fuel g visitor os visited s

/-- iterative_dfs.h:36-37 the range of the roots `o`. -/
def dfsRange (n : Nat) (source : Int) : List Nat := if source ≠ -1 then [source.toNat] else List.range n

/-- iterative_dfs.h:31-62 `iterative_dfs`. -/
def iterativeDfs {σ : Type} (fuel : Nat) (g : List (List Nat)) (visitor : Visitor σ) (source : Int) (s : σ) : Option σ :=
  dfsRoots fuel g visitor (dfsRange g.length source) (List.replicate g.length 0) s

/-- iterative_dfs.h:64-72 `parents`. -/
def parents (fuel : Nat) (g : List (List Nat)) : Option (List Int) :=
  iterativeDfs fuel g (fun vp _ parent node _ =>
    if node ≠ -1 then (wr vp node.toNat parent).map (·, true) else some (vp, true)) (-1) (List.replicate g.length (-1))

/-- topological_sort.h:24-26 the inner loop of `in_degrees`. -/
def inDegreeEdges : List Nat → List Int → Option (List Int)
  | [], deg => some deg
  | v :: es, deg => do
    let x ← rd deg v
    let deg ← wr deg v (x + 1)
    inDegreeEdges es deg

/-- topological_sort.h:22-27 the outer loop of `in_degrees`. -/
def inDegreeLoop : List (List Nat) → List Int → Option (List Int)
  | [], deg => some deg
  | es :: g, deg => do
    let deg ← inDegreeEdges es deg
    inDegreeLoop g deg

/-- topological_sort.h:20-29 `in_degrees`. -/
def inDegrees (g : List (List Nat)) : Option (List Int) := inDegreeLoop g (List.replicate g.length 0)

/-- topological_sort.h:38-49 `topological_sort`. -/
def topologicalSort (fuel : Nat) (g : List (List Nat)) : Option (List Int) := do
  let deg ← inDegrees g
  let topo ← iterativeDfs fuel g (fun topo _ parent node _ => do
    let improper ← if parent = -1 then (rd deg node.toNat).map (fun x => decide (x > 0)) else some false
    if improper then some (topo, false)
    else if node < 0 then some (topo ++ [parent], true) else some (topo, true)) (-1) []
  some topo.reverse

end Altruct.GraphAlg
