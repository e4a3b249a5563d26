/-
Model of `experimental/include/altruct/algorithm/graph/transitive_closure.h`.

A graph is the list of its adjacency lists; of an edge only the destination matters here.  The stack is a
list whose head is the back of the vector.  `none` is an access out of bounds or a loop that has not ended
after `fuel` rounds.
-/
import Verif.Common.Vec
import Verif.Common.Loop

namespace Altruct.GraphAlg

/-- graph.h:85 `add_edge(u, v)`. -/
def addEdge (g : List (List Nat)) (u v : Nat) : Option (List (List Nat)) := do
  let l ← rd g u
  wr g u (l ++ [v])

/-- The local variables of the search from one node. -/
structure Search where
  d : List Int
  stk : List Nat
  res : List (List Nat)
deriving DecidableEq, Repr

/-- transitive_closure.h:27-33 the edges of one node. -/
def tcEdges (i : Nat) : List Nat → Search → Option Search
  | [], s => some s
  | v :: es, s => do
    let dv ← rd s.d v
    if dv ≠ 0 then tcEdges i es s
    else
      let res ← addEdge s.res i v
      let d ← wr s.d v 1
      tcEdges i es ⟨d, v :: s.stk, res⟩

/-- transitive_closure.h:25-34 the search. -/
def tcLoop (g : List (List Nat)) (i : Nat) : Nat → Search → Option Search
  | 0, _ => none
  | fuel + 1, s => match s.stk with
    | [] => some s
    | u :: stk => do
      let es ← rd g u
      let s ← tcEdges i es ⟨s.d, stk, s.res⟩
      tcLoop g i fuel s

/-- transitive_closure.h:22-34 the search from node `i`. -/
def tcFrom (fuel : Nat) (g : List (List Nat)) (i : Nat) (res : List (List Nat)) : Option (List (List Nat)) := do
  let d ← wr (List.replicate g.length 0) i (-1)
  let s ← tcLoop g i fuel ⟨d, [i], res⟩
  some s.res

/-- transitive_closure.h:19-37 `transitive_closure`. -/
def transitiveClosure (fuel : Nat) (g : List (List Nat)) : Option (List (List Nat)) :=
  forUp (tcFrom fuel g) 0 g.length (List.replicate g.length [])

/-- transitive_closure.h:61-65 the direct neighbours. -/
def trFirst : List Nat → List Int → List Nat → Option (List Int × List Nat)
  | [], d, stk => some (d, stk)
  | v :: es, d, stk => do
    let dv ← rd d v
    let d ← wr d v 1
    trFirst es d (if dv = 0 then v :: stk else stk)

/-- transitive_closure.h:69-73 the edges of one node. -/
def trEdges : List Nat → List Int → List Nat → Option (List Int × List Nat)
  | [], d, stk => some (d, stk)
  | v :: es, d, stk => do
    let dv ← rd d v
    let d ← wr d v (-1)
    trEdges es d (if dv = 0 then v :: stk else stk)

/-- transitive_closure.h:67-74 the search. -/
def trLoop (g : List (List Nat)) : Nat → List Int → List Nat → Option (List Int)
  | 0, _, _ => none
  | fuel + 1, d, stk => match stk with
    | [] => some d
    | u :: stk => do
      let es ← rd g u
      let (d, stk) ← trEdges es d stk
      trLoop g fuel d stk

/-- transitive_closure.h:58-78 the edges of node `i` that stay. -/
def trFrom (fuel : Nat) (g : List (List Nat)) (i : Nat) (res : List (List Nat)) : Option (List (List Nat)) := do
  let d ← wr (List.replicate g.length 0) i (-1)
  let es ← rd g i
  let (d, stk) ← trFirst es d []
  let d ← wr d i (-1)
  let d ← trLoop g fuel d stk
  forUp (fun v res => do
    let dv ← rd d v
    if dv = 1 then addEdge res i v else some res) 0 g.length res

/-- transitive_closure.h:55-80 `transitive_reduction`. -/
def transitiveReduction (fuel : Nat) (g : List (List Nat)) : Option (List (List Nat)) :=
  forUp (trFrom fuel g) 0 g.length (List.replicate g.length [])

end Altruct.GraphAlg
