/-
Model of `experimental/include/altruct/algorithm/graph/heavy_light_decomposition.h`, on top of the models of `iterative_dfs`
and of `lowest_common_ancestor`.

A graph is the list of its adjacency lists; only the member `v` of an edge is kept here (`swapTargets` is about the other
members).  `none` is an access out of bounds or a loop that has not ended after `fuel` rounds.
-/
import Verif.GraphAlg.LcaModel
import Verif.Common.Loop

namespace Altruct.Hld

open GraphAlg

/-- heavy_light_decomposition.h:44-46 the loop over the edges of `u` when `u` is left. -/
def addSizes (parents : List Int) (u : Nat) : List Nat → List Nat → Option (List Nat)
  | [], sizes => some sizes
  | v :: es, sizes => (rd parents u).bind fun p =>
    if (v : Int) ≠ p then (rd sizes u).bind fun a => (rd sizes v).bind fun b => (wr sizes u (a + b)).bind (addSizes parents u es)
    else addSizes parents u es sizes

/-- heavy_light_decomposition.h:48 a node is entered in the first traversal; the state is `parents`, `sizes`. -/
def enter1 (s : List Int × List Nat) (parent : Int) (node : Nat) : Option (List Int × List Nat) :=
  (wr s.1 node parent).map (·, s.2)

/-- heavy_light_decomposition.h:44-46 a node is left in the first traversal. -/
def leave1 (g : List (List Nat)) (s : List Int × List Nat) (node : Nat) : Option (List Int × List Nat) :=
  (rd g node).bind fun es => (addSizes s.1 node es s.2).map (s.1, ·)

/-- heavy_light_decomposition.h:42-51 the visitor of the first traversal. -/
def visit1 (g : List (List Nat)) : Visitor (List Int × List Nat) := fun s _ parent node _ =>
  if node = -1 then (leave1 g s parent.toNat).map (·, true) else (enter1 s parent node.toNat).map (·, true)

/-- heavy_light_decomposition.h:54-60 the loop that finds the heavy child: `heavy_i`, `heavy_size`. -/
def heavyLoop (parents : List Int) (sizes : List Nat) (u : Nat) : List Nat → Nat → Nat × Nat → Option (Nat × Nat)
  | [], _, s => some s
  | v :: es, i, s => (rd parents u).bind fun p => (rd sizes v).bind fun sz =>
    heavyLoop parents sizes u es (i + 1) (if (v : Int) ≠ p ∧ s.2 < sz then (i, sz) else s)

/-- heavy_light_decomposition.h:61 `std::swap(g[u][0].v, g[u][i].v)`. -/
def swapFirst (es : List Nat) (i : Nat) : Option (List Nat) :=
  (rd es 0).bind fun a => (rd es i).bind fun b => (wr es 0 b).bind fun es => wr es i a

/-- heavy_light_decomposition.h:61 the same for edges with further members: only `v` is exchanged. -/
def swapTargets {W : Type} (es : List (Nat × W)) (i : Nat) : Option (List (Nat × W)) :=
  (rd es 0).bind fun a => (rd es i).bind fun b => (wr es 0 (b.1, a.2)).bind fun es => (rd es i).bind fun b => wr es i (a.1, b.2)

/-- heavy_light_decomposition.h:53-61 one round of the loop over the nodes. -/
def heavyStep (parents : List Int) (sizes : List Nat) (u : Nat) (g : List (List Nat)) : Option (List (List Nat)) :=
  (rd g u).bind fun es =>
    if es.length < 2 then some g
    else (heavyLoop parents sizes u es 0 (0, 0)).bind fun h => (swapFirst es h.1).bind fun es => wr g u es

/-- The state of the second traversal. -/
structure Walk where
  pos : Nat
  par : Int
  parents : List Int
  positions : List Int
  nodes : List Int

/-- heavy_light_decomposition.h:66-69 a node is entered in the second traversal. -/
def enter2 (s : Walk) (parent : Int) (node : Nat) : Option Walk :=
  let par := if s.par = -2 then parent else s.par
  (wr s.parents node par).bind fun parents => (wr s.positions node (s.pos : Int)).bind fun positions =>
    (wr s.nodes s.pos (node : Int)).map fun nodes => ⟨s.pos + 1, par, parents, positions, nodes⟩

/-- heavy_light_decomposition.h:71 a node is left in the second traversal. -/
def leave2 (s : Walk) (_node : Nat) : Option Walk := some { s with par := -2 }

/-- heavy_light_decomposition.h:64-74 the visitor of the second traversal. -/
def visit2 : Visitor Walk := fun s _ parent node _ =>
  if node ≠ -1 then (enter2 s parent node.toNat).map (·, true) else (leave2 s parent.toNat).map (·, true)

/-- The members of heavy_light_decomposition.h:30-33. -/
structure Hld where
  parents : List Int
  positions : List Int
  nodes : List Int
  sizes : List Nat

/-- heavy_light_decomposition.h:37-75 the constructor; it also changes the graph. -/
def build (fuel : Nat) (g : List (List Nat)) : Option (List (List Nat) × Hld) :=
  let n := g.length
  (iterativeDfs fuel g (visit1 g) (-1) (List.replicate n (-1), List.replicate n 1)).bind fun s =>
  (forUp (heavyStep s.1 s.2) 0 n g).bind fun g' =>
  (iterativeDfs fuel g' visit2 (-1) ⟨0, -2, s.1, List.replicate n (-1), List.replicate n (-1)⟩).map fun w =>
    (g', ⟨w.parents, w.positions, w.nodes, s.2⟩)

/-- heavy_light_decomposition.h:80-82 `parent(u)`. -/
def Hld.parent (h : Hld) (u : Nat) : Option Int := rd h.parents u
/-- heavy_light_decomposition.h:85-87 `position(u)`. -/
def Hld.position (h : Hld) (u : Nat) : Option Int := rd h.positions u
/-- heavy_light_decomposition.h:90-92 `node(pos)`. -/
def Hld.node (h : Hld) (pos : Int) : Option Int := if pos < 0 then none else rd h.nodes pos.toNat
/-- heavy_light_decomposition.h:95-97 `subtree_size(u)`. -/
def Hld.subtreeSize (h : Hld) (u : Nat) : Option Nat := rd h.sizes u

end Altruct.Hld
