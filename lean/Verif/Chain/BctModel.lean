/-
Model of `block_cut_tree`, experimental/include/altruct/algorithm/graph/chain_decomposition.h.  A graph is its adjacency lists; the data of the edges is left out.
-/
import Verif.Chain.Model

namespace Altruct.Chain

/-- include/altruct/structure/graph/graph.h:88 `adjl[u].push_back(e)`. -/
def pushTo (t : List (List Nat)) (u v : Nat) : Option (List (List Nat)) := (rd t u).bind fun l => wr t u (l ++ [v])

/-- include/altruct/structure/graph/graph.h:87-91 `add_edge2`; a negative node is an access out of bounds. -/
def link (t : List (List Nat)) (u v : Int) : Option (List (List Nat)) :=
  if u < 0 ∨ v < 0 then none else (pushTo t u.toNat v.toNat).bind fun t => pushTo t v.toNat u.toNat

/-- chain_decomposition.h:206 `for (auto u : b) idx[u] = i`. -/
def setAll (i : Int) : List Nat → List Int → Option (List Int)
  | [], idx => some idx
  | u :: b, idx => (wr idx u i).bind fun idx => setAll i b idx

/-- chain_decomposition.h:204-207 nodes for blocks; `add_node` (graph.h:84) appends an empty list and returns its index. -/
def bctBlocks : List (List Nat) → List (List Nat) → List Int → Option (List (List Nat) × List Int)
  | [], t, idx => some (t, idx)
  | b :: vb, t, idx => (setAll t.length b idx).bind fun idx => bctBlocks vb (t ++ [[]]) idx

/-- chain_decomposition.h:209-211 nodes for articulation points. -/
def bctArts : List Nat → List (List Nat) → List Int → Option (List (List Nat) × List Int)
  | [], t, idx => some (t, idx)
  | u :: va, t, idx => (wr idx u t.length).bind fun idx => bctArts va (t ++ [[]]) idx

/-- chain_decomposition.h:213-215 nodes for leaves and isolated nodes. -/
def bctLeaves (g : List (List Nat)) (t : List (List Nat)) (idx : List Int) : Option (List (List Nat) × List Int) :=
  forUp (fun u s => (rd g u).bind fun vs => if vs.length ≤ 1 then (wr s.2 u s.1.length).map fun idx => (s.1 ++ [[]], idx) else some s) 0 g.length (t, idx)

/-- chain_decomposition.h:218-220 the edges of one block. -/
def bctBlockEdge (idx : List Int) (i : Nat) : List Nat → List (List Nat) → Option (List (List Nat))
  | [], t => some t
  | u :: b, t => (rd idx u).bind fun a => (if a ≠ (i : Int) then link t a i else some t).bind fun t => bctBlockEdge idx i b t

/-- chain_decomposition.h:217-221 edges between blocks and articulation points, from block `i` on. -/
def bctBlockEdges (idx : List Int) : Nat → List (List Nat) → List (List Nat) → Option (List (List Nat))
  | _, [], t => some t
  | i, b :: vb, t => (bctBlockEdge idx i b t).bind fun t => bctBlockEdges idx (i + 1) vb t

/-- chain_decomposition.h:223-225 edges for bridges. -/
def bctBridges (idx : List Int) : List (Nat × Nat) → List (List Nat) → Option (List (List Nat))
  | [], t => some t
  | e :: ve, t => (rd idx e.1).bind fun a => (rd idx e.2).bind fun b => (link t a b).bind fun t => bctBridges idx ve t

/-- chain_decomposition.h:200-227 `block_cut_tree`. -/
def blockCutTree (g : List (List Nat)) (ve : List (Nat × Nat)) (va : List Nat) (vb : List (List Nat)) : Option (List (List Nat) × List Int) :=
  (bctBlocks vb [] (List.replicate g.length (-1))).bind fun s => (bctArts va s.1 s.2).bind fun s => (bctLeaves g s.1 s.2).bind fun s =>
  (bctBlockEdges s.2 0 vb s.1).bind fun t => (bctBridges s.2 ve t).map fun t => (t, s.2)

/-- chain_decomposition.h:237-255 the constructor of `biconnectivity`: the six fields. -/
def biconnectivity (fuel : Nat) (g : List (List Nat)) : Option (Decomposition × List (Nat × Nat) × List Nat × List (List Nat) × List (List Nat) × List Int) :=
  (chainDecomposition fuel g).bind fun d => (cutVertices g d (cutEdges g d)).bind fun va => (biconnectedComponents g d).bind fun vb =>
  (blockCutTree g (cutEdges g d) va vb).map fun ti => (d, cutEdges g d, va, vb, ti.1, ti.2)

end Altruct.Chain
