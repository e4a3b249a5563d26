/-
Model of `experimental/include/altruct/algorithm/graph/chain_decomposition.h`, lines 28-150.

A graph is the list of its adjacency lists.  `none` is an access out of bounds or a loop that has not ended after `fuel` rounds.
-/
import Verif.GraphAlg.DfsModel
import Verif.Common.Loop

namespace Altruct.Chain

open GraphAlg

/-- chain_decomposition.h:28 `chain_decomposition_t`: components, their bi-connected components, their chains, their vertices. -/
abbrev Decomposition := List (List (List (List Nat)))

/-- chain_decomposition.h:40-42 `que`, `ord` and `par`. -/
abbrev Tour := List Nat × List Int × List Int

/-- chain_decomposition.h:44-48 what the visitor does for a node. -/
def enter (t : Tour) (parent : Int) (node : Nat) : Option Tour :=
  let que := t.1 ++ [node]
  (wr t.2.1 node (que.length : Int)).bind fun ord => (wr t.2.2 node parent).map fun par => (que, ord, par)

/-- chain_decomposition.h:43-50 the visitor. -/
def visit : Visitor Tour := fun t _ parent node _ => if node ≠ -1 then (enter t parent node.toNat).map (·, true) else some (t, true)

/-- chain_decomposition.h:40-50 the tour. -/
def tour (fuel : Nat) (g : List (List Nat)) : Option Tour :=
  iterativeDfs fuel g visit (-1) ([], List.replicate g.length (-1), List.replicate g.length (-1))

/-- chain_decomposition.h:61-64 the way up: `chain` and `v`. -/
def climb (par bid : List Int) : Nat → Nat → List Nat → Option (List Nat × Nat)
  | 0, _, _ => none
  | fuel + 1, v, chain => (rd bid v).bind fun b =>
    if b = -1 then (rd par v).bind fun p => if p < 0 then none else climb par bid fuel p.toNat (chain ++ [p.toNat])
    else some (chain, v)

/-- chain_decomposition.h:65-67 `for (int w : chain) bid[w] = bid[v]`. -/
def mark (v : Nat) : List Nat → List Int → Option (List Int)
  | [], bid => some bid
  | w :: ws, bid => (rd bid v).bind fun b => (wr bid w b).bind fun bid => mark v ws bid

/-- chain_decomposition.h:59-71 a new chain from `u` over `v`: `component` and `bid`. -/
def addChain (fuel : Nat) (par : List Int) (u v : Nat) (component : List (List (List Nat))) (bid : List Int) : Option (List (List (List Nat)) × List Int) :=
  (wr bid u (component.length : Int)).bind fun bid => (climb par bid fuel v [u, v]).bind fun r =>
  (mark r.2 r.1 bid).bind fun bid => (rd bid r.2).bind fun b =>
  let component := if b = (component.length : Int) then component ++ [[]] else component
  if b < 0 then none else (rd component b.toNat).bind fun bi => (wr component b.toNat (bi ++ [r.1])).map fun component => (component, bid)

/-- chain_decomposition.h:56-72 the loop over the edges of `u`. -/
def edgeLoop (fuel : Nat) (ord par : List Int) (u : Nat) : List Nat → List (List (List Nat)) → List Int → Option (List (List (List Nat)) × List Int)
  | [], component, bid => some (component, bid)
  | v :: vs, component, bid => (rd par v).bind fun p => (rd ord v).bind fun ov => (rd ord u).bind fun ou =>
    if p = (u : Int) ∨ ov ≤ ou then edgeLoop fuel ord par u vs component bid
    else (addChain fuel par u v component bid).bind fun r => edgeLoop fuel ord par u vs r.1 r.2

/-- chain_decomposition.h:53-73 the loop over the nodes.  `res.back()` of an empty `res` is an access out of bounds. -/
def nodeLoop (fuel : Nat) (g : List (List Nat)) (ord par : List Int) : List Nat → Decomposition → List Int → Option Decomposition
  | [], res, _ => some res
  | u :: us, res, bid => (rd par u).bind fun p =>
    let res := if p = -1 then res ++ [[]] else res
    (res.getLast?).bind fun component => (rd g u).bind fun vs => (edgeLoop fuel ord par u vs component bid).bind fun r =>
    nodeLoop fuel g ord par us (res.dropLast ++ [r.1]) r.2

/-- chain_decomposition.h:38-75 `chain_decomposition`. -/
def chainDecomposition (fuel : Nat) (g : List (List Nat)) : Option Decomposition :=
  (tour fuel g).bind fun t => nodeLoop fuel g t.2.1 t.2.2 t.1 [] (List.replicate g.length (-1))

/-- `unordered_set::insert`. -/
def insertNew (s : List (Nat × Nat)) (e : Nat × Nat) : List (Nat × Nat) := if e ∈ s then s else s ++ [e]

/-- chain_decomposition.h:95-97 the edges of `u`. -/
def insertEdges (u : Nat) (vs : List Nat) (cute : List (Nat × Nat)) : List (Nat × Nat) :=
  vs.foldl (fun cute v => if u < v then insertNew cute (u, v) else cute) cute

/-- chain_decomposition.h:93-98 all edges. -/
def allEdges : Nat → List (List Nat) → List (Nat × Nat) → List (Nat × Nat)
  | _, [], cute => cute
  | u, vs :: g, cute => allEdges (u + 1) g (insertEdges u vs cute)

/-- chain_decomposition.h:102-106 the edges of a chain. -/
def eraseChain : List Nat → List (Nat × Nat) → List (Nat × Nat)
  | u :: v :: chain, cute => eraseChain (v :: chain) (cute.filter (fun e => ¬ e = if u > v then (v, u) else (u, v)))
  | _, cute => cute

/-- chain_decomposition.h:89-111 `cut_edges`.  The set is a list without repetitions; the order in which an `unordered_set` is iterated is not modelled. -/
def cutEdges (g : List (List Nat)) (d : Decomposition) : List (Nat × Nat) :=
  d.foldl (fun cute component => component.foldl (fun cute biconnected => biconnected.foldl (fun cute chain => eraseChain chain cute) cute) cute) (allEdges 0 g [])

/-- chain_decomposition.h:131-134. -/
def markEdges : List (Nat × Nat) → List Nat → Option (List Nat)
  | [], c => some c
  | e :: ve, c => (wr c e.2 1).bind fun c => (wr c e.1 1).bind fun c => markEdges ve c

/-- chain_decomposition.h:136-139 the bi-connected components from index 1 on. -/
def markTops : List (List (List Nat)) → List Nat → Option (List Nat)
  | [], c => some c
  | bi :: bis, c => (rd bi 0).bind fun chain => (rd chain 0).bind fun u => (wr c u 1).bind fun c => markTops bis c

/-- chain_decomposition.h:135-140. -/
def markComponents : Decomposition → List Nat → Option (List Nat)
  | [], c => some c
  | component :: d, c => (markTops (component.drop 1) c).bind fun c => markComponents d c

/-- chain_decomposition.h:141-144. -/
def unmarkLeaves (g : List (List Nat)) (c : List Nat) : Option (List Nat) :=
  forUp (fun u c => (rd g u).bind fun vs => if vs.length < 2 then wr c u 0 else some c) 0 g.length c

/-- chain_decomposition.h:145-148. -/
def collect (n : Nat) (c : List Nat) : Option (List Nat) :=
  forUp (fun u cutv => (rd c u).map fun b => if b ≠ 0 then cutv ++ [u] else cutv) 0 n []

/-- chain_decomposition.h:126-150 `cut_vertices`. -/
def cutVertices (g : List (List Nat)) (d : Decomposition) (ve : List (Nat × Nat)) : Option (List Nat) :=
  (markEdges ve (List.replicate g.length 0)).bind fun c => (markComponents d c).bind fun c => (unmarkLeaves g c).bind fun c => collect g.length c

/-- chain_decomposition.h:172-174 one chain: `cur` is `vbc.back()`. -/
def bcChain : List Nat → List Nat → List Nat → Option (List Nat × List Nat)
  | [], cur, seen => some (cur, seen)
  | u :: us, cur, seen => (rd seen u).bind fun b =>
    if b = 0 then (wr seen u 1).bind fun seen => bcChain us (cur ++ [u]) seen else bcChain us cur seen

/-- chain_decomposition.h:171-175 the chains of one group. -/
def bcGroup : List (List Nat) → List Nat → List Nat → Option (List Nat × List Nat)
  | [], cur, seen => some (cur, seen)
  | ch :: chs, cur, seen => (bcChain ch cur seen).bind fun r => bcGroup chs r.1 r.2

/-- chain_decomposition.h:168-176 the groups of one component.  The list that is being filled, `vbc.back()`, is carried apart and put at the end of `vbc` when it is complete. -/
def bcComp : List (List (List Nat)) → List (List Nat) → List Nat → Option (List (List Nat) × List Nat)
  | [], vbc, seen => some (vbc, seen)
  | bi :: bis, vbc, seen => (rd bi 0).bind fun chain => (rd chain 0).bind fun u => (wr seen u 0).bind fun seen =>
    (bcGroup bi [] seen).bind fun r => bcComp bis (vbc ++ [r.1]) r.2

/-- chain_decomposition.h:167-177. -/
def bcAll : Decomposition → List (List Nat) → List Nat → Option (List (List Nat) × List Nat)
  | [], vbc, seen => some (vbc, seen)
  | component :: d, vbc, seen => (bcComp component vbc seen).bind fun r => bcAll d r.1 r.2

/-- chain_decomposition.h:164-180 `biconnected_components`. -/
def biconnectedComponents (g : List (List Nat)) (d : Decomposition) : Option (List (List Nat)) :=
  (bcAll d [] (List.replicate g.length 0)).map Prod.fst

end Altruct.Chain
