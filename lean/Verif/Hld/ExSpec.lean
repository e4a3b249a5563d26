/-
What the theorem about `walk` talks about: paths, and the positions that a call of the visitor stands for.
-/
import Verif.Hld.Spec
import Verif.Hld.ExModel

namespace Altruct.Hld

open GraphAlg

/-- `l` is a path from `u` to `v` along edges that meets no node twice. -/
def IsPath (g : List (List Nat)) (u v : Nat) (l : List Nat) : Prop :=
  l.head? = some u ∧ l.getLast? = some v ∧ l.IsChain (Edge g) ∧ l.Nodup

/-- The lower of two adjacent nodes, which stands for the edge between them. -/
def lower (up : Nat → Int) (x y : Nat) : Nat := if up x = (y : Int) then x else y

/-- The edges of a path, each as its lower node. -/
def edgesOf (up : Nat → Int) (l : List Nat) : List Nat := List.zipWith (lower up) l l.tail

/-- A list of nodes as pairs of the position of the node and its index in the list. -/
def indexed (pos : Nat → Nat) (l : List Nat) : List (Int × Int) := l.zipIdx.map fun p => ((pos p.1 : Int), (p.2 : Int))

/-- The pairs of a position and a path index that a call of the visitor stands for. -/
def Seg.pairs (s : Seg) : List (Int × Int) :=
  (List.range (s.chainEnd - s.chainBegin).toNat).map fun i : Nat => (s.chainBegin + (i : Int), if s.direction then s.pathFirst - (i : Int) else s.pathFirst + (i : Int))

/-- A call of the visitor for `len > 0` positions, with path bounds to match. -/
def Seg.Fits (s : Seg) : Prop :=
  s.chainBegin < s.chainEnd ∧ s.pathLast = if s.direction then s.pathFirst - (s.chainEnd - s.chainBegin - 1) else s.pathFirst + (s.chainEnd - s.chainBegin - 1)

end Altruct.Hld
