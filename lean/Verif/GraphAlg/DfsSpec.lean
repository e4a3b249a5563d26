/-
Depth-first forests: what the theorems about `iterative_dfs` talk about.
-/
import Verif.GraphAlg.Spec

namespace Altruct.GraphAlg

/-- An ordered forest of nodes.  `skip v rest`: the visitor was asked about `v` here and declined; `node v cs rest`: `v` was
entered, `cs` is what happened below it, `rest` what happened after it on the same level. -/
inductive Forest where
  | nil : Forest
  | skip : Nat → Forest → Forest
  | node : Nat → Forest → Forest → Forest

namespace Forest

/-- The nodes entered, in the order in which they are entered. -/
def pre : Forest → List Nat
  | nil => []
  | skip _ r => r.pre
  | node v cs r => v :: cs.pre ++ r.pre

/-- The nodes entered, in the order in which they are left. -/
def post : Forest → List Nat
  | nil => []
  | skip _ r => r.post
  | node v cs r => cs.post ++ v :: r.post

/-- The nodes the visitor was asked about on the top level. -/
def heads : Forest → List Nat
  | nil => []
  | skip v r => v :: r.heads
  | node v _ r => v :: r.heads

/-- `y` is an ancestor of `x`, or `x` itself. -/
def Anc : Forest → Nat → Nat → Prop
  | nil, _, _ => False
  | skip _ r, y, x => r.Anc y x
  | node v cs r, y, x => (y = v ∧ (x = v ∨ x ∈ cs.pre)) ∨ cs.Anc y x ∨ r.Anc y x

/-- All questions to the visitor: (parent or -1, node, answer). -/
def calls (p : Int) : Forest → List (Int × Nat × Bool)
  | nil => []
  | skip v r => (p, v, false) :: r.calls p
  | node v cs r => (p, v, true) :: cs.calls v ++ r.calls p

/-- Below every node the visitor is asked about nodes of its adjacency list, in that order. -/
def Ordered (g : List (List Nat)) : Forest → Prop
  | nil => True
  | skip _ r => r.Ordered g
  | node v cs r => (∃ l, g[v]? = some l ∧ cs.heads.Sublist l) ∧ cs.Ordered g ∧ r.Ordered g

/-- The calls `visitor(root, parent, node, depth)` for the forest below `p`, as documented: each node when it is met, and -1 as
the last node of each parent. -/
def events (o : Int) : Int → Int → Forest → List (Int × Int × Int × Int)
  | _, _, nil => []
  | p, d, skip v r => (o, p, (v : Int), d) :: r.events o p d
  | p, d, node v cs r => (o, p, (v : Int), d) :: (cs.events o v (d + 1) ++ (o, (v : Int), -1, d + 1) :: r.events o p d)

/-- The calls for the whole forest: every tree has its own root, whose parent is -1 and whose depth is 0. -/
def rootEvents : Forest → List (Int × Int × Int × Int)
  | nil => []
  | skip v r => ((v : Int), -1, (v : Int), 0) :: r.rootEvents
  | node v cs r => ((v : Int), -1, (v : Int), 0) :: (cs.events v v 1 ++ ((v : Int), (v : Int), -1, 1) :: r.rootEvents)

end Forest

/-- `F` is a depth-first forest of `g` started from `roots` when the visitor answers `enter parent node`. -/
structure IsDfs (g : List (List Nat)) (enter : Int → Nat → Bool) (roots : List Nat) (F : Forest) : Prop where
  /-- no node is entered twice -/
  nodup : F.pre.Nodup
  /-- the visitor is asked about the roots in order, and below each node about its successors in order -/
  top : F.heads.Sublist roots
  ordered : F.Ordered g
  /-- a node is entered exactly when the visitor says so -/
  answers : ∀ p v b, (p, v, b) ∈ F.calls (-1) → b = enter p v
  /-- every root is entered or declined -/
  roots : ∀ o ∈ roots, o ∈ F.pre ∨ enter (-1) o = false
  /-- for every edge from `u` to `v`: when `u` is left, `v` has been left before or is an ancestor of `u` (or `u`), or the
  visitor has declined to enter `v` from `u` -/
  edges : ∀ u ∈ F.pre, ∀ v, Edge g u v → [v, u].Sublist F.post ∨ F.Anc v u ∨ enter u v = false

end Altruct.GraphAlg
