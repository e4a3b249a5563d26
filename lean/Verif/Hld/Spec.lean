/-
Forests without directions, rooted at the least node of each tree: what the theorems about `heavy_light_decomposition` talk about.
-/
import Verif.GraphAlg.Spec

namespace Altruct.Hld

open GraphAlg

/-- `g` is an undirected forest; `up v` is the parent of `v` (-1 for the root) and `dep v` its distance from the root when each
tree hangs from its least node.  No adjacency list names a node twice. -/
structure Rooted (g : List (List Nat)) (up : Nat → Int) (dep : Nat → Nat) : Prop where
  valid : Valid g
  nodup : ∀ (v : Nat) (l : List Nat), g[v]? = some l → l.Nodup
  edge : ∀ x y, x < g.length → y < g.length → (Edge g x y ↔ up x = (y : Int) ∨ up y = (x : Int))
  least : ∀ v, v < g.length → (up v = -1 ↔ ∀ w, Reach g v w → v ≤ w)
  depth : ∀ v, v < g.length → (up v = -1 ∧ dep v = 0) ∨ ∃ q : Nat, up v = (q : Int) ∧ q < g.length ∧ dep v = dep q + 1

/-- `x` is `u` or below `u`: the way up from `x` passes `u`. -/
def Below (up : Nat → Int) (u x : Nat) : Prop := Relation.ReflTransGen (fun a b : Nat => up a = (b : Int)) x u

/-- `b` is reached from `a` by `k` steps up. -/
def Steps (up : Nat → Int) : Nat → Nat → Nat → Prop
  | 0, a, b => a = b
  | k + 1, a, b => ∃ q : Nat, up a = (q : Int) ∧ Steps up k q b

end Altruct.Hld
