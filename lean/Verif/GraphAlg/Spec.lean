/-
Directed graphs given by adjacency lists: what the theorems about the graph algorithms talk about.
-/
import Mathlib.Logic.Relation
import Mathlib.Data.List.Basic

namespace Altruct.GraphAlg

/-- There is an edge from `u` to `v`: `v` occurs in the adjacency list of `u`. -/
def Edge (g : List (List Nat)) (u v : Nat) : Prop := ∃ l, g[u]? = some l ∧ v ∈ l

/-- Every edge leads to a node of the graph. -/
def Valid (g : List (List Nat)) : Prop := ∀ u v, Edge g u v → v < g.length

/-- There is a path from `u` to `v`, possibly of length zero. -/
def Reach (g : List (List Nat)) : Nat → Nat → Prop := Relation.ReflTransGen (Edge g)

/-- There is a path of at least one edge from `u` to `v`. -/
def Path (g : List (List Nat)) : Nat → Nat → Prop := Relation.TransGen (Edge g)

/-- No node lies on a cycle. -/
def Acyclic (g : List (List Nat)) : Prop := ∀ u, ¬ Path g u u

theorem edge_lt {g : List (List Nat)} {u v : Nat} (h : Edge g u v) : u < g.length := by
  obtain ⟨l, h, _⟩ := h
  exact (List.getElem?_eq_some_iff.mp h).1

end Altruct.GraphAlg
