/-
Bridges and articulation points: what the theorems about the chain decomposition talk about.
-/
import Verif.GraphAlg.Spec

namespace Altruct.Chain

open GraphAlg

/-- There is an edge from `x` to `y`, and it is not the one between `u` and `v`. -/
def Without (g : List (List Nat)) (u v x y : Nat) : Prop := Edge g x y ∧ ¬ (x = u ∧ y = v) ∧ ¬ (x = v ∧ y = u)

/-- The edge between `u` and `v` is a bridge: without it there is no way from `u` to `v`. -/
def Bridge (g : List (List Nat)) (u v : Nat) : Prop := Edge g u v ∧ ¬ Relation.ReflTransGen (Without g u v) u v

/-- There is an edge from `x` to `y`, and neither is `c`. -/
def Avoiding (g : List (List Nat)) (c x y : Nat) : Prop := Edge g x y ∧ x ≠ c ∧ y ≠ c

/-- `c` is an articulation point: some two other nodes are connected, but not without `c`. -/
def Articulation (g : List (List Nat)) (c : Nat) : Prop :=
  ∃ a b, a ≠ c ∧ b ≠ c ∧ Reach g a b ∧ ¬ Relation.ReflTransGen (Avoiding g c) a b

/-- `x` and `y` are biconnected: no single other node separates them, and they are not the two ends of a bridge. -/
def Biconnected (g : List (List Nat)) (x y : Nat) : Prop :=
  (∀ c, c ≠ x → c ≠ y → Relation.ReflTransGen (Avoiding g c) x y) ∧ ¬ Bridge g x y

end Altruct.Chain
