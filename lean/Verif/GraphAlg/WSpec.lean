/-
Weighted directed graphs given by adjacency lists: walks, their weights, distances.
-/
import Mathlib.Data.List.Basic
import Mathlib.Data.List.Nodup
import Mathlib.Tactic.Linarith
import Mathlib.Tactic.Ring

namespace Altruct.GraphAlg

/-- There is an edge of weight `w` from `u` to `v`. -/
def WEdge (g : List (List (Nat × Int))) (u v : Nat) (w : Int) : Prop := ∃ l, g[u]? = some l ∧ (v, w) ∈ l

/-- Every edge leads to a node of the graph. -/
def WValid (g : List (List (Nat × Int))) : Prop := ∀ u v w, WEdge g u v w → v < g.length

/-- A walk from `u` to `t` of total weight `d`; the list has its nodes in order, without the last one `t`. -/
inductive Walk (g : List (List (Nat × Int))) : Nat → List Nat → Nat → Int → Prop
  | nil (u : Nat) : Walk g u [] u 0
  | cons {u v t : Nat} {w d : Int} {p : List Nat} : WEdge g u v w → Walk g v p t d → Walk g u (u :: p) t (w + d)

/-- `d` is the least weight of a walk from `u` to `v`. -/
def IsDist (g : List (List (Nat × Int))) (u v : Nat) (d : Int) : Prop :=
  (∃ p, Walk g u p v d) ∧ ∀ p d', Walk g u p v d' → d ≤ d'

/-- No closed walk has a negative weight. -/
def NoNegCycle (g : List (List (Nat × Int))) : Prop := ∀ u p d, Walk g u p u d → 0 ≤ d

/-- The walk repeats no node. -/
def Simple (p : List Nat) (t : Nat) : Prop := (p ++ [t]).Nodup

section
variable {g : List (List (Nat × Int))}

theorem wedge_lt {u v : Nat} {w : Int} (h : WEdge g u v w) : u < g.length := by
  obtain ⟨l, h, _⟩ := h
  exact (List.getElem?_eq_some_iff.mp h).1

theorem Walk.append {u v t : Nat} {p q : List Nat} {d e : Int} (h : Walk g u p v d) (h' : Walk g v q t e) :
    Walk g u (p ++ q) t (d + e) := by
  induction h with
  | nil u => simpa using h'
  | cons h1 _ ih =>
    rw [add_assoc]
    exact Walk.cons h1 (ih h')

theorem Walk.single {u v : Nat} {w : Int} (h : WEdge g u v w) : Walk g u [u] v w := by
  simpa using Walk.cons h (Walk.nil v)

theorem Walk.lt {u v : Nat} {p : List Nat} {d : Int} (h : Walk g u p v d) (hg : WValid g) (hu : u < g.length) : v < g.length := by
  induction h with
  | nil => exact hu
  | cons h1 _ ih => exact ih (hg _ _ _ h1)

/-- A walk can be cut at any of its nodes. -/
theorem Walk.split {u t : Nat} {p : List Nat} {d : Int} (h : Walk g u p t d) : ∀ x ∈ p,
    ∃ r q d1 d2, p = r ++ q ∧ Walk g u r x d1 ∧ Walk g x q t d2 ∧ d = d1 + d2 := by
  induction h with
  | nil => intro x hx; simp at hx
  | cons h1 h2 ih =>
    rename_i u v t w d p
    intro x hx
    by_cases hxu : x = u
    · subst hxu
      exact ⟨[], x :: p, 0, w + d, rfl, Walk.nil x, Walk.cons h1 h2, by ring⟩
    · obtain ⟨r, q, d1, d2, e1, h3, h4, e2⟩ := ih x (by simpa [hxu] using hx)
      exact ⟨u :: r, q, w + d1, d2, by rw [e1]; rfl, Walk.cons h1 h3, h4, by rw [e2]; ring⟩

/-- Without negative cycles a walk can be made simple without getting heavier. -/
theorem Walk.exists_simple (hn : NoNegCycle g) {u t : Nat} {p : List Nat} {d : Int} (h : Walk g u p t d) :
    ∃ p' d', Walk g u p' t d' ∧ d' ≤ d ∧ Simple p' t ∧ ∀ x ∈ p', x ∈ p := by
  induction h with
  | nil u => exact ⟨[], 0, Walk.nil u, le_refl _, by simp [Simple], by simp⟩
  | cons h1 h2 ih =>
    rename_i u v t w d p
    obtain ⟨p', d', h3, h4, h5, h6⟩ := ih
    by_cases hu : u ∈ p'
    · obtain ⟨r, q, d1, d2, e1, h7, h8, e2⟩ := h3.split u hu
      have h9 := hn u _ _ (Walk.cons h1 h7)
      refine ⟨q, d2, h8, by linarith, ?_, fun x hx => ?_⟩
      · rw [Simple, e1, List.append_assoc] at h5
        exact (List.nodup_append.mp h5).2.1
      · exact List.mem_cons_of_mem _ (h6 x (by rw [e1]; exact List.mem_append_right _ hx))
    · by_cases hut : u = t
      · subst hut
        have h9 := hn u _ _ (Walk.cons h1 h3)
        exact ⟨[], 0, Walk.nil u, by linarith, by simp [Simple], by simp⟩
      · refine ⟨u :: p', w + d', Walk.cons h1 h3, by linarith, ?_, fun x hx => ?_⟩
        · rw [Simple, List.cons_append, List.nodup_cons]
          exact ⟨by simp [hu, hut], h5⟩
        · rcases List.mem_cons.mp hx with h | h
          · simp [h]
          · exact List.mem_cons_of_mem _ (h6 x h)

theorem Walk.head {u t : Nat} {p : List Nat} {d : Int} (h : Walk g u p t d) : (p = [] ∧ u = t ∧ d = 0) ∨ ∃ q, p = u :: q := by
  cases h with
  | nil => exact Or.inl ⟨rfl, rfl, rfl⟩
  | cons => exact Or.inr ⟨_, rfl⟩

end
end Altruct.GraphAlg
