/-
C48: edits of graphs.
-/
import Verif.Graph.GraphModel
import Mathlib.Data.List.Perm.Basic
import Mathlib.Data.List.Sort
import Mathlib.Data.List.Pairwise
import Mathlib.Tactic.Linarith

namespace Altruct.Graph

variable {δ : Type}

/-! ### The loop that removes edges -/

theorem eraseLoop_spec (del : Edge δ → Bool) (upd : Edge δ → Edge δ) : ∀ (fuel i : Nat) (l : List (Edge δ)), l.length - i ≤ fuel → i ≤ l.length →
    ∃ l', eraseLoop del upd fuel i l = some l' ∧ l'.Perm (l.take i ++ ((l.drop i).filter fun e => !del e).map upd) := by
  intro fuel
  induction fuel with
  | zero =>
    intro i l h1 h2
    refine ⟨l, by rw [eraseLoop, if_neg (by omega)], ?_⟩
    rw [List.take_of_length_le (by omega), List.drop_of_length_le (by omega)]
    simp
  | succ fuel ih =>
    intro i l h1 h2
    by_cases hi : i < l.length
    · have hd : l.drop i = l[i] :: l.drop (i + 1) := List.drop_eq_getElem_cons hi
      rw [eraseLoop.eq_def]
      simp only
      rw [if_pos hi, rd, List.getElem?_eq_getElem hi]
      simp only [Option.bind_eq_bind, Option.bind_some]
      by_cases hdel : del l[i] = true
      · rw [if_pos hdel, rd, List.getElem?_eq_getElem (show l.length - 1 < l.length by omega)]
        simp only [Option.bind_some]
        rw [wr, if_pos hi]
        simp only [Option.bind_some]
        rw [wr, if_pos (by rw [List.length_set]; omega)]
        simp only [Option.bind_some, List.length_set]
        have hdl : ((l.set i l[l.length - 1]).set (l.length - 1) l[i]).dropLast = (l.set i l[l.length - 1]).dropLast := by
          rw [List.dropLast_eq_take, List.dropLast_eq_take, List.length_set, List.length_set, List.take_set_of_le (Nat.le_refl _)]
        rw [hdl]
        obtain ⟨l', e, hp⟩ := ih i (l.set i l[l.length - 1]).dropLast (by rw [List.length_dropLast, List.length_set]; omega)
          (by rw [List.length_dropLast, List.length_set]; omega)
        refine ⟨l', e, hp.trans ?_⟩
        rw [hd, List.filter_cons_of_neg (by simp [hdel])]
        have ht : (l.set i l[l.length - 1]).dropLast.take i = l.take i := by
          rw [List.dropLast_eq_take, List.length_set, List.take_take, min_eq_left (by omega), List.take_set_of_le (Nat.le_refl _)]
        rw [ht]
        apply List.Perm.append_left
        apply List.Perm.map
        apply List.Perm.filter
        by_cases hlast : i + 1 = l.length
        · rw [List.drop_of_length_le (by rw [List.length_dropLast, List.length_set]; omega), List.drop_of_length_le (by omega)]
        · have h3 : (l.set i l[l.length - 1]).dropLast.drop i = l[l.length - 1] :: (l.drop (i + 1)).dropLast := by
            rw [List.dropLast_eq_take, List.length_set, List.drop_take, List.drop_set, if_neg (by omega), hd, show i - i = 0 by omega, List.set_cons_zero,
              show l.length - 1 - i = (l.length - 2 - i) + 1 by omega, List.take_succ_cons, List.dropLast_eq_take, List.length_drop,
              show l.length - (i + 1) - 1 = l.length - 2 - i by omega]
          rw [h3]
          have hne : l.drop (i + 1) ≠ [] := by
            intro h; have := congrArg List.length h; rw [List.length_drop, List.length_nil] at this; omega
          have h4 : l[l.length - 1] = (l.drop (i + 1)).getLast hne := by
            rw [List.getLast_drop]
            rw [List.getLast_eq_getElem]
          rw [h4]
          conv_rhs => rw [← List.dropLast_append_getLast hne]
          exact (List.perm_append_singleton _ _).symm
      · rw [if_neg hdel, wr, if_pos hi]
        simp only [Option.bind_some]
        obtain ⟨l', e, hp⟩ := ih (i + 1) (l.set i (upd l[i])) (by rw [List.length_set]; omega) (by rw [List.length_set]; omega)
        refine ⟨l', e, hp.trans ?_⟩
        rw [hd, List.filter_cons_of_pos (by simpa using hdel), List.map_cons, List.drop_set_of_lt (by omega)]
        have : (l.set i (upd l[i])).take (i + 1) = l.take i ++ [upd l[i]] := by
          rw [← List.take_append_getElem (by rw [List.length_set]; exact hi), List.getElem_set_self, List.take_set_of_le (Nat.le_refl _)]
        rw [this, List.append_assoc]
        rfl
    · refine ⟨l, by rw [eraseLoop, if_neg hi], ?_⟩
      rw [List.take_of_length_le (by omega), List.drop_of_length_le (by omega)]
      simp

/-- **C48**: `delete_edge(u, v)` removes exactly the edges from `u` to `v`, all of them, with any multiplicity. -/
theorem C48_delete_edge (g : Adj δ) (u v : Nat) (l : List (Edge δ)) (hl : g[u]? = some l) :
    ∃ l', deleteEdge g u v = some (g.set u l') ∧ l'.Perm (l.filter fun e => decide (e.v ≠ v)) := by
  obtain ⟨l', e, hp⟩ := eraseLoop_spec (fun e : Edge δ => decide (e.v = v)) id l.length 0 l (by omega) (by omega)
  have hu : u < g.length := (List.getElem?_eq_some_iff.mp hl).1
  refine ⟨l', ?_, ?_⟩
  · rw [deleteEdge, rd, hl]
    simp only [Option.bind_eq_bind, Option.bind_some]
    rw [e]
    simp only [Option.bind_some]
    rw [wr, if_pos hu]
  · simpa using hp

/-! ### Deleting a node -/

/-- The new number of vertex `i` when `u` is deleted from `n` vertices: the last vertex takes the number `u`. -/
def renumber (n u i : Nat) : Nat := if i = n - 1 then u else i

theorem mapM_spec {α β : Type} (f : α → Option β) (R : α → β → Prop) (h : ∀ a, ∃ b, f a = some b ∧ R a b) (l : List α) :
    ∃ l', l.mapM f = some l' ∧ l'.length = l.length ∧ ∀ (i : Nat) (a : α), l[i]? = some a → ∃ b : β, l'[i]? = some b ∧ R a b := by
  induction l with
  | nil => exact ⟨[], rfl, rfl, fun i a h => by simp at h⟩
  | cons a l ih =>
    obtain ⟨b, e, hr⟩ := h a
    obtain ⟨l', e', hl, hi⟩ := ih
    refine ⟨b :: l', ?_, by simp [hl], fun i x hx => ?_⟩
    · rw [List.mapM_cons, e, e']; rfl
    · cases i with
      | zero => simp only [List.getElem?_cons_zero, Option.some.injEq] at hx ⊢; subst hx; exact ⟨b, rfl, hr⟩
      | succ i => simp only [List.getElem?_cons_succ] at hx ⊢; exact hi i x hx

/-- **C48**: `delete_node(u)` on a graph with `n` vertices gives a graph with `n - 1` vertices; every other vertex
`i` keeps, under its new number, exactly its edges that do not go to `u`, with their data, and with their
destinations renumbered in the same way. -/
theorem C48_delete_node (g : Adj δ) (u : Nat) (hu : u < g.length) :
    ∃ g', deleteNode g u = some g' ∧ g'.length = g.length - 1 ∧ ∀ i l, i ≠ u → g[i]? = some l → ∃ l', g'[renumber g.length u i]? = some l' ∧
      l'.Perm ((l.filter fun e => decide (e.v ≠ u)).map fun e => { e with v := renumber g.length u e.v }) := by
  have hlast : g.length - 1 < g.length := by omega
  obtain ⟨g', e, hl, hi⟩ := mapM_spec
    (fun l : List (Edge δ) => eraseLoop (fun e => decide (e.v = u)) (fun e => if e.v = g.length - 1 then { e with v := u } else e) l.length 0 l)
    (fun l l' => l'.Perm ((l.filter fun e => decide (e.v ≠ u)).map fun e => { e with v := renumber g.length u e.v }))
    (fun l => by
      obtain ⟨l', e, hp⟩ := eraseLoop_spec (fun e : Edge δ => decide (e.v = u)) (fun e => if e.v = g.length - 1 then { e with v := u } else e) l.length 0 l (by omega) (by omega)
      refine ⟨l', e, ?_⟩
      simp only [List.take_zero, List.nil_append, List.drop_zero] at hp
      have h1 : (fun e : Edge δ => decide (e.v ≠ u)) = fun e => !decide (e.v = u) := by funext e; simp
      have h2 : (fun e : Edge δ => ({ e with v := renumber g.length u e.v } : Edge δ)) = fun e => if e.v = g.length - 1 then { e with v := u } else e := by
        funext e
        rw [renumber]
        split <;> rfl
      rw [h1, h2]
      exact hp)
    ((g.set u g[g.length - 1]).set (g.length - 1) g[u]).dropLast
  refine ⟨g', ?_, ?_, fun i l hiu hil => ?_⟩
  · rw [deleteNode]
    simp only
    rw [rd, List.getElem?_eq_getElem hu]
    simp only [Option.bind_eq_bind, Option.bind_some]
    rw [rd, List.getElem?_eq_getElem hlast]
    simp only [Option.bind_some]
    rw [wr, if_pos hu]
    simp only [Option.bind_some]
    rw [wr, if_pos (by rw [List.length_set]; exact hlast)]
    simp only [Option.bind_some]
    exact e
  · rw [hl, List.length_dropLast, List.length_set, List.length_set]
  · apply hi
    have hig : i < g.length := (List.getElem?_eq_some_iff.mp hil).1
    rw [List.dropLast_eq_take, List.length_set, List.length_set, List.getElem?_take]
    have hlt : renumber g.length u i < g.length - 1 := by rw [renumber]; split <;> omega
    rw [if_pos hlt, List.getElem?_set_ne (by omega)]
    rw [renumber]
    split
    case isTrue h =>
      rw [List.getElem?_set_self hu, ← hil, h, List.getElem?_eq_getElem hlast]
    case isFalse h =>
      rw [List.getElem?_set_ne (Ne.symm hiu), hil]

/-! ### Adding -/

/-- **C48**: `add_node` adds a vertex without edges and returns its number; `add_edge(u, e)` adds one edge. -/
theorem C48_add (g : Adj δ) (u : Nat) (e : Edge δ) (l : List (Edge δ)) (hl : g[u]? = some l) :
    addNode g = (g ++ [[]], g.length) ∧ addEdge g u e = some (g.set u (l ++ [e])) := by
  have hu : u < g.length := (List.getElem?_eq_some_iff.mp hl).1
  refine ⟨by simp [addNode], ?_⟩
  rw [addEdge, rd, hl]
  simp only [Option.bind_eq_bind, Option.bind_some]
  rw [wr, if_pos hu]

/-- **C48**: `add_edge2(u, e)` adds the edge to `u` and its reverse, with the same data, to the destination; for a
loop both are added to `u`. -/
theorem C48_add_edge2 (g : Adj δ) (u : Nat) (e : Edge δ) (hu : u < g.length) (hv : e.v < g.length) :
    ∃ g', addEdge2 g u e = some g' ∧ g'.length = g.length ∧
      ∀ i l, g[i]? = some l → g'[i]? = some (l ++ (if i = u then [e] else []) ++ (if i = e.v then [{ e with v := u }] else [])) := by
  obtain ⟨l2, hl2⟩ : ∃ l2, (g.set u (g[u] ++ [e]))[e.v]? = some l2 :=
    ⟨_, List.getElem?_eq_getElem (l := g.set u (g[u] ++ [e])) (i := e.v) (by rw [List.length_set]; exact hv)⟩
  refine ⟨(g.set u (g[u] ++ [e])).set e.v (l2 ++ [{ e with v := u }]), ?_, by simp, fun i l hl => ?_⟩
  · rw [addEdge2, rd, List.getElem?_eq_getElem hu]
    simp only [Option.bind_eq_bind, Option.bind_some]
    rw [wr, if_pos hu]
    simp only [Option.bind_some]
    rw [rd, hl2]
    simp only [Option.bind_some]
    rw [wr, if_pos (by rw [List.length_set]; exact hv)]
    simp only [Option.bind_some]
    rw [rd, List.getElem?_set_self (by rw [List.length_set]; exact hv)]
    simp only [Option.bind_some, List.length_append, List.length_singleton]
    rw [rd, List.getElem?_append_right (by omega), show l2.length + 1 - 1 - l2.length = 0 by omega]
    simp only [List.getElem?_cons_zero, Option.bind_some]
    rw [wr, if_pos (by simp)]
    simp only [Option.bind_some]
    rw [wr, if_pos (by simpa using hv)]
    congr 1
    rw [List.set_set, List.set_append_right _ _ (by omega)]
    simp
  · have hig : i < g.length := (List.getElem?_eq_some_iff.mp hl).1
    by_cases h1 : i = e.v
    · subst h1
      rw [List.getElem?_set_self (by rw [List.length_set]; exact hv), if_pos rfl]
      by_cases h2 : e.v = u
      · rw [if_pos h2]
        have h3 : (g.set u (g[u] ++ [e]))[u]? = some (g[u] ++ [e]) := List.getElem?_set_self hu
        have h4 : g[u]? = some g[u] := List.getElem?_eq_getElem hu
        rw [h2] at hl2 hl
        rw [Option.some.inj (hl2.symm.trans h3), Option.some.inj (hl.symm.trans h4)]
      · rw [List.getElem?_set_ne (Ne.symm h2)] at hl2
        rw [if_neg h2, List.append_nil, Option.some.inj (hl2.symm.trans hl)]
    · rw [List.getElem?_set_ne (Ne.symm h1), if_neg h1, List.append_nil]
      by_cases h2 : i = u
      · subst h2
        rw [List.getElem?_set_self hu, if_pos rfl]
        rw [List.getElem?_eq_getElem hu] at hl
        rw [Option.some.inj hl]
      · rw [List.getElem?_set_ne (Ne.symm h2), if_neg h2, List.append_nil, hl]

/-! ### Contracting -/

theorem uniqFrom_spec : ∀ (l : List (Edge δ)) (e : Edge δ), (e :: l).Pairwise (fun a b => a.v ≤ b.v) →
    (uniqFrom e l).Pairwise (fun a b => a.v < b.v) ∧ (∀ x ∈ uniqFrom e l, x ∈ e :: l) ∧ (∀ a ∈ e :: l, ∃ x ∈ uniqFrom e l, x.v = a.v) := by
  intro l
  induction l with
  | nil => intro e _; simp [uniqFrom]
  | cons f l ih =>
    intro e hp
    rw [uniqFrom]
    rw [List.pairwise_cons] at hp
    split
    case isTrue h =>
      have hp2 := List.pairwise_cons.mp hp.2
      obtain ⟨i1, i2, i3⟩ := ih e (List.pairwise_cons.mpr ⟨fun b hb => hp.1 b (List.mem_cons_of_mem _ hb), hp2.2⟩)
      refine ⟨i1, fun e' he' => ?_, fun a ha => ?_⟩
      · rcases List.mem_cons.mp (i2 e' he') with rfl | h'
        · simp
        · simp [h']
      · rcases List.mem_cons.mp ha with rfl | ha
        · exact i3 a (by simp)
        · rcases List.mem_cons.mp ha with rfl | ha
          · obtain ⟨e', h1, h2⟩ := i3 e (by simp)
            exact ⟨e', h1, by rw [h2, h]⟩
          · exact i3 a (by simp [ha])
    case isFalse h =>
      obtain ⟨i1, i2, i3⟩ := ih f hp.2
      have hef : e.v < f.v := by have := hp.1 f (by simp); omega
      refine ⟨List.pairwise_cons.mpr ⟨fun b hb => ?_, i1⟩, fun e' he' => ?_, fun a ha => ?_⟩
      · rcases List.mem_cons.mp (i2 b hb) with rfl | h'
        · exact hef
        · have := (List.pairwise_cons.mp hp.2).1 b h'; omega
      · rcases List.mem_cons.mp he' with rfl | h'
        · simp
        · exact List.mem_cons_of_mem _ (i2 e' h')
      · rcases List.mem_cons.mp ha with rfl | ha
        · exact ⟨a, by simp, rfl⟩
        · obtain ⟨e', h1, h2⟩ := i3 a ha
          exact ⟨e', List.mem_cons_of_mem _ h1, h2⟩

theorem uniq_spec (l : List (Edge δ)) (h : l.Pairwise (fun a b => a.v ≤ b.v)) :
    (uniq l).Pairwise (fun a b => a.v < b.v) ∧ (∀ e ∈ uniq l, e ∈ l) ∧ (∀ a ∈ l, ∃ e ∈ uniq l, e.v = a.v) := by
  cases l with
  | nil => simp [uniq]
  | cons e l => exact uniqFrom_spec l e h

theorem dedupFrom_spec (sort : List (Edge δ) → List (Edge δ)) : ∀ (k u : Nat) (g : Adj δ), u + k = g.length →
    ∃ g', dedupFrom sort k u g = some g' ∧ g'.length = g.length ∧
      ∀ i l, g[i]? = some l → g'[i]? = some (if u ≤ i then uniq (sort l) else l) := by
  intro k
  induction k with
  | zero =>
    intro u g h
    refine ⟨g, rfl, rfl, fun i l hl => ?_⟩
    have : i < g.length := (List.getElem?_eq_some_iff.mp hl).1
    rw [if_neg (by omega), hl]
  | succ k ih =>
    intro u g h
    have hu : u < g.length := by omega
    obtain ⟨g', e, hl, hi⟩ := ih (u + 1) (g.set u (uniq (sort g[u]))) (by rw [List.length_set]; omega)
    refine ⟨g', ?_, by rw [hl, List.length_set], fun i l hil => ?_⟩
    · rw [dedupFrom, deduplicateEdges, rd, List.getElem?_eq_getElem hu]
      simp only [Option.bind_eq_bind, Option.bind_some]
      rw [wr, if_pos hu]
      exact e
    · by_cases hiu : i = u
      · subst hiu
        rw [List.getElem?_eq_getElem hu] at hil
        rw [hi i (uniq (sort g[i])) (List.getElem?_set_self hu), if_neg (by omega), if_pos (Nat.le_refl _), Option.some.inj hil]
      · rw [hi i l (by rw [List.getElem?_set_ne (Ne.symm hiu)]; exact hil)]
        congr 1
        by_cases h' : u ≤ i
        · rw [if_pos h', if_pos (by omega)]
        · rw [if_neg h', if_neg (by omega)]

/-- The new number of a vertex when `v` is merged into `u` and its number is given to the last vertex. -/
def merged (n u v i : Nat) : Nat := renumber n v (if i = v then u else i)

/-- The edges that vertex `i` has after `v` is merged into `u`: its own, and for `u` also those of `v`, without the
edges between `u` and `v`. -/
def MergedEdge (g : Adj δ) (u v i : Nat) (a : Edge δ) : Prop :=
  (∃ l, g[i]? = some l ∧ a ∈ l ∧ ¬ (i = u ∧ a.v = v)) ∨ (i = u ∧ ∃ l, g[v]? = some l ∧ a ∈ l ∧ a.v ≠ u)

/-- **C48**: `contract(u, v)` merges `v` into `u`: edges between the two disappear, all the other edges stay, with
both ends renumbered, and of parallel edges exactly one is kept; the edges of a vertex end up sorted. -/
theorem C48_contract (sort : List (Edge δ) → List (Edge δ)) (hsort : ∀ l, (sort l).Perm l ∧ (sort l).Pairwise (fun a b => a.v ≤ b.v))
    (g : Adj δ) (u v : Nat) (hu : u < g.length) (hv : v < g.length) (huv : u ≠ v) :
    ∃ g', contract sort g u v = some g' ∧ g'.length = g.length - 1 ∧ ∀ i, i < g.length → i ≠ v → ∃ l', g'[renumber g.length v i]? = some l' ∧
      l'.Pairwise (fun a b => a.v < b.v) ∧
      (∀ e ∈ l', ∃ a, MergedEdge g u v i a ∧ e = { a with v := merged g.length u v a.v }) ∧
      (∀ a, MergedEdge g u v i a → ∃ e ∈ l', e.v = merged g.length u v a.v) := by
  obtain ⟨lu, e1, p1⟩ := C48_delete_edge g u v g[u] (List.getElem?_eq_getElem hu)
  have hv1 : (g.set u lu)[v]? = some g[v] := by rw [List.getElem?_set_ne huv, List.getElem?_eq_getElem hv]
  obtain ⟨lv, e2, p2⟩ := C48_delete_edge (g.set u lu) v u g[v] hv1
  set G2 := (((g.set u lu).set v lv).set u (lu ++ lv)).map fun l => l.map fun e : Edge δ => if e.v = v then { e with v := u } else e with hG2
  have hlen2 : G2.length = g.length := by simp [hG2]
  obtain ⟨g3, e3, l3, h3⟩ := C48_delete_node G2 v (by rw [hlen2]; exact hv)
  obtain ⟨g4, e4, l4, h4⟩ := dedupFrom_spec sort g3.length 0 g3 (by omega)
  refine ⟨g4, ?_, by rw [l4, l3, hlen2], fun i hi hiv => ?_⟩
  · rw [contract, e1]
    simp only [Option.bind_eq_bind, Option.bind_some]
    rw [e2]
    simp only [Option.bind_some]
    rw [rd, List.getElem?_set_ne (Ne.symm huv), List.getElem?_set_self hu]
    simp only [Option.bind_some]
    rw [rd, List.getElem?_set_self (by rw [List.length_set]; exact hv)]
    simp only [Option.bind_some]
    rw [wr, if_pos (by simpa using hu)]
    simp only [Option.bind_some]
    rw [e3]
    simp only [Option.bind_some]
    exact e4
  · -- the edges of `i` before renumbering
    obtain ⟨li, hli, hmem⟩ : ∃ li : List (Edge δ), (((g.set u lu).set v lv).set u (lu ++ lv))[i]? = some li ∧ ∀ a, a ∈ li ↔ MergedEdge g u v i a := by
      by_cases hiu : i = u
      · subst hiu
        refine ⟨lu ++ lv, List.getElem?_set_self (by simpa using hu), fun a => ?_⟩
        rw [List.mem_append, p1.mem_iff, p2.mem_iff, List.mem_filter, List.mem_filter, MergedEdge]
        constructor
        · rintro (⟨h1, h2⟩ | ⟨h1, h2⟩)
          · exact Or.inl ⟨_, List.getElem?_eq_getElem hu, h1, fun h => by simp [h.2] at h2⟩
          · exact Or.inr ⟨rfl, _, List.getElem?_eq_getElem hv, h1, by simpa using h2⟩
        · rintro (⟨l, h1, h2, h3⟩ | ⟨-, l, h1, h2, h3⟩)
          · rw [List.getElem?_eq_getElem hu] at h1
            rw [← Option.some.inj h1] at h2
            exact Or.inl ⟨h2, by simpa using h3⟩
          · rw [List.getElem?_eq_getElem hv] at h1
            rw [← Option.some.inj h1] at h2
            exact Or.inr ⟨h2, by simpa using h3⟩
      · refine ⟨g[i], ?_, fun a => ?_⟩
        · rw [List.getElem?_set_ne (Ne.symm hiu), List.getElem?_set_ne (Ne.symm hiv), List.getElem?_set_ne (Ne.symm hiu), List.getElem?_eq_getElem hi]
        · rw [MergedEdge]
          constructor
          · exact fun h => Or.inl ⟨_, List.getElem?_eq_getElem hi, h, fun h' => hiu h'.1⟩
          · rintro (⟨l, h1, h2, h3⟩ | ⟨h, _⟩)
            · rw [List.getElem?_eq_getElem hi] at h1
              rw [← Option.some.inj h1] at h2; exact h2
            · exact absurd h hiu
    obtain ⟨l', hl', hp⟩ := h3 i _ hiv (show G2[i]? = some (li.map fun e : Edge δ => if e.v = v then { e with v := u } else e) by
      rw [hG2, List.getElem?_map, hli]; rfl)
    rw [hlen2] at hl' hp
    have hmem' : ∀ e, e ∈ l' ↔ ∃ a, MergedEdge g u v i a ∧ e = { a with v := merged g.length u v a.v } := by
      intro e
      rw [hp.mem_iff, List.mem_map]
      constructor
      · rintro ⟨b, hb, rfl⟩
        rw [List.mem_filter, List.mem_map] at hb
        obtain ⟨⟨a, ha, rfl⟩, -⟩ := hb
        refine ⟨a, (hmem a).mp ha, ?_⟩
        rw [merged]
        by_cases h : a.v = v
        · simp only [if_pos h]
        · simp only [if_neg h]
      · rintro ⟨a, ha, rfl⟩
        refine ⟨if a.v = v then { a with v := u } else a, List.mem_filter.mpr ⟨List.mem_map.mpr ⟨a, (hmem a).mpr ha, rfl⟩, ?_⟩, ?_⟩
        · by_cases h : a.v = v
          · simp only [if_pos h]; simpa using huv
          · simp only [if_neg h]; simpa using h
        · rw [merged]
          by_cases h : a.v = v
          · simp only [if_pos h]
          · simp only [if_neg h]
    obtain ⟨s1, s2⟩ := hsort l'
    obtain ⟨u1, u2, u3⟩ := uniq_spec (sort l') s2
    refine ⟨uniq (sort l'), by rw [h4 _ _ hl', if_pos (Nat.zero_le _)], u1, fun e he => (hmem' e).mp (s1.mem_iff.mp (u2 e he)), fun a ha => ?_⟩
    obtain ⟨e, he, hev⟩ := u3 _ (s1.mem_iff.mpr ((hmem' _).mpr ⟨a, ha, rfl⟩))
    exact ⟨e, he, hev⟩

example : deleteEdge [[⟨1, ()⟩, ⟨1, ()⟩, ⟨2, ()⟩, ⟨1, ()⟩], [⟨0, ()⟩], []] 0 1 = some [[⟨2, ()⟩], [⟨0, ()⟩], []] := by decide +kernel

example : deleteNode [[⟨1, 10⟩, ⟨3, 11⟩], [⟨2, 12⟩], [⟨1, 13⟩, ⟨3, 14⟩, ⟨0, 15⟩], [⟨3, 16⟩, ⟨1, 17⟩]] 1
    = some [[⟨1, 11⟩], [⟨1, 16⟩], [⟨0, 15⟩, ⟨1, 14⟩]] := by decide +kernel

/-- Contracting the edge between 0 and 1 of a square with a diagonal. -/
example : contract (fun l => l.insertionSort fun a b => a.v ≤ b.v)
    [[⟨1, ()⟩, ⟨3, ()⟩, ⟨2, ()⟩], [⟨0, ()⟩, ⟨2, ()⟩], [⟨1, ()⟩, ⟨3, ()⟩, ⟨0, ()⟩], [⟨2, ()⟩, ⟨0, ()⟩]] 0 1
    = some [[⟨1, ()⟩, ⟨2, ()⟩], [⟨0, ()⟩, ⟨2, ()⟩], [⟨0, ()⟩, ⟨1, ()⟩]] := by
  decide +kernel

end Altruct.Graph
