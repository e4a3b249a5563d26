/-
`parents` (C95) and topological sorting (C96).
-/
import Verif.GraphAlg.DfsProps
import Mathlib.Data.Fintype.EquivFin
import Mathlib.Data.List.Nodup

namespace Altruct.GraphAlg

open Forest

section
variable {g : List (List Nat)}

/-! ### parents -/

theorem feed_parents (n : Nat) (o : Int) (F : Forest) : ∀ (p d : Int) (vp : List Int) (f : Nat → Int), Rep vp n f → F.pre.Nodup →
    (∀ x ∈ F.pre, x < n) → (∀ q v b, (q, v, b) ∈ F.calls p → b = true) →
    ∃ vp' f', feed (fun vp _ parent node _ => if node ≠ -1 then (wr vp node.toNat parent).map (·, true) else some (vp, true))
        (fun _ _ => true) (F.events o p d) vp = some vp'
      ∧ Rep vp' n f' ∧ (∀ x, x ∉ F.pre → f' x = f x) ∧ ∀ q v b, (q, v, b) ∈ F.calls p → f' v = q := by
  induction F with
  | nil => intro p d vp f h _ _ _; exact ⟨vp, f, rfl, h, fun _ _ => rfl, by simp [calls]⟩
  | skip v r ih => intro p d vp f h _ _ hs; have := hs p v false (by simp [calls]); cases this
  | node v cs r ih1 ih2 =>
    intro p d vp f h hn hlt hs
    have hn' : (v :: cs.pre ++ r.pre).Nodup := hn
    rw [List.nodup_append, List.nodup_cons] at hn'
    obtain ⟨⟨h1, h2⟩, h3, h4⟩ := hn'
    have hv : v < n := hlt v (by simp [pre])
    obtain ⟨vp1, f1, e1, r1, k1, c1⟩ := ih1 v (d + 1) (vp.set v p) _ (h.set v p) h2 (fun x hx => hlt x (by simp [pre, hx]))
      (fun q w b hm => hs q w b (by simp [calls, hm]))
    obtain ⟨vp2, f2, e2, r2, k2, c2⟩ := ih2 p d vp1 f1 r1 h3 (fun x hx => hlt x (by simp [pre, hx]))
      (fun q w b hm => hs q w b (by simp [calls, hm]))
    refine ⟨vp2, f2, ?_, r2, fun x hx => ?_, fun q w b hm => ?_⟩
    · rw [events, feed]
      rw [if_pos (by omega), Int.toNat_natCast, h.wr hv]
      simp only [Option.map_some]
      rw [if_pos (Or.inr trivial), feed_append, e1]
      rw [Option.bind_some]
      rw [feed, if_neg (by simp)]
      simp only
      rw [if_pos (Or.inl trivial)]
      exact e2
    · simp only [pre, List.cons_append, List.mem_cons, List.mem_append, not_or] at hx
      rw [k2 x hx.2.2, k1 x hx.2.1, Function.update_of_ne hx.1]
    · simp only [calls, List.cons_append, List.mem_cons, List.mem_append] at hm
      rcases hm with hm | hm | hm
      · cases hm
        rw [k2 v (fun hc => h4 v (by simp) v hc rfl), k1 v h1, Function.update_self]
      · have hw := calls_reach (by rw [← hs q w b (by simp [calls, hm])]; exact hm : (q, w, true) ∈ _)
        rw [k2 w (fun hc => h4 w (by simp [hw]) w hc rfl)]
        exact c1 q w b hm
      · exact c2 q w b hm

theorem feed_parents_root (n : Nat) (F : Forest) : ∀ (vp : List Int) (f : Nat → Int), Rep vp n f → F.pre.Nodup →
    (∀ x ∈ F.pre, x < n) → (∀ q v b, (q, v, b) ∈ F.calls (-1) → b = true) →
    ∃ vp' f', feed (fun vp _ parent node _ => if node ≠ -1 then (wr vp node.toNat parent).map (·, true) else some (vp, true))
        (fun _ _ => true) F.rootEvents vp = some vp'
      ∧ Rep vp' n f' ∧ (∀ x, x ∉ F.pre → f' x = f x) ∧ ∀ q v b, (q, v, b) ∈ F.calls (-1) → f' v = q := by
  induction F with
  | nil => intro vp f h _ _ _; exact ⟨vp, f, rfl, h, fun _ _ => rfl, by simp [calls]⟩
  | skip v r ih => intro vp f h _ _ hs; have := hs (-1) v false (by simp [calls]); cases this
  | node v cs r _ ih2 =>
    intro vp f h hn hlt hs
    have hn' : (v :: cs.pre ++ r.pre).Nodup := hn
    rw [List.nodup_append, List.nodup_cons] at hn'
    obtain ⟨⟨h1, h2⟩, h3, h4⟩ := hn'
    have hv : v < n := hlt v (by simp [pre])
    obtain ⟨vp1, f1, e1, r1, k1, c1⟩ := feed_parents n v cs v 1 (vp.set v (-1)) _ (h.set v (-1)) h2 (fun x hx => hlt x (by simp [pre, hx]))
      (fun q w b hm => hs q w b (by simp [calls, hm]))
    obtain ⟨vp2, f2, e2, r2, k2, c2⟩ := ih2 vp1 f1 r1 h3 (fun x hx => hlt x (by simp [pre, hx]))
      (fun q w b hm => hs q w b (by simp [calls, hm]))
    refine ⟨vp2, f2, ?_, r2, fun x hx => ?_, fun q w b hm => ?_⟩
    · rw [rootEvents, feed]
      rw [if_pos (by omega), Int.toNat_natCast, h.wr hv]
      simp only [Option.map_some]
      rw [if_pos (Or.inr trivial), feed_append, e1]
      rw [Option.bind_some]
      rw [feed, if_neg (by simp)]
      simp only
      rw [if_pos (Or.inl trivial)]
      exact e2
    · simp only [pre, List.cons_append, List.mem_cons, List.mem_append, not_or] at hx
      rw [k2 x hx.2.2, k1 x hx.2.1, Function.update_of_ne hx.1]
    · simp only [calls, List.cons_append, List.mem_cons, List.mem_append] at hm
      rcases hm with hm | hm | hm
      · cases hm
        rw [k2 v (fun hc => h4 v (by simp) v hc rfl), k1 v h1, Function.update_self]
      · have hw := calls_reach (by rw [← hs q w b (by simp [calls, hm])]; exact hm : (q, w, true) ∈ _)
        rw [k2 w (fun hc => h4 w (by simp [hw]) w hc rfl)]
        exact c1 q w b hm
      · exact c2 q w b hm

/-- Started from all nodes and never declined, the search enters every node exactly once. -/
theorem C95_dfs_all {F : Forest} (hg : Valid g) (h : IsDfs g (fun _ _ => true) (List.range g.length) F) : F.pre.Perm (List.range g.length) := by
  rw [List.perm_ext_iff_of_nodup h.nodup List.nodup_range]
  intro v
  rw [C95_dfs_nodes h, List.mem_range]
  constructor
  · rintro ⟨o, ho, _, h1⟩
    have ho' := List.mem_range.mp ho
    induction h1 with
    | refl => exact ho'
    | tail _ hab _ => exact hg _ _ hab.1
  · intro hv
    exact ⟨v, List.mem_range.mpr hv, rfl, Relation.ReflTransGen.refl⟩

/-- `parents`: every node exactly once in a depth-first forest, with its parent there, -1 for the roots. -/
theorem C95_parents (hg : Valid g) : ∃ F vp, IsDfs g (fun _ _ => true) (List.range g.length) F ∧ F.pre.Perm (List.range g.length)
    ∧ (∃ fuel0, ∀ fuel, fuel0 ≤ fuel → parents fuel g = some vp) ∧ vp.length = g.length
    ∧ ∀ p v b, (p, v, b) ∈ F.calls (-1) → vp[v]? = some p := by
  obtain ⟨F, hF, hrun⟩ := C95_iterative_dfs g hg (-1) (Or.inl rfl) (fun _ _ => true)
  rw [if_pos rfl] at hF
  have hperm := C95_dfs_all hg hF
  have hlt : ∀ x ∈ F.pre, x < g.length := fun x hx => List.mem_range.mp (hperm.mem_iff.mp hx)
  obtain ⟨vp, f, e, hr, _, hc⟩ := feed_parents_root g.length F (List.replicate g.length (-1)) _ (Rep.replicate _ _) hF.nodup hlt
    (fun q v b hm => hF.answers q v b hm)
  refine ⟨F, vp, hF, hperm, hrun _ _ _ _ e, hr.len, fun p v b hm => ?_⟩
  have hv := hlt v (calls_reach (by rw [← hF.answers p v b hm]; exact hm))
  rw [hr.get v hv, hc p v b hm]

/-! ### Topological order -/

theorem inDegreeEdges_spec (n : Nat) : ∀ (es : List Nat) (deg : List Int) (f : Nat → Int), (∀ v ∈ es, v < n) → Rep deg n f →
    ∃ deg', inDegreeEdges es deg = some deg' ∧ Rep deg' n (fun v => f v + es.count v) := by
  intro es
  induction es with
  | nil => intro deg f _ h; exact ⟨deg, rfl, h.congr (fun _ _ => by simp)⟩
  | cons v es ih =>
    intro deg f hes h
    have hv := hes v (by simp)
    obtain ⟨deg', e, h'⟩ := ih (deg.set v (f v + 1)) _ (fun x hx => hes x (by simp [hx])) (h.set v _)
    refine ⟨deg', ?_, h'.congr (fun x _ => ?_)⟩
    · rw [inDegreeEdges, h.rd hv]
      show (wr deg v (f v + 1)).bind _ = _
      rw [h.wr hv]
      exact e
    · by_cases hx : x = v
      · subst hx; rw [Function.update_self, List.count_cons_self]; push_cast; omega
      · rw [Function.update_of_ne hx, List.count_cons_of_ne (Ne.symm hx)]

theorem inDegreeLoop_spec (n : Nat) : ∀ (g : List (List Nat)) (deg : List Int) (f : Nat → Int), (∀ es ∈ g, ∀ v ∈ es, v < n) → Rep deg n f →
    ∃ deg', inDegreeLoop g deg = some deg' ∧ Rep deg' n (fun v => f v + g.flatten.count v) := by
  intro g
  induction g with
  | nil => intro deg f _ h; exact ⟨deg, rfl, h.congr (fun _ _ => by simp)⟩
  | cons es g ih =>
    intro deg f hes h
    obtain ⟨deg1, e1, h1⟩ := inDegreeEdges_spec n es deg f (hes es (by simp)) h
    obtain ⟨deg', e, h'⟩ := ih deg1 _ (fun x hx => hes x (by simp [hx])) h1
    refine ⟨deg', ?_, h'.congr (fun x _ => ?_)⟩
    · rw [inDegreeLoop, e1]
      exact e
    · rw [List.flatten_cons, List.count_append]; push_cast; omega

theorem valid_mem (hg : Valid g) : ∀ es ∈ g, ∀ v ∈ es, v < g.length := by
  intro es hes v hv
  obtain ⟨u, hu, rfl⟩ := List.getElem_of_mem hes
  exact hg u v ⟨_, List.getElem?_eq_getElem hu, hv⟩

/-- `in_degrees` counts the edges to each node. -/
theorem C96_in_degrees (hg : Valid g) : ∃ deg, inDegrees g = some deg ∧ deg.length = g.length
    ∧ ∀ v, v < g.length → deg[v]? = some ((g.flatten.count v : Nat) : Int) := by
  obtain ⟨deg, e, h⟩ := inDegreeLoop_spec g.length g (List.replicate g.length 0) _ (valid_mem hg) (Rep.replicate _ _)
  exact ⟨deg, e, h.len, fun v hv => by rw [h.get v hv]; simp⟩

theorem count_pos_iff_edge (v : Nat) : 0 < g.flatten.count v ↔ ∃ u, Edge g u v := by
  rw [List.count_pos_iff, List.mem_flatten]
  constructor
  · rintro ⟨l, hl, hv⟩
    obtain ⟨u, hu, rfl⟩ := List.getElem_of_mem hl
    exact ⟨u, _, List.getElem?_eq_getElem hu, hv⟩
  · rintro ⟨u, l, hl, hv⟩
    exact ⟨l, List.mem_of_getElem? hl, hv⟩

/-- The visitor of topological_sort. -/
def topoVisitor (deg : List Int) : Visitor (List Int) := fun topo _ parent node _ => do
    let improper ← if parent = -1 then (rd deg node.toNat).map (fun x => decide (x > 0)) else some false
    if improper then some (topo, false)
    else if node < 0 then some (topo ++ [parent], true) else some (topo, true)

theorem feed_topo (deg : List Int) (enter : Int → Nat → Bool) (he : ∀ (u v : Nat), enter u v = true) (o : Int) (F : Forest) :
    ∀ (p : Nat) (d : Int) (topo : List Int),
    feed (topoVisitor deg) enter (F.events o p d) topo = some (topo ++ F.post.map (fun x : Nat => (x : Int))) := by
  induction F with
  | nil => intro p d topo; simp [events, feed, post]
  | skip v r ih =>
    intro p d topo
    rw [events, feed, show topoVisitor deg topo o p v d = some (topo, true) by
      simp [topoVisitor, show ((p : Int) ≠ -1) by omega]]
    simp only
    rw [if_pos (Or.inr (by rw [Int.toNat_natCast, he]))]
    exact ih p d topo
  | node v cs r ih1 ih2 =>
    intro p d topo
    rw [events, feed, show topoVisitor deg topo o p v d = some (topo, true) by
      simp [topoVisitor, show ((p : Int) ≠ -1) by omega]]
    simp only
    rw [if_pos (Or.inr (by rw [Int.toNat_natCast, he])), feed_append, ih1]
    rw [Option.bind_some]
    rw [feed, show topoVisitor deg (topo ++ cs.post.map (fun x : Nat => (x : Int))) o v (-1) (d + 1)
        = some (topo ++ cs.post.map (fun x : Nat => (x : Int)) ++ [(v : Int)], true) by
      simp [topoVisitor, show ((v : Int) ≠ -1) by omega]]
    simp only
    rw [if_pos (Or.inl trivial), ih2]
    simp [post]

theorem feed_topo_root (deg : List Int) (n : Nat) (f : Nat → Int) (hd : Rep deg n f) (enter : Int → Nat → Bool)
    (he : ∀ (u v : Nat), enter u v = true) (he' : ∀ v, enter (-1) v = !decide (f v > 0)) (F : Forest) (hlt : ∀ v ∈ F.heads, v < n) :
    ∀ (topo : List Int), feed (topoVisitor deg) enter F.rootEvents topo = some (topo ++ F.post.map (fun x : Nat => (x : Int))) := by
  have step : ∀ topo v, v < n → topoVisitor deg topo v (-1) v 0 = some (topo, !decide (f v > 0)) := by
    intro topo v hv
    unfold topoVisitor
    rw [if_pos rfl, Int.toNat_natCast, hd.rd hv]
    by_cases h : f v > 0
    · simp [h]
    · simp [h]
  induction F with
  | nil => intro topo; simp [rootEvents, feed, post]
  | skip v r ih =>
    intro topo
    rw [rootEvents, feed, step topo v (hlt v (by simp [Forest.heads]))]
    simp only
    rw [if_pos (Or.inr (by rw [Int.toNat_natCast, he']))]
    exact ih (fun x hx => hlt x (by simp [Forest.heads, hx])) topo
  | node v cs r _ ih2 =>
    intro topo
    rw [rootEvents, feed, step topo v (hlt v (by simp [Forest.heads]))]
    simp only
    rw [if_pos (Or.inr (by rw [Int.toNat_natCast, he'])), feed_append, feed_topo deg enter he]
    rw [Option.bind_some]
    rw [feed, show topoVisitor deg (topo ++ cs.post.map (fun x : Nat => (x : Int))) v v (-1) 1
        = some (topo ++ cs.post.map (fun x : Nat => (x : Int)) ++ [(v : Int)], true) by
      simp [topoVisitor, show ((v : Int) ≠ -1) by omega]]
    simp only
    rw [if_pos (Or.inl trivial), ih2 (fun x hx => hlt x (by simp [Forest.heads, hx]))]
    simp [post]

theorem pre_reach {F : Forest} (ho : F.Ordered g) : ∀ v ∈ F.pre, ∃ o ∈ F.heads, Reach g o v := by
  induction F with
  | nil => simp [pre]
  | skip w r ih =>
    intro v hv
    obtain ⟨o, h1, h2⟩ := ih ho v hv
    exact ⟨o, by simp [Forest.heads, h1], h2⟩
  | node w cs r ih1 ih2 =>
    intro v hv
    simp only [pre, List.cons_append, List.mem_cons, List.mem_append] at hv
    obtain ⟨⟨l, hl, hsub⟩, ho1, ho2⟩ := ho
    rcases hv with rfl | hv | hv
    · exact ⟨v, by simp [Forest.heads], Relation.ReflTransGen.refl⟩
    · obtain ⟨o, h1, h3⟩ := ih1 ho1 v hv
      exact ⟨w, by simp [Forest.heads], Relation.ReflTransGen.head ⟨l, hl, hsub.mem h1⟩ h3⟩
    · obtain ⟨o, h1, h2⟩ := ih2 ho2 v hv
      exact ⟨o, by simp [Forest.heads, h1], h2⟩

theorem anc_reach {F : Forest} (ho : F.Ordered g) {x y : Nat} (h : F.Anc y x) : Reach g y x := by
  induction F with
  | nil => exact h.elim
  | skip w r ih => exact ih ho h
  | node w cs r ih1 ih2 =>
    obtain ⟨⟨l, hl, hsub⟩, ho1, ho2⟩ := ho
    rcases h with ⟨rfl, rfl | h⟩ | h | h
    · exact Relation.ReflTransGen.refl
    · obtain ⟨o, h1, h2⟩ := pre_reach ho1 x h
      exact Relation.ReflTransGen.head ⟨l, hl, hsub.mem h1⟩ h2
    · exact ih1 ho1 h
    · exact ih2 ho2 h

/-- In an acyclic graph every node can be reached from a node without predecessors. -/
theorem reach_from_source (ha : Acyclic g) (v : Nat) (hv : v < g.length) :
    ∃ o, o < g.length ∧ (∀ u, ¬ Edge g u o) ∧ Reach g o v := by
  let r : Fin g.length → Fin g.length → Prop := fun a b => Path g a b
  have ht : IsTrans _ r := ⟨fun a b c h1 h2 => Relation.TransGen.trans h1 h2⟩
  have hi : Std.Irrefl r := ⟨fun a h => ha a h⟩
  have wf : WellFounded r := Finite.wellFounded_of_trans_of_irrefl r
  have main : ∀ a : Fin g.length, ∃ o, o < g.length ∧ (∀ u, ¬ Edge g u o) ∧ Reach g o a := by
    intro a
    induction a using wf.induction with
    | _ a ih =>
      by_cases h : ∃ u, Edge g u a
      · obtain ⟨u, hu⟩ := h
        obtain ⟨o, h1, h2, h3⟩ := ih ⟨u, edge_lt hu⟩ (Relation.TransGen.single hu)
        exact ⟨o, h1, h2, h3.tail hu⟩
      · exact ⟨a, a.2, fun u hu => h ⟨u, hu⟩, Relation.ReflTransGen.refl⟩
  exact main ⟨v, hv⟩

/-- `topological_sort` of an acyclic graph: every node exactly once, and for every edge its source before its target. -/
theorem C96_topological_sort (hg : Valid g) (ha : Acyclic g) : ∃ topo : List Nat, topo.Perm (List.range g.length)
    ∧ (∀ u v, Edge g u v → [u, v].Sublist topo)
    ∧ ∃ fuel0, ∀ fuel, fuel0 ≤ fuel → topologicalSort fuel g = some (topo.map (fun x : Nat => (x : Int))) := by
  obtain ⟨deg, ed, hd⟩ := inDegreeLoop_spec g.length g (List.replicate g.length 0) _ (valid_mem hg) (Rep.replicate _ _)
  have hd' : Rep deg g.length (fun v => ((g.flatten.count v : Nat) : Int)) := hd.congr (fun _ _ => by simp)
  let enter : Int → Nat → Bool := fun p v => if p = -1 then !decide (((g.flatten.count v : Nat) : Int) > 0) else true
  have he : ∀ (u v : Nat), enter u v = true := fun u v => if_neg (by omega)
  have he' : ∀ v, enter (-1) v = !decide (((g.flatten.count v : Nat) : Int) > 0) := fun v => if_pos rfl
  obtain ⟨F, hF, hrun⟩ := C95_iterative_dfs g hg (-1) (Or.inl rfl) enter
  rw [if_pos rfl] at hF
  have hfeed := feed_topo_root deg g.length _ hd' enter he he' F (fun v hv => List.mem_range.mp (hF.top.mem hv)) []
  obtain ⟨f0, hf0⟩ := hrun _ _ _ _ hfeed
  have hall : ∀ v, v ∈ F.pre ↔ v < g.length := by
    intro v
    rw [C95_dfs_nodes hF]
    constructor
    · rintro ⟨o, ho, _, h1⟩
      have ho' := List.mem_range.mp ho
      induction h1 with
      | refl => exact ho'
      | tail _ hab _ => exact hg _ _ hab.1
    · intro hv
      obtain ⟨o, h1, h2, h3⟩ := reach_from_source ha v hv
      refine ⟨o, List.mem_range.mpr h1, ?_, Relation.ReflTransGen.mono (fun a b hab => ⟨hab, he a b⟩) _ _ h3⟩
      rw [he']
      have : ¬ (0 < g.flatten.count o) := fun hc => by
        obtain ⟨u, hu⟩ := (count_pos_iff_edge o).mp hc
        exact h2 u hu
      simp only [Bool.not_eq_true', decide_eq_false_iff_not]
      omega
  refine ⟨F.post.reverse, ?_, fun u v huv => ?_, f0, fun fuel hf => ?_⟩
  · refine (List.reverse_perm _).trans ((perm_post F).trans ?_)
    rw [List.perm_ext_iff_of_nodup hF.nodup List.nodup_range]
    intro v
    rw [hall, List.mem_range]
  · rcases hF.edges u ((hall u).mpr (edge_lt huv)) v huv with h1 | h1 | h1
    · simpa using h1.reverse
    · exact absurd (Relation.TransGen.tail' (anc_reach hF.ordered h1) huv) (ha v)
    · rw [he] at h1; cases h1
  · rw [topologicalSort, inDegrees, ed]
    show (iterativeDfs fuel g (topoVisitor deg) (-1) []).bind _ = _
    rw [hf0 fuel hf]
    show some _ = some _
    rw [List.nil_append, List.map_reverse]

end

/-! ### The hypotheses are met, and what happens without them -/

example : topologicalSort 20 [[1, 2], [3], [3], [], [0]] = some [4, 0, 2, 1, 3] := by decide +kernel

example : Acyclic [[1, 2], [3], [3], []] :=
  acyclic_of_lt (fun _ _ e => edge_of_forall (g := [[1, 2], [3], [3], []]) (p := fun u v => u < v) (by decide) e)

/-- On a graph with a cycle nodes are missing. -/
example : topologicalSort 20 [[1], [0], []] = some [2] := by decide +kernel

example : parents 20 [[1, 2], [2, 0], [0], [2]] = some [-1, 0, 1, -1] := by decide +kernel

/-- The events of a small search, with root, parent, node and depth. -/
example : iterativeDfs 20 [[1, 2], [], [1]] (fun (s : List (Int × Int × Int × Int)) r p v d => some (s ++ [(r, p, v, d)], true)) (-1) []
    = some [(0, -1, 0, 0), (0, 0, 1, 1), (0, 1, -1, 2), (0, 0, 2, 1), (0, 2, -1, 2), (0, 0, -1, 1)] := by decide +kernel

end Altruct.GraphAlg
