/-
Prim's algorithm (C94): the code does not test whether a node is already in the tree, so it does not compute a spanning tree.
-/
import Verif.GraphAlg.DijkstraProps
import Mathlib.Logic.Relation

namespace Altruct.GraphAlg

/-- There is an edge from `u` to `v` that weighs less than `inf`. -/
def LightEdge (g : List (List (Nat × Int))) (inf : Int) (u v : Nat) : Prop := ∃ w, w < inf ∧ WEdge g u v w

theorem countP_lt {α : Type} (l : List α) (p p' : α → Bool) (h : ∀ x ∈ l, p' x = true → p x = true) {e : α} (he : e ∈ l)
    (h1 : p e = true) (h2 : p' e = false) : l.countP p' < l.countP p := by
  induction l with
  | nil => simp at he
  | cons x l ih =>
    have hle : l.countP p' ≤ l.countP p := List.countP_mono_left (fun x hx => h x (by simp [hx]))
    rw [List.countP_cons, List.countP_cons]
    rcases List.mem_cons.mp he with rfl | he
    · rw [h1, h2]; simp; omega
    · have := ih (fun x hx => h x (by simp [hx])) he
      have h3 := h x (by simp)
      by_cases h4 : p' x = true
      · rw [h4, h3 h4]; omega
      · rw [if_neg h4]; omega

/-- The edges that can still improve an entry. -/
def potential (g : List (List (Nat × Int))) (f : Nat → Int × Int) : Nat := g.flatten.countP (fun e => decide (e.2 < (f e.1).2))

theorem mem_flatten_of_wedge {g : List (List (Nat × Int))} {u v : Nat} {w : Int} (h : WEdge g u v w) : (v, w) ∈ g.flatten := by
  obtain ⟨l, h1, h2⟩ := h
  exact List.mem_flatten.mpr ⟨l, List.mem_of_getElem? h1, h2⟩

structure PrInv (g : List (List (Nat × Int))) (root : Nat) (inf : Int) (res : List (Int × Int)) (q : List (Int × Nat))
    (f : Nat → Int × Int) (c : Nat) (E : List (Nat × Int)) : Prop where
  rep : Rep res g.length f
  key : ∀ x ∈ q, x.2 < g.length ∧ (f x.2).2 < inf
  entry : ∀ v, v < g.length → f v = (-1, inf) ∨ (v = root ∧ f v = ((root : Int), 0))
    ∨ (v ≠ root ∧ ∃ u w, u < g.length ∧ (f u).2 < inf ∧ w < inf ∧ WEdge g u v w ∧ f v = ((u : Int), w))
  reach : ∀ v, v < g.length → (f v).2 < inf → Relation.ReflTransGen (LightEdge g inf) root v
  done : ∀ u, u < g.length → (f u).2 < inf → (∃ d, (d, u) ∈ q) ∨ ∀ v w, WEdge g u v w → w < inf → (u = c ∧ (v, w) ∈ E) ∨ (f v).2 < inf

theorem qErase_length (x : Int × Nat) (l : List (Int × Nat)) : (qErase x l).length ≤ l.length := List.length_filter_le _ _

theorem qInsert_length (x : Int × Nat) (l : List (Int × Nat)) : (qInsert x l).length ≤ l.length + 1 := by
  induction l with
  | nil => simp [qInsert]
  | cons y l ih =>
    rw [qInsert]
    split
    · simp
    · split
      · simp only [List.length_cons]; omega
      · simp

section
variable {g : List (List (Nat × Int))} {root : Nat} {inf : Int}

theorem primEdges_spec (hg : WValid g) (hw : ∀ u v w, WEdge g u v w → 0 ≤ w) {u : Nat} (hu : u < g.length) :
    ∀ (es : List (Nat × Int)) (res : List (Int × Int)) (q : List (Int × Nat)) (f : Nat → Int × Int),
    (∀ e ∈ es, WEdge g u e.1 e.2) → (f u).2 < inf → (f root).2 = 0 → PrInv g root inf res q f u es →
    ∃ res' q' f', primEdges u es res q = some (res', q') ∧ PrInv g root inf res' q' f' u []
      ∧ (f' root).2 = 0 ∧ q'.length + potential g f' ≤ q.length + potential g f := by
  intro es
  induction es with
  | nil => intro res q f _ _ hr h; exact ⟨res, q, f, rfl, h, hr, le_refl _⟩
  | cons e es ih =>
    intro res q f hes huinf hroot h
    obtain ⟨v, w⟩ := e
    have he : WEdge g u v w := hes (v, w) (by simp)
    have hv := hg _ _ _ he
    have hw0 := hw _ _ _ he
    have eu := h.rep.rd hu
    have ev := h.rep.rd hv
    by_cases hlt : w < (f v).2 ∧ (f u).1 ≠ (v : Int)
    · have hvr : v ≠ root := by rintro rfl; rw [hroot] at hlt; omega
      have hwinf : w < inf := by
        have : (f v).2 ≤ inf := by
          rcases h.entry v hv with h1 | ⟨h1, _⟩ | ⟨_, _, w', _, _, h2, _, h1⟩
          · rw [h1]
          · exact absurd h1 hvr
          · rw [h1]; exact le_of_lt h2
        omega
      have hself : Function.update f v ((u : Int), w) v = ((u : Int), w) := Function.update_self _ _ _
      have hmono : ∀ a, (f a).2 < inf → (Function.update f v ((u : Int), w) a).2 < inf := by
        intro a ha
        by_cases hav : a = v
        · rw [hav, hself]; exact hwinf
        · rw [Function.update_of_ne hav]; exact ha
      obtain ⟨res', q', f', e1, h1, h2, h3⟩ := ih (res.set v ((u : Int), w)) (qInsert (w, v) (qErase ((f v).2, v) q))
        (Function.update f v ((u : Int), w)) (fun e he => hes e (by simp [he])) (hmono u huinf)
        (by rw [Function.update_of_ne hvr.symm]; exact hroot)
        { rep := h.rep.set v _
          key := fun x hx => by
            rcases (mem_qInsert _ _ _).mp hx with rfl | hx
            · exact ⟨hv, by rw [hself]; exact hwinf⟩
            · have := h.key x ((mem_qErase _ _ _).mp hx).1
              exact ⟨this.1, hmono _ this.2⟩
          entry := fun a ha => by
            by_cases hav : a = v
            · subst hav
              rw [hself]
              exact Or.inr (Or.inr ⟨hvr, u, w, hu, hmono u huinf, hwinf, he, rfl⟩)
            · rw [Function.update_of_ne hav]
              exact (h.entry a ha).imp id (Or.imp id fun ⟨h1, x, w', h2, h3, h4⟩ => ⟨h1, x, w', h2, hmono x h3, h4⟩)
          reach := fun a ha hai => by
            by_cases hav : a = v
            · subst hav
              exact (h.reach u hu huinf).tail ⟨w, hwinf, he⟩
            · rw [Function.update_of_ne hav] at hai
              exact h.reach a ha hai
          done := fun a ha hai => by
            by_cases hav : a = v
            · subst hav
              left
              exact ⟨w, by rw [mem_qInsert]; exact Or.inl rfl⟩
            · rw [Function.update_of_ne hav] at hai
              rcases h.done a ha hai with ⟨d, h1⟩ | h1
              · left
                refine ⟨d, ?_⟩
                rw [mem_qInsert, mem_qErase]
                exact Or.inr ⟨h1, fun hc => hav (congrArg Prod.snd hc)⟩
              · right
                intro b w' hab hb
                rcases h1 b w' hab hb with ⟨h2, h3⟩ | h2
                · rcases List.mem_cons.mp h3 with h3 | h3
                  · right
                    obtain ⟨rfl, rfl⟩ := Prod.mk.inj h3
                    rw [hself]; exact hwinf
                  · exact Or.inl ⟨h2, h3⟩
                · exact Or.inr (hmono b h2) }
      refine ⟨res', q', f', ?_, h1, h2, ?_⟩
      · rw [primEdges]
        show (rd res v).bind _ = _
        rw [ev]
        show (rd res u).bind _ = _
        rw [eu]
        show (if w < (f v).2 ∧ (f u).1 ≠ (v : Int) then _ else _) = _
        rw [if_pos hlt]
        show (wr res v _).bind _ = _
        rw [h.rep.wr hv]
        exact e1
      · have h4 := qInsert_length (w, v) (qErase ((f v).2, v) q)
        have h5 := qErase_length ((f v).2, v) q
        have h6 : potential g (Function.update f v ((u : Int), w)) < potential g f := by
          refine countP_lt _ _ _ (fun x _ hx => ?_) (mem_flatten_of_wedge he) (by simpa using hlt.1) (by simp)
          simp only [decide_eq_true_eq] at hx ⊢
          by_cases hxv : x.1 = v
          · rw [hxv, hself] at hx
            rw [hxv]
            simp only at hx
            omega
          · rw [Function.update_of_ne hxv] at hx
            exact hx
        omega
    · have hvset : w < inf → (f v).2 < inf := by
        intro hwi
        by_cases h1 : w < (f v).2
        · have h2 : (f u).1 = (v : Int) := by
            by_contra hc; exact hlt ⟨h1, hc⟩
          rcases h.entry u hu with h3 | ⟨h3, h4⟩ | ⟨_, x, w', hx, h3, _, _, h4⟩
          · rw [h3] at huinf; simp at huinf
          · rw [h4] at h2
            have : v = root := by simpa using h2.symm
            rw [this, ← h3]; exact huinf
          · rw [h4] at h2
            have : x = v := by simpa using h2
            rw [← this]; exact h3
        · omega
      obtain ⟨res', q', f', e1, h1, h2, h3⟩ := ih res q f (fun e he => hes e (by simp [he])) huinf hroot
        { rep := h.rep, key := h.key, entry := h.entry, reach := h.reach
          done := fun a ha hai => by
            rcases h.done a ha hai with h1 | h1
            · exact Or.inl h1
            · right
              intro b w' hab hb
              rcases h1 b w' hab hb with ⟨h2, h3⟩ | h2
              · rcases List.mem_cons.mp h3 with h3 | h3
                · right
                  obtain ⟨rfl, rfl⟩ := Prod.mk.inj h3
                  exact hvset hb
                · exact Or.inl ⟨h2, h3⟩
              · exact Or.inr h2 }
      refine ⟨res', q', f', ?_, h1, h2, h3⟩
      rw [primEdges]
      show (rd res v).bind _ = _
      rw [ev]
      show (rd res u).bind _ = _
      rw [eu]
      show (if w < (f v).2 ∧ (f u).1 ≠ (v : Int) then _ else _) = _
      rw [if_neg hlt]
      exact e1

theorem primLoop_spec (hg : WValid g) (hw : ∀ u v w, WEdge g u v w → 0 ≤ w) :
    ∀ (fuel : Nat) (res : List (Int × Int)) (q : List (Int × Nat)) (f : Nat → Int × Int) (c : Nat),
    q.length + potential g f < fuel → (f root).2 = 0 → PrInv g root inf res q f c [] →
    ∃ res' f' c', primLoop g fuel res q = some res' ∧ (f' root).2 = 0 ∧ PrInv g root inf res' [] f' c' [] := by
  intro fuel
  induction fuel with
  | zero => intro res q f c hf; omega
  | succ fuel ih =>
    intro res q f c hf hroot h
    cases q with
    | nil => exact ⟨res, f, c, rfl, hroot, h⟩
    | cons x q =>
      obtain ⟨d, u⟩ := x
      obtain ⟨hu, hui⟩ := h.key (d, u) (by simp)
      have eu : rd g u = some g[u] := by rw [rd, List.getElem?_eq_getElem hu]
      obtain ⟨res1, q1, f1, e1, h1, hr1, hm1⟩ := primEdges_spec (root := root) (inf := inf) hg hw hu g[u] res q f
        (fun e he => ⟨_, List.getElem?_eq_getElem hu, he⟩) hui hroot
        { rep := h.rep
          key := fun x hx => h.key x (by simp [hx])
          entry := h.entry
          reach := h.reach
          done := fun a ha hai => by
            by_cases hau : a = u
            · subst hau
              right
              rintro v w ⟨l, hl, hm⟩ _
              rw [List.getElem?_eq_getElem hu] at hl
              cases hl
              exact Or.inl ⟨rfl, hm⟩
            · rcases h.done a ha hai with ⟨d', h1⟩ | h1
              · rcases List.mem_cons.mp h1 with h1 | h1
                · exact absurd (congrArg Prod.snd h1) hau
                · exact Or.inl ⟨d', h1⟩
              · right
                intro v w hvw hwi
                rcases h1 v w hvw hwi with ⟨_, h2⟩ | h2
                · simp at h2
                · exact Or.inr h2 }
      rw [List.length_cons] at hf
      obtain ⟨res', f', c', e2, h2⟩ := ih res1 q1 f1 u (by omega) hr1 h1
      refine ⟨res', f', c', ?_, h2⟩
      rw [primLoop]
      simp only [eu]
      show (primEdges u g[u] res q).bind _ = _
      rw [e1]
      exact e2

/-- `prim_spanning_tree`, what does hold: with no negative weight the function ends; the root keeps `{ root, 0 }`, a node that
cannot be reached from the root keeps `{ -1, inf }`, and every other node gets an edge of the graph that leads to it from a
node which can be reached itself.  Missing: that these edges form a tree and that their total weight is least; both are false,
see `C94_prim_not_a_tree`. -/
theorem C94_prim_partial (g : List (List (Nat × Int))) (root : Nat) (inf : Int) (hg : WValid g) (hw : ∀ u v w, WEdge g u v w → 0 ≤ w)
    (hroot : root < g.length) (hinf : 0 < inf) (fuel : Nat) (hf : g.flatten.length + 1 < fuel) :
    ∃ res, prim fuel g root inf = some res ∧ res.length = g.length ∧ res[root]? = some ((root : Int), 0)
      ∧ ∀ v, v < g.length → v ≠ root →
        (¬ Relation.ReflTransGen (LightEdge g inf) root v → res[v]? = some (-1, inf))
        ∧ (Relation.ReflTransGen (LightEdge g inf) root v → ∃ (u : Nat) (w : Int), res[v]? = some ((u : Int), w) ∧ WEdge g u v w ∧ w < inf
            ∧ Relation.ReflTransGen (LightEdge g inf) root u) := by
  obtain ⟨res, f, c, e, hr, h⟩ := primLoop_spec (root := root) (inf := inf) hg hw fuel
    ((List.replicate g.length (-1, inf)).set root ((root : Int), 0)) [(0, root)]
    (Function.update (fun _ => (-1, inf)) root ((root : Int), 0)) 0
    (by
      have : potential g (Function.update (fun _ => (-1, inf)) root ((root : Int), 0)) ≤ g.flatten.length := List.countP_le_length
      simp only [List.length_singleton]; omega)
    (by rw [Function.update_self])
    { rep := (Rep.replicate g.length _).set root _
      key := fun x hx => by rw [List.mem_singleton.mp hx]; exact ⟨hroot, by rw [Function.update_self]; exact hinf⟩
      entry := fun v hv => by
        by_cases hvr : v = root
        · subst hvr; right; left; rw [Function.update_self]; exact ⟨rfl, rfl⟩
        · rw [Function.update_of_ne hvr]; exact Or.inl rfl
      reach := fun v hv hvi => by
        by_cases hvr : v = root
        · subst hvr; exact Relation.ReflTransGen.refl
        · rw [Function.update_of_ne hvr] at hvi; simp at hvi
      done := fun v hv hvi => by
        by_cases hvr : v = root
        · subst hvr; left; exact ⟨0, by simp⟩
        · rw [Function.update_of_ne hvr] at hvi; simp at hvi }
  have hset : ∀ v, Relation.ReflTransGen (LightEdge g inf) root v → v < g.length ∧ (f v).2 < inf := by
    intro v hv
    induction hv with
    | refl => exact ⟨hroot, by rw [hr]; exact hinf⟩
    | tail _ hab ih =>
      obtain ⟨w, hwi, hab⟩ := hab
      rcases h.done _ ih.1 ih.2 with ⟨d, h1⟩ | h1
      · simp at h1
      · rcases h1 _ w hab hwi with ⟨_, h2⟩ | h2
        · simp at h2
        · exact ⟨hg _ _ _ hab, h2⟩
  refine ⟨res, ?_, h.rep.len, ?_, fun v hv hvr => ⟨fun hno => ?_, fun hyes => ?_⟩⟩
  · rw [prim, wr, if_pos (by simpa using hroot)]
    exact e
  · rw [h.rep.get root hroot]
    rcases h.entry root hroot with h1 | ⟨_, h1⟩ | ⟨h1, _⟩
    · rw [h1] at hr; simp only at hr; omega
    · rw [h1]
    · exact absurd rfl h1
  · rw [h.rep.get v hv]
    rcases h.entry v hv with h1 | ⟨h1, _⟩ | ⟨_, u, w, _, _, hwi, _, h1⟩
    · rw [h1]
    · exact absurd h1 hvr
    · exact absurd (h.reach v hv (by rw [h1]; exact hwi)) hno
  · rw [h.rep.get v hv]
    rcases h.entry v hv with h1 | ⟨h1, _⟩ | ⟨_, u, w, hu, hui, hwi, hwe, h1⟩
    · have := (hset v hyes).2
      rw [h1] at this; simp at this
    · exact absurd h1 hvr
    · exact ⟨u, w, by rw [h1], hwe, hwi, h.reach u hu hui⟩

end

/-- The documentation promises a minimum spanning tree.  In the connected graph 0-1 (weight 5), 1-2 (1), 2-3 (2), 3-1 (3) with
root 0, node 1 gets parent 3, node 3 parent 2, node 2 parent 1: a cycle, and nothing is connected to the root. -/
theorem C94_prim_not_a_tree (fuel : Nat) (hf : 10 ≤ fuel) :
    prim fuel [[(1, 5)], [(0, 5), (2, 1), (3, 3)], [(1, 1), (3, 2)], [(2, 2), (1, 3)]] 0 100
      = some [(0, 0), (3, 3), (1, 1), (2, 2)] := by
  obtain ⟨k, rfl⟩ := Nat.exists_eq_add_of_le hf
  rw [Nat.add_comm]
  rfl

/-! ### The hypotheses are met -/

example : prim 10 [[(1, 5), (2, 1)], [(0, 5), (2, 2)], [(0, 1), (1, 2)], []] 0 100 = some [(0, 0), (2, 2), (0, 1), (-1, 100)] := by
  decide +kernel

end Altruct.GraphAlg
