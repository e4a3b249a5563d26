/-
Depth-first search (C95) and topological sorting (C96).
-/
import Verif.GraphAlg.DfsSpec
import Verif.GraphAlg.DfsModel
import Verif.GraphAlg.ClosureProps
import Mathlib.Data.Finset.Card
import Mathlib.Data.Finset.Range
import Mathlib.Data.List.Perm.Basic
import Mathlib.Order.WellFounded
import Mathlib.Data.Fintype.Basic
import Mathlib.Order.RelClasses
import Mathlib.Data.Finite.Defs

namespace Altruct.GraphAlg

open Forest

/-! ### Recursive depth-first search -/

/-- Recursive depth-first search from the nodes `es` on behalf of `p`: `vis` are the nodes visited before, `vis'` after. -/
inductive Dfs (g : List (List Nat)) (enter : Int → Nat → Bool) : Int → List Nat → Finset Nat → Forest → Finset Nat → Prop
  | nil (p : Int) (vis : Finset Nat) : Dfs g enter p [] vis .nil vis
  | seen {p v es vis F vis'} : v ∈ vis → Dfs g enter p es vis F vis' → Dfs g enter p (v :: es) vis F vis'
  | skip {p v es vis F vis'} : v ∉ vis → enter p v = false → Dfs g enter p es vis F vis' →
      Dfs g enter p (v :: es) vis (.skip v F) vis'
  | node {p v es vis F vis' l cs vis1} : v ∉ vis → enter p v = true → g[v]? = some l →
      Dfs g enter (v : Int) l (insert v vis) cs vis1 → Dfs g enter p es vis1 F vis' →
      Dfs g enter p (v :: es) vis (.node v cs F) vis'

theorem perm_post (F : Forest) : F.post.Perm F.pre := by
  induction F with
  | nil => exact List.Perm.refl _
  | skip v r ih => exact ih
  | node v cs r ih1 ih2 =>
    show (cs.post ++ v :: r.post).Perm (v :: cs.pre ++ r.pre)
    refine List.perm_middle.trans ?_
    exact (ih1.append ih2).cons v

theorem mem_post {F : Forest} {x : Nat} : x ∈ F.post ↔ x ∈ F.pre := (perm_post F).mem_iff

section
variable {g : List (List Nat)} {enter : Int → Nat → Bool}

theorem Dfs.mem {p es vis F vis'} (h : Dfs g enter p es vis F vis') (x : Nat) : x ∈ vis' ↔ x ∈ vis ∨ x ∈ F.pre := by
  induction h with
  | nil => simp [pre]
  | seen _ _ ih => exact ih
  | skip _ _ _ ih => exact ih
  | node _ _ _ _ _ ih1 ih2 =>
    rw [ih2, ih1, Finset.mem_insert]
    simp only [pre, List.cons_append, List.mem_cons, List.mem_append]
    tauto

theorem Dfs.disj {p es vis F vis'} (h : Dfs g enter p es vis F vis') : F.pre.Nodup ∧ ∀ x ∈ F.pre, x ∉ vis := by
  induction h with
  | nil => simp [pre]
  | seen _ _ ih => exact ih
  | skip _ _ _ ih => exact ih
  | node hv _h1 _h2 h1 h2 ih1 ih2 =>
    rename_i p v es vis F vis' l cs vis1
    have hm := h1.mem
    constructor
    · show (v :: cs.pre ++ F.pre).Nodup
      rw [List.nodup_append, List.nodup_cons]
      refine ⟨⟨fun hc => ih1.2 v hc (Finset.mem_insert_self _ _), ih1.1⟩, ih2.1, ?_⟩
      rintro a ha b hb rfl
      refine ih2.2 a hb ((hm a).mpr ?_)
      rcases List.mem_cons.mp ha with rfl | ha
      · exact Or.inl (Finset.mem_insert_self _ _)
      · exact Or.inr ha
    · intro x hx
      simp only [pre, List.cons_append, List.mem_cons, List.mem_append] at hx
      rcases hx with rfl | hx | hx
      · exact hv
      · exact fun hc => ih1.2 x hx (Finset.mem_insert_of_mem hc)
      · exact fun hc => ih2.2 x hx ((hm x).mpr (Or.inl (Finset.mem_insert_of_mem hc)))

theorem Dfs.heads {p es vis F vis'} (h : Dfs g enter p es vis F vis') : F.heads.Sublist es ∧ F.Ordered g := by
  induction h with
  | nil => simp [Forest.heads, Ordered]
  | seen _ _ ih => exact ⟨ih.1.cons _, ih.2⟩
  | skip _ _ _ ih => exact ⟨ih.1.cons_cons _, ih.2⟩
  | node _ _ hl _ _ ih1 ih2 => exact ⟨ih2.1.cons_cons _, ⟨_, hl, ih1.1⟩, ih1.2, ih2.2⟩

theorem Dfs.answers {p es vis F vis'} (h : Dfs g enter p es vis F vis') : ∀ q v b, (q, v, b) ∈ F.calls p → b = enter q v := by
  induction h with
  | nil => simp [calls]
  | seen _ _ ih => exact ih
  | skip _ he _ ih =>
    intro q v b hm
    rcases List.mem_cons.mp hm with hm | hm
    · cases hm; exact he.symm
    · exact ih q v b hm
  | node _ he _ _ _ ih1 ih2 =>
    intro q v b hm
    simp only [calls, List.cons_append, List.mem_cons, List.mem_append] at hm
    rcases hm with hm | hm | hm
    · cases hm; exact he.symm
    · exact ih1 q v b hm
    · exact ih2 q v b hm

theorem Dfs.complete {p es vis F vis'} (h : Dfs g enter p es vis F vis') : ∀ v ∈ es, v ∈ vis' ∨ enter p v = false := by
  induction h with
  | nil => simp
  | seen hv h ih =>
    intro x hx
    rcases List.mem_cons.mp hx with rfl | hx
    · exact Or.inl ((h.mem _).mpr (Or.inl hv))
    · exact ih x hx
  | skip _ he _ ih =>
    intro x hx
    rcases List.mem_cons.mp hx with rfl | hx
    · exact Or.inr he
    · exact ih x hx
  | node _ _ _ h1 h2 _ ih2 =>
    intro x hx
    rcases List.mem_cons.mp hx with rfl | hx
    · exact Or.inl ((h2.mem _).mpr (Or.inl ((h1.mem _).mpr (Or.inl (Finset.mem_insert_self _ _)))))
    · exact ih2 x hx

theorem Dfs.edges {p es vis F vis'} (h : Dfs g enter p es vis F vis') :
    ∀ u ∈ F.pre, ∀ v, Edge g u v → v ∈ vis ∨ [v, u].Sublist F.post ∨ F.Anc v u ∨ enter u v = false := by
  induction h with
  | nil => simp [pre]
  | seen _ _ ih => exact ih
  | skip _ _ _ ih => exact ih
  | node hv _h1 hl h1 h2 ih1 ih2 =>
    rename_i p a es vis F vis' l cs vis1
    intro u hu v he
    simp only [pre, List.cons_append, List.mem_cons, List.mem_append] at hu
    rcases hu with rfl | hu | hu
    · obtain ⟨l', e, hm⟩ := he
      rw [hl] at e
      cases e
      rcases h1.complete v hm with h3 | h3
      · rcases (h1.mem v).mp h3 with h3 | h3
        · rcases Finset.mem_insert.mp h3 with rfl | h3
          · exact Or.inr (Or.inr (Or.inl (Or.inl ⟨rfl, Or.inl rfl⟩)))
          · exact Or.inl h3
        · right; left
          show [v, u].Sublist (cs.post ++ u :: F.post)
          exact (List.singleton_sublist.mpr (mem_post.mpr h3)).append ((List.nil_sublist _).cons_cons u)
      · exact Or.inr (Or.inr (Or.inr h3))
    · rcases ih1 u hu v he with h3 | h3 | h3 | h3
      · rcases Finset.mem_insert.mp h3 with rfl | h3
        · exact Or.inr (Or.inr (Or.inl (Or.inl ⟨rfl, Or.inr hu⟩)))
        · exact Or.inl h3
      · exact Or.inr (Or.inl (h3.trans (List.sublist_append_left _ _)))
      · exact Or.inr (Or.inr (Or.inl (Or.inr (Or.inl h3))))
      · exact Or.inr (Or.inr (Or.inr h3))
    · have hbefore : v ∈ cs.post ++ [a] → [v, u].Sublist (cs.post ++ a :: F.post) := by
        intro hm
        have := (List.singleton_sublist.mpr hm).append (List.singleton_sublist.mpr (mem_post.mpr hu))
        simpa using this
      rcases ih2 u hu v he with h3 | h3 | h3 | h3
      · rcases (h1.mem v).mp h3 with h3 | h3
        · rcases Finset.mem_insert.mp h3 with rfl | h3
          · exact Or.inr (Or.inl (hbefore (by simp)))
          · exact Or.inl h3
        · exact Or.inr (Or.inl (hbefore (by simp [mem_post.mpr h3])))
      · refine Or.inr (Or.inl (h3.trans ?_))
        exact (List.sublist_cons_self _ _).trans (List.sublist_append_right _ _)
      · exact Or.inr (Or.inr (Or.inl (Or.inr (Or.inr h3))))
      · exact Or.inr (Or.inr (Or.inr h3))

theorem Dfs.isDfs {roots F vis'} (h : Dfs g enter (-1) roots ∅ F vis') : IsDfs g enter roots F where
  nodup := h.disj.1
  top := h.heads.1
  ordered := h.heads.2
  answers := h.answers
  roots := fun o ho => by
    rcases h.complete o ho with h1 | h1
    · rcases (h.mem o).mp h1 with h2 | h2
      · simp at h2
      · exact Or.inl h2
    · exact Or.inr h1
  edges := fun u hu v he => by
    rcases h.edges u hu v he with h1 | h1
    · simp at h1
    · exact h1

theorem exists_dfs (hg : Valid g) : ∀ (k : Nat) (es : List Nat) (p : Int) (vis : Finset Nat), (∀ v ∈ es, v < g.length) →
    (Finset.range g.length \ vis).card ≤ k → ∃ F vis', Dfs g enter p es vis F vis' := by
  intro k
  induction k with
  | zero =>
    intro es p vis hes hk
    have hall : ∀ v ∈ es, v ∈ vis := by
      intro v hv
      have h1 : Finset.range g.length \ vis = ∅ := Finset.card_eq_zero.mp (by omega)
      by_contra hc
      have : v ∈ Finset.range g.length \ vis := Finset.mem_sdiff.mpr ⟨Finset.mem_range.mpr (hes v hv), hc⟩
      rw [h1] at this
      simp at this
    clear hk hes
    induction es with
    | nil => exact ⟨_, _, Dfs.nil _ _⟩
    | cons v es ih =>
      obtain ⟨F, vis', h⟩ := ih (fun x hx => hall x (by simp [hx]))
      exact ⟨F, vis', Dfs.seen (hall v (by simp)) h⟩
  | succ k ihk =>
    intro es
    induction es with
    | nil => intro p vis _ _; exact ⟨_, _, Dfs.nil _ _⟩
    | cons v es ih =>
      intro p vis hes hk
      have hes' : ∀ x ∈ es, x < g.length := fun x hx => hes x (by simp [hx])
      by_cases hv : v ∈ vis
      · obtain ⟨F, vis', h⟩ := ih p vis hes' hk
        exact ⟨F, vis', Dfs.seen hv h⟩
      · cases hb : enter p v with
        | false =>
          obtain ⟨F, vis', h⟩ := ih p vis hes' hk
          exact ⟨_, vis', Dfs.skip hv hb h⟩
        | true =>
          have hvn := hes v (by simp)
          have hl : g[v]? = some g[v] := List.getElem?_eq_getElem hvn
          obtain ⟨cs, vis1, h1⟩ := ihk g[v] v (insert v vis) (fun x hx => hg v x ⟨_, hl, hx⟩) (by
            have : (Finset.range g.length \ insert v vis).card < (Finset.range g.length \ vis).card := by
              refine Finset.card_lt_card (Finset.ssubset_iff_subset_ne.mpr ⟨fun x hx => ?_, fun hc => ?_⟩)
              · simp only [Finset.mem_sdiff, Finset.mem_insert] at hx ⊢
                tauto
              · have : v ∈ Finset.range g.length \ vis := Finset.mem_sdiff.mpr ⟨Finset.mem_range.mpr hvn, hv⟩
                rw [← hc] at this
                simp at this
            omega)
          obtain ⟨F, vis', h2⟩ := ih p vis1 hes' (by
            refine le_trans (Finset.card_le_card (fun x hx => ?_)) hk
            simp only [Finset.mem_sdiff] at hx ⊢
            exact ⟨hx.1, fun hc => hx.2 ((h1.mem x).mpr (Or.inl (Finset.mem_insert_of_mem hc)))⟩)
          exact ⟨_, vis', Dfs.node hv hb hl h1 h2⟩

/-! ### The loops -/

/-- The visitor is called for the events `tr` in order, starting in state `s`; its answers for nodes are those of `enter`.
The result is its state afterwards. -/
def feed {σ : Type} (visitor : Visitor σ) (enter : Int → Nat → Bool) : List (Int × Int × Int × Int) → σ → Option σ
  | [], s => some s
  | (r, p, v, d) :: tr, s => match visitor s r p v d with
    | none => none
    | some (s, b) => if v = -1 ∨ b = enter p v.toNat then feed visitor enter tr s else none

theorem feed_append {σ : Type} {visitor : Visitor σ} (tr tr' : List (Int × Int × Int × Int)) (s : σ) :
    feed visitor enter (tr ++ tr') s = (feed visitor enter tr s).bind (feed visitor enter tr') := by
  induction tr generalizing s with
  | nil => rfl
  | cons e tr ih =>
    obtain ⟨r, p, v, d⟩ := e
    rw [List.cons_append, feed, feed]
    cases visitor s r p v d with
    | none => rfl
    | some x =>
      obtain ⟨s1, b⟩ := x
      simp only
      split
      · exact ih s1
      · rfl

theorem feed_cons {σ : Type} {visitor : Visitor σ} {r p v d : Int} {tr : List (Int × Int × Int × Int)} {s s' : σ}
    (h : feed visitor enter ((r, p, v, d) :: tr) s = some s') :
    ∃ s1 b, visitor s r p v d = some (s1, b) ∧ (v = -1 ∨ b = enter p v.toNat) ∧ feed visitor enter tr s1 = some s' := by
  rw [feed] at h
  cases e : visitor s r p v d with
  | none => rw [e] at h; simp at h
  | some x =>
    obtain ⟨s1, b⟩ := x
    rw [e] at h
    simp only at h
    split at h
    · rename_i hc; exact ⟨s1, b, rfl, hc, h⟩
    · simp at h

/-- `visited` marks exactly `vis`. -/
def Marks (g : List (List Nat)) (visited : List Nat) (vis : Finset Nat) : Prop :=
  Rep visited g.length (fun v => if v ∈ vis then 1 else 0)

theorem Marks.set {visited : List Nat} {vis : Finset Nat} (h : Marks g visited vis) (v : Nat) : Marks g (visited.set v 1) (insert v vis) := by
  refine (Rep.set h v 1).congr (fun x _ => ?_)
  by_cases hx : x = v
  · subst hx; simp
  · rw [Function.update_of_ne hx]; simp [hx]

section
variable {σ : Type} {visitor : Visitor σ}

theorem pop_step {o : Nat} {u : Nat} {l : List Nat} (hl : g[u]? = some l) {stk : List (Nat × Nat)} {visited : List Nat} {s s' : σ} {b : Bool}
    (h : visitor s o u (-1) (stk.length + 1 : Nat) = some (s', b)) (fuel : Nat) :
    dfsLoop g visitor o (fuel + 1) visited ((u, l.length) :: stk) s = dfsLoop g visitor o fuel visited stk s' := by
  rw [dfsLoop]
  simp only
  rw [show rd g u = some l from hl]
  show (if l.length < l.length then _ else _) = _
  rw [if_neg (lt_irrefl _)]
  show (visitor s o u (-1) (stk.length + 1 : Nat)).bind _ = _
  rw [h]
  rfl

theorem Dfs.sim {o : Nat} {p es vis F vis'} (h : Dfs g enter p es vis F vis') (hg : Valid g) :
    ∀ (u i : Nat) (l : List Nat) (stk : List (Nat × Nat)) (visited : List Nat) (s s' : σ), p = (u : Int) → g[u]? = some l →
    l.drop i = es → i ≤ l.length → Marks g visited vis → feed visitor enter (F.events o u (stk.length + 1 : Nat)) s = some s' →
    ∃ k visited', Marks g visited' vis' ∧
      ∀ fuel, dfsLoop g visitor o (k + fuel) visited ((u, i) :: stk) s = dfsLoop g visitor o fuel visited' ((u, l.length) :: stk) s' := by
  induction h with
  | nil p vis =>
    intro u i l stk visited s s' _ hl hd hi hm hf
    have : i = l.length := by
      have := List.drop_eq_nil_iff.mp hd
      omega
    subst this
    cases hf
    exact ⟨0, visited, hm, fun fuel => by rw [Nat.zero_add]⟩
  | seen hv _h1 ih =>
    rename_i p v es vis F vis'
    intro u i l stk visited s s' hp hl hd hi hm hf
    have hi' : i < l.length := by
      by_contra hc
      rw [List.drop_eq_nil_of_le (by omega)] at hd
      simp at hd
    rw [List.drop_eq_getElem_cons hi'] at hd
    obtain ⟨h1, h2⟩ := List.cons.inj hd
    obtain ⟨k, visited', hm', e⟩ := ih u (i + 1) l stk visited s s' hp hl h2 hi' hm hf
    refine ⟨k + 1, visited', hm', fun fuel => ?_⟩
    rw [← e fuel, show k + 1 + fuel = (k + fuel) + 1 by omega]
    conv => lhs; rw [dfsLoop]
    simp only
    rw [show rd g u = some l from hl]
    show (if i < l.length then _ else _) = _
    rw [if_pos hi']
    show (rd l i).bind _ = _
    rw [show rd l i = some v by rw [rd, List.getElem?_eq_getElem hi', h1]]
    show (rd visited v).bind _ = _
    rw [Rep.rd hm (hg u v ⟨l, hl, h1 ▸ List.getElem_mem hi'⟩), if_pos hv]
    rfl
  | skip hv he _h1 ih =>
    rename_i p v es vis F vis'
    intro u i l stk visited s s' hp hl hd hi hm hf
    have hi' : i < l.length := by
      by_contra hc
      rw [List.drop_eq_nil_of_le (by omega)] at hd
      simp at hd
    rw [List.drop_eq_getElem_cons hi'] at hd
    obtain ⟨h1, h2⟩ := List.cons.inj hd
    obtain ⟨s1, b, ev, hb, hf⟩ := feed_cons hf
    obtain ⟨k, visited', hm', e⟩ := ih u (i + 1) l stk visited s1 s' hp hl h2 hi' hm hf
    have hb' : b = false := by
      rcases hb with hb | hb
      · omega
      · rw [← hp, Int.toNat_natCast, he] at hb; exact hb
    refine ⟨k + 1, visited', hm', fun fuel => ?_⟩
    rw [← e fuel, show k + 1 + fuel = (k + fuel) + 1 by omega]
    conv => lhs; rw [dfsLoop]
    simp only
    rw [show rd g u = some l from hl]
    show (if i < l.length then _ else _) = _
    rw [if_pos hi']
    show (rd l i).bind _ = _
    rw [show rd l i = some v by rw [rd, List.getElem?_eq_getElem hi', h1]]
    show (rd visited v).bind _ = _
    rw [Rep.rd hm (hg u v ⟨l, hl, h1 ▸ List.getElem_mem hi'⟩), if_neg hv]
    show (visitor s o u v (stk.length + 1 : Nat)).bind _ = _
    rw [ev, hb']
    rfl
  | node hv he hlv h1 h2 ih1 ih2 =>
    rename_i p v es vis F vis' lv cs vis1
    intro u i l stk visited s s' hp hl hd hi hm hf
    have hi' : i < l.length := by
      by_contra hc
      rw [List.drop_eq_nil_of_le (by omega)] at hd
      simp at hd
    rw [List.drop_eq_getElem_cons hi'] at hd
    obtain ⟨h3, h4⟩ := List.cons.inj hd
    have hvn : v < g.length := hg u v ⟨l, hl, h3 ▸ List.getElem_mem hi'⟩
    obtain ⟨s1, b, ev, hb, hf⟩ := feed_cons hf
    have hb' : b = true := by
      rcases hb with hb | hb
      · omega
      · rw [← hp, Int.toNat_natCast, he] at hb; exact hb
    rw [feed_append] at hf
    cases e2 : feed visitor enter (cs.events o v (((stk.length + 1 : Nat) : Int) + 1)) s1 with
    | none => rw [e2] at hf; simp at hf
    | some s2 =>
      rw [e2] at hf
      obtain ⟨s3, b3, ev3, _, hf3⟩ := feed_cons hf
      obtain ⟨k1, visited1, hm1, e1⟩ := ih1 v 0 lv ((u, i + 1) :: stk) (visited.set v 1) s1 s2 rfl hlv rfl (Nat.zero_le _) (hm.set v) e2
      obtain ⟨k2, visited2, hm2, e3⟩ := ih2 u (i + 1) l stk visited1 s3 s' hp hl h4 hi' hm1 hf3
      refine ⟨k1 + k2 + 2, visited2, hm2, fun fuel => ?_⟩
      rw [← e3 fuel, ← pop_step hlv (stk := (u, i + 1) :: stk) ev3, ← e1, show k1 + k2 + 2 + fuel = (k1 + (k2 + fuel + 1)) + 1 by omega]
      conv => lhs; rw [dfsLoop]
      simp only
      rw [show rd g u = some l from hl]
      show (if i < l.length then _ else _) = _
      rw [if_pos hi']
      show (rd l i).bind _ = _
      rw [show rd l i = some v by rw [rd, List.getElem?_eq_getElem hi', h3]]
      show (rd visited v).bind _ = _
      rw [Rep.rd hm hvn, if_neg hv]
      show (visitor s o u v (stk.length + 1 : Nat)).bind _ = _
      rw [ev, hb']
      show (wr visited v 1).bind _ = _
      rw [Rep.wr hm hvn]
      rfl

theorem Dfs.simRoots {p es vis F vis'} (h : Dfs g enter p es vis F vis') (hg : Valid g) (hp : p = -1) (hes : ∀ o ∈ es, o < g.length) :
    ∀ (visited : List Nat) (s s' : σ), Marks g visited vis → feed visitor enter F.rootEvents s = some s' →
    ∃ fuel0, ∀ fuel, fuel0 ≤ fuel → dfsRoots fuel g visitor es visited s = some s' := by
  induction h with
  | nil p vis => intro visited s s' _ hf; exact ⟨0, fun fuel _ => hf⟩
  | seen hv _h1 ih =>
    rename_i p v es vis F vis'
    intro visited s s' hm hf
    obtain ⟨f0, e⟩ := ih hp (fun o ho => hes o (by simp [ho])) visited s s' hm hf
    refine ⟨f0, fun fuel hfu => ?_⟩
    rw [dfsRoots, Rep.rd hm (hes v (by simp)), if_pos hv]
    exact e fuel hfu
  | skip hv he _h1 ih =>
    rename_i p v es vis F vis'
    intro visited s s' hm hf
    obtain ⟨s1, b, ev, hb, hf⟩ := feed_cons hf
    have hb' : b = false := by
      rcases hb with hb | hb
      · omega
      · rw [Int.toNat_natCast, ← hp, he] at hb; exact hb
    obtain ⟨f0, e⟩ := ih hp (fun o ho => hes o (by simp [ho])) visited s1 s' hm hf
    refine ⟨f0 + 1, fun fuel hfu => ?_⟩
    obtain ⟨fuel, rfl⟩ : ∃ k, fuel = k + 1 := ⟨fuel - 1, by omega⟩
    rw [dfsRoots, Rep.rd hm (hes v (by simp)), if_neg hv]
    show (visitor s v (-1) v 0).bind _ = _
    rw [ev, hb']
    exact e (fuel + 1) (by omega)
  | node hv he hlv h1 h2 _h1 ih2 =>
    rename_i p v es vis F vis' lv cs vis1
    intro visited s s' hm hf
    have hvn := hes v (by simp)
    obtain ⟨s1, b, ev, hb, hf⟩ := feed_cons hf
    have hb' : b = true := by
      rcases hb with hb | hb
      · omega
      · rw [Int.toNat_natCast, ← hp, he] at hb; exact hb
    rw [feed_append] at hf
    cases e2 : feed visitor enter (cs.events v v 1) s1 with
    | none => rw [e2] at hf; simp at hf
    | some s2 =>
      rw [e2] at hf
      obtain ⟨s3, b3, ev3, _, hf3⟩ := feed_cons hf
      obtain ⟨k, visited1, hm1, e1⟩ := h1.sim hg (o := v) v 0 lv [] (visited.set v 1) s1 s2 rfl hlv rfl (Nat.zero_le _) (hm.set v) e2
      obtain ⟨f0, e⟩ := ih2 hp (fun o ho => hes o (by simp [ho])) visited1 s3 s' hm1 hf3
      refine ⟨f0 + k + 2, fun fuel hfu => ?_⟩
      rw [dfsRoots, Rep.rd hm hvn, if_neg hv]
      show (visitor s v (-1) v 0).bind _ = _
      rw [ev, hb']
      show (wr visited v 1).bind _ = _
      rw [Rep.wr hm hvn]
      show (dfsLoop g visitor v fuel (visited.set v 1) [(v, 0)] s1).bind _ = _
      obtain ⟨j, hj⟩ : ∃ j, fuel = k + ((j + 1) + 1) := ⟨fuel - k - 2, by omega⟩
      rw [show dfsLoop g visitor v fuel (visited.set v 1) [(v, 0)] s1 = some (visited1, s3) by
        rw [hj, e1, pop_step hlv (stk := []) ev3]; rfl]
      exact e fuel (by omega)

end

/-- `iterative_dfs`: for every way `enter` of answering, there is one depth-first forest (in the sense of `IsDfs`, for all nodes
as roots or for the given source) such that every visitor that answers in this way is called for exactly the events of that
forest, in order: each node with its root, parent and depth, and -1 as the last node of each parent. -/
theorem C95_iterative_dfs (g : List (List Nat)) (hg : Valid g) (source : Int) (hs : source = -1 ∨ 0 ≤ source ∧ source < g.length)
    (enter : Int → Nat → Bool) :
    ∃ F, IsDfs g enter (if source = -1 then List.range g.length else [source.toNat]) F ∧
      ∀ (σ : Type) (visitor : Visitor σ) (s s' : σ), feed visitor enter F.rootEvents s = some s' →
        ∃ fuel0, ∀ fuel, fuel0 ≤ fuel → iterativeDfs fuel g visitor source s = some s' := by
  have hr : dfsRange g.length source = if source = -1 then List.range g.length else [source.toNat] := by
    unfold dfsRange
    by_cases h : source = -1
    · rw [if_neg (by simpa using h), if_pos h]
    · rw [if_pos h, if_neg h]
  have hlt : ∀ o ∈ dfsRange g.length source, o < g.length := by
    intro o ho
    rw [hr] at ho
    split at ho
    · exact List.mem_range.mp ho
    · rw [List.mem_singleton] at ho
      omega
  obtain ⟨F, vis', h⟩ := exists_dfs (enter := enter) hg _ (dfsRange g.length source) (-1) ∅ hlt (le_refl _)
  refine ⟨F, hr ▸ h.isDfs, fun σ visitor s s' hf => ?_⟩
  exact h.simRoots hg rfl hlt (List.replicate g.length 0) s s' ((Rep.replicate g.length 0).congr (fun _ _ => by simp)) hf

/-! ### What a depth-first forest contains -/

theorem calls_reach {p : Int} {F : Forest} {q : Int} {v : Nat} (h : (q, v, true) ∈ F.calls p) : v ∈ F.pre := by
  induction F generalizing p with
  | nil => simp [calls] at h
  | skip w r ih =>
    rcases List.mem_cons.mp h with h | h
    · cases h
    · exact ih h
  | node w cs r ih1 ih2 =>
    simp only [calls, List.cons_append, List.mem_cons, List.mem_append] at h
    simp only [pre, List.cons_append, List.mem_cons, List.mem_append]
    rcases h with h | h | h
    · cases h; exact Or.inl rfl
    · exact Or.inr (Or.inl (ih1 h))
    · exact Or.inr (Or.inr (ih2 h))

theorem anc_mem {F : Forest} {x y : Nat} (h : F.Anc y x) : y ∈ F.pre := by
  induction F with
  | nil => exact h.elim
  | skip w r ih => exact ih h
  | node w cs r ih1 ih2 =>
    simp only [pre, List.cons_append, List.mem_cons, List.mem_append]
    rcases h with ⟨h, _⟩ | h | h
    · exact Or.inl h
    · exact Or.inr (Or.inl (ih1 h))
    · exact Or.inr (Or.inr (ih2 h))

/-- Every node of the forest hangs below a top node by accepted edges. -/
theorem reach_of_pre {F : Forest} (p : Int) (ho : F.Ordered g) (ha : ∀ q v b, (q, v, b) ∈ F.calls p → b = enter q v) :
    ∀ v ∈ F.pre, ∃ o ∈ F.heads, enter p o = true ∧ Relation.ReflTransGen (fun a b => Edge g a b ∧ enter a b = true) o v := by
  induction F generalizing p with
  | nil => simp [pre]
  | skip w r ih =>
    intro v hv
    obtain ⟨o, h1, h2⟩ := ih p ho (fun q v b h => ha q v b (by simp [calls, h])) v hv
    exact ⟨o, by simp [Forest.heads, h1], h2⟩
  | node w cs r ih1 ih2 =>
    intro v hv
    have hw : enter p w = true := (ha p w true (by simp [calls])).symm
    simp only [pre, List.cons_append, List.mem_cons, List.mem_append] at hv
    obtain ⟨⟨l, hl, hsub⟩, ho1, ho2⟩ := ho
    rcases hv with rfl | hv | hv
    · exact ⟨v, by simp [Forest.heads], hw, Relation.ReflTransGen.refl⟩
    · obtain ⟨o, h1, h2, h3⟩ := ih1 w ho1 (fun q v b h => ha q v b (by simp [calls, h])) v hv
      exact ⟨w, by simp [Forest.heads], hw, Relation.ReflTransGen.head ⟨⟨l, hl, hsub.mem h1⟩, h2⟩ h3⟩
    · obtain ⟨o, h1, h2⟩ := ih2 p ho2 (fun q v b h => ha q v b (by simp [calls, h])) v hv
      exact ⟨o, by simp [Forest.heads, h1], h2⟩

/-- A depth-first forest contains exactly the nodes that can be reached over accepted edges from accepted roots. -/
theorem C95_dfs_nodes {roots : List Nat} {F : Forest} (h : IsDfs g enter roots F) (v : Nat) :
    v ∈ F.pre ↔ ∃ o ∈ roots, enter (-1) o = true ∧ Relation.ReflTransGen (fun a b => Edge g a b ∧ enter a b = true) o v := by
  constructor
  · intro hv
    obtain ⟨o, h1, h2⟩ := reach_of_pre (-1) h.ordered h.answers v hv
    exact ⟨o, h.top.mem h1, h2⟩
  · rintro ⟨o, ho, h1, h2⟩
    induction h2 with
    | refl => exact (h.roots o ho).resolve_right (by simp [h1])
    | tail _ hab ih =>
      rcases h.edges _ ih _ hab.1 with h3 | h3 | h3
      · exact mem_post.mp (h3.mem (by simp))
      · exact anc_mem h3
      · rw [hab.2] at h3; cases h3

end

end Altruct.GraphAlg
