/-
Dijkstra's algorithm (C93).
-/
import Verif.GraphAlg.WSpec
import Verif.GraphAlg.DijkstraModel
import Mathlib.Data.Finset.Card
import Mathlib.Data.Finset.Range

namespace Altruct.GraphAlg

/-! ### The set -/

theorem mem_qInsert (x y : Int × Nat) (l : List (Int × Nat)) : y ∈ qInsert x l ↔ y = x ∨ y ∈ l := by
  induction l with
  | nil => simp [qInsert]
  | cons z l ih =>
    rw [qInsert]
    split
    · simp
    · split
      · rw [List.mem_cons, ih, List.mem_cons]; tauto
      · rename_i h1 h2
        have : x = z := by
          unfold qLt at h1 h2
          ext <;> omega
        subst this
        simp

theorem qLt_trans {a b c : Int × Nat} (h : qLt a b) (h' : qLt b c) : qLt a c := by
  unfold qLt at *
  omega

theorem sorted_qInsert (x : Int × Nat) (l : List (Int × Nat)) (h : l.Pairwise qLt) : (qInsert x l).Pairwise qLt := by
  induction l with
  | nil => simp [qInsert]
  | cons z l ih =>
    rw [List.pairwise_cons] at h
    rw [qInsert]
    split
    · rename_i h1
      rw [List.pairwise_cons]
      refine ⟨fun y hy => ?_, List.pairwise_cons.mpr h⟩
      rcases List.mem_cons.mp hy with rfl | hy
      · exact h1
      · exact qLt_trans h1 (h.1 y hy)
    · split
      · rename_i h1 h2
        rw [List.pairwise_cons]
        refine ⟨fun y hy => ?_, ih h.2⟩
        rcases (mem_qInsert x y l).mp hy with rfl | hy
        · exact h2
        · exact h.1 y hy
      · exact List.pairwise_cons.mpr h

theorem mem_qErase (x y : Int × Nat) (l : List (Int × Nat)) : y ∈ qErase x l ↔ y ∈ l ∧ y ≠ x := by
  simp [qErase]

theorem sorted_qErase (x : Int × Nat) (l : List (Int × Nat)) (h : l.Pairwise qLt) : (qErase x l).Pairwise qLt :=
  h.filter _

/-! ### The invariant -/

/-- `S` are the nodes taken from the queue so far; the edges `E` of the last one have not been relaxed yet. -/
structure DjInv (g : List (List (Nat × Int))) (src : Nat) (inf : Int) (res : List (Int × Int)) (q : List (Int × Nat))
    (f : Nat → Int × Int) (S : Finset Nat) (u : Nat) (E : List (Nat × Int)) : Prop where
  rep : Rep res g.length f
  sorted : q.Pairwise qLt
  key : ∀ x ∈ q, x.2 < g.length ∧ (f x.2).2 = x.1
  disj : ∀ x ∈ q, x.2 ∉ S
  dom : ∀ s ∈ S, s < g.length
  low : ∀ s ∈ S, ∀ x ∈ q, (f s).2 ≤ x.1
  cases : ∀ v, v < g.length → v ∈ S ∨ ((f v).2, v) ∈ q ∨ f v = (-1, inf)
  set : ∀ v, v < g.length → (v ∈ S ∨ ((f v).2, v) ∈ q) → (f v).2 < inf ∧ (∃ p, Walk g src p v (f v).2)
    ∧ ((v = src ∧ f v = ((src : Int), 0)) ∨ (v ≠ src ∧ ∃ s ∈ S, ∃ w, WEdge g s v w ∧ f v = ((s : Int), (f s).2 + w)))
  relaxed : ∀ s ∈ S, ∀ v w, WEdge g s v w → (s = u ∧ (v, w) ∈ E) ∨ (f v).2 ≤ (f s).2 + w
  source : src ∈ S ∨ ((f src).2, src) ∈ q

section
variable {g : List (List (Nat × Int))} {src : Nat} {inf : Int}

theorem DjInv.le_inf {res q f S u E} (h : DjInv g src inf res q f S u E) {v : Nat} (hv : v < g.length) : (f v).2 ≤ inf := by
  rcases h.cases v hv with h1 | h1 | h1
  · exact le_of_lt (h.set v hv (Or.inl h1)).1
  · exact le_of_lt (h.set v hv (Or.inr h1)).1
  · rw [h1]

theorem djEdges_spec (hg : WValid g) (hw : ∀ u v w, WEdge g u v w → 0 ≤ w) {u : Nat} (hu : u < g.length) :
    ∀ (es : List (Nat × Int)) (res : List (Int × Int)) (q : List (Int × Nat)) (f : Nat → Int × Int) (S : Finset Nat),
    (∀ e ∈ es, WEdge g u e.1 e.2) → u ∈ S → (∀ s ∈ S, (f s).2 ≤ (f u).2) → DjInv g src inf res q f S u es →
    ∃ res' q' f', djEdges u es res q = some (res', q') ∧ DjInv g src inf res' q' f' S u [] := by
  intro es
  induction es with
  | nil => intro res q f S _ _ _ h; exact ⟨res, q, f, rfl, h⟩
  | cons e es ih =>
    intro res q f S hes huS hmax h
    obtain ⟨v, w⟩ := e
    have he : WEdge g u v w := hes (v, w) (by simp)
    have hv := hg _ _ _ he
    have hw0 := hw _ _ _ he
    have eu := h.rep.rd hu
    have ev := h.rep.rd hv
    by_cases hlt : (f u).2 + w < (f v).2
    · have hvS : v ∉ S := fun hc => by have := hmax v hc; linarith
      have hfS : ∀ s ∈ S, Function.update f v ((u : Int), (f u).2 + w) s = f s := fun s hs =>
        Function.update_of_ne (by rintro rfl; exact hvS hs) _ _
      have hself : Function.update f v ((u : Int), (f u).2 + w) v = ((u : Int), (f u).2 + w) := Function.update_self _ _ _
      have hkey : ∀ x ∈ qErase ((f v).2, v) q, x.2 ≠ v := by
        intro x hx hxv
        obtain ⟨h1, h2⟩ := (mem_qErase _ _ _).mp hx
        have := (h.key x h1).2
        exact h2 (Prod.ext (by rw [← this, hxv]) hxv)
      obtain ⟨res', q', f', e1, h1⟩ := ih (res.set v ((u : Int), (f u).2 + w)) (qInsert ((f u).2 + w, v) (qErase ((f v).2, v) q))
        (Function.update f v ((u : Int), (f u).2 + w)) S (fun e he => hes e (by simp [he])) huS
        (fun s hs => by rw [hfS s hs, hfS u huS]; exact hmax s hs)
        { rep := h.rep.set v _
          sorted := sorted_qInsert _ _ (sorted_qErase _ _ h.sorted)
          key := fun x hx => by
            rcases (mem_qInsert _ _ _).mp hx with rfl | hx
            · exact ⟨hv, by rw [hself]⟩
            · rw [Function.update_of_ne (hkey x hx)]
              exact h.key x ((mem_qErase _ _ _).mp hx).1
          disj := fun x hx => by
            rcases (mem_qInsert _ _ _).mp hx with rfl | hx
            · exact hvS
            · exact h.disj x ((mem_qErase _ _ _).mp hx).1
          dom := h.dom
          low := fun s hs x hx => by
            rw [hfS s hs]
            rcases (mem_qInsert _ _ _).mp hx with rfl | hx
            · have := hmax s hs
              show (f s).2 ≤ (f u).2 + w
              linarith
            · exact h.low s hs x ((mem_qErase _ _ _).mp hx).1
          cases := fun a ha => by
            by_cases hav : a = v
            · subst hav
              right; left
              rw [hself, mem_qInsert]
              exact Or.inl rfl
            · rw [Function.update_of_ne hav]
              rcases h.cases a ha with h1 | h1 | h1
              · exact Or.inl h1
              · right; left
                rw [mem_qInsert, mem_qErase]
                exact Or.inr ⟨h1, fun hc => hav (congrArg Prod.snd hc)⟩
              · exact Or.inr (Or.inr h1)
          set := fun a ha hset => by
            by_cases hav : a = v
            · subst hav
              obtain ⟨h1, ⟨p, hp⟩, _⟩ := h.set u hu (Or.inl huS)
              have hne : a ≠ src := by
                rintro rfl
                have hs := h.source.resolve_left hvS
                rcases (h.set a ha (Or.inr hs)).2.2 with ⟨_, h3⟩ | ⟨h3, _⟩
                · rw [h3] at hlt
                  have h4 : 0 ≤ (f u).2 := by
                    have : ∀ x p t d, Walk g x p t d → 0 ≤ d := by
                      intro x p t d hw'
                      induction hw' with
                      | nil => exact le_refl _
                      | cons h5 _ ih' => have := hw _ _ _ h5; linarith
                    exact this _ _ _ _ hp
                  simp only at hlt
                  linarith
                · exact h3 rfl
              rw [hself]
              refine ⟨lt_of_lt_of_le hlt (h.le_inf ha), ⟨_, hp.append (Walk.single he)⟩, Or.inr ⟨hne, u, huS, w, he, ?_⟩⟩
              rw [hfS u huS]
            · rw [Function.update_of_ne hav] at hset ⊢
              have hset' : a ∈ S ∨ ((f a).2, a) ∈ q := by
                rcases hset with h1 | h1
                · exact Or.inl h1
                · rcases (mem_qInsert _ _ _).mp h1 with h1 | h1
                  · exact absurd (congrArg Prod.snd h1) hav
                  · exact Or.inr ((mem_qErase _ _ _).mp h1).1
              obtain ⟨h1, h2, h3⟩ := h.set a ha hset'
              refine ⟨h1, h2, h3.imp id (fun ⟨h4, s, hs, w', h5, h6⟩ => ⟨h4, s, hs, w', h5, ?_⟩)⟩
              rw [hfS s hs]; exact h6
          relaxed := fun s hs a w' hsa => by
            rw [hfS s hs]
            rcases h.relaxed s hs a w' hsa with ⟨h1, h2⟩ | h1
            · rcases List.mem_cons.mp h2 with h2 | h2
              · right
                obtain ⟨rfl, rfl⟩ := Prod.mk.inj h2
                rw [hself, h1]
              · exact Or.inl ⟨h1, h2⟩
            · right
              by_cases hav : a = v
              · subst hav; rw [hself]; exact (le_of_lt hlt).trans h1
              · rw [Function.update_of_ne hav]; exact h1
          source := by
            rcases h.source with h1 | h1
            · exact Or.inl h1
            · right
              by_cases hav : src = v
              · rw [hav, hself, mem_qInsert]; exact Or.inl rfl
              · rw [Function.update_of_ne hav, mem_qInsert, mem_qErase]
                exact Or.inr ⟨h1, fun hc => hav (congrArg Prod.snd hc)⟩ }
      refine ⟨res', q', f', ?_, h1⟩
      rw [djEdges, eu]
      show (rd res v).bind _ = _
      rw [ev]
      show (if (f u).2 + w < (f v).2 then _ else _) = _
      rw [if_pos hlt]
      show (wr res v _).bind _ = _
      rw [h.rep.wr hv]
      exact e1
    · obtain ⟨res', q', f', e1, h1⟩ := ih res q f S (fun e he => hes e (by simp [he])) huS hmax
        { rep := h.rep, sorted := h.sorted, key := h.key, disj := h.disj, dom := h.dom, low := h.low, cases := h.cases, set := h.set,
          relaxed := fun s hs a w' hsa => by
            rcases h.relaxed s hs a w' hsa with ⟨h1, h2⟩ | h1
            · rcases List.mem_cons.mp h2 with h2 | h2
              · right
                obtain ⟨rfl, rfl⟩ := Prod.mk.inj h2
                rw [h1]; linarith
              · exact Or.inl ⟨h1, h2⟩
            · exact Or.inr h1
          source := h.source }
      refine ⟨res', q', f', ?_, h1⟩
      rw [djEdges, eu]
      show (rd res v).bind _ = _
      rw [ev]
      show (if (f u).2 + w < (f v).2 then _ else _) = _
      rw [if_neg hlt]
      exact e1

theorem djLoop_spec (hg : WValid g) (hw : ∀ u v w, WEdge g u v w → 0 ≤ w) :
    ∀ (fuel : Nat) (res : List (Int × Int)) (q : List (Int × Nat)) (f : Nat → Int × Int) (S : Finset Nat) (u : Nat),
    g.length < fuel + S.card → DjInv g src inf res q f S u [] →
    ∃ res' f' S' u', djLoop g fuel res q = some res' ∧ DjInv g src inf res' [] f' S' u' [] := by
  intro fuel
  induction fuel with
  | zero =>
    intro res q f S u hf h
    have : S.card ≤ (Finset.range g.length).card := Finset.card_le_card (fun s hs => Finset.mem_range.mpr (h.dom s hs))
    rw [Finset.card_range] at this
    omega
  | succ fuel ih =>
    intro res q f S u0 hf h
    cases q with
    | nil => exact ⟨res, f, S, u0, rfl, h⟩
    | cons x q =>
      obtain ⟨d, u⟩ := x
      obtain ⟨hu, hd⟩ := h.key (d, u) (by simp)
      simp only at hu hd
      have huS : u ∉ S := h.disj (d, u) (by simp)
      have hs := List.pairwise_cons.mp h.sorted
      have hnot : ∀ x ∈ q, x.2 ≠ u := by
        intro x hx hxu
        have h1 := (h.key x (by simp [hx])).2
        have h2 := hs.1 x hx
        rw [hxu, hd] at h1
        unfold qLt at h2
        simp only at h2
        omega
      have eu : rd g u = some g[u] := by rw [rd, List.getElem?_eq_getElem hu]
      obtain ⟨res1, q1, f1, e1, h1⟩ := djEdges_spec (src := src) (inf := inf) hg hw hu g[u] res q f (insert u S)
        (fun e he => ⟨_, List.getElem?_eq_getElem hu, he⟩) (Finset.mem_insert_self _ _)
        (fun s hs' => by
          rcases Finset.mem_insert.mp hs' with rfl | hs'
          · exact le_refl _
          · rw [hd]; exact h.low s hs' (d, u) (by simp))
        { rep := h.rep
          sorted := hs.2
          key := fun x hx => h.key x (by simp [hx])
          disj := fun x hx => by
            rw [Finset.mem_insert]
            rintro (h1 | h1)
            · exact hnot x hx h1
            · exact h.disj x (by simp [hx]) h1
          dom := fun s hs' => by
            rcases Finset.mem_insert.mp hs' with rfl | hs'
            · exact hu
            · exact h.dom s hs'
          low := fun s hs' x hx => by
            rcases Finset.mem_insert.mp hs' with rfl | hs'
            · have := hs.1 x hx
              unfold qLt at this
              simp only at this
              rw [hd]; omega
            · exact h.low s hs' x (by simp [hx])
          cases := fun v hv => by
            rcases h.cases v hv with h1 | h1 | h1
            · exact Or.inl (Finset.mem_insert_of_mem h1)
            · rcases List.mem_cons.mp h1 with h1 | h1
              · have h2 : v = u := congrArg Prod.snd h1
                exact Or.inl (h2 ▸ Finset.mem_insert_self _ _)
              · exact Or.inr (Or.inl h1)
            · exact Or.inr (Or.inr h1)
          set := fun v hv hset => by
            have : v ∈ S ∨ ((f v).2, v) ∈ (d, u) :: q := by
              rcases hset with h1 | h1
              · rcases Finset.mem_insert.mp h1 with rfl | h1
                · right; rw [hd]; simp
                · exact Or.inl h1
              · exact Or.inr (List.mem_cons_of_mem _ h1)
            obtain ⟨h1, h2, h3⟩ := h.set v hv this
            exact ⟨h1, h2, h3.imp id (fun ⟨h4, s, hs', w, h5⟩ => ⟨h4, s, Finset.mem_insert_of_mem hs', w, h5⟩)⟩
          relaxed := fun s hs' v w he => by
            rcases Finset.mem_insert.mp hs' with rfl | hs'
            · left
              obtain ⟨l, hl, hm⟩ := he
              rw [List.getElem?_eq_getElem hu] at hl
              cases hl
              exact ⟨rfl, hm⟩
            · rcases h.relaxed s hs' v w he with ⟨_, h1⟩ | h1
              · simp at h1
              · exact Or.inr h1
          source := by
            rcases h.source with h1 | h1
            · exact Or.inl (Finset.mem_insert_of_mem h1)
            · rcases List.mem_cons.mp h1 with h1 | h1
              · have h2 : src = u := congrArg Prod.snd h1
                exact Or.inl (h2 ▸ Finset.mem_insert_self _ _)
              · exact Or.inr h1 }
      obtain ⟨res', f', S', u', e2, h2⟩ := ih res1 q1 f1 (insert u S) u (by rw [Finset.card_insert_of_notMem huS]; omega) h1
      refine ⟨res', f', S', u', ?_, h2⟩
      rw [djLoop]
      simp only [eu]
      show (djEdges u g[u] res q).bind _ = _
      rw [e1]
      exact e2

/-- `dijkstra`: with no negative weight, the entry of `v` is `{ -1, inf }` if every walk from the source to `v` weighs at
least `inf`; otherwise its weight is the least weight of such a walk and its node is the one before `v` on a walk of least
weight (the source itself for the source). -/
theorem C93_dijkstra (g : List (List (Nat × Int))) (src : Nat) (inf : Int) (hg : WValid g) (hw : ∀ u v w, WEdge g u v w → 0 ≤ w)
    (hsrc : src < g.length) (hinf : 0 < inf) (fuel : Nat) (hf : g.length < fuel) :
    ∃ res, dijkstra fuel g src inf = some res ∧ res.length = g.length ∧ ∀ v, v < g.length →
      ∃ x d, res[v]? = some (x, d)
        ∧ ((∀ p d', Walk g src p v d' → inf ≤ d') → x = -1 ∧ d = inf)
        ∧ ((∃ p d', Walk g src p v d' ∧ d' < inf) → IsDist g src v d ∧ (v = src → x = src)
            ∧ (v ≠ src → ∃ (u : Nat) (w d' : Int), x = u ∧ WEdge g u v w ∧ IsDist g src u d' ∧ d = d' + w)) := by
  obtain ⟨res, f, S, u', e, h⟩ := djLoop_spec (src := src) (inf := inf) hg hw fuel ((List.replicate g.length (-1, inf)).set src ((src : Int), 0)) [(0, src)]
    (Function.update (fun _ => (-1, inf)) src ((src : Int), 0)) ∅ 0 (by simpa using hf)
    { rep := (Rep.replicate g.length _).set src _
      sorted := by simp
      key := fun x hx => by rw [List.mem_singleton.mp hx]; exact ⟨hsrc, by rw [Function.update_self]⟩
      disj := by simp
      dom := by simp
      low := by simp
      cases := fun v hv => by
        by_cases hvs : v = src
        · subst hvs; right; left; rw [Function.update_self]; simp
        · rw [Function.update_of_ne hvs]; exact Or.inr (Or.inr rfl)
      set := fun v hv hset => by
        have hvs : v = src := by
          rcases hset with h1 | h1
          · simp at h1
          · exact congrArg Prod.snd (List.mem_singleton.mp h1)
        subst hvs
        rw [Function.update_self]
        exact ⟨hinf, ⟨[], Walk.nil v⟩, Or.inl ⟨rfl, rfl⟩⟩
      relaxed := by simp
      source := by right; rw [Function.update_self]; simp }
  have hset : ∀ v, v < g.length → v ∈ S ∨ f v = (-1, inf) := by
    intro v hv
    rcases h.cases v hv with h1 | h1 | h1
    · exact Or.inl h1
    · simp at h1
    · exact Or.inr h1
  have hsrcS : src ∈ S := by
    rcases h.source with h1 | h1
    · exact h1
    · simp at h1
  have hfsrc : f src = ((src : Int), 0) := by
    rcases (h.set src hsrc (Or.inl hsrcS)).2.2 with ⟨_, h1⟩ | ⟨h1, _⟩
    · exact h1
    · exact absurd rfl h1
  have hlow : ∀ a p v d, Walk g a p v d → a < g.length → (f v).2 ≤ (f a).2 + d := by
    intro a p v d hwalk
    induction hwalk with
    | nil => intro _; simp
    | cons he _ ih =>
      rename_i a b t w d p _
      intro ha
      have hb := hg _ _ _ he
      have := ih hb
      have h2 : (f b).2 ≤ (f a).2 + w := by
        rcases hset a ha with h1 | h1
        · rcases h.relaxed a h1 b w he with ⟨_, h2⟩ | h2
          · simp at h2
          · exact h2
        · rw [h1]
          have := h.le_inf hb
          have := hw _ _ _ he
          show (f b).2 ≤ inf + w
          linarith
      linarith
  have hdist : ∀ v, v ∈ S → IsDist g src v (f v).2 := fun v hv => by
    refine ⟨(h.set v (h.dom v hv) (Or.inl hv)).2.1, fun p d hp => ?_⟩
    have := hlow src p v d hp hsrc
    rw [hfsrc] at this
    simpa using this
  refine ⟨res, ?_, h.rep.len, fun v hv => ⟨(f v).1, (f v).2, h.rep.get v hv, fun hno => ?_, fun ⟨p, d', hp, hd'⟩ => ?_⟩⟩
  · rw [dijkstra, wr, if_pos (by simpa using hsrc)]
    exact e
  · rcases hset v hv with h1 | h1
    · obtain ⟨h2, ⟨p, hp⟩, _⟩ := h.set v hv (Or.inl h1)
      exact absurd (hno p _ hp) (by linarith)
    · rw [h1]; exact ⟨rfl, rfl⟩
  · have hvS : v ∈ S := by
      rcases hset v hv with h1 | h1
      · exact h1
      · have := hlow src p v d' hp hsrc
        rw [hfsrc, h1] at this
        simp only at this
        linarith
    refine ⟨hdist v hvS, fun hvs => ?_, fun hvs => ?_⟩
    · rw [hvs, hfsrc]
    · rcases (h.set v hv (Or.inl hvS)).2.2 with ⟨h1, _⟩ | ⟨_, s, hs, w, h1, h2⟩
      · exact absurd h1 hvs
      · exact ⟨s, w, (f s).2, by rw [h2], h1, hdist s hs, by rw [h2]⟩

end

/-! ### The hypotheses are met -/

example : dijkstra 6 [[(1, 7), (2, 1)], [(3, 1)], [(1, 2), (3, 6)], [(0, 1)], [(0, 1)]] 0 100
    = some [(0, 0), (2, 3), (0, 1), (1, 4), (-1, 100)] := by decide +kernel

example : ∀ u v w, WEdge [[(1, 7), (2, 1)], [(3, 1)], [(1, 2), (3, 6)], [(0, 1)], [(0, 1)]] u v w → v < 5 ∧ 0 ≤ w := by
  rintro u v w ⟨l, h1, h2⟩
  have : ∀ u ∈ List.range 5, ∀ e ∈ ([[(1, 7), (2, 1)], [(3, 1)], [(1, 2), (3, 6)], [(0, 1)], [(0, 1)]] : List (List (Nat × Int)))[u]?.getD [],
    e.1 < 5 ∧ 0 ≤ e.2 := by decide
  exact this u (List.mem_range.mpr (List.getElem?_eq_some_iff.mp h1).1) (v, w) (by rw [h1]; exact h2)

end Altruct.GraphAlg
