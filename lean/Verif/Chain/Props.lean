/-
C109: the bridges of an undirected graph.  C110: its articulation points.
-/
import Verif.Chain.Run

namespace Altruct.Chain

open GraphAlg Relation

section
variable {g : List (List Nat)}

/-! ### The set of edges -/

theorem insertEdges_spec (u : Nat) : ∀ (vs : List Nat) (c : List (Nat × Nat)), c.Nodup →
    (insertEdges u vs c).Nodup ∧ ∀ e, e ∈ insertEdges u vs c ↔ e ∈ c ∨ (e.1 = u ∧ u < e.2 ∧ e.2 ∈ vs) := by
  intro vs
  induction vs with
  | nil => intro c h; exact ⟨h, fun e => by simp [insertEdges]⟩
  | cons v vs ih =>
    intro c h
    unfold insertEdges at ih ⊢
    rw [List.foldl_cons]
    by_cases huv : u < v
    · rw [if_pos huv]
      have hn : (insertNew c (u, v)).Nodup ∧ ∀ e, e ∈ insertNew c (u, v) ↔ e ∈ c ∨ e = (u, v) := by
        unfold insertNew
        by_cases hm : (u, v) ∈ c
        · rw [if_pos hm]
          exact ⟨h, fun e => ⟨Or.inl, fun h => h.elim id (fun h => h ▸ hm)⟩⟩
        · rw [if_neg hm]
          refine ⟨?_, fun e => by simp⟩
          rw [List.nodup_append]
          exact ⟨h, by simp, fun a ha b hb hab => by rw [List.mem_singleton] at hb; rw [hab, hb] at ha; exact hm ha⟩
      obtain ⟨h1, h2⟩ := ih _ hn.1
      refine ⟨h1, fun e => ?_⟩
      rw [h2, hn.2]
      constructor
      · rintro ((h | rfl) | ⟨k1, k2, k3⟩)
        · exact Or.inl h
        · exact Or.inr ⟨rfl, huv, by simp⟩
        · exact Or.inr ⟨k1, k2, by simp [k3]⟩
      · rintro (h | ⟨k1, k2, k3⟩)
        · exact Or.inl (Or.inl h)
        · rcases List.mem_cons.mp k3 with k3 | k3
          · exact Or.inl (Or.inr (Prod.ext k1 k3))
          · exact Or.inr ⟨k1, k2, k3⟩
    · rw [if_neg huv]
      obtain ⟨h1, h2⟩ := ih c h
      refine ⟨h1, fun e => ?_⟩
      rw [h2]
      refine or_congr Iff.rfl ⟨fun ⟨k1, k2, k3⟩ => ⟨k1, k2, by simp [k3]⟩, fun ⟨k1, k2, k3⟩ => ⟨k1, k2, ?_⟩⟩
      rcases List.mem_cons.mp k3 with k3 | k3
      · rw [k3] at k2; exact absurd k2 huv
      · exact k3

theorem allEdges_spec : ∀ (h : List (List Nat)) (k : Nat) (c : List (Nat × Nat)), c.Nodup →
    (allEdges k h c).Nodup ∧ ∀ e, e ∈ allEdges k h c ↔ e ∈ c ∨ (e.1 < e.2 ∧ k ≤ e.1 ∧ Edge h (e.1 - k) e.2) := by
  intro h
  induction h with
  | nil => intro k c hc; exact ⟨hc, fun e => by simp [allEdges, Edge]⟩
  | cons vs h ih =>
    intro k c hc
    obtain ⟨h1, h2⟩ := insertEdges_spec k vs c hc
    obtain ⟨h3, h4⟩ := ih (k + 1) _ h1
    refine ⟨h3, fun e => ?_⟩
    rw [allEdges, h4, h2, or_assoc]
    refine or_congr Iff.rfl ?_
    constructor
    · rintro (⟨k1, k2, k3⟩ | ⟨k1, k2, l, k3, k4⟩)
      · exact ⟨by omega, by omega, vs, by rw [k1]; simp, k3⟩
      · exact ⟨k1, by omega, l, by rw [show e.1 - k = (e.1 - (k + 1)) + 1 by omega]; simpa using k3, k4⟩
    · rintro ⟨k1, k2, l, k3, k4⟩
      by_cases hk : e.1 = k
      · rw [hk, Nat.sub_self] at k3
        simp only [List.getElem?_cons_zero, Option.some.injEq] at k3
        exact Or.inl ⟨hk, by omega, k3 ▸ k4⟩
      · rw [show e.1 - k = (e.1 - (k + 1)) + 1 by omega, List.getElem?_cons_succ] at k3
        exact Or.inr ⟨k1, by omega, l, k3, k4⟩

/-- The pair in order. -/
def norm (p : Nat × Nat) : Nat × Nat := if p.1 > p.2 then (p.2, p.1) else (p.1, p.2)

theorem eraseChain_spec : ∀ (ch : List Nat) (c : List (Nat × Nat)), c.Nodup →
    (eraseChain ch c).Nodup ∧ ∀ e, e ∈ eraseChain ch c ↔ e ∈ c ∧ ∀ p ∈ adj ch, e ≠ norm p := by
  intro ch
  induction ch with
  | nil => intro c h; exact ⟨h, fun e => by simp [eraseChain, adj]⟩
  | cons a ch ih =>
    intro c h
    cases ch with
    | nil => exact ⟨h, fun e => by simp [eraseChain, adj]⟩
    | cons b ch =>
      rw [eraseChain]
      obtain ⟨h1, h2⟩ := ih _ (h.filter (fun e => decide (¬ e = if a > b then (b, a) else (a, b))))
      refine ⟨h1, fun e => ?_⟩
      rw [h2, List.mem_filter, adj]
      simp only [decide_eq_true_eq, List.mem_cons, forall_eq_or_imp, and_assoc]
      rfl

theorem foldl_erase {α : Type} (f : List (Nat × Nat) → α → List (Nat × Nat)) (P : α → Nat × Nat → Prop)
    (hf : ∀ c x, c.Nodup → (f c x).Nodup ∧ ∀ e, e ∈ f c x ↔ e ∈ c ∧ ¬ P x e) : ∀ (l : List α) (c : List (Nat × Nat)), c.Nodup →
    (l.foldl f c).Nodup ∧ ∀ e, e ∈ l.foldl f c ↔ e ∈ c ∧ ¬ ∃ x ∈ l, P x e := by
  intro l
  induction l with
  | nil => intro c h; exact ⟨h, fun e => by simp⟩
  | cons x l ih =>
    intro c h
    obtain ⟨h1, h2⟩ := hf c x h
    obtain ⟨h3, h4⟩ := ih _ h1
    refine ⟨h3, fun e => ?_⟩
    rw [List.foldl_cons, h4, h2]
    simp [and_assoc]

theorem cutEdges_mem (g : List (List Nat)) (d : Decomposition) : (cutEdges g d).Nodup ∧ ∀ e, e ∈ cutEdges g d ↔ (e.1 < e.2 ∧ Edge g e.1 e.2) ∧
    ¬ ∃ comp ∈ d, ∃ bi ∈ comp, ∃ ch ∈ bi, ∃ p ∈ adj ch, e = norm p := by
  obtain ⟨h1, h2⟩ := allEdges_spec g 0 [] (by simp)
  have h := foldl_erase (fun c (comp : Comp) => comp.foldl (fun c bi => bi.foldl (fun c ch => eraseChain ch c) c) c) (fun comp e => ∃ bi ∈ comp, ∃ ch ∈ bi, ∃ p ∈ adj ch, e = norm p)
    (fun c comp hc => foldl_erase (fun c (bi : List (List Nat)) => bi.foldl (fun c ch => eraseChain ch c) c) (fun bi e => ∃ ch ∈ bi, ∃ p ∈ adj ch, e = norm p)
      (fun c bi hc => foldl_erase (fun c ch => eraseChain ch c) (fun ch e => ∃ p ∈ adj ch, e = norm p) (fun c ch hc => by
        obtain ⟨k1, k2⟩ := eraseChain_spec ch c hc
        refine ⟨k1, fun e => ?_⟩
        rw [k2]
        simp) bi c hc) comp c hc) d _ h1
  refine ⟨h.1, fun e => ?_⟩
  unfold cutEdges
  rw [h.2, h2]
  simp

theorem inZ_iff {Z : List (Nat × Comp)} {p : Nat × Nat} : InZ Z p ↔ ∃ comp ∈ Z.map Prod.snd, ∃ bi ∈ comp, ∃ ch ∈ bi, p ∈ adj ch := by
  unfold InZ
  constructor
  · rintro ⟨z, hz, ch, hch, h⟩
    obtain ⟨bi, h1, h2⟩ := List.mem_flatten.mp hch
    exact ⟨z.2, List.mem_map_of_mem hz, bi, h1, ch, h2, h⟩
  · rintro ⟨comp, hc, bi, h1, ch, h2, h⟩
    obtain ⟨z, hz, rfl⟩ := List.mem_map.mp hc
    exact ⟨z, hz, ch, List.mem_flatten.mpr ⟨bi, h1, h2⟩, h⟩

theorem cutEdges_bridge {par : Nat → Int} {A : Nat → Nat → Prop} {ix : Nat → Nat} {Z : List (Nat × Comp)} {bid : Nat → Int} {done : List (Nat × Nat)} {m : Nat}
    (D : DT g par A ix) (I : Inv g par A ix done Z bid m) (hc : ∀ s d, Unit' g par A s d → (s, d) ∈ done) (u v : Nat) :
    (u, v) ∈ cutEdges g (Z.map Prod.snd) ↔ u < v ∧ Bridge g u v := by
  rw [(cutEdges_mem g _).2]
  have hex : (∃ comp ∈ Z.map Prod.snd, ∃ bi ∈ comp, ∃ ch ∈ bi, ∃ p ∈ adj ch, (u, v) = norm p) ↔ ∃ p, InZ Z p ∧ (u, v) = norm p := by
    constructor
    · rintro ⟨comp, h1, bi, h2, ch, h3, p, h4, h5⟩
      exact ⟨p, inZ_iff.mpr ⟨comp, h1, bi, h2, ch, h3, h4⟩, h5⟩
    · rintro ⟨p, h, h5⟩
      obtain ⟨comp, h1, bi, h2, ch, h3, h4⟩ := inZ_iff.mp h
      exact ⟨comp, h1, bi, h2, ch, h3, p, h4, h5⟩
  rw [hex]
  have key : ∀ a b, A a b → a ≠ b → Edge g a b → ¬ InZ Z (a, b) → ¬ InZ Z (b, a) → Bridge g b a := by
    intro a b h1 h2 h3 h4 h5
    by_cases hp : par b = a
    · refine tree_bridge D (D.ltr h1) hp (fun s d U c1 c2 => ?_)
      by_contra hne
      exact h5 (I.a3 b a ⟨(s, d), hc s d U, c1, hne, c2⟩ hp)
    · exact absurd (I.a2 _ (hc a b ⟨h3, h1, h2, hp⟩)) h4
  constructor
  · rintro ⟨⟨h1, h2⟩, h3⟩
    simp only at h1 h2
    have e1 : ¬ InZ Z (u, v) := fun h => h3 ⟨_, h, by unfold norm; rw [if_neg (by simp; omega)]⟩
    have e2 : ¬ InZ Z (v, u) := fun h => h3 ⟨_, h, by unfold norm; rw [if_pos (by simp; omega)]⟩
    refine ⟨h1, ?_⟩
    rcases D.edge h2 with h | h
    · exact (key u v h (by omega) h2 e1 e2).symm D
    · exact key v u h (by omega) (D.sym _ _ h2) e2 e1
  · rintro ⟨h1, h2⟩
    refine ⟨⟨h1, h2.1⟩, ?_⟩
    rintro ⟨⟨a, b⟩, h3, h4⟩
    have hb : Bridge g a b := by
      unfold norm at h4
      split at h4
      · cases h4; exact h2.symm D
      · cases h4; exact h2
    rcases I.a1 _ h3 with h | ⟨k1, ⟨s, d⟩, k2, k3, k4, k5⟩
    · exact unit_not_bridge D (I.src _ _ h).1 hb
    · exact tree_not_bridge D (I.src _ _ k2).1 k5 k3 (Ne.symm k4) k1 hb

/-- `chain_decomposition` and `cut_edges`: every bridge exactly once, with its smaller end first, and nothing else. -/
theorem C109_cut_edges (hg : Valid g) (hsym : ∀ x y, Edge g x y → Edge g y x) :
    ∃ d fuel0, (∀ fuel ≥ fuel0, chainDecomposition fuel g = some d) ∧ (cutEdges g d).Nodup ∧ ∀ u v, (u, v) ∈ cutEdges g d ↔ u < v ∧ Bridge g u v := by
  obtain ⟨par, A, ix, Z, bid, done, m, D, I, hc, fuel0, h⟩ := chainDecomposition_spec hg hsym
  exact ⟨_, fuel0, h, (cutEdges_mem g _).1, cutEdges_bridge D I hc⟩

/-- The chains: they run along edges, every edge that is not a bridge is in one of them, in one direction or the other, and the first chain of every group is a cycle. -/
theorem C109_chains (hg : Valid g) (hsym : ∀ x y, Edge g x y → Edge g y x) :
    ∃ d fuel0, (∀ fuel ≥ fuel0, chainDecomposition fuel g = some d) ∧
      (∀ comp ∈ d, ∀ bi ∈ comp, ∀ ch ∈ bi, ch.IsChain (fun x y => Edge g x y ∧ ¬ Bridge g x y)) ∧
      (∀ u v, Edge g u v → ¬ Bridge g u v → u ≠ v → ∃ comp ∈ d, ∃ bi ∈ comp, ∃ ch ∈ bi, [u, v] <:+: ch ∨ [v, u] <:+: ch) ∧
      ∀ comp ∈ d, ∀ bi ∈ comp, ∃ s l chs, bi = (s :: l ++ [s]) :: chs ∧ l ≠ [] := by
  obtain ⟨par, A, ix, Z, bid, done, m, D, I, hc, fuel0, h⟩ := chainDecomposition_spec hg hsym
  refine ⟨_, fuel0, h, ?_, ?_, ?_⟩
  · have hch : ∀ (ch : List Nat) (P : Nat → Nat → Prop), (∀ p ∈ adj ch, P p.1 p.2) → ch.IsChain P := by
      intro ch P
      induction ch with
      | nil => simp
      | cons a ch ih =>
        cases ch with
        | nil => simp
        | cons b ch =>
          intro hp
          rw [adj] at hp
          exact List.isChain_cons_cons.mpr ⟨hp _ List.mem_cons_self, ih (fun p h => hp p (List.mem_cons_of_mem _ h))⟩
    intro comp h1 bi h2 ch h3
    refine hch ch _ (fun p hp => ?_)
    obtain ⟨a, b⟩ := p
    rcases I.a1 _ (inZ_iff.mpr ⟨comp, h1, bi, h2, ch, h3, hp⟩) with h | ⟨k1, ⟨s, d⟩, k2, k3, k4, k5⟩
    · exact ⟨(I.src _ _ h).1.edge, unit_not_bridge D (I.src _ _ h).1⟩
    · exact ⟨D.sym _ _ (D.parent (D.ltl k5) k1).2.1, tree_not_bridge D (I.src _ _ k2).1 k5 k3 (Ne.symm k4) k1⟩
  · intro u v he hb huv
    have hin : ∀ (ch : List Nat) (a b : Nat), (a, b) ∈ adj ch → [a, b] <:+: ch := by
      intro ch a b
      induction ch with
      | nil => simp [adj]
      | cons x ch ih =>
        cases ch with
        | nil => simp [adj]
        | cons y ch =>
          rw [adj, List.mem_cons]
          rintro (h | h)
          · cases h; exact ⟨[], ch, rfl⟩
          · exact (ih h).trans ⟨[x], [], by simp⟩
    have hnot : InZ Z (u, v) ∨ InZ Z (v, u) := by
      have hn : ¬ (norm (u, v) ∈ cutEdges g (Z.map Prod.snd)) := by
        unfold norm
        split
        · rw [cutEdges_bridge D I hc]; exact fun h => hb (h.2.symm D)
        · rw [cutEdges_bridge D I hc]; exact fun h => hb h.2
      rw [(cutEdges_mem g _).2] at hn
      have hl : (norm (u, v)).1 < (norm (u, v)).2 ∧ Edge g (norm (u, v)).1 (norm (u, v)).2 := by
        unfold norm
        split
        · rename_i h; exact ⟨h, hsym _ _ he⟩
        · rename_i h; simp only at h ⊢; exact ⟨by omega, he⟩
      have hn := not_not.mp (fun h => hn ⟨hl, h⟩)
      obtain ⟨comp, h1, bi, h2, ch, h3, ⟨a, b⟩, h4, h5⟩ := hn
      have hz := inZ_iff.mpr ⟨comp, h1, bi, h2, ch, h3, h4⟩
      unfold norm at h5
      simp only at h5
      split at h5 <;> split at h5 <;> cases h5 <;> [exact Or.inl hz; exact Or.inr hz; exact Or.inr hz; exact Or.inl hz]
    rcases hnot with h | h
    · obtain ⟨comp, h1, bi, h2, ch, h3, h4⟩ := inZ_iff.mp h
      exact ⟨comp, h1, bi, h2, ch, h3, Or.inl (hin _ _ _ h4)⟩
    · obtain ⟨comp, h1, bi, h2, ch, h3, h4⟩ := inZ_iff.mp h
      exact ⟨comp, h1, bi, h2, ch, h3, Or.inr (hin _ _ _ h4)⟩
  · intro comp h1 bi h2
    obtain ⟨z, hz, rfl⟩ := List.mem_map.mp h1
    obtain ⟨s, y, ⟨l, hl⟩, _⟩ := I.tops z hz bi.head? (List.mem_map_of_mem h2)
    cases bi with
    | nil => simp at hl
    | cons ch chs =>
      rw [List.head?_cons] at hl
      exact ⟨s, l ++ [y], chs, by rw [Option.some.inj hl]; simp, by simp⟩

/-! ### Articulation points -/

theorem markEdges_spec (n : Nat) : ∀ (ve : List (Nat × Nat)) (c : List Nat) (f : Nat → Nat), (∀ e ∈ ve, e.1 < n ∧ e.2 < n) → Rep c n f →
    ∃ c' f', markEdges ve c = some c' ∧ Rep c' n f' ∧ ∀ x, f' x ≠ 0 ↔ f x ≠ 0 ∨ ∃ e ∈ ve, x = e.1 ∨ x = e.2 := by
  intro ve
  induction ve with
  | nil => intro c f _ h; exact ⟨c, f, rfl, h, by simp⟩
  | cons e ve ih =>
    intro c f hl h
    obtain ⟨c', f', e1, h1, h2⟩ := ih _ _ (fun x hx => hl x (by simp [hx])) ((h.set e.2 1).set e.1 1)
    refine ⟨c', f', ?_, h1, fun x => ?_⟩
    · rw [markEdges, h.wr (hl e (by simp)).2, Option.bind_some, (h.set e.2 1).wr (hl e (by simp)).1, Option.bind_some, e1]
    · rw [h2]
      by_cases k1 : x = e.1
      · rw [k1, Function.update_self]; simp
      · rw [Function.update_of_ne k1]
        by_cases k2 : x = e.2
        · rw [k2, Function.update_self]; simp
        · rw [Function.update_of_ne k2]
          simp [k1, k2]

theorem markTops_spec (n : Nat) : ∀ (bis : Comp) (c : List Nat) (f : Nat → Nat), (∀ h ∈ bis.map List.head?, ∃ s y, TopS h s y ∧ s < n) → Rep c n f →
    ∃ c' f', markTops bis c = some c' ∧ Rep c' n f' ∧ ∀ x, f' x ≠ 0 ↔ f x ≠ 0 ∨ ∃ h ∈ bis.map List.head?, ∃ y, TopS h x y := by
  intro bis
  induction bis with
  | nil => intro c f _ h; exact ⟨c, f, rfl, h, by simp⟩
  | cons bi bis ih =>
    intro c f hl h
    obtain ⟨s, y, ht, hs⟩ := hl bi.head? (by simp)
    obtain ⟨c', f', e1, h1, h2⟩ := ih _ _ (fun x hx => hl x (by rw [List.map_cons]; exact List.mem_cons_of_mem _ hx)) (h.set s 1)
    refine ⟨c', f', ?_, h1, fun x => ?_⟩
    · obtain ⟨l, hl⟩ := ht
      cases bi with
      | nil => simp at hl
      | cons ch chs =>
        rw [List.head?_cons] at hl
        rw [Option.some.inj hl, markTops]
        simp only [rd, List.getElem?_cons_zero, Option.bind_some, List.cons_append]
        rw [h.wr hs, Option.bind_some, e1]
    · rw [h2]
      by_cases k1 : x = s
      · rw [k1, Function.update_self]
        simp only [ne_eq, one_ne_zero, not_false_eq_true, true_or, true_iff]
        exact Or.inr ⟨bi.head?, by simp, y, ht⟩
      · rw [Function.update_of_ne k1, List.map_cons]
        simp only [List.mem_cons, exists_eq_or_imp]
        refine or_congr Iff.rfl ⟨Or.inr, fun h => h.elim (fun ⟨y', hy'⟩ => absurd (TopS.unique hy' ht).1 k1) id⟩

theorem markComponents_spec (n : Nat) : ∀ (d : Decomposition) (c : List Nat) (f : Nat → Nat), (∀ comp ∈ d, ∀ h ∈ comp.map List.head?, ∃ s y, TopS h s y ∧ s < n) → Rep c n f →
    ∃ c' f', markComponents d c = some c' ∧ Rep c' n f' ∧ ∀ x, f' x ≠ 0 ↔ f x ≠ 0 ∨ ∃ comp ∈ d, ∃ h ∈ (comp.map List.head?).drop 1, ∃ y, TopS h x y := by
  intro d
  induction d with
  | nil => intro c f _ h; exact ⟨c, f, rfl, h, by simp⟩
  | cons comp d ih =>
    intro c f hl h
    obtain ⟨c1, f1, e1, h1, h2⟩ := markTops_spec n (comp.drop 1) c f (fun x hx => hl comp (by simp) x (by rw [List.map_drop] at hx; exact List.mem_of_mem_drop hx)) h
    obtain ⟨c', f', e2, h3, h4⟩ := ih c1 f1 (fun x hx => hl x (by simp [hx])) h1
    refine ⟨c', f', ?_, h3, fun x => ?_⟩
    · rw [markComponents, e1, Option.bind_some, e2]
    · rw [h4, h2, List.map_drop]
      simp [or_assoc]

theorem unmarkLeaves_spec {c : List Nat} {f : Nat → Nat} (h : Rep c g.length f) : ∃ c' f', unmarkLeaves g c = some c' ∧ Rep c' g.length f' ∧
    ∀ x, x < g.length → (f' x ≠ 0 ↔ f x ≠ 0 ∧ ∃ vs, g[x]? = some vs ∧ 2 ≤ vs.length) := by
  obtain ⟨c', e, f', h1, h2⟩ := forUp_spec (body := fun u c => (rd g u).bind fun vs => if vs.length < 2 then wr c u 0 else some c)
    (fun i c => ∃ f', Rep c g.length f' ∧ ∀ x, x < g.length → (f' x ≠ 0 ↔ f x ≠ 0 ∧ (x < i → ∃ vs, g[x]? = some vs ∧ 2 ≤ vs.length))) (a := 0) (n := g.length) (Nat.zero_le _)
    ⟨f, h, fun x _ => by simp⟩ (fun i c _ hi ⟨f', h1, h2⟩ => by
      obtain ⟨vs, hvs⟩ : ∃ vs, g[i]? = some vs := ⟨_, List.getElem?_eq_getElem hi⟩
      rw [show rd g i = some vs from hvs, Option.bind_some]
      by_cases hl : vs.length < 2
      · rw [if_pos hl]
        refine ⟨_, h1.wr hi 0, _, h1.set i 0, fun x hx => ?_⟩
        by_cases hxi : x = i
        · subst hxi
          rw [Function.update_self]
          simp only [ne_eq, not_true_eq_false, hvs, Option.some.injEq, exists_eq_left', false_iff, not_and]
          intro _ hc
          have := hc (by omega)
          omega
        · rw [Function.update_of_ne hxi, h2 x hx]
          exact and_congr Iff.rfl ⟨fun h k => h (by omega), fun h k => h (by omega)⟩
      · rw [if_neg hl]
        refine ⟨_, rfl, f', h1, fun x hx => ?_⟩
        rw [h2 x hx]
        refine and_congr Iff.rfl ⟨fun h k => ?_, fun h k => h (by omega)⟩
        by_cases hxi : x = i
        · subst hxi; exact ⟨vs, hvs, by omega⟩
        · exact h (by omega))
  refine ⟨c', f', e, h1, fun x hx => ?_⟩
  rw [h2 x hx]
  exact and_congr Iff.rfl ⟨fun h => h hx, fun h _ => h⟩

theorem collect_spec {n : Nat} {c : List Nat} {f : Nat → Nat} (h : Rep c n f) : ∃ l, collect n c = some l ∧ l.Pairwise (· < ·) ∧ ∀ x, x ∈ l ↔ x < n ∧ f x ≠ 0 := by
  obtain ⟨l, e, h1, h2⟩ := forUp_spec (body := fun u cutv => (rd c u).map fun b => if b ≠ 0 then cutv ++ [u] else cutv)
    (fun i l => l.Pairwise (· < ·) ∧ ∀ x, x ∈ l ↔ x < i ∧ f x ≠ 0) (a := 0) (n := n) (s := []) (Nat.zero_le _) ⟨by simp, by simp⟩ (fun i l _ hi ⟨h1, h2⟩ => by
      refine ⟨if f i ≠ 0 then l ++ [i] else l, by rw [h.rd hi]; rfl, ?_⟩
      by_cases hf : f i ≠ 0
      · rw [if_pos hf]
        refine ⟨?_, fun x => ?_⟩
        · rw [List.pairwise_append]
          exact ⟨h1, by simp, fun a ha b hb => by rw [List.mem_singleton] at hb; rw [hb]; exact ((h2 a).mp ha).1⟩
        · rw [List.mem_append, List.mem_singleton, h2]
          constructor
          · rintro (⟨k1, k2⟩ | rfl)
            · exact ⟨by omega, k2⟩
            · exact ⟨by omega, hf⟩
          · rintro ⟨k1, k2⟩
            by_cases hx : x = i
            · exact Or.inr hx
            · exact Or.inl ⟨by omega, k2⟩
      · rw [if_neg hf]
        refine ⟨h1, fun x => ?_⟩
        rw [h2]
        constructor
        · rintro ⟨k1, k2⟩; exact ⟨by omega, k2⟩
        · rintro ⟨k1, k2⟩
          refine ⟨?_, k2⟩
          have : x ≠ i := by rintro rfl; exact hf k2
          omega)
  exact ⟨l, e, h1, h2⟩

/-- `cut_vertices` on a simple graph: exactly the articulation points, in increasing order, for any list of the bridges. -/
theorem C110_cut_vertices (hg : Valid g) (hsym : ∀ x y, Edge g x y → Edge g y x) (hsimple : ∀ (u : Nat) (vs : List Nat), g[u]? = some vs → vs.Nodup ∧ u ∉ vs) :
    ∃ d fuel0, (∀ fuel ≥ fuel0, chainDecomposition fuel g = some d) ∧
      ∀ ve : List (Nat × Nat), (∀ a b, (a, b) ∈ ve → Bridge g a b) → (∀ a b, Bridge g a b → (a, b) ∈ ve ∨ (b, a) ∈ ve) →
        ∃ l, cutVertices g d ve = some l ∧ l.Pairwise (· < ·) ∧ ∀ c, c ∈ l ↔ Articulation g c := by
  obtain ⟨par, A, ix, Z, bid, done, m, D, I, hc, fuel0, h⟩ := chainDecomposition_spec hg hsym
  refine ⟨_, fuel0, h, fun ve hv1 hv2 => ?_⟩
  obtain ⟨c1, f1, e1, r1, s1⟩ := markEdges_spec g.length ve _ _ (fun e he => by
    have := (hv1 e.1 e.2 he).1
    exact ⟨edge_lt this, hg _ _ this⟩) (Rep.replicate g.length 0)
  obtain ⟨c2, f2, e2, r2, s2⟩ := markComponents_spec g.length (Z.map Prod.snd) c1 f1 (fun comp hcomp x hx => by
    obtain ⟨z, hz, rfl⟩ := List.mem_map.mp hcomp
    obtain ⟨s, y, t1, t2, _⟩ := I.tops z hz x hx
    exact ⟨s, y, t1, D.ltr t2⟩) r1
  obtain ⟨c3, f3, e3, r3, s3⟩ := unmarkLeaves_spec r2
  obtain ⟨l, e4, h4, s4⟩ := collect_spec r3
  refine ⟨l, ?_, h4, fun c => ?_⟩
  · unfold cutVertices
    rw [e1, Option.bind_some, e2, Option.bind_some, e3, Option.bind_some, e4]
  rw [s4]
  have hdeg : ∀ u, (∃ vs, g[u]? = some vs ∧ 2 ≤ vs.length) ↔ ∃ x y, x ≠ y ∧ Edge g u x ∧ Edge g u y := by
    intro u
    constructor
    · rintro ⟨vs, h1, h2⟩
      obtain ⟨k1, k2⟩ := hsimple u vs h1
      match vs, h1, h2, k1 with
      | x :: y :: vs, h1, _, k1 =>
        rw [List.nodup_cons] at k1
        exact ⟨x, y, by rintro rfl; exact k1.1 (by simp), ⟨_, h1, by simp⟩, ⟨_, h1, by simp⟩⟩
    · rintro ⟨x, y, hxy, ⟨vs, h1, h2⟩, vs', h3, h4⟩
      rw [h1] at h3
      cases h3
      refine ⟨vs, h1, ?_⟩
      match vs, h2, h4 with
      | [z], h2, h4 =>
        rw [List.mem_singleton] at h2 h4
        exact absurd (h2.trans h4.symm) hxy
      | _ :: _ :: _, _, _ => simp
  have hbr : ∀ {a b}, Bridge g a b → a ≠ b := by
    rintro a b hb rfl
    exact hb.2 .refl
  have hmark : f2 c ≠ 0 ↔ (∃ w, Bridge g c w) ∨ ∃ z ∈ Z, ∃ h ∈ (z.2.map List.head?).drop 1, ∃ y, TopS h c y := by
    rw [s2, s1]
    refine or_congr ?_ ?_
    · simp only [ne_eq, not_true_eq_false, false_or]
      constructor
      · rintro ⟨⟨a, b⟩, he, hx | hx⟩
        · exact ⟨b, hx ▸ hv1 a b he⟩
        · exact ⟨a, hx ▸ (hv1 a b he).symm D⟩
      · rintro ⟨w, hw⟩
        rcases hv2 c w hw with h | h
        · exact ⟨_, h, Or.inl rfl⟩
        · exact ⟨_, h, Or.inr rfl⟩
    · constructor
      · rintro ⟨comp, hcomp, k⟩
        obtain ⟨z, hz, rfl⟩ := List.mem_map.mp hcomp
        exact ⟨z, hz, k⟩
      · rintro ⟨z, hz, k⟩
        exact ⟨z.2, List.mem_map_of_mem hz, k⟩
  constructor
  · rintro ⟨hcl, hc3⟩
    rw [s3 c hcl, hdeg, hmark] at hc3
    obtain ⟨hm, x, y, hxy, hx, hy⟩ := hc3
    have hloop : ∀ w, Edge g c w → w ≠ c := by
      rintro w ⟨vs, h1, h2⟩ rfl
      exact (hsimple w vs h1).2 h2
    rcases hm with ⟨w, hw⟩ | ⟨z, hz, h, hh, y', ht⟩
    · by_cases hxw : x = w
      · exact bridge_articulation D hw (hbr hw) hy (by rw [← hxw]; exact Ne.symm hxy) (hloop y hy)
      · exact bridge_articulation D hw (hbr hw) hx hxw (hloop x hx)
    · obtain ⟨s, y0, t1, t2, t3, t4, _, _, t7⟩ := I.tops z hz h (List.mem_of_mem_drop hh)
      obtain ⟨rfl, rfl⟩ := TopS.unique t1 ht
      rcases D.up s hcl with ⟨h1, _⟩ | ⟨q, h1, _⟩
      · obtain ⟨y2, k1, k2, k3⟩ := I.b2 z hz h hh s y0 ht h1
        exact root_articulation D t3 k2 (Ne.symm k1) t4 k3 h1
      · exact inner_articulation D t3 t4 h1 t7
  · intro ha
    have hdg := articulation_degree D ha
    obtain ⟨hcl, hcase⟩ := articulation_cases D ha
    refine ⟨hcl, (s3 c hcl).mpr ⟨hmark.mpr ?_, (hdeg c).mpr hdg⟩⟩
    -- a child whose edge is not a bridge starts a chain
    have hchild : ∀ y, y < g.length → par y = c → (∀ s' d, Unit' g par A s' d → A y d → A s' c → s' = c) → Bridge g c y ∨ ∃ z ∈ Z, ∃ h ∈ z.2.map List.head?, TopS h c y := by
      intro y hy hyc hno
      obtain ⟨k1, k2, k3, k4⟩ := D.parent hy hyc
      by_cases hall : ∀ s d, Unit' g par A s d → A s y → A y d → s = y
      · exact Or.inl ((tree_bridge D hy hyc hall).symm D)
      · right
        have hall := hall
        simp only [not_forall] at hall
        obtain ⟨s, d, U, h1, h2, h3⟩ := hall
        have hsc := hno s d U h2 ((k4 s h1).resolve_left h3)
        subst hsc
        rcases I.b5 s d y (hc s d U) hyc h2 with ⟨s', d', c1, c2, c3, c4⟩ | h
        · exact absurd (hno s' d' (I.src _ _ c1).1 c4 c2) c3
        · exact h
    rcases hcase with ⟨hroot, y, y', hne, hy, hy', hp, hp'⟩ | ⟨hnr, y, hy, hp, hno⟩
    · have htop : ∀ s', A s' c → s' = c := fun s' h => root_top D hroot h
      rcases hchild y hy hp (fun s' _ _ _ h => htop s' h) with h | ⟨z, hz, h, hh, ht⟩
      · exact Or.inl ⟨y, h⟩
      rcases hchild y' hy' hp' (fun s' _ _ _ h => htop s' h) with h | ⟨z', hz', h', hh', ht'⟩
      · exact Or.inl ⟨y', h⟩
      right
      have hroot' : ∀ z ∈ Z, ∀ h ∈ z.2.map List.head?, ∀ y, TopS h c y → z.1 = c := by
        intro z hz h hh y ht
        obtain ⟨s, y0, t1, t2, _⟩ := I.tops z hz h hh
        obtain ⟨rfl, _⟩ := TopS.unique t1 ht
        exact htop _ t2
      have hzz : z = z' := by
        have h1 := hroot' z hz h hh y ht
        have h2 := hroot' z' hz' h' hh' y' ht'
        exact List.inj_on_of_nodup_map I.keys hz hz' (h1.trans h2.symm)
      subst hzz
      cases hzl : z.2.map List.head? with
      | nil => rw [hzl] at hh; simp at hh
      | cons h0 hs =>
        rw [hzl] at hh hh'
        rcases List.mem_cons.mp hh with hh | hh
        · rcases List.mem_cons.mp hh' with hh' | hh'
          · rw [hh] at ht
            rw [hh'] at ht'
            exact absurd (TopS.unique ht ht').2 hne
          · exact ⟨z, hz, h', by rw [hzl]; exact hh', y', ht'⟩
        · exact ⟨z, hz, h, by rw [hzl]; exact hh, y, ht⟩
    · rcases hchild y hy hp hno with h | ⟨z, hz, h, hh, ht⟩
      · exact Or.inl ⟨y, h⟩
      cases hzl : z.2.map List.head? with
      | nil => rw [hzl] at hh; simp at hh
      | cons h0 hs =>
        rw [hzl] at hh
        rcases List.mem_cons.mp hh with hh | hh
        · rw [hh] at ht
          rcases I.b3 z hz h0 (by rw [hzl]; rfl) c y ht with h1 | h1
          · exact absurd h1 hnr
          · rcases D.up c hcl with ⟨k, _⟩ | ⟨q, k, _⟩
            · exact absurd k hnr
            · exact Or.inl ⟨q, tree_bridge D hcl k (fun s d U k1 k2 => h1 s d U k1 k2)⟩
        · exact Or.inr ⟨z, hz, h, by rw [hzl]; exact hh, y, ht⟩

/-- The three calls together, as `biconnectivity` makes them. -/
theorem C110_biconnectivity (hg : Valid g) (hsym : ∀ x y, Edge g x y → Edge g y x) (hsimple : ∀ (u : Nat) (vs : List Nat), g[u]? = some vs → vs.Nodup ∧ u ∉ vs) :
    ∃ d l fuel0, (∀ fuel ≥ fuel0, chainDecomposition fuel g = some d) ∧ (∀ u v, (u, v) ∈ cutEdges g d ↔ u < v ∧ Bridge g u v) ∧
      cutVertices g d (cutEdges g d) = some l ∧ l.Pairwise (· < ·) ∧ ∀ c, c ∈ l ↔ Articulation g c := by
  obtain ⟨d, f1, h1, _, h2⟩ := C109_cut_edges hg hsym
  obtain ⟨d', f2, h3, h4⟩ := C110_cut_vertices hg hsym hsimple
  have : d = d' := Option.some.inj ((h1 (max f1 f2) (by omega)).symm.trans (h3 (max f1 f2) (by omega)))
  subst this
  have hbs : ∀ {a b}, Bridge g a b → Bridge g b a := fun {a b} hb => by
    obtain ⟨par, A, ix, Z, bid, done, m, D, _⟩ := chainDecomposition_spec hg hsym
    exact hb.symm D
  obtain ⟨l, h5, h6, h7⟩ := h4 (cutEdges g d) (fun a b h => ((h2 a b).mp h).2) (fun a b h => by
    rcases Nat.lt_trichotomy a b with hab | rfl | hab
    · exact Or.inl ((h2 a b).mpr ⟨hab, h⟩)
    · exact absurd .refl h.2
    · exact Or.inr ((h2 b a).mpr ⟨hab, hbs h⟩))
  exact ⟨d, l, f1, h1, h2, h5, h6, h7⟩

end

/-! ### Examples -/

/-- Two triangles, a bridge between them, a leaf and a lone node. -/
def g1 : List (List Nat) := [[1, 2], [0, 2, 3], [0, 1], [1, 4, 5], [3, 5], [3, 4, 6], [5], []]

example : chainDecomposition 100 g1 = some [[[[0, 2, 1, 0]], [[3, 5, 4, 3]]], []] ∧ cutEdges g1 [[[[0, 2, 1, 0]], [[3, 5, 4, 3]]], []] = [(1, 3), (5, 6)]
    ∧ cutVertices g1 [[[[0, 2, 1, 0]], [[3, 5, 4, 3]]], []] [(1, 3), (5, 6)] = some [1, 3, 5] := by decide +kernel

theorem edge_all (g : List (List Nat)) (P : Nat → Nat → Prop) (h : ∀ u < g.length, ∀ v ∈ g.getD u [], P u v) (u v : Nat) (he : Edge g u v) : P u v := by
  obtain ⟨l, h1, h2⟩ := he
  refine h u (List.getElem?_eq_some_iff.mp h1).1 v ?_
  rw [List.getD_eq_getElem?_getD, h1]
  exact h2

example : Valid g1 ∧ (∀ x y, Edge g1 x y → Edge g1 y x) ∧ ∀ (u : Nat) (vs : List Nat), g1[u]? = some vs → vs.Nodup ∧ u ∉ vs := by
  refine ⟨fun u v h => edge_all g1 (fun _ v => v < g1.length) (by decide +kernel) u v h, fun u v h => ?_, fun u vs h => ?_⟩
  · have := edge_all g1 (fun u v => v < g1.length ∧ u ∈ g1.getD v []) (by decide +kernel) u v h
    refine ⟨g1.getD v [], ?_, this.2⟩
    rw [List.getD_eq_getElem?_getD, List.getElem?_eq_getElem this.1]; rfl
  · have key : ∀ u < g1.length, (g1.getD u []).Nodup ∧ u ∉ g1.getD u [] := by decide +kernel
    have hu := (List.getElem?_eq_some_iff.mp h).1
    have := key u hu
    rw [List.getD_eq_getElem?_getD, h] at this
    exact this

/-- Two edges between the same nodes count as one: the pair is reported as a bridge although it is on a cycle of length two, and both ends of it as articulation points although there is no third node. -/
theorem C109_parallel_edges : chainDecomposition 100 [[1, 1], [0, 0]] = some [[]] ∧ cutEdges [[1, 1], [0, 0]] [[]] = [(0, 1)] ∧ cutVertices [[1, 1], [0, 0]] [[]] [(0, 1)] = some [0, 1] := by
  decide +kernel

/-- A loop makes a leaf an articulation point. -/
theorem C110_loop : chainDecomposition 100 [[1, 0], [0]] = some [[]] ∧ cutEdges [[1, 0], [0]] [[]] = [(0, 1)] ∧ cutVertices [[1, 0], [0]] [[]] [(0, 1)] = some [0] ∧ ¬ Articulation [[1, 0], [0]] 0 := by
  refine ⟨by decide +kernel, by decide +kernel, by decide +kernel, ?_⟩
  rintro ⟨a, b, ha, hb, hab, hno⟩
  have hlt : ∀ {x y}, Edge [[1, 0], [0]] x y → x < 2 ∧ y < 2 := fun {x y} h => ⟨edge_lt h, edge_all [[1, 0], [0]] (fun _ v => v < 2) (by decide) x y h⟩
  have : a = b := by
    rcases ReflTransGen.cases_head hab with h | ⟨c, h1, _⟩
    · exact h
    · rcases ReflTransGen.cases_tail hab with h | ⟨c', _, h2⟩
      · exact h.symm
      · have := (hlt h1).1; have := (hlt h2).2; omega
  subst this
  exact hno .refl

end Altruct.Chain
