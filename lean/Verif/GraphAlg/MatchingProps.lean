/-
Maximum bipartite matching (C101).
-/
import Mathlib.Algebra.BigOperators.Group.Finset.Sigma
import Verif.GraphAlg.DinicProps

namespace Altruct.GraphAlg

/-- No two of the edges share a node; the edges lead from one side to the other. -/
structure IsMatching (M : List (Nat × Nat)) : Prop where
  left : (M.map Prod.fst).Nodup
  right : (M.map Prod.snd).Nodup

/-- The edges lead from the nodes of `left` to the others. -/
structure Bipartite (nodes : Nat) (left : Nat → Bool) (edges : List (Nat × Nat)) : Prop where
  lt : ∀ e ∈ edges, e.1 < nodes ∧ e.2 < nodes
  side : ∀ e ∈ edges, left e.1 = true ∧ left e.2 = false

/-- The network has an edge from `a` to `b`. -/
def BmEdge (src sink : Nat) (edges : List (Nat × Nat)) (a b : Nat) : Prop :=
  (a = src ∧ ∃ e ∈ edges, e.1 = b) ∨ (a, b) ∈ edges ∨ (b = sink ∧ ∃ e ∈ edges, e.2 = a)

theorem ite3 {P Q R : Prop} [Decidable P] [Decidable Q] [Decidable R] (z : Int) :
    (P ∨ Q ∨ R → (if R then 1 else if Q then 1 else if P then 1 else z) = 1) ∧ (¬ (P ∨ Q ∨ R) → (if R then 1 else if Q then 1 else if P then 1 else z) = z) := by
  by_cases hR : R
  · exact ⟨fun _ => if_pos hR, fun h => absurd (Or.inr (Or.inr hR)) h⟩
  · rw [if_neg hR]
    by_cases hQ : Q
    · exact ⟨fun _ => if_pos hQ, fun h => absurd (Or.inr (Or.inl hQ)) h⟩
    · rw [if_neg hQ]
      exact ⟨fun h => if_pos (h.resolve_right (fun h => h.elim hQ hR)), fun h => if_neg (fun hp => h (Or.inl hp))⟩

theorem bmCap_spec {n src sink : Nat} (hsrc : src < n) (hsink : sink < n) : ∀ (edges : List (Nat × Nat)) (cap : List (List Int)) (c : Nat → Nat → Int), Mat cap n c →
    (∀ e ∈ edges, e.1 < n ∧ e.2 < n) → ∃ cap' c', bmCap src sink edges cap = some cap' ∧ Mat cap' n c' ∧ ∀ a b, (BmEdge src sink edges a b → c' a b = 1) ∧
      (¬ BmEdge src sink edges a b → c' a b = c a b) := by
  intro edges
  induction edges with
  | nil => intro cap c hc _; exact ⟨cap, c, rfl, hc, fun a b => ⟨fun h => by simp [BmEdge] at h, fun _ => rfl⟩⟩
  | cons e es ih =>
    intro cap c hc hlt
    obtain ⟨u, v⟩ := e
    obtain ⟨hu, hv⟩ := hlt _ List.mem_cons_self
    simp only at hu hv
    obtain ⟨m1, e1, h1⟩ := hc.wr2 hsrc hu 1
    obtain ⟨m2, e2, h2⟩ := h1.wr2 hu hv 1
    obtain ⟨m3, e3, h3⟩ := h2.wr2 hv hsink 1
    obtain ⟨cap', c', e4, h4, h5⟩ := ih m3 _ h3 (fun e he => hlt e (List.mem_cons_of_mem _ he))
    refine ⟨cap', c', by rw [bmCap, e1, Option.bind_some, e2, Option.bind_some, e3, Option.bind_some, e4], h4, fun a b => ?_⟩
    have hiff : BmEdge src sink ((u, v) :: es) a b ↔ ((a = src ∧ b = u) ∨ (a = u ∧ b = v) ∨ (a = v ∧ b = sink)) ∨ BmEdge src sink es a b := by
      constructor
      · rintro (⟨h1, e, he, h2⟩ | h1 | ⟨h1, e, he, h2⟩)
        · rcases List.mem_cons.mp he with rfl | he
          · exact Or.inl (Or.inl ⟨h1, h2.symm⟩)
          · exact Or.inr (Or.inl ⟨h1, e, he, h2⟩)
        · rcases List.mem_cons.mp h1 with h1 | h1
          · cases h1; exact Or.inl (Or.inr (Or.inl ⟨rfl, rfl⟩))
          · exact Or.inr (Or.inr (Or.inl h1))
        · rcases List.mem_cons.mp he with rfl | he
          · exact Or.inl (Or.inr (Or.inr ⟨h2.symm, h1⟩))
          · exact Or.inr (Or.inr (Or.inr ⟨h1, e, he, h2⟩))
      · rintro ((⟨h1, h2⟩ | ⟨h1, h2⟩ | ⟨h1, h2⟩) | (⟨h1, e, he, h2⟩ | h1 | ⟨h1, e, he, h2⟩))
        · exact Or.inl ⟨h1, _, List.mem_cons_self, h2.symm⟩
        · exact Or.inr (Or.inl (by rw [h1, h2]; exact List.mem_cons_self))
        · exact Or.inr (Or.inr ⟨h2, _, List.mem_cons_self, h1.symm⟩)
        · exact Or.inl ⟨h1, e, List.mem_cons_of_mem _ he, h2⟩
        · exact Or.inr (Or.inl (List.mem_cons_of_mem _ h1))
        · exact Or.inr (Or.inr ⟨h1, e, List.mem_cons_of_mem _ he, h2⟩)
    by_cases hes : BmEdge src sink es a b
    · exact ⟨fun _ => (h5 a b).1 hes, fun h => absurd (hiff.mpr (Or.inr hes)) h⟩
    · rw [(h5 a b).2 hes, hiff]
      have h6 := ite3 (P := a = src ∧ b = u) (Q := a = u ∧ b = v) (R := a = v ∧ b = sink) (c a b)
      exact ⟨fun h => h6.1 (h.resolve_right hes), fun h => h6.2 (fun hp => h (Or.inl hp))⟩

theorem bmSelect_spec {n : Nat} {flow : List (List Int)} {x : Nat → Nat → Int} (hx : Mat flow n x) : ∀ edges : List (Nat × Nat), (∀ e ∈ edges, e.1 < n ∧ e.2 < n) →
    bmSelect flow edges = some (edges.filter (fun e => decide (x e.1 e.2 ≠ 0))) := by
  intro edges
  induction edges with
  | nil => intro _; rfl
  | cons e es ih =>
    intro hlt
    obtain ⟨u, v⟩ := e
    obtain ⟨hu, hv⟩ := hlt _ List.mem_cons_self
    rw [bmSelect, hx.rd2 hu hv, Option.bind_some, ih (fun e he => hlt e (List.mem_cons_of_mem _ he)), Option.map_some]
    by_cases h : x u v = 0
    · rw [if_neg (by simpa using h), List.filter_cons_of_neg (by simpa using h)]
    · rw [if_pos h, List.filter_cons_of_pos (by simpa using h)]

/-- A matching does not exceed a cut. -/
theorem matching_le_cut {nodes : Nat} {edges : List (Nat × Nat)} {c : Nat → Nat → Int} (hlt : ∀ e ∈ edges, e.1 < nodes ∧ e.2 < nodes)
    (hc : ∀ a b, BmEdge nodes (nodes + 1) edges a b → c a b = 1) (hc0 : ∀ a b, 0 ≤ c a b) {S : Finset Nat} (h1 : nodes ∈ S) (h2 : nodes + 1 ∉ S)
    {M : List (Nat × Nat)} (hM : M ⊆ edges) (hm : IsMatching M) : (M.length : Int) ≤ cutCap (nodes + 2) c S := by
  let φ : Nat × Nat → Nat × Nat := fun e => if e.1 ∈ S then (if e.2 ∈ S then (e.2, nodes + 1) else e) else (nodes, e.1)
  have hnd : M.Nodup := hm.left.of_map _
  have hφ : ∀ e ∈ M, φ e ∈ S ×ˢ (Finset.range (nodes + 2) \ S) ∧ c (φ e).1 (φ e).2 = 1 := by
    intro e he
    have hl := hlt e (hM he)
    simp only [φ, Finset.mem_product, Finset.mem_sdiff, Finset.mem_range]
    split_ifs with k1 k2
    · exact ⟨⟨k2, by show nodes + 1 < _; omega, h2⟩, hc _ _ (Or.inr (Or.inr ⟨rfl, e, hM he, rfl⟩))⟩
    · exact ⟨⟨k1, by omega, k2⟩, hc _ _ (Or.inr (Or.inl (hM he)))⟩
    · exact ⟨⟨h1, by show e.1 < _; omega, k1⟩, hc _ _ (Or.inl ⟨rfl, e, hM he, rfl⟩)⟩
  have hinj : Set.InjOn φ (M.toFinset : Set (Nat × Nat)) := by
    intro e he e' he' heq
    rw [Finset.mem_coe, List.mem_toFinset] at he he'
    have hl := hlt e (hM he)
    have hl' := hlt e' (hM he')
    have fst_inj : e.1 = e'.1 → e = e' := fun h => List.inj_on_of_nodup_map hm.left he he' h
    have snd_inj : e.2 = e'.2 → e = e' := fun h => List.inj_on_of_nodup_map hm.right he he' h
    simp only [φ] at heq
    split_ifs at heq with k1 k2 k3 k4 k5 k6 k7 k8
    all_goals first
      | exact heq
      | (rw [Prod.ext_iff] at heq; simp only at heq; first | exact fst_inj heq.2 | exact snd_inj heq.1 | (exfalso; omega))
  have e1 : cutCap (nodes + 2) c S = ∑ p ∈ S ×ˢ (Finset.range (nodes + 2) \ S), c p.1 p.2 := by
    rw [cutCap, Finset.sum_product]
  have e2 : ∑ p ∈ M.toFinset.image φ, c p.1 p.2 = M.length := by
    rw [Finset.sum_image hinj, Finset.sum_congr rfl (fun e he => (hφ e (List.mem_toFinset.mp he)).2), Finset.sum_const, List.toFinset_card_of_nodup hnd]
    simp
  rw [e1, ← e2]
  refine Finset.sum_le_sum_of_subset_of_nonneg ?_ (fun p _ _ => hc0 _ _)
  intro p hp
  obtain ⟨e, he, rfl⟩ := Finset.mem_image.mp hp
  exact (hφ e (List.mem_toFinset.mp he)).1

/-- For distinct edges between two sides the result is a matching, made of edges in the order given, and no matching has more edges. -/
theorem C101_bipartite_matching {nodes : Nat} {left : Nat → Bool} {edges : List (Nat × Nat)} (h : Bipartite nodes left edges) (hnd : edges.Nodup) :
    ∃ sel, (∃ fuel0, ∀ fuel, fuel0 ≤ fuel → bipartiteMatching fuel nodes edges = some sel) ∧ sel.Sublist edges ∧ IsMatching sel
      ∧ ∀ M, M ⊆ edges → IsMatching M → M.length ≤ sel.length := by
  obtain ⟨cap, c, e1, hc, hcs⟩ := bmCap_spec (n := nodes + 2) (src := nodes) (sink := nodes + 1) (by omega) (by omega) edges _ _ (Mat.replicate (nodes + 2) 0)
    (fun e he => by have := h.lt e he; omega)
  have hc0 : ∀ a b, 0 ≤ c a b := fun a b => by
    by_cases hb : BmEdge nodes (nodes + 1) edges a b
    · rw [(hcs a b).1 hb]; omega
    · rw [(hcs a b).2 hb]
  have hc1 : ∀ a b, c a b ≤ 1 := fun a b => by
    by_cases hb : BmEdge nodes (nodes + 1) edges a b
    · rw [(hcs a b).1 hb]
    · rw [(hcs a b).2 hb]; omega
  obtain ⟨flow, x, f, ⟨fuel0, hrun⟩, hx, hfl, hval, _, S, s1, s2, s3, s4⟩ := C100_max_flow hc 2147483647 (src := nodes) (sink := nodes + 1) (by omega) (by omega) (by omega)
    (fun u v _ _ => hc0 u v) (fun u v _ _ => by have := hc1 u v; omega)
  have hx0 : ∀ a b, a < nodes + 2 → b < nodes + 2 → ¬ BmEdge nodes (nodes + 1) edges a b → x a b = 0 := fun a b ha hb hn => by
    have k1 := hfl.le a b ha hb
    have k2 := hfl.nonneg a b ha hb
    rw [(hcs a b).2 hn] at k1
    omega
  have hx1 : ∀ a b, a < nodes + 2 → b < nodes + 2 → x a b = 0 ∨ x a b = 1 := fun a b ha hb => by
    have k1 := hfl.le a b ha hb
    have k2 := hfl.nonneg a b ha hb
    have := hc1 a b
    omega
  have edge_of : ∀ a b, a < nodes → b < nodes → BmEdge nodes (nodes + 1) edges a b → (a, b) ∈ edges := fun a b ha hb hab => by
    rcases hab with ⟨k, _⟩ | k | ⟨k, _⟩
    · omega
    · exact k
    · omega
  have hsum_le : ∀ (g : Nat → Int) (i j : Nat), (∀ a, a < nodes + 2 → 0 ≤ g a) → i < nodes + 2 → j < nodes + 2 → i ≠ j → g i + g j ≤ ∑ a ∈ Finset.range (nodes + 2), g a := by
    intro g i j hg hi hj hij
    have : ∑ a ∈ ({i, j} : Finset Nat), g a ≤ ∑ a ∈ Finset.range (nodes + 2), g a := by
      refine Finset.sum_le_sum_of_subset_of_nonneg (fun a ha => ?_) (fun a ha _ => hg a (Finset.mem_range.mp ha))
      simp only [Finset.mem_insert, Finset.mem_singleton] at ha
      rw [Finset.mem_range]
      omega
    rwa [Finset.sum_pair hij] at this
  -- at most one unit leaves a node of the left side
  have hout : ∀ u, u < nodes → left u = true → ∑ b ∈ Finset.range (nodes + 2), x u b ≤ 1 := by
    intro u hu hl
    rw [hfl.cons u (by omega) (by omega) (by omega), Finset.sum_eq_single_of_mem nodes (Finset.mem_range.mpr (by omega)) (fun b hb hbn => ?_)]
    · exact le_trans (hfl.le _ _ (by omega) (by omega)) (hc1 _ _)
    · refine hx0 b u (Finset.mem_range.mp hb) (by omega) ?_
      rintro (⟨k, _⟩ | k | ⟨k, _⟩)
      · exact hbn k
      · have := (h.side _ k).2; simp only at this; rw [hl] at this; cases this
      · omega
  have hin : ∀ v, v < nodes → left v = false → ∑ a ∈ Finset.range (nodes + 2), x a v ≤ 1 := by
    intro v hv hl
    rw [← hfl.cons v (by omega) (by omega) (by omega), Finset.sum_eq_single_of_mem (nodes + 1) (Finset.mem_range.mpr (by omega)) (fun b hb hbn => ?_)]
    · exact le_trans (hfl.le _ _ (by omega) (by omega)) (hc1 _ _)
    · refine hx0 v b (by omega) (Finset.mem_range.mp hb) ?_
      rintro (⟨k, _⟩ | k | ⟨k, _⟩)
      · omega
      · have := (h.side _ k).1; simp only at this; rw [hl] at this; cases this
      · exact hbn k
  let sel := edges.filter (fun e => decide (x e.1 e.2 ≠ 0))
  have hsel : ∀ e, e ∈ sel ↔ e ∈ edges ∧ x e.1 e.2 = 1 := fun e => by
    rw [List.mem_filter, decide_eq_true_iff]
    constructor
    · rintro ⟨k1, k2⟩
      have := h.lt e k1
      exact ⟨k1, (hx1 _ _ (by omega) (by omega)).resolve_left k2⟩
    · rintro ⟨k1, k2⟩
      exact ⟨k1, by omega⟩
  have hselnd : sel.Nodup := hnd.filter _
  have hmatch : IsMatching sel := by
    constructor
    · refine (List.nodup_map_iff_inj_on hselnd).mpr (fun e he e' he' heq => ?_)
      obtain ⟨k1, k2⟩ := (hsel e).mp he
      obtain ⟨k3, k4⟩ := (hsel e').mp he'
      by_contra hne
      have hl := h.lt e k1
      have hl' := h.lt e' k3
      have := hsum_le (fun b => x e.1 b) e.2 e'.2 (fun b hb => hfl.nonneg _ _ (by omega) hb) (by omega) (by omega) (fun hc => hne (Prod.ext heq hc))
      have := hout e.1 hl.1 (h.side e k1).1
      rw [← heq] at k4
      omega
    · refine (List.nodup_map_iff_inj_on hselnd).mpr (fun e he e' he' heq => ?_)
      obtain ⟨k1, k2⟩ := (hsel e).mp he
      obtain ⟨k3, k4⟩ := (hsel e').mp he'
      by_contra hne
      have hl := h.lt e k1
      have hl' := h.lt e' k3
      have := hsum_le (fun a => x a e.2) e.1 e'.1 (fun b hb => hfl.nonneg _ _ hb (by omega)) (by omega) (by omega) (fun hc => hne (Prod.ext hc heq))
      have := hin e.2 hl.2 (h.side e k1).2
      rw [← heq] at k4
      omega
  -- the value of the flow is the number of selected edges
  have hcard : f = sel.length := by
    let T := insert nodes ((Finset.range nodes).filter (fun w => left w = true))
    have hT : T ⊆ Finset.range (nodes + 2) := by
      intro w hw
      rw [Finset.mem_insert, Finset.mem_filter, Finset.mem_range] at hw
      rw [Finset.mem_range]; omega
    have hTs : nodes + 1 ∉ T := by
      intro hw
      rw [Finset.mem_insert, Finset.mem_filter, Finset.mem_range] at hw
      omega
    have e3 := value_cut hfl hT (Finset.mem_insert_self ..) hTs
    have e4 : ∑ u ∈ T, ∑ v ∈ Finset.range (nodes + 2) \ T, (x u v - x v u) = ∑ p ∈ T ×ˢ (Finset.range (nodes + 2) \ T), (x p.1 p.2 - x p.2 p.1) := by
      rw [Finset.sum_product]
    have e5 : ∑ p ∈ T ×ˢ (Finset.range (nodes + 2) \ T), (x p.1 p.2 - x p.2 p.1) = ∑ p ∈ sel.toFinset, (1 : Int) := by
      rw [← Finset.sum_subset (s₁ := sel.toFinset)]
      · refine Finset.sum_congr rfl (fun p hp => ?_)
        obtain ⟨k1, k2⟩ := (hsel p).mp (List.mem_toFinset.mp hp)
        have hl := h.lt p k1
        have hs := h.side p k1
        rw [k2, hx0 p.2 p.1 (by omega) (by omega) ?_]
        · rfl
        · intro hb
          have := (h.side _ (edge_of _ _ hl.2 hl.1 hb)).1
          simp only at this
          rw [hs.2] at this; cases this
      · intro p hp
        obtain ⟨k1, k2⟩ := (hsel p).mp (List.mem_toFinset.mp hp)
        have hl := h.lt p k1
        have hs := h.side p k1
        rw [Finset.mem_product, Finset.mem_sdiff, Finset.mem_insert, Finset.mem_filter, Finset.mem_range, Finset.mem_range, Finset.mem_insert, Finset.mem_filter, Finset.mem_range]
        refine ⟨Or.inr ⟨hl.1, hs.1⟩, by omega, ?_⟩
        rintro (k | ⟨_, k⟩)
        · omega
        · rw [hs.2] at k; cases k
      · intro p hp hns
        rw [Finset.mem_product, Finset.mem_sdiff, Finset.mem_insert, Finset.mem_filter, Finset.mem_range, Finset.mem_range, Finset.mem_insert, Finset.mem_filter, Finset.mem_range] at hp
        obtain ⟨q1, q2, q3⟩ := hp
        have q3' : p.2 ≠ nodes ∧ (p.2 < nodes → left p.2 = false) := ⟨fun k => q3 (Or.inl k), fun k => by
          by_contra hk
          exact q3 (Or.inr ⟨k, by simpa using hk⟩)⟩
        have hp1 : p.1 < nodes + 2 := by omega
        have z1 : x p.1 p.2 = 0 := by
          rcases hx1 p.1 p.2 hp1 q2 with k | k
          · exact k
          · exfalso
            have hb : BmEdge nodes (nodes + 1) edges p.1 p.2 := by
              by_contra hb
              have := hx0 _ _ hp1 q2 hb
              omega
            rcases hb with ⟨_, e, he, k2⟩ | k2 | ⟨_, e, he, k2⟩
            · have := h.lt e he
              have := (h.side e he).1
              rw [k2, q3'.2 (by omega)] at this
              cases this
            · exact hns (List.mem_toFinset.mpr ((hsel p).mpr ⟨k2, k⟩))
            · have := h.lt e he
              have h9 := (h.side e he).2
              rcases q1 with q1 | q1
              · omega
              · rw [k2, q1.2] at h9
                cases h9
        have z2 : x p.2 p.1 = 0 := by
          refine hx0 _ _ q2 hp1 ?_
          rintro (⟨k, _⟩ | k | ⟨k, _⟩)
          · exact q3'.1 k
          · have h9 := h.side _ k
            have h8 := h.lt _ k
            simp only at h9 h8
            rw [q3'.2 h8.1] at h9
            cases h9.1
          · omega
        rw [z1, z2]
        rfl
    rw [← hval, e3, e4, e5, Finset.sum_const, List.toFinset_card_of_nodup hselnd]
    simp
  refine ⟨sel, ⟨fuel0, fun fuel hf => ?_⟩, List.filter_sublist, hmatch, fun M hM hm => ?_⟩
  · rw [bipartiteMatching, e1, Option.bind_some, hrun fuel hf, Option.bind_some]
    exact bmSelect_spec hx edges (fun e he => by have := h.lt e he; omega)
  · have := matching_le_cut h.lt (fun a b => (hcs a b).1) hc0 s2 s3 hM hm
    rw [← s4, hcard] at this
    exact_mod_cast this

/-- A repeated edge is returned as often as it is given: that is no matching. -/
theorem C101_repeated_edge : bipartiteMatching 100 2 [(0, 1), (0, 1)] = some [(0, 1), (0, 1)] := by decide +kernel

example : bipartiteMatching 100 4 [(0, 2), (0, 3), (1, 2)] = some [(0, 3), (1, 2)] := by decide +kernel
example : Bipartite 4 (fun u => decide (u < 2)) [(0, 2), (0, 3), (1, 2)] := ⟨by decide, by decide⟩

end Altruct.GraphAlg
