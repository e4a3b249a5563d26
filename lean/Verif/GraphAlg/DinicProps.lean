/-
Maximum flow (C100).
-/
import Mathlib.Tactic.Ring
import Mathlib.Tactic.Linarith
import Verif.GraphAlg.FlowSpec
import Verif.GraphAlg.FloydProps
import Verif.GraphAlg.DinicModel

namespace Altruct.GraphAlg

open Finset in
/-- The value of a flow is what crosses any cut. -/
theorem value_cut {n : Nat} {c x : Nat → Nat → Int} {s t : Nat} (h : IsFlow n c s t x) {S : Finset Nat} (hS : S ⊆ range n) (hs : s ∈ S) (ht : t ∉ S) :
    flowValue n s x = ∑ u ∈ S, ∑ v ∈ range n \ S, (x u v - x v u) := by
  have h1 : ∑ u ∈ S, flowValue n u x = flowValue n s x := by
    rw [Finset.sum_eq_single_of_mem s hs]
    intro u hu hus
    rw [flowValue, h.cons u (mem_range.mp (hS hu)) hus (fun hc => ht (hc ▸ hu)), sub_self]
  have h2 : ∀ u, flowValue n u x = ∑ v ∈ S, (x u v - x v u) + ∑ v ∈ range n \ S, (x u v - x v u) := by
    intro u
    rw [flowValue, ← Finset.sum_sub_distrib, add_comm, Finset.sum_sdiff hS]
  rw [← h1, Finset.sum_congr rfl (fun u _ => h2 u), Finset.sum_add_distrib]
  have h3 : ∑ u ∈ S, ∑ v ∈ S, (x u v - x v u) = 0 := by
    have : ∑ u ∈ S, ∑ v ∈ S, (x u v - x v u) = ∑ u ∈ S, ∑ v ∈ S, x u v - ∑ u ∈ S, ∑ v ∈ S, x v u := by
      rw [← Finset.sum_sub_distrib]
      exact Finset.sum_congr rfl (fun u _ => Finset.sum_sub_distrib ..)
    rw [this, Finset.sum_comm (f := fun u v => x v u), sub_self]
  rw [h3, zero_add]

open Finset in
/-- No flow exceeds the capacity of a cut. -/
theorem value_le_cut {n : Nat} {c x : Nat → Nat → Int} {s t : Nat} (h : IsFlow n c s t x) {S : Finset Nat} (hS : S ⊆ range n) (hs : s ∈ S) (ht : t ∉ S) :
    flowValue n s x ≤ cutCap n c S := by
  rw [value_cut h hS hs ht, cutCap]
  refine Finset.sum_le_sum (fun u hu => Finset.sum_le_sum (fun v hv => ?_))
  have hu' := mem_range.mp (hS hu)
  have hv' := mem_range.mp (mem_sdiff.mp hv).1
  have := h.le u v hu' hv'
  have := h.nonneg v u hv' hu'
  omega

/-! ### One edge -/

theorem sum_upd2_row {n : Nat} (x : Nat → Nat → Int) {u v : Nat} (hv : v < n) (d : Int) (a : Nat) :
    ∑ w ∈ Finset.range n, upd2 x u v (x u v + d) a w = ∑ w ∈ Finset.range n, x a w + if a = u then d else 0 := by
  by_cases ha : a = u
  · subst ha
    rw [if_pos rfl, ← Finset.add_sum_erase _ _ (Finset.mem_range.mpr hv), ← Finset.add_sum_erase (Finset.range n) (fun w => x a w) (Finset.mem_range.mpr hv), upd2_self,
      Finset.sum_congr rfl (fun w hw => upd2_ne x a v _ (fun h => (Finset.mem_erase.mp hw).1 h.2))]
    ring
  · rw [if_neg ha, add_zero]
    exact Finset.sum_congr rfl (fun w _ => upd2_ne x u v _ (fun h => ha h.1))

theorem sum_upd2_col {n : Nat} (x : Nat → Nat → Int) {u v : Nat} (hu : u < n) (d : Int) (a : Nat) :
    ∑ w ∈ Finset.range n, upd2 x u v (x u v + d) w a = ∑ w ∈ Finset.range n, x w a + if a = v then d else 0 := by
  by_cases ha : a = v
  · subst ha
    rw [if_pos rfl, ← Finset.add_sum_erase _ _ (Finset.mem_range.mpr hu), ← Finset.add_sum_erase (Finset.range n) (fun w => x w a) (Finset.mem_range.mpr hu), upd2_self,
      Finset.sum_congr rfl (fun w hw => upd2_ne x u a _ (fun h => (Finset.mem_erase.mp hw).1 h.1))]
    ring
  · rw [if_neg ha, add_zero]
    exact Finset.sum_congr rfl (fun w _ => upd2_ne x u v _ (fun h => ha h.2))

theorem flowValue_upd {n : Nat} (x : Nat → Nat → Int) {u v : Nat} (hu : u < n) (hv : v < n) (d : Int) (a : Nat) :
    flowValue n a (upd2 x u v (x u v + d)) = flowValue n a x + (if a = u then d else 0) - (if a = v then d else 0) := by
  rw [flowValue, sum_upd2_row x hv, sum_upd2_col x hu, flowValue]
  ring

/-! ### The adjacency lists -/

/-- Nodes with a capacity between them. -/
def Linked (c : Nat → Nat → Int) (u v : Nat) : Prop := c u v > 0 ∨ c v u > 0

theorem dnLinked_spec {cap : List (List Int)} {n : Nat} {c : Nat → Nat → Int} (hc : Mat cap n c) {u v : Nat} (hu : u < n) (hv : v < n) :
    ∃ b, dnLinked cap u v = some b ∧ (b = true ↔ Linked c u v) := by
  unfold dnLinked Linked
  rw [hc.rd2 hu hv, hc.rd2 hv hu, Option.bind_some]
  by_cases h : c u v > 0
  · rw [if_pos h]; exact ⟨true, rfl, by simp [h]⟩
  · rw [if_neg h]; exact ⟨_, rfl, by simp [h]⟩

theorem pushAt_spec {adjl : List (List Nat)} {n : Nat} {a : Nat → List Nat} (h : Rep adjl n a) {u : Nat} (hu : u < n) (v : Nat) :
    ∃ adjl', pushAt adjl u v = some adjl' ∧ Rep adjl' n (Function.update a u (a u ++ [v])) :=
  ⟨_, by rw [pushAt, h.rd hu, Option.bind_some, h.wr hu], h.set u _⟩

theorem dnPair_spec {cap : List (List Int)} {n : Nat} {c : Nat → Nat → Int} (hc : Mat cap n c) {u v : Nat} (hu : u < n) (hv : v < u)
    {adjl : List (List Nat)} {a : Nat → List Nat} (h : Rep adjl n a) :
    ∃ adjl' a', dnPair cap u v adjl = some adjl' ∧ Rep adjl' n a' ∧
      ∀ w y, y ∈ a' w ↔ y ∈ a w ∨ (Linked c w y ∧ ((w = u ∧ y = v) ∨ (w = v ∧ y = u))) := by
  obtain ⟨b, e, hb⟩ := dnLinked_spec hc hu (show v < n by omega)
  have hsym : Linked c v u ↔ Linked c u v := by unfold Linked; tauto
  cases b with
  | false =>
    have hn : ¬ Linked c u v := fun h => by simpa using hb.mpr h
    refine ⟨adjl, a, by rw [dnPair, e]; rfl, h, fun w y => ⟨Or.inl, ?_⟩⟩
    rintro (h | ⟨h1, (⟨rfl, rfl⟩ | ⟨rfl, rfl⟩)⟩)
    · exact h
    · exact absurd h1 hn
    · exact absurd (hsym.mp h1) hn
  | true =>
    have hl : Linked c u v := hb.mp rfl
    obtain ⟨a1, e1, h1⟩ := pushAt_spec h hu v
    obtain ⟨a2, e2, h2⟩ := pushAt_spec h1 (show v < n by omega) u
    refine ⟨a2, _, by rw [dnPair, e]; show (pushAt adjl u v).bind _ = _; rw [e1]; exact e2, h2, fun w y => ?_⟩
    by_cases hw : w = v
    · subst hw
      rw [Function.update_self, Function.update_of_ne (by omega), List.mem_append, List.mem_singleton]
      constructor
      · rintro (h | rfl)
        · exact Or.inl h
        · exact Or.inr ⟨hsym.mpr hl, Or.inr ⟨rfl, rfl⟩⟩
      · rintro (h | ⟨_, (h | h)⟩)
        · exact Or.inl h
        · omega
        · exact Or.inr h.2
    · rw [Function.update_of_ne hw]
      by_cases hw2 : w = u
      · subst hw2
        rw [Function.update_self, List.mem_append, List.mem_singleton]
        constructor
        · rintro (h | rfl)
          · exact Or.inl h
          · exact Or.inr ⟨hl, Or.inl ⟨rfl, rfl⟩⟩
        · rintro (h | ⟨_, (h | h)⟩)
          · exact Or.inl h
          · exact Or.inr h.2
          · omega
      · rw [Function.update_of_ne hw2]
        exact ⟨Or.inl, fun h => h.elim id (fun h => by omega)⟩

theorem dnAdj_spec {cap : List (List Int)} {n : Nat} {c : Nat → Nat → Int} (hc : Mat cap n c) :
    ∃ adjl a, dnAdj cap = some adjl ∧ Rep adjl n a ∧ ∀ w y, y ∈ a w ↔ (w < n ∧ y < n ∧ w ≠ y ∧ Linked c w y) := by
  unfold dnAdj
  rw [hc.len]
  obtain ⟨adjl, e, a, h1, h2⟩ := forUp_spec (body := fun u => forUp (dnPair cap u) 0 u)
    (fun u adjl => ∃ a, Rep adjl n a ∧ ∀ w y, y ∈ a w ↔ (w < u ∧ y < u ∧ w ≠ y ∧ Linked c w y)) (a := 0) (n := n) (s := List.replicate n []) (Nat.zero_le _)
    ⟨_, Rep.replicate n [], fun w y => by simp⟩ (fun u adjl _ hu ⟨a, h1, h2⟩ => by
      obtain ⟨adjl', e, a', h3, h4⟩ := forUp_spec (body := dnPair cap u)
        (fun v adjl => ∃ a, Rep adjl n a ∧ ∀ w y, y ∈ a w ↔ ((w < u ∧ y < u ∧ w ≠ y ∧ Linked c w y) ∨ (Linked c w y ∧ ((w = u ∧ y < v) ∨ (w < v ∧ y = u)))))
        (a := 0) (n := u) (s := adjl) (Nat.zero_le _) ⟨a, h1, fun w y => by rw [h2]; simp⟩ (fun v adjl _ hv ⟨a, h1, h2⟩ => by
          obtain ⟨adjl', a', e, h3, h4⟩ := dnPair_spec hc hu hv h1
          refine ⟨adjl', e, a', h3, fun w y => ?_⟩
          rw [h4, h2]
          constructor
          · rintro ((h | ⟨h, h'⟩) | ⟨h, h'⟩)
            · exact Or.inl h
            · exact Or.inr ⟨h, by omega⟩
            · exact Or.inr ⟨h, by omega⟩
          · rintro (h | ⟨h, h'⟩)
            · exact Or.inl (Or.inl h)
            · by_cases hk : (w = u ∧ y = v) ∨ (w = v ∧ y = u)
              · exact Or.inr ⟨h, hk⟩
              · exact Or.inl (Or.inr ⟨h, by omega⟩))
      refine ⟨adjl', e, a', h3, fun w y => ?_⟩
      rw [h4]
      constructor
      · rintro (⟨h, h', h'', h3⟩ | ⟨h, h'⟩)
        · exact ⟨by omega, by omega, h'', h3⟩
        · exact ⟨by omega, by omega, by omega, h⟩
      · rintro ⟨h, h', h'', h3⟩
        by_cases hk : w < u ∧ y < u
        · exact Or.inl ⟨hk.1, hk.2, h'', h3⟩
        · exact Or.inr ⟨h3, by omega⟩)
  exact ⟨adjl, a, e, h1, h2⟩

/-! ### The levels -/

/-- More can flow from `u` to `v`. -/
def Res (c x : Nat → Nat → Int) (u v : Nat) : Prop := c u v > x u v ∨ x v u > 0

theorem dnResid_spec {cap flow : List (List Int)} {n : Nat} {c x : Nat → Nat → Int} (hc : Mat cap n c) (hx : Mat flow n x) {u v : Nat} (hu : u < n) (hv : v < n) :
    ∃ b, dnResid cap flow u v = some b ∧ (b = true ↔ Res c x u v) := by
  unfold dnResid Res
  rw [hc.rd2 hu hv, hx.rd2 hu hv, hx.rd2 hv hu, Option.bind_some, Option.bind_some]
  by_cases h : c u v > x u v
  · rw [if_pos h]; exact ⟨true, rfl, by simp [h]⟩
  · rw [if_neg h]; exact ⟨_, rfl, by simp [h]⟩

/-- The network during one phase: the capacities `c`, the flow `x` and the adjacency lists `a`. -/
structure Net (n : Nat) (cap flow : List (List Int)) (adjl : List (List Nat)) (c x : Nat → Nat → Int) (a : Nat → List Nat) : Prop where
  hc : Mat cap n c
  hx : Mat flow n x
  ha : Rep adjl n a
  lt : ∀ u v, v ∈ a u → v < n

/-- Every level comes from the level before. -/
def Justified (n : Nat) (R : Nat → Nat → Prop) (s : Nat) (l : Nat → Nat) : Prop :=
  ∀ v, v < n → l v ≠ 0 → (v = s ∧ l v = 1) ∨ ∃ u, u < n ∧ l u ≠ 0 ∧ l u + 1 = l v ∧ R u v

def zeros (n : Nat) (l : Nat → Nat) : Nat := ((Finset.range n).filter (fun v => l v = 0)).card

theorem zeros_update {n : Nat} {l : Nat → Nat} {v k : Nat} (hv : v < n) (h0 : l v = 0) (hk : k ≠ 0) : zeros n (Function.update l v k) + 1 = zeros n l := by
  unfold zeros
  have : (Finset.range n).filter (fun w => Function.update l v k w = 0) = ((Finset.range n).filter (fun w => l w = 0)).erase v := by
    ext w
    simp only [Finset.mem_filter, Finset.mem_erase, Finset.mem_range]
    by_cases hw : w = v
    · subst hw; simp [Function.update_self, hk]
    · simp [Function.update_of_ne hw, hw]
  rw [this, Finset.card_erase_of_mem (by simp [hv, h0])]
  have : 0 < ((Finset.range n).filter (fun w => l w = 0)).card := Finset.card_pos.mpr ⟨v, by simp [hv, h0]⟩
  omega

theorem justified_update {n : Nat} {R : Nat → Nat → Prop} {s : Nat} {l : Nat → Nat} (h : Justified n R s l) {u v : Nat} (hu : u < n) (hlu : l u ≠ 0) (hv : l v = 0) (hr : R u v) :
    Justified n R s (Function.update l v (l u + 1)) := by
  intro w hw hlw
  by_cases hwv : w = v
  · subst hwv
    have huw : u ≠ w := by rintro rfl; exact hlu hv
    exact Or.inr ⟨u, hu, by rw [Function.update_of_ne huw]; exact hlu, by rw [Function.update_self, Function.update_of_ne huw], hr⟩
  · rw [Function.update_of_ne hwv] at hlw ⊢
    rcases h w hw hlw with h1 | ⟨y, y1, y2, y3, y4⟩
    · exact Or.inl h1
    · have hyv : y ≠ v := by rintro rfl; exact y2 hv
      exact Or.inr ⟨y, y1, by rw [Function.update_of_ne hyv]; exact y2, by rw [Function.update_of_ne hyv]; exact y3, y4⟩

theorem dnScan_spec {n : Nat} {cap flow adjl c x a} (N : Net n cap flow adjl c x a) {s u : Nat} (hu : u < n) : ∀ (vs level que : List Nat) (l : Nat → Nat), Rep level n l →
    (∀ v ∈ vs, v ∈ a u) → l u ≠ 0 → Justified n (fun u v => v ∈ a u ∧ Res c x u v) s l → (∀ w ∈ que, w < n ∧ l w ≠ 0) → 
    ∃ r l', dnScan cap flow u vs level que = some r ∧ Rep r.1 n l' ∧ Justified n (fun u v => v ∈ a u ∧ Res c x u v) s l' ∧ (∀ w ∈ r.2, w < n ∧ l' w ≠ 0)
      ∧ (∀ w, l w ≠ 0 → l' w = l w) ∧ (∀ v ∈ vs, Res c x u v → l' v ≠ 0) ∧ (∀ w, w ∈ que → w ∈ r.2) ∧ (∀ w, l' w ≠ 0 → l w ≠ 0 ∨ w ∈ r.2)
      ∧ r.2.length + zeros n l' = que.length + zeros n l := by
  intro vs
  induction vs with
  | nil =>
    intro level que l hl _ _ hj hq
    exact ⟨(level, que), l, rfl, hl, hj, hq, fun _ _ => rfl, by simp, fun _ h => h, fun _ h => Or.inl h, rfl⟩
  | cons v vs ih =>
    intro level que l hl hvs hlu hj hq
    have hva := hvs v List.mem_cons_self
    have hv := N.lt u v hva
    have hvs' : ∀ v ∈ vs, v ∈ a u := fun w hw => hvs w (List.mem_cons_of_mem _ hw)
    have skip : (l v ≠ 0 ∨ ¬ Res c x u v) → ∀ e : dnScan cap flow u (v :: vs) level que = dnScan cap flow u vs level que,
      ∃ r l', dnScan cap flow u (v :: vs) level que = some r ∧ Rep r.1 n l' ∧ Justified n (fun u v => v ∈ a u ∧ Res c x u v) s l' ∧ (∀ w ∈ r.2, w < n ∧ l' w ≠ 0)
      ∧ (∀ w, l w ≠ 0 → l' w = l w) ∧ (∀ w ∈ v :: vs, Res c x u w → l' w ≠ 0) ∧ (∀ w, w ∈ que → w ∈ r.2) ∧ (∀ w, l' w ≠ 0 → l w ≠ 0 ∨ w ∈ r.2)
      ∧ r.2.length + zeros n l' = que.length + zeros n l := by
      intro hor e
      obtain ⟨r, l', h1, h2, h3, h4, h5, h6, h7, h8, h9⟩ := ih level que l hl hvs' hlu hj hq
      refine ⟨r, l', by rw [e, h1], h2, h3, h4, h5, fun w hw hr => ?_, h7, h8, h9⟩
      rcases List.mem_cons.mp hw with rfl | hw
      · rcases hor with hor | hor
        · rw [h5 w hor]; exact hor
        · exact absurd hr hor
      · exact h6 w hw hr
    by_cases h0 : l v = 0
    · obtain ⟨b, eb, hb⟩ := dnResid_spec N.hc N.hx hu hv
      have e : dnScan cap flow u (v :: vs) level que = if b then (rd level u).bind fun lu => (wr level v (lu + 1)).bind fun level => dnScan cap flow u vs level (que ++ [v])
          else dnScan cap flow u vs level que := by
        rw [dnScan, hl.rd hv, Option.bind_some, if_neg (by omega), eb, Option.bind_some]
      cases b with
      | false =>
        exact skip (Or.inr (fun h => by simpa using hb.mpr h)) (by rw [e, if_neg (by simp)])
      | true =>
        rw [if_pos rfl, hl.rd hu, Option.bind_some, hl.wr hv, Option.bind_some] at e
        have hr := hb.mp rfl
        have huv : u ≠ v := by rintro rfl; exact hlu h0
        have hkeep : ∀ w, l w ≠ 0 → Function.update l v (l u + 1) w = l w := fun w hw => Function.update_of_ne (by rintro rfl; exact hw h0) _ _
        obtain ⟨r, l', h1, h2, h3, h4, h5, h6, h7, h8, h9⟩ := ih _ (que ++ [v]) _ (hl.set v (l u + 1)) hvs' (by rw [hkeep u hlu]; exact hlu)
          (justified_update hj hu hlu h0 ⟨hva, hr⟩) (fun w hw => by
            rcases List.mem_append.mp hw with hw | hw
            · exact ⟨(hq w hw).1, by rw [hkeep w (hq w hw).2]; exact (hq w hw).2⟩
            · rw [List.mem_singleton] at hw; subst hw
              exact ⟨hv, by rw [Function.update_self]; omega⟩)
        have hlv : Function.update l v (l u + 1) v ≠ 0 := by rw [Function.update_self]; omega
        have hz := zeros_update (k := l u + 1) hv h0 (by omega)
        refine ⟨r, l', by rw [e, h1], h2, h3, h4, fun w hw => by rw [h5 w (by rw [hkeep w hw]; exact hw), hkeep w hw], fun w hw hrw => ?_,
          fun w hw => h7 w (List.mem_append_left _ hw), fun w hw => ?_, ?_⟩
        · rcases List.mem_cons.mp hw with rfl | hw
          · rw [h5 w hlv]; exact hlv
          · exact h6 w hw hrw
        · rcases h8 w hw with h | h
          · by_cases hwv : w = v
            · subst hwv; exact Or.inr (h7 w (List.mem_append_right _ (List.mem_singleton_self w)))
            · rw [Function.update_of_ne hwv] at h; exact Or.inl h
          · exact Or.inr h
        · rw [h9, List.length_append, List.length_singleton]; omega
    · exact skip (Or.inl h0) (by rw [dnScan, hl.rd hv, Option.bind_some, if_pos h0])

theorem dnBfs_spec {n : Nat} {cap flow adjl c x a} (N : Net n cap flow adjl c x a) {s : Nat} : ∀ (k : Nat) (level que : List Nat) (l : Nat → Nat), que.length + zeros n l ≤ k →
    Rep level n l → Justified n (fun u v => v ∈ a u ∧ Res c x u v) s l → (∀ w ∈ que, w < n ∧ l w ≠ 0) → l s = 1 →
    (∀ w, w < n → l w ≠ 0 → w ∈ que ∨ ∀ v ∈ a w, Res c x w v → l v ≠ 0) →
    ∃ level' l', (∀ fuel, k < fuel → dnBfs cap flow adjl fuel level que = some level') ∧ Rep level' n l' ∧ Justified n (fun u v => v ∈ a u ∧ Res c x u v) s l' ∧ l' s = 1
      ∧ ∀ w, w < n → l' w ≠ 0 → ∀ v ∈ a w, Res c x w v → l' v ≠ 0 := by
  intro k
  induction k with
  | zero =>
    intro level que l hk hl hj hq hs hcl
    have : que = [] := List.length_eq_zero_iff.mp (by omega)
    subst this
    refine ⟨level, l, fun fuel hf => ?_, hl, hj, hs, fun w hw h => (hcl w hw h).resolve_left (by simp)⟩
    obtain ⟨f, rfl⟩ : ∃ f, fuel = f + 1 := ⟨fuel - 1, by omega⟩
    rfl
  | succ k ih =>
    intro level que l hk hl hj hq hs hcl
    cases que with
    | nil =>
      refine ⟨level, l, fun fuel hf => ?_, hl, hj, hs, fun w hw h => (hcl w hw h).resolve_left (by simp)⟩
      obtain ⟨f, rfl⟩ : ∃ f, fuel = f + 1 := ⟨fuel - 1, by omega⟩
      rfl
    | cons u que =>
      obtain ⟨hu, hlu⟩ := hq u List.mem_cons_self
      obtain ⟨r, l1, h1, h2, h3, h4, h5, h6, h7, h8, h9⟩ := dnScan_spec N hu (a u) level que l hl (fun _ h => h) hlu hj (fun w hw => hq w (List.mem_cons_of_mem _ hw))
      obtain ⟨level', l', e, k1, k2, k3, k4⟩ := ih r.1 r.2 l1 (by rw [List.length_cons] at hk; omega) h2 h3 h4 (by rw [h5 s (by omega), hs]) (fun w hw hlw => by
        rcases h8 w hlw with h | h
        · rcases hcl w hw h with hc | hc
          · rcases List.mem_cons.mp hc with rfl | hc
            · exact Or.inr h6
            · exact Or.inl (h7 w hc)
          · exact Or.inr (fun v hv hr => by rw [h5 v (hc v hv hr)]; exact hc v hv hr)
        · exact Or.inl h)
      refine ⟨level', l', fun fuel hf => ?_, k1, k2, k3, k4⟩
      obtain ⟨f, rfl⟩ : ∃ f, fuel = f + 1 := ⟨fuel - 1, by omega⟩
      rw [dnBfs]
      rw [N.ha.rd hu, Option.bind_some, h1, Option.bind_some, e f (by omega)]

theorem zeros_le (n : Nat) (l : Nat → Nat) : zeros n l ≤ n := by
  have := Finset.card_filter_le (Finset.range n) (fun v => l v = 0)
  rw [Finset.card_range] at this
  exact this

theorem dnLevels_spec {n : Nat} {cap flow adjl c x a} (N : Net n cap flow adjl c x a) {s : Nat} (hs : s < n) :
    ∃ level l, (∀ fuel, n + 1 < fuel → dnLevels fuel cap flow adjl s = some level) ∧ Rep level n l ∧ Justified n (fun u v => v ∈ a u ∧ Res c x u v) s l ∧ l s = 1
      ∧ ∀ w, w < n → l w ≠ 0 → ∀ v ∈ a w, Res c x w v → l v ≠ 0 := by
  have hrep := (Rep.replicate n 0).set s 1
  have hz : ∀ w, Function.update (fun _ => 0) s 1 w ≠ 0 → w = s := fun w hw => by
    by_contra h; rw [Function.update_of_ne h] at hw; exact hw rfl
  have hself : Function.update (fun _ => 0) s 1 s = 1 := Function.update_self ..
  have hzl := zeros_le n (Function.update (fun _ => 0) s 1)
  obtain ⟨level, l, h1, h2, h3, h4, h5⟩ := dnBfs_spec N (s := s) (n + 1) _ [s] _ (by rw [List.length_singleton]; omega) hrep
    (fun v hv hl => Or.inl (by rw [hz v hl]; exact ⟨rfl, hself⟩)) (fun w hw => by rw [List.mem_singleton] at hw; rw [hw]; exact ⟨hs, by rw [hself]; omega⟩) hself
    (fun w _ hw => Or.inl (by rw [hz w hw]; exact List.mem_singleton_self s))
  refine ⟨level, l, fun fuel hf => ?_, h2, h3, h4, h5⟩
  rw [dnLevels, N.ha.len, (Rep.replicate n 0).wr hs, Option.bind_some]
  exact h1 fuel hf

/-! ### The path -/

/-- The edges from `v` back to `s` along `p`. -/
inductive PathTo (p : Nat → Nat) (s : Nat) : Nat → List (Nat × Nat) → Prop
  | nil : PathTo p s s []
  | cons {v : Nat} {es : List (Nat × Nat)} : v ≠ s → PathTo p s (p v) es → PathTo p s v ((p v, v) :: es)

/-- What can still flow along an edge. -/
def resid (c x : Nat → Nat → Int) (e : Nat × Nat) : Int := if c e.1 e.2 - x e.1 e.2 > 0 then c e.1 e.2 - x e.1 e.2 else x e.2 e.1

theorem resid_pos {c x : Nat → Nat → Int} {u v : Nat} (h : Res c x u v) : 0 < resid c x (u, v) := by
  unfold resid
  split
  · assumption
  · rcases h with h | h
    · rename_i hn; simp only at hn; omega
    · exact h

theorem dnPathFlow_spec {n : Nat} {cap flow c x} (hc : Mat cap n c) (hx : Mat flow n x) {prev : List Nat} {p : Nat → Nat} (hp : Rep prev n p) {s : Nat} (hs : s < n) {v : Nat}
    {es : List (Nat × Nat)} (h : PathTo p s v es) : (∀ e ∈ es, e.1 < n ∧ e.2 < n) → ∀ (fuel : Nat) (f : Int), es.length < fuel →
    ∃ f', dnPathFlow cap flow prev s fuel v f = some f' ∧ f' ≤ f ∧ (∀ e ∈ es, f' ≤ resid c x e) ∧ (f' = f ∨ ∃ e ∈ es, f' = resid c x e) := by
  induction h with
  | nil =>
    intro _ fuel f hf
    obtain ⟨k, rfl⟩ : ∃ k, fuel = k + 1 := ⟨fuel - 1, by omega⟩
    exact ⟨f, by rw [dnPathFlow, hp.rd hs, Option.bind_some, if_pos rfl], le_refl _, by simp, Or.inl rfl⟩
  | @cons v es hvs h ih =>
    intro hlt fuel f hf
    rw [List.length_cons] at hf
    obtain ⟨k, rfl⟩ : ∃ k, fuel = k + 1 := ⟨fuel - 1, by omega⟩
    obtain ⟨hu, hv⟩ := hlt _ List.mem_cons_self
    simp only at hu hv
    obtain ⟨f', e, h1, h2, h3⟩ := ih (fun e he => hlt e (List.mem_cons_of_mem _ he)) k (min f (resid c x (p v, v))) (by omega)
    refine ⟨f', ?_, by omega, fun e he => ?_, ?_⟩
    · rw [dnPathFlow, hp.rd hv, Option.bind_some, if_neg hvs, hc.rd2 hu hv, Option.bind_some, hx.rd2 hu hv, Option.bind_some, ← e, resid]
      by_cases hd : c (p v) v - x (p v) v > 0
      · rw [if_pos hd, if_pos hd]
      · rw [if_neg hd, if_neg hd, hx.rd2 hv hu, Option.bind_some]
    · rcases List.mem_cons.mp he with rfl | he
      · omega
      · exact h2 e he
    · rcases h3 with h3 | ⟨e, he, h3⟩
      · rcases min_choice f (resid c x (p v, v)) with hm | hm
        · exact Or.inl (by rw [h3, hm])
        · exact Or.inr ⟨_, List.mem_cons_self, by rw [h3, hm]⟩
      · exact Or.inr ⟨e, List.mem_cons_of_mem _ he, h3⟩

theorem path_le {p : Nat → Nat} {s : Nat} (l : Nat → Nat) {v : Nat} {es : List (Nat × Nat)} (h : PathTo p s v es) : (∀ e ∈ es, l e.1 < l e.2) → ∀ e ∈ es, l e.2 ≤ l v := by
  induction h with
  | nil => simp
  | @cons v es _ h ih =>
    intro hl e he
    have h1 := hl _ List.mem_cons_self
    simp only at h1
    rcases List.mem_cons.mp he with rfl | he
    · exact le_refl _
    · have := ih (fun e he => hl e (List.mem_cons_of_mem _ he)) e he
      omega

theorem dnPathUpdate_spec {n : Nat} {cap c} (hc : Mat cap n c) {prev : List Nat} {p : Nat → Nat} (hp : Rep prev n p) {s : Nat} (hs : s < n) {f : Int} (hf0 : 0 ≤ f) (l : Nat → Nat) {v : Nat}
    {es : List (Nat × Nat)} (h : PathTo p s v es) : (∀ e ∈ es, e.1 < n ∧ e.2 < n ∧ l e.1 < l e.2) → ∀ (fuel : Nat) (flow : List (List Int)) (x : Nat → Nat → Int) (b : Nat),
    es.length < fuel → Mat flow n x → (∀ e ∈ es, f ≤ resid c x e) → (∀ u w, u < n → w < n → 0 ≤ x u w ∧ x u w ≤ c u w) →
    ∃ flow' x' b', dnPathUpdate cap prev s f fuel v flow b = some (flow', b') ∧ Mat flow' n x' ∧ (∀ u w, u < n → w < n → 0 ≤ x' u w ∧ x' u w ≤ c u w)
      ∧ (∀ a, flowValue n a x' = flowValue n a x + (if a = s then f else 0) - (if a = v then f else 0))
      ∧ (b' = b ∨ ∃ e ∈ es, b' = e.1) ∧ ((∃ e ∈ es, f = resid c x e) → ∃ e ∈ es, b' = e.1) := by
  induction h with
  | nil =>
    intro _ fuel flow x b hf hx _ hb
    obtain ⟨k, rfl⟩ : ∃ k, fuel = k + 1 := ⟨fuel - 1, by omega⟩
    exact ⟨flow, x, b, by rw [dnPathUpdate, hp.rd hs, Option.bind_some, if_pos rfl], hx, hb, fun a => by ring, Or.inl rfl, by simp⟩
  | @cons v es hvs h ih =>
    intro hlt fuel flow x b hf hx hres hb
    rw [List.length_cons] at hf
    obtain ⟨k, rfl⟩ : ∃ k, fuel = k + 1 := ⟨fuel - 1, by omega⟩
    obtain ⟨hu, hv, huv⟩ := hlt _ List.mem_cons_self
    simp only at hu hv huv
    have hne : p v ≠ v := by intro h; rw [h] at huv; omega
    have hlv : ∀ e ∈ es, l e.2 ≤ l (p v) := path_le l h (fun e he => (hlt e (List.mem_cons_of_mem _ he)).2.2)
    have hfr : f ≤ resid c x (p v, v) := hres _ List.mem_cons_self
    -- the new flow
    have key : ∃ flow1 x1 b1, dnPathUpdate cap prev s f (k + 1) v flow b = dnPathUpdate cap prev s f k (p v) flow1 b1 ∧ Mat flow1 n x1
        ∧ (∀ u w, u < n → w < n → 0 ≤ x1 u w ∧ x1 u w ≤ c u w) ∧ (∀ a, flowValue n a x1 = flowValue n a x + (if a = p v then f else 0) - (if a = v then f else 0))
        ∧ (∀ u w, u ≠ v → w ≠ v → x1 u w = x u w) ∧ b1 = if f = resid c x (p v, v) then p v else b := by
      have e0 : dnPathUpdate cap prev s f (k + 1) v flow b = if c (p v) v - x (p v) v > 0 then (wr2 flow (p v) v (x (p v) v + f)).bind fun flow =>
          dnPathUpdate cap prev s f k (p v) flow (if c (p v) v = x (p v) v + f then p v else b)
          else (wr2 flow v (p v) (x v (p v) - f)).bind fun flow => dnPathUpdate cap prev s f k (p v) flow (if x v (p v) - f = 0 then p v else b) := by
        rw [dnPathUpdate, hp.rd hv, Option.bind_some, if_neg hvs, hc.rd2 hu hv, Option.bind_some, hx.rd2 hu hv, Option.bind_some, hx.rd2 hv hu, Option.bind_some]
      have b1 := hb _ _ hu hv
      have b2 := hb _ _ hv hu
      rw [resid] at hfr ⊢
      by_cases hd : c (p v) v - x (p v) v > 0
      · rw [if_pos hd] at e0 hfr ⊢
        simp only at hfr
        obtain ⟨m, e1, hm⟩ := hx.wr2 hu hv (x (p v) v + f)
        refine ⟨m, _, _, by rw [e0, e1, Option.bind_some], hm, fun u w hu' hw' => ?_, flowValue_upd x hu hv f, fun u w h1 h2 => upd2_ne _ _ _ _ (by tauto), ?_⟩
        · by_cases h : u = p v ∧ w = v
          · rw [h.1, h.2, upd2_self]; omega
          · rw [upd2_ne _ _ _ _ h]; exact hb u w hu' hw'
        · by_cases h : c (p v) v = x (p v) v + f
          · rw [if_pos h, if_pos (by simp only; omega)]
          · rw [if_neg h, if_neg (by simp only; omega)]
      · rw [if_neg hd] at e0 hfr ⊢
        simp only at hfr
        obtain ⟨m, e1, hm⟩ := hx.wr2 hv hu (x v (p v) - f)
        refine ⟨m, _, _, by rw [e0, e1, Option.bind_some], hm, fun u w hu' hw' => ?_, fun a => ?_, fun u w h1 h2 => upd2_ne _ _ _ _ (by tauto), ?_⟩
        · by_cases h : u = v ∧ w = p v
          · rw [h.1, h.2, upd2_self]; omega
          · rw [upd2_ne _ _ _ _ h]; exact hb u w hu' hw'
        · rw [sub_eq_add_neg, flowValue_upd x hv hu (-f)]
          split_ifs <;> omega
        · by_cases h : x v (p v) - f = 0
          · rw [if_pos h, if_pos (by simp only; omega)]
          · rw [if_neg h, if_neg (by simp only; omega)]
    obtain ⟨flow1, x1, b1, e1, hm1, hb1, hv1, hk1, hbo⟩ := key
    have hsame : ∀ e ∈ es, resid c x1 e = resid c x e := fun e he => by
      have h1 := hlt e (List.mem_cons_of_mem _ he)
      have h2 := hlv e he
      unfold resid
      rw [hk1 e.1 e.2 (by rintro h; rw [h] at h1; omega) (by rintro h; rw [h] at h2; omega), hk1 e.2 e.1 (by rintro h; rw [h] at h2; omega) (by rintro h; rw [h] at h1; omega)]
    obtain ⟨flow', x', b', e2, h1, h2, h3, h4, h5⟩ := ih (fun e he => hlt e (List.mem_cons_of_mem _ he)) k flow1 x1 b1 (by omega) hm1 (fun e he => by rw [hsame e he]; exact hres e (List.mem_cons_of_mem _ he)) hb1
    refine ⟨flow', x', b', by rw [e1, e2], h1, h2, fun a => by rw [h3, hv1]; ring, ?_, ?_⟩
    · rcases h4 with h4 | ⟨e, he, h4⟩
      · rw [h4, hbo]
        split
        · exact Or.inr ⟨_, List.mem_cons_self, rfl⟩
        · exact Or.inl rfl
      · exact Or.inr ⟨e, List.mem_cons_of_mem _ he, h4⟩
    · rintro ⟨e, he, hfe⟩
      by_cases hex : ∃ e ∈ es, f = resid c x e
      · obtain ⟨e, he, hfe⟩ := hex
        obtain ⟨e', he', h6⟩ := h5 ⟨e, he, by rw [hsame e he]; exact hfe⟩
        exact ⟨e', List.mem_cons_of_mem _ he', h6⟩
      · rcases List.mem_cons.mp he with rfl | he
        · rcases h4 with h4 | ⟨e', he', h4⟩
          · exact ⟨_, List.mem_cons_self, by rw [h4, hbo, if_pos hfe]⟩
          · exact ⟨e', List.mem_cons_of_mem _ he', h4⟩
        · exact absurd ⟨e, he, hfe⟩ hex

/-! ### The search for a path -/

/-- Edges of the level graph. -/
def LEdge (c x : Nat → Nat → Int) (l : Nat → Nat) (a : Nat → List Nat) (u v : Nat) : Prop := v ∈ a u ∧ l v = l u + 1 ∧ Res c x u v

/-- The rounds left. -/
def dfsMeasure (n : Nat) (a : Nat → List Nat) (vis : Nat → Bool) (stk : List (Nat × Nat)) : Nat :=
  ∑ v ∈ (Finset.range n).filter (fun v => vis v = false), ((a v).length + 2) + (stk.map (fun e => (a e.1).length - e.2 + 1)).sum

theorem measure_push {n : Nat} {a : Nat → List Nat} {vis : Nat → Bool} {u i v : Nat} {stk : List (Nat × Nat)} (hv : v < n) (hvis : vis v = false) (hi : i < (a u).length) :
    dfsMeasure n a (Function.update vis v true) ((v, 0) :: (u, i + 1) :: stk) < dfsMeasure n a vis ((u, i) :: stk) := by
  have : (Finset.range n).filter (fun w => Function.update vis v true w = false) = ((Finset.range n).filter (fun w => vis w = false)).erase v := by
    ext w
    simp only [Finset.mem_filter, Finset.mem_erase, Finset.mem_range]
    by_cases hw : w = v
    · subst hw; simp [Function.update_self]
    · simp [Function.update_of_ne hw, hw]
  unfold dfsMeasure
  rw [this, ← Finset.add_sum_erase ((Finset.range n).filter (fun w => vis w = false)) _ (by simp [hv, hvis] : v ∈ _)]
  simp only [List.map_cons, List.sum_cons]
  omega

theorem measure_skip {n : Nat} {a : Nat → List Nat} {vis : Nat → Bool} {u i : Nat} {stk : List (Nat × Nat)} (hi : i < (a u).length) :
    dfsMeasure n a vis ((u, i + 1) :: stk) < dfsMeasure n a vis ((u, i) :: stk) := by
  unfold dfsMeasure
  simp only [List.map_cons, List.sum_cons]
  omega

theorem measure_pop {n : Nat} {a : Nat → List Nat} {vis : Nat → Bool} {e : Nat × Nat} {stk : List (Nat × Nat)} :
    dfsMeasure n a vis stk < dfsMeasure n a vis (e :: stk) := by
  unfold dfsMeasure
  simp only [List.map_cons, List.sum_cons]
  omega

theorem measure_suffix {n : Nat} {a : Nat → List Nat} {vis : Nat → Bool} {s1 s2 : List (Nat × Nat)} (h : s1 <:+ s2) :
    dfsMeasure n a vis s1 ≤ dfsMeasure n a vis s2 := by
  obtain ⟨t, rfl⟩ := h
  unfold dfsMeasure
  rw [List.map_append, List.sum_append]
  omega

/-- What one round does. -/
theorem dnAdvance_spec {n : Nat} {cap adjl c x a} {level : List Nat} {l : Nat → Nat} (hl : Rep level n l) {s : DnState} (N : Net n cap s.flow adjl c x a)
    {p : Nat → Nat} (hp : Rep s.prev n p) {vis : Nat → Bool} (hvis : Rep s.visited n vis) {u : Nat} (hu : u < n) (i : Nat) (stk : List (Nat × Nat)) :
    ((a u).length ≤ i ∧ dnAdvance cap adjl level s u i stk = some { s with stk := stk }) ∨
    (∃ v, (a u)[i]? = some v ∧ (vis v = true ∨ ¬ LEdge c x l a u v) ∧ dnAdvance cap adjl level s u i stk = some { s with stk := (u, i + 1) :: stk }) ∨
    (∃ v, (a u)[i]? = some v ∧ vis v = false ∧ LEdge c x l a u v ∧
      dnAdvance cap adjl level s u i stk = some { s with visited := s.visited.set v true, prev := s.prev.set v u, stk := (v, 0) :: (u, i + 1) :: stk }) := by
  have e0 : dnAdvance cap adjl level s u i stk = if i < (a u).length then (rd (a u) i).bind fun v =>
      (rd s.visited v).bind fun vis =>
      if vis then some { s with stk := (u, i + 1) :: stk }
      else (rd level v).bind fun lv => (rd level u).bind fun lu =>
        if lv ≠ lu + 1 then some { s with stk := (u, i + 1) :: stk }
        else (dnResid cap s.flow u v).bind fun b =>
          if b then (wr s.visited v true).bind fun visited => (wr s.prev v u).map fun prev =>
            { s with visited := visited, prev := prev, stk := (v, 0) :: (u, i + 1) :: stk }
          else some { s with stk := (u, i + 1) :: stk }
    else some { s with stk := stk } := by rw [dnAdvance, N.ha.rd hu, Option.bind_some]
  by_cases hi : i < (a u).length
  swap
  · exact Or.inl ⟨by omega, by rw [e0, if_neg hi]⟩
  right
  have hget : (a u)[i]? = some (a u)[i] := List.getElem?_eq_getElem hi
  have hmem : (a u)[i] ∈ a u := List.getElem_mem hi
  generalize (a u)[i] = v at hget hmem
  have hv := N.lt u v hmem
  rw [if_pos hi, show rd (a u) i = some v from hget, Option.bind_some, hvis.rd hv, Option.bind_some] at e0
  cases hvv : vis v with
  | true =>
    rw [hvv, if_pos rfl] at e0
    exact Or.inl ⟨v, hget, Or.inl hvv, e0⟩
  | false =>
    rw [hvv, if_neg (by simp), hl.rd hv, Option.bind_some, hl.rd hu, Option.bind_some] at e0
    by_cases hlv : l v = l u + 1
    swap
    · rw [if_pos hlv] at e0
      exact Or.inl ⟨v, hget, Or.inr (fun h => hlv h.2.1), e0⟩
    obtain ⟨b, eb, hb⟩ := dnResid_spec N.hc N.hx hu hv
    rw [if_neg (not_not.mpr hlv), eb, Option.bind_some] at e0
    cases b with
    | false =>
      rw [if_neg (by simp)] at e0
      exact Or.inl ⟨v, hget, Or.inr (fun h => by simpa using hb.mpr h.2.2), e0⟩
    | true =>
      rw [if_pos rfl, hvis.wr hv, Option.bind_some, hp.wr hv] at e0
      exact Or.inr ⟨v, hget, hvv, ⟨hmem, hlv, hb.mp rfl⟩, e0⟩

/-- After the sink was reached nothing more happens. -/
theorem dnLoop_rest {n : Nat} {cap adjl c x a} {level : List Nat} {l : Nat → Nat} (hl : Rep level n l) (inf : Int) {src sink : Nat} : ∀ (k : Nat) (s : DnState) (p : Nat → Nat) (vis : Nat → Bool),
    Net n cap s.flow adjl c x a → Rep s.prev n p → Rep s.visited n vis → vis sink = true → (∀ e ∈ s.stk, e.1 < n ∧ e.1 ≠ sink) → dfsMeasure n a vis s.stk ≤ k →
    ∀ fuel, k < fuel → dnLoop cap adjl level inf src sink fuel s = some (s.flow, s.ret) := by
  intro k
  induction k with
  | zero =>
    intro s p vis N hp hv hs hstk hk fuel hf
    obtain ⟨f, rfl⟩ : ∃ f, fuel = f + 1 := ⟨fuel - 1, by omega⟩
    cases hst : s.stk with
    | nil => rw [dnLoop, hst]
    | cons e stk => rw [hst] at hk; have := measure_pop (n := n) (a := a) (vis := vis) (e := e) (stk := stk); omega
  | succ k ih =>
    intro s p vis N hp hv hs hstk hk fuel hf
    obtain ⟨f, rfl⟩ : ∃ f, fuel = f + 1 := ⟨fuel - 1, by omega⟩
    cases hst : s.stk with
    | nil => rw [dnLoop, hst]
    | cons e stk =>
      obtain ⟨u, i⟩ := e
      rw [hst] at hk hstk
      obtain ⟨hu, hus⟩ := hstk _ List.mem_cons_self
      simp only at hu hus
      have hstk' : ∀ e ∈ stk, e.1 < n ∧ e.1 ≠ sink := fun e he => hstk e (List.mem_cons_of_mem _ he)
      have e0 : dnLoop cap adjl level inf src sink (f + 1) s = (dnAdvance cap adjl level s u i stk).bind fun s => dnLoop cap adjl level inf src sink f s := by
        rw [dnLoop, hst]
        simp only
        rw [if_neg hus]
      rw [e0]
      have hst' : ∀ j, ∀ e ∈ (u, j) :: stk, e.1 < n ∧ e.1 ≠ sink := fun j e he => by
        rcases List.mem_cons.mp he with rfl | he
        · exact ⟨hu, hus⟩
        · exact hstk' e he
      rcases dnAdvance_spec hl N hp hv hu i stk with ⟨h1, h2⟩ | ⟨v, h1, _, h3⟩ | ⟨v, h1, h2, h3, h4⟩
      · rw [h2, Option.bind_some]
        exact ih { s with stk := stk } p vis N hp hv hs hstk' (by have := measure_pop (n := n) (a := a) (vis := vis) (e := (u, i)) (stk := stk); simp only; omega) f (by omega)
      · rw [h3, Option.bind_some]
        have hi := (List.getElem?_eq_some_iff.mp h1).1
        exact ih { s with stk := (u, i + 1) :: stk } p vis N hp hv hs (hst' _) (by have := measure_skip (n := n) (vis := vis) (stk := stk) hi; simp only; omega) f (by omega)
      · rw [h4, Option.bind_some]
        have hi := (List.getElem?_eq_some_iff.mp h1).1
        have hvn := N.lt u v h3.1
        exact ih { s with visited := s.visited.set v true, prev := s.prev.set v u, stk := (v, 0) :: (u, i + 1) :: stk } _ _ N (hp.set v u) (hv.set v true) (by
            by_cases h : sink = v
            · rw [h, Function.update_self]
            · rw [Function.update_of_ne h]; exact hs) (fun e he => by
            rcases List.mem_cons.mp he with rfl | he
            · exact ⟨hvn, by rintro rfl; rw [hs] at h2; cases h2⟩
            · exact hst' _ e he) (by have := measure_push (n := n) (stk := stk) hvn h2 hi; simp only; omega) f (by omega)

/-- While the sink has not been reached. -/
structure DnSearch (n : Nat) (c x : Nat → Nat → Int) (l : Nat → Nat) (a : Nat → List Nat) (src sink : Nat) (p : Nat → Nat) (vis : Nat → Bool) (stk : List (Nat × Nat)) : Prop where
  back : ∀ v, v < n → vis v = true → v ≠ src → p v < n ∧ vis (p v) = true ∧ LEdge c x l a (p v) v
  start : vis src = true
  onstk : ∀ e ∈ stk, e.1 < n ∧ vis e.1 = true
  done : ∀ u, u < n → vis u = true → (∃ e ∈ stk, e.1 = u ∧ ∀ v ∈ (a u).take e.2, LEdge c x l a u v → vis v = true) ∨ ∀ v, LEdge c x l a u v → vis v = true
  sinkTop : vis sink = true → ∃ i stk', stk = (sink, i) :: stk'
  below : ∀ e ∈ stk.tail, e.1 ≠ sink

theorem path_exists {n : Nat} {c x l a} {src : Nat} {p : Nat → Nat} {vis : Nat → Bool} 
    (hb : ∀ v, v < n → vis v = true → v ≠ src → p v < n ∧ vis (p v) = true ∧ LEdge c x l a (p v) v) : ∀ (k v : Nat), l v ≤ k → v < n → vis v = true →
    ∃ es, PathTo p src v es ∧ ∀ e ∈ es, e.1 < n ∧ e.2 < n ∧ LEdge c x l a e.1 e.2 := by
  intro k
  induction k with
  | zero =>
    intro v hk hv hvis
    by_cases h : v = src
    · subst h; exact ⟨[], .nil, by simp⟩
    · obtain ⟨_, _, h3⟩ := hb v hv hvis h
      have := h3.2.1
      omega
  | succ k ih =>
    intro v hk hv hvis
    by_cases h : v = src
    · subst h; exact ⟨[], .nil, by simp⟩
    · obtain ⟨h1, h2, h3⟩ := hb v hv hvis h
      obtain ⟨es, e1, e2⟩ := ih (p v) (by have := h3.2.1; omega) h1 h2
      refine ⟨_, .cons h e1, fun e he => ?_⟩
      rcases List.mem_cons.mp he with rfl | he
      · exact ⟨h1, hv, h3⟩
      · exact e2 e he

theorem path_length {n : Nat} {p : Nat → Nat} {s : Nat} (l : Nat → Nat) {v : Nat} {es : List (Nat × Nat)} (h : PathTo p s v es) (hl : ∀ e ∈ es, l e.1 < l e.2) (hn : ∀ e ∈ es, e.2 < n) : es.length ≤ n := by
  have hnd : (es.map Prod.snd).Nodup ∧ ∀ w ∈ es.map Prod.snd, l w ≤ l v := by
    clear hn
    induction h with
    | nil => simp
    | @cons v es _ h ih =>
      have h1 := hl _ List.mem_cons_self
      simp only at h1
      obtain ⟨i1, i2⟩ := ih (fun e he => hl e (List.mem_cons_of_mem _ he))
      rw [List.map_cons]
      refine ⟨List.nodup_cons.mpr ⟨fun hc => ?_, i1⟩, fun w hw => ?_⟩
      · have := i2 _ hc; simp only at this; omega
      · rcases List.mem_cons.mp hw with rfl | hw
        · exact le_refl _
        · have := i2 w hw; omega
  have : (es.map Prod.snd) ⊆ List.range n := fun w hw => by
    obtain ⟨e, he, rfl⟩ := List.mem_map.mp hw
    exact List.mem_range.mpr (hn e he)
  have := (hnd.1.subperm this).length_le
  rwa [List.length_map, List.length_range] at this

theorem search_empty {n : Nat} {c x l a} {src sink : Nat} {p : Nat → Nat} {vis : Nat → Bool} (hsink : sink < n) (hls : l sink ≠ 0)
    (hj : Justified n (fun u v => v ∈ a u ∧ Res c x u v) src l) (h : DnSearch n c x l a src sink p vis []) : False := by
  have key : ∀ (k v : Nat), l v ≤ k → v < n → l v ≠ 0 → vis v = true := by
    intro k
    induction k with
    | zero => intro v h1 _ h2; omega
    | succ k ih =>
      intro v hk hv hlv
      rcases hj v hv hlv with ⟨rfl, _⟩ | ⟨u, h1, h2, h3, h4, h5⟩
      · exact h.start
      · have hu := ih u (by omega) h1 h2
        rcases h.done u h1 hu with ⟨e, he, _⟩ | hd
        · cases he
        · exact hd v ⟨h4, by omega, h5⟩
  obtain ⟨i, stk, hc⟩ := h.sinkTop (key _ sink (le_refl _) hsink hls)
  cases hc

theorem search_pop {n : Nat} {c x l a} {src sink : Nat} {p : Nat → Nat} {vis : Nat → Bool} {u i : Nat} {stk : List (Nat × Nat)} (h : DnSearch n c x l a src sink p vis ((u, i) :: stk))
    (hus : u ≠ sink) (hi : (a u).length ≤ i) : DnSearch n c x l a src sink p vis stk where
  back := h.back
  start := h.start
  onstk := fun e he => h.onstk e (List.mem_cons_of_mem _ he)
  done := fun w hw hvw => by
    rcases h.done w hw hvw with ⟨e, he, h1, h2⟩ | hd
    · rcases List.mem_cons.mp he with rfl | he
      · simp only at h1 h2
        subst h1
        rw [List.take_of_length_le hi] at h2
        exact Or.inr (fun v hv => h2 v hv.1 hv)
      · exact Or.inl ⟨e, he, h1, h2⟩
    · exact Or.inr hd
  sinkTop := fun hv => by
    obtain ⟨j, stk', hc⟩ := h.sinkTop hv
    cases hc
    exact absurd rfl hus
  below := fun e he => h.below e (List.mem_of_mem_tail he)

theorem search_skip {n : Nat} {c x l a} {src sink : Nat} {p : Nat → Nat} {vis : Nat → Bool} {u i v : Nat} {stk : List (Nat × Nat)} (h : DnSearch n c x l a src sink p vis ((u, i) :: stk))
    (hus : u ≠ sink) (hi : (a u)[i]? = some v) (hv : vis v = true ∨ ¬ LEdge c x l a u v) : DnSearch n c x l a src sink p vis ((u, i + 1) :: stk) where
  back := h.back
  start := h.start
  onstk := fun e he => by
    rcases List.mem_cons.mp he with rfl | he
    · exact h.onstk (u, i) List.mem_cons_self
    · exact h.onstk e (List.mem_cons_of_mem _ he)
  done := fun w hw hvw => by
    rcases h.done w hw hvw with ⟨e, he, h1, h2⟩ | hd
    · rcases List.mem_cons.mp he with rfl | he
      · simp only at h1 h2
        subst h1
        refine Or.inl ⟨_, List.mem_cons_self, rfl, fun y hy hye => ?_⟩
        rw [List.take_add_one, hi] at hy
        rcases List.mem_append.mp hy with hy | hy
        · exact h2 y hy hye
        · simp at hy
          subst hy
          exact hv.resolve_right (fun h => h hye)
      · exact Or.inl ⟨e, List.mem_cons_of_mem _ he, h1, h2⟩
    · exact Or.inr hd
  sinkTop := fun hv => by
    obtain ⟨j, stk', hc⟩ := h.sinkTop hv
    cases hc
    exact absurd rfl hus
  below := fun e he => h.below e he

theorem search_push {n : Nat} {c x l a} {src sink : Nat} {p : Nat → Nat} {vis : Nat → Bool} {u i v : Nat} {stk : List (Nat × Nat)} (h : DnSearch n c x l a src sink p vis ((u, i) :: stk))
    (hus : u ≠ sink) (hi : (a u)[i]? = some v) (hvn : v < n) (hv : vis v = false) (he : LEdge c x l a u v) :
    DnSearch n c x l a src sink (Function.update p v u) (Function.update vis v true) ((v, 0) :: (u, i + 1) :: stk) := by
  obtain ⟨hu, hvu⟩ := h.onstk (u, i) List.mem_cons_self
  simp only at hu hvu
  have hmono : ∀ w, vis w = true → Function.update vis v true w = true := fun w hw => by
    by_cases hwv : w = v
    · rw [hwv, Function.update_self]
    · rw [Function.update_of_ne hwv]; exact hw
  refine ⟨fun w hw hvw hws => ?_, hmono _ h.start, fun e hm => ?_, fun w hw hvw => ?_, fun hvs => ?_, fun e hm => ?_⟩
  · by_cases hwv : w = v
    · subst hwv
      rw [Function.update_self]
      exact ⟨hu, hmono u hvu, he⟩
    · rw [Function.update_of_ne hwv] at hvw ⊢
      obtain ⟨h1, h2, h3⟩ := h.back w hw hvw hws
      exact ⟨h1, hmono _ h2, h3⟩
  · rcases List.mem_cons.mp hm with rfl | hm
    · exact ⟨hvn, Function.update_self ..⟩
    · rcases List.mem_cons.mp hm with rfl | hm
      · exact ⟨hu, hmono u hvu⟩
      · obtain ⟨h1, h2⟩ := h.onstk e (List.mem_cons_of_mem _ hm)
        exact ⟨h1, hmono _ h2⟩
  · by_cases hwv : w = v
    · subst hwv
      exact Or.inl ⟨_, List.mem_cons_self, rfl, by simp⟩
    · rw [Function.update_of_ne hwv] at hvw
      rcases h.done w hw hvw with ⟨e, hm, h1, h2⟩ | hd
      · rcases List.mem_cons.mp hm with rfl | hm
        · simp only at h1 h2
          subst h1
          refine Or.inl ⟨(u, i + 1), List.mem_cons_of_mem _ List.mem_cons_self, rfl, fun y hy hye => ?_⟩
          rw [List.take_add_one, hi] at hy
          rcases List.mem_append.mp hy with hy | hy
          · exact hmono y (h2 y hy hye)
          · simp at hy
            subst hy
            exact Function.update_self ..
        · exact Or.inl ⟨e, List.mem_cons_of_mem _ (List.mem_cons_of_mem _ hm), h1, fun y hy hye => hmono y (h2 y hy hye)⟩
      · exact Or.inr (fun y hy => hmono y (hd y hy))
  · by_cases hsv : sink = v
    · exact ⟨0, _, by rw [hsv]⟩
    · rw [Function.update_of_ne hsv] at hvs
      obtain ⟨j, stk', hc⟩ := h.sinkTop hvs
      cases hc
      exact absurd rfl hus
  · rcases List.mem_cons.mp hm with rfl | hm
    · exact hus
    · exact h.below e hm

theorem dnLoop_spec {n : Nat} {cap adjl c x a} {level : List Nat} {l : Nat → Nat} (hl : Rep level n l) {inf : Int} {src sink : Nat} (hsrc : src < n) (hsink : sink < n) (hne : src ≠ sink)
    (hj : Justified n (fun u v => v ∈ a u ∧ Res c x u v) src l) (hls : l sink ≠ 0) (hb : ∀ u w, u < n → w < n → 0 ≤ x u w ∧ x u w ≤ c u w) (hinf : ∀ u w, u < n → w < n → c u w ≤ inf)
    {flow : List (List Int)} (N : Net n cap flow adjl c x a) :
    ∀ (k : Nat) (s : DnState) (p : Nat → Nat) (vis : Nat → Bool), s.flow = flow → s.ret = 0 → Rep s.prev n p → Rep s.visited n vis → DnSearch n c x l a src sink p vis s.stk →
    dfsMeasure n a vis s.stk ≤ k →
    ∃ flow' x' f, (∀ fuel, k < fuel → dnLoop cap adjl level inf src sink fuel s = some (flow', f)) ∧ 0 < f ∧ Mat flow' n x' ∧ (∀ u w, u < n → w < n → 0 ≤ x' u w ∧ x' u w ≤ c u w)
      ∧ ∀ v, flowValue n v x' = flowValue n v x + (if v = src then f else 0) - (if v = sink then f else 0) := by
  intro k
  induction k with
  | zero =>
    intro s p vis _ _ _ _ hse hk
    cases hst : s.stk with
    | nil => rw [hst] at hse; exact (search_empty hsink hls hj hse).elim
    | cons e stk => rw [hst] at hk; have := measure_pop (n := n) (a := a) (vis := vis) (e := e) (stk := stk); omega
  | succ k ih =>
    intro s p vis hflow hret hp hv hse hk
    cases hst : s.stk with
    | nil => rw [hst] at hse; exact (search_empty hsink hls hj hse).elim
    | cons e stk =>
      obtain ⟨u, i⟩ := e
      rw [hst] at hse hk
      obtain ⟨hu, hvu⟩ := hse.onstk _ List.mem_cons_self
      simp only at hu hvu
      have N' : Net n cap s.flow adjl c x a := hflow.symm ▸ N
      by_cases hus : u = sink
      · subst hus
        obtain ⟨es, hpath, hes⟩ := path_exists hse.back _ u (le_refl _) hu hvu
        have hlt : ∀ e ∈ es, l e.1 < l e.2 := fun e he => by have := (hes e he).2.2.2.1; omega
        have hlen := path_length l hpath hlt (fun e he => (hes e he).2.1)
        obtain ⟨f, e1, f1, f2, f3⟩ := dnPathFlow_spec N'.hc N'.hx hp hsrc hpath (fun e he => ⟨(hes e he).1, (hes e he).2.1⟩) (n + 1) inf (by omega)
        have hex : ∃ e ∈ es, f = resid c x e := by
          rcases f3 with f3 | f3
          · obtain ⟨e, he⟩ : ∃ e, e ∈ es := by
              cases hpath with
              | nil => exact absurd rfl hne
              | cons _ _ => exact ⟨_, List.mem_cons_self⟩
            refine ⟨e, he, le_antisymm (f2 e he) ?_⟩
            have b1 := hb _ _ (hes e he).1 (hes e he).2.1
            have b2 := hb _ _ (hes e he).2.1 (hes e he).1
            have c1 := hinf _ _ (hes e he).1 (hes e he).2.1
            have c2 := hinf _ _ (hes e he).2.1 (hes e he).1
            rw [f3, resid]
            split <;> omega
          · exact f3
        have hf0 : 0 < f := by
          obtain ⟨e, he, hfe⟩ := hex
          rw [hfe]
          exact resid_pos (hes e he).2.2.2.2
        obtain ⟨flow', x', b', e2, m1, m2, m3, _, m5⟩ := dnPathUpdate_spec N'.hc hp hsrc (le_of_lt hf0) l hpath (fun e he => ⟨(hes e he).1, (hes e he).2.1, hlt e he⟩) (n + 1)
          s.flow x 0 (by omega) N'.hx f2 hb
        obtain ⟨e, he, hbe⟩ := m5 hex
        have hbs : u ≠ b' := by
          rw [hbe]
          rintro rfl
          have := path_le l hpath hlt e he
          have := hlt e he
          omega
        have e3 : dnAugment cap inf src u s = some { s with flow := flow', stk := stk.dropWhile (fun e => decide (e.1 ≠ b')), ret := s.ret + f } := by
          rw [dnAugment, hp.len, e1, Option.bind_some, e2, Option.map_some, hst, List.dropWhile_cons_of_pos (by simpa using hbs)]
        have hsuf := List.dropWhile_suffix (fun e : Nat × Nat => decide (e.1 ≠ b')) (l := stk)
        refine ⟨flow', x', f, fun fuel hf => ?_, hf0, m1, m2, m3⟩
        obtain ⟨g, rfl⟩ : ∃ g, fuel = g + 1 := ⟨fuel - 1, by omega⟩
        rw [dnLoop, hst]
        show (if u = u then _ else _) = _
        rw [if_pos rfl, e3, Option.bind_some, dnLoop_rest hl inf k { s with flow := flow', stk := stk.dropWhile (fun e => decide (e.1 ≠ b')), ret := s.ret + f } p vis
          ⟨N.hc, m1, N.ha, N.lt⟩ hp hv hvu (fun e he => ⟨(hse.onstk e (List.mem_cons_of_mem _ (hsuf.subset he))).1, hse.below e (hsuf.subset he)⟩) (by
            have h1 := measure_suffix (n := n) (a := a) (vis := vis) hsuf
            have h2 := measure_pop (n := n) (a := a) (vis := vis) (e := (u, i)) (stk := stk)
            simp only
            omega) g (by omega)]
        simp only
        rw [hret, zero_add]
      · have e0 : ∀ f, dnLoop cap adjl level inf src sink (f + 1) s = (dnAdvance cap adjl level s u i stk).bind fun s => dnLoop cap adjl level inf src sink f s := fun f => by
          rw [dnLoop, hst]
          simp only
          rw [if_neg hus]
        have fin : ∀ s' p' vis', dnAdvance cap adjl level s u i stk = some s' → s'.flow = flow → s'.ret = 0 → Rep s'.prev n p' → Rep s'.visited n vis' →
            DnSearch n c x l a src sink p' vis' s'.stk → dfsMeasure n a vis' s'.stk ≤ k →
            ∃ flow' x' f, (∀ fuel, k + 1 < fuel → dnLoop cap adjl level inf src sink fuel s = some (flow', f)) ∧ 0 < f ∧ Mat flow' n x' ∧ (∀ u w, u < n → w < n → 0 ≤ x' u w ∧ x' u w ≤ c u w)
              ∧ ∀ v, flowValue n v x' = flowValue n v x + (if v = src then f else 0) - (if v = sink then f else 0) := by
          intro s' p' vis' h1 h2 h3 h4 h5 h6 h7
          obtain ⟨flow', x', f, k1, k2⟩ := ih s' p' vis' h2 h3 h4 h5 h6 h7
          refine ⟨flow', x', f, fun fuel hf => ?_, k2⟩
          obtain ⟨g, rfl⟩ : ∃ g, fuel = g + 1 := ⟨fuel - 1, by omega⟩
          rw [e0, h1, Option.bind_some, k1 g (by omega)]
        rcases dnAdvance_spec hl N' hp hv hu i stk with ⟨h1, h2⟩ | ⟨v, h1, h2, h3⟩ | ⟨v, h1, h2, h3, h4⟩
        · exact fin _ p vis h2 hflow hret hp hv (search_pop hse hus h1) (by have := measure_pop (n := n) (a := a) (vis := vis) (e := (u, i)) (stk := stk); simp only; omega)
        · have hi := (List.getElem?_eq_some_iff.mp h1).1
          exact fin _ p vis h3 hflow hret hp hv (search_skip hse hus h1 h2) (by have := measure_skip (n := n) (vis := vis) (stk := stk) hi; simp only; omega)
        · have hi := (List.getElem?_eq_some_iff.mp h1).1
          have hvn := N.lt u v h3.1
          exact fin _ _ _ h4 hflow hret (hp.set v u) (hv.set v true) (search_push hse hus h1 hvn h2 h3) (by have := measure_push (n := n) (stk := stk) hvn h2 hi; simp only; omega)

/-- A bound on the rounds of a phase. -/
def phaseBound (n : Nat) (a : Nat → List Nat) : Nat := n + 1 + ∑ v ∈ Finset.range n, ((a v).length + 2) + ∑ v ∈ Finset.range n, ((a v).length + 1)

theorem dnBlocking_spec {n : Nat} {cap adjl c x a} {level : List Nat} {l : Nat → Nat} (hl : Rep level n l) {inf : Int} {src sink : Nat} (hsrc : src < n) (hsink : sink < n) (hne : src ≠ sink)
    (hj : Justified n (fun u v => v ∈ a u ∧ Res c x u v) src l) (hls : l sink ≠ 0) (hb : ∀ u w, u < n → w < n → 0 ≤ x u w ∧ x u w ≤ c u w) (hinf : ∀ u w, u < n → w < n → c u w ≤ inf)
    {flow : List (List Int)} (N : Net n cap flow adjl c x a) :
    ∃ flow' x' f, (∀ fuel, phaseBound n a < fuel → dnBlocking fuel cap adjl level inf src sink flow = some (flow', f)) ∧ 0 < f ∧ Mat flow' n x'
      ∧ (∀ u w, u < n → w < n → 0 ≤ x' u w ∧ x' u w ≤ c u w)
      ∧ ∀ v, flowValue n v x' = flowValue n v x + (if v = src then f else 0) - (if v = sink then f else 0) := by
  have hz : ∀ w, Function.update (fun _ => false) src true w = true → w = src := fun w hw => by
    by_contra h; rw [Function.update_of_ne h] at hw; cases hw
  have hm : dfsMeasure n a (Function.update (fun _ => false) src true) [(src, 0)] ≤ phaseBound n a := by
    unfold dfsMeasure phaseBound
    have h1 : ∑ v ∈ (Finset.range n).filter (fun v => Function.update (fun _ => false) src true v = false), ((a v).length + 2) ≤ ∑ v ∈ Finset.range n, ((a v).length + 2) :=
      Finset.sum_le_sum_of_subset (Finset.filter_subset ..)
    have h2 : (a src).length + 1 ≤ ∑ v ∈ Finset.range n, ((a v).length + 1) :=
      Finset.single_le_sum (f := fun v => (a v).length + 1) (fun _ _ => Nat.zero_le _) (Finset.mem_range.mpr hsrc)
    simp only [List.map_cons, List.map_nil, List.sum_cons, List.sum_nil]
    omega
  obtain ⟨flow', x', f, h1, h2⟩ := dnLoop_spec hl hsrc hsink hne hj hls hb hinf N (phaseBound n a) ⟨flow, List.replicate n 0, (List.replicate n false).set src true, [(src, 0)], 0⟩ _ _ rfl rfl
    (Rep.replicate n 0) ((Rep.replicate n false).set src true)
    ⟨fun v _ hv hvs => absurd (hz v hv) hvs, Function.update_self .., fun e he => by rw [List.mem_singleton] at he; subst he; exact ⟨hsrc, Function.update_self ..⟩,
      fun u _ hu => Or.inl ⟨(src, 0), List.mem_singleton_self _, (hz u hu).symm, by simp⟩, fun h => absurd (hz _ h).symm hne, by simp⟩ hm
  refine ⟨flow', x', f, fun fuel hf => ?_, h2⟩
  rw [dnBlocking, N.ha.len, (Rep.replicate n false).wr hsrc, Option.bind_some]
  exact h1 fuel (by omega)

/-! ### The phases -/

/-- The end of the last phase. -/
theorem maximal {n : Nat} {c x : Nat → Nat → Int} {l : Nat → Nat} {a : Nat → List Nat} {src sink : Nat} (hsrc : src < n) (hx : IsFlow n c src sink x) 
    (ha : ∀ w y, y ∈ a w ↔ (w < n ∧ y < n ∧ w ≠ y ∧ Linked c w y))
    (hl : l src = 1) (hsink : l sink = 0) (hcl : ∀ w, w < n → l w ≠ 0 → ∀ v ∈ a w, Res c x w v → l v ≠ 0) :
    let S := (Finset.range n).filter (fun v => l v ≠ 0)
    src ∈ S ∧ sink ∉ S ∧ flowValue n src x = cutCap n c S := by
  intro S
  have h1 : src ∈ S := by simp [S, hsrc, hl]
  have h2 : sink ∉ S := by simp [S, hsink]
  refine ⟨h1, h2, ?_⟩
  rw [value_cut hx (Finset.filter_subset ..) h1 h2, cutCap]
  refine Finset.sum_congr rfl (fun u hu => Finset.sum_congr rfl (fun v hv => ?_))
  have hu' := Finset.mem_filter.mp hu
  have hun := Finset.mem_range.mp hu'.1
  have hvn := Finset.mem_range.mp (Finset.mem_sdiff.mp hv).1
  have hv0 : l v = 0 := by
    by_contra h
    exact (Finset.mem_sdiff.mp hv).2 (Finset.mem_filter.mpr ⟨Finset.mem_range.mpr hvn, h⟩)
  have huv : u ≠ v := by rintro rfl; exact hu'.2 hv0
  have b1 := hx.le u v hun hvn
  have b2 := hx.nonneg u v hun hvn
  have b3 := hx.le v u hvn hun
  have b4 := hx.nonneg v u hvn hun
  by_cases hli : Linked c u v
  · have hnr : ¬ Res c x u v := fun hr => hcl u hun hu'.2 v ((ha u v).mpr ⟨hun, hvn, huv, hli⟩) hr hv0
    unfold Res at hnr
    omega
  · unfold Linked at hli
    omega

theorem isFlow_of {n : Nat} {c x : Nat → Nat → Int} {src sink : Nat} (hb : ∀ u w, u < n → w < n → 0 ≤ x u w ∧ x u w ≤ c u w)
    (hv : ∀ v, v ≠ src → v ≠ sink → flowValue n v x = 0) : IsFlow n c src sink x :=
  ⟨fun u v hu hv => (hb u v hu hv).1, fun u v hu hv => (hb u v hu hv).2, fun u _ h1 h2 => by have := hv u h1 h2; rw [flowValue] at this; omega⟩

theorem dnPhases_spec {n : Nat} {cap adjl c a} (hc : Mat cap n c) (hadj : Rep adjl n a) (ha : ∀ w y, y ∈ a w ↔ (w < n ∧ y < n ∧ w ≠ y ∧ Linked c w y))
    {inf : Int} {src sink : Nat} (hsrc : src < n) (hsink : sink < n) (hne : src ≠ sink) (hc0 : ∀ u w, u < n → w < n → 0 ≤ c u w) (hinf : ∀ u w, u < n → w < n → c u w ≤ inf)
    {B : Int} (hB : B = ∑ v ∈ Finset.range n, c src v) :
    ∀ (k : Nat) (flow : List (List Int)) (x : Nat → Nat → Int) (f : Int), (B - f).toNat ≤ k → Mat flow n x → (∀ u w, u < n → w < n → 0 ≤ x u w ∧ x u w ≤ c u w) →
    (∀ v, v ≠ src → v ≠ sink → flowValue n v x = 0) → flowValue n src x = f →
    ∃ flow' x' f', (∀ fi fuel, phaseBound n a < fi → k < fuel → dnPhases fi cap adjl inf src sink fuel flow f = some (flow', f')) ∧ Mat flow' n x' ∧ IsFlow n c src sink x'
      ∧ flowValue n src x' = f' ∧ ∃ S ⊆ Finset.range n, src ∈ S ∧ sink ∉ S ∧ f' = cutCap n c S := by
  intro k
  induction k with
  | zero =>
    intro flow x f hk hx hb hv hf
    have N : Net n cap flow adjl c x a := ⟨hc, hx, hadj, fun u v h => ((ha u v).mp h).2.1⟩
    obtain ⟨level, l, h1, h2, h3, h4, h5⟩ := dnLevels_spec N hsrc
    have hls : l sink = 0 := by
      by_contra hls
      obtain ⟨flow1, x1, f1, k1, k2, k3, k4, k5⟩ := dnBlocking_spec h2 hsrc hsink hne h3 hls hb hinf N
      have h6 := k5 src
      rw [if_pos rfl, if_neg hne] at h6
      have h7 : flowValue n src x1 ≤ B := by
        rw [flowValue, hB]
        have g1 : ∑ v ∈ Finset.range n, x1 src v ≤ ∑ v ∈ Finset.range n, c src v := Finset.sum_le_sum (fun v hv => (k4 src v hsrc (Finset.mem_range.mp hv)).2)
        have g2 : 0 ≤ ∑ v ∈ Finset.range n, x1 v src := Finset.sum_nonneg (fun v hv => (k4 v src (Finset.mem_range.mp hv) hsrc).1)
        omega
      omega
    have hfl := isFlow_of hb hv
    obtain ⟨m1, m2, m3⟩ := maximal hsrc hfl ha h4 hls h5
    refine ⟨flow, x, f, fun fi fuel hfi hfu => ?_, hx, hfl, hf, _, Finset.filter_subset .., m1, m2, by rw [← hf]; exact m3⟩
    obtain ⟨g, rfl⟩ : ∃ g, fuel = g + 1 := ⟨fuel - 1, by omega⟩
    rw [dnPhases, h1 fi (by unfold phaseBound at hfi; omega), Option.bind_some, h2.rd hsink, Option.bind_some, if_neg (not_not.mpr hls)]
  | succ k ih =>
    intro flow x f hk hx hb hv hf
    have N : Net n cap flow adjl c x a := ⟨hc, hx, hadj, fun u v h => ((ha u v).mp h).2.1⟩
    obtain ⟨level, l, h1, h2, h3, h4, h5⟩ := dnLevels_spec N hsrc
    by_cases hls : l sink = 0
    · have hfl := isFlow_of hb hv
      obtain ⟨m1, m2, m3⟩ := maximal hsrc hfl ha h4 hls h5
      refine ⟨flow, x, f, fun fi fuel hfi hfu => ?_, hx, hfl, hf, _, Finset.filter_subset .., m1, m2, by rw [← hf]; exact m3⟩
      obtain ⟨g, rfl⟩ : ∃ g, fuel = g + 1 := ⟨fuel - 1, by omega⟩
      rw [dnPhases, h1 fi (by unfold phaseBound at hfi; omega), Option.bind_some, h2.rd hsink, Option.bind_some, if_neg (not_not.mpr hls)]
    · obtain ⟨flow1, x1, f1, k1, k2, k3, k4, k5⟩ := dnBlocking_spec h2 hsrc hsink hne h3 hls hb hinf N
      have h6 := k5 src
      rw [if_pos rfl, if_neg hne] at h6
      have h7 : flowValue n src x1 ≤ B := by
        rw [flowValue, hB]
        have g1 : ∑ v ∈ Finset.range n, x1 src v ≤ ∑ v ∈ Finset.range n, c src v := Finset.sum_le_sum (fun v hv => (k4 src v hsrc (Finset.mem_range.mp hv)).2)
        have g2 : 0 ≤ ∑ v ∈ Finset.range n, x1 v src := Finset.sum_nonneg (fun v hv => (k4 v src (Finset.mem_range.mp hv) hsrc).1)
        omega
      obtain ⟨flow', x', f', e1, r⟩ := ih flow1 x1 (f + f1) (by omega) k3 k4 (fun v h8 h9 => by rw [k5 v, hv v h8 h9, if_neg h8, if_neg h9]; rfl) (by omega)
      refine ⟨flow', x', f', fun fi fuel hfi hfu => ?_, r⟩
      obtain ⟨g, rfl⟩ : ∃ g, fuel = g + 1 := ⟨fuel - 1, by omega⟩
      rw [dnPhases, h1 fi (by unfold phaseBound at hfi; omega), Option.bind_some, h2.rd hsink, Option.bind_some, if_pos hls, k1 fi hfi, Option.bind_some, e1 fi g hfi (by omega)]

/-- For every square matrix of capacities and two different nodes the computation ends with a flow; no flow has a greater value
than the result, and the result is the capacity of a cut. -/
theorem C100_max_flow {cap : List (List Int)} {n : Nat} {c : Nat → Nat → Int} (hc : Mat cap n c) (inf : Int) {src sink : Nat} (hsrc : src < n) (hsink : sink < n) (hne : src ≠ sink)
    (hc0 : ∀ u v, u < n → v < n → 0 ≤ c u v) (hinf : ∀ u v, u < n → v < n → c u v ≤ inf) :
    ∃ flow x f, (∃ fuel0, ∀ fuel, fuel0 ≤ fuel → dinic fuel cap inf src sink = some (flow, f)) ∧ Mat flow n x ∧ IsFlow n c src sink x ∧ flowValue n src x = f
      ∧ (∀ y, IsFlow n c src sink y → flowValue n src y ≤ f) ∧ ∃ S ⊆ Finset.range n, src ∈ S ∧ sink ∉ S ∧ f = cutCap n c S := by
  obtain ⟨adjl, a, e, h1, h2⟩ := dnAdj_spec hc
  have h0 : ∀ v, flowValue n v (fun _ _ => 0) = 0 := fun v => by simp [flowValue]
  obtain ⟨flow, x, f, k1, k2, k3, k4, S, s1, s2, s3, s4⟩ := dnPhases_spec hc h1 h2 hsrc hsink hne hc0 hinf rfl _ (List.replicate n (List.replicate n 0)) (fun _ _ => 0) 0 (le_refl _)
    (Mat.replicate n 0) (fun u w hu hw => ⟨le_refl _, hc0 u w hu hw⟩) (fun v _ _ => h0 v) (h0 src)
  refine ⟨flow, x, f, ⟨phaseBound n a + (∑ v ∈ Finset.range n, c src v - 0).toNat + 1, fun fuel hf => ?_⟩, k2, k3, k4, fun y hy => ?_, S, s1, s2, s3, s4⟩
  · rw [dinic, e, Option.bind_some, if_neg hne, h1.len]
    exact k1 fuel fuel (by omega) (by omega)
  · rw [s4]
    exact value_le_cut hy s1 s2 s3

/-- From a node to itself nothing flows. -/
theorem C100_same_node {cap : List (List Int)} {n : Nat} {c : Nat → Nat → Int} (hc : Mat cap n c) (inf : Int) (fuel src : Nat) :
    (dinic fuel cap inf src src).map Prod.snd = some 0 := by
  obtain ⟨adjl, a, e, _⟩ := dnAdj_spec hc
  rw [dinic, e, Option.bind_some, if_pos rfl]
  rfl

/-! ### Examples -/

example : (dinic 100 [[0, 3, 2, 0], [0, 0, 1, 2], [0, 0, 0, 2], [0, 0, 0, 0]] 1000 0 3).map Prod.snd = some 4 := by decide +kernel
/-- The second path sends back what the first one took. -/
example : dinic 100 [[0, 1, 1, 0], [0, 0, 1, 1], [0, 0, 0, 1], [0, 0, 0, 0]] 1 0 3 = some ([[0, 1, 1, 0], [0, 0, 0, 1], [0, 0, 0, 1], [0, 0, 0, 0]], 2) := by decide +kernel
example : ∃ c : Nat → Nat → Int, Mat [[0, 3, 2, 0], [0, 0, 1, 2], [0, 0, 0, 2], [0, 0, 0, 0]] 4 c ∧ (∀ u v, u < 4 → v < 4 → 0 ≤ c u v) ∧ (∀ u v, u < 4 → v < 4 → c u v ≤ 1000) := by
  refine ⟨fun u v => (([[0, 3, 2, 0], [0, 0, 1, 2], [0, 0, 0, 2], [0, 0, 0, 0]] : List (List Int)).getD u []).getD v 0, ⟨rfl, fun u hu => ?_⟩, fun u v hu hv => ?_, fun u v hu hv => ?_⟩
  · rcases u with _ | _ | _ | _ | u
    · exact ⟨_, rfl, Rep.self _⟩
    · exact ⟨_, rfl, Rep.self _⟩
    · exact ⟨_, rfl, Rep.self _⟩
    · exact ⟨_, rfl, Rep.self _⟩
    · omega
  · exact (by decide : ∀ u < 4, ∀ v < 4, (0 : Int) ≤ (([[0, 3, 2, 0], [0, 0, 1, 2], [0, 0, 0, 2], [0, 0, 0, 0]] : List (List Int)).getD u []).getD v 0) u hu v hv
  · exact (by decide : ∀ u < 4, ∀ v < 4, (([[0, 3, 2, 0], [0, 0, 1, 2], [0, 0, 0, 2], [0, 0, 0, 0]] : List (List Int)).getD u []).getD v 0 ≤ 1000) u hu v hv

end Altruct.GraphAlg
