/-
The tour of `chain_decomposition`: its depth-first forest.
-/
import Verif.Chain.Tree
import Verif.Chain.Model
import Verif.GraphAlg.TopoProps

namespace Altruct.Chain

open GraphAlg Forest Relation

/-- What the visitor does for a sequence of nodes. -/
def enters : List (Int × Nat × Bool) → Tour → Option Tour
  | [], t => some t
  | c :: l, t => (enter t c.1 c.2.1).bind (enters l)

theorem enters_append (l l' : List (Int × Nat × Bool)) (t : Tour) : enters (l ++ l') t = (enters l t).bind (enters l') := by
  induction l generalizing t with
  | nil => rfl
  | cons c l ih =>
    rw [List.cons_append, enters, enters]
    cases enter t c.1 c.2.1 with
    | none => rfl
    | some t => exact ih t

theorem feed_events (o : Int) (F : Forest) : Full F → ∀ (p d : Int) (t t' : Tour), enters (F.calls p) t = some t' →
    feed visit (fun _ _ => true) (F.events o p d) t = some t' := by
  induction F with
  | nil => intro _ p d t t' h; exact h
  | skip v r ih => intro h; exact h.elim
  | node v cs r ih1 ih2 =>
    intro hf p d t t' h
    rw [calls, List.cons_append, enters] at h
    obtain ⟨t1, h1, h2⟩ := Option.bind_eq_some_iff.mp h
    rw [enters_append] at h2
    obtain ⟨t2, h3, h4⟩ := Option.bind_eq_some_iff.mp h2
    rw [events, feed]
    unfold visit
    rw [if_pos (by omega), Int.toNat_natCast, h1]
    simp only [Option.map_some]
    rw [if_pos (Or.inr trivial), feed_append]
    rw [show feed (fun t _ parent node _ => if node ≠ -1 then (enter t parent node.toNat).map (·, true) else some (t, true)) (fun _ _ => true)
      (cs.events o v (d + 1)) t1 = some t2 from ih1 hf.1 v (d + 1) t1 t2 h3]
    rw [Option.bind_some, feed, if_neg (by simp)]
    simp only
    rw [if_pos (Or.inl trivial)]
    exact ih2 hf.2 p d t2 t' h4

theorem feed_rootEvents (F : Forest) : Full F → ∀ (t t' : Tour), enters (F.calls (-1)) t = some t' →
    feed visit (fun _ _ => true) F.rootEvents t = some t' := by
  induction F with
  | nil => intro _ t t' h; exact h
  | skip v r ih => intro h; exact h.elim
  | node v cs r _ ih2 =>
    intro hf t t' h
    rw [calls, List.cons_append, enters] at h
    obtain ⟨t1, h1, h2⟩ := Option.bind_eq_some_iff.mp h
    rw [enters_append] at h2
    obtain ⟨t2, h3, h4⟩ := Option.bind_eq_some_iff.mp h2
    rw [rootEvents, feed]
    unfold visit
    rw [if_pos (by omega), Int.toNat_natCast, h1]
    simp only [Option.map_some]
    rw [if_pos (Or.inr trivial), feed_append]
    rw [show feed (fun t _ parent node _ => if node ≠ -1 then (enter t parent node.toNat).map (·, true) else some (t, true)) (fun _ _ => true)
      (cs.events v v 1) t1 = some t2 from feed_events v cs hf.1 v 1 t1 t2 h3]
    rw [Option.bind_some, feed, if_neg (by simp)]
    simp only
    rw [if_pos (Or.inl trivial)]
    exact ih2 hf.2 t2 t' h4

theorem calls_pre (F : Forest) : Full F → ∀ p, (F.calls p).map (fun c => c.2.1) = F.pre := by
  induction F with
  | nil => intro _ p; rfl
  | skip v r ih => intro h; exact h.elim
  | node v cs r ih1 ih2 => intro hf p; simp [calls, pre, ih1 hf.1, ih2 hf.2]

theorem enters_spec (n : Nat) : ∀ (l : List (Int × Nat × Bool)) (que : List Nat) (ord par : List Int) (fo fp : Nat → Int), Rep ord n fo → Rep par n fp →
    (l.map (fun c => c.2.1)).Nodup → (∀ c ∈ l, c.2.1 < n) → ∃ ord' par' fo' fp', enters l (que, ord, par) = some (que ++ l.map (fun c => c.2.1), ord', par') ∧
      Rep ord' n fo' ∧ Rep par' n fp' ∧ (∀ x, x ∉ l.map (fun c => c.2.1) → fo' x = fo x ∧ fp' x = fp x) ∧
      ∀ c ∈ l, fp' c.2.1 = c.1 ∧ fo' c.2.1 = que.length + (l.map (fun c => c.2.1)).idxOf c.2.1 + 1 := by
  intro l
  induction l with
  | nil =>
    intro que ord par fo fp h1 h2 _ _
    exact ⟨ord, par, fo, fp, by simp [enters], h1, h2, fun _ _ => ⟨rfl, rfl⟩, by simp⟩
  | cons c l ih =>
    intro que ord par fo fp h1 h2 hn hl
    have hc := hl c (by simp)
    rw [List.map_cons, List.nodup_cons] at hn
    obtain ⟨ord', par', fo', fp', e, r1, r2, r3, r4⟩ := ih (que ++ [c.2.1]) _ _ _ _ (h1.set c.2.1 (((que ++ [c.2.1]).length : Nat) : Int)) (h2.set c.2.1 c.1) hn.2
      (fun x hx => hl x (by simp [hx]))
    refine ⟨ord', par', fo', fp', ?_, r1, r2, fun x hx => ?_, fun x hx => ?_⟩
    · rw [enters]
      unfold enter
      simp only
      rw [h1.wr hc, Option.bind_some, h2.wr hc, Option.map_some, Option.bind_some, e]
      simp
    · simp only [List.map_cons, List.mem_cons, not_or] at hx
      obtain ⟨k1, k2⟩ := r3 x hx.2
      rw [k1, k2, Function.update_of_ne hx.1, Function.update_of_ne hx.1]
      exact ⟨rfl, rfl⟩
    · rcases List.mem_cons.mp hx with rfl | hx
      · obtain ⟨k1, k2⟩ := r3 x.2.1 hn.1
        rw [k1, k2, Function.update_self, Function.update_self]
        simp
      · obtain ⟨k1, k2⟩ := r4 x hx
        have : c.2.1 ≠ x.2.1 := fun hc => hn.1 (by rw [hc]; exact List.mem_map_of_mem hx)
        refine ⟨k1, ?_⟩
        rw [k2, List.map_cons, List.idxOf_cons_ne _ this]
        simp
        omega

/-! ### The order of the nodes -/

theorem pre_idx {F : Forest} (hn : F.pre.Nodup) : (∀ {a v : Nat}, F.Anc a v → a ≠ v → F.pre.idxOf a < F.pre.idxOf v) ∧
    ∀ {a v x : Nat}, F.Anc a v → x ∈ F.pre → F.pre.idxOf a < F.pre.idxOf x → ¬ F.Anc a x → F.pre.idxOf v < F.pre.idxOf x := by
  induction F with
  | nil => exact ⟨fun h => h.elim, fun h => h.elim⟩
  | skip v r ih => exact ih hn
  | node w cs r ih1 ih2 =>
    obtain ⟨n1, n2, n3, n4, n5⟩ := nodup_node hn
    have iw : (node w cs r).pre.idxOf w = 0 := by simp [pre]
    have ic : ∀ x ∈ cs.pre, (node w cs r).pre.idxOf x = 1 + cs.pre.idxOf x ∧ cs.pre.idxOf x < cs.pre.length := fun x hx => by
      have : w ≠ x := by rintro rfl; exact n1 hx
      refine ⟨?_, List.idxOf_lt_length_of_mem hx⟩
      simp only [pre, List.cons_append]
      rw [List.idxOf_cons_ne _ this, List.idxOf_append_of_mem hx]
      omega
    have ir : ∀ x ∈ r.pre, (node w cs r).pre.idxOf x = 1 + cs.pre.length + r.pre.idxOf x := fun x hx => by
      have : w ≠ x := by rintro rfl; exact n2 hx
      simp only [pre, List.cons_append]
      rw [List.idxOf_cons_ne _ this, List.idxOf_append_of_notMem (fun hc => n5 x hc hx)]
      omega
    constructor
    · intro a v h hne
      rcases h with ⟨rfl, rfl | h⟩ | h | h
      · exact absurd rfl hne
      · rw [iw, (ic v h).1]; omega
      · rw [(ic a (anc_mem h)).1, (ic v (anc_mem_right h)).1]
        have := (ih1 n3).1 h hne
        omega
      · rw [ir a (anc_mem h), ir v (anc_mem_right h)]
        have := (ih2 n4).1 h hne
        omega
    · intro a v x h hx hlt hno
      rcases h with ⟨rfl, h⟩ | h | h
      · rcases mem_pre_node.mp hx with rfl | hx | hx
        · omega
        · exact absurd (Or.inl ⟨rfl, Or.inr hx⟩) hno
        · rw [ir x hx]
          rcases h with rfl | h
          · omega
          · have := ic v h; omega
      · have ha := ic a (anc_mem h)
        have hv := ic v (anc_mem_right h)
        rcases mem_pre_node.mp hx with rfl | hx | hx
        · omega
        · have hx' := ic x hx
          have := (ih1 n3).2 h hx (by omega) (fun hc => hno (Or.inr (Or.inl hc)))
          omega
        · have := ir x hx; omega
      · have ha := ir a (anc_mem h)
        have hv := ir v (anc_mem_right h)
        rcases mem_pre_node.mp hx with rfl | hx | hx
        · omega
        · have := ic x hx; omega
        · have hx' := ir x hx
          have := (ih2 n4).2 h hx (by omega) (fun hc => hno (Or.inr (Or.inr hc)))
          omega

/-- Without directions, an edge connects a node with an ancestor. -/
theorem edge_anc {g : List (List Nat)} {F : Forest} (hF : IsDfs g (fun _ _ => true) (List.range g.length) F)
    (hm : ∀ x, x < g.length → x ∈ F.pre) (hg : Valid g) (hsym : ∀ x y, Edge g x y → Edge g y x) {x y : Nat} (hxy : Edge g x y) : F.Anc x y ∨ F.Anc y x := by
  have hnp : F.post.Nodup := (post_perm F).nodup_iff.mpr hF.nodup
  have hx : x < g.length := hg _ _ (hsym _ _ hxy)
  have hy : y < g.length := hg _ _ hxy
  rcases hF.edges x (hm x hx) y hxy with k1 | k1 | k1
  · rcases hF.edges y (hm y hy) x (hsym _ _ hxy) with k2 | k2 | k2
    · exfalso
      obtain ⟨l1, l2, e, m1, m2⟩ := List.cons_sublist_iff.mp k1
      rw [List.singleton_sublist] at m2
      obtain ⟨l3, l4, e', m3, m4⟩ := List.cons_sublist_iff.mp k2
      rw [List.singleton_sublist] at m4
      by_cases hle : l3.length ≤ l1.length
      · have : l3 <+: l1 := List.prefix_of_prefix_length_le (e' ▸ List.prefix_append ..) (e ▸ List.prefix_append ..) hle
        have hx1 := this.subset m3
        rw [e] at hnp
        exact (List.nodup_append.mp hnp).2.2 x hx1 x m2 rfl
      · have : l1 <+: l3 := List.prefix_of_prefix_length_le (e ▸ List.prefix_append ..) (e' ▸ List.prefix_append ..) (by omega)
        have hx1 := this.subset m1
        rw [e'] at hnp
        exact (List.nodup_append.mp hnp).2.2 y hx1 y m4 rfl
    · exact Or.inl k2
    · cases k2
  · exact Or.inr k1
  · cases k1

/-- What the tour leaves behind. -/
theorem tour_spec {g : List (List Nat)} (hg : Valid g) (hsym : ∀ x y, Edge g x y → Edge g y x) :
    ∃ (que : List Nat) (ord par : List Int) (fp : Nat → Int) (A : Nat → Nat → Prop) (ix : Nat → Nat), DT g fp A ix ∧ Rep ord g.length (fun v => (ix v : Int) + 1) ∧
      Rep par g.length fp ∧ que.length = g.length ∧ (∀ i u, que[i]? = some u → ix u = i ∧ u < g.length) ∧ (∀ v, v < g.length → ix v < g.length) ∧
      ∃ fuel0, ∀ fuel ≥ fuel0, tour fuel g = some (que, ord, par) := by
  obtain ⟨F, hF, hrun⟩ := C95_iterative_dfs g hg (-1) (Or.inl rfl) (fun _ _ => true)
  rw [if_pos rfl] at hF
  have hperm := C95_dfs_all hg hF
  have hlt : ∀ x ∈ F.pre, x < g.length := fun x hx => List.mem_range.mp (hperm.mem_iff.mp hx)
  have hm : ∀ x, x < g.length → x ∈ F.pre := fun x hx => hperm.mem_iff.mpr (List.mem_range.mpr hx)
  have hfull : Full F := full_of_calls (fun q v b hc => hF.answers q v b hc)
  have hcp := calls_pre F hfull (-1)
  obtain ⟨ord, par, fo, fp, e, r1, r2, _, r4⟩ := enters_spec g.length (F.calls (-1)) [] _ _ _ _ (Rep.replicate g.length (-1)) (Rep.replicate g.length (-1))
    (by rw [hcp]; exact hF.nodup) (fun c hc => hlt _ (by rw [← hcp]; exact List.mem_map_of_mem hc))
  rw [hcp, List.nil_append] at e
  rw [hcp] at r4
  have hlen : F.pre.length = g.length := by rw [hperm.length_eq, List.length_range]
  have hix : ∀ v, v < g.length → F.pre.idxOf v < F.pre.length := fun v hv => List.idxOf_lt_length_of_mem (hm v hv)
  refine ⟨F.pre, ord, par, fp, F.Anc, F.pre.idxOf, ⟨hg, hsym, fun a v h => ⟨hlt _ (anc_mem h), hlt _ (anc_mem_right h)⟩, fun v hv => anc_refl (hm v hv),
    fun h1 h2 => anc_trans hF.nodup h1 h2, fun h1 h2 => anc_antisymm hF.nodup h1 h2, fun h1 h2 => anc_linear hF.nodup h1 h2, fun v hv => ?_,
    fun h hne => (pre_idx hF.nodup).1 h hne, fun ha hb h => ?_, fun h => edge_anc hF hm hg hsym h, fun h hx h1 h2 => (pre_idx hF.nodup).2 h (hm _ hx) h1 h2⟩,
    r1.congr (fun v hv => ?_), r2, hlen, fun i u h => ?_, fun v hv => hlen ▸ hix v hv, hrun _ _ _ _ (feed_rootEvents F hfull _ _ e)⟩
  · rcases par_of hfull hF.nodup hF.ordered (-1) v (hm v hv) with ⟨_, h2, h3⟩ | ⟨q, h1, h2, h3, h4, h5⟩
    · exact Or.inl ⟨(r4 _ h2).1, h3⟩
    · refine Or.inr ⟨q, (r4 _ h2).1, ?_, h3, h4, h5⟩
      rintro rfl
      rcases dep_calls hF.nodup hfull (-1) 0 _ _ _ h2 with ⟨h, _⟩ | ⟨w, _, hw, h⟩
      · omega
      · rw [show w = q by omega] at h; omega
  · have ha' := List.getElem_idxOf (hix _ ha)
    have hb' := List.getElem_idxOf (hix _ hb)
    rw [← ha', ← hb']
    exact getElem_congr_idx h
  · obtain ⟨c, hc, hcv⟩ := List.mem_map.mp (by rw [hcp]; exact hm v hv : v ∈ (F.calls (-1)).map (fun c => c.2.1))
    have := (r4 c hc).2
    rw [hcv] at this
    rw [this]
    simp
  · obtain ⟨hi, hu⟩ := List.getElem?_eq_some_iff.mp h
    exact ⟨by rw [← hu]; exact hF.nodup.idxOf_getElem i hi, hlt u (List.mem_of_getElem? h)⟩

end Altruct.Chain
