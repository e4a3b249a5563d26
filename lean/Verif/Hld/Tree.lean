/-
Depth-first forests of rooted forests.
-/
import Verif.Hld.Model
import Verif.Hld.Spec
import Verif.GraphAlg.TopoProps
import Verif.GraphAlg.LcaProps
import Verif.Chain.Tour

namespace Altruct.Hld

open GraphAlg Forest Relation

variable {g : List (List Nat)} {up : Nat → Int} {dep : Nat → Nat}

/-- A top node of a depth-first forest over all nodes is the least node of its tree. -/
theorem dfs_min {p : Int} {es : List Nat} {vis vis' : Finset Nat} {F : Forest} (h : Dfs g (fun _ _ => true) p es vis F vis') :
    es.Pairwise (· < ·) → (∀ e ∈ es, ∀ x, x ∉ vis → x < e → x ∈ es) → ∀ v ∈ F.heads, ∀ x, F.Anc v x → v ≤ x := by
  induction h with
  | nil => intro _ _ v hv; simp [Forest.heads] at hv
  | seen hv h ih =>
    rename_i p v es vis F vis'
    intro hs ha
    refine ih (List.pairwise_cons.mp hs).2 fun e he x hx hxe => ?_
    rcases List.mem_cons.mp (ha e (List.mem_cons_of_mem _ he) x hx hxe) with rfl | h
    · exact absurd hv hx
    · exact h
  | skip _ he _ _ => cases he
  | node hv _he hl h1 h2 _ih1 ih2 =>
    rename_i p v es vis F vis' l cs vis1
    intro hs ha w hw x hx
    have hd := (Dfs.node hv rfl hl h1 h2 : Dfs g (fun _ _ => true) p (v :: es) vis (.node v cs F) vis').disj
    have hmin : ∀ x, x ∉ vis → v ≤ x := by
      intro x hx
      by_contra hc
      rcases List.mem_cons.mp (ha v (by simp) x hx (by omega)) with rfl | h
      · omega
      · exact absurd ((List.pairwise_cons.mp hs).1 x h) (by omega)
    obtain ⟨n1, n2, n3, n4, n5⟩ := nodup_node hd.1
    rcases List.mem_cons.mp hw with rfl | hw
    · exact hmin x (hd.2 x (anc_mem_right hx))
    · have hw' : w ∈ F.pre := by
        have : ∀ (F : Forest), Full F → ∀ w ∈ F.heads, w ∈ F.pre := by
          intro F
          induction F with
          | nil => intro _ w hw; simp [Forest.heads] at hw
          | skip _ _ _ => intro hf; exact hf.elim
          | node a b c _ ih => intro hf w hw; rcases List.mem_cons.mp hw with rfl | hw
                               · simp [pre]
                               · simp [pre, ih hf.2 w hw]
        exact this F (full_of_calls (fun q v b hc => h2.answers q v b hc)) w hw
      refine ih2 (List.pairwise_cons.mp hs).2 (fun e he x hx hxe => ?_) w hw x ?_
      · have hx' : x ∉ vis ∧ x ≠ v := by
          have : x ∉ insert v vis := fun hc => hx ((h1.mem x).mpr (Or.inl hc))
          rw [Finset.mem_insert] at this
          exact ⟨fun hc => this (Or.inr hc), fun hc => this (Or.inl hc)⟩
        rcases List.mem_cons.mp (ha e (List.mem_cons_of_mem _ he) x hx'.1 hxe) with h | h
        · exact absurd h hx'.2
        · exact h
      · rcases hx with ⟨h, _⟩ | h | h
        · exact absurd (h ▸ hw') n2
        · exact absurd hw' (n5 _ (anc_mem h))
        · exact h

/-- `iterative_dfs` over all nodes with a visitor that always answers `true`. -/
theorem dfs_exists (g : List (List Nat)) (hg : Valid g) : ∃ F, IsDfs g (fun _ _ => true) (List.range g.length) F ∧
    (∀ v ∈ F.heads, ∀ x, F.Anc v x → v ≤ x) ∧
    ∀ (σ : Type) (visitor : Visitor σ) (s s' : σ), feed visitor (fun _ _ => true) F.rootEvents s = some s' →
        ∃ fuel0, ∀ fuel, fuel0 ≤ fuel → iterativeDfs fuel g visitor (-1) s = some s' := by
  have hr : dfsRange g.length (-1) = List.range g.length := by unfold dfsRange; rw [if_neg (by simp)]
  have hlt : ∀ o ∈ List.range g.length, o < g.length := fun o => List.mem_range.mp
  obtain ⟨F, vis', h⟩ := exists_dfs (enter := fun _ _ => true) hg _ (List.range g.length) (-1) ∅ hlt (le_refl _)
  refine ⟨F, h.isDfs, dfs_min h List.pairwise_lt_range (fun e he x _ hx => List.mem_range.mpr (by have := List.mem_range.mp he; omega)), fun σ visitor s s' hf => ?_⟩
  obtain ⟨f0, e⟩ := h.simRoots hg rfl hlt (List.replicate g.length 0) s s' ((Rep.replicate g.length 0).congr (fun _ _ => by simp)) hf
  exact ⟨f0, fun fuel hfu => by rw [iterativeDfs, hr]; exact e fuel hfu⟩

/-! ### Calls -/

theorem call_unique {F : Forest} (hf : Full F) (hn : F.pre.Nodup) {p q q' : Int} {v : Nat} {b b' : Bool} (h : (q, v, b) ∈ F.calls p) (h' : (q', v, b') ∈ F.calls p) : q = q' := by
  have hnd : ((F.calls p).map (fun c => c.2.1)).Nodup := by rw [Chain.calls_pre F hf p]; exact hn
  have := List.inj_on_of_nodup_map hnd h h' rfl
  exact congrArg Prod.fst this

theorem call_mem {F : Forest} (hf : Full F) {p q : Int} {v : Nat} {b : Bool} (h : (q, v, b) ∈ F.calls p) : v ∈ F.pre := by
  rw [← Chain.calls_pre F hf p]
  exact List.mem_map_of_mem (f := fun c : Int × Nat × Bool => c.2.1) h

theorem call_parent {F : Forest} {p q : Int} {v : Nat} {b : Bool} (h : (q, v, b) ∈ F.calls p) : (q = p ∧ v ∈ F.heads) ∨ ∃ w ∈ F.pre, q = (w : Int) := by
  induction F generalizing p with
  | nil => simp [calls] at h
  | skip w r ih =>
    rcases List.mem_cons.mp h with h | h
    · cases h; exact Or.inl ⟨rfl, by simp [Forest.heads]⟩
    · rcases ih h with ⟨h1, h2⟩ | h1
      · exact Or.inl ⟨h1, by simp [Forest.heads, h2]⟩
      · exact Or.inr h1
  | node w cs r ih1 ih2 =>
    simp only [calls, List.cons_append, List.mem_cons, List.mem_append] at h
    rcases h with h | h | h
    · cases h; exact Or.inl ⟨rfl, by simp [Forest.heads]⟩
    · rcases ih1 h with ⟨h1, h2⟩ | ⟨x, hx, h1⟩
      · exact Or.inr ⟨w, by simp [pre], h1⟩
      · exact Or.inr ⟨x, by simp [pre, hx], h1⟩
    · rcases ih2 h with ⟨h1, h2⟩ | ⟨x, hx, h1⟩
      · exact Or.inl ⟨h1, by simp [Forest.heads, h2]⟩
      · exact Or.inr ⟨x, by simp [pre, hx], h1⟩

theorem head_call {F : Forest} (hf : Full F) {p : Int} {v : Nat} (h : v ∈ F.heads) : (p, v, true) ∈ F.calls p := by
  induction F with
  | nil => simp [Forest.heads] at h
  | skip _ _ _ => exact hf.elim
  | node w cs r ih1 ih2 =>
    rcases List.mem_cons.mp h with rfl | h
    · simp [calls]
    · simp [calls, ih2 hf.2 h]

theorem head_pre {F : Forest} (hf : Full F) {v : Nat} (h : v ∈ F.heads) : v ∈ F.pre := call_mem hf (head_call (p := 0) hf h)

/-! ### The parents of the traversal are the parents in the forest -/

theorem Rooted.sym (R : Rooted g up dep) (x y : Nat) (h : Edge g x y) : Edge g y x :=
  (R.edge y x (R.valid _ _ h) (edge_lt h)).mpr (((R.edge x y (edge_lt h) (R.valid _ _ h)).mp h).symm)

theorem Rooted.ne (R : Rooted g up dep) {v q : Nat} (hv : v < g.length) (h : up v = (q : Int)) : q < g.length ∧ dep v = dep q + 1 ∧ q ≠ v := by
  rcases R.depth v hv with ⟨h1, _⟩ | ⟨q', h1, h2, h3⟩
  · omega
  · have : q' = q := by omega
    subst this
    exact ⟨h2, h3, fun hc => by subst hc; omega⟩

/-- What the traversal of a rooted forest provides. -/
structure Tr (g : List (List Nat)) (up : Nat → Int) (dep : Nat → Nat) (F : Forest) : Prop where
  R : Rooted g up dep
  isDfs : IsDfs g (fun _ _ => true) (List.range g.length) F
  full : Full F
  lt : ∀ x, x ∈ F.pre ↔ x < g.length
  least : ∀ v ∈ F.heads, ∀ x, F.Anc v x → v ≤ x

theorem Tr.calls {F : Forest} (T : Tr g up dep F) : ∀ (q : Int) (v : Nat) (b : Bool), (q, v, b) ∈ F.calls (-1) → up v = q := by
  have R := T.R
  have hn := T.isDfs.nodup
  have hea : ∀ {x y : Nat}, Edge g x y → F.Anc x y ∨ F.Anc y x := fun h => Chain.edge_anc T.isDfs (fun x hx => (T.lt x).mpr hx) R.valid R.sym h
  have main : ∀ (k : Nat) (v : Nat), F.pre.idxOf v ≤ k → v ∈ F.pre → ∀ (q : Int) (b : Bool), (q, v, b) ∈ F.calls (-1) → up v = q := by
    intro k
    induction k using Nat.strong_induction_on with
    | _ k ih =>
      intro v hk hv q b hc
      rcases par_of T.full hn T.isDfs.ordered (-1) v hv with ⟨h1, h2, h3⟩ | ⟨w, hw, h2, h3, h4, h5⟩
      · rw [call_unique T.full hn hc h2]
        rw [R.least v ((T.lt v).mp hv)]
        have hall : ∀ w, Reach g v w → F.Anc v w := by
          intro w hw
          induction hw with
          | refl => exact anc_refl hv
          | tail _ he ih =>
            rcases hea he with h | h
            · exact anc_trans hn ih h
            · rcases anc_linear hn ih h with h' | h'
              · exact h'
              · rw [h3 _ h']; exact anc_refl hv
        exact fun w hw => T.least v h1 w (hall w hw)
      · rw [call_unique T.full hn hc h2]
        have hvl := (T.lt v).mp hv
        have hwl := (T.lt w).mp hw
        have hne : w ≠ v := by
          rintro rfl
          rcases (R.edge w w hwl hwl).mp h3 with h | h <;> exact (R.ne hwl h).2.2 rfl
        rcases (R.edge w v hwl hvl).mp h3 with h | h
        · exfalso
          have hi := (Chain.pre_idx hn).1 h4 hne
          rcases par_of T.full hn T.isDfs.ordered (-1) w hw with ⟨_, k2, _⟩ | ⟨x, _, k2, _, k4, _⟩
          · have := ih (F.pre.idxOf w) (by omega) w (le_refl _) hw _ _ k2
            omega
          · have := ih (F.pre.idxOf w) (by omega) w (le_refl _) hw _ _ k2
            have hx : x = v := by omega
            subst hx
            exact hne (anc_antisymm hn h4 k4)
        · exact h
  exact fun q v b hc => main _ v (le_refl _) (call_mem T.full hc) q b hc

/-- The structure of the traversal: parents, and below each node its other neighbours in order. -/
def Good (g : List (List Nat)) (up : Nat → Int) : Int → Forest → Prop
  | _, .nil => True
  | _, .skip _ _ => False
  | p, .node v cs r => up v = p ∧ (∃ es, g[v]? = some es ∧ es.filter (fun w : Nat => decide ((w : Int) ≠ up v)) = cs.heads) ∧ Good g up v cs ∧ Good g up p r

theorem good_of {F : Forest} (T : Tr g up dep F) : ∀ (G : Forest) (p : Int), Full G → G.pre.Nodup → G.Ordered g → (∀ c ∈ G.calls p, c ∈ F.calls (-1)) →
    (∀ x ∈ G.pre, p ≠ (x : Int)) → (∀ c ∈ F.calls (-1), ∀ x ∈ G.pre, c.1 = (x : Int) → c ∈ G.calls p) → Good g up p G := by
  have hcalls := T.calls
  have hn := T.isDfs.nodup
  intro G
  induction G with
  | nil => intros; trivial
  | skip _ _ _ => intro p hf; exact hf.elim
  | node v cs r ih1 ih2 =>
    intro p hf hnG ho hsub hp hall
    obtain ⟨n1, n2, n3, n4, n5⟩ := nodup_node hnG
    obtain ⟨⟨es, hes, hsl⟩, ho1, ho2⟩ := ho
    have hv : up v = p := hcalls p v true (hsub _ (by simp [calls]))
    have hpv : p ≠ (v : Int) := hp v (by simp [pre])
    -- a call on behalf of a node of `cs` or of `v` is among the calls below `v`
    have hin : ∀ c ∈ F.calls (-1), ∀ x, (x = v ∨ x ∈ cs.pre) → c.1 = (x : Int) → c ∈ cs.calls v := by
      intro c hc x hx hcx
      have := hall c hc x (by rw [mem_pre_node]; tauto) hcx
      simp only [calls, List.cons_append, List.mem_cons, List.mem_append] at this
      rcases this with h | h | h
      · subst h
        exact absurd hcx (hp x (by rw [mem_pre_node]; tauto))
      · exact h
      · obtain ⟨c1, c2, c3⟩ := c
        rcases call_parent h with ⟨h1, _⟩ | ⟨w, hw, h1⟩
        · exact absurd (h1.symm.trans hcx) (hp x (by rw [mem_pre_node]; tauto))
        · have hwx : w = x := by simp only at hcx; omega
          subst hwx
          rcases hx with rfl | hx
          · exact absurd hw n2
          · exact absurd hw (n5 _ hx)
    refine ⟨hv, ⟨es, hes, ?_⟩, ih1 v hf.1 n3 ho1 (fun c hc => hsub c (by simp [calls, hc])) (fun x hx hc => n1 (by rwa [show v = x by omega]))
      (fun c hc x hx hcx => hin c hc x (Or.inr hx) hcx), ih2 p hf.2 n4 ho2 (fun c hc => hsub c (by simp [calls, hc])) (fun x hx => hp x (by simp [pre, hx]))
      (fun c hc x hx hcx => ?_)⟩
    · have hvl : v < g.length := (List.getElem?_eq_some_iff.mp hes).1
      have hnd := T.R.nodup v es hes
      have hmem : ∀ w, w ∈ cs.heads ↔ w ∈ es ∧ (w : Int) ≠ up v := by
        intro w
        constructor
        · intro hw
          have hwp := head_pre hf.1 hw
          exact ⟨hsl.mem hw, fun hc => hp w (by simp [pre, hwp]) (by rw [← hv]; exact hc.symm)⟩
        · rintro ⟨hw, hne⟩
          have he : Edge g v w := ⟨es, hes, hw⟩
          have hwl := T.R.valid _ _ he
          have huw : up w = (v : Int) := by
            rcases (T.R.edge v w hvl hwl).mp he with h | h
            · exact absurd h.symm hne
            · exact h
          obtain ⟨c, hc, hcw⟩ := List.mem_map.mp (by rw [Chain.calls_pre F T.full (-1)]; exact (T.lt w).mpr hwl : w ∈ (F.calls (-1)).map (fun c => c.2.1))
          obtain ⟨c1, c2, c3⟩ := c
          simp only at hcw
          subst hcw
          have h1 := hcalls _ _ _ hc
          have h2 := hin _ hc v (Or.inl rfl) (by rw [← huw, h1])
          rcases call_parent h2 with ⟨_, h3⟩ | ⟨x, hx, h3⟩
          · exact h3
          · exact absurd hx (by rw [show x = v by omega]; exact n1)
      have hs1 : (cs.heads.filter (fun w : Nat => decide ((w : Int) ≠ up v))).Sublist (es.filter (fun w : Nat => decide ((w : Int) ≠ up v))) := hsl.filter _
      rw [List.filter_eq_self.mpr (fun w hw => decide_eq_true ((hmem w).mp hw).2)] at hs1
      refine (hs1.eq_of_length ?_).symm
      refine List.Perm.length_eq ((List.perm_ext_iff_of_nodup (hsl.nodup hnd) (hnd.filter _)).mpr fun w => ?_)
      rw [hmem, List.mem_filter, decide_eq_true_iff]
    · have := hall c hc x (by simp [pre, hx]) hcx
      simp only [calls, List.cons_append, List.mem_cons, List.mem_append] at this
      rcases this with h | h | h
      · subst h
        exact absurd hcx (hp x (by simp [pre, hx]))
      · obtain ⟨c1, c2, c3⟩ := c
        rcases call_parent h with ⟨h1, _⟩ | ⟨w, hw, h1⟩
        · exact absurd hx (by rw [show x = v by simp only at hcx; omega]; exact n2)
        · exact absurd hx (n5 x (by rwa [show x = w by simp only at hcx; omega]))
      · exact h

theorem Tr.good {F : Forest} (T : Tr g up dep F) : Good g up (-1) F :=
  good_of T F (-1) T.full T.isDfs.nodup T.isDfs.ordered (fun _ h => h) (fun x _ => by omega) (fun _ h _ _ _ => h)

/-- Ancestors of the traversal are ancestors in the rooted forest. -/
theorem Tr.below {F : Forest} (T : Tr g up dep F) {a x : Nat} (hx : x < g.length) : F.Anc a x ↔ Below up a x := by
  have hn := T.isDfs.nodup
  have hpar : ∀ v, v < g.length → (up v = -1 ∧ ∀ a, F.Anc a v → a = v) ∨ ∃ q : Nat, up v = (q : Int) ∧ q < g.length ∧ F.Anc q v ∧ ∀ a, F.Anc a v → a = v ∨ F.Anc a q := by
    intro v hv
    rcases par_of T.full hn T.isDfs.ordered (-1) v ((T.lt v).mpr hv) with ⟨h1, h2, h3⟩ | ⟨w, hw, h2, _, h4, h5⟩
    · exact Or.inl ⟨T.calls _ _ _ h2, h3⟩
    · exact Or.inr ⟨w, T.calls _ _ _ h2, (T.lt w).mp hw, h4, h5⟩
  constructor
  · intro h
    have main : ∀ (k x : Nat), dep x ≤ k → x < g.length → F.Anc a x → Below up a x := by
      intro k
      induction k with
      | zero =>
        intro x hk hx h
        rcases hpar x hx with ⟨_, h1⟩ | ⟨q, h1, _⟩
        · rw [h1 a h]; exact ReflTransGen.refl
        · have := (T.R.ne hx h1).2.1; omega
      | succ k ih =>
        intro x hk hx h
        rcases hpar x hx with ⟨_, h1⟩ | ⟨q, h1, h2, _, h4⟩
        · rw [h1 a h]; exact ReflTransGen.refl
        · rcases h4 a h with h5 | h5
          · rw [h5]; exact ReflTransGen.refl
          · exact ReflTransGen.head h1 (ih q (by have := (T.R.ne hx h1).2.1; omega) h2 h5)
    exact main _ x (le_refl _) hx h
  · intro h
    have main : ∀ x, Below up a x → x < g.length → F.Anc a x := by
      intro x h
      induction h using ReflTransGen.head_induction_on with
      | refl => intro hx; exact anc_refl ((T.lt _).mpr hx)
      | head h1 _ ih =>
        intro hx
        rename_i x y _
        rcases hpar x hx with ⟨h2, _⟩ | ⟨q, h2, h3, h4, _⟩
        · omega
        · have : q = y := by omega
          subst this
          exact anc_trans hn (ih h3) h4
    exact main x h hx

end Altruct.Hld
