/-
Depth-first trees of undirected graphs: bridges and articulation points in terms of the tree.
-/
import Verif.GraphAlg.LcaProps
import Verif.Chain.Spec

namespace Altruct.Chain

open GraphAlg Relation

/-- A depth-first forest: parents (-1: none), the relation "is an ancestor of or equal to" and the order of the nodes. -/
structure DT (g : List (List Nat)) (par : Nat → Int) (A : Nat → Nat → Prop) (ix : Nat → Nat) : Prop where
  valid : Valid g
  sym : ∀ x y, Edge g x y → Edge g y x
  lt : ∀ a v, A a v → a < g.length ∧ v < g.length
  refl : ∀ v, v < g.length → A v v
  trans : ∀ {x y z}, A x y → A y z → A x z
  antisymm : ∀ {x y}, A x y → A y x → x = y
  linear : ∀ {x y z}, A x z → A y z → A x y ∨ A y x
  up : ∀ v, v < g.length → (par v = -1 ∧ ∀ a, A a v → a = v) ∨ ∃ q : Nat, par v = q ∧ q ≠ v ∧ Edge g q v ∧ A q v ∧ ∀ a, A a v → a = v ∨ A a q
  ixlt : ∀ {a v}, A a v → a ≠ v → ix a < ix v
  ixinj : ∀ {a b}, a < g.length → b < g.length → ix a = ix b → a = b
  edge : ∀ {x y}, Edge g x y → A x y ∨ A y x
  interval : ∀ {a v x}, A a v → x < g.length → ix a < ix x → ¬ A a x → ix v < ix x

/-- An edge outside the tree, from above. -/
structure Unit' (g : List (List Nat)) (par : Nat → Int) (A : Nat → Nat → Prop) (s d : Nat) : Prop where
  edge : Edge g s d
  anc : A s d
  ne : s ≠ d
  notTree : par d ≠ (s : Int)

section
variable {g : List (List Nat)} {par : Nat → Int} {A : Nat → Nat → Prop} {ix : Nat → Nat}

theorem DT.ltl (D : DT g par A ix) {a v : Nat} (h : A a v) : a < g.length := (D.lt a v h).1
theorem DT.ltr (D : DT g par A ix) {a v : Nat} (h : A a v) : v < g.length := (D.lt a v h).2

theorem DT.ixle (D : DT g par A ix) {a v : Nat} (h : A a v) : ix a ≤ ix v := by
  by_cases e : a = v
  · rw [e]
  · exact le_of_lt (D.ixlt h e)

/-- The parent of a node. -/
theorem DT.parent (D : DT g par A ix) {v q : Nat} (hv : v < g.length) (h : par v = q) : q ≠ v ∧ Edge g q v ∧ A q v ∧ ∀ a, A a v → a = v ∨ A a q := by
  rcases D.up v hv with ⟨h1, _⟩ | ⟨q', h1, h2⟩
  · omega
  · have : q' = q := by omega
    subst this
    exact h2

/-- A proper ancestor is above the parent. -/
theorem DT.above (D : DT g par A ix) {a v : Nat} (h : A a v) (hne : a ≠ v) : ∃ q : Nat, par v = q ∧ q ≠ v ∧ Edge g q v ∧ A q v ∧ A a q := by
  rcases D.up v (D.ltr h) with ⟨_, h1⟩ | ⟨q, h1, h2, h3, h4, h5⟩
  · exact absurd (h1 a h) hne
  · exact ⟨q, h1, h2, h3, h4, (h5 a h).resolve_left hne⟩

/-- The way up from `v` to `a`. -/
theorem DT.climb (D : DT g par A ix) {R : Nat → Nat → Prop} {a : Nat} : ∀ (k v : Nat), ix v ≤ k → A a v → (∀ y, A a y → A y v → y ≠ a → ∀ q : Nat, par y = q → R y q) → ReflTransGen R v a := by
  intro k
  induction k using Nat.strong_induction_on with
  | _ k ih =>
    intro v hk h hR
    by_cases hav : a = v
    · rw [hav]
    · obtain ⟨q, h1, h2, h3, h4, h5⟩ := D.above h hav
      have := D.ixlt h4 h2
      refine ReflTransGen.head (hR v h (D.refl v (D.ltr h)) (Ne.symm hav) q h1) (ih (ix q) (by omega) q (le_refl _) h5 (fun y k1 k2 k3 => hR y k1 (D.trans k2 h4) k3))

theorem rtg_symm {R : Nat → Nat → Prop} (hs : ∀ x y, R x y → R y x) {a b : Nat} (h : ReflTransGen R a b) : ReflTransGen R b a := by
  induction h with
  | refl => exact .refl
  | tail _ h2 ih => exact .head (hs _ _ h2) ih

theorem without_symm (D : DT g par A ix) (u v x y : Nat) (h : Without g u v x y) : Without g u v y x :=
  ⟨D.sym _ _ h.1, fun hc => h.2.2 ⟨hc.2, hc.1⟩, fun hc => h.2.1 ⟨hc.2, hc.1⟩⟩

theorem without_swap {u v x y : Nat} (h : Without g u v x y) : Without g v u x y := ⟨h.1, h.2.2, h.2.1⟩

theorem Bridge.symm (D : DT g par A ix) {u v : Nat} (h : Bridge g u v) : Bridge g v u :=
  ⟨D.sym _ _ h.1, fun hc => h.2 (rtg_symm (without_symm D u v) (ReflTransGen.mono (fun _ _ => without_swap) _ _ hc))⟩

/-- An edge outside the tree is not a bridge. -/
theorem unit_not_bridge (D : DT g par A ix) {s d : Nat} (U : Unit' g par A s d) : ¬ Bridge g s d := by
  intro hb
  refine hb.2 (rtg_symm (without_symm D s d) (D.climb _ d (le_refl _) U.anc (fun y h1 h2 h3 q h4 => ?_)))
  obtain ⟨k1, k2, k3, _⟩ := D.parent (D.ltl h2) h4
  refine ⟨D.sym _ _ k2, fun hc => h3 hc.1, fun hc => ?_⟩
  obtain ⟨rfl, rfl⟩ := hc
  exact U.notTree h4

/-- A tree edge below an edge outside the tree is not a bridge. -/
theorem tree_not_bridge (D : DT g par A ix) {s d y q : Nat} (U : Unit' g par A s d) (h1 : A y d) (h2 : A s y) (h3 : y ≠ s) (hq : par y = q) : ¬ Bridge g y q := by
  obtain ⟨k1, k2, k3, k4⟩ := D.parent (D.ltl h1) hq
  intro hb
  have hsq : A s q := (k4 s h2).resolve_left (Ne.symm h3)
  refine hb.2 (ReflTransGen.trans (rtg_symm (without_symm D y q) (D.climb _ d (le_refl _) h1 (fun z z1 z2 z3 p z4 => ?_)))
    (ReflTransGen.head (b := s) ?_ (rtg_symm (without_symm D y q) (D.climb _ q (le_refl _) hsq (fun z z1 z2 z3 p z4 => ?_)))))
  · obtain ⟨j1, j2, j3, j4⟩ := D.parent (D.ltl z2) z4
    refine ⟨D.sym _ _ j2, fun hc => z3 hc.1, fun hc => ?_⟩
    rw [hc.1] at z1
    exact k1 (D.antisymm k3 z1)
  · refine ⟨D.sym _ _ U.edge, fun hc => ?_, fun hc => ?_⟩
    · apply U.notTree
      rw [hc.1, hc.2]; exact hq
    · exact h3 hc.2.symm
  · obtain ⟨j1, j2, j3, j4⟩ := D.parent (D.ltl z2) z4
    refine ⟨D.sym _ _ j2, fun hc => ?_, fun hc => ?_⟩
    · rw [hc.1] at z2
      exact k1 (D.antisymm k3 z2)
    · rw [hc.2, hc.1] at j3
      exact k1 (D.antisymm k3 j3)

/-- A tree edge that no edge outside the tree bypasses is a bridge. -/
theorem tree_bridge (D : DT g par A ix) {y q : Nat} (hy : y < g.length) (hq : par y = q) (hno : ∀ s d, Unit' g par A s d → A s y → A y d → s = y) : Bridge g y q := by
  obtain ⟨k1, k2, k3, k4⟩ := D.parent hy hq
  refine ⟨D.sym _ _ k2, fun hc => ?_⟩
  have key : ∀ x, ReflTransGen (Without g y q) y x → A y x := by
    intro x hx
    induction hx with
    | refl => exact D.refl y hy
    | @tail x z _ hxz ih =>
      rcases D.edge hxz.1 with h | h
      · exact D.trans ih h
      · rcases D.linear ih h with h2 | h2
        · exact h2
        · by_cases hzy : z = y
          · rw [hzy]; exact D.refl y hy
          · exfalso
            have hzx : z ≠ x := by
              rintro rfl
              exact hzy (D.antisymm h2 ih)
            by_cases hp : par x = z
            · obtain ⟨j1, j2, j3, j4⟩ := D.parent (D.ltr h) hp
              rcases j4 y ih with h3 | h3
              · subst h3
                exact hxz.2.1 ⟨rfl, by omega⟩
              · exact hzy (D.antisymm h2 h3)
            · exact hzy (hno z x ⟨D.sym _ _ hxz.1, h, hzx, hp⟩ h2 ih)
  exact k1 (D.antisymm k3 (key q hc))

/-! ### Articulation points -/

/-- Without the parent a subtree that no edge outside the tree leaves upwards is on its own. -/
theorem stay (D : DT g par A ix) {s y : Nat} (hy : y < g.length) (hp : par y = s) (hno : ∀ s' d, Unit' g par A s' d → A y d → A s' s → s' = s) :
    ∀ x, ReflTransGen (Avoiding g s) y x → A y x := by
  obtain ⟨k1, k2, k3, k4⟩ := D.parent hy hp
  intro x hx
  induction hx with
  | refl => exact D.refl y hy
  | @tail x z _ hxz ih =>
    rcases D.edge hxz.1 with h | h
    · exact D.trans ih h
    · rcases D.linear ih h with h2 | h2
      · exact h2
      · rcases k4 z h2 with h3 | h3
        · rw [h3]; exact D.refl y hy
        · exfalso
          have hzx : z ≠ x := by
            rintro rfl
            exact k1 (D.antisymm k3 (D.trans ih h3))
          by_cases hpx : par x = z
          · obtain ⟨j1, j2, j3, j4⟩ := D.parent (D.ltr h) hpx
            rcases j4 y ih with h4 | h4
            · subst h4
              exact hxz.2.2 (by omega)
            · exact k1 (D.antisymm k3 (D.trans h4 h3))
          · exact hxz.2.2 (hno z x ⟨D.sym _ _ hxz.1, h, hzx, hpx⟩ ih h3)

/-- An inner node with such a child is an articulation point. -/
theorem inner_articulation (D : DT g par A ix) {s y p : Nat} (hy : y < g.length) (hp : par y = s) (hps : par s = p) (hno : ∀ s' d, Unit' g par A s' d → A y d → A s' s → s' = s) : Articulation g s := by
  obtain ⟨k1, k2, k3, k4⟩ := D.parent hy hp
  obtain ⟨j1, j2, j3, j4⟩ := D.parent (D.ltl k3) hps
  refine ⟨y, p, Ne.symm k1, j1, ReflTransGen.head (D.sym _ _ k2) (ReflTransGen.single (D.sym _ _ j2)), fun hc => ?_⟩
  have h1 := stay D hy hp hno p hc
  exact j1 (D.antisymm j3 (D.trans k3 h1))

/-- A root with two children is an articulation point. -/
theorem root_articulation (D : DT g par A ix) {s y y' : Nat} (hy : y < g.length) (hy' : y' < g.length) (hne : y ≠ y') (hp : par y = s) (hp' : par y' = s) (hr : par s = -1) : Articulation g s := by
  obtain ⟨k1, k2, k3, k4⟩ := D.parent hy hp
  obtain ⟨j1, j2, j3, j4⟩ := D.parent hy' hp'
  refine ⟨y, y', Ne.symm k1, Ne.symm j1, ReflTransGen.head (D.sym _ _ k2) (ReflTransGen.single j2), fun hc => ?_⟩
  have h1 := stay D hy hp (fun s' d _ _ h => by
    rcases D.up s (D.ltl k3) with ⟨_, h2⟩ | ⟨q, h2, _⟩
    · exact h2 s' h
    · omega) y' hc
  rcases j4 y h1 with h2 | h2
  · exact hne h2
  · exact k1 (D.antisymm k3 h2)

/-- A node at a bridge with another neighbour is an articulation point. -/
theorem bridge_articulation (D : DT g par A ix) {s w z : Nat} (hb : Bridge g s w) (hsw : s ≠ w) (hz : Edge g s z) (hzw : z ≠ w) (hzs : z ≠ s) : Articulation g s := by
  refine ⟨w, z, Ne.symm hsw, hzs, ReflTransGen.head (D.sym _ _ hb.1) (ReflTransGen.single hz), fun hc => ?_⟩
  refine hb.2 (ReflTransGen.head (b := z) ⟨hz, fun h => hzw h.2, fun h => hsw h.1⟩ ?_)
  refine rtg_symm (without_symm D s w) (ReflTransGen.mono (fun x y h => ?_) _ _ hc)
  exact ⟨h.1, fun h2 => h.2.1 h2.1, fun h2 => h.2.2 h2.2⟩

theorem avoiding_symm (D : DT g par A ix) (c x y : Nat) (h : Avoiding g c x y) : Avoiding g c y x := ⟨D.sym _ _ h.1, h.2.2, h.2.1⟩

/-- The way up from a node to an ancestor avoids what is not between them. -/
theorem climb_avoiding (D : DT g par A ix) {c a v : Nat} (h : A a v) (hc : ¬ (A a c ∧ A c v)) : ReflTransGen (Avoiding g c) v a := by
  refine D.climb _ v (le_refl _) h (fun y h1 h2 h3 q h4 => ?_)
  obtain ⟨k1, k2, k3, k4⟩ := D.parent (D.ltl h2) h4
  refine ⟨D.sym _ _ k2, ?_, ?_⟩
  · rintro rfl; exact hc ⟨h1, h2⟩
  · rintro rfl; exact hc ⟨(k4 a h1).resolve_left (Ne.symm h3), D.trans k3 h2⟩

/-- The nodes of one tree have a common ancestor. -/
theorem common (D : DT g par A ix) {u v : Nat} (hu : u < g.length) (h : Reach g u v) : ∃ b, A b u ∧ A b v := by
  induction h with
  | refl => exact ⟨u, D.refl u hu, D.refl u hu⟩
  | @tail x y _ hxy ih =>
    obtain ⟨b, h1, h2⟩ := ih
    rcases D.edge hxy with k | k
    · exact ⟨b, h1, D.trans h2 k⟩
    · rcases D.linear h2 k with k2 | k2
      · exact ⟨b, h1, k2⟩
      · exact ⟨y, D.trans k2 h1, D.refl y (D.ltl k)⟩

/-- Every node has a root above it. -/
theorem root (D : DT g par A ix) : ∀ (k v : Nat), ix v ≤ k → v < g.length → ∃ r, A r v ∧ par r = -1 := by
  intro k
  induction k using Nat.strong_induction_on with
  | _ k ih =>
    intro v hk hv
    rcases D.up v hv with ⟨h1, _⟩ | ⟨q, h1, h2, h3, h4, h5⟩
    · exact ⟨v, D.refl v hv, h1⟩
    · have := D.ixlt h4 h2
      obtain ⟨r, h6, h7⟩ := ih (ix q) (by omega) q (le_refl _) (D.ltl h4)
      exact ⟨r, D.trans h6 h4, h7⟩

theorem root_top (D : DT g par A ix) {r a : Nat} (hr : par r = -1) (h : A a r) : a = r := by
  rcases D.up r (D.ltr h) with ⟨_, h2⟩ | ⟨q, h2, _⟩
  · exact h2 a h
  · omega

/-- The child of `s` above a proper descendant. -/
theorem child (D : DT g par A ix) {s : Nat} : ∀ (k v : Nat), ix v ≤ k → A s v → s ≠ v → ∃ y, par y = s ∧ A y v := by
  intro k
  induction k using Nat.strong_induction_on with
  | _ k ih =>
    intro v hk h hne
    obtain ⟨q, h1, h2, h3, h4, h5⟩ := D.above h hne
    by_cases hqs : q = s
    · subst hqs; exact ⟨v, h1, D.refl v (D.ltr h)⟩
    · have := D.ixlt h4 h2
      obtain ⟨y, h6, h7⟩ := ih (ix q) (by omega) q (le_refl _) h5 (Ne.symm hqs)
      exact ⟨y, h6, D.trans h7 h4⟩

/-- An articulation point is a root with two children or has a child whose subtree is left upwards only over it. -/
theorem articulation_cases (D : DT g par A ix) {s : Nat} (h : Articulation g s) : s < g.length ∧
    ((par s = -1 ∧ ∃ y y', y ≠ y' ∧ y < g.length ∧ y' < g.length ∧ par y = s ∧ par y' = s) ∨
    (par s ≠ -1 ∧ ∃ y, y < g.length ∧ par y = s ∧ ∀ s' d, Unit' g par A s' d → A y d → A s' s → s' = s)) := by
  obtain ⟨a, b, ha, hb, hab, hno⟩ := h
  have hal : a < g.length ∧ b < g.length := by
    rcases ReflTransGen.cases_head hab with rfl | ⟨c, h1, _⟩
    · exact absurd .refl hno
    · have := edge_lt h1
      refine ⟨this, ?_⟩
      rcases ReflTransGen.cases_tail hab with rfl | ⟨c, _, h1⟩
      · exact this
      · exact D.valid _ _ h1
  obtain ⟨w, w1, w2⟩ := common D hal.1 hab
  obtain ⟨r, r1, r2⟩ := root D _ w (le_refl _) (D.ltl w1)
  have hra := D.trans r1 w1
  have hrb := D.trans r1 w2
  -- some node of the tree is not connected to the top of the tree without `s`
  have hsl : s < g.length ∧ A r s := by
    by_contra hc
    have : ¬ A r s := fun h => hc ⟨D.ltr h, h⟩
    exact hno (ReflTransGen.trans (climb_avoiding D hra (fun h => this h.1)) (rtg_symm (avoiding_symm D s) (climb_avoiding D hrb (fun h => this h.1))))
  refine ⟨hsl.1, ?_⟩
  by_cases hps : par s = -1
  · left
    have hrs := root_top D hps hsl.2
    subst hrs
    obtain ⟨y, y1, y2⟩ := child D _ a (le_refl _) hra (Ne.symm ha)
    obtain ⟨y', y1', y2'⟩ := child D _ b (le_refl _) hrb (Ne.symm hb)
    refine ⟨hps, y, y', ?_, D.ltl y2, D.ltl y2', y1, y1'⟩
    rintro rfl
    obtain ⟨k1, k2, k3, _⟩ := D.parent (D.ltl y2) y1
    have hny : ∀ v, ¬ (A y r ∧ A r v) := fun v hc => k1 (D.antisymm k3 hc.1)
    exact hno (ReflTransGen.trans (climb_avoiding D y2 (hny a)) (rtg_symm (avoiding_symm D r) (climb_avoiding D y2' (hny b))))
  · right
    refine ⟨hps, ?_⟩
    by_contra hc
    have hc : ∀ y, y < g.length → par y = s → ∃ s' d, Unit' g par A s' d ∧ A y d ∧ A s' s ∧ s' ≠ s := by
      intro y hy hyp
      by_contra hn
      refine hc ⟨y, hy, hyp, fun s' d U h1 h2 => ?_⟩
      by_contra hne
      exact hn ⟨s', d, U, h1, h2, hne⟩
    have hrs : r ≠ s := by rintro rfl; exact hps r2
    have key : ∀ x, A r x → x ≠ s → ReflTransGen (Avoiding g s) x r := by
      intro x hx hxs
      by_cases hsx : A s x
      · obtain ⟨y, y1, y2⟩ := child D _ x (le_refl _) hsx (Ne.symm hxs)
        obtain ⟨k1, k2, k3, _⟩ := D.parent (D.ltl y2) y1
        obtain ⟨s', d, U, u1, u2, u3⟩ := hc y (D.ltl y2) y1
        have hny : ∀ v, ¬ (A y s ∧ A s v) := fun v hc => k1 (D.antisymm k3 hc.1)
        have hrs' : A r s' := by
          rcases D.linear hsl.2 u2 with h | h
          · exact h
          · rw [root_top D r2 h]; exact D.refl r (D.ltl hx)
        refine ReflTransGen.trans (climb_avoiding D y2 (hny x)) (ReflTransGen.trans (rtg_symm (avoiding_symm D s) (climb_avoiding D u1 (hny d)))
          (ReflTransGen.head (b := s') ⟨D.sym _ _ U.edge, ?_, u3⟩ (climb_avoiding D hrs' (fun h => u3 (D.antisymm u2 h.2)))))
        rintro rfl
        exact k1 (D.antisymm k3 u1)
      · exact climb_avoiding D hx (fun h => hsx h.2)
    exact hno (ReflTransGen.trans (key a hra ha) (rtg_symm (avoiding_symm D s) (key b hrb hb)))

/-- An articulation point has two neighbours. -/
theorem articulation_degree (D : DT g par A ix) {s : Nat} (h : Articulation g s) : ∃ x y, x ≠ y ∧ Edge g s x ∧ Edge g s y := by
  obtain ⟨hs, h⟩ := articulation_cases D h
  rcases h with ⟨_, y, y', hne, h1, h2, h3, h4⟩ | ⟨hp, y, hy, hyp, _⟩
  · exact ⟨y, y', hne, (D.parent h1 h3).2.1, (D.parent h2 h4).2.1⟩
  · rcases D.up s hs with ⟨h1, _⟩ | ⟨q, h1, h2, h3, h4, _⟩
    · exact absurd h1 hp
    · obtain ⟨k1, k2, k3, _⟩ := D.parent hy hyp
      refine ⟨q, y, ?_, D.sym _ _ h3, k2⟩
      rintro rfl
      exact k1 (D.antisymm k3 h4)

end

end Altruct.Chain
