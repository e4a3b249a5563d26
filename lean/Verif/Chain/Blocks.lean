/-
C131: the biconnected components of an undirected graph.
-/
import Verif.Chain.Props

namespace Altruct.Chain

open GraphAlg Relation

section
variable {g : List (List Nat)} {par : Nat → Int} {A : Nat → Nat → Prop} {ix : Nat → Nat}

/-! ### Blocks of the tree -/

/-- `t` is the child of `s` under which a block hangs. -/
structure Top (g : List (List Nat)) (par : Nat → Int) (A : Nat → Nat → Prop) (s t : Nat) : Prop where
  up : par t = s
  lt : t < g.length
  cl : ∀ s' d, Unit' g par A s' d → A t d → A s' s → s' = s
  unit : ∃ d, Unit' g par A s d ∧ A t d

/-- The nodes of a block. -/
def InBlk (g : List (List Nat)) (par : Nat → Int) (A : Nat → Nat → Prop) (s t x : Nat) : Prop := x = s ∨ Blk g par A t x

theorem InBlk.below (D : DT g par A ix) {s t x : Nat} (T : Top g par A s t) (h : InBlk g par A s t x) : A s x := by
  obtain ⟨k1, k2, k3, k4⟩ := D.parent T.lt T.up
  rcases h with rfl | h
  · exact D.refl _ (D.ltl k3)
  · exact D.trans k3 h.1

theorem blk_ne (D : DT g par A ix) {s t x : Nat} (T : Top g par A s t) (h : Blk g par A t x) : x ≠ s := by
  obtain ⟨k1, k2, k3, k4⟩ := D.parent T.lt T.up
  rintro rfl
  exact k1 (D.antisymm k3 h.1)

/-- A node of a block is below a unit that starts above it. -/
theorem blk_unit (D : DT g par A ix) {s t x : Nat} (T : Top g par A s t) (h : Blk g par A t x) : ∃ a d, Unit' g par A a d ∧ A a x ∧ a ≠ x ∧ A x d := by
  obtain ⟨k1, k2, k3, k4⟩ := D.parent T.lt T.up
  by_cases hx : x = t
  · obtain ⟨d, U, h1⟩ := T.unit
    exact ⟨s, d, U, by rw [hx]; exact k3, by rw [hx]; exact k1, by rw [hx]; exact h1⟩
  · obtain ⟨q, h1, h2, h3, h4, h5⟩ := D.above h.1 (Ne.symm hx)
    obtain ⟨a, d, U, u1, u2, u3⟩ := h.2 x q h.1 (D.refl x (D.ltr h.1)) hx h1
    exact ⟨a, d, U, D.trans u2 h4, fun e => h2 (D.antisymm h4 (by rw [← e]; exact u2)), u1⟩

theorem conn_top (D : DT g par A ix) {s t x c : Nat} (T : Top g par A s t) (h : Blk g par A t x) (hcx : c ≠ x) (hcs : c ≠ s) : ReflTransGen (Avoiding g c) x s := by
  obtain ⟨k1, k2, k3, k4⟩ := D.parent T.lt T.up
  by_cases hb : A s c ∧ A c x
  · obtain ⟨h1, h2⟩ := hb
    have htc : A t c := by
      rcases D.linear h.1 h2 with k | k
      · exact k
      · rcases k4 c k with k | k
        · rw [k]; exact D.refl t T.lt
        · exact absurd (D.antisymm k h1) hcs
    obtain ⟨x', y1, y2⟩ := child D _ x (le_refl _) h2 hcx
    obtain ⟨j1, j2, j3, j4⟩ := D.parent (D.ltl y2) y1
    have hx't : x' ≠ t := by
      rintro rfl
      exact j1 (D.antisymm j3 htc)
    obtain ⟨a, d, U, u1, u2, u3⟩ := h.2 x' c (D.trans htc j3) y2 hx't y1
    have hn : ¬ A x' c := fun k => j1 (D.antisymm j3 k)
    have p1 : ReflTransGen (Avoiding g c) x x' := climb_avoiding D y2 (fun k => hn k.1)
    have p2 : ReflTransGen (Avoiding g c) x' d := rtg_symm (avoiding_symm D c) (climb_avoiding D u1 (fun k => hn k.1))
    have hdc : d ≠ c := by rintro rfl; exact hn u1
    have p3 : Avoiding g c d a := ⟨D.sym _ _ U.edge, hdc, u3⟩
    refine (p1.trans p2).trans (ReflTransGen.head p3 ?_)
    rcases D.linear h1 u2 with k | k
    · exact climb_avoiding D k (fun m => u3 (D.antisymm u2 m.2))
    · exact rtg_symm (avoiding_symm D c) (climb_avoiding D k (fun m => hcs (D.antisymm m.2 h1)))
  · exact climb_avoiding D (D.trans k3 h.1) hb

/-- Two nodes of a block are biconnected. -/
theorem block_biconnected (D : DT g par A ix) {s t x y : Nat} (T : Top g par A s t) (hx : InBlk g par A s t x) (hy : InBlk g par A s t y) (hxy : x ≠ y) : Biconnected g x y := by
  obtain ⟨k1, k2, k3, k4⟩ := D.parent T.lt T.up
  refine ⟨fun c h1 h2 => ?_, ?_⟩
  · by_cases hcs : c = s
    · subst hcs
      have hnt : ¬ A t c := fun k => k1 (D.antisymm k3 k)
      have hx := hx.resolve_left (Ne.symm h1)
      have hy := hy.resolve_left (Ne.symm h2)
      exact (climb_avoiding D hx.1 (fun k => hnt k.1)).trans (rtg_symm (avoiding_symm D c) (climb_avoiding D hy.1 (fun k => hnt k.1)))
    · have p : ∀ z, InBlk g par A s t z → c ≠ z → ReflTransGen (Avoiding g c) z s := by
        rintro z (rfl | hz) hcz
        · exact .refl
        · exact conn_top D T hz hcz hcs
      exact (p x hx h1).trans (rtg_symm (avoiding_symm D c) (p y hy h2))
  · have key : ∀ a b, InBlk g par A s t a → InBlk g par A s t b → A a b → a ≠ b → ¬ Bridge g b a := by
      intro a b ha hb hab hne hbr
      have hbs : b ≠ s := by
        rintro rfl
        exact hne (D.antisymm hab (ha.below D T))
      by_cases hp : par b = a
      · obtain ⟨a', d, U, u1, u2, u3⟩ := blk_unit D T (hb.resolve_left hbs)
        exact tree_not_bridge D U u3 u1 (Ne.symm u2) hp hbr
      · exact unit_not_bridge D ⟨D.sym _ _ hbr.1, hab, hne, hp⟩ (hbr.symm D)
    intro hbr
    rcases D.edge hbr.1 with h | h
    · exact key x y hx hy h hxy (hbr.symm D)
    · exact key y x hy hx h (Ne.symm hxy) hbr

theorem blk_down {t b x : Nat} (D : DT g par A ix) (h : Blk g par A t b) (hbx : A b x)
    (hs : ∀ z q : Nat, A b z → A z x → z ≠ b → par z = q → ∃ s' d, Unit' g par A s' d ∧ A z d ∧ A s' q ∧ s' ≠ q) : Blk g par A t x := by
  refine ⟨D.trans h.1 hbx, fun z q z1 z2 z3 hq => ?_⟩
  by_cases hzb : A z b
  · exact h.2 z q z1 hzb z3 hq
  · have hbz := (D.linear hbx z2).resolve_right hzb
    exact hs z q hbz z2 (fun e => hzb (by rw [e]; exact D.refl b (D.ltl hbx))) hq

theorem lca (D : DT g par A ix) {x y : Nat} : ∀ (k b : Nat), ix x - ix b ≤ k → A b x → A b y → ∃ b, A b x ∧ A b y ∧ ∀ z, A z x → A z y → A z b := by
  intro k
  induction k with
  | zero =>
    intro b hk h1 h2
    refine ⟨b, h1, h2, fun z z1 z2 => ?_⟩
    rcases D.linear z1 h1 with h | h
    · exact h
    · have := D.ixle h1
      have := D.ixle z1
      have := D.ixle h
      have : b = z := D.ixinj (D.ltl h) (D.ltr h) (by omega)
      rw [this]; exact D.refl z (D.ltr h)
  | succ k ih =>
    intro b hk h1 h2
    by_cases hall : ∀ z, A z x → A z y → A z b
    · exact ⟨b, h1, h2, hall⟩
    · push Not at hall
      obtain ⟨z, z1, z2, z3⟩ := hall
      have hbz := (D.linear h1 z1).resolve_right z3
      have := D.ixlt hbz (by rintro rfl; exact z3 (D.refl _ (D.ltr hbz)))
      have := D.ixle z1
      exact ih z (by omega) z1 z2

/-- A unit leaves the subtree of `z` over the parent `q` of `z`, when some node outside is reached without `q`. -/
theorem leaves (D : DT g par A ix) {z q x y : Nat} (hz : par z = q) (hzx : A z x) (hc : ReflTransGen (Avoiding g q) x y) (hy : ¬ A z y) :
    ∃ s' d, Unit' g par A s' d ∧ A z d ∧ A s' q ∧ s' ≠ q := by
  by_contra hno
  obtain ⟨k1, k2, k3, k4⟩ := D.parent (D.ltl hzx) hz
  have hnq : ¬ A z q := fun k => k1 (D.antisymm k3 k)
  refine hy (stay D (D.ltl hzx) hz (fun s' d U c1 c2 => ?_) y ((rtg_symm (avoiding_symm D q) (climb_avoiding D hzx (fun k => hnq k.1))).trans hc))
  by_contra hne
  exact hno ⟨s', d, U, c1, c2, hne⟩

/-- Two biconnected nodes are in a block. -/
theorem biconnected_block (D : DT g par A ix) (hex : ∀ x, (∃ a d, Unit' g par A a d ∧ A a x ∧ a ≠ x ∧ A x d) → ∃ s t, Top g par A s t ∧ Blk g par A t x)
    {x y : Nat} (hxy : x ≠ y) (hb : Biconnected g x y) : ∃ s t, Top g par A s t ∧ InBlk g par A s t x ∧ InBlk g par A s t y := by
  have hsymm : Biconnected g y x := ⟨fun c h1 h2 => rtg_symm (avoiding_symm D c) (hb.1 c h2 h1), fun h => hb.2 (h.symm D)⟩
  have key : ∀ x y, x ≠ y → Biconnected g x y → A x y → ∃ s t, Top g par A s t ∧ InBlk g par A s t x ∧ InBlk g par A s t y := by
    intro x y hxy hb hA
    obtain ⟨c, c1, c2⟩ := child D _ y (le_refl _) hA hxy
    obtain ⟨k1, k2, k3, k4⟩ := D.parent (D.ltl c2) c1
    have hunit : ∃ a d, Unit' g par A a d ∧ A a c ∧ a ≠ c ∧ A c d := by
      by_contra hno
      have hbr : Bridge g c x := tree_bridge D (D.ltl c2) c1 (fun s d U h1 h2 => by
        by_contra hne
        exact hno ⟨s, d, U, h1, hne, h2⟩)
      by_cases hcy : c = y
      · rw [hcy] at hbr; exact hb.2 (hbr.symm D)
      · have p1 : ReflTransGen (Without g c x) x y := ReflTransGen.mono (fun a b h => ⟨h.1, fun e => h.2.1 e.1, fun e => h.2.2 e.2⟩) _ _ (hb.1 c (Ne.symm k1) hcy)
        have p2 : ReflTransGen (Without g c x) y c := D.climb _ y (le_refl _) c2 (fun z h1 h2 h3 q h4 => by
          obtain ⟨m1, m2, m3, m4⟩ := D.parent (D.ltl h2) h4
          refine ⟨D.sym _ _ m2, fun e => h3 e.1, fun e => ?_⟩
          rw [e.1] at h1
          exact k1 (D.antisymm k3 h1))
        exact hbr.2 (rtg_symm (without_symm D c x) (p1.trans p2))
    obtain ⟨s, t, T, hB⟩ := hex c hunit
    refine ⟨s, t, T, ?_, Or.inr (blk_down D hB c2 (fun z q z1 z2 z3 hq => ?_))⟩
    · by_cases hct : c = t
      · left
        have := T.up
        rw [← hct, c1] at this
        omega
      · right
        have htx : A t x := (k4 t hB.1).resolve_left (Ne.symm hct)
        exact ⟨htx, fun z q z1 z2 z3 hq => hB.2 z q z1 (D.trans z2 k3) z3 hq⟩
    · obtain ⟨m1, m2, m3, m4⟩ := D.parent (D.ltr z1) hq
      have hcq : A c q := (m4 c z1).resolve_left (Ne.symm z3)
      have hxz : ¬ A z x := fun k => k1 (D.antisymm k3 (D.trans z1 k))
      refine leaves D hq z2 (rtg_symm (avoiding_symm D q) (hb.1 q ?_ ?_)) hxz
      · rintro rfl; exact k1 (D.antisymm k3 hcq)
      · rintro rfl; exact m1 (D.antisymm m3 z2)
  by_cases h1 : A x y
  · exact key x y hxy hb h1
  by_cases h2 : A y x
  · obtain ⟨s, t, T, i1, i2⟩ := key y x (Ne.symm hxy) hsymm h2
    exact ⟨s, t, T, i2, i1⟩
  have hreach : Reach g x y := ReflTransGen.mono (fun a b h => h.1) _ _ (hb.1 (x + y + 1) (by omega) (by omega))
  have hxl : x < g.length := by
    rcases ReflTransGen.cases_head hreach with h | ⟨c, h, _⟩
    · exact absurd h hxy
    · exact edge_lt h
  obtain ⟨b0, b1, b2⟩ := common D hxl hreach
  obtain ⟨b, hbx, hby, hmax⟩ := lca D _ b0 (le_refl _) b1 b2
  have hbx' : b ≠ x := by rintro rfl; exact h1 hby
  have hby' : b ≠ y := by rintro rfl; exact h2 hbx
  have hcross : ∀ u v, A b u → ¬ A u v → ¬ A v u → Biconnected g u v → (∀ z, A z u → A z v → A z b) → ∀ z q : Nat, A b z → A z u → z ≠ b → par z = q →
      ∃ s' d, Unit' g par A s' d ∧ A z d ∧ A s' q ∧ s' ≠ q := by
    intro u v c1 c2 c3 c4 c5 z q z1 z2 z3 hq
    obtain ⟨m1, m2, m3, m4⟩ := D.parent (D.ltr z1) hq
    refine leaves D hq z2 (c4.1 q ?_ ?_) (fun k => z3 (D.antisymm (c5 z z2 k) z1))
    · rintro rfl; exact m1 (D.antisymm m3 z2)
    · rintro rfl; exact c3 (D.trans m3 z2)
  have hcx := hcross x y hbx h1 h2 hb hmax
  have hcy := hcross y x hby h2 h1 hsymm (fun z z1 z2 => hmax z z2 z1)
  obtain ⟨c, c1, c2⟩ := child D _ x (le_refl _) hbx hbx'
  obtain ⟨k1, k2, k3, k4⟩ := D.parent (D.ltl c2) c1
  obtain ⟨a, d, U, u1, u2, u3⟩ := hcx c b k3 c2 (Ne.symm k1) c1
  obtain ⟨s, t, T, hB⟩ := hex c ⟨a, d, U, D.trans u2 k3, fun e => k1 (D.antisymm k3 (by rw [← e]; exact u2)), u1⟩
  have hct : c ≠ t := by
    rintro rfl
    have := T.up
    rw [c1] at this
    have : b = s := by omega
    subst this
    exact u3 (T.cl a d U u1 u2)
  have htb : Blk g par A t b := ⟨(k4 t hB.1).resolve_left (Ne.symm hct), fun z q z1 z2 z3 hq => hB.2 z q z1 (D.trans z2 k3) z3 hq⟩
  exact ⟨s, t, T, Or.inr (blk_down D htb hbx hcx), Or.inr (blk_down D htb hby hcy)⟩

/-! ### The groups of the decomposition are the blocks -/

section
variable {Z : List (Nat × Comp)} {bid : Nat → Int} {done : List (Nat × Nat)} {m : Nat}

theorem top_of (D : DT g par A ix) (I : Inv g par A ix done Z bid m) {z : Nat × Comp} (hz : z ∈ Z) {bi : List (List Nat)} (hbi : bi ∈ z.2) :
    ∃ s t, TopS bi.head? s t ∧ Top g par A s t := by
  obtain ⟨s, t, c1, c2, c3, c4, c5, ⟨⟨a, d⟩, c6, c7, c8, c9⟩, c10⟩ := I.tops z hz bi.head? (List.mem_map_of_mem hbi)
  refine ⟨s, t, c1, c4, c3, c10, d, ?_, c9⟩
  have U := (I.src a d c6).1
  rw [← c10 a d U c9 (((D.parent c3 c4).2.2.2 a c7).resolve_left c8)]
  exact U

theorem group_iff (D : DT g par A ix) (I : Inv g par A ix done Z bid m) (hc : ∀ s d, Unit' g par A s d → (s, d) ∈ done) {z : Nat × Comp} (hz : z ∈ Z) {bi : List (List Nat)} (hbi : bi ∈ z.2)
    {s t : Nat} (h : TopS bi.head? s t) (x : Nat) : (∃ ch ∈ bi, x ∈ ch) ↔ InBlk g par A s t x := by
  obtain ⟨s', t', h', T⟩ := top_of D I hz hbi
  obtain ⟨rfl, rfl⟩ := TopS.unique h h'
  rw [I.grp z hz bi hbi s t h x]
  refine or_congr Iff.rfl ⟨fun h => h.2, fun h => ⟨?_, h⟩⟩
  obtain ⟨a, d, U, u1, u2, u3⟩ := blk_unit D T h
  exact ⟨(a, d), hc a d U, u1, u2, u3⟩

theorem exists_group (D : DT g par A ix) (I : Inv g par A ix done Z bid m) (hc : ∀ s d, Unit' g par A s d → (s, d) ∈ done) :
    ∀ (k x : Nat), ix x ≤ k → (∃ a d, Unit' g par A a d ∧ A a x ∧ a ≠ x ∧ A x d) → ∃ z ∈ Z, ∃ bi ∈ z.2, ∃ s t, TopS bi.head? s t ∧ Blk g par A t x := by
  intro k
  induction k with
  | zero =>
    rintro x hk ⟨a, d, U, u1, u2, u3⟩
    have := D.ixlt u1 u2
    omega
  | succ k ih =>
    rintro x hk ⟨a, d, U, u1, u2, u3⟩
    obtain ⟨q, h1, h2, h3, h4, h5⟩ := D.above u1 u2
    by_cases hex : ∃ s' d, Unit' g par A s' d ∧ A x d ∧ A s' q ∧ s' ≠ q
    · obtain ⟨s', d', U', v1, v2, v3⟩ := hex
      have := D.ixlt h4 h2
      obtain ⟨z, hz, bi, hbi, s, t, ht, hB⟩ := ih q (by omega) ⟨s', d', U', v2, v3, D.trans h4 v1⟩
      refine ⟨z, hz, bi, hbi, s, t, ht, D.trans hB.1 h4, fun x' q' y1 y2 y3 hq => ?_⟩
      rcases (D.parent (D.ltr h4) h1).2.2.2 x' y2 with e | e
      · subst e
        have : q' = q := by omega
        subst this
        exact ⟨s', d', U', v1, v2, v3⟩
      · exact hB.2 x' q' y1 e y3 hq
    · have haq : a = q := by
        by_contra hne
        exact hex ⟨a, d, U, u3, h5, hne⟩
      subst haq
      rcases I.b5 a d x (hc a d U) h1 u3 with ⟨s', d', v1, v2, v3, v4⟩ | ⟨z, hz, h, hh, ht⟩
      · exact absurd ⟨s', d', (I.src _ _ v1).1, v4, v2, v3⟩ hex
      · obtain ⟨bi, hbi, rfl⟩ := List.mem_map.mp hh
        refine ⟨z, hz, bi, hbi, a, x, ht, D.refl x (D.ltr u1), fun x' q' y1 y2 y3 _ => absurd (D.antisymm y2 y1) y3⟩

end
end

/-! ### The loops -/

theorem bcChain_spec (n : Nat) : ∀ (us cur seen : List Nat) (f : Nat → Nat), (∀ u ∈ us, u < n) → Rep seen n f → cur.Nodup → (∀ u ∈ us, f u ≠ 0 ↔ u ∈ cur) → (∀ u ∈ cur, f u ≠ 0) →
    ∃ cur' seen' f', bcChain us cur seen = some (cur', seen') ∧ Rep seen' n f' ∧ cur'.Nodup ∧ (∀ x, x ∈ cur' ↔ x ∈ cur ∨ x ∈ us) ∧ ∀ x, f' x ≠ 0 ↔ f x ≠ 0 ∨ x ∈ us := by
  intro us
  induction us with
  | nil => intro cur seen f _ h hn _ _; exact ⟨cur, seen, f, rfl, h, hn, by simp, by simp⟩
  | cons u us ih =>
    intro cur seen f hl h hn h1 h2
    rw [bcChain, h.rd (hl u (by simp)), Option.bind_some]
    by_cases hf : f u = 0
    · have hu : u ∉ cur := fun hc => h2 u hc hf
      rw [if_pos hf, h.wr (hl u (by simp)), Option.bind_some]
      obtain ⟨cur', seen', f', e, r1, r2, r3, r4⟩ := ih (cur ++ [u]) _ _ (fun x hx => hl x (by simp [hx])) (h.set u 1) (by
        rw [List.nodup_append]
        exact ⟨hn, by simp, fun a ha b hb hab => by rw [List.mem_singleton] at hb; rw [hab, hb] at ha; exact hu ha⟩) (fun x hx => by
        by_cases hxu : x = u
        · rw [hxu, Function.update_self]; simp
        · rw [Function.update_of_ne hxu, h1 x (by simp [hx])]; simp [hxu]) (fun x hx => by
        by_cases hxu : x = u
        · rw [hxu, Function.update_self]; simp
        · rw [Function.update_of_ne hxu]
          exact h2 x (by simpa [hxu] using hx))
      refine ⟨cur', seen', f', e, r1, r2, fun x => by rw [r3]; simp [or_assoc], fun x => ?_⟩
      rw [r4]
      by_cases hxu : x = u
      · rw [hxu, Function.update_self]; simp
      · rw [Function.update_of_ne hxu]; simp [hxu]
    · rw [if_neg hf]
      have hu : u ∈ cur := (h1 u (by simp)).mp hf
      obtain ⟨cur', seen', f', e, r1, r2, r3, r4⟩ := ih cur seen f (fun x hx => hl x (by simp [hx])) h hn (fun x hx => h1 x (by simp [hx])) h2
      refine ⟨cur', seen', f', e, r1, r2, fun x => ?_, fun x => ?_⟩
      · rw [r3, List.mem_cons]
        exact ⟨fun h => h.elim Or.inl (fun h => Or.inr (Or.inr h)), fun h => h.elim Or.inl (fun h => h.elim (fun h => Or.inl (h ▸ hu)) Or.inr)⟩
      · rw [r4, List.mem_cons]
        exact ⟨fun h => h.elim Or.inl (fun h => Or.inr (Or.inr h)), fun h => h.elim Or.inl (fun h => h.elim (fun h => Or.inl (h ▸ hf)) Or.inr)⟩

theorem bcGroup_spec (n : Nat) : ∀ (chs : List (List Nat)) (cur seen : List Nat) (f : Nat → Nat), (∀ ch ∈ chs, ∀ u ∈ ch, u < n) → Rep seen n f → cur.Nodup →
    (∀ ch ∈ chs, ∀ u ∈ ch, f u ≠ 0 ↔ u ∈ cur) → (∀ u ∈ cur, f u ≠ 0) →
    ∃ cur' seen' f', bcGroup chs cur seen = some (cur', seen') ∧ Rep seen' n f' ∧ cur'.Nodup ∧ (∀ x, x ∈ cur' ↔ x ∈ cur ∨ ∃ ch ∈ chs, x ∈ ch) ∧
      ∀ x, f' x ≠ 0 ↔ f x ≠ 0 ∨ ∃ ch ∈ chs, x ∈ ch := by
  intro chs
  induction chs with
  | nil => intro cur seen f _ h hn _ _; exact ⟨cur, seen, f, rfl, h, hn, by simp, by simp⟩
  | cons ch chs ih =>
    intro cur seen f hl h hn h1 h2
    obtain ⟨c1, s1, f1, e1, r1, r2, r3, r4⟩ := bcChain_spec n ch cur seen f (hl ch (by simp)) h hn (h1 ch (by simp)) h2
    obtain ⟨c2, s2, f2, e2, q1, q2, q3, q4⟩ := ih c1 s1 f1 (fun x hx => hl x (by simp [hx])) r1 r2 (fun x hx u hu => by
      rw [r4, r3, h1 x (by simp [hx]) u hu]) (fun u hu => by
      rw [r4]
      exact ((r3 u).mp hu).imp (h2 u) id)
    refine ⟨c2, s2, f2, by rw [bcGroup, e1, Option.bind_some, e2], q1, q2, fun x => ?_, fun x => ?_⟩
    · rw [q3, r3]; simp [or_assoc]
    · rw [q4, r4]; simp [or_assoc]

theorem bcComp_spec (n : Nat) : ∀ (L : List (List (List Nat))) (vbc : List (List Nat)) (seen : List Nat) (f : Nat → Nat), (∀ bi ∈ L, ∀ ch ∈ bi, ∀ u ∈ ch, u < n) →
    (∀ bi ∈ L, ∃ s t, TopS bi.head? s t) →
    L.Pairwise (fun b b' => ∀ x, (∃ ch ∈ b, x ∈ ch) → (∃ ch ∈ b', x ∈ ch) → ∀ s t, TopS b'.head? s t → x = s) →
    (∀ bi ∈ L, ∀ x, (∃ ch ∈ bi, x ∈ ch) → f x ≠ 0 → ∀ s t, TopS bi.head? s t → x = s) → Rep seen n f →
    ∃ vbc' seen', bcComp L vbc seen = some (vbc ++ vbc', seen') ∧ List.Forall₂ (fun bi l => l.Nodup ∧ ∀ x, x ∈ l ↔ ∃ ch ∈ bi, x ∈ ch) L vbc' := by
  intro L
  induction L with
  | nil => intro vbc seen f _ _ _ _ _; exact ⟨[], seen, by simp [bcComp], .nil⟩
  | cons bi L ih =>
    intro vbc seen f hl ht hp hf h
    obtain ⟨s, t, hst⟩ := ht bi (by simp)
    rw [List.pairwise_cons] at hp
    have hmem : ∃ ch chs us, bi = ch :: chs ∧ ch = s :: us := by
      obtain ⟨l, hl⟩ := hst
      cases bi with
      | nil => simp at hl
      | cons ch chs =>
        rw [List.head?_cons] at hl
        exact ⟨ch, chs, l ++ [t, s], rfl, Option.some.inj hl⟩
    have hs : s < n := by
      obtain ⟨ch, chs, us, h1, h2⟩ := hmem
      exact hl bi (by simp) ch (by simp [h1]) s (by simp [h2])
    obtain ⟨c1, s1, f1, e1, r1, r2, r3, r4⟩ := bcGroup_spec n bi [] _ _ (hl bi (by simp)) (h.set s 0) (by simp) (fun ch hch u hu => by
      simp only [List.not_mem_nil, iff_false, not_not]
      by_cases hus : u = s
      · rw [hus, Function.update_self]
      · rw [Function.update_of_ne hus]
        by_contra hne
        exact hus (hf bi (by simp) u ⟨ch, hch, hu⟩ hne s t hst)) (by simp)
    obtain ⟨vbc', seen', e2, q⟩ := ih (vbc ++ [c1]) s1 f1 (fun x hx => hl x (by simp [hx])) (fun x hx => ht x (by simp [hx])) hp.2 (fun b hb x hx hfx s' t' hst' => by
      rcases (r4 x).mp hfx with h1 | h1
      · by_cases hxs : x = s
        · rw [hxs, Function.update_self] at h1; exact absurd rfl h1
        · rw [Function.update_of_ne hxs] at h1
          exact hf b (by simp [hb]) x hx h1 s' t' hst'
      · exact hp.1 b hb x h1 hx s' t' hst') r1
    refine ⟨c1 :: vbc', seen', ?_, .cons ⟨r2, fun x => by rw [r3]; simp⟩ q⟩
    obtain ⟨ch, chs, us, h1, h2⟩ := hmem
    rw [bcComp, show rd bi 0 = some ch by rw [h1]; rfl, Option.bind_some, show rd ch 0 = some s by rw [h2]; rfl, Option.bind_some, h.wr hs, Option.bind_some, e1, Option.bind_some]
    simp only
    rw [e2]
    simp

theorem bcComp_append : ∀ (L L' : List (List (List Nat))) (vbc : List (List Nat)) (seen : List Nat), bcComp (L ++ L') vbc seen = (bcComp L vbc seen).bind fun r => bcComp L' r.1 r.2 := by
  intro L
  induction L with
  | nil => intro L' vbc seen; simp [bcComp]
  | cons bi L ih =>
    intro L' vbc seen
    rw [List.cons_append, bcComp, bcComp]
    simp only [Option.bind_assoc, ih]

theorem bcAll_flatten : ∀ (d : Decomposition) (vbc : List (List Nat)) (seen : List Nat), bcAll d vbc seen = bcComp d.flatten vbc seen := by
  intro d
  induction d with
  | nil => intro vbc seen; simp [bcAll, bcComp]
  | cons c d ih =>
    intro vbc seen
    rw [bcAll, List.flatten_cons, bcComp_append]
    simp only [ih]

/-- `chain_decomposition` and `biconnected_components`: every list has no repetitions and at least three nodes, two nodes are in a common list exactly when they are biconnected, two lists have at most one node in common, and three nodes any two of which are biconnected are in one list. -/
theorem C131_biconnected_components {g : List (List Nat)} (hg : Valid g) (hsym : ∀ x y, Edge g x y → Edge g y x) :
    ∃ d fuel0, (∀ fuel ≥ fuel0, chainDecomposition fuel g = some d) ∧ ∃ vbc, biconnectedComponents g d = some vbc ∧
      (∀ l ∈ vbc, l.Nodup ∧ 3 ≤ l.length ∧ ∀ x ∈ l, x < g.length) ∧
      (∀ x y, x ≠ y → ((∃ l ∈ vbc, x ∈ l ∧ y ∈ l) ↔ Biconnected g x y)) ∧
      vbc.Pairwise (fun l l' => ∀ x y, x ∈ l → x ∈ l' → y ∈ l → y ∈ l' → x = y) ∧
      ∀ x y z, x ≠ y → y ≠ z → x ≠ z → Biconnected g x y → Biconnected g y z → Biconnected g x z → ∃ l ∈ vbc, x ∈ l ∧ y ∈ l ∧ z ∈ l := by
  obtain ⟨par, A, ix, Z, bid, done, m, D, I, hc, fuel0, h⟩ := chainDecomposition_spec hg hsym
  refine ⟨_, fuel0, h, ?_⟩
  have hmem : ∀ bi, bi ∈ (Z.map Prod.snd).flatten ↔ ∃ z ∈ Z, bi ∈ z.2 := by
    intro bi
    rw [List.mem_flatten]
    constructor
    · rintro ⟨l, h1, h2⟩
      obtain ⟨z, hz, rfl⟩ := List.mem_map.mp h1
      exact ⟨z, hz, h2⟩
    · rintro ⟨z, hz, h⟩
      exact ⟨z.2, List.mem_map_of_mem hz, h⟩
  have hT : ∀ bi ∈ (Z.map Prod.snd).flatten, ∃ s t, TopS bi.head? s t ∧ Top g par A s t ∧ ∀ x, (∃ ch ∈ bi, x ∈ ch) ↔ InBlk g par A s t x := by
    intro bi hbi
    obtain ⟨z, hz, hb⟩ := (hmem bi).mp hbi
    obtain ⟨s, t, h1, T⟩ := top_of D I hz hb
    exact ⟨s, t, h1, T, group_iff D I hc hz hb h1⟩
  have hord : ((Z.map Prod.snd).flatten).Pairwise (fun b b' => ∀ s t s' t', TopS b.head? s t → TopS b'.head? s' t' → ix s ≤ ix s' ∧ t ≠ t') := by
    have := I.tord
    rw [show (Z.flatMap fun z => z.2.map List.head?) = ((Z.map Prod.snd).flatten).map List.head? by
      rw [List.map_flatten, List.map_map, List.flatMap_def]; rfl, List.pairwise_map] at this
    exact this
  have hlt : ∀ bi ∈ (Z.map Prod.snd).flatten, ∀ x, (∃ ch ∈ bi, x ∈ ch) → x < g.length := by
    intro bi hbi x hx
    obtain ⟨s, t, h1, T, h2⟩ := hT bi hbi
    exact D.ltr (((h2 x).mp hx).below D T)
  obtain ⟨vbc, seen', e, q⟩ := bcComp_spec g.length ((Z.map Prod.snd).flatten) [] _ _ (fun bi hbi ch hch u hu => hlt bi hbi u ⟨ch, hch, hu⟩)
    (fun bi hbi => by obtain ⟨s, t, h1, _⟩ := hT bi hbi; exact ⟨s, t, h1⟩) (List.Pairwise.imp_of_mem (fun {b b'} hb hb' hR x hx hx' s' t' hst' => by
      obtain ⟨s, t, h1, T, h2⟩ := hT b hb
      obtain ⟨s2, t2, h3, T', h4⟩ := hT b' hb'
      obtain ⟨rfl, rfl⟩ := TopS.unique h3 hst'
      obtain ⟨r1, r2⟩ := hR s t s2 t2 h1 h3
      rcases (h4 x).mp hx' with k | k
      · exact k
      · exfalso
        rcases (h2 x).mp hx with k' | k'
        · have hs2x := InBlk.below D T' (Or.inr k)
          have := D.ixlt hs2x (Ne.symm (blk_ne D T' k))
          rw [k'] at this
          omega
        · exact r2 (blk_unique D k' k T.up T'.up T.cl T'.cl)) hord) (fun _ _ _ _ hf => absurd rfl hf) (Rep.replicate g.length 0)
  have hgrp : ∀ x, (∃ a d, Unit' g par A a d ∧ A a x ∧ a ≠ x ∧ A x d) → ∃ s t, Top g par A s t ∧ Blk g par A t x := fun x hx => by
    obtain ⟨z, hz, bi, hbi, s, t, ht, hB⟩ := exists_group D I hc _ x (le_refl _) hx
    obtain ⟨s', t', ht', T⟩ := top_of D I hz hbi
    obtain ⟨rfl, rfl⟩ := TopS.unique ht ht'
    exact ⟨s, t, T, hB⟩
  have hlist : ∀ s t, Top g par A s t → ∃ l ∈ vbc, ∀ x, InBlk g par A s t x → x ∈ l := by
    intro s t T
    obtain ⟨z, hz, bi, hbi, s', t', ht', hB⟩ := exists_group D I hc _ t (le_refl _) (blk_unit D T ⟨D.refl t T.lt, fun x' q' y1 y2 y3 _ => absurd (D.antisymm y2 y1) y3⟩)
    obtain ⟨s2, t2, ht2, T2⟩ := top_of D I hz hbi
    obtain ⟨rfl, rfl⟩ := TopS.unique ht' ht2
    have htt : t' = t := blk_unique D hB ⟨D.refl t T.lt, fun x' q' y1 y2 y3 _ => absurd (D.antisymm y2 y1) y3⟩ T2.up T.up T2.cl T.cl
    subst htt
    have hss : s' = s := by have h1 := T2.up; rw [T.up] at h1; omega
    subst hss
    have hg := group_iff D I hc hz hbi ht'
    obtain ⟨i, hi⟩ := List.mem_iff_getElem?.mp ((hmem bi).mpr ⟨z, hz, hbi⟩)
    obtain ⟨hi1, hi2⟩ := List.getElem?_eq_some_iff.mp hi
    have hq := q.get hi1 (by rw [← q.length_eq]; exact hi1)
    simp only [List.get_eq_getElem, hi2] at hq
    exact ⟨_, List.getElem_mem (by rw [← q.length_eq]; exact hi1), fun x hx => (hq.2 x).mpr ((hg x).mpr hx)⟩
  refine ⟨vbc, ?_, ?_, ?_, ?_, ?_⟩
  · unfold biconnectedComponents
    rw [bcAll_flatten, e]
    simp
  · intro l hl
    obtain ⟨i, hi⟩ := List.mem_iff_getElem?.mp hl
    obtain ⟨hi1, hi2⟩ := List.getElem?_eq_some_iff.mp hi
    have hq := q.get (by rw [q.length_eq]; exact hi1) hi1
    simp only [List.get_eq_getElem, hi2] at hq
    have hbm : ((Z.map Prod.snd).flatten)[i]'(by rw [q.length_eq]; exact hi1) ∈ (Z.map Prod.snd).flatten := List.getElem_mem _
    refine ⟨hq.1, ?_, fun x hx => hlt _ hbm x ((hq.2 x).mp hx)⟩
    obtain ⟨s, t, h1, T, h2⟩ := hT _ hbm
    obtain ⟨d, U, hd⟩ := T.unit
    have k := D.parent T.lt T.up
    have htt : Blk g par A t t := ⟨D.refl t T.lt, fun x' q' y1 y2 y3 _ => absurd (D.antisymm y2 y1) y3⟩
    have hdd : Blk g par A t d := by
      refine ⟨hd, fun x' q' y1 y2 y3 hq' => ?_⟩
      have htq : A t q' := ((D.parent (D.ltl y2) hq').2.2.2 t y1).resolve_left (Ne.symm y3)
      exact ⟨s, d, U, y2, D.trans k.2.2.1 htq, fun e => k.1 (D.antisymm k.2.2.1 (by rw [e]; exact htq))⟩
    have hsub : [s, t, d] ⊆ l := by
      intro x hx
      rw [hq.2, h2]
      simp only [List.mem_cons, List.not_mem_nil, or_false] at hx
      rcases hx with rfl | rfl | rfl
      · exact Or.inl rfl
      · exact Or.inr htt
      · exact Or.inr hdd
    have hnd : [s, t, d].Nodup := by
      have h1 : s ≠ t := k.1
      have h2 : s ≠ d := U.ne
      have h3 : t ≠ d := by rintro rfl; exact U.notTree T.up
      simp [h1, h2, h3]
    exact (hnd.subperm hsub).length_le
  · intro x y hxy
    constructor
    · rintro ⟨l, hl, hx, hy⟩
      obtain ⟨i, hi⟩ := List.mem_iff_getElem?.mp hl
      obtain ⟨hi1, hi2⟩ := List.getElem?_eq_some_iff.mp hi
      have hq := q.get (by rw [q.length_eq]; exact hi1) hi1
      simp only [List.get_eq_getElem, hi2] at hq
      obtain ⟨s, t, h1, T, h2⟩ := hT _ (List.getElem_mem (by rw [q.length_eq]; exact hi1))
      exact block_biconnected D T ((h2 x).mp ((hq.2 x).mp hx)) ((h2 y).mp ((hq.2 y).mp hy)) hxy
    · intro hb
      obtain ⟨s, t, T, hx, hy⟩ := biconnected_block D hgrp hxy hb
      obtain ⟨l, hl, h⟩ := hlist s t T
      exact ⟨l, hl, h x hx, h y hy⟩
  · rw [List.pairwise_iff_getElem]
    intro i j hi hj hij x y x1 x2 y1 y2
    have hi' : i < ((Z.map Prod.snd).flatten).length := by rw [q.length_eq]; exact hi
    have hj' : j < ((Z.map Prod.snd).flatten).length := by rw [q.length_eq]; exact hj
    have qi := q.get hi' hi
    have qj := q.get hj' hj
    simp only [List.get_eq_getElem] at qi qj
    obtain ⟨s, t, h1, T, h2⟩ := hT _ (List.getElem_mem hi')
    obtain ⟨s', t', h3, T', h4⟩ := hT _ (List.getElem_mem hj')
    have hne := ((List.pairwise_iff_getElem.mp hord) i j hi' hj' hij s t s' t' h1 h3).2
    have m1 := (h2 x).mp ((qi.2 x).mp x1)
    have m2 := (h4 x).mp ((qj.2 x).mp x2)
    have m3 := (h2 y).mp ((qi.2 y).mp y1)
    have m4 := (h4 y).mp ((qj.2 y).mp y2)
    have hno : ∀ w, Blk g par A t w → Blk g par A t' w → False := fun w k k' => hne (blk_unique D k k' T.up T'.up T.cl T'.cl)
    have b1 := m1.below D T
    have b2 := m2.below D T'
    have b3 := m3.below D T
    have b4 := m4.below D T'
    rcases m1 with k1 | k1 <;> rcases m2 with k2 | k2 <;> rcases m3 with k3 | k3 <;> rcases m4 with k4 | k4 <;>
      first
        | exact absurd ‹Blk g par A t' x› (hno x ‹_›)
        | exact absurd ‹Blk g par A t' y› (hno y ‹_›)
        | (rw [k1, k3])
        | (rw [k2, k4])
        | (rw [k1] at b2 ⊢; rw [k4] at b3 ⊢; exact D.antisymm b3 b2)
        | (rw [k2] at b1 ⊢; rw [k3] at b4 ⊢; exact D.antisymm b4 b1)
  · have hbs : ∀ {x y}, Biconnected g x y → Biconnected g y x := fun {x y} hb =>
      ⟨fun c h1 h2 => rtg_symm (avoiding_symm D c) (hb.1 c h2 h1), fun h => hb.2 (h.symm D)⟩
    have hmax : ∀ w p q, ix p ≤ ix w → ix q ≤ ix w → w ≠ p → w ≠ q → Biconnected g w p → Biconnected g w q → ∃ l ∈ vbc, w ∈ l ∧ p ∈ l ∧ q ∈ l := by
      intro w p q hp hq h1 h2 h3 h4
      obtain ⟨s, t, T, i1, i2⟩ := biconnected_block D hgrp h1 h3
      obtain ⟨s', t', T', i3, i4⟩ := biconnected_block D hgrp h2 h4
      have k1 : Blk g par A t w := i1.resolve_left (fun e => by
        have := D.ixlt (by rw [e]; exact i2.below D T) h1
        omega)
      have k2 : Blk g par A t' w := i3.resolve_left (fun e => by
        have := D.ixlt (by rw [e]; exact i4.below D T') h2
        omega)
      have htt : t = t' := blk_unique D k1 k2 T.up T'.up T.cl T'.cl
      subst htt
      have hss : s = s' := by have h1 := T.up; rw [T'.up] at h1; omega
      subst hss
      obtain ⟨l, hl, h⟩ := hlist s t T
      exact ⟨l, hl, h w i1, h p i2, h q i4⟩
    intro x y z hxy hyz hxz b1 b2 b3
    rcases le_total (ix x) (ix y) with c1 | c1
    · rcases le_total (ix y) (ix z) with c2 | c2
      · obtain ⟨l, hl, e1, e2, e3⟩ := hmax z x y (by omega) c2 (Ne.symm hxz) (Ne.symm hyz) (hbs b3) (hbs b2)
        exact ⟨l, hl, e2, e3, e1⟩
      · obtain ⟨l, hl, e1, e2, e3⟩ := hmax y x z c1 c2 (Ne.symm hxy) hyz (hbs b1) b2
        exact ⟨l, hl, e2, e1, e3⟩
    · rcases le_total (ix x) (ix z) with c2 | c2
      · obtain ⟨l, hl, e1, e2, e3⟩ := hmax z x y c2 (by omega) (Ne.symm hxz) (Ne.symm hyz) (hbs b3) (hbs b2)
        exact ⟨l, hl, e2, e3, e1⟩
      · obtain ⟨l, hl, e1, e2, e3⟩ := hmax x y z c1 c2 hxy hxz b1 b3
        exact ⟨l, hl, e1, e2, e3⟩

/-- A node with an edge that is not a bridge is in some list, together with the other end of the edge; the two ends of a bridge are in none. -/
theorem C131_edges {g : List (List Nat)} (hg : Valid g) (hsym : ∀ x y, Edge g x y → Edge g y x) :
    ∃ d fuel0, (∀ fuel ≥ fuel0, chainDecomposition fuel g = some d) ∧ ∃ vbc, biconnectedComponents g d = some vbc ∧
      ∀ x y, Edge g x y → x ≠ y → ((∃ l ∈ vbc, x ∈ l ∧ y ∈ l) ↔ ¬ Bridge g x y) := by
  obtain ⟨d, fuel0, h1, vbc, h2, _, h3, _, _⟩ := C131_biconnected_components hg hsym
  refine ⟨d, fuel0, h1, vbc, h2, fun x y he hxy => ?_⟩
  rw [h3 x y hxy]
  exact ⟨fun h => h.2, fun h => ⟨fun c c1 c2 => ReflTransGen.single ⟨he, Ne.symm c1, Ne.symm c2⟩, h⟩⟩

/-! ### Examples -/

example : biconnectedComponents g1 [[[[0, 2, 1, 0]], [[3, 5, 4, 3]]], []] = some [[0, 2, 1], [3, 5, 4]] := by decide +kernel

/-- Two triangles that share the node 0: the mark of the shared node is taken back, so that it is in both lists. -/
def g2 : List (List Nat) := [[1, 2, 3, 4], [0, 2], [0, 1], [0, 4], [0, 3]]

example : (chainDecomposition 100 g2).bind (biconnectedComponents g2) = some [[0, 2, 1], [0, 4, 3]] := by decide +kernel

/-- The hypotheses of the theorems are met. -/
example : Valid g2 ∧ ∀ x y, Edge g2 x y → Edge g2 y x := by
  have h : ∀ u < g2.length, ∀ v ∈ g2.getD u [], v < g2.length ∧ v < g2.length ∧ u ∈ g2.getD v [] := by decide +kernel
  refine ⟨fun u v he => edge_all g2 (fun _ v => v < g2.length) (fun u hu v hv => (h u hu v hv).1) u v he, fun x y he => ?_⟩
  refine edge_all g2 (fun u v => Edge g2 v u) (fun u hu v hv => ?_) x y he
  obtain ⟨_, h2, h3⟩ := h u hu v hv
  exact ⟨g2.getD v [], by simp [List.getD, List.getElem?_eq_getElem h2], h3⟩

end Altruct.Chain
