/-
The heap as disjoint parts, and the effect of the elementary operations on one part.
-/
import Verif.BST.Iter

namespace Altruct.BST

variable {V K : Type}

/-- A part of the heap: a node, a tree whose root has the parent `q`, the `nil` node with a path from it, or a piece of
a path. -/
inductive Chunk (V : Type) where
  | node (p : Nat) (n : Node V)
  | tree (q : Nat) (t : Tree V)
  | ctx (C : List (Frame V)) (x : Nat) (s : Int)
  | seg (Q : Nat) (K : List (Frame V)) (y : Nat) (s : Int)

/-- The addresses of a part. -/
def Chunk.ad : Chunk V → List Nat
  | .node p _ => [p]
  | .tree _ t => t.ad
  | .ctx C _ _ => 0 :: adC C
  | .seg _ K _ _ => adC K

/-- The heap has the part. -/
def Chunk.Holds (h : Heap V) : Chunk V → Prop
  | .node p n => h p = some n
  | .tree q t => Owns h q t
  | .ctx C x s => CtxOK h C x s
  | .seg Q K y s => Seg h Q K y s

/-- The heap consists of the parts. -/
structure Sat (h : Heap V) (L : List (Chunk V)) : Prop where
  holds : ∀ c ∈ L, c.Holds h
  nodup : (L.flatMap Chunk.ad).Nodup
  out : ∀ x, x ∉ L.flatMap Chunk.ad → h x = none

theorem Chunk.Holds.congr {h h' : Heap V} {c : Chunk V} (hc : c.Holds h) (hh : ∀ x ∈ c.ad, h' x = h x) : c.Holds h' := by
  cases c with
  | node p n => exact (hh p (by simp [Chunk.ad])).trans hc
  | tree q t => exact Owns.congr hc hh
  | ctx C x s => exact CtxOK.congr hc (hh 0 (by simp [Chunk.ad])) (fun a ha => hh a (by simp [Chunk.ad, ha]))
  | seg Q K y s => exact Seg.congr hc hh

theorem Owns.some {h : Heap V} : ∀ {t : Tree V} {q : Nat}, Owns h q t → ∀ x ∈ t.ad, (h x).isSome
  | .nil, _, _, x, hx => by simp [Tree.ad] at hx
  | .node a b c v l r, q, ho, x, hx => by
    simp only [Tree.ad, List.mem_cons, List.mem_append] at hx
    rcases hx with rfl | hx | hx
    · rw [ho.2.2.1]; rfl
    · exact ho.2.2.2.1.some x hx
    · exact ho.2.2.2.2.some x hx

theorem Sat.node {h : Heap V} {L : List (Chunk V)} (hs : Sat h L) {p : Nat} {n : Node V} (hm : Chunk.node p n ∈ L) : h p = some n := hs.holds _ hm

theorem Sat.tree {h : Heap V} {L : List (Chunk V)} (hs : Sat h L) {q : Nat} {t : Tree V} (hm : Chunk.tree q t ∈ L) : Owns h q t := hs.holds _ hm

theorem Sat.ctx {h : Heap V} {L : List (Chunk V)} (hs : Sat h L) {C : List (Frame V)} {x : Nat} {s : Int} (hm : Chunk.ctx C x s ∈ L) : CtxOK h C x s := hs.holds _ hm

theorem Sat.seg {h : Heap V} {L : List (Chunk V)} (hs : Sat h L) {Q : Nat} {C : List (Frame V)} {x : Nat} {s : Int} (hm : Chunk.seg Q C x s ∈ L) : Seg h Q C x s := hs.holds _ hm

/-- Change one part. -/
theorem Sat.upd {h h' : Heap V} {L1 L2 : List (Chunk V)} {c c' : Chunk V} (hs : Sat h (L1 ++ c :: L2)) (hc : c'.Holds h') (ha : c'.ad = c.ad)
    (hh : ∀ x, x ∉ c.ad → h' x = h x) : Sat h' (L1 ++ c' :: L2) := by
  have hn := hs.nodup
  simp only [List.flatMap_append, List.flatMap_cons] at hn
  have hn1 := List.nodup_append.mp hn
  have hn2 := List.nodup_append.mp hn1.2.1
  refine ⟨?_, ?_, ?_⟩
  · intro k hk
    rcases List.mem_append.mp hk with hk | hk
    · refine (hs.holds k (by simp [hk])).congr (fun x hx => hh x fun hxc => ?_)
      exact hn1.2.2 x (List.mem_flatMap.mpr ⟨k, hk, hx⟩) x (List.mem_append.mpr (Or.inl hxc)) rfl
    · rcases List.mem_cons.mp hk with rfl | hk
      · exact hc
      · refine (hs.holds k (by simp [hk])).congr (fun x hx => hh x fun hxc => ?_)
        exact hn2.2.2 x hxc x (List.mem_flatMap.mpr ⟨k, hk, hx⟩) rfl
  · simp only [List.flatMap_append, List.flatMap_cons, ha]
    exact hn
  · intro x hx
    simp only [List.flatMap_append, List.flatMap_cons, ha] at hx
    rw [hh x (fun hxc => hx (List.mem_append.mpr (Or.inr (List.mem_append.mpr (Or.inl hxc)))))]
    exact hs.out x (by simpa only [List.flatMap_append, List.flatMap_cons] using hx)

/-- Rearrange the parts. -/
theorem Sat.cast {h : Heap V} {L L' : List (Chunk V)} (hs : Sat h L) (hh : ∀ c ∈ L', c.Holds h) (hp : (L'.flatMap Chunk.ad).Perm (L.flatMap Chunk.ad)) : Sat h L' :=
  ⟨hh, hp.nodup_iff.mpr hs.nodup, fun x hx => hs.out x (fun hy => hx (hp.mem_iff.mpr hy))⟩

theorem Sat.disj {h : Heap V} {L1 L2 : List (Chunk V)} {c : Chunk V} (hs : Sat h (L1 ++ c :: L2)) {k : Chunk V} (hk : k ∈ L1 ∨ k ∈ L2) : ∀ x ∈ c.ad, x ∉ k.ad := by
  have hn := hs.nodup
  simp only [List.flatMap_append, List.flatMap_cons] at hn
  have hn1 := List.nodup_append.mp hn
  have hn2 := List.nodup_append.mp hn1.2.1
  intro x hx hxk
  rcases hk with hk | hk
  · exact hn1.2.2 x (List.mem_flatMap.mpr ⟨k, hk, hxk⟩) x (List.mem_append.mpr (Or.inl hx)) rfl
  · exact hn2.2.2 x hx x (List.mem_flatMap.mpr ⟨k, hk, hxk⟩) rfl

theorem Sat.self {h : Heap V} {L1 L2 : List (Chunk V)} {c : Chunk V} (hs : Sat h (L1 ++ c :: L2)) : c.ad.Nodup := by
  have hn := hs.nodup
  simp only [List.flatMap_append, List.flatMap_cons] at hn
  exact (List.nodup_append.mp (List.nodup_append.mp hn).2.1).1

/-! ### Elementary operations -/

theorem Sat.setNode {h : Heap V} {L1 L2 : List (Chunk V)} {p : Nat} {n : Node V} (hs : Sat h (L1 ++ .node p n :: L2)) (n' : Node V) : Sat (h.set p n') (L1 ++ .node p n' :: L2) :=
  hs.upd (Heap.set_same _ _ _) rfl (fun x hx => Heap.set_ne _ _ (by simpa [Chunk.ad] using hx))

theorem Sat.at {h : Heap V} {L1 L2 : List (Chunk V)} {p : Nat} {n : Node V} (hs : Sat h (L1 ++ .node p n :: L2)) : h p = some n := hs.node (by simp)

theorem Sat.setParent {h : Heap V} {L1 L2 : List (Chunk V)} {p : Nat} {n : Node V} (hs : Sat h (L1 ++ .node p n :: L2)) (x : Nat) :
    ∃ h', setParent h p x = some h' ∧ Sat h' (L1 ++ .node p { n with parent := x } :: L2) :=
  ⟨_, by rw [BST.setParent, hs.at]; rfl, hs.setNode _⟩

theorem Sat.setLeft {h : Heap V} {L1 L2 : List (Chunk V)} {p : Nat} {n : Node V} (hs : Sat h (L1 ++ .node p n :: L2)) (x : Nat) :
    ∃ h', setLeft h p x = some h' ∧ Sat h' (L1 ++ .node p { n with left := x } :: L2) :=
  ⟨_, by rw [BST.setLeft, hs.at]; rfl, hs.setNode _⟩

theorem Sat.setRight {h : Heap V} {L1 L2 : List (Chunk V)} {p : Nat} {n : Node V} (hs : Sat h (L1 ++ .node p n :: L2)) (x : Nat) :
    ∃ h', setRight h p x = some h' ∧ Sat h' (L1 ++ .node p { n with right := x } :: L2) :=
  ⟨_, by rw [BST.setRight, hs.at]; rfl, hs.setNode _⟩

theorem Sat.setSize {h : Heap V} {L1 L2 : List (Chunk V)} {p : Nat} {n : Node V} (hs : Sat h (L1 ++ .node p n :: L2)) (x : Int) :
    ∃ h', setSize h p x = some h' ∧ Sat h' (L1 ++ .node p { n with size := x } :: L2) :=
  ⟨_, by rw [BST.setSize, hs.at]; rfl, hs.setNode _⟩

theorem Sat.setBalance {h : Heap V} {L1 L2 : List (Chunk V)} {p : Nat} {n : Node V} (hs : Sat h (L1 ++ .node p n :: L2)) (x : Int) :
    ∃ h', setBalance h p x = some h' ∧ Sat h' (L1 ++ .node p { n with balance := x } :: L2) :=
  ⟨_, by rw [BST.setBalance, hs.at]; rfl, hs.setNode _⟩

/-- The first half of `make_link`. -/
def linkOnly (h : Heap V) (par ch old : Nat) : Option (Heap V) := do
  let n ← h par
  let h ← (if n.right == old then BST.setRight h par ch else some h)
  let n ← h par
  (if n.left == old then BST.setLeft h par ch else some h)

theorem makeLink_eq (h : Heap V) (par ch old : Nat) : makeLink h par ch old = (linkOnly h par ch old).bind (fun h => fixParent h ch par) := by
  rw [makeLink, linkOnly]
  simp only [Option.bind_eq_bind, Option.bind_assoc]
  rfl

theorem linkOnly_of {h : Heap V} {par ch old : Nat} {n : Node V} (hp : h par = some n) :
    linkOnly h par ch old = some (if n.right = old then
        if n.left = old then (h.set par { n with right := ch }).set par { n with left := ch, right := ch } else h.set par { n with right := ch }
      else if n.left = old then h.set par { n with left := ch } else h) := by
  rw [linkOnly, hp]
  simp only [Option.bind_eq_bind, Option.bind_some, BST.setRight, BST.setLeft, hp]
  by_cases h1 : n.right = old
  · rw [if_pos (by simpa using h1), if_pos h1]
    simp only [Option.bind_some, Heap.set_same]
    by_cases h2 : n.left = old
    · rw [if_pos (by simpa using h2), if_pos h2]
    · rw [if_neg (by simpa using h2), if_neg h2]
  · rw [if_neg (by simpa using h1), if_neg h1]
    simp only [Option.bind_some, hp]
    by_cases h2 : n.left = old
    · rw [if_pos (by simpa using h2), if_pos h2]
    · rw [if_neg (by simpa using h2), if_neg h2]

theorem Sat.linkRight {h : Heap V} {L1 L2 : List (Chunk V)} {p : Nat} {n : Node V} (hs : Sat h (L1 ++ .node p n :: L2)) {old : Nat} (new : Nat) (h1 : n.right = old) (h2 : n.left ≠ old) :
    ∃ h', linkOnly h p new old = some h' ∧ Sat h' (L1 ++ .node p { n with right := new } :: L2) := by
  refine ⟨_, linkOnly_of hs.at, ?_⟩
  rw [if_pos h1, if_neg h2]
  exact hs.setNode _

theorem Sat.linkLeft {h : Heap V} {L1 L2 : List (Chunk V)} {p : Nat} {n : Node V} (hs : Sat h (L1 ++ .node p n :: L2)) {old : Nat} (new : Nat) (h1 : n.right ≠ old) (h2 : n.left = old) :
    ∃ h', linkOnly h p new old = some h' ∧ Sat h' (L1 ++ .node p { n with left := new } :: L2) := by
  refine ⟨_, linkOnly_of hs.at, ?_⟩
  rw [if_neg h1, if_pos h2]
  exact hs.setNode _

theorem Sat.linkNone {h : Heap V} {L1 L2 : List (Chunk V)} {p : Nat} {n : Node V} (hs : Sat h (L1 ++ .node p n :: L2)) {old : Nat} (new : Nat) (h1 : n.right ≠ old) (h2 : n.left ≠ old) :
    linkOnly h p new old = some h := by
  rw [linkOnly_of hs.at, if_neg h1, if_neg h2]

theorem root_ne_of_not_mem {t : Tree V} {a : Nat} (h0 : a ≠ 0) (ha : a ∉ t.ad) : t.root ≠ a := by
  intro e
  by_cases ht : t = .nil
  · rw [ht] at e; exact h0 e.symm
  · exact ha (e ▸ root_mem ht)

theorem Seg.root_ne {C : List (Frame V)} {x : Nat} (y : Nat) (hC : C ≠ []) : segRoot C x = segRoot C y := by
  cases C with
  | nil => exact absurd rfl hC
  | cons f C => rfl

/-- Change the end of a path. -/
theorem Sat.linkSeg {h : Heap V} {L1 L2 : List (Chunk V)} {Q : Nat} {C : List (Frame V)} {old : Nat} {s : Int} (hs : Sat h (L1 ++ .seg Q C old s :: L2)) (new : Nat) (hC : C ≠ [])
    (h0 : old ≠ 0) (hold : old ∉ adC C) : ∃ h', linkOnly h (parOf C Q) new old = some h' ∧ Sat h' (L1 ++ .seg Q C new s :: L2) := by
  have hseg : Seg h Q C old s := hs.seg (by simp)
  have hn : (adC C).Nodup := hs.self
  cases C with
  | nil => exact absurd rfl hC
  | cons f C =>
    cases f with
    | L a b c v r =>
      obtain ⟨s1, s2, s3, s4, s5⟩ := hseg
      simp only [adC, Frame.a, Frame.t, List.mem_cons, List.mem_append, not_or] at hold
      simp only [adC, Frame.a, Frame.t, List.nodup_cons, List.mem_append, not_or] at hn
      refine ⟨_, linkOnly_of s3, ?_⟩
      simp only [parOf, Frame.a]
      rw [if_neg (root_ne_of_not_mem h0 hold.2.1), if_pos trivial]
      refine hs.upd ?_ rfl ?_
      · refine ⟨s1, s2, Heap.set_same _ _ _, s4.congr (fun x hx => Heap.set_ne _ _ ?_), s5.congr (fun x hx => Heap.set_ne _ _ ?_)⟩
        · intro e; exact hn.1.1 (e ▸ hx)
        · intro e; exact hn.1.2 (e ▸ hx)
      · intro x hx
        refine Heap.set_ne _ _ ?_
        intro e
        exact hx (by simp [Chunk.ad, adC, e, Frame.a])
    | R a b c v l =>
      obtain ⟨s1, s2, s3, s4, s5⟩ := hseg
      simp only [adC, Frame.a, Frame.t, List.mem_cons, List.mem_append, not_or] at hold
      simp only [adC, Frame.a, Frame.t, List.nodup_cons, List.mem_append, not_or] at hn
      refine ⟨_, linkOnly_of s3, ?_⟩
      simp only [parOf, Frame.a]
      rw [if_pos trivial, if_neg (root_ne_of_not_mem h0 hold.2.1)]
      refine hs.upd ?_ rfl ?_
      · refine ⟨s1, s2, Heap.set_same _ _ _, s4.congr (fun x hx => Heap.set_ne _ _ ?_), s5.congr (fun x hx => Heap.set_ne _ _ ?_)⟩
        · intro e; exact hn.1.1 (e ▸ hx)
        · intro e; exact hn.1.2 (e ▸ hx)
      · intro x hx
        refine Heap.set_ne _ _ ?_
        intro e
        exact hx (by simp [Chunk.ad, adC, e, Frame.a])

/-- Change the end of the path from the `nil` node. -/
theorem Sat.linkCtx {h : Heap V} {L1 L2 : List (Chunk V)} {C : List (Frame V)} {old : Nat} {s : Int} (hs : Sat h (L1 ++ .ctx C old s :: L2)) (new : Nat)
    (h0 : old ≠ 0) (hold : old ∉ adC C) : ∃ h', linkOnly h (parOf C 0) new old = some h' ∧ Sat h' (L1 ++ .ctx C new s :: L2) := by
  have hctx : CtxOK h C old s := hs.ctx (by simp)
  have hn : (0 :: adC C).Nodup := hs.self
  by_cases hC : C = []
  · subst hC
    refine ⟨_, linkOnly_of hctx.nil, ?_⟩
    simp only [segRoot, if_true]
    refine hs.upd ⟨?_, trivial⟩ rfl ?_
    · simp [parOf, Heap.set, segRoot]
    · intro x hx
      have : x ≠ 0 := by simpa [Chunk.ad, adC] using hx
      simp [parOf, Heap.set, this]
  · have h1 : Sat h ([] ++ .seg 0 C old s :: (.node 0 ⟨0, segRoot C old, segRoot C old, 0, 0, none⟩ :: (L1 ++ L2))) := by
      refine hs.cast ?_ ?_
      · intro c hc
        simp only [List.nil_append, List.mem_cons, List.mem_append] at hc
        rcases hc with rfl | rfl | hc
        · exact hctx.seg
        · exact hctx.nil
        · exact hs.holds c (by simp only [List.mem_append, List.mem_cons]; tauto)
      · rw [List.perm_iff_count]
        intro x
        simp only [List.nil_append, List.flatMap_append, List.flatMap_cons, List.count_append, Chunk.ad, List.count_cons, List.count_nil]
        omega
    obtain ⟨h', e, hs'⟩ := h1.linkSeg new hC h0 hold
    refine ⟨h', e, hs'.cast ?_ ?_⟩
    · intro c hc
      simp only [List.mem_cons, List.mem_append] at hc
      have hnil : h' 0 = some ⟨0, segRoot C old, segRoot C old, 0, 0, none⟩ := hs'.node (by simp)
      rcases hc with hc | rfl | hc
      · exact hs'.holds c (by simp only [List.nil_append, List.mem_append, List.mem_cons]; tauto)
      · exact ⟨by rw [hnil, Seg.root_ne new hC], hs'.seg (by simp)⟩
      · exact hs'.holds c (by simp only [List.nil_append, List.mem_append, List.mem_cons]; tauto)
    · rw [List.perm_iff_count]
      intro x
      simp only [List.nil_append, List.flatMap_append, List.flatMap_cons, List.count_append, Chunk.ad, List.count_cons, List.count_nil]
      omega

theorem Sat.adoptNode {h : Heap V} {L1 L2 : List (Chunk V)} {p : Nat} {n : Node V} (hs : Sat h (L1 ++ .node p n :: L2)) (par : Nat) (hn : n.parent ≠ p) :
    ∃ h', fixParent h p par = some h' ∧ Sat h' (L1 ++ .node p { n with parent := par } :: L2) := by
  obtain ⟨h', e, hs'⟩ := hs.setParent par
  refine ⟨h', ?_, hs'⟩
  rw [fixParent, isNil, hs.at]
  simp only [Option.bind_eq_bind, Option.bind_some]
  rw [if_neg (by simpa using hn), e]

theorem Sat.adoptTree {h : Heap V} {L1 L2 : List (Chunk V)} {q : Nat} {t : Tree V} (hs : Sat h (L1 ++ .tree q t :: L2)) {par : Nat} (hp : par ∉ t.ad)
    {y z : Nat} {w : Int} (h0 : h 0 = some ⟨0, y, z, w, 0, none⟩) :
    ∃ h', fixParent h t.root par = some h' ∧ Sat h' (L1 ++ .tree par t :: L2) := by
  have ho : Owns h q t := hs.tree (by simp)
  have hn : t.ad.Nodup := hs.self
  cases t with
  | nil =>
    refine ⟨h, ?_, hs.upd trivial rfl (fun x _ => rfl)⟩
    simp [fixParent, isNil, Tree.root, h0]
  | node a b c v l r =>
    obtain ⟨h1, h2, h3, h4, h5⟩ := ho
    simp only [Tree.ad, List.nodup_cons, List.mem_append, not_or] at hn
    simp only [Tree.ad, List.mem_cons, not_or] at hp
    refine ⟨h.set a ⟨par, l.root, r.root, b, l.size + c + r.size, some v⟩, ?_, hs.upd ?_ rfl ?_⟩
    · rw [fixParent, isNil, Tree.root, h3]
      simp only [Option.bind_eq_bind, Option.bind_some]
      rw [if_neg (by simpa using h2), BST.setParent, h3]
      rfl
    · refine ⟨h1, hp.1, Heap.set_same _ _ _, h4.congr (fun x hx => Heap.set_ne _ _ ?_), h5.congr (fun x hx => Heap.set_ne _ _ ?_)⟩
      · intro e; exact hn.1.1 (e ▸ hx)
      · intro e; exact hn.1.2 (e ▸ hx)
    · intro x hx
      refine Heap.set_ne _ _ ?_
      intro e
      exact hx (by simp [Chunk.ad, Tree.ad, e])

/-- The node of a frame. -/
def Frame.node (par x : Nat) (s : Int) : Frame V → Node V
  | .L _ b c v r => ⟨par, x, r.root, b, s + c + r.size, some v⟩
  | .R _ b c v l => ⟨par, l.root, x, b, l.size + c + s, some v⟩

theorem seg_cons {h : Heap V} {P : Nat} {f : Frame V} {C : List (Frame V)} {x : Nat} {s : Int} : Seg h P (f :: C) x s ↔
    f.a ≠ 0 ∧ parOf C P ≠ f.a ∧ h f.a = some (f.node (parOf C P) x s) ∧ Owns h f.a f.t ∧ Seg h P C f.a (s + f.c + f.t.size) := by
  cases f with
  | L a b c v r => exact Iff.rfl
  | R a b c v l =>
    have : s + (Frame.R a b c v l).c + (Frame.R a b c v l).t.size = l.size + c + s := by simp only [Frame.c, Frame.t]; ring
    rw [this]
    exact Iff.rfl

theorem Frame.node_size (par x : Nat) (s : Int) (f : Frame V) : (f.node par x s).size = s + f.c + f.t.size := by
  cases f with
  | L a b c v r => rfl
  | R a b c v l => simp only [Frame.node, Frame.c, Frame.t]; ring

theorem Frame.node_parent (par x : Nat) (s : Int) (f : Frame V) : (f.node par x s).parent = par := by cases f <;> rfl

theorem Frame.node_reparent (par par' x : Nat) (s : Int) (f : Frame V) : { f.node par x s with parent := par' } = f.node par' x s := by cases f <;> rfl

theorem Frame.node_resize (par x : Nat) (s d : Int) (f : Frame V) : { f.node par x s with size := (f.node par x s).size + d } = f.node par x (s + d) := by
  cases f with
  | L a b c v r => simp only [Frame.node]; congr 1; ring
  | R a b c v l => simp only [Frame.node]; congr 1; ring

theorem segRoot_mem : ∀ {C : List (Frame V)} {y : Nat}, C ≠ [] → segRoot C y ∈ adC C
  | [], _, h => absurd rfl h
  | [f], y, _ => by simp [segRoot, adC]
  | f :: g :: C, y, _ => by
    rw [segRoot, adC]
    exact List.mem_cons_of_mem _ (List.mem_append_right _ (segRoot_mem (by simp)))

theorem adC_cons_nodup {f : Frame V} {C : List (Frame V)} (hn : (adC (f :: C)).Nodup) : f.a ∉ f.t.ad ∧ f.a ∉ adC C ∧ (∀ x ∈ f.t.ad, x ∉ adC C) ∧ f.t.ad.Nodup ∧ (adC C).Nodup := by
  simp only [adC, List.nodup_cons, List.mem_append, not_or] at hn
  have := List.nodup_append.mp hn.2
  exact ⟨hn.1.1, hn.1.2, fun x hx hy => this.2.2 x hx x hy rfl, this.1, this.2.1⟩

/-- Change the parent of the first node of a piece of a path. -/
theorem Seg.retop {h : Heap V} {Q par : Nat} : ∀ {C : List (Frame V)} {y : Nat} {s : Int}, Seg h Q C y s → C ≠ [] → (adC C).Nodup → par ∉ adC C →
    ∃ n, h (segRoot C y) = some n ∧ n.parent = Q ∧ Q ≠ segRoot C y ∧ n.size = segSize C s ∧
      Seg (h.set (segRoot C y) { n with parent := par }) par C y s
  | [], _, _, _, hC, _, _ => absurd rfl hC
  | [f], y, s, hsg, _, hn, hp => by
    obtain ⟨h1, h2, h3, h4, -⟩ := seg_cons.mp hsg
    obtain ⟨d1, -⟩ := adC_cons_nodup hn
    refine ⟨_, h3, Frame.node_parent _ _ _ _, h2, Frame.node_size _ _ _ _, seg_cons.mpr ⟨h1, ?_, ?_, ?_, trivial⟩⟩
    · intro e; exact hp (by rw [adC, ← e]; simp [parOf])
    · rw [segRoot, segRoot, Heap.set_same, Frame.node_reparent]; rfl
    · exact h4.congr (fun x hx => Heap.set_ne _ _ (fun e => d1 (by rw [segRoot, segRoot] at e; exact e ▸ hx)))
  | f :: g :: C, y, s, hsg, _, hn, hp => by
    obtain ⟨h1, h2, h3, h4, h5⟩ := seg_cons.mp hsg
    obtain ⟨d1, d2, d3, d4, d5⟩ := adC_cons_nodup hn
    have hp' : par ∉ adC (g :: C) := fun e => hp (by rw [adC]; exact List.mem_cons_of_mem _ (List.mem_append_right _ e))
    obtain ⟨n, i1, i2, i3, i4, i5⟩ := h5.retop (by simp) d5 hp'
    have hm := segRoot_mem (C := g :: C) (y := f.a) (by simp)
    refine ⟨n, i1, i2, i3, i4, seg_cons.mpr ⟨h1, h2, ?_, ?_, i5⟩⟩
    · rw [show segRoot (f :: g :: C) y = segRoot (g :: C) f.a from rfl, Heap.set_ne _ _ (fun e : f.a = _ => d2 (e ▸ hm)), h3]; rfl
    · exact h4.congr (fun x hx => Heap.set_ne _ _ (fun e => d3 x hx (e ▸ hm)))

theorem Sat.adoptSeg {h : Heap V} {L1 L2 : List (Chunk V)} {Q : Nat} {C : List (Frame V)} {y : Nat} {s : Int} (hs : Sat h (L1 ++ .seg Q C y s :: L2)) {par : Nat}
    (hC : C ≠ []) (hp : par ∉ adC C) : ∃ h', fixParent h (segRoot C y) par = some h' ∧ Sat h' (L1 ++ .seg par C y s :: L2) := by
  have hseg : Seg h Q C y s := hs.seg (by simp)
  have hn : (adC C).Nodup := hs.self
  obtain ⟨n, h1, h2, h3, h4, h5⟩ := hseg.retop hC hn hp
  refine ⟨_, ?_, hs.upd h5 rfl ?_⟩
  · rw [fixParent, isNil, h1]
    simp only [Option.bind_eq_bind, Option.bind_some]
    rw [if_neg (by rw [h2]; simpa using h3), BST.setParent, h1]
    rfl
  · intro x hx
    exact Heap.set_ne _ _ (fun e => hx (e ▸ segRoot_mem hC))

/-- `propagate_size` along a piece of a path. -/
theorem propagate_seg {fin : Nat} {cnt : Int} : ∀ {C : List (Frame V)} {y : Nat} {s : Int} {h : Heap V} {fuel : Nat}, Seg h fin C y s → (adC C).Nodup → fin ∉ adC C → C.length < fuel →
    ∃ h', propagateSize.go fin cnt fuel h (parOf C fin) = some h' ∧ Seg h' fin C y (s + cnt) ∧ ∀ x, x ∉ adC C → h' x = h x
  | [], y, s, h, fuel, _, _, _, hf => by
    obtain ⟨fuel, rfl⟩ : ∃ k, fuel = k + 1 := ⟨fuel - 1, by simp at hf; omega⟩
    exact ⟨h, by simp [parOf, propagateSize.go], trivial, fun x _ => rfl⟩
  | f :: C, y, s, h, fuel, hsg, hn, hp, hf => by
    obtain ⟨fuel, rfl⟩ : ∃ k, fuel = k + 1 := ⟨fuel - 1, by simp at hf; omega⟩
    obtain ⟨h1, h2, h3, h4, h5⟩ := seg_cons.mp hsg
    obtain ⟨d1, d2, d3, d4, d5⟩ := adC_cons_nodup hn
    simp only [adC, List.mem_cons, List.mem_append, not_or] at hp
    have h5' : Seg (h.set f.a (f.node (parOf C fin) y (s + cnt))) fin C f.a (s + f.c + f.t.size) := h5.congr (fun x hx => Heap.set_ne _ _ (fun e => d2 (e ▸ hx)))
    obtain ⟨h', i1, i2, i3⟩ := propagate_seg (cnt := cnt) h5' d5 hp.2.2 (fuel := fuel) (by simp at hf; omega)
    refine ⟨h', ?_, seg_cons.mpr ⟨h1, h2, ?_, ?_, ?_⟩, ?_⟩
    · rw [propagateSize.go, parOf, if_neg (fun e => hp.1 e.symm), h3]
      simp only [Option.bind_eq_bind, Option.bind_some]
      rw [Frame.node_resize, Frame.node_parent]
      exact i1
    · rw [i3 _ d2, Heap.set_same]
    · refine h4.congr (fun x hx => ?_)
      rw [i3 x (d3 x hx), Heap.set_ne _ _ (fun e : x = f.a => d1 (e ▸ hx))]
    · rw [show s + cnt + f.c + f.t.size = s + f.c + f.t.size + cnt by ring]
      exact i2
    · intro x hx
      simp only [adC, List.mem_cons, List.mem_append, not_or] at hx
      rw [i3 x hx.2.2, Heap.set_ne _ _ hx.1]

theorem Sat.propagateSeg {h : Heap V} {L1 L2 : List (Chunk V)} {Q : Nat} {C : List (Frame V)} {y : Nat} {s : Int} (hs : Sat h (L1 ++ .seg Q C y s :: L2)) (cnt : Int)
    (hQ : Q ∉ adC C) {fuel : Nat} (hf : C.length < fuel) : ∃ h', propagateSize.go Q cnt fuel h (parOf C Q) = some h' ∧ Sat h' (L1 ++ .seg Q C y (s + cnt) :: L2) := by
  obtain ⟨h', h1, h2, h3⟩ := propagate_seg (cnt := cnt) (hs.seg (by simp) : Seg h Q C y s) hs.self hQ hf
  exact ⟨h', h1, hs.upd h2 rfl h3⟩

/-- `propagate_size` to the `nil` node. -/
theorem Sat.propagateCtx {h : Heap V} {L1 L2 : List (Chunk V)} {C : List (Frame V)} {y : Nat} {s : Int} (hs : Sat h (L1 ++ .ctx C y s :: L2)) (cnt : Int)
    {fuel : Nat} (hf : C.length < fuel) : ∃ h', propagateSize.go 0 cnt fuel h (parOf C 0) = some h' ∧ Sat h' (L1 ++ .ctx C y (s + cnt) :: L2) := by
  have hc : CtxOK h C y s := hs.ctx (by simp)
  have hn : (0 :: adC C).Nodup := hs.self
  rw [List.nodup_cons] at hn
  obtain ⟨h', h1, h2, h3⟩ := propagate_seg (cnt := cnt) hc.seg hn.2 hn.1 hf
  refine ⟨h', h1, hs.upd ⟨by rw [h3 0 hn.1, hc.nil], h2⟩ rfl (fun x hx => h3 x (fun e => hx ?_))⟩
  simp [Chunk.ad, e]

theorem Sat.free {h : Heap V} {L1 L2 : List (Chunk V)} {p : Nat} {n : Node V} (hs : Sat h (L1 ++ .node p n :: L2)) : ∃ h', h.free p = some h' ∧ Sat h' (L1 ++ L2) := by
  have hd : ∀ k ∈ L1 ++ L2, p ∉ k.ad := fun k hk => hs.disj (List.mem_append.mp hk) p (by simp [Chunk.ad])
  refine ⟨fun x => if x = p then none else h x, by rw [Heap.free, hs.at]; rfl, ?_, ?_, ?_⟩
  · intro c hc
    refine (hs.holds c ?_).congr (fun x hx => if_neg (fun e : x = p => hd c hc (e ▸ hx)))
    simp only [List.mem_append, List.mem_cons] at hc ⊢
    tauto
  · refine hs.nodup.sublist ?_
    simp only [List.flatMap_append, List.flatMap_cons]
    exact List.Sublist.append_left (List.sublist_append_right _ _) _
  · intro x hx
    by_cases e : x = p
    · simp [e]
    · rw [if_neg e]
      refine hs.out x (fun hy => hx ?_)
      simp only [List.flatMap_append, List.flatMap_cons, List.mem_append, Chunk.ad, List.mem_singleton] at hy ⊢
      tauto

theorem Chunk.Holds.some {h : Heap V} {c : Chunk V} (hc : c.Holds h) : ∀ x ∈ c.ad, (h x).isSome := by
  have hseg : ∀ {Q : Nat} (C : List (Frame V)) {y : Nat} {s : Int}, Seg h Q C y s → ∀ x ∈ adC C, (h x).isSome := by
    intro Q C
    induction C with
    | nil => intro y s _ x hx; simp [adC] at hx
    | cons f C ih =>
      intro y s hsg x hx
      obtain ⟨h1, h2, h3, h4, h5⟩ := seg_cons.mp hsg
      simp only [adC, List.mem_cons, List.mem_append] at hx
      rcases hx with rfl | hx | hx
      · rw [h3]; rfl
      · exact h4.some x hx
      · exact ih h5 x hx
  cases c with
  | node p n => intro x hx; simp only [Chunk.ad, List.mem_singleton] at hx; subst hx; rw [show h x = _ from hc]; rfl
  | tree q t => exact Owns.some hc
  | ctx C y s =>
    intro x hx
    simp only [Chunk.ad, List.mem_cons] at hx
    rcases hx with rfl | hx
    · rw [CtxOK.nil hc]; rfl
    · exact hseg C (CtxOK.seg hc) x hx
  | seg Q C y s => exact hseg C hc

theorem Sat.alloc {h : Heap V} {L : List (Chunk V)} (hs : Sat h L) {p : Nat} (hp : h p = none) (n : Node V) : Sat (h.set p n) (.node p n :: L) := by
  have hd : ∀ k ∈ L, p ∉ k.ad := by
    intro k hk hpk
    have := (hs.holds k hk).some p hpk
    rw [hp] at this
    simp at this
  have hd' : p ∉ L.flatMap Chunk.ad := by
    rw [List.mem_flatMap]
    rintro ⟨k, hk, hpk⟩
    exact hd k hk hpk
  refine ⟨?_, ?_, ?_⟩
  · intro c hc
    rcases List.mem_cons.mp hc with rfl | hc
    · exact Heap.set_same _ _ _
    · exact (hs.holds c hc).congr (fun x hx => Heap.set_ne _ _ (fun e => hd c hc (e ▸ hx)))
  · simp only [List.flatMap_cons, Chunk.ad, List.singleton_append, List.nodup_cons]
    exact ⟨hd', hs.nodup⟩
  · intro x hx
    simp only [List.flatMap_cons, Chunk.ad, List.singleton_append, List.mem_cons, not_or] at hx
    rw [Heap.set_ne _ _ hx.1]
    exact hs.out x hx.2

/-- The heap represents the tree and has nothing else. -/
structure Exact (h : Heap V) (t : Tree V) : Prop where
  rep : Rep h t
  out : ∀ x, x ≠ 0 → x ∉ t.ad → h x = none

/-- A represented tree as two parts. -/
theorem Exact.sat {h : Heap V} {C : List (Frame V)} {t : Tree V} : Exact h (plug C t) ↔ Sat h [.ctx C t.root t.size, .tree (parOf C 0) t] := by
  constructor
  · intro he
    obtain ⟨h1, h2, h3⟩ := Rep.focus.mp he.rep
    refine ⟨?_, ?_, ?_⟩
    · intro c hc
      simp only [List.mem_cons, List.not_mem_nil, or_false] at hc
      rcases hc with rfl | rfl
      · exact h1
      · exact h2
    · refine List.Perm.nodup ?_ h3
      rw [List.perm_iff_count]
      intro x
      simp only [List.flatMap_cons, List.flatMap_nil, Chunk.ad, List.count_append, List.count_cons, List.count_nil]
      omega
    · intro x hx
      simp only [List.flatMap_cons, List.flatMap_nil, Chunk.ad, List.mem_append, List.mem_cons, List.not_mem_nil, or_false, not_or] at hx
      refine he.out x hx.1.1 ?_
      rw [(plug_ad C t).mem_iff, List.mem_append]
      tauto
  · intro hs
    refine ⟨Rep.focus.mpr ⟨hs.ctx (by simp), hs.tree (by simp), ?_⟩, ?_⟩
    · refine List.Perm.nodup ?_ hs.nodup
      rw [List.perm_iff_count]
      intro x
      simp only [List.flatMap_cons, List.flatMap_nil, Chunk.ad, List.count_append, List.count_cons, List.count_nil]
      omega
    · intro x hx hy
      rw [(plug_ad C t).mem_iff, List.mem_append] at hy
      refine hs.out x ?_
      simp only [List.flatMap_cons, List.flatMap_nil, Chunk.ad, List.mem_append, List.mem_cons, List.not_mem_nil, or_false, not_or]
      tauto

end Altruct.BST
