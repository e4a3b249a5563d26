/-
Trees with addresses and the heaps that represent them.
-/
import Verif.BST.Model
import Mathlib.Data.List.Nodup
import Mathlib.Data.List.Perm.Basic
import Mathlib.Tactic.Ring

namespace Altruct.BST

variable {V K : Type}

/-- A tree of nodes with address, balance, count and value. -/
inductive Tree (V : Type) where
  | nil
  | node (a : Nat) (b c : Int) (v : V) (l r : Tree V)

/-- The address of the root; 0 for the empty tree. -/
def Tree.root : Tree V → Nat
  | .nil => 0
  | .node a _ _ _ _ _ => a

/-- The sum of all counts. -/
def Tree.size : Tree V → Int
  | .nil => 0
  | .node _ _ c _ l r => l.size + c + r.size

/-- The addresses. -/
def Tree.ad : Tree V → List Nat
  | .nil => []
  | .node a _ _ _ l r => a :: (l.ad ++ r.ad)

/-- Address, value and count of the nodes in order. -/
def Tree.seq : Tree V → List (Nat × V × Int)
  | .nil => []
  | .node a _ c v l r => l.seq ++ (a, v, c) :: r.seq

/-- The empty tree. -/
def Tree.isNil : Tree V → Bool
  | .nil => true
  | .node .. => false

/-- The heap has the tree, and the parent of its root is `par`. -/
def Owns (h : Heap V) (par : Nat) : Tree V → Prop
  | .nil => True
  | .node a b c v l r => a ≠ 0 ∧ par ≠ a ∧ h a = some ⟨par, l.root, r.root, b, l.size + c + r.size, some v⟩ ∧ Owns h a l ∧ Owns h a r

/-- One step of a path to a subtree: the subtree is the left (`L`) or the right child. -/
inductive Frame (V : Type) where
  | L (a : Nat) (b c : Int) (v : V) (r : Tree V)
  | R (a : Nat) (b c : Int) (v : V) (l : Tree V)

/-- The address of a frame. -/
def Frame.a : Frame V → Nat
  | .L a _ _ _ _ => a
  | .R a _ _ _ _ => a

/-- The other child. -/
def Frame.t : Frame V → Tree V
  | .L _ _ _ _ r => r
  | .R _ _ _ _ l => l

/-- The count of a frame. -/
def Frame.c : Frame V → Int
  | .L _ _ c _ _ => c
  | .R _ _ c _ _ => c

/-- The tree with the given subtree. -/
def Frame.fill : Frame V → Tree V → Tree V
  | .L a b c v r, t => .node a b c v t r
  | .R a b c v l, t => .node a b c v l t

/-- The tree with the given subtree at the end of the path; the last step comes first. -/
def plug : List (Frame V) → Tree V → Tree V
  | [], t => t
  | f :: C, t => plug C (f.fill t)

/-- The parent of the subtree. -/
def parOf (C : List (Frame V)) (P : Nat) : Nat :=
  match C with
  | [] => P
  | f :: _ => f.a

/-- The addresses on a path and beside it. -/
def adC : List (Frame V) → List Nat
  | [] => []
  | f :: C => f.a :: (f.t.ad ++ adC C)

/-- What comes before the subtree. -/
def pre : List (Frame V) → List (Nat × V × Int)
  | [] => []
  | .L .. :: C => pre C
  | .R a _ c v l :: C => pre C ++ l.seq ++ [(a, v, c)]

/-- What comes after the subtree. -/
def suf : List (Frame V) → List (Nat × V × Int)
  | [] => []
  | .L a _ c v r :: C => (a, v, c) :: r.seq ++ suf C
  | .R .. :: C => suf C

/-- The root of the whole tree. -/
def segRoot : List (Frame V) → Nat → Nat
  | [], x => x
  | f :: C, _ => segRoot C f.a

/-- The size of the whole tree. -/
def segSize : List (Frame V) → Int → Int
  | [], s => s
  | f :: C, s => segSize C (s + f.c + f.t.size)

/-- The heap has the path; the subtree has the address `x` and the size `s`, the parent of the first node is `P`. -/
def Seg (h : Heap V) (P : Nat) : List (Frame V) → Nat → Int → Prop
  | [], _, _ => True
  | .L a b c v r :: C, x, s => a ≠ 0 ∧ parOf C P ≠ a ∧ h a = some ⟨parOf C P, x, r.root, b, s + c + r.size, some v⟩ ∧ Owns h a r ∧ Seg h P C a (s + c + r.size)
  | .R a b c v l :: C, x, s => a ≠ 0 ∧ parOf C P ≠ a ∧ h a = some ⟨parOf C P, l.root, x, b, l.size + c + s, some v⟩ ∧ Owns h a l ∧ Seg h P C a (l.size + c + s)

/-- The heap has the `nil` node and the path from it. -/
structure CtxOK (h : Heap V) (C : List (Frame V)) (x : Nat) (s : Int) : Prop where
  nil : h 0 = some ⟨0, segRoot C x, segRoot C x, 0, 0, none⟩
  seg : Seg h 0 C x s

/-- The heap represents the tree. -/
structure Rep (h : Heap V) (t : Tree V) : Prop where
  nil : h 0 = some ⟨0, t.root, t.root, 0, 0, none⟩
  own : Owns h 0 t
  nodup : (0 :: t.ad).Nodup

/-! ### Elementary facts -/

theorem Owns.ne_zero {h : Heap V} : ∀ {t : Tree V} {par : Nat}, Owns h par t → 0 ∉ t.ad
  | .nil, _, _ => by simp [Tree.ad]
  | .node a b c v l r, par, ho => by
    have h1 := Owns.ne_zero ho.2.2.2.1
    have h2 := Owns.ne_zero ho.2.2.2.2
    simp only [Tree.ad, List.mem_cons, List.mem_append, not_or]
    exact ⟨fun e => ho.1 e.symm, h1, h2⟩

theorem Owns.congr {h h' : Heap V} : ∀ {t : Tree V} {par : Nat}, Owns h par t → (∀ a ∈ t.ad, h' a = h a) → Owns h' par t
  | .nil, _, _, _ => trivial
  | .node a b c v l r, par, ho, hh => by
    obtain ⟨h0, h1, h2, h3, h4⟩ := ho
    refine ⟨h0, h1, by rw [hh a (by simp [Tree.ad]), h2], h3.congr (fun x hx => hh x ?_), h4.congr (fun x hx => hh x ?_)⟩
    · simp only [Tree.ad, List.mem_cons, List.mem_append]; exact Or.inr (Or.inl hx)
    · simp only [Tree.ad, List.mem_cons, List.mem_append]; exact Or.inr (Or.inr hx)

theorem Seg.congr {h h' : Heap V} {P : Nat} : ∀ {C : List (Frame V)} {x : Nat} {s : Int}, Seg h P C x s → (∀ a ∈ adC C, h' a = h a) → Seg h' P C x s
  | [], _, _, _, _ => trivial
  | .L a b c v r :: C, x, s, ho, hh => by
    obtain ⟨h0, h1, h2, h3, h4⟩ := ho
    refine ⟨h0, h1, by rw [hh a (by simp [adC, Frame.a]), h2], h3.congr (fun y hy => hh y ?_), h4.congr (fun y hy => hh y ?_)⟩
    · simp only [adC, List.mem_cons, List.mem_append]; exact Or.inr (Or.inl hy)
    · simp only [adC, List.mem_cons, List.mem_append]; exact Or.inr (Or.inr hy)
  | .R a b c v l :: C, x, s, ho, hh => by
    obtain ⟨h0, h1, h2, h3, h4⟩ := ho
    refine ⟨h0, h1, by rw [hh a (by simp [adC, Frame.a]), h2], h3.congr (fun y hy => hh y ?_), h4.congr (fun y hy => hh y ?_)⟩
    · simp only [adC, List.mem_cons, List.mem_append]; exact Or.inr (Or.inl hy)
    · simp only [adC, List.mem_cons, List.mem_append]; exact Or.inr (Or.inr hy)

theorem CtxOK.congr {h h' : Heap V} {C : List (Frame V)} {x : Nat} {s : Int} (hc : CtxOK h C x s) (h0 : h' 0 = h 0) (hh : ∀ a ∈ adC C, h' a = h a) : CtxOK h' C x s :=
  ⟨by rw [h0, hc.nil], hc.seg.congr hh⟩

theorem Owns.plug {h : Heap V} {P : Nat} : ∀ {C : List (Frame V)} {t : Tree V}, Owns h P (plug C t) ↔ Seg h P C t.root t.size ∧ Owns h (parOf C P) t
  | [], t => by simp [BST.plug, Seg, parOf]
  | .L a b c v r :: C, t => by
    rw [BST.plug, Owns.plug]
    simp only [Frame.fill, Tree.root, Tree.size, Owns, Seg, parOf, Frame.a]
    constructor
    · rintro ⟨h1, h2, h3, h4, h5, h6⟩; exact ⟨⟨h2, h3, h4, h6, h1⟩, h5⟩
    · rintro ⟨⟨h2, h3, h4, h6, h1⟩, h5⟩; exact ⟨h1, h2, h3, h4, h5, h6⟩
  | .R a b c v l :: C, t => by
    rw [BST.plug, Owns.plug]
    simp only [Frame.fill, Tree.root, Tree.size, Owns, Seg, parOf, Frame.a]
    constructor
    · rintro ⟨h1, h2, h3, h4, h5, h6⟩; exact ⟨⟨h2, h3, h4, h5, h1⟩, h6⟩
    · rintro ⟨⟨h2, h3, h4, h5, h1⟩, h6⟩; exact ⟨h1, h2, h3, h4, h5, h6⟩

theorem plug_root : ∀ (C : List (Frame V)) (t : Tree V), (plug C t).root = segRoot C t.root
  | [], _ => rfl
  | .L .. :: C, t => by rw [plug, plug_root C]; rfl
  | .R .. :: C, t => by rw [plug, plug_root C]; rfl

theorem plug_size : ∀ (C : List (Frame V)) (t : Tree V), (plug C t).size = segSize C t.size
  | [], _ => rfl
  | .L a b c v r :: C, t => by rw [plug, plug_size C]; rfl
  | .R a b c v l :: C, t => by
    rw [plug, plug_size C, segSize]
    congr 1
    simp only [Frame.fill, Tree.size, Frame.c, Frame.t]
    ring

theorem plug_seq : ∀ (C : List (Frame V)) (t : Tree V), (plug C t).seq = pre C ++ t.seq ++ suf C
  | [], t => by simp [plug, pre, suf]
  | .L a b c v r :: C, t => by rw [plug, plug_seq C, pre, suf]; simp [Frame.fill, Tree.seq]
  | .R a b c v l :: C, t => by rw [plug, plug_seq C, pre, suf]; simp [Frame.fill, Tree.seq]

theorem plug_ad : ∀ (C : List (Frame V)) (t : Tree V), (plug C t).ad.Perm (t.ad ++ adC C)
  | [], t => by simp [plug, adC]
  | .L a b c v r :: C, t => by
    rw [plug]
    refine (plug_ad C _).trans ?_
    simp only [Frame.fill, Tree.ad, adC, Frame.a, Frame.t, List.cons_append, List.append_assoc]
    exact List.perm_middle.symm
  | .R a b c v l :: C, t => by
    rw [plug]
    refine (plug_ad C _).trans ?_
    simp only [Frame.fill, Tree.ad, adC, Frame.a, Frame.t, List.cons_append, List.append_assoc]
    refine List.Perm.trans ?_ List.perm_middle.symm
    refine List.Perm.cons _ ?_
    rw [← List.append_assoc, ← List.append_assoc]
    exact List.Perm.append_right _ List.perm_append_comm

theorem plug_append : ∀ (C D : List (Frame V)) (t : Tree V), plug (C ++ D) t = plug D (plug C t)
  | [], _, _ => rfl
  | f :: C, D, t => by rw [List.cons_append, plug, plug, plug_append]

theorem seq_ad : ∀ t : Tree V, (t.seq.map (·.1)).Perm t.ad
  | .nil => by simp [Tree.seq, Tree.ad]
  | .node a b c v l r => by
    simp only [Tree.seq, Tree.ad, List.map_append, List.map_cons]
    refine List.perm_middle.trans (List.Perm.cons _ ?_)
    exact List.Perm.append (seq_ad l) (seq_ad r)

theorem size_seq : ∀ t : Tree V, t.size = (t.seq.map (·.2.2)).sum
  | .nil => rfl
  | .node a b c v l r => by
    simp only [Tree.size, Tree.seq, List.map_append, List.map_cons, List.sum_append, List.sum_cons, size_seq l, size_seq r]
    ring

/-- The heap represents the tree, seen from a subtree. -/
theorem Rep.focus {h : Heap V} {C : List (Frame V)} {t : Tree V} : Rep h (plug C t) ↔ CtxOK h C t.root t.size ∧ Owns h (parOf C 0) t ∧ (0 :: (t.ad ++ adC C)).Nodup := by
  constructor
  · intro hr
    obtain ⟨h1, h2⟩ := Owns.plug.mp hr.own
    exact ⟨⟨by rw [← plug_root]; exact hr.nil, h1⟩, h2, ((plug_ad C t).cons 0).nodup_iff.mp hr.nodup⟩
  · rintro ⟨⟨h0, h1⟩, h2, h3⟩
    exact ⟨by rw [plug_root]; exact h0, Owns.plug.mpr ⟨h1, h2⟩, ((plug_ad C t).cons 0).nodup_iff.mpr h3⟩

/-- Every address of a tree is the root of a subtree. -/
theorem exists_focus : ∀ (t : Tree V) (a : Nat), a ∈ t.ad → ∃ C b c v l r, t = plug C (.node a b c v l r)
  | .nil, a, h => by simp [Tree.ad] at h
  | .node x b c v l r, a, h => by
    simp only [Tree.ad, List.mem_cons, List.mem_append] at h
    rcases h with rfl | h | h
    · exact ⟨[], b, c, v, l, r, rfl⟩
    · obtain ⟨C, b', c', v', l', r', e⟩ := exists_focus l a h
      exact ⟨C ++ [.L x b c v r], b', c', v', l', r', by rw [plug_append, ← e]; rfl⟩
    · obtain ⟨C, b', c', v', l', r', e⟩ := exists_focus r a h
      exact ⟨C ++ [.R x b c v l], b', c', v', l', r', by rw [plug_append, ← e]; rfl⟩

theorem root_mem {t : Tree V} (h : t ≠ .nil) : t.root ∈ t.ad := by
  cases t with
  | nil => exact absurd rfl h
  | node a b c v l r => simp [Tree.root, Tree.ad]

theorem Owns.root_ne_zero {h : Heap V} {par : Nat} {t : Tree V} (ho : Owns h par t) : t.root = 0 ↔ t = .nil := by
  cases t with
  | nil => simp [Tree.root]
  | node a b c v l r => simp [Tree.root, ho.1]

/-- The node at the root of a tree that may be empty. -/
theorem Owns.isNil {h : Heap V} {par : Nat} {t : Tree V} (ho : Owns h par t) {y z : Nat} {w : Int} (h0 : h 0 = some ⟨0, y, z, w, 0, none⟩) :
    BST.isNil h t.root = some t.isNil ∧ sizeOf' h t.root = some t.size := by
  cases t with
  | nil => simp [BST.isNil, sizeOf', Tree.root, h0, Tree.isNil, Tree.size]
  | node a b c v l r =>
    obtain ⟨h1, h2, h3, -⟩ := ho
    simp [BST.isNil, sizeOf', Tree.root, h3, Tree.isNil, Tree.size, h2]

theorem Seg.par_ne {h : Heap V} {P : Nat} : ∀ {C : List (Frame V)} {x : Nat} {s : Int}, Seg h P C x s → ∀ a ∈ adC C, a ≠ 0
  | [], _, _, _, a, ha => by simp [adC] at ha
  | .L a b c v r :: C, x, s, ho, y, hy => by
    simp only [adC, List.mem_cons, List.mem_append] at hy
    rcases hy with rfl | hy | hy
    · exact ho.1
    · intro e; subst e; exact ho.2.2.2.1.ne_zero hy
    · exact Seg.par_ne ho.2.2.2.2 y hy
  | .R a b c v l :: C, x, s, ho, y, hy => by
    simp only [adC, List.mem_cons, List.mem_append] at hy
    rcases hy with rfl | hy | hy
    · exact ho.1
    · intro e; subst e; exact ho.2.2.2.1.ne_zero hy
    · exact Seg.par_ne ho.2.2.2.2 y hy

theorem Heap.set_same (h : Heap V) (a : Nat) (n : Node V) : h.set a n a = some n := by simp [Heap.set]

theorem Heap.set_ne (h : Heap V) {a x : Nat} (n : Node V) (hx : x ≠ a) : h.set a n x = h x := by simp [Heap.set, hx]

theorem parOf_mem (C : List (Frame V)) (P : Nat) : parOf C P = P ∨ parOf C P ∈ adC C := by
  cases C with
  | nil => exact Or.inl rfl
  | cons f C => right; simp [parOf, adC]

end Altruct.BST
