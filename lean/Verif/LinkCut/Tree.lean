/-
Trees with addresses, the memory that represents them, and rotations.
-/
import Verif.LinkCut.Model
import Mathlib.Data.List.Nodup
import Mathlib.Data.List.Perm.Basic

namespace Altruct.LinkCut

variable {T M : Type}

/-- How values are aggregated: `own` is the own value of a node and `agg` the aggregate that it carries. -/
structure AggOK (own agg : T → M) (fup : T → T → T → T) (id : T) (mul : M → M → M) (one : M) : Prop where
  assoc : ∀ a b c, mul (mul a b) c = mul a (mul b c)
  one_mul : ∀ a, mul one a = a
  mul_one : ∀ a, mul a one = a
  own_fup : ∀ p l r, own (fup p l r) = own p
  agg_fup : ∀ p l r, agg (fup p l r) = mul (mul (agg l) (own p)) (agg r)
  agg_id : agg id = one

/-- A tree of nodes with address and value. -/
inductive Tree (T : Type) where
  | nil
  | node (a : Nat) (v : T) (l r : Tree T)

namespace Tree

/-- The address of the root. -/
def root : Tree T → Nat
  | .nil => 0
  | .node a _ _ _ => a

/-- The number of nodes. -/
def size : Tree T → Int
  | .nil => 0
  | .node _ _ l r => l.size + r.size + 1

/-- The value at the root. -/
def val (id : T) : Tree T → T
  | .nil => id
  | .node _ v _ _ => v

/-- The addresses. -/
def ad : Tree T → List Nat
  | .nil => []
  | .node a _ l r => a :: (l.ad ++ r.ad)

/-- Address and own value of the nodes in order. -/
def seq (own : T → M) : Tree T → List (Nat × M)
  | .nil => []
  | .node a v l r => l.seq own ++ (a, own v) :: r.seq own

/-- The memory cells of the tree whose root has the parent `q`. -/
def cells (q : Nat) : Tree T → List (Nat × Node T)
  | .nil => []
  | .node a v l r => (a, ⟨q, l.root, r.root, l.size + r.size + 1, v⟩) :: (l.cells a ++ r.cells a)

end Tree

theorem root_node {a : Nat} {v : T} {l r : Tree T} : (Tree.node a v l r).root = a := rfl

theorem val_node {id : T} {a : Nat} {v : T} {l r : Tree T} : (Tree.node a v l r).val id = v := rfl

/-- One step of a path to a subtree: the subtree is the left (`L`) or the right child. -/
inductive Frame (T : Type) where
  | L (a : Nat) (v : T) (r : Tree T)
  | R (a : Nat) (v : T) (l : Tree T)

namespace Frame

/-- The address of a frame. -/
def a : Frame T → Nat
  | .L a _ _ => a
  | .R a _ _ => a

/-- The other child. -/
def t : Frame T → Tree T
  | .L _ _ r => r
  | .R _ _ l => l

/-- The tree with the given subtree. -/
def fill : Frame T → Tree T → Tree T
  | .L a v r, t => .node a v t r
  | .R a v l, t => .node a v l t

end Frame

/-- The tree with the given subtree at the end of the path; the last step comes first. -/
def plug : List (Frame T) → Tree T → Tree T
  | [], t => t
  | f :: C, t => plug C (f.fill t)

/-- The parent of the subtree. -/
def parOf (C : List (Frame T)) (q : Nat) : Nat :=
  match C with
  | [] => q
  | f :: _ => f.a

theorem parOf_cons {f : Frame T} {C : List (Frame T)} {q : Nat} : parOf (f :: C) q = f.a := rfl

/-- The memory cell of a frame with the parent `q` and the child `x` of the size `s`. -/
def Frame.cell (q x : Nat) (s : Int) : Frame T → Nat × Node T
  | .L a v r => (a, ⟨q, x, r.root, s + r.size + 1, v⟩)
  | .R a v l => (a, ⟨q, l.root, x, l.size + s + 1, v⟩)

/-- The memory cells on a path and beside it. -/
def cellsC (q : Nat) : List (Frame T) → Nat → Int → List (Nat × Node T)
  | [], _, _ => []
  | f :: C, x, s => f.cell (parOf C q) x s :: (f.t.cells f.a ++ cellsC q C f.a (f.t.size + s + 1))

/-- Perform the rotation: the subtree with the root `x` comes up. -/
def rotT (fup : T → T → T → T) (id : T) (f : Frame T) (x : Nat) (vx : T) (a b : Tree T) : Tree T :=
  match f with
  | .L p vp c =>
    let w := fup vp (b.val id) (c.val id)
    .node x (fup vx (a.val id) w) a (.node p w b c)
  | .R p vp c =>
    let w := fup vp (c.val id) (a.val id)
    .node x (fup vx w (b.val id)) (.node p w c a) b

/-! ### Memory -/

/-- The memory has the cells. -/
structure Sat (h : Heap T) (L : List (Nat × Node T)) : Prop where
  get : ∀ c ∈ L, h c.1 = some c.2
  nodup : (L.map (·.1)).Nodup

theorem Sat.perm {h : Heap T} {L L' : List (Nat × Node T)} (hs : Sat h L) (hp : L.Perm L') : Sat h L' :=
  ⟨fun c hc => hs.get c (hp.mem_iff.mpr hc), (hp.map _).nodup_iff.mp hs.nodup⟩

theorem Sat.read {h : Heap T} {L : List (Nat × Node T)} (hs : Sat h L) {a : Nat} {n : Node T} (hc : (a, n) ∈ L) : h a = some n := hs.get _ hc

theorem Sat.upd {h : Heap T} {L : List (Nat × Node T)} {a : Nat} {n : Node T} (hs : Sat h ((a, n) :: L)) (f : Node T → Node T) :
    h.upd a f = some (h.set a (f n)) ∧ Sat (h.set a (f n)) ((a, f n) :: L) := by
  refine ⟨by rw [Heap.upd, hs.read (by simp : (a, n) ∈ _)]; rfl, ?_, ?_⟩
  · intro c hc
    rcases List.mem_cons.mp hc with rfl | hc
    · simp [Heap.set]
    · have hn : c.1 ≠ a := by
        intro he
        have := hs.nodup
        simp only [List.map_cons, List.nodup_cons] at this
        exact this.1 (List.mem_map.mpr ⟨c, hc, he⟩)
      rw [Heap.set, if_neg hn]
      exact hs.get c (by simp [hc])
  · exact hs.nodup

/-- Permutations of cell lists, by counting. -/
macro "perms" : tactic => `(tactic| (classical
  rw [List.perm_iff_count]
  intro
  simp only [List.count_append, List.count_cons, List.count_nil]
  omega))

theorem cells_ad {q : Nat} : ∀ {t : Tree T}, (t.cells q).map (·.1) = t.ad
  | .nil => rfl
  | .node a v l r => by simp [Tree.cells, Tree.ad, cells_ad]

theorem seq_length {own : T → M} : ∀ {t : Tree T}, ((t.seq own).length : Int) = t.size
  | .nil => rfl
  | .node a v l r => by
    have h1 := seq_length (own := own) (t := l)
    have h2 := seq_length (own := own) (t := r)
    simp only [Tree.seq, Tree.size, List.length_append, List.length_cons]
    omega

theorem seq_ad {own : T → M} : ∀ {t : Tree T}, ((t.seq own).map (·.1)).Perm t.ad
  | .nil => .refl _
  | .node a v l r => by
    simp only [Tree.seq, Tree.ad, List.map_append, List.map_cons]
    exact List.perm_middle.trans ((seq_ad.append seq_ad).cons a)

theorem mem_ad {own : T → M} {t : Tree T} {x : Nat} : x ∈ t.ad ↔ x ∈ (t.seq own).map (·.1) := seq_ad.mem_iff.symm

theorem fill_root {f : Frame T} {t : Tree T} : (f.fill t).root = f.a := by cases f <;> rfl
theorem fill_size {f : Frame T} {t : Tree T} : (f.fill t).size = f.t.size + t.size + 1 := by
  cases f with
  | L a v r => change t.size + r.size + 1 = r.size + t.size + 1; omega
  | R a v l => rfl

theorem plug_cells {q : Nat} : ∀ (C : List (Frame T)) (t : Tree T), ((plug C t).cells q).Perm (t.cells (parOf C q) ++ cellsC q C t.root t.size)
  | [], t => by simp [plug, cellsC, parOf]
  | f :: C, t => by
    refine (plug_cells C (f.fill t)).trans ?_
    rw [cellsC, fill_root, fill_size]
    cases f with
    | L a v r =>
      simp only [Frame.fill, Tree.cells, Frame.cell, Frame.t, Frame.a, parOf]
      perms
    | R a v l =>
      simp only [Frame.fill, Tree.cells, Frame.cell, Frame.t, Frame.a, parOf]
      perms

/-- The sequence before a subtree. -/
def pre (own : T → M) : List (Frame T) → List (Nat × M)
  | [] => []
  | .L .. :: C => pre own C
  | .R a v l :: C => pre own C ++ (l.seq own ++ [(a, own v)])

/-- The sequence after a subtree. -/
def suf (own : T → M) : List (Frame T) → List (Nat × M)
  | [] => []
  | .L a v r :: C => (a, own v) :: r.seq own ++ suf own C
  | .R .. :: C => suf own C

theorem plug_seq {own : T → M} : ∀ (C : List (Frame T)) (t : Tree T), (plug C t).seq own = pre own C ++ t.seq own ++ suf own C
  | [], t => by simp [plug, pre, suf]
  | .L a v r :: C, t => by rw [plug, plug_seq C]; simp [Frame.fill, Tree.seq, pre, suf]
  | .R a v l :: C, t => by rw [plug, plug_seq C]; simp [Frame.fill, Tree.seq, pre, suf]

theorem plug_split {own : T → M} : ∀ {t : Tree T} {x : Nat}, x ∈ t.ad → ∃ C v a b, t = plug C (.node x v a b) ∧ (C.length : Int) < t.size
  | .nil, x, hx => by simp [Tree.ad] at hx
  | .node y w l r, x, hx => by
    have pos : ∀ u : Tree T, 0 ≤ u.size := fun u => by rw [← seq_length (own := own)]; omega
    have app : ∀ (C : List (Frame T)) (f : Frame T) (t : Tree T), plug (C ++ [f]) t = f.fill (plug C t) := by
      intro C
      induction C with
      | nil => intro f t; rfl
      | cons g C ih => intro f t; rw [List.cons_append, plug, ih, plug]
    simp only [Tree.ad, List.mem_cons, List.mem_append] at hx
    rcases hx with rfl | hx | hx
    · exact ⟨[], w, l, r, rfl, by have := pos l; have := pos r; simp only [Tree.size, List.length_nil]; omega⟩
    · obtain ⟨C, v, a, b, rfl, h2⟩ := plug_split (own := own) hx
      refine ⟨C ++ [.L y w r], v, a, b, by rw [app]; rfl, ?_⟩
      have := pos r
      simp only [Tree.size, List.length_append, List.length_cons, List.length_nil]; omega
    · obtain ⟨C, v, a, b, rfl, h2⟩ := plug_split (own := own) hx
      refine ⟨C ++ [.R y w l], v, a, b, by rw [app]; rfl, ?_⟩
      have := pos l
      simp only [Tree.size, List.length_append, List.length_cons, List.length_nil]; omega

/-- Connecting a tree to another parent. -/
theorem connect_tree {h : Heap T} {q p : Nat} {t : Tree T} {R : List (Nat × Node T)} (hs : Sat h (t.cells q ++ R)) (h0 : ∀ x ∈ t.ad, x ≠ 0) :
    ∃ h', (if t.root ≠ 0 then h.upd t.root (fun n => { n with parent := p }) else some h) = some h' ∧ Sat h' (t.cells p ++ R) := by
  cases t with
  | nil => exact ⟨h, rfl, hs⟩
  | node a v l r =>
    have := Sat.upd (L := l.cells a ++ r.cells a ++ R) hs (fun n => { n with parent := p })
    refine ⟨_, ?_, this.2⟩
    rw [if_pos (show (Tree.node a v l r).root ≠ 0 from h0 a (by simp [Tree.ad]))]
    exact this.1

/-- The cell of the sentinel. -/
abbrev nilCell (id : T) : Nat × Node T := (0, ⟨0, 0, 0, 0, id⟩)

/-- Reading size and value of a possibly empty tree. -/
theorem read_tree {h : Heap T} {id : T} {L : List (Nat × Node T)} (hs : Sat h L) (hn : nilCell id ∈ L) {q : Nat} {t : Tree T} (ht : ∀ c ∈ t.cells q, c ∈ L) :
    ∃ n, h t.root = some n ∧ n.size = t.size ∧ n.val = t.val id := by
  cases t with
  | nil => exact ⟨_, hs.read hn, rfl, rfl⟩
  | node a v l r => exact ⟨_, hs.read (ht _ (by rw [Tree.cells]; exact List.mem_cons_self)), rfl, rfl⟩

theorem update_spec {fup : T → T → T → T} {h : Heap T} {id : T} {x q y z : Nat} {s : Int} {v : T} {a b : Tree T} {R : List (Nat × Node T)} (hx : x ≠ 0)
    (hs : Sat h ((x, ⟨q, a.root, b.root, s, v⟩) :: R)) (hn : nilCell id ∈ R) (ha : ∀ c ∈ a.cells y, c ∈ R) (hb : ∀ c ∈ b.cells z, c ∈ R) :
    ∃ h', update fup h x = some h' ∧ Sat h' ((x, ⟨q, a.root, b.root, a.size + b.size + 1, fup v (a.val id) (b.val id)⟩) :: R) := by
  obtain ⟨na, a1, a2, a3⟩ := read_tree hs (List.mem_cons_of_mem _ hn) (t := a) (q := y) (fun c hc => List.mem_cons_of_mem _ (ha c hc))
  obtain ⟨nb, b1, b2, b3⟩ := read_tree hs (List.mem_cons_of_mem _ hn) (t := b) (q := z) (fun c hc => List.mem_cons_of_mem _ (hb c hc))
  obtain ⟨e1, e2⟩ := hs.upd (fun n => { n with size := na.size + nb.size + 1, val := fup n.val na.val nb.val })
  refine ⟨h.set x ⟨q, a.root, b.root, na.size + nb.size + 1, fup v na.val nb.val⟩, ?_, ?_⟩
  · rw [update, if_pos hx, hs.read List.mem_cons_self]
    simp only [Option.bind_eq_bind, Option.bind_some]
    rw [a1]
    simp only [Option.bind_some]
    rw [b1]
    simp only [Option.bind_some]
    exact e1
  · rw [← a2, ← b2, ← a3, ← b3]
    exact e2

/-- The node `q` has no child among the given addresses. -/
def Free (R : List (Nat × Node T)) (q : Nat) (A : List Nat) : Prop := ∃ g, (q, g) ∈ R ∧ ∀ y ∈ A, g.left ≠ y ∧ g.right ≠ y

theorem root_mem {t : Tree T} (h : t.root ≠ 0) : t.root ∈ t.ad := by
  cases t with
  | nil => exact absurd rfl h
  | node a v l r => exact List.mem_cons_self

/-- Replacing a child of the last node of a path. -/
theorem ctx_step {h : Heap T} {q : Nat} {C : List (Frame T)} {p : Nat} {s : Int} {R : List (Nat × Node T)} (hs : Sat h (cellsC q C p s ++ R)) (hp : p ∈ R.map (·.1)) (hp0 : p ≠ 0)
    (hf : C = [] → Free R q [p]) : ∃ g, h (parOf C q) = some g ∧ ∀ (x : Nat) (h2 : Heap T) (R2 : List (Nat × Node T)), Sat h2 (cellsC q C p s ++ R2) →
      ∃ h3, ((if (p == g.left) = true then h2.upd (parOf C q) (fun n => { n with left := x }) else some h2).bind fun h =>
        if (p == g.right) = true then h.upd (parOf C q) (fun n => { n with right := x }) else some h) = some h3 ∧ Sat h3 (cellsC q C x s ++ R2) := by
  cases C with
  | nil =>
    obtain ⟨g, g1, g2⟩ := hf rfl
    obtain ⟨g3, g4⟩ := g2 p (by simp)
    refine ⟨g, hs.read (a := q) (by simp [cellsC, g1]), ?_⟩
    intro x h2 R2 hs2
    refine ⟨h2, ?_, hs2⟩
    rw [if_neg (by simpa using Ne.symm g3), Option.bind_some, if_neg (by simpa using Ne.symm g4)]
  | cons f C =>
    have hne : f.t.root ≠ p := by
      intro he
      have hm := root_mem (t := f.t) (by rw [he]; exact hp0)
      rw [he, ← cells_ad (q := f.a)] at hm
      have hd := hs.nodup
      simp only [cellsC, List.map_append, List.map_cons, List.cons_append, List.nodup_cons, List.append_assoc] at hd
      exact (List.nodup_append.mp hd.2).2.2 p hm p (by rw [List.mem_append]; exact .inr hp) rfl
    refine ⟨(f.cell (parOf C q) p s).2, hs.read (a := f.a) ?_, ?_⟩
    · cases f <;> simp [cellsC, Frame.cell, Frame.a]
    · intro x h2 R2 hs2
      cases f with
      | L a v r =>
        obtain ⟨e1, e2⟩ := Sat.upd (L := r.cells a ++ cellsC q C a (r.size + s + 1) ++ R2) hs2 (fun n => { n with left := x })
        refine ⟨_, ?_, e2⟩
        rw [if_pos (by simp [Frame.cell])]
        change Option.bind (h2.upd a _) _ = _
        rw [e1, Option.bind_some, if_neg (by simpa [Frame.cell, Frame.t] using Ne.symm hne)]
      | R a v l =>
        obtain ⟨e1, e2⟩ := Sat.upd (L := l.cells a ++ cellsC q C a (l.size + s + 1) ++ R2) hs2 (fun n => { n with right := x })
        refine ⟨_, ?_, e2⟩
        rw [if_neg (by simpa [Frame.cell, Frame.t] using Ne.symm hne), Option.bind_some, if_pos (by simp [Frame.cell])]
        exact e1

theorem rotate_spec {fup : T → T → T → T} {id : T} {h : Heap T} {q : Nat} {C : List (Frame T)} {f : Frame T} {x : Nat} {v : T} {a b : Tree T} {R : List (Nat × Node T)}
    (hs : Sat h ((plug (f :: C) (.node x v a b)).cells q ++ R)) (hn : nilCell id ∈ R) (hf : Free R q (plug (f :: C) (.node x v a b)).ad) :
    ∃ h', rotate fup h x = some h' ∧ Sat h' ((plug C (rotT fup id f x v a b)).cells q ++ R) := by
  have hs1 := hs.perm ((plug_cells (f :: C) (.node x v a b)).append_right R)
  have hadp : (plug (f :: C) (.node x v a b)).ad.Perm (((Tree.node x v a b).cells f.a ++ cellsC q (f :: C) x (Tree.node x v a b).size).map (·.1)) := by
    rw [← cells_ad (q := q)]
    exact (plug_cells (f :: C) (.node x v a b)).map _
  have hz : ∀ y ∈ (plug (f :: C) (.node x v a b)).ad, y ≠ 0 := by
    rintro y hy rfl
    have hd := hs.nodup
    rw [List.map_append, List.nodup_append] at hd
    exact hd.2.2 0 (by rw [cells_ad]; exact hy) 0 (List.mem_map.mpr ⟨_, hn, rfl⟩) rfl
  have hx0 : x ≠ 0 := hz x (hadp.mem_iff.mpr (by simp [Tree.cells]))
  have hp0 : f.a ≠ 0 := hz f.a (hadp.mem_iff.mpr (by cases f <;> simp [cellsC, Frame.cell, Frame.a]))
  have hpm : f.a ∈ (plug (f :: C) (.node x v a b)).ad := hadp.mem_iff.mpr (by cases f <;> simp [cellsC, Frame.cell, Frame.a])
  have ha0 : ∀ y ∈ a.ad, y ≠ 0 := fun y hy => hz y (hadp.mem_iff.mpr (by simp [Tree.cells, cells_ad, hy]))
  have hb0 : ∀ y ∈ b.ad, y ≠ 0 := fun y hy => hz y (hadp.mem_iff.mpr (by simp [Tree.cells, cells_ad, hy]))
  have hfree : ∀ R', (∀ c ∈ R, c ∈ R') → Free R' q [f.a] := by
    obtain ⟨g, g1, g2⟩ := hf
    exact fun R' hR => ⟨g, hR _ g1, fun y hy => by rw [List.mem_singleton.mp hy]; exact g2 _ hpm⟩
  cases f with
  | L p vp c =>
    simp only [Frame.a] at *
    simp only [Tree.cells, cellsC, Frame.cell, Frame.t, Frame.a, root_node, Tree.size, parOf_cons] at hs1
    generalize hS : c.size + (a.size + b.size + 1) + 1 = S at *
    have sA := hs1.perm (L' := b.cells x ++ ((p, ⟨parOf C q, x, c.root, a.size + b.size + 1 + c.size + 1, vp⟩) :: (x, ⟨p, a.root, b.root, a.size + b.size + 1, v⟩) ::
      (a.cells x ++ c.cells p ++ cellsC q C p S ++ R))) (by perms)
    have rx := sA.read (a := x) (n := ⟨p, a.root, b.root, a.size + b.size + 1, v⟩) (by simp)
    have rp := sA.read (a := p) (n := ⟨parOf C q, x, c.root, a.size + b.size + 1 + c.size + 1, vp⟩) (by simp)
    obtain ⟨h1, eA, s1⟩ := connect_tree (p := p) sA hb0
    have s1 := s1.perm (L' := (p, ⟨parOf C q, x, c.root, a.size + b.size + 1 + c.size + 1, vp⟩) :: (b.cells p ++ (x, ⟨p, a.root, b.root, a.size + b.size + 1, v⟩) ::
      (a.cells x ++ c.cells p ++ cellsC q C p S ++ R))) (by perms)
    obtain ⟨eB, s2⟩ := s1.upd (fun n => { n with left := b.root })
    generalize h1.set p _ = h2 at eB s2
    obtain ⟨eC, s3⟩ := s2.upd (fun n => { n with parent := x })
    generalize h2.set p _ = h3 at eC s3
    simp only at s3
    have s3 := s3.perm (L' := (x, ⟨p, a.root, b.root, a.size + b.size + 1, v⟩) :: (p, ⟨x, b.root, c.root, a.size + b.size + 1 + c.size + 1, vp⟩) ::
      (b.cells p ++ a.cells x ++ c.cells p ++ cellsC q C p S ++ R)) (by perms)
    obtain ⟨eD, s4⟩ := s3.upd (fun n => { n with right := p })
    generalize h3.set x _ = h4 at eD s4
    simp only at s4
    obtain ⟨g, eg, hg⟩ := ctx_step (C := C) (s := S) (R := (x, ⟨p, a.root, p, a.size + b.size + 1, v⟩) :: (p, ⟨x, b.root, c.root, a.size + b.size + 1 + c.size + 1, vp⟩) ::
      (b.cells p ++ a.cells x ++ c.cells p ++ R)) (s4.perm (by perms)) (by simp) hp0 (fun _ => hfree _ (fun d hd => by simp [hd]))
    obtain ⟨eE, s5⟩ := s4.upd (fun n => { n with parent := parOf C q })
    generalize h4.set x _ = h5 at eE s5
    simp only at s5
    obtain ⟨h6, eF, s6⟩ := hg x h5 ((x, ⟨parOf C q, a.root, p, a.size + b.size + 1, v⟩) :: (p, ⟨x, b.root, c.root, a.size + b.size + 1 + c.size + 1, vp⟩) ::
      (b.cells p ++ a.cells x ++ c.cells p ++ R)) (s5.perm (by perms))
    obtain ⟨h7, eG, s7⟩ := update_spec (fup := fup) (x := p) (a := b) (b := c) (y := p) (z := p) (id := id) (q := x) (v := vp) (s := a.size + b.size + 1 + c.size + 1)
      (R := (x, ⟨parOf C q, a.root, p, a.size + b.size + 1, v⟩) :: (b.cells p ++ a.cells x ++ c.cells p ++ R ++ cellsC q C x S)) hp0 (s6.perm (by perms))
      (by simp [hn]) (fun d hd => by simp [hd]) (fun d hd => by simp [hd])
    obtain ⟨h8, eH, s8⟩ := update_spec (fup := fup) (x := x) (a := a) (b := .node p (fup vp (b.val id) (c.val id)) b c) (y := x) (z := x) (id := id) (q := parOf C q) (v := v) (s := a.size + b.size + 1)
      (R := (p, ⟨x, b.root, c.root, b.size + c.size + 1, fup vp (b.val id) (c.val id)⟩) :: (b.cells p ++ a.cells x ++ c.cells p ++ R ++ cellsC q C x S)) hx0 (s7.perm (by simp only [root_node]; perms))
      (by simp [hn]) (fun d hd => by simp [hd]) (fun d hd => by
        simp only [Tree.cells, List.mem_cons, List.mem_append] at hd ⊢
        tauto)
    refine ⟨h8, ?_, ?_⟩
    · rw [rotate, rx]
      simp only [Option.bind_eq_bind, Option.bind_some]
      rw [rp]
      simp only [Option.bind_some, beq_self_eq_true, if_true, Bool.not_true, connect, Bool.false_eq_true, if_false, Option.bind_eq_bind]
      rw [eA]
      simp only [Option.bind_some]
      rw [eB]
      simp only [Option.bind_some]
      rw [if_pos hp0, eC]
      simp only [Option.bind_some]
      rw [eD]
      simp only [Option.bind_some]
      rw [eg]
      simp only [Option.bind_some]
      rw [if_pos hx0, eE]
      simp only [Option.bind_some]
      rw [eF]
      simp only [Option.bind_some]
      rw [eG]
      exact eH
    · refine s8.perm ?_
      refine List.Perm.trans ?_ ((plug_cells C _).append_right R).symm
      have hS' : a.size + (b.size + c.size + 1) + 1 = S := by omega
      simp only [rotT, Tree.cells, root_node, val_node, Tree.size, hS']
      perms
  | R p vp c =>
    simp only [Frame.a] at *
    simp only [Tree.cells, cellsC, Frame.cell, Frame.t, Frame.a, root_node, Tree.size, parOf_cons] at hs1
    generalize hS : c.size + (a.size + b.size + 1) + 1 = S at *
    have sA := hs1.perm (L' := a.cells x ++ ((p, ⟨parOf C q, c.root, x, S, vp⟩) :: (x, ⟨p, a.root, b.root, a.size + b.size + 1, v⟩) ::
      (b.cells x ++ c.cells p ++ cellsC q C p S ++ R))) (by perms)
    have rx := sA.read (a := x) (n := ⟨p, a.root, b.root, a.size + b.size + 1, v⟩) (by simp)
    have rp := sA.read (a := p) (n := ⟨parOf C q, c.root, x, S, vp⟩) (by simp)
    have hxc : x ≠ c.root := by
      intro he
      have hm := root_mem (t := c) (by rw [← he]; exact hx0)
      rw [← he, ← cells_ad (q := p)] at hm
      have hd := (sA.perm (L' := c.cells p ++ ((p, ⟨parOf C q, c.root, x, S, vp⟩) :: (x, ⟨p, a.root, b.root, a.size + b.size + 1, v⟩) ::
        (b.cells x ++ a.cells x ++ cellsC q C p S ++ R))) (by perms)).nodup
      rw [List.map_append, List.nodup_append] at hd
      exact hd.2.2 x hm x (by simp) rfl
    obtain ⟨h1, eA, s1⟩ := connect_tree (p := p) sA ha0
    have s1 := s1.perm (L' := (p, ⟨parOf C q, c.root, x, S, vp⟩) :: (a.cells p ++ (x, ⟨p, a.root, b.root, a.size + b.size + 1, v⟩) ::
      (b.cells x ++ c.cells p ++ cellsC q C p S ++ R))) (by perms)
    obtain ⟨eB, s2⟩ := s1.upd (fun n => { n with right := a.root })
    generalize h1.set p _ = h2 at eB s2
    obtain ⟨eC, s3⟩ := s2.upd (fun n => { n with parent := x })
    generalize h2.set p _ = h3 at eC s3
    simp only at s3
    have s3 := s3.perm (L' := (x, ⟨p, a.root, b.root, a.size + b.size + 1, v⟩) :: (p, ⟨x, c.root, a.root, S, vp⟩) ::
      (b.cells x ++ a.cells p ++ c.cells p ++ cellsC q C p S ++ R)) (by perms)
    obtain ⟨eD, s4⟩ := s3.upd (fun n => { n with left := p })
    generalize h3.set x _ = h4 at eD s4
    simp only at s4
    obtain ⟨g, eg, hg⟩ := ctx_step (C := C) (s := S) (R := (x, ⟨p, p, b.root, a.size + b.size + 1, v⟩) :: (p, ⟨x, c.root, a.root, S, vp⟩) ::
      (b.cells x ++ a.cells p ++ c.cells p ++ R)) (s4.perm (by perms)) (by simp) hp0 (fun _ => hfree _ (fun d hd => by simp [hd]))
    obtain ⟨eE, s5⟩ := s4.upd (fun n => { n with parent := parOf C q })
    generalize h4.set x _ = h5 at eE s5
    simp only at s5
    obtain ⟨h6, eF, s6⟩ := hg x h5 ((x, ⟨parOf C q, p, b.root, a.size + b.size + 1, v⟩) :: (p, ⟨x, c.root, a.root, S, vp⟩) ::
      (b.cells x ++ a.cells p ++ c.cells p ++ R)) (s5.perm (by perms))
    obtain ⟨h7, eG, s7⟩ := update_spec (fup := fup) (x := p) (a := c) (b := a) (y := p) (z := p) (id := id) (q := x) (v := vp) (s := S)
      (R := (x, ⟨parOf C q, p, b.root, a.size + b.size + 1, v⟩) :: (b.cells x ++ a.cells p ++ c.cells p ++ R ++ cellsC q C x S)) hp0 (s6.perm (by perms))
      (by simp [hn]) (fun d hd => by simp [hd]) (fun d hd => by simp [hd])
    obtain ⟨h8, eH, s8⟩ := update_spec (fup := fup) (x := x) (a := .node p (fup vp (c.val id) (a.val id)) c a) (b := b) (y := x) (z := x) (id := id) (q := parOf C q) (v := v) (s := a.size + b.size + 1)
      (R := (p, ⟨x, c.root, a.root, c.size + a.size + 1, fup vp (c.val id) (a.val id)⟩) :: (b.cells x ++ a.cells p ++ c.cells p ++ R ++ cellsC q C x S)) hx0 (s7.perm (by simp only [root_node]; perms))
      (by simp [hn]) (fun d hd => by
        simp only [Tree.cells, List.mem_cons, List.mem_append] at hd ⊢
        tauto) (fun d hd => by simp [hd])
    refine ⟨h8, ?_, ?_⟩
    · rw [rotate, rx]
      simp only [Option.bind_eq_bind, Option.bind_some]
      rw [rp]
      simp only [Option.bind_some, beq_eq_false_iff_ne.mpr hxc, if_true, Bool.not_false, connect, Bool.false_eq_true, if_false, Option.bind_eq_bind]
      rw [eA]
      simp only [Option.bind_some]
      rw [eB]
      simp only [Option.bind_some]
      rw [if_pos hp0, eC]
      simp only [Option.bind_some]
      rw [eD]
      simp only [Option.bind_some]
      rw [eg]
      simp only [Option.bind_some]
      rw [if_pos hx0, eE]
      simp only [Option.bind_some]
      rw [eF]
      simp only [Option.bind_some]
      rw [eG]
      exact eH
    · refine s8.perm ?_
      refine List.Perm.trans ?_ ((plug_cells C _).append_right R).symm
      have hS' : c.size + a.size + 1 + b.size + 1 = S := by omega
      simp only [rotT, Tree.cells, root_node, val_node, Tree.size, hS']
      perms

end Altruct.LinkCut
