/-
Moving through a tree: `inorder_next`, `inorder_prev`, `inorder_pos`, `inorder_kth`.
-/
import Verif.BST.Tree

namespace Altruct.BST

variable {V K : Type}

/-- The address of the first entry, 0 if there is none. -/
def first (s : List (Nat × V × Int)) : Nat := (s.head?.map (·.1)).getD 0

/-- The address of the last entry, 0 if there is none. -/
def last (s : List (Nat × V × Int)) : Nat := (s.getLast?.map (·.1)).getD 0

theorem first_append {s u : List (Nat × V × Int)} (h : s ≠ []) : first (s ++ u) = first s := by
  obtain ⟨x, s, rfl⟩ := List.exists_cons_of_ne_nil h
  rfl

theorem last_append {s u : List (Nat × V × Int)} (h : u ≠ []) : last (s ++ u) = last u := by
  simp [last, List.getLast?_append_of_ne_nil _ h]

theorem seq_eq_nil {t : Tree V} : t.seq = [] ↔ t = .nil := by
  cases t with
  | nil => simp [Tree.seq]
  | node a b c v l r => simp [Tree.seq]

/-- The number of nodes. -/
abbrev Tree.nodes (t : Tree V) : Nat := t.ad.length

theorem isNil_iff {t : Tree V} : t.isNil = true ↔ t = .nil := by
  cases t <;> simp [Tree.isNil]

theorem descendLeft_spec {h : Heap V} {y z : Nat} {w : Int} (h0 : h 0 = some ⟨0, y, z, w, 0, none⟩) : ∀ (t : Tree V) (par fuel : Nat), Owns h par t → t ≠ .nil → t.nodes ≤ fuel →
    descendLeft h fuel t.root = some (first t.seq)
  | .nil, _, _, _, hn, _ => absurd rfl hn
  | .node a b c v l r, par, fuel, ho, _, hf => by
    obtain ⟨h1, h2, h3, h4, h5⟩ := ho
    obtain ⟨fuel, rfl⟩ : ∃ k, fuel = k + 1 := ⟨fuel - 1, by simp [Tree.nodes, Tree.ad] at hf; omega⟩
    rw [Tree.root, descendLeft, h3]
    simp only [Option.bind_eq_bind, Option.bind_some]
    rw [(h4.isNil h0).1]
    simp only [Option.bind_some]
    cases hl : l with
    | nil => simp [Tree.isNil, Tree.seq, first]
    | node a' b' c' v' l' r' =>
      rw [← hl]
      have hne : l ≠ .nil := by rw [hl]; simp
      have : l.isNil = false := by rw [hl]; rfl
      rw [this, if_neg (by simp), descendLeft_spec h0 l a fuel h4 hne (by simp [Tree.nodes, Tree.ad] at hf ⊢; omega), Tree.seq, first_append (fun e => hne (seq_eq_nil.mp e))]

theorem descendRight_spec {h : Heap V} {y z : Nat} {w : Int} (h0 : h 0 = some ⟨0, y, z, w, 0, none⟩) : ∀ (t : Tree V) (par fuel : Nat), Owns h par t → t ≠ .nil → t.nodes ≤ fuel →
    descendRight h fuel t.root = some (last t.seq)
  | .nil, _, _, _, hn, _ => absurd rfl hn
  | .node a b c v l r, par, fuel, ho, _, hf => by
    obtain ⟨h1, h2, h3, h4, h5⟩ := ho
    obtain ⟨fuel, rfl⟩ : ∃ k, fuel = k + 1 := ⟨fuel - 1, by simp [Tree.nodes, Tree.ad] at hf; omega⟩
    rw [Tree.root, descendRight, h3]
    simp only [Option.bind_eq_bind, Option.bind_some]
    rw [(h5.isNil h0).1]
    simp only [Option.bind_some]
    cases hr : r with
    | nil => simp [Tree.isNil, Tree.seq, last]
    | node a' b' c' v' l' r' =>
      rw [← hr]
      have hne : r ≠ .nil := by rw [hr]; simp
      have : r.isNil = false := by rw [hr]; rfl
      rw [this, if_neg (by simp), descendRight_spec h0 r a fuel h5 hne (by simp [Tree.nodes, Tree.ad] at hf ⊢; omega), Tree.seq,
        show l.seq ++ (a, v, c) :: r.seq = (l.seq ++ [(a, v, c)]) ++ r.seq by simp, last_append (fun e => hne (seq_eq_nil.mp e))]

theorem climbNext_spec {h : Heap V} : ∀ (C : List (Frame V)) (p : Nat) (s : Int) (n : Node V) (fuel : Nat), CtxOK h C p s → h p = some n → n.parent = parOf C 0 → p ≠ 0 →
    (p :: adC C).Nodup → C.length < fuel → climbNext h fuel p = some (first (suf C))
  | [], p, s, n, fuel, hc, hp, hn, _, _, hf => by
    obtain ⟨fuel, rfl⟩ : ∃ k, fuel = k + 1 := ⟨fuel - 1, by simp at hf; omega⟩
    rw [climbNext, hp]
    simp only [Option.bind_eq_bind, Option.bind_some]
    rw [hn, parOf, hc.nil]
    simp [segRoot, suf, first]
  | .L a b c v r :: C, p, s, n, fuel, hc, hp, hn, _, _, hf => by
    obtain ⟨fuel, rfl⟩ : ∃ k, fuel = k + 1 := ⟨fuel - 1, by simp at hf; omega⟩
    rw [climbNext, hp]
    simp only [Option.bind_eq_bind, Option.bind_some]
    rw [hn, parOf, Frame.a, hc.seg.2.2.1]
    simp [suf, first]
  | .R a b c v l :: C, p, s, n, fuel, hc, hp, hn, h0, hd, hf => by
    obtain ⟨fuel, rfl⟩ : ∃ k, fuel = k + 1 := ⟨fuel - 1, by simp at hf; omega⟩
    obtain ⟨s1, s2, s3, s4, s5⟩ := hc.seg
    rw [climbNext, hp]
    simp only [Option.bind_eq_bind, Option.bind_some]
    rw [hn, parOf, Frame.a, s3]
    simp only [Option.bind_some]
    simp only [adC, Frame.a, Frame.t, List.nodup_cons, List.mem_cons, List.mem_append, not_or] at hd
    have hne : p ≠ l.root := by
      intro e
      by_cases hl : l = .nil
      · rw [hl] at e; exact h0 e
      · exact hd.1.2.1 (e ▸ root_mem hl)
    rw [if_pos hne, climbNext_spec C a _ _ fuel ⟨hc.nil, s5⟩ s3 rfl s1 (by
      rw [List.nodup_cons]; exact ⟨hd.2.1.2, (List.nodup_append.mp hd.2.2).2.1⟩) (by simp at hf; omega), suf]

theorem climbPrev_spec {h : Heap V} : ∀ (C : List (Frame V)) (p : Nat) (s : Int) (n : Node V) (fuel : Nat), CtxOK h C p s → h p = some n → n.parent = parOf C 0 → p ≠ 0 →
    (p :: adC C).Nodup → C.length < fuel → climbPrev h fuel p = some (last (pre C))
  | [], p, s, n, fuel, hc, hp, hn, _, _, hf => by
    obtain ⟨fuel, rfl⟩ : ∃ k, fuel = k + 1 := ⟨fuel - 1, by simp at hf; omega⟩
    rw [climbPrev, hp]
    simp only [Option.bind_eq_bind, Option.bind_some]
    rw [hn, parOf, hc.nil]
    simp [segRoot, pre, last]
  | .R a b c v r :: C, p, s, n, fuel, hc, hp, hn, _, _, hf => by
    obtain ⟨fuel, rfl⟩ : ∃ k, fuel = k + 1 := ⟨fuel - 1, by simp at hf; omega⟩
    rw [climbPrev, hp]
    simp only [Option.bind_eq_bind, Option.bind_some]
    rw [hn, parOf, Frame.a, hc.seg.2.2.1]
    simp [pre, last]
  | .L a b c v l :: C, p, s, n, fuel, hc, hp, hn, h0, hd, hf => by
    obtain ⟨fuel, rfl⟩ : ∃ k, fuel = k + 1 := ⟨fuel - 1, by simp at hf; omega⟩
    obtain ⟨s1, s2, s3, s4, s5⟩ := hc.seg
    rw [climbPrev, hp]
    simp only [Option.bind_eq_bind, Option.bind_some]
    rw [hn, parOf, Frame.a, s3]
    simp only [Option.bind_some]
    simp only [adC, Frame.a, Frame.t, List.nodup_cons, List.mem_cons, List.mem_append, not_or] at hd
    have hne : p ≠ l.root := by
      intro e
      by_cases hl : l = .nil
      · rw [hl] at e; exact h0 e
      · exact hd.1.2.1 (e ▸ root_mem hl)
    rw [if_pos hne, climbPrev_spec C a _ _ fuel ⟨hc.nil, s5⟩ s3 rfl s1 (by
      rw [List.nodup_cons]; exact ⟨hd.2.1.2, (List.nodup_append.mp hd.2.2).2.1⟩) (by simp at hf; omega), pre]

theorem adC_length (C : List (Frame V)) : C.length ≤ (adC C).length := by
  induction C with
  | nil => simp [adC]
  | cons f C ih => simp [adC]; omega

theorem plug_nodes (C : List (Frame V)) (t : Tree V) : (plug C t).nodes = t.nodes + (adC C).length := by
  rw [Tree.nodes, (plug_ad C t).length_eq, List.length_append]

/-- The parts of a representation seen from a node. -/
theorem Rep.node {h : Heap V} {C : List (Frame V)} {a : Nat} {b c : Int} {v : V} {l r : Tree V} (hr : Rep h (plug C (.node a b c v l r))) :
    CtxOK h C a (l.size + c + r.size) ∧ a ≠ 0 ∧ h a = some ⟨parOf C 0, l.root, r.root, b, l.size + c + r.size, some v⟩ ∧ Owns h a l ∧ Owns h a r ∧ parOf C 0 ≠ a ∧
    (0 :: a :: (l.ad ++ r.ad ++ adC C)).Nodup := by
  obtain ⟨h1, h2, h3⟩ := Rep.focus.mp hr
  exact ⟨h1, h2.1, h2.2.2.1, h2.2.2.2.1, h2.2.2.2.2, h2.2.1, by simpa [Tree.ad] using h3⟩

theorem inorderNext_node {h : Heap V} {C : List (Frame V)} {a : Nat} {b c : Int} {v : V} {l r : Tree V} (hr : Rep h (plug C (.node a b c v l r))) {fuel : Nat}
    (hf : (plug C (.node a b c v l r)).nodes ≤ fuel) : inorderNext h fuel a = some (first (r.seq ++ suf C)) := by
  obtain ⟨h1, h2, h3, h4, h5, h6, h7⟩ := hr.node
  have hlen := adC_length C
  rw [plug_nodes] at hf
  simp only [Tree.nodes, Tree.ad, List.length_cons, List.length_append] at hf
  rw [inorderNext, h3]
  simp only [Option.bind_eq_bind, Option.bind_some]
  rw [(h5.isNil h1.nil).1]
  simp only [Option.bind_some]
  by_cases hn : r = .nil
  · rw [hn]
    simp only [Tree.isNil, Tree.seq, List.nil_append]
    rw [if_pos trivial]
    refine climbNext_spec C a _ _ fuel h1 h3 rfl h2 ?_ (by omega)
    refine (List.nodup_cons.mp h7).2.sublist ?_
    exact List.Sublist.cons_cons _ (List.sublist_append_right _ _)
  · have : r.isNil = false := by
      cases hx : r.isNil with
      | false => rfl
      | true => exact absurd (isNil_iff.mp hx) hn
    rw [this, if_neg (by simp), descendLeft_spec h1.nil r a fuel h5 hn (by simp [Tree.nodes]; omega), first_append (fun e => hn (seq_eq_nil.mp e))]

theorem inorderPrev_node {h : Heap V} {C : List (Frame V)} {a : Nat} {b c : Int} {v : V} {l r : Tree V} (hr : Rep h (plug C (.node a b c v l r))) {fuel : Nat}
    (hf : (plug C (.node a b c v l r)).nodes ≤ fuel) : inorderPrev h fuel a = some (last (pre C ++ l.seq)) := by
  obtain ⟨h1, h2, h3, h4, h5, h6, h7⟩ := hr.node
  have hlen := adC_length C
  rw [plug_nodes] at hf
  simp only [Tree.nodes, Tree.ad, List.length_cons, List.length_append] at hf
  rw [inorderPrev, h3]
  simp only [Option.bind_eq_bind, Option.bind_some]
  rw [(h4.isNil h1.nil).1]
  simp only [Option.bind_some]
  by_cases hn : l = .nil
  · rw [hn]
    simp only [Tree.isNil, Tree.seq, List.append_nil]
    rw [if_pos trivial]
    refine climbPrev_spec C a _ _ fuel h1 h3 rfl h2 ?_ (by omega)
    refine (List.nodup_cons.mp h7).2.sublist ?_
    exact List.Sublist.cons_cons _ (List.sublist_append_right _ _)
  · have : l.isNil = false := by
      cases hx : l.isNil with
      | false => rfl
      | true => exact absurd (isNil_iff.mp hx) hn
    rw [this, if_neg (by simp), descendRight_spec h1.nil l a fuel h4 hn (by simp [Tree.nodes]; omega), last_append (fun e => hn (seq_eq_nil.mp e))]

/-- Entries with different addresses are split in one way. -/
theorem split_unique {s1 s2 u1 u2 : List (Nat × V × Int)} {a : Nat} {x y : V × Int} (h : s1 ++ (a, x) :: s2 = u1 ++ (a, y) :: u2)
    (hn : ((s1 ++ (a, x) :: s2).map (·.1)).Nodup) : s1 = u1 ∧ x = y ∧ s2 = u2 := by
  induction s1 generalizing u1 with
  | nil =>
    cases u1 with
    | nil => simp at h; exact ⟨rfl, h.1, h.2⟩
    | cons e u1 =>
      rw [List.nil_append, List.cons_append] at h
      obtain ⟨h1, h2⟩ := List.cons.inj h
      rw [h2] at hn
      simp at hn
  | cons e s1 ih =>
    cases u1 with
    | nil =>
      rw [List.cons_append, List.nil_append] at h
      obtain ⟨h1, h2⟩ := List.cons.inj h
      rw [h1] at hn
      simp at hn
    | cons f u1 =>
      rw [List.cons_append, List.cons_append] at h
      obtain ⟨h1, h2⟩ := List.cons.inj h
      obtain ⟨i1, i2, i3⟩ := ih h2 (by rw [List.cons_append, List.map_cons, List.nodup_cons] at hn; exact hn.2)
      exact ⟨by rw [h1, i1], i2, i3⟩

theorem Rep.seq_nodup {h : Heap V} {t : Tree V} (hr : Rep h t) : (0 :: t.seq.map (·.1)).Nodup := ((seq_ad t).cons 0).nodup_iff.mpr hr.nodup

/-- A node of the sequence is the root of a subtree with the parts of the sequence around it. -/
theorem Rep.split {h : Heap V} {t : Tree V} (hr : Rep h t) {s1 s2 : List (Nat × V × Int)} {a : Nat} {v : V} {c : Int} (hs : t.seq = s1 ++ (a, v, c) :: s2) :
    ∃ C b l r, t = plug C (.node a b c v l r) ∧ s1 = pre C ++ l.seq ∧ s2 = r.seq ++ suf C := by
  have ha : a ∈ t.ad := (seq_ad t).mem_iff.mp (by rw [hs]; simp)
  obtain ⟨C, b, c', v', l, r, e⟩ := exists_focus t a ha
  have h1 : t.seq = (pre C ++ l.seq) ++ (a, v', c') :: (r.seq ++ suf C) := by rw [e, plug_seq]; simp [Tree.seq]
  have hn := hr.seq_nodup
  rw [List.nodup_cons, hs] at hn
  obtain ⟨i1, i2, i3⟩ := split_unique (hs.symm.trans h1) hn.2
  obtain ⟨rfl, rfl⟩ := Prod.mk.inj i2
  exact ⟨C, b, l, r, e, i1, i3⟩

/-- `inorder_next` of an element. -/
theorem inorderNext_spec {h : Heap V} {t : Tree V} (hr : Rep h t) {s1 s2 : List (Nat × V × Int)} {a : Nat} {v : V} {c : Int} (hs : t.seq = s1 ++ (a, v, c) :: s2)
    {fuel : Nat} (hf : t.nodes ≤ fuel) : inorderNext h fuel a = some (first s2) := by
  obtain ⟨C, b, l, r, rfl, -, rfl⟩ := hr.split hs
  exact inorderNext_node hr hf

/-- `inorder_prev` of an element. -/
theorem inorderPrev_spec {h : Heap V} {t : Tree V} (hr : Rep h t) {s1 s2 : List (Nat × V × Int)} {a : Nat} {v : V} {c : Int} (hs : t.seq = s1 ++ (a, v, c) :: s2)
    {fuel : Nat} (hf : t.nodes ≤ fuel) : inorderPrev h fuel a = some (last s1) := by
  obtain ⟨C, b, l, r, rfl, rfl, -⟩ := hr.split hs
  exact inorderPrev_node hr hf

/-- `inorder_next` of `end()` is the first element. -/
theorem inorderNext_nil {h : Heap V} {t : Tree V} (hr : Rep h t) {fuel : Nat} (hf : t.nodes < fuel) : inorderNext h fuel 0 = some (first t.seq) := by
  rw [inorderNext, hr.nil]
  simp only [Option.bind_eq_bind, Option.bind_some]
  rw [(hr.own.isNil hr.nil).1]
  simp only [Option.bind_some]
  by_cases hn : t = .nil
  · obtain ⟨fuel, rfl⟩ : ∃ k, fuel = k + 1 := ⟨fuel - 1, by omega⟩
    have hnil := hr.nil
    subst hn
    rw [Tree.isNil, if_pos rfl, climbNext, hnil]
    simp only [Option.bind_eq_bind, Option.bind_some]
    rw [hnil]
    simp [Tree.root, Tree.seq, first]
  · have : t.isNil = false := by
      cases hx : t.isNil with
      | false => rfl
      | true => exact absurd (isNil_iff.mp hx) hn
    rw [this, if_neg (by simp), descendLeft_spec hr.nil t 0 fuel hr.own hn (by omega)]

/-- `inorder_prev` of `end()` is the last element. -/
theorem inorderPrev_nil {h : Heap V} {t : Tree V} (hr : Rep h t) {fuel : Nat} (hf : t.nodes < fuel) : inorderPrev h fuel 0 = some (last t.seq) := by
  rw [inorderPrev, hr.nil]
  simp only [Option.bind_eq_bind, Option.bind_some]
  rw [(hr.own.isNil hr.nil).1]
  simp only [Option.bind_some]
  by_cases hn : t = .nil
  · obtain ⟨fuel, rfl⟩ : ∃ k, fuel = k + 1 := ⟨fuel - 1, by omega⟩
    have hnil := hr.nil
    subst hn
    rw [Tree.isNil, if_pos rfl, climbPrev, hnil]
    simp only [Option.bind_eq_bind, Option.bind_some]
    rw [hnil]
    simp [Tree.root, Tree.seq, last]
  · have : t.isNil = false := by
      cases hx : t.isNil with
      | false => rfl
      | true => exact absurd (isNil_iff.mp hx) hn
    rw [this, if_neg (by simp), descendRight_spec hr.nil t 0 fuel hr.own hn (by omega)]

/-! ### Positions -/

/-- The number of elements, with multiplicity, of a part of the sequence. -/
def total (s : List (Nat × V × Int)) : Int := (s.map (·.2.2)).sum

theorem total_append (s u : List (Nat × V × Int)) : total (s ++ u) = total s + total u := by simp [total]

theorem total_cons (e : Nat × V × Int) (s : List (Nat × V × Int)) : total (e :: s) = e.2.2 + total s := by simp [total]

theorem size_total (t : Tree V) : t.size = total t.seq := size_seq t

/-- The address of the element at position `k ≥ 0` of the sequence with multiplicities, 0 if there is none. -/
def kthFrom : List (Nat × V × Int) → Int → Nat
  | [], _ => 0
  | e :: s, k => if k < e.2.2 then e.1 else kthFrom s (k - e.2.2)

/-- The address of the element at position `k` of the sequence with multiplicities, 0 if there is none. -/
def kth (s : List (Nat × V × Int)) (k : Int) : Nat := if k < 0 then 0 else kthFrom s k

theorem total_nonneg {s : List (Nat × V × Int)} (h : ∀ e ∈ s, 0 ≤ e.2.2) : 0 ≤ total s := by
  induction s with
  | nil => simp [total]
  | cons e s ih =>
    rw [total_cons]
    have := h e (by simp)
    have := ih (fun x hx => h x (by simp [hx]))
    omega

theorem kthFrom_append (u : List (Nat × V × Int)) : ∀ (s : List (Nat × V × Int)) (k : Int), (∀ e ∈ s, 0 ≤ e.2.2) → 0 ≤ k →
    kthFrom (s ++ u) k = if k < total s then kthFrom s k else kthFrom u (k - total s) := by
  intro s
  induction s with
  | nil =>
    intro k _ hk
    rw [List.nil_append, show total ([] : List (Nat × V × Int)) = 0 from rfl, Int.sub_zero, if_neg (by omega)]
  | cons e s ih =>
    intro k hs hk
    have h1 := hs e (by simp)
    have h2 := total_nonneg (s := s) (fun x hx => hs x (by simp [hx]))
    rw [List.cons_append, kthFrom, kthFrom, total_cons]
    by_cases hlt : k < e.2.2
    · rw [if_pos hlt, if_pos (by omega), if_pos hlt]
    · rw [if_neg hlt, ih _ (fun x hx => hs x (by simp [hx])) (by omega), if_neg hlt]
      by_cases h3 : k - e.2.2 < total s
      · rw [if_pos h3, if_pos (by omega)]
      · rw [if_neg h3, if_neg (by omega)]
        congr 1
        omega

/-- `inorder_kth` on a tree. -/
theorem inorderKth_spec {h : Heap V} {y z : Nat} {w : Int} (h0 : h 0 = some ⟨0, y, z, w, 0, none⟩) : ∀ (t : Tree V) (par fuel : Nat) (k : Int), Owns h par t →
    (∀ e ∈ t.seq, 0 ≤ e.2.2) → t.nodes < fuel → inorderKth h fuel t.root k = some (kth t.seq k)
  | .nil, par, fuel, k, _, _, hf => by
    obtain ⟨fuel, rfl⟩ : ∃ k, fuel = k + 1 := ⟨fuel - 1, by omega⟩
    rw [inorderKth, Tree.root, h0]
    simp [kth, kthFrom, Tree.seq]
  | .node a b c v l r, par, fuel, k, ho, hc, hf => by
    obtain ⟨h1, h2, h3, h4, h5⟩ := ho
    obtain ⟨fuel, rfl⟩ : ∃ k, fuel = k + 1 := ⟨fuel - 1, by omega⟩
    simp only [Tree.nodes, Tree.ad, List.length_cons, List.length_append] at hf
    have hcl : ∀ e ∈ l.seq, 0 ≤ e.2.2 := fun e he => hc e (by simp [Tree.seq, he])
    have hcr : ∀ e ∈ r.seq, 0 ≤ e.2.2 := fun e he => hc e (by simp [Tree.seq, he])
    have hcc : 0 ≤ c := hc (a, v, c) (by simp [Tree.seq])
    have hl := total_nonneg hcl
    rw [inorderKth, Tree.root, h3]
    simp only [Option.bind_eq_bind, Option.bind_some]
    rw [if_neg (by simpa using h2), (h4.isNil h0).2, (h5.isNil h0).2]
    simp only [Option.bind_some]
    rw [show k - (l.size + c + r.size - r.size) = k - l.size - c by ring]
    rw [size_total l, Tree.seq]
    by_cases hk : k < total l.seq
    · rw [if_pos hk, inorderKth_spec h0 l a fuel k h4 hcl (by simp [Tree.nodes]; omega)]
      rw [kth, kth]
      by_cases h6 : k < 0
      · rw [if_pos h6, if_pos h6]
      · rw [if_neg h6, if_neg h6, kthFrom_append _ _ _ hcl (by omega), if_pos hk]
    · rw [if_neg hk, kth, if_neg (by omega : ¬k < 0), kthFrom_append _ _ _ hcl (by omega), if_neg hk, kthFrom]
      simp only
      by_cases h7 : k - total l.seq - c ≥ 0
      · rw [if_pos h7, if_neg (by omega), inorderKth_spec h0 r a fuel _ h5 hcr (by simp only [Tree.nodes]; omega), kth, if_neg (by omega)]
      · rw [if_neg h7, if_pos (by omega)]

/-- Whether the subtree is the right child. -/
def isR : List (Frame V) → Bool
  | .R .. :: _ => true
  | _ => false

/-- The number of elements before the subtree. -/
theorem pre_total_R {a : Nat} {b c : Int} {v : V} {l : Tree V} {C : List (Frame V)} : total (pre (.R a b c v l :: C)) = total (pre C) + l.size + c := by
  rw [pre, total_append, total_append, ← size_total, total_cons]
  simp [total]

theorem posLoop_spec {h : Heap V} : ∀ (C : List (Frame V)) (p : Nat) (s k rs : Int) (n : Node V) (fuel : Nat) (wr : Bool), CtxOK h C p s → h p = some n →
    n.parent = parOf C 0 → n.size = s → p ≠ 0 → n.parent ≠ p → sizeOf' h n.right = some rs → (p :: adC C).Nodup → C.length + 1 < fuel →
    posLoop h fuel p k wr = some ((if wr then k + (n.size - rs) else k) + total (pre C), 0)
  | [], p, s, k, rs, n, fuel, wr, hc, hp, hn, hsz, h0, hpp, hrs, hd, hf => by
    obtain ⟨fuel, rfl⟩ : ∃ k, fuel = k + 1 := ⟨fuel - 1, by omega⟩
    obtain ⟨fuel, rfl⟩ : ∃ k, fuel = k + 1 := ⟨fuel - 1, by simp at hf; omega⟩
    have hnil := hc.nil
    rw [posLoop, hp]
    simp only [Option.bind_eq_bind, Option.bind_some]
    rw [if_neg (by simpa using hpp), hrs, hn, parOf, hnil]
    simp only [Option.bind_some]
    rw [posLoop, hnil]
    simp [pre, total]
  | .L a b c v r :: C, p, s, k, rs, n, fuel, wr, hc, hp, hn, hsz, h0, hpp, hrs, hd, hf => by
    obtain ⟨fuel, rfl⟩ : ∃ k, fuel = k + 1 := ⟨fuel - 1, by omega⟩
    obtain ⟨s1, s2, s3, s4, s5⟩ := hc.seg
    simp only [adC, Frame.a, Frame.t, List.nodup_cons, List.mem_cons, List.mem_append, not_or] at hd
    have hne : r.root ≠ p := by
      intro e
      by_cases hl : r = .nil
      · rw [hl] at e; exact h0 e.symm
      · exact hd.1.2.1 (e ▸ root_mem hl)
    rw [posLoop, hp]
    simp only [Option.bind_eq_bind, Option.bind_some]
    rw [if_neg (by simpa using hpp), hrs, hn, parOf, Frame.a, s3]
    simp only [Option.bind_some]
    rw [posLoop_spec C a _ _ _ _ fuel _ ⟨hc.nil, s5⟩ s3 rfl rfl s1 s2 (s4.isNil hc.nil).2 (by
      rw [List.nodup_cons]; exact ⟨hd.2.1.2, (List.nodup_append.mp hd.2.2).2.1⟩) (by simp at hf; omega), pre]
    simp [hne]
  | .R a b c v l :: C, p, s, k, rs, n, fuel, wr, hc, hp, hn, hsz, h0, hpp, hrs, hd, hf => by
    obtain ⟨fuel, rfl⟩ : ∃ k, fuel = k + 1 := ⟨fuel - 1, by omega⟩
    obtain ⟨s1, s2, s3, s4, s5⟩ := hc.seg
    simp only [adC, Frame.a, Frame.t, List.nodup_cons, List.mem_cons, List.mem_append, not_or] at hd
    rw [posLoop, hp]
    simp only [Option.bind_eq_bind, Option.bind_some]
    rw [if_neg (by simpa using hpp), hrs, hn, parOf, Frame.a, s3]
    simp only [Option.bind_some]
    rw [posLoop_spec C a _ _ s _ fuel _ ⟨hc.nil, s5⟩ s3 rfl rfl s1 s2 (by simp [sizeOf', hp, hsz]) (by
      rw [List.nodup_cons]; exact ⟨hd.2.1.2, (List.nodup_append.mp hd.2.2).2.1⟩) (by simp at hf; omega), pre_total_R]
    simp only [beq_self_eq_true, if_true]
    congr 2
    ring

/-- `inorder_pos` of an element: the number of elements before it. -/
theorem inorderPos_spec {h : Heap V} {t : Tree V} (hr : Rep h t) {s1 s2 : List (Nat × V × Int)} {a : Nat} {v : V} {c : Int} (hs : t.seq = s1 ++ (a, v, c) :: s2)
    {fuel : Nat} (hf : t.nodes < fuel) : inorderPos h fuel a = some (total s1, 0) := by
  obtain ⟨C, b, l, r, rfl, rfl, -⟩ := hr.split hs
  obtain ⟨h1, h2, h3, h4, h5, h6, h7⟩ := hr.node
  have hlen := adC_length C
  rw [plug_nodes] at hf
  simp only [Tree.nodes, Tree.ad, List.length_cons, List.length_append] at hf
  rw [inorderPos, h3]
  simp only [Option.bind_eq_bind, Option.bind_some]
  rw [(h4.isNil h1.nil).2]
  simp only [Option.bind_some]
  rw [posLoop_spec C a _ _ _ _ fuel false h1 h3 rfl rfl h2 h6 (h5.isNil h1.nil).2 ?_ (by omega)]
  · rw [total_append, ← size_total, if_neg (by simp)]
    congr 2
    ring
  · refine (List.nodup_cons.mp h7).2.sublist ?_
    exact List.Sublist.cons_cons _ (List.sublist_append_right _ _)

/-- `inorder_pos` of `end()`: the number of all elements. -/
theorem inorderPos_nil {h : Heap V} {t : Tree V} (hr : Rep h t) {fuel : Nat} (hf : 0 < fuel) : inorderPos h fuel 0 = some (total t.seq, 0) := by
  obtain ⟨fuel, rfl⟩ : ∃ k, fuel = k + 1 := ⟨fuel - 1, by omega⟩
  have hnil := hr.nil
  rw [inorderPos, hnil]
  simp only [Option.bind_eq_bind, Option.bind_some]
  rw [(hr.own.isNil hr.nil).2]
  simp only [Option.bind_some]
  rw [posLoop, hnil]
  simp [size_total]

/-! ### Search -/

/-- The address of the first entry that satisfies the predicate. -/
def firstOf (p : Nat × V × Int → Bool) (s : List (Nat × V × Int)) (res : Nat) : Nat := ((s.find? p).map (·.1)).getD res

/-- Once the predicate holds it holds for all later entries. -/
def Mono (p : Nat × V × Int → Bool) (s : List (Nat × V × Int)) : Prop := s.Pairwise (fun e f => p e = true → p f = true)

theorem Mono.left {p : Nat × V × Int → Bool} {s u : List (Nat × V × Int)} {e : Nat × V × Int} (h : Mono p (s ++ e :: u)) : Mono p s := (List.pairwise_append.mp h).1

theorem Mono.right {p : Nat × V × Int → Bool} {s u : List (Nat × V × Int)} {e : Nat × V × Int} (h : Mono p (s ++ e :: u)) : Mono p u :=
  (List.pairwise_cons.mp (List.pairwise_append.mp h).2.1).2

theorem Mono.before {p : Nat × V × Int → Bool} {s u : List (Nat × V × Int)} {e : Nat × V × Int} (h : Mono p (s ++ e :: u)) (he : p e = false) : ∀ x ∈ s, p x = false := by
  intro x hx
  have := (List.pairwise_append.mp h).2.2 x hx e (by simp)
  cases hp : p x with
  | false => rfl
  | true => rw [this hp] at he; simp at he

theorem Mono.after {p : Nat × V × Int → Bool} {s u : List (Nat × V × Int)} {e : Nat × V × Int} (h : Mono p (s ++ e :: u)) (he : p e = true) : ∀ x ∈ u, p x = true :=
  fun x hx => (List.pairwise_cons.mp (List.pairwise_append.mp h).2.1).1 x hx he

theorem firstOf_pos {p : Nat × V × Int → Bool} {s u : List (Nat × V × Int)} {e : Nat × V × Int} (he : p e = true) (res : Nat) :
    firstOf p (s ++ e :: u) res = firstOf p s e.1 := by
  simp only [firstOf, List.find?_append, List.find?_cons_of_pos he]
  cases s.find? p <;> simp

theorem firstOf_neg {p : Nat × V × Int → Bool} {s u : List (Nat × V × Int)} {e : Nat × V × Int} (he : p e = false) (hs : ∀ x ∈ s, p x = false) (res : Nat) :
    firstOf p (s ++ e :: u) res = firstOf p u res := by
  have : s.find? p = none := by rw [List.find?_eq_none]; intro x hx; rw [hs x hx]; simp
  simp only [firstOf, List.find?_append, this, List.find?_cons_of_neg (by rw [he]; simp : ¬p e = true), Option.none_or]

theorem lowerLoop_spec {key : V → K} {cmp : K → K → Bool} {x : K} {h : Heap V} {y z : Nat} {w : Int} (h0 : h 0 = some ⟨0, y, z, w, 0, none⟩) :
    ∀ (t : Tree V) (par fuel res : Nat), Owns h par t → Mono (fun e => !cmp (key e.2.1) x) t.seq → t.nodes < fuel →
    lowerLoop key cmp x h fuel t.root res = some (firstOf (fun e => !cmp (key e.2.1) x) t.seq res)
  | .nil, par, fuel, res, _, _, hf => by
    obtain ⟨fuel, rfl⟩ : ∃ k, fuel = k + 1 := ⟨fuel - 1, by omega⟩
    rw [lowerLoop, Tree.root, h0]
    simp [firstOf, Tree.seq]
  | .node a b c v l r, par, fuel, res, ho, hm, hf => by
    obtain ⟨h1, h2, h3, h4, h5⟩ := ho
    obtain ⟨fuel, rfl⟩ : ∃ k, fuel = k + 1 := ⟨fuel - 1, by omega⟩
    simp only [Tree.nodes, Tree.ad, List.length_cons, List.length_append] at hf
    rw [Tree.seq] at hm
    rw [lowerLoop, Tree.root, h3]
    simp only [Option.bind_eq_bind, Option.bind_some, keyOf, Option.map_some]
    rw [if_neg (by simpa using h2), Tree.seq]
    by_cases hk : cmp (key v) x = true
    · have he : (fun e : Nat × V × Int => !cmp (key e.2.1) x) (a, v, c) = false := by simp [hk]
      rw [if_pos hk, lowerLoop_spec h0 r a fuel res h5 hm.right (by simp only [Tree.nodes]; omega), firstOf_neg he (hm.before he)]
    · have he : (fun e : Nat × V × Int => !cmp (key e.2.1) x) (a, v, c) = true := by simpa using hk
      rw [if_neg hk, lowerLoop_spec h0 l a fuel a h4 hm.left (by simp only [Tree.nodes]; omega), firstOf_pos he]

theorem upperLoop_spec {key : V → K} {cmp : K → K → Bool} {x : K} {h : Heap V} {y z : Nat} {w : Int} (h0 : h 0 = some ⟨0, y, z, w, 0, none⟩) :
    ∀ (t : Tree V) (par fuel res : Nat), Owns h par t → Mono (fun e => cmp x (key e.2.1)) t.seq → t.nodes < fuel →
    upperLoop key cmp x h fuel t.root res = some (firstOf (fun e => cmp x (key e.2.1)) t.seq res)
  | .nil, par, fuel, res, _, _, hf => by
    obtain ⟨fuel, rfl⟩ : ∃ k, fuel = k + 1 := ⟨fuel - 1, by omega⟩
    rw [upperLoop, Tree.root, h0]
    simp [firstOf, Tree.seq]
  | .node a b c v l r, par, fuel, res, ho, hm, hf => by
    obtain ⟨h1, h2, h3, h4, h5⟩ := ho
    obtain ⟨fuel, rfl⟩ : ∃ k, fuel = k + 1 := ⟨fuel - 1, by omega⟩
    simp only [Tree.nodes, Tree.ad, List.length_cons, List.length_append] at hf
    rw [Tree.seq] at hm
    rw [upperLoop, Tree.root, h3]
    simp only [Option.bind_eq_bind, Option.bind_some, keyOf, Option.map_some]
    rw [if_neg (by simpa using h2), Tree.seq]
    by_cases hk : cmp x (key v) = true
    · have he : (fun e : Nat × V × Int => cmp x (key e.2.1)) (a, v, c) = true := by simp [hk]
      rw [if_pos hk, upperLoop_spec h0 l a fuel a h4 hm.left (by simp only [Tree.nodes]; omega), firstOf_pos he]
    · have he : (fun e : Nat × V × Int => cmp x (key e.2.1)) (a, v, c) = false := by simpa using hk
      rw [if_neg hk, upperLoop_spec h0 r a fuel res h5 hm.right (by simp only [Tree.nodes]; omega), firstOf_neg he (hm.before he)]

theorem countLE_spec {key : V → K} {cmp : K → K → Bool} {x : K} {h : Heap V} {y z : Nat} {w : Int} (h0 : h 0 = some ⟨0, y, z, w, 0, none⟩) :
    ∀ (t : Tree V) (par fuel : Nat) (k : Int), Owns h par t → Mono (fun e => cmp x (key e.2.1)) t.seq → t.nodes < fuel →
    countLE key cmp x h fuel t.root k = some (k + total (t.seq.filter (fun e => !cmp x (key e.2.1))))
  | .nil, par, fuel, res, _, _, hf => by
    obtain ⟨fuel, rfl⟩ : ∃ k, fuel = k + 1 := ⟨fuel - 1, by omega⟩
    rw [countLE, Tree.root, h0]
    simp [Tree.seq, total]
  | .node a b c v l r, par, fuel, k, ho, hm, hf => by
    obtain ⟨h1, h2, h3, h4, h5⟩ := ho
    obtain ⟨fuel, rfl⟩ : ∃ k, fuel = k + 1 := ⟨fuel - 1, by omega⟩
    simp only [Tree.nodes, Tree.ad, List.length_cons, List.length_append] at hf
    rw [Tree.seq] at hm
    rw [countLE, Tree.root, h3]
    simp only [Option.bind_eq_bind, Option.bind_some, keyOf, Option.map_some]
    rw [if_neg (by simpa using h2), Tree.seq, List.filter_append]
    by_cases hk : cmp x (key v) = true
    · have he : (fun e : Nat × V × Int => cmp x (key e.2.1)) (a, v, c) = true := by simp [hk]
      have hr : ((a, v, c) :: r.seq).filter (fun e => !cmp x (key e.2.1)) = [] := by
        rw [List.filter_eq_nil_iff]
        intro e hin
        rcases List.mem_cons.mp hin with rfl | hin
        · simp [hk]
        · have := hm.after he e hin
          simp [this]
      rw [if_pos hk, countLE_spec h0 l a fuel k h4 hm.left (by simp only [Tree.nodes]; omega), hr, List.append_nil]
    · have he : (fun e : Nat × V × Int => cmp x (key e.2.1)) (a, v, c) = false := by simpa using hk
      have hl : l.seq.filter (fun e => !cmp x (key e.2.1)) = l.seq := by
        rw [List.filter_eq_self]
        intro e hin
        have := hm.before he e hin
        simp [this]
      rw [if_neg hk, (h5.isNil h0).2]
      simp only [Option.bind_some]
      rw [countLE_spec h0 r a fuel _ h5 hm.right (by simp only [Tree.nodes]; omega), hl, List.filter_cons, if_pos (by simpa using hk), total_append, total_cons, ← size_total l]
      congr 1
      ring

theorem countLT_spec {key : V → K} {cmp : K → K → Bool} {x : K} {h : Heap V} {y z : Nat} {w : Int} (h0 : h 0 = some ⟨0, y, z, w, 0, none⟩) :
    ∀ (t : Tree V) (par fuel : Nat) (k : Int), Owns h par t → Mono (fun e => !cmp (key e.2.1) x) t.seq → t.nodes < fuel →
    countLT key cmp x h fuel t.root k = some (k + total (t.seq.filter (fun e => cmp (key e.2.1) x)))
  | .nil, par, fuel, res, _, _, hf => by
    obtain ⟨fuel, rfl⟩ : ∃ k, fuel = k + 1 := ⟨fuel - 1, by omega⟩
    rw [countLT, Tree.root, h0]
    simp [Tree.seq, total]
  | .node a b c v l r, par, fuel, k, ho, hm, hf => by
    obtain ⟨h1, h2, h3, h4, h5⟩ := ho
    obtain ⟨fuel, rfl⟩ : ∃ k, fuel = k + 1 := ⟨fuel - 1, by omega⟩
    simp only [Tree.nodes, Tree.ad, List.length_cons, List.length_append] at hf
    rw [Tree.seq] at hm
    rw [countLT, Tree.root, h3]
    simp only [Option.bind_eq_bind, Option.bind_some, keyOf, Option.map_some]
    rw [if_neg (by simpa using h2), Tree.seq, List.filter_append]
    by_cases hk : cmp (key v) x = true
    · have he : (fun e : Nat × V × Int => !cmp (key e.2.1) x) (a, v, c) = false := by simp [hk]
      have hl : l.seq.filter (fun e => cmp (key e.2.1) x) = l.seq := by
        rw [List.filter_eq_self]
        intro e hin
        have := hm.before he e hin
        simpa using this
      rw [if_pos hk, (h5.isNil h0).2]
      simp only [Option.bind_some]
      rw [countLT_spec h0 r a fuel _ h5 hm.right (by simp only [Tree.nodes]; omega), hl, List.filter_cons, if_pos (by simpa using hk), total_append, total_cons, ← size_total l]
      congr 1
      ring
    · have he : (fun e : Nat × V × Int => !cmp (key e.2.1) x) (a, v, c) = true := by simpa using hk
      have hr : ((a, v, c) :: r.seq).filter (fun e => cmp (key e.2.1) x) = [] := by
        rw [List.filter_eq_nil_iff]
        intro e hin
        rcases List.mem_cons.mp hin with rfl | hin
        · simpa using hk
        · have := hm.after he e hin
          simpa using this
      rw [if_neg hk, countLT_spec h0 l a fuel k h4 hm.left (by simp only [Tree.nodes]; omega), hr, List.append_nil]

/-- Entries with a key that is equivalent to `x`. -/
def eqv (key : V → K) (cmp : K → K → Bool) (x : K) (e : Nat × V × Int) : Bool := !cmp (key e.2.1) x && !cmp x (key e.2.1)

theorem findLoop_spec {dup : Dup} {key : V → K} {cmp : K → K → Bool} {x : K} {h : Heap V} {y z : Nat} {w : Int} (h0 : h 0 = some ⟨0, y, z, w, 0, none⟩) :
    ∀ (t : Tree V) (par fuel res : Nat), Owns h par t → Mono (fun e => !cmp (key e.2.1) x) t.seq → Mono (fun e => cmp x (key e.2.1)) t.seq →
    (dup ≠ .store → t.seq.Pairwise (fun e f => ¬(eqv key cmp x e = true ∧ eqv key cmp x f = true))) → t.nodes < fuel →
    findLoop dup key cmp x h fuel t.root res = some (firstOf (eqv key cmp x) t.seq res)
  | .nil, par, fuel, res, _, _, _, _, hf => by
    obtain ⟨fuel, rfl⟩ : ∃ k, fuel = k + 1 := ⟨fuel - 1, by omega⟩
    rw [findLoop, Tree.root, h0]
    simp [firstOf, Tree.seq]
  | .node a b c v l r, par, fuel, res, ho, hm1, hm2, hu, hf => by
    obtain ⟨h1, h2, h3, h4, h5⟩ := ho
    obtain ⟨fuel, rfl⟩ : ∃ k, fuel = k + 1 := ⟨fuel - 1, by omega⟩
    simp only [Tree.nodes, Tree.ad, List.length_cons, List.length_append] at hf
    rw [Tree.seq] at hm1 hm2 hu
    have hul : dup ≠ .store → l.seq.Pairwise (fun e f => ¬(eqv key cmp x e = true ∧ eqv key cmp x f = true)) := fun hd => (List.pairwise_append.mp (hu hd)).1
    have hur : dup ≠ .store → r.seq.Pairwise (fun e f => ¬(eqv key cmp x e = true ∧ eqv key cmp x f = true)) :=
      fun hd => (List.pairwise_cons.mp (List.pairwise_append.mp (hu hd)).2.1).2
    rw [findLoop, Tree.root, h3]
    simp only [Option.bind_eq_bind, Option.bind_some, keyOf, Option.map_some]
    rw [if_neg (by simpa using h2), Tree.seq]
    by_cases hk : cmp (key v) x = true
    · have he : (fun e : Nat × V × Int => !cmp (key e.2.1) x) (a, v, c) = false := by simp [hk]
      rw [if_pos hk, findLoop_spec h0 r a fuel res h5 hm1.right hm2.right hur (by simp only [Tree.nodes]; omega), firstOf_neg (by simp [eqv, hk])]
      intro e hin
      have := hm1.before he e hin
      simp [eqv, this]
    · rw [if_neg hk]
      by_cases hk2 : cmp x (key v) = true
      · have he : (fun e : Nat × V × Int => cmp x (key e.2.1)) (a, v, c) = true := by simp [hk2]
        rw [if_pos hk2, findLoop_spec h0 l a fuel res h4 hm1.left hm2.left hul (by simp only [Tree.nodes]; omega)]
        have hr : ((a, v, c) :: r.seq).find? (eqv key cmp x) = none := by
          rw [List.find?_eq_none]
          intro e hin
          rcases List.mem_cons.mp hin with rfl | hin
          · simp [eqv, hk2]
          · have := hm2.after he e hin
            simp [eqv, this]
        simp only [firstOf, List.find?_append, hr, Option.or_none]
      · have he : eqv key cmp x (a, v, c) = true := by simp [eqv, hk, hk2]
        rw [if_neg hk2, firstOf_pos he]
        by_cases hd : dup = .store
        · rw [if_pos hd, findLoop_spec h0 l a fuel a h4 hm1.left hm2.left hul (by simp only [Tree.nodes]; omega)]
        · rw [if_neg hd]
          have hl : l.seq.find? (eqv key cmp x) = none := by
            rw [List.find?_eq_none]
            intro e hin hc
            exact (List.pairwise_append.mp (hu hd)).2.2 e hin (a, v, c) (by simp) ⟨hc, he⟩
          simp only [firstOf, hl, Option.map_none, Option.getD_none]

end Altruct.BST
