/-
Rotations, the exchange of two nodes, insertion and removal.
-/
import Verif.BST.Sep

namespace Altruct.BST

variable {V K : Type}

/-- Two lists of addresses with the same members. -/
macro "ads" : tactic => `(tactic| (rw [List.perm_iff_count]; intro x; simp only [List.append_eq, List.flatMap_append, List.flatMap_cons, List.flatMap_nil, List.nil_append, List.append_nil, List.cons_append, Chunk.ad, Tree.ad, adC, Frame.a, Frame.t, List.count_append, List.count_cons, List.count_nil]; try omega))

theorem Exact.sat_node {h : Heap V} {C : List (Frame V)} {p : Nat} {b c : Int} {v : V} {l r : Tree V} (he : Exact h (plug C (.node p b c v l r))) :
    Sat h [.ctx C p (l.size + c + r.size), .node p ⟨parOf C 0, l.root, r.root, b, l.size + c + r.size, some v⟩, .tree p l, .tree p r] ∧ p ≠ 0 ∧ parOf C 0 ≠ p := by
  have hs := Exact.sat.mp he
  have ho : Owns h (parOf C 0) (.node p b c v l r) := hs.tree (by simp)
  refine ⟨hs.cast ?_ (by ads), ho.1, ho.2.1⟩
  intro k hk
  simp only [List.mem_cons, List.not_mem_nil, or_false] at hk
  rcases hk with rfl | rfl | rfl | rfl
  · exact hs.ctx (by simp [Tree.root, Tree.size])
  · exact ho.2.2.1
  · exact ho.2.2.2.1
  · exact ho.2.2.2.2

theorem Exact.of_sat_node {h : Heap V} {C : List (Frame V)} {p : Nat} {b c s : Int} {v : V} {l r : Tree V} (hs : Sat h [.ctx C p s, .node p ⟨parOf C 0, l.root, r.root, b, s, some v⟩, .tree p l, .tree p r])
    (h0 : p ≠ 0) (hP : parOf C 0 ≠ p) (hsz : s = l.size + c + r.size) : Exact h (plug C (.node p b c v l r)) := by
  refine Exact.sat.mpr (hs.cast ?_ (by ads))
  intro k hk
  simp only [List.mem_cons, List.not_mem_nil, or_false] at hk
  rcases hk with rfl | rfl
  · have := hs.ctx (C := C) (x := p) (s := s) (by simp)
    rw [hsz] at this
    exact this
  · refine ⟨h0, hP, ?_, hs.tree (by simp), hs.tree (by simp)⟩
    rw [hs.node (p := p) (by simp; rfl), hsz]

theorem Sat.nilAt {h : Heap V} {L : List (Chunk V)} {C : List (Frame V)} {x : Nat} {s : Int} (hs : Sat h (.ctx C x s :: L)) : h 0 = some ⟨0, segRoot C x, segRoot C x, 0, 0, none⟩ :=
  (hs.ctx (C := C) (x := x) (s := s) (by simp)).nil

theorem rotateLeft_spec {h : Heap V} {C : List (Frame V)} {p q : Nat} {bp cp bq cq : Int} {vp vq : V} {A M E : Tree V}
    (he : Exact h (plug C (.node p bp cp vp A (.node q bq cq vq M E)))) :
    ∃ h', rotateLeft h p = some h' ∧ Exact h' (plug C (.node q bq cq vq (.node p bp cp vp A M) E)) := by
  obtain ⟨hs0, hp0, hP⟩ := he.sat_node
  have ho : Owns h p (.node q bq cq vq M E) := hs0.tree (by simp)
  have hs : Sat h [.ctx C p (A.size + cp + (M.size + cq + E.size)), .node p ⟨parOf C 0, A.root, q, bp, A.size + cp + (M.size + cq + E.size), some vp⟩,
      .node q ⟨p, M.root, E.root, bq, M.size + cq + E.size, some vq⟩, .tree p A, .tree q M, .tree q E] := by
    refine hs0.cast ?_ (by ads)
    intro k hk
    simp only [List.mem_cons, List.not_mem_nil, or_false] at hk
    rcases hk with rfl | rfl | rfl | rfl | rfl | rfl
    · exact hs0.holds _ (by simp [Tree.size])
    · exact hs0.holds _ (by simp [Tree.size, Tree.root])
    · exact ho.2.2.1
    · exact hs0.tree (by simp)
    · exact ho.2.2.2.1
    · exact ho.2.2.2.2
  have hq0 : q ≠ 0 := ho.1
  have hpq : p ≠ q := ho.2.1
  have hpC : p ∉ adC C := fun e => hs.disj (L1 := [_]) (k := .ctx C p (A.size + cp + (M.size + cq + E.size))) (by simp) p (by simp [Chunk.ad]) (by simp [Chunk.ad, e])
  have hqC : q ∉ adC C := fun e => hs.disj (L1 := [_, _]) (k := .ctx C p (A.size + cp + (M.size + cq + E.size))) (by simp) q (by simp [Chunk.ad]) (by simp [Chunk.ad, e])
  have hqA : q ∉ A.ad := fun e => hs.disj (L1 := [_, _]) (k := .tree p A) (by simp) q (by simp [Chunk.ad]) e
  have hpM : p ∉ M.ad := fun e => hs.disj (L1 := [_]) (k := .tree q M) (by simp) p (by simp [Chunk.ad]) e
  have hqP : parOf C 0 ≠ q := by
    rcases parOf_mem C 0 with e | e
    · rw [e]; exact fun e => hq0 e.symm
    · exact fun e' => hqC (e' ▸ e)
  rw [rotateLeft, hs.at (L1 := [_])]
  simp only [Option.bind_eq_bind, Option.bind_some]
  -- the link from above
  obtain ⟨h1, e1, s1⟩ := hs.linkCtx (L1 := []) q hp0 hpC
  obtain ⟨h2, e2, s2⟩ := s1.adoptNode (L1 := [_, _]) (parOf C 0) hpq
  rw [makeLink_eq, e1]
  simp only [Option.bind_some]
  rw [e2]
  simp only [Option.bind_some]
  rw [s2.at (L1 := [_, _])]
  simp only [Option.bind_some]
  -- the link to the middle subtree
  obtain ⟨h3, e3, s3⟩ := s2.linkRight (L1 := [_]) M.root rfl (root_ne_of_not_mem hq0 hqA)
  obtain ⟨h4, e4, s4⟩ := s3.adoptTree (L1 := [_, _, _, _]) hpM (Sat.nilAt s3)
  rw [makeLink_eq, e3]
  simp only [Option.bind_some]
  rw [e4]
  simp only [Option.bind_some]
  rw [s4.at (L1 := [_]), s4.at (L1 := [_, _])]
  simp only [Option.bind_some]
  rw [((s4.tree (t := M) (q := p) (by simp)).isNil (Sat.nilAt s4)).2]
  simp only [Option.bind_some]
  obtain ⟨h5, e5, s5⟩ := s4.setSize (L1 := [_]) (A.size + cp + (M.size + cq + E.size) + (M.size - (M.size + cq + E.size)))
  rw [e5]
  simp only [Option.bind_some]
  obtain ⟨h6, e6, s6⟩ := s5.setLeft (L1 := [_, _]) p
  rw [e6]
  simp only [Option.bind_some]
  obtain ⟨h7, e7, s7⟩ := s6.setParent (L1 := [_]) q
  rw [e7]
  simp only [Option.bind_some]
  obtain ⟨h8, e8, s8⟩ := s7.setSize (L1 := [_, _]) (A.size + cp + (M.size + cq + E.size))
  rw [e8]
  refine ⟨h8, rfl, ?_⟩
  refine Exact.of_sat_node (s := A.size + cp + (M.size + cq + E.size)) (s8.cast ?_ (by ads)) hq0 hqP (by simp only [Tree.size]; ring)
  intro k hk
  simp only [List.mem_cons, List.not_mem_nil, or_false] at hk
  rcases hk with rfl | rfl | rfl | rfl
  · exact s8.holds _ (by simp)
  · exact s8.holds _ (by simp [Tree.root])
  · refine ⟨hp0, fun e => hpq e.symm, ?_, s8.tree (by simp), s8.tree (by simp)⟩
    rw [s8.at (L1 := [_])]
    congr 2
    ring
  · exact s8.tree (by simp)

theorem rotateRight_spec {h : Heap V} {C : List (Frame V)} {p q : Nat} {bp cp bq cq : Int} {vp vq : V} {A M E : Tree V}
    (he : Exact h (plug C (.node p bp cp vp (.node q bq cq vq A M) E))) :
    ∃ h', rotateRight h p = some h' ∧ Exact h' (plug C (.node q bq cq vq A (.node p bp cp vp M E))) := by
  obtain ⟨hs0, hp0, hP⟩ := he.sat_node
  have ho : Owns h p (.node q bq cq vq A M) := hs0.tree (by simp)
  have hs : Sat h [.ctx C p (A.size + cq + M.size + cp + E.size), .node p ⟨parOf C 0, q, E.root, bp, A.size + cq + M.size + cp + E.size, some vp⟩,
      .node q ⟨p, A.root, M.root, bq, A.size + cq + M.size, some vq⟩, .tree q A, .tree q M, .tree p E] := by
    refine hs0.cast ?_ (by ads)
    intro k hk
    simp only [List.mem_cons, List.not_mem_nil, or_false] at hk
    rcases hk with rfl | rfl | rfl | rfl | rfl | rfl
    · exact hs0.holds _ (by simp [Tree.size])
    · exact hs0.holds _ (by simp [Tree.size, Tree.root])
    · exact ho.2.2.1
    · exact ho.2.2.2.1
    · exact ho.2.2.2.2
    · exact hs0.tree (by simp)
  have hq0 : q ≠ 0 := ho.1
  have hpq : p ≠ q := ho.2.1
  have hpC : p ∉ adC C := fun e => hs.disj (L1 := [_]) (k := .ctx C p (A.size + cq + M.size + cp + E.size)) (by simp) p (by simp [Chunk.ad]) (by simp [Chunk.ad, e])
  have hqC : q ∉ adC C := fun e => hs.disj (L1 := [_, _]) (k := .ctx C p (A.size + cq + M.size + cp + E.size)) (by simp) q (by simp [Chunk.ad]) (by simp [Chunk.ad, e])
  have hqE : q ∉ E.ad := fun e => hs.disj (L1 := [_, _]) (k := .tree p E) (by simp) q (by simp [Chunk.ad]) e
  have hpM : p ∉ M.ad := fun e => hs.disj (L1 := [_]) (k := .tree q M) (by simp) p (by simp [Chunk.ad]) e
  have hqP : parOf C 0 ≠ q := by
    rcases parOf_mem C 0 with e | e
    · rw [e]; exact fun e => hq0 e.symm
    · exact fun e' => hqC (e' ▸ e)
  rw [rotateRight, hs.at (L1 := [_])]
  simp only [Option.bind_eq_bind, Option.bind_some]
  -- the link from above
  obtain ⟨h1, e1, s1⟩ := hs.linkCtx (L1 := []) q hp0 hpC
  obtain ⟨h2, e2, s2⟩ := s1.adoptNode (L1 := [_, _]) (parOf C 0) hpq
  rw [makeLink_eq, e1]
  simp only [Option.bind_some]
  rw [e2]
  simp only [Option.bind_some]
  rw [s2.at (L1 := [_, _])]
  simp only [Option.bind_some]
  -- the link to the middle subtree
  obtain ⟨h3, e3, s3⟩ := s2.linkLeft (L1 := [_]) M.root (root_ne_of_not_mem hq0 hqE) rfl
  obtain ⟨h4, e4, s4⟩ := s3.adoptTree (L1 := [_, _, _, _]) hpM (Sat.nilAt s3)
  rw [makeLink_eq, e3]
  simp only [Option.bind_some]
  rw [e4]
  simp only [Option.bind_some]
  rw [s4.at (L1 := [_]), s4.at (L1 := [_, _])]
  simp only [Option.bind_some]
  rw [((s4.tree (t := M) (q := p) (by simp)).isNil (Sat.nilAt s4)).2]
  simp only [Option.bind_some]
  obtain ⟨h5, e5, s5⟩ := s4.setSize (L1 := [_]) (A.size + cq + M.size + cp + E.size + (M.size - (A.size + cq + M.size)))
  rw [e5]
  simp only [Option.bind_some]
  obtain ⟨h6, e6, s6⟩ := s5.setRight (L1 := [_, _]) p
  rw [e6]
  simp only [Option.bind_some]
  obtain ⟨h7, e7, s7⟩ := s6.setParent (L1 := [_]) q
  rw [e7]
  simp only [Option.bind_some]
  obtain ⟨h8, e8, s8⟩ := s7.setSize (L1 := [_, _]) (A.size + cq + M.size + cp + E.size)
  rw [e8]
  refine ⟨h8, rfl, ?_⟩
  refine Exact.of_sat_node (s := A.size + cq + M.size + cp + E.size) (s8.cast ?_ (by ads)) hq0 hqP (by simp only [Tree.size]; ring)
  intro k hk
  simp only [List.mem_cons, List.not_mem_nil, or_false] at hk
  rcases hk with rfl | rfl | rfl | rfl
  · exact s8.holds _ (by simp)
  · exact s8.holds _ (by simp [Tree.root])
  · exact s8.tree (by simp)
  · refine ⟨hp0, fun e => hpq e.symm, ?_, s8.tree (by simp), s8.tree (by simp)⟩
    rw [s8.at (L1 := [_])]
    congr 2
    ring

theorem segSize_add : ∀ (C : List (Frame V)) (s d : Int), segSize C (s + d) = segSize C s + d
  | [], _, _ => rfl
  | f :: C, s, d => by
    rw [segSize, segSize, show s + d + f.c + f.t.size = s + f.c + f.t.size + d by ring, segSize_add]

theorem parOf_ne {C : List (Frame V)} (hC : C ≠ []) (x y : Nat) : parOf C x = parOf C y := by
  cases C with
  | nil => exact absurd rfl hC
  | cons f C => rfl

theorem parOf_mem_ne {C : List (Frame V)} (hC : C ≠ []) (x : Nat) : parOf C x ∈ adC C := by
  cases C with
  | nil => exact absurd rfl hC
  | cons f C => simp [parOf, adC]


theorem sizeOf_seg {h : Heap V} {Q : Nat} : ∀ {C : List (Frame V)} {y : Nat} {s : Int}, Seg h Q C y s → sizeOf' h y = some s → sizeOf' h (segRoot C y) = some (segSize C s)
  | [], _, _, _, hy => hy
  | f :: C, y, s, hsg, hy => by
    obtain ⟨h1, h2, h3, h4, h5⟩ := seg_cons.mp hsg
    rw [segRoot, segSize]
    refine sizeOf_seg h5 ?_
    rw [sizeOf', h3]
    simp only [Option.bind_eq_bind, Option.bind_some, Frame.node_size]

section Swap
variable {C Kf : List (Frame V)} {p d : Nat} {bp S bd sd : Int} {vp vd : V} {A M E : Tree V}

/-- What the addresses satisfy during the exchange. -/
structure Apart (C Kf : List (Frame V)) (p d : Nat) (A M E : Tree V) : Prop where
  p0 : p ≠ 0
  d0 : d ≠ 0
  pd : p ≠ d
  pC : p ∉ adC C
  dC : d ∉ adC C
  pK : p ∉ adC Kf
  dK : d ∉ adC Kf
  dA : d ∉ A.ad
  pM : p ∉ M.ad
  pE : p ∉ E.ad
  dM : d ∉ M.ad
  dE : d ∉ E.ad
  dP : parOf C 0 ≠ d
  pKp : parOf Kf d ≠ p

theorem Apart.of {h : Heap V} {x : Nat} {s1 s2 : Int} {n m : Node V} {q1 q2 q3 Q y : Nat} (hs : Sat h [.ctx C x s1, .node p n, .node d m, .tree q1 A, .tree q2 M, .tree q3 E, .seg Q Kf y s2]) :
    Apart C Kf p d A M E := by
  have hpd : p ≠ d := fun e => hs.disj (L1 := [_]) (k := .node d m) (by simp) p (by simp [Chunk.ad]) (by simp [Chunk.ad, e])
  have hpC : p ∉ 0 :: adC C := hs.disj (L1 := [_]) (k := .ctx C x s1) (by simp) p (by simp [Chunk.ad])
  have hdC : d ∉ 0 :: adC C := hs.disj (L1 := [_, _]) (k := .ctx C x s1) (by simp) d (by simp [Chunk.ad])
  have hpK : p ∉ adC Kf := hs.disj (L1 := [_]) (k := .seg Q Kf y s2) (by simp) p (by simp [Chunk.ad])
  have hdK : d ∉ adC Kf := hs.disj (L1 := [_, _]) (k := .seg Q Kf y s2) (by simp) d (by simp [Chunk.ad])
  have hdA : d ∉ A.ad := hs.disj (L1 := [_, _]) (k := .tree q1 A) (by simp) d (by simp [Chunk.ad])
  have hpM : p ∉ M.ad := hs.disj (L1 := [_]) (k := .tree q2 M) (by simp) p (by simp [Chunk.ad])
  have hpE : p ∉ E.ad := hs.disj (L1 := [_]) (k := .tree q3 E) (by simp) p (by simp [Chunk.ad])
  have hdM : d ∉ M.ad := hs.disj (L1 := [_, _]) (k := .tree q2 M) (by simp) d (by simp [Chunk.ad])
  have hdE : d ∉ E.ad := hs.disj (L1 := [_, _]) (k := .tree q3 E) (by simp) d (by simp [Chunk.ad])
  simp only [List.mem_cons, not_or] at hpC hdC
  refine ⟨hpC.1, hdC.1, hpd, hpC.2, hdC.2, hpK, hdK, hdA, hpM, hpE, hdM, hdE, ?_, ?_⟩
  · rcases parOf_mem C 0 with e | e
    · rw [e]; exact fun e => hdC.1 e.symm
    · exact fun e' => hdC.2 (e' ▸ e)
  · rcases parOf_mem Kf d with e | e
    · rw [e]; exact fun e => hpd e.symm
    · exact fun e' => hpK (e' ▸ e)

theorem swapParents_spec {h : Heap V} (hs : Sat h [.ctx C p S, .node p ⟨parOf C 0, A.root, segRoot Kf d, bp, S, some vp⟩,
    .node d ⟨parOf Kf p, M.root, E.root, bd, sd, some vd⟩, .tree p A, .tree d M, .tree d E, .seg p Kf d sd]) :
    ∃ h', swapParents h p d = some h' ∧ Sat h' [.ctx C d S, .node p ⟨parOf Kf d, A.root, segRoot Kf d, bp, S, some vp⟩,
      .node d ⟨parOf C 0, M.root, E.root, bd, sd, some vd⟩, .tree p A, .tree d M, .tree d E, .seg p Kf p sd] := by
  obtain ⟨hp0, hd0, hpd, hpC, hdC, hpK, hdK, hdA, hpM, hpE, hdM, hdE, hdP, hpKp⟩ := Apart.of hs
  rw [swapParents, hs.at (L1 := [_]), hs.at (L1 := [_, _])]
  simp only [Option.bind_eq_bind, Option.bind_some]
  obtain ⟨h1, e1, s1⟩ := hs.setParent (L1 := [_]) (parOf Kf p)
  rw [e1]
  simp only [Option.bind_some]
  obtain ⟨h2, e2, s2⟩ := s1.setParent (L1 := [_, _]) (parOf C 0)
  rw [e2]
  simp only [Option.bind_some]
  rw [s2.at (L1 := [_])]
  simp only [Option.bind_some]
  -- the parent of `p` after the special case
  have hstep : ∃ h3, (if (parOf Kf p == p) = true then BST.setParent h2 p d else some h2) = some h3 ∧
      Sat h3 [.ctx C p S, .node p ⟨parOf Kf d, A.root, segRoot Kf d, bp, S, some vp⟩, .node d ⟨parOf C 0, M.root, E.root, bd, sd, some vd⟩,
      .tree p A, .tree d M, .tree d E, .seg p Kf d sd] := by
    by_cases hK : Kf = []
    · subst hK
      obtain ⟨h3, e3, s3⟩ := s2.setParent (L1 := [_]) d
      exact ⟨h3, by rw [if_pos (by simp [parOf]), e3], s3⟩
    · have hne : parOf Kf p ≠ p := fun e => hpK (by rw [← e]; exact parOf_mem_ne hK p)
      refine ⟨h2, by rw [if_neg (by simpa using hne)], ?_⟩
      rw [parOf_ne hK d p]
      exact s2
  obtain ⟨h3, e3, s3⟩ := hstep
  rw [e3]
  simp only [Option.bind_some]
  rw [s3.at (L1 := [_])]
  simp only [Option.bind_some]
  -- the link to `p`
  have hstep : ∃ h4, makeLink h3 (parOf Kf d) p d = some h4 ∧
      Sat h4 [.ctx C p S, .node p ⟨parOf Kf d, A.root, segRoot Kf d, bp, S, some vp⟩, .node d ⟨parOf C 0, M.root, E.root, bd, sd, some vd⟩,
      .tree p A, .tree d M, .tree d E, .seg p Kf p sd] := by
    rw [makeLink_eq]
    by_cases hK : Kf = []
    · subst hK
      have := s3.linkNone (L1 := [_, _]) (old := d) p (root_ne_of_not_mem hd0 hdE) (root_ne_of_not_mem hd0 hdM)
      rw [show parOf ([] : List (Frame V)) d = d from rfl, this]
      simp only [Option.bind_some]
      obtain ⟨h4, e4, s4⟩ := s3.adoptNode (L1 := [_]) d hpKp
      exact ⟨h4, e4, s4.upd (L1 := [_, _, _, _, _, _]) (L2 := []) (c' := .seg p [] p sd) trivial rfl (fun _ _ => rfl)⟩
    · obtain ⟨h4, e4, s4⟩ := s3.linkSeg (L1 := [_, _, _, _, _, _]) p hK hd0 hdK
      rw [parOf_ne hK d p, e4]
      simp only [Option.bind_some]
      obtain ⟨h5, e5, s5⟩ := s4.adoptNode (L1 := [_]) (parOf Kf p) hpKp
      refine ⟨h5, e5, ?_⟩
      exact s5
  obtain ⟨h4, e4, s4⟩ := hstep
  rw [e4]
  simp only [Option.bind_some]
  rw [s4.at (L1 := [_, _])]
  simp only [Option.bind_some]
  -- the link to `d`
  obtain ⟨h5, e5, s5⟩ := s4.linkCtx (L1 := []) d hp0 hpC
  obtain ⟨h6, e6, s6⟩ := s5.adoptNode (L1 := [_, _]) (parOf C 0) hdP
  rw [makeLink_eq, e5]
  simp only [Option.bind_some]
  exact ⟨h6, e6, s6⟩

theorem swapLefts_spec {h : Heap V} (hs : Sat h [.ctx C d S, .node p ⟨parOf Kf d, A.root, segRoot Kf d, bp, S, some vp⟩,
      .node d ⟨parOf C 0, M.root, E.root, bd, sd, some vd⟩, .tree p A, .tree d M, .tree d E, .seg p Kf p sd]) :
    ∃ h', swapLefts h p d = some h' ∧ Sat h' [.ctx C d S, .node p ⟨parOf Kf d, M.root, segRoot Kf d, bp, S, some vp⟩,
      .node d ⟨parOf C 0, A.root, E.root, bd, sd, some vd⟩, .tree d A, .tree p M, .tree d E, .seg p Kf p sd] := by
  obtain ⟨hp0, hd0, hpd, hpC, hdC, hpK, hdK, hdA, hpM, hpE, hdM, hdE, hdP, hpKp⟩ := Apart.of hs
  rw [swapLefts, hs.at (L1 := [_]), hs.at (L1 := [_, _])]
  simp only [Option.bind_eq_bind, Option.bind_some]
  obtain ⟨h7, e7, s7⟩ := hs.setLeft (L1 := [_]) M.root
  rw [e7]
  simp only [Option.bind_some]
  obtain ⟨h8, e8, s8⟩ := s7.setLeft (L1 := [_, _]) A.root
  rw [e8]
  simp only [Option.bind_some]
  rw [s8.at (L1 := [_, _])]
  simp only [Option.bind_some]
  rw [if_neg (by simpa using root_ne_of_not_mem hd0 hdA)]
  simp only [Option.bind_some]
  rw [s8.at (L1 := [_])]
  simp only [Option.bind_some]
  obtain ⟨h9, e9, s9⟩ := s8.adoptTree (L1 := [_, _, _, _]) hpM (Sat.nilAt s8)
  rw [e9]
  simp only [Option.bind_some]
  rw [s9.at (L1 := [_, _])]
  simp only [Option.bind_some]
  exact s9.adoptTree (L1 := [_, _, _]) hdA (Sat.nilAt s9)

theorem swapRights_spec {h : Heap V} (hs : Sat h [.ctx C d S, .node p ⟨parOf Kf d, M.root, segRoot Kf d, bp, S, some vp⟩,
      .node d ⟨parOf C 0, A.root, E.root, bd, sd, some vd⟩, .tree d A, .tree p M, .tree d E, .seg p Kf p sd]) :
    ∃ h', swapRights h p d = some h' ∧ Sat h' [.ctx C d S, .node p ⟨parOf Kf d, M.root, E.root, bp, S, some vp⟩,
      .node d ⟨parOf C 0, A.root, segRoot Kf p, bd, sd, some vd⟩, .tree d A, .tree p M, .tree p E, .seg d Kf p sd] := by
  obtain ⟨hp0, hd0, hpd, hpC, hdC, hpK, hdK, hdA, hpM, hpE, hdM, hdE, hdP, hpKp⟩ := Apart.of hs
  rw [swapRights, hs.at (L1 := [_]), hs.at (L1 := [_, _])]
  simp only [Option.bind_eq_bind, Option.bind_some]
  obtain ⟨h1, e1, s1⟩ := hs.setRight (L1 := [_]) E.root
  rw [e1]
  simp only [Option.bind_some]
  obtain ⟨h2, e2, s2⟩ := s1.setRight (L1 := [_, _]) (segRoot Kf d)
  rw [e2]
  simp only [Option.bind_some]
  rw [s2.at (L1 := [_, _])]
  simp only [Option.bind_some]
  have hstep : ∃ h3, (if (segRoot Kf d == d) = true then BST.setRight h2 d p else some h2) = some h3 ∧
      Sat h3 [.ctx C d S, .node p ⟨parOf Kf d, M.root, E.root, bp, S, some vp⟩,
      .node d ⟨parOf C 0, A.root, segRoot Kf p, bd, sd, some vd⟩, .tree d A, .tree p M, .tree d E, .seg p Kf p sd] := by
    by_cases hK : Kf = []
    · subst hK
      obtain ⟨h3, e3, s3⟩ := s2.setRight (L1 := [_, _]) p
      exact ⟨h3, by rw [if_pos (by simp [segRoot]), e3], s3⟩
    · have hne : segRoot Kf d ≠ d := fun e => hdK (by rw [← e]; exact segRoot_mem hK)
      refine ⟨h2, by rw [if_neg (by simpa using hne)], ?_⟩
      rw [Seg.root_ne (C := Kf) (x := p) d hK]
      exact s2
  obtain ⟨h3, e3, s3⟩ := hstep
  rw [e3]
  simp only [Option.bind_some]
  rw [s3.at (L1 := [_])]
  simp only [Option.bind_some]
  obtain ⟨h4, e4, s4⟩ := s3.adoptTree (L1 := [_, _, _, _, _]) hpE (Sat.nilAt s3)
  rw [e4]
  simp only [Option.bind_some]
  rw [s4.at (L1 := [_, _])]
  simp only [Option.bind_some]
  by_cases hK : Kf = []
  · subst hK
    obtain ⟨h5, e5, s5⟩ := s4.adoptNode (L1 := [_]) d hpKp
    exact ⟨h5, e5, s5.upd (L1 := [_, _, _, _, _, _]) (L2 := []) (c' := .seg d [] p sd) trivial rfl (fun _ _ => rfl)⟩
  · exact s4.adoptSeg (L1 := [_, _, _, _, _, _]) hK hdK

theorem swapNumbers_spec {h : Heap V} (hs : Sat h [.ctx C d S, .node p ⟨parOf Kf d, M.root, E.root, bp, S, some vp⟩,
      .node d ⟨parOf C 0, A.root, segRoot Kf p, bd, sd, some vd⟩, .tree d A, .tree p M, .tree p E, .seg d Kf p sd]) :
    ∃ h', swapNumbers h p d = some h' ∧ Sat h' [.ctx C d S, .node p ⟨parOf Kf d, M.root, E.root, bd, sd, some vp⟩,
      .node d ⟨parOf C 0, A.root, segRoot Kf p, bp, S, some vd⟩, .tree d A, .tree p M, .tree p E, .seg d Kf p sd] := by
  rw [swapNumbers, hs.at (L1 := [_]), hs.at (L1 := [_, _])]
  simp only [Option.bind_eq_bind, Option.bind_some]
  obtain ⟨h1, e1, s1⟩ := hs.setBalance (L1 := [_]) bd
  rw [e1]
  simp only [Option.bind_some]
  obtain ⟨h2, e2, s2⟩ := s1.setBalance (L1 := [_, _]) bp
  rw [e2]
  simp only [Option.bind_some]
  rw [s2.at (L1 := [_]), s2.at (L1 := [_, _])]
  simp only [Option.bind_some]
  obtain ⟨h3, e3, s3⟩ := s2.setSize (L1 := [_]) sd
  rw [e3]
  simp only [Option.bind_some]
  exact s3.setSize (L1 := [_, _]) S

theorem swap_spec {h : Heap V} {cp cd : Int} (he : Exact h (plug C (.node p bp cp vp A (plug Kf (.node d bd cd vd M E))))) {fuel : Nat} (hf : Kf.length + 1 < fuel) :
    ∃ h', swapWithDescendant h fuel p d = some h' ∧ Exact h' (plug C (.node d bp cd vd A (plug Kf (.node p bd cp vp M E)))) := by
  obtain ⟨hs0, hp0, hP⟩ := he.sat_node
  rw [plug_size, plug_root] at hs0
  obtain ⟨ho1, ho2⟩ := Owns.plug.mp (hs0.tree (t := plug Kf (.node d bd cd vd M E)) (q := p) (by simp))
  obtain ⟨hd0, hdp, hd1, hd2, hd3⟩ := ho2
  rw [show (Tree.node d bd cd vd M E).size = M.size + cd + E.size from rfl, show (Tree.node d bd cd vd M E).root = d from rfl] at hs0 ho1
  generalize hS : A.size + cp + segSize Kf (M.size + cd + E.size) = S at hs0
  have hs : Sat h [.ctx C p S, .node p ⟨parOf C 0, A.root, segRoot Kf d, bp, S, some vp⟩, .node d ⟨parOf Kf p, M.root, E.root, bd, M.size + cd + E.size, some vd⟩,
      .tree p A, .tree d M, .tree d E, .seg p Kf d (M.size + cd + E.size)] := by
    refine hs0.cast ?_ ?_
    · intro k hk
      simp only [List.mem_cons, List.not_mem_nil, or_false] at hk
      rcases hk with rfl | rfl | rfl | rfl | rfl | rfl | rfl
      · exact hs0.holds _ (by simp)
      · exact hs0.holds _ (by simp)
      · exact hd1
      · exact hs0.tree (by simp)
      · exact hd2
      · exact hd3
      · exact ho1
    · rw [List.perm_iff_count]
      intro x
      have := (plug_ad Kf (.node d bd cd vd M E)).count_eq x
      simp only [Tree.ad, List.count_append, List.count_cons] at this
      simp only [List.flatMap_cons, List.flatMap_nil, List.append_nil, List.cons_append, Chunk.ad, List.count_append, List.count_cons, List.count_nil, this]
      omega
  obtain ⟨-, -, hpd, hpC, hdC, hpK, hdK, hdA, hpM, hpE, hdM, hdE, hdP, hpKp⟩ := Apart.of hs
  obtain ⟨h1, e1, s1⟩ := swapParents_spec hs
  obtain ⟨h2, e2, s2⟩ := swapLefts_spec s1
  obtain ⟨h3, e3, s3⟩ := swapRights_spec s2
  obtain ⟨h4, e4, s4⟩ := swapNumbers_spec s3
  rw [swapWithDescendant, e1]
  simp only [Option.bind_eq_bind, Option.bind_some]
  rw [e2]
  simp only [Option.bind_some]
  rw [e3]
  simp only [Option.bind_some]
  rw [e4]
  simp only [Option.bind_some]
  have hnil := Sat.nilAt s4
  have hszA := ((s4.tree (t := A) (q := d) (by simp)).isNil hnil).2
  have hszM := ((s4.tree (t := M) (q := p) (by simp)).isNil hnil).2
  have hszE := ((s4.tree (t := E) (q := p) (by simp)).isNil hnil).2
  have hszp : sizeOf' h4 p = some (M.size + cd + E.size) := by rw [sizeOf', s4.at (L1 := [_])]; rfl
  have hszK := sizeOf_seg (s4.seg (Q := d) (C := Kf) (x := p) (s := M.size + cd + E.size) (by simp)) hszp
  have hcd : count h4 d = some cp := by
    rw [count, s4.at (L1 := [_, _])]
    simp only [Option.bind_eq_bind, Option.bind_some]
    rw [if_neg (by simpa using hdP), hszA, hszK]
    simp only [Option.bind_some]
    congr 1
    rw [← hS]
    ring
  have hcp : count h4 p = some cd := by
    rw [count, s4.at (L1 := [_])]
    simp only [Option.bind_eq_bind, Option.bind_some]
    rw [if_neg (by simpa using hpKp), hszM, hszE]
    simp only [Option.bind_some]
    congr 1
    ring
  rw [hcd, hcp]
  simp only [Option.bind_some]
  have hstep : ∃ h', propagateSize h4 fuel p d (cp - cd) = some h' ∧ Sat h' [.ctx C d S, .node p ⟨parOf Kf d, M.root, E.root, bd, M.size + cp + E.size, some vp⟩,
      .node d ⟨parOf C 0, A.root, segRoot Kf p, bp, S, some vd⟩, .tree d A, .tree p M, .tree p E, .seg d Kf p (M.size + cp + E.size)] := by
    rw [propagateSize]
    by_cases h0 : cp - cd = 0
    · rw [if_pos h0]
      have : cd = cp := by omega
      subst this
      exact ⟨h4, rfl, s4⟩
    · rw [if_neg h0]
      obtain ⟨fuel, rfl⟩ : ∃ k, fuel = k + 1 := ⟨fuel - 1, by omega⟩
      rw [propagateSize.go, if_neg hpd, s4.at (L1 := [_])]
      simp only [Option.bind_eq_bind, Option.bind_some]
      obtain ⟨h5, e5, s5⟩ := Sat.propagateSeg (L1 := [_, _, _, _, _, _]) (s4.setNode (L1 := [_]) ⟨parOf Kf d, M.root, E.root, bd, M.size + cd + E.size + (cp - cd), some vp⟩) (cp - cd) hdK (fuel := fuel) (by omega)
      refine ⟨h5, e5, ?_⟩
      rw [show M.size + cd + E.size + (cp - cd) = M.size + cp + E.size by ring] at s5
      exact s5
  obtain ⟨h5, e5, s5⟩ := hstep
  refine ⟨h5, e5, Exact.of_sat_node (s := S) (s5.cast ?_ ?_) hd0 hdP ?_⟩
  · intro k hk
    simp only [List.mem_cons, List.not_mem_nil, or_false] at hk
    rcases hk with rfl | rfl | rfl | rfl
    · exact s5.holds _ (by simp)
    · rw [plug_root]; exact s5.holds _ (List.mem_cons_of_mem _ (List.mem_cons_of_mem _ List.mem_cons_self))
    · exact s5.tree (by simp)
    · refine Owns.plug.mpr ⟨s5.seg (by simp [Tree.root, Tree.size]), hp0, hpKp, s5.at (L1 := [_]), s5.tree (by simp), s5.tree (by simp)⟩
  · rw [List.perm_iff_count]
    intro x
    have := (plug_ad Kf (.node p bd cp vp M E)).count_eq x
    simp only [Tree.ad, List.count_append, List.count_cons] at this
    simp only [List.flatMap_cons, List.flatMap_nil, List.append_nil, List.cons_append, Chunk.ad, List.count_append, List.count_cons, List.count_nil, this]
    omega
  · rw [plug_size, Tree.size, ← hS, show M.size + cp + E.size = (M.size + cd + E.size) + (cp - cd) by ring, segSize_add Kf (M.size + cd + E.size)]
    ring

end Swap

/-! ### Counts -/

theorem count_node {h : Heap V} {C : List (Frame V)} {p : Nat} {b c : Int} {v : V} {l r : Tree V} (he : Exact h (plug C (.node p b c v l r))) : count h p = some c := by
  obtain ⟨h1, h2, h3, h4, h5, h6, -⟩ := he.rep.node
  rw [count, h3]
  simp only [Option.bind_eq_bind, Option.bind_some]
  rw [if_neg (by simpa using h6), (h4.isNil h1.nil).2, (h5.isNil h1.nil).2]
  simp only [Option.bind_some]
  congr 1
  ring

/-- `propagate_size` from a node changes its count. -/
theorem propagate_node {h : Heap V} {C : List (Frame V)} {p : Nat} {b c : Int} {v : V} {l r : Tree V} (he : Exact h (plug C (.node p b c v l r))) (cnt : Int) {fuel : Nat}
    (hf : C.length + 1 < fuel) : ∃ h', propagateSize h fuel p 0 cnt = some h' ∧ Exact h' (plug C (.node p b (c + cnt) v l r)) := by
  rw [propagateSize]
  by_cases h0 : cnt = 0
  · subst h0
    rw [if_pos rfl, Int.add_zero]
    exact ⟨h, rfl, he⟩
  · rw [if_neg h0]
    obtain ⟨fuel, rfl⟩ : ∃ k, fuel = k + 1 := ⟨fuel - 1, by omega⟩
    obtain ⟨hs, hp0, hP⟩ := he.sat_node
    rw [propagateSize.go, if_neg hp0, hs.at (L1 := [_])]
    simp only [Option.bind_eq_bind, Option.bind_some]
    have s1 := hs.setNode (L1 := [_]) ⟨parOf C 0, l.root, r.root, b, l.size + c + r.size + cnt, some v⟩
    obtain ⟨h', e, s2⟩ := s1.propagateCtx (L1 := []) cnt (fuel := fuel) (by omega)
    refine ⟨h', e, Exact.of_sat_node s2 hp0 hP ?_⟩
    ring

/-! ### Insertion -/

/-- The side on which the hole of a path lies. -/
def Side : List (Frame V) → Bool → Prop
  | [], _ => True
  | .L .. :: _, g => g = true
  | .R .. :: _, g => g = false

theorem side_child {h : Heap V} {C : List (Frame V)} {x : Nat} {s : Int} (hc : CtxOK h C x s) {g : Bool} (hg : Side C g) :
    ∃ n, h (parOf C 0) = some n ∧ (if g = true then n.left else n.right) = x ∧ isNil h (parOf C 0) = some C.isEmpty := by
  cases C with
  | nil => exact ⟨_, hc.nil, by simp [segRoot], by simp [isNil, parOf, hc.nil]⟩
  | cons f C =>
    obtain ⟨h1, h2, h3, h4, h5⟩ := seg_cons.mp hc.seg
    refine ⟨_, h3, ?_, ?_⟩
    · cases f with
      | L a b c v r => rw [show g = true from hg]; rfl
      | R a b c v l => rw [show g = false from hg]; rfl
    · rw [isNil, parOf, h3]
      simp only [Option.bind_eq_bind, Option.bind_some, Frame.node_parent]
      simpa using h2

theorem Sat.linkSide {h : Heap V} {L1 L2 : List (Chunk V)} {C : List (Frame V)} {s : Int} {n : Node V} {g : Bool} (hs : Sat h (.ctx C 0 s :: L1 ++ .node a n :: L2)) (hg : Side C g)
    (hn : n.parent ≠ a) : ∃ h', makeLinkSide h (parOf C 0) a g = some h' ∧ Sat h' (.ctx C a s :: L1 ++ .node a { n with parent := parOf C 0 } :: L2) := by
  have hc : CtxOK h C 0 s := hs.ctx (by simp)
  obtain ⟨m, m1, m2, m3⟩ := side_child hc hg
  have hd : (0 :: adC C).Nodup := Sat.self (L1 := []) (L2 := L1 ++ .node a n :: L2) (c := .ctx C 0 s) hs
  -- the heap after the links
  have hstep : ∃ h1, (if (C.isEmpty || g) = true then BST.setLeft h (parOf C 0) a else some h) = some h1 ∧ isNil h1 (parOf C 0) = some C.isEmpty ∧
      ∃ h2, (if (C.isEmpty || !g) = true then BST.setRight h1 (parOf C 0) a else some h1) = some h2 ∧ Sat h2 (.ctx C a s :: L1 ++ .node a n :: L2) := by
    cases C with
    | nil =>
      have hnil := hc.nil
      refine ⟨h.set 0 ⟨0, a, 0, 0, 0, none⟩, ?_, ?_, (h.set 0 ⟨0, a, 0, 0, 0, none⟩).set 0 ⟨0, a, a, 0, 0, none⟩, ?_, ?_⟩
      · simp [parOf, BST.setLeft, hnil, segRoot]
      · simp [parOf, isNil, Heap.set]
      · simp [parOf, BST.setRight, Heap.set]
      · refine Sat.upd (L1 := []) hs ⟨?_, trivial⟩ rfl ?_
        · simp [Heap.set, segRoot]
        · intro x hx
          have : x ≠ 0 := by simpa [Chunk.ad, adC] using hx
          simp [Heap.set, this]
    | cons f C =>
      obtain ⟨h1, h2, h3, h4, h5⟩ := seg_cons.mp hc.seg
      rw [List.nodup_cons] at hd
      obtain ⟨d1, d2, d3, d4, d5⟩ := adC_cons_nodup hd.2
      have hup : Sat (h.set f.a (f.node (parOf C 0) a s)) (.ctx (f :: C) a s :: L1 ++ .node a n :: L2) := by
        refine Sat.upd (L1 := []) hs ⟨?_, seg_cons.mpr ⟨h1, h2, Heap.set_same _ _ _, h4.congr (fun x hx => Heap.set_ne _ _ ?_), h5.congr (fun x hx => Heap.set_ne _ _ ?_)⟩⟩ rfl ?_
        · rw [Heap.set_ne _ _ (fun e => h1 e.symm), hc.nil]; rfl
        · intro e; exact d1 (e ▸ hx)
        · intro e; exact d2 (e ▸ hx)
        · intro x hx
          refine Heap.set_ne _ _ (fun e => hx ?_)
          simp [Chunk.ad, adC, e]
      cases f with
      | L a' b c v r =>
        have hg' : g = true := hg
        subst hg'
        refine ⟨h.set a' (Frame.node (parOf C 0) a s (Frame.L a' b c v r)), ?_, ?_, _, ?_, hup⟩
        · rw [if_pos (by simp), BST.setLeft, parOf, h3]; rfl
        · rw [isNil, parOf, Frame.a, Heap.set_same]
          simp only [Option.bind_eq_bind, Option.bind_some, Frame.node_parent]
          simpa [Frame.a] using h2
        · rw [if_neg (by simp)]; rfl
      | R a' b c v l =>
        have hg' : g = false := hg
        subst hg'
        refine ⟨h, by rw [if_neg (by simp)], m3, _, ?_, hup⟩
        rw [if_pos (by simp), BST.setRight, parOf, h3]; rfl
  obtain ⟨h1, e1, e2, h2, e3, s2⟩ := hstep
  rw [makeLinkSide, m3]
  simp only [Option.bind_eq_bind, Option.bind_some]
  rw [e1]
  simp only [Option.bind_some]
  rw [e2]
  simp only [Option.bind_some]
  rw [e3]
  simp only [Option.bind_some]
  exact s2.adoptNode (L1 := _ :: L1) (parOf C 0) hn

/-- The number of copies that are inserted or removed. -/
def copies (dup : Dup) (cnt : Int) : Int := if dup = .count then cnt else 1

/-- `insert_node` into a hole. -/
theorem insertNode_hole {dup : Dup} {h : Heap V} {C : List (Frame V)} (he : Exact h (plug C .nil)) {g : Bool} (hg : Side C g) {fresh : Nat} (hfr : h fresh = none) (bal : Int) (v : V) (cnt : Int)
    {fuel : Nat} (hf : C.length + 1 < fuel) : ∃ h', insertNode dup h fuel fresh bal (parOf C 0) g v cnt = some (h', fresh) ∧
      Exact h' (plug C (.node fresh bal (copies dup cnt) v .nil .nil)) := by
  have hs := Exact.sat.mp he
  have hc : CtxOK h C 0 0 := hs.ctx (by simp [Tree.root, Tree.size])
  obtain ⟨m, m1, m2, m3⟩ := side_child hc hg
  have hf0 : fresh ≠ 0 := by rintro rfl; rw [hc.nil] at hfr; simp at hfr
  have hfP : parOf C 0 ≠ fresh := by rintro rfl; rw [m1] at hfr; simp at hfr
  rw [insertNode, m1]
  simp only [Option.bind_eq_bind, Option.bind_some]
  rw [m2, isNil, hc.nil]
  simp only [Option.bind_eq_bind, Option.bind_some]
  rw [if_pos (by simp), hfr, if_neg (by simp)]
  have s1 : Sat (h.set fresh ⟨parOf C 0, 0, 0, bal, 0, some v⟩) (.ctx C 0 0 :: [] ++ .node fresh ⟨parOf C 0, 0, 0, bal, 0, some v⟩ :: []) := by
    refine (hs.alloc hfr ⟨parOf C 0, 0, 0, bal, 0, some v⟩).cast ?_ (by ads)
    intro k hk
    simp only [List.cons_append, List.nil_append, List.mem_cons, List.not_mem_nil, or_false] at hk
    rcases hk with rfl | rfl
    · exact (hs.alloc hfr ⟨parOf C 0, 0, 0, bal, 0, some v⟩).ctx (by simp [Tree.root, Tree.size])
    · exact Heap.set_same _ _ _
  obtain ⟨h2, e2, s2⟩ := s1.linkSide hg hfP
  rw [e2]
  simp only [Option.bind_some]
  have he2 : Exact h2 (plug C (.node fresh bal 0 v .nil .nil)) := by
    refine Exact.of_sat_node (s := 0) (s2.cast ?_ (by ads)) hf0 hfP (by simp [Tree.size])
    intro k hk
    simp only [List.mem_cons, List.not_mem_nil, or_false] at hk
    rcases hk with rfl | rfl | rfl | rfl
    · exact s2.ctx (by simp)
    · exact s2.node (by simp [Tree.root])
    · trivial
    · trivial
  obtain ⟨h3, e3, s3⟩ := propagate_node he2 (copies dup cnt) hf
  rw [Int.zero_add] at s3
  refine ⟨h3, ?_, s3⟩
  rw [show (if dup = .count then cnt else 1) = copies dup cnt from rfl, e3]
  rfl

/-- `insert_node` at an element that is there. -/
theorem insertNode_there {dup : Dup} {h : Heap V} {C : List (Frame V)} {p : Nat} {b c : Int} {w : V} {l r : Tree V} (he : Exact h (plug C (.node p b c w l r))) {g : Bool} (hg : Side C g)
    (fresh : Nat) (bal : Int) (v : V) (cnt : Int) {fuel : Nat} (hf : C.length + 1 < fuel) :
    ∃ h', insertNode dup h fuel fresh bal (parOf C 0) g v cnt = some (h', p) ∧ Exact h' (plug C (.node p b (c + copies dup cnt) w l r)) := by
  obtain ⟨h1, h2, h3, h4, h5, h6, -⟩ := he.rep.node
  obtain ⟨m, m1, m2, m3⟩ := side_child h1 hg
  rw [insertNode, m1]
  simp only [Option.bind_eq_bind, Option.bind_some]
  rw [m2, isNil, h3]
  simp only [Option.bind_eq_bind, Option.bind_some]
  rw [if_neg (by simpa using h6)]
  simp only [Option.bind_some]
  obtain ⟨h', e, s⟩ := propagate_node he (copies dup cnt) hf
  refine ⟨h', ?_, s⟩
  rw [show (if dup = .count then cnt else 1) = copies dup cnt from rfl, e]
  rfl

/-! ### Removal -/

/-- The child that remains when a node with at most one child is removed. -/
def onlyChild (l r : Tree V) : Tree V := if l.isNil = true then r else l

theorem onlyChild_seq {l r : Tree V} (h : l = .nil ∨ r = .nil) : (onlyChild l r).seq = l.seq ++ r.seq := by
  rcases h with rfl | rfl
  · simp [onlyChild, Tree.isNil, Tree.seq]
  · cases l <;> simp [onlyChild, Tree.isNil, Tree.seq]

theorem onlyChild_size {l r : Tree V} (h : l = .nil ∨ r = .nil) : (onlyChild l r).size = l.size + r.size := by
  rw [size_total, onlyChild_seq h, total_append, size_total, size_total]

/-- The last part of `erase_node`. -/
def unlink (fuel : Nat) (h : Heap V) (p : Nat) (c : Int) : Option (Heap V × Nat) := do
  let n ← h p
  let zl ← isNil h n.left
  let ch := if !zl then n.left else n.right
  let par := n.parent
  let h ← makeLink h par ch p
  let h ← propagateSize h fuel par 0 (-c)
  let h ← h.free p
  some (h, par)

theorem unlink_spec {h : Heap V} {C : List (Frame V)} {p : Nat} {b c : Int} {v : V} {l r : Tree V} (he : Exact h (plug C (.node p b c v l r))) (hlr : l = .nil ∨ r = .nil) {fuel : Nat}
    (hf : C.length < fuel) : ∃ h', unlink fuel h p c = some (h', parOf C 0) ∧ Exact h' (plug C (onlyChild l r)) := by
  obtain ⟨hs, hp0, hP⟩ := he.sat_node
  have hpC : p ∉ 0 :: adC C := hs.disj (L1 := [_]) (k := .ctx C p (l.size + c + r.size)) (by simp) p (by simp [Chunk.ad])
  have hnil := Sat.nilAt hs
  have ol : Owns h p l := hs.tree (by simp)
  have orr : Owns h p r := hs.tree (by simp)
  have hch : (if (!l.isNil) = true then l.root else r.root) = (onlyChild l r).root := by
    rw [onlyChild]; cases l <;> simp [Tree.isNil]
  have hs1 : Sat h [.ctx C p (l.size + c + r.size), .tree p (onlyChild l r), .node p ⟨parOf C 0, l.root, r.root, b, l.size + c + r.size, some v⟩] := by
    refine hs.cast ?_ ?_
    · intro k hk
      simp only [List.mem_cons, List.not_mem_nil, or_false] at hk
      rcases hk with rfl | rfl | rfl
      · exact hs.ctx (by simp)
      · show Owns h p (onlyChild l r)
        rw [onlyChild]
        split
        · exact orr
        · exact ol
      · exact hs.at (L1 := [_])
    · rcases hlr with rfl | rfl
      · rw [show onlyChild (.nil : Tree V) r = r from rfl]; ads
      · cases l with
        | nil => rw [show onlyChild (.nil : Tree V) .nil = .nil from rfl]; ads
        | node a' b' c' v' l' r' => rw [show onlyChild (.node a' b' c' v' l' r') .nil = .node a' b' c' v' l' r' from rfl]; ads
  have hPo : parOf C 0 ∉ (onlyChild l r).ad := by
    intro hx
    refine hs1.disj (L1 := [_]) (k := .ctx C p (l.size + c + r.size)) (by simp) (parOf C 0) hx ?_
    rcases parOf_mem C 0 with e | e
    · simp [Chunk.ad, e]
    · simp [Chunk.ad, e]
  rw [unlink, hs.at (L1 := [_])]
  simp only [Option.bind_eq_bind, Option.bind_some]
  rw [(ol.isNil hnil).1]
  simp only [Option.bind_some]
  rw [hch, makeLink_eq]
  obtain ⟨h1, e1, s1⟩ := hs1.linkCtx (L1 := []) (onlyChild l r).root hp0 (fun e => hpC (by simp [e]))
  rw [e1]
  simp only [Option.bind_some]
  obtain ⟨h2, e2, s2⟩ := s1.adoptTree (L1 := [_]) hPo (Sat.nilAt s1)
  rw [e2]
  simp only [Option.bind_some]
  have hstep : ∃ h3, propagateSize h2 fuel (parOf C 0) 0 (-c) = some h3 ∧ Sat h3 [.ctx C (onlyChild l r).root (l.size + c + r.size + -c), .tree (parOf C 0) (onlyChild l r),
      .node p ⟨parOf C 0, l.root, r.root, b, l.size + c + r.size, some v⟩] := by
    rw [propagateSize]
    by_cases h0 : -c = 0
    · rw [if_pos h0, h0, Int.add_zero]
      exact ⟨h2, rfl, s2⟩
    · rw [if_neg h0]
      exact s2.propagateCtx (L1 := []) (-c) hf
  obtain ⟨h3, e3, s3⟩ := hstep
  rw [e3]
  simp only [Option.bind_some]
  obtain ⟨h4, e4, s4⟩ := s3.free (L1 := [_, _])
  rw [e4]
  simp only [Option.bind_some]
  refine ⟨h4, rfl, Exact.sat.mpr ?_⟩
  rw [onlyChild_size hlr]
  rw [show l.size + c + r.size + -c = l.size + r.size by ring] at s4
  exact s4

theorem leftmost : ∀ t : Tree V, t ≠ .nil → ∃ Kf d b c v E, t = plug Kf (.node d b c v .nil E) ∧ t.seq = (d, v, c) :: (E.seq ++ suf Kf) ∧ pre Kf = []
  | .nil, h => absurd rfl h
  | .node a b c v l r, _ => by
    by_cases hl : l = .nil
    · subst hl
      exact ⟨[], a, b, c, v, r, rfl, by simp [Tree.seq, suf], rfl⟩
    · obtain ⟨Kf, d, b', c', v', E, e1, e2, e3⟩ := leftmost l hl
      have h1 : Tree.node a b c v l r = plug (Kf ++ [.L a b c v r]) (.node d b' c' v' .nil E) := by rw [plug_append, ← e1]; rfl
      have h2 : pre (Kf ++ [.L a b c v r]) = [] ∧ suf (Kf ++ [.L a b c v r]) = suf Kf ++ (a, v, c) :: r.seq := by
        clear h1 e1 e2
        induction Kf with
        | nil => simp [pre, suf]
        | cons f Kf ih =>
          cases f with
          | L a1 b1 c1 v1 r1 =>
            rw [pre] at e3
            obtain ⟨i1, i2⟩ := ih e3
            rw [List.cons_append, pre, suf, i1, i2]
            simp [suf]
          | R a1 b1 c1 v1 l1 => simp [pre] at e3
      refine ⟨_, d, b', c', v', E, h1, ?_, h2.1⟩
      rw [h2.2, Tree.seq, e2]
      simp

/-- `erase_node` of an element that has more copies. -/
theorem eraseNode_less {dup : Dup} {h : Heap V} {C : List (Frame V)} {p : Nat} {b c : Int} {v : V} {l r : Tree V} (he : Exact h (plug C (.node p b c v l r))) {cnt : Int}
    (hc : copies dup cnt < c) {fuel : Nat} (hf : C.length + 1 < fuel) :
    ∃ h', eraseNode dup fuel h p cnt = some (h', p) ∧ Exact h' (plug C (.node p b (c - copies dup cnt) v l r)) := by
  obtain ⟨h1, h2, h3, h4, h5, h6, -⟩ := he.rep.node
  obtain ⟨h', e, s⟩ := propagate_node he (-copies dup cnt) hf
  refine ⟨h', ?_, by rw [Int.sub_eq_add_neg]; exact s⟩
  rw [eraseNode, isNil, h3]
  simp only [Option.bind_eq_bind, Option.bind_some]
  rw [if_neg (by simpa using h6), count_node he]
  simp only [Option.bind_some]
  rw [show (if dup = .count then cnt else 1) = copies dup cnt from rfl, if_pos hc, e]
  rfl

/-- `erase_node` of an element with at most one child. -/
theorem eraseNode_small {dup : Dup} {h : Heap V} {C : List (Frame V)} {p : Nat} {b c : Int} {v : V} {l r : Tree V} (he : Exact h (plug C (.node p b c v l r))) {cnt : Int}
    (hc : ¬copies dup cnt < c) (hlr : l = .nil ∨ r = .nil) {fuel : Nat} (hf : C.length < fuel) :
    ∃ h', eraseNode dup fuel h p cnt = some (h', parOf C 0) ∧ Exact h' (plug C (onlyChild l r)) := by
  obtain ⟨h1, h2, h3, h4, h5, h6, -⟩ := he.rep.node
  obtain ⟨h', e, s⟩ := unlink_spec he hlr hf
  refine ⟨h', ?_, s⟩
  rw [eraseNode, isNil, h3]
  simp only [Option.bind_eq_bind, Option.bind_some]
  rw [if_neg (by simpa using h6), count_node he]
  simp only [Option.bind_some]
  rw [show (if dup = .count then cnt else 1) = copies dup cnt from rfl, if_neg hc, (h4.isNil h1.nil).1, (h5.isNil h1.nil).1]
  simp only [Option.bind_some]
  rw [if_neg (by rcases hlr with rfl | rfl <;> simp [Tree.isNil])]
  exact e

/-- `erase_node` of an element with two children. -/
theorem eraseNode_big {dup : Dup} {h : Heap V} {C : List (Frame V)} {p : Nat} {b c : Int} {v : V} {l r : Tree V} (he : Exact h (plug C (.node p b c v l r))) {cnt : Int}
    (hc : ¬copies dup cnt < c) (hl : l ≠ .nil) (hr : r ≠ .nil) {fuel : Nat} (hf : (plug C (.node p b c v l r)).nodes < fuel) :
    ∃ h' q t', eraseNode dup fuel h p cnt = some (h', q) ∧ Exact h' t' ∧ t'.seq = (pre C ++ l.seq) ++ (r.seq ++ suf C) := by
  obtain ⟨h1, h2, h3, h4, h5, h6, -⟩ := he.rep.node
  have hnext := inorderNext_node he.rep (fuel := fuel) (by omega)
  rw [first_append (fun e => hr (seq_eq_nil.mp e))] at hnext
  obtain ⟨Kf, d, bd, cd, vd, E, e1, e2, e3⟩ := leftmost r hr
  have hd : first r.seq = d := by rw [e2]; rfl
  rw [hd] at hnext
  rw [plug_nodes] at hf
  have hlenK : Kf.length + 1 ≤ r.nodes := by
    rw [e1, plug_nodes]
    have := adC_length Kf
    simp only [Tree.nodes, Tree.ad, List.length_cons]
    omega
  have hlenC := adC_length C
  simp only [Tree.nodes, Tree.ad, List.length_cons, List.length_append] at hf hlenK
  have he' : Exact h (plug C (.node p b c v l (plug Kf (.node d bd cd vd .nil E)))) := by rw [← e1]; exact he
  obtain ⟨h', i1, i2⟩ := swap_spec he' (fuel := fuel) (by omega)
  have i3 : Exact h' (plug (Kf ++ .R d b cd vd l :: C) (.node p bd c v .nil E)) := by rw [plug_append]; exact i2
  obtain ⟨h'', j1, j2⟩ := unlink_spec i3 (Or.inl rfl) (fuel := fuel) (by rw [List.length_append, List.length_cons]; omega)
  refine ⟨h'', parOf (Kf ++ .R d b cd vd l :: C) 0, _, ?_, j2, ?_⟩
  · rw [eraseNode, isNil, h3]
    simp only [Option.bind_eq_bind, Option.bind_some]
    rw [if_neg (by simpa using h6), count_node he]
    simp only [Option.bind_some]
    rw [show (if dup = .count then cnt else 1) = copies dup cnt from rfl, if_neg hc, (h4.isNil h1.nil).1, (h5.isNil h1.nil).1]
    simp only [Option.bind_some]
    have : l.isNil = false ∧ r.isNil = false := by
      constructor
      · cases l with
        | nil => exact absurd rfl hl
        | node => rfl
      · cases r with
        | nil => exact absurd rfl hr
        | node => rfl
    rw [if_pos (by rw [this.1, this.2]; rfl), hnext]
    simp only [Option.bind_some]
    rw [i1]
    simp only [Option.bind_some]
    exact j1
  · rw [plug_append, plug, plug_seq, Frame.fill, Tree.seq, plug_seq, e3, e2, onlyChild_seq (Or.inl rfl), Tree.seq]
    simp

end Altruct.BST
