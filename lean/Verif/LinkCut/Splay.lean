/-
Splaying a node to the root of its tree.
-/
import Verif.LinkCut.Tree

namespace Altruct.LinkCut

variable {T M : Type} {own agg : T → M} {fup : T → T → T → T} {id : T} {mul : M → M → M} {one : M}

/-- The product of the own values in a sequence. -/
def aggS (mul : M → M → M) (one : M) (s : List (Nat × M)) : M := s.foldr (fun e m => mul e.2 m) one

/-- All aggregates of a tree are right. -/
def Ok (own agg : T → M) (mul : M → M → M) (one : M) : Tree T → Prop
  | .nil => True
  | .node a v l r => agg v = aggS mul one ((Tree.node a v l r).seq own) ∧ Ok own agg mul one l ∧ Ok own agg mul one r

/-- All aggregates of a tree except at the root are right. -/
def OkB (own agg : T → M) (mul : M → M → M) (one : M) : Tree T → Prop
  | .nil => True
  | .node _ _ l r => Ok own agg mul one l ∧ Ok own agg mul one r

theorem aggS_append (hA : AggOK own agg fup id mul one) (s u : List (Nat × M)) : aggS mul one (s ++ u) = mul (aggS mul one s) (aggS mul one u) := by
  induction s with
  | nil => simp [aggS, hA.one_mul]
  | cons e s ih => change mul e.2 (aggS mul one (s ++ u)) = mul (mul e.2 (aggS mul one s)) _; rw [ih, hA.assoc]

theorem Ok.okB {t : Tree T} (h : Ok own agg mul one t) : OkB own agg mul one t := by
  cases t with
  | nil => trivial
  | node a v l r => exact h.2

theorem Ok.val (hA : AggOK own agg fup id mul one) {t : Tree T} (h : Ok own agg mul one t) : agg (t.val id) = aggS mul one (t.seq own) := by
  cases t with
  | nil => exact hA.agg_id
  | node a v l r => exact h.1

/-- A node with updated aggregate. -/
theorem ok_update (hA : AggOK own agg fup id mul one) {a : Nat} {v : T} {l r : Tree T} (hl : Ok own agg mul one l) (hr : Ok own agg mul one r) :
    Ok own agg mul one (.node a (fup v (l.val id) (r.val id)) l r) := by
  refine ⟨?_, hl, hr⟩
  rw [hA.agg_fup, hl.val hA, hr.val hA, Tree.seq, aggS_append hA, hA.own_fup, hA.assoc]
  rfl

theorem rot_seq (hA : AggOK own agg fup id mul one) (f : Frame T) (x : Nat) (v : T) (a b : Tree T) : (rotT fup id f x v a b).seq own = (f.fill (.node x v a b)).seq own := by
  cases f <;> simp [rotT, Frame.fill, Tree.seq, hA.own_fup]

theorem rot_ok (hA : AggOK own agg fup id mul one) {f : Frame T} {x : Nat} {v : T} {a b : Tree T} (hf : OkB own agg mul one (f.fill (.node x v a b))) :
    Ok own agg mul one (rotT fup id f x v a b) := by
  cases f with
  | L p vp c =>
    obtain ⟨⟨-, h1, h2⟩, h3⟩ := hf
    exact ok_update hA h1 (ok_update hA h2 h3)
  | R p vp c =>
    obtain ⟨h3, -, h1, h2⟩ := hf
    exact ok_update hA (ok_update hA h3 h1) h2

theorem plug_ok {C : List (Frame T)} : ∀ {t : Tree T}, OkB own agg mul one (plug C t) → OkB own agg mul one t ∧ (C ≠ [] → Ok own agg mul one t) := by
  induction C with
  | nil => exact fun h => ⟨h, fun h => absurd rfl h⟩
  | cons f C ih =>
    intro t h
    have h1 : Ok own agg mul one t := by
      have := (ih h).1
      cases f with
      | L a v r => exact this.1
      | R a v l => exact this.2
    exact ⟨h1.okB, fun _ => h1⟩

theorem plug_ok_change {C : List (Frame T)} : ∀ {t t' : Tree T}, OkB own agg mul one (plug C t) → t'.seq own = t.seq own → Ok own agg mul one t' → OkB own agg mul one (plug C t') := by
  have main : ∀ (C : List (Frame T)) (t t' : Tree T), OkB own agg mul one (plug C t) → t'.seq own = t.seq own → OkB own agg mul one t' → (C ≠ [] → Ok own agg mul one t') → OkB own agg mul one (plug C t') := by
    intro C
    induction C with
    | nil => exact fun t t' _ _ h _ => h
    | cons f C ih =>
      intro t t' h hs hb ho
      replace ho := ho (by simp)
      obtain ⟨k1, k2⟩ := plug_ok (C := C) h
      refine ih (f.fill t) (f.fill t') h ?_ ?_ ?_
      · cases f <;> simp [Frame.fill, Tree.seq, hs]
      · cases f with
        | L a v r => exact ⟨ho, k1.2⟩
        | R a v l => exact ⟨k1.1, ho⟩
      · intro hC
        replace k2 := k2 hC
        cases f with
        | L a v r => exact ⟨by rw [k2.1]; simp [Frame.fill, Tree.seq, hs], ho, k2.2.2⟩
        | R a v l => exact ⟨by rw [k2.1]; simp [Frame.fill, Tree.seq, hs], k2.2.1, ho⟩
  exact fun {t t'} h hs ho => main C t t' h hs ho.okB (fun _ => ho)

theorem isRoot_top {h : Heap T} {q x : Nat} {v : T} {a b : Tree T} {R : List (Nat × Node T)} (hs : Sat h ((Tree.node x v a b).cells q ++ R)) (hf : Free R q (Tree.node x v a b).ad) :
    isRoot h x = some true := by
  obtain ⟨g, g1, g2⟩ := hf
  obtain ⟨g3, g4⟩ := g2 x (by simp [Tree.ad])
  rw [isRoot, hs.read (a := x) (n := ⟨q, a.root, b.root, a.size + b.size + 1, v⟩) (by simp [Tree.cells])]
  simp only [Option.bind_eq_bind, Option.bind_some]
  rw [hs.read (a := q) (n := g) (by simp [g1])]
  simp [Ne.symm g3, Ne.symm g4]

theorem plug_mem {C : List (Frame T)} {t : Tree T} {q : Nat} {R : List (Nat × Node T)} {c : Nat × Node T} (hc : c ∈ t.cells (parOf C q) ++ cellsC q C t.root t.size) :
    c ∈ (plug C t).cells q ++ R := List.mem_append_left _ ((plug_cells C t).mem_iff.mpr hc)

theorem isRoot_in {h : Heap T} {q x : Nat} {v : T} {a b : Tree T} {f : Frame T} {C : List (Frame T)} {R : List (Nat × Node T)} (hs : Sat h ((plug (f :: C) (.node x v a b)).cells q ++ R)) :
    isRoot h x = some false := by
  rw [isRoot, hs.read (a := x) (n := ⟨f.a, a.root, b.root, a.size + b.size + 1, v⟩) (plug_mem (by simp [Tree.cells, parOf]))]
  simp only [Option.bind_eq_bind, Option.bind_some]
  cases f with
  | L p w c =>
    rw [show (Frame.L p w c).a = p from rfl, hs.read (a := p) (n := ⟨parOf C q, x, c.root, a.size + b.size + 1 + c.size + 1, w⟩) (plug_mem (by simp [cellsC, Frame.cell, root_node, Tree.size]))]
    simp
  | R p w c =>
    rw [show (Frame.R p w c).a = p from rfl, hs.read (a := p) (n := ⟨parOf C q, c.root, x, c.size + (a.size + b.size + 1) + 1, w⟩) (plug_mem (by simp [cellsC, Frame.cell, root_node, Tree.size]))]
    simp

theorem free_seq {R : List (Nat × Node T)} {q : Nat} (own : T → M) {t t' : Tree T} (hf : Free R q t.ad) (hs : t'.seq own = t.seq own) : Free R q t'.ad := by
  obtain ⟨g, g1, g2⟩ := hf
  refine ⟨g, g1, fun y hy => g2 y ?_⟩
  rw [mem_ad (own := own)] at hy ⊢
  rwa [← hs]

theorem zero_not_mem {h : Heap T} {t : Tree T} {q : Nat} {R : List (Nat × Node T)} (hs : Sat h (t.cells q ++ R)) (hn : nilCell id ∈ R) : ∀ y ∈ t.ad, y ≠ 0 := by
  rintro y hy rfl
  have hd := hs.nodup
  rw [List.map_append, List.nodup_append] at hd
  exact hd.2.2 0 (by rw [cells_ad]; exact hy) 0 (List.mem_map.mpr ⟨_, hn, rfl⟩) rfl

/-- One rotation, with everything that it keeps. -/
theorem rotate_keeps (hA : AggOK own agg fup id mul one) {h : Heap T} {q : Nat} {C : List (Frame T)} {f : Frame T} {x : Nat} {v : T} {a b : Tree T} {R : List (Nat × Node T)}
    (hs : Sat h ((plug (f :: C) (.node x v a b)).cells q ++ R)) (hn : nilCell id ∈ R) (hf : Free R q (plug (f :: C) (.node x v a b)).ad) :
    ∃ h', rotate fup h x = some h' ∧ Sat h' ((plug C (rotT fup id f x v a b)).cells q ++ R) ∧ (plug C (rotT fup id f x v a b)).seq own = (plug (f :: C) (.node x v a b)).seq own ∧
      Free R q (plug C (rotT fup id f x v a b)).ad ∧
      (OkB own agg mul one (plug (f :: C) (.node x v a b)) → OkB own agg mul one (plug C (rotT fup id f x v a b)) ∧ Ok own agg mul one (rotT fup id f x v a b)) := by
  obtain ⟨h', e1, e2⟩ := rotate_spec (fup := fup) hs hn hf
  have hseq : (plug C (rotT fup id f x v a b)).seq own = (plug (f :: C) (.node x v a b)).seq own := by
    rw [plug, plug_seq, plug_seq, rot_seq hA]
  refine ⟨h', e1, e2, hseq, free_seq own hf hseq, ?_⟩
  intro ho
  have := rot_ok hA (plug_ok (C := C) ho).1
  exact ⟨plug_ok_change (C := C) ho (rot_seq hA ..) this, this⟩

/-- The subtree is the left child. -/
def Frame.isL : Frame T → Bool
  | .L .. => true
  | .R .. => false

theorem side_read {h : Heap T} {q x : Nat} {v : T} {a b : Tree T} {f : Frame T} {C : List (Frame T)} {R : List (Nat × Node T)} (hs : Sat h ((plug (f :: C) (.node x v a b)).cells q ++ R)) (hx0 : x ≠ 0) :
    ∃ np, h f.a = some np ∧ np.parent = parOf C q ∧ (x == np.left) = f.isL := by
  cases f with
  | L p w c => exact ⟨_, hs.read (a := p) (n := ⟨parOf C q, x, c.root, a.size + b.size + 1 + c.size + 1, w⟩) (plug_mem (by simp [cellsC, Frame.cell, root_node, Tree.size])), rfl, by simp [Frame.isL]⟩
  | R p w c =>
    refine ⟨_, hs.read (a := p) (n := ⟨parOf C q, c.root, x, c.size + (a.size + b.size + 1) + 1, w⟩) (plug_mem (by simp [cellsC, Frame.cell, root_node, Tree.size])), rfl, ?_⟩
    have hs1 := hs.perm ((plug_cells (.R p w c :: C) (.node x v a b)).append_right R)
    simp only [Tree.cells, cellsC, Frame.t, Frame.a, Frame.cell, List.cons_append] at hs1
    have hd := hs1.nodup
    simp only [List.map_cons, List.nodup_cons] at hd
    rw [Frame.isL, beq_eq_false_iff_ne]
    intro he
    apply hd.1
    simp only at he
    have hm := root_mem (t := c) (by rw [← he]; exact hx0)
    rw [← he, ← cells_ad (q := p)] at hm
    simp only [List.map_append, List.mem_append, List.map_cons, List.mem_cons]
    tauto

theorem splay_spec (hA : AggOK own agg fup id mul one) {q : Nat} {R : List (Nat × Node T)} (hn : nilCell id ∈ R) {x : Nat} : ∀ (fuel : Nat) (C : List (Frame T)) (h : Heap T) (v : T) (a b : Tree T),
    C.length < fuel → Sat h ((plug C (.node x v a b)).cells q ++ R) → Free R q (plug C (.node x v a b)).ad →
    ∃ h' v' a' b', splay fup fuel h x = some h' ∧ Sat h' ((Tree.node x v' a' b').cells q ++ R) ∧ (Tree.node x v' a' b').seq own = (plug C (.node x v a b)).seq own ∧
      (OkB own agg mul one (plug C (.node x v a b)) → OkB own agg mul one (.node x v' a' b') ∧ (C ≠ [] ∨ Ok own agg mul one (.node x v a b) → Ok own agg mul one (.node x v' a' b')))
  | 0, C, h, v, a, b, hf, hs, hq => by omega
  | fuel + 1, C, h, v, a, b, hf, hs, hq => by
    have hx0 : x ≠ 0 := zero_not_mem hs hn x (by
      rw [mem_ad (own := own), plug_seq]; simp [Tree.seq])
    rw [splay]
    match C with
    | [] =>
      refine ⟨h, v, a, b, ?_, hs, rfl, fun ho => ⟨ho, fun h => h.elim (fun h => absurd rfl h) (fun h => h)⟩⟩
      rw [if_neg hx0, isRoot_top hs hq]
      rfl
    | f :: C =>
      rw [if_neg hx0, isRoot_in hs]
      simp only [Option.bind_eq_bind, Option.bind_some, Bool.false_eq_true, if_false]
      rw [hs.read (a := x) (n := ⟨f.a, a.root, b.root, a.size + b.size + 1, v⟩) (plug_mem (by simp [Tree.cells, parOf]))]
      simp only [Option.bind_some]
      obtain ⟨np, rp, rpp, rpl⟩ := side_read hs hx0
      rw [rp]
      simp only [Option.bind_some]
      have hrot : ∀ (f : Frame T) (v : T) (a b : Tree T), ∃ w a' b', rotT fup id f x v a b = .node x w a' b' := fun f v a b => by cases f <;> exact ⟨_, _, _, rfl⟩
      match C with
      | [] =>
        obtain ⟨g, g1, g2⟩ := hq
        have rg : h q = some g := hs.read (by simp [g1])
        rw [rpp]
        simp only [parOf]
        rw [rg]
        simp only [Option.bind_some]
        have hpr : isRoot h f.a = some true := by
          cases f with
          | L p w c => exact isRoot_top hs ⟨g, g1, g2⟩
          | R p w c => exact isRoot_top hs ⟨g, g1, g2⟩
        rw [hpr]
        simp only [Option.bind_some, Bool.not_true, Bool.false_eq_true, if_false]
        obtain ⟨h1, e1, e2, e3, e4, e5⟩ := rotate_keeps hA hs hn ⟨g, g1, g2⟩
        rw [e1]
        simp only [Option.bind_some]
        obtain ⟨w, a', b', hr⟩ := hrot f v a b
        rw [hr] at e2 e3 e4 e5
        obtain ⟨h2, v2, a2, b2, k1, k2, k3, k4⟩ := splay_spec hA hn fuel [] h1 w a' b' (by simp at hf ⊢; omega) e2 e4
        exact ⟨h2, v2, a2, b2, k1, k2, k3.trans e3, fun ho => ⟨(k4 (e5 ho).1).1, fun _ => (k4 (e5 ho).1).2 (.inr (e5 ho).2)⟩⟩
      | g :: C =>
        have finish : ∀ (f' : Frame T) (h1 : Heap T) (w : T) (a' b' : Tree T), Sat h1 ((plug (f' :: C) (.node x w a' b')).cells q ++ R) →
            (plug (f' :: C) (.node x w a' b')).seq own = (plug (f :: g :: C) (.node x v a b)).seq own → Free R q (plug (f' :: C) (.node x w a' b')).ad →
            (OkB own agg mul one (plug (f :: g :: C) (.node x v a b)) → OkB own agg mul one (plug (f' :: C) (.node x w a' b'))) →
            ∃ h' v' a' b', ((rotate fup h1 x).bind fun h => splay fup fuel h x) = some h' ∧ Sat h' ((Tree.node x v' a' b').cells q ++ R) ∧
              (Tree.node x v' a' b').seq own = (plug (f :: g :: C) (.node x v a b)).seq own ∧
              (OkB own agg mul one (plug (f :: g :: C) (.node x v a b)) → OkB own agg mul one (.node x v' a' b') ∧ (f :: g :: C ≠ [] ∨ Ok own agg mul one (.node x v a b) → Ok own agg mul one (.node x v' a' b'))) := by
          intro f' h1 w a' b' c1 c2 c3 c4
          obtain ⟨h2, e1, e2, e3, e4, e5⟩ := rotate_keeps hA c1 hn c3
          rw [e1]
          simp only [Option.bind_some]
          obtain ⟨w2, a2, b2, hr⟩ := hrot f' w a' b'
          rw [hr] at e2 e3 e4 e5
          obtain ⟨h3, v3, a3, b3, k1, k2, k3, k4⟩ := splay_spec hA hn fuel C h2 w2 a2 b2 (by simp at hf; omega) e2 e4
          exact ⟨h3, v3, a3, b3, k1, k2, k3.trans (e3.trans c2), fun ho => ⟨(k4 (e5 (c4 ho)).1).1, fun _ => (k4 (e5 (c4 ho)).1).2 (.inr (e5 (c4 ho)).2)⟩⟩
        obtain ⟨pv, pl, pr, hfill⟩ : ∃ pv pl pr, f.fill (.node x v a b) = .node f.a pv pl pr := by cases f <;> exact ⟨_, _, _, rfl⟩
        have hplug : plug (f :: g :: C) (.node x v a b) = plug (g :: C) (.node f.a pv pl pr) := by rw [plug, hfill]
        have hs' := hs
        have hq' := hq
        rw [hplug] at hs' hq'
        have hp0 : f.a ≠ 0 := zero_not_mem hs' hn f.a (by
          rw [mem_ad (own := own), plug_seq]; simp [Tree.seq])
        obtain ⟨ng, rg, -, rgl⟩ := side_read hs' hp0
        rw [rpp, show parOf (g :: C) q = g.a from rfl, rg]
        simp only [Option.bind_some]
        rw [isRoot_in hs', rpl, rgl]
        simp only [Option.bind_some, Bool.not_false, if_true]
        by_cases hz : f.isL = g.isL
        · rw [if_pos (by simp [hz])]
          obtain ⟨h1, e1, e2, e3, e4, e5⟩ := rotate_keeps hA hs' hn hq'
          rw [e1]
          simp only [Option.bind_some]
          obtain ⟨f', hf'⟩ : ∃ f' : Frame T, rotT fup id g f.a pv pl pr = f'.fill (.node x v a b) := by
            cases f with
            | L p1 v1 c1 =>
              cases hfill
              cases g with
              | L p2 v2 c2 => exact ⟨.L p1 _ _, rfl⟩
              | R p2 v2 c2 => cases hz
            | R p1 v1 c1 =>
              cases hfill
              cases g with
              | L p2 v2 c2 => cases hz
              | R p2 v2 c2 => exact ⟨.R p1 _ _, rfl⟩
          rw [hf'] at e2 e3 e4 e5
          exact finish f' h1 v a b e2 (e3.trans (by rw [hplug])) e4 (fun ho => (e5 (by rwa [← hplug])).1)
        · rw [if_neg (by simp [hz])]
          obtain ⟨h1, e1, e2, e3, e4, e5⟩ := rotate_keeps hA hs hn hq
          rw [e1]
          simp only [Option.bind_some]
          obtain ⟨w, a', b', hr⟩ := hrot f v a b
          rw [hr] at e2 e3 e4 e5
          exact finish g h1 w a' b' e2 e3 e4 (fun ho => (e5 ho).1)

end Altruct.LinkCut
