/-
Rotations by priorities keep the elements and restore the heap order.
-/
import Verif.Treap.Model
import Verif.BST.Props

namespace Altruct.Treap

open Altruct.BST

variable {V K : Type}

/-- The priority of the root is at least `b`. -/
def Above (b : Int) : Tree V → Prop
  | .nil => True
  | .node _ b' _ _ _ _ => b ≤ b'

/-- The priorities do not decrease on the way down. -/
def HeapT : Tree V → Prop
  | .nil => True
  | .node _ b _ _ l r => Above b l ∧ Above b r ∧ HeapT l ∧ HeapT r

/-- The priority of a frame. -/
def fb : Frame V → Int
  | .L _ b _ _ _ => b
  | .R _ b _ _ _ => b

/-- The priority of the end of the path is at most that of the root of the tree. -/
def AboveC : List (Frame V) → Tree V → Prop
  | [], _ => True
  | f :: _, t => Above (fb f) t

/-- The priority of the end of the path is at most `b`. -/
def TopLe : List (Frame V) → Int → Prop
  | [], _ => True
  | f :: _, b => fb f ≤ b

/-- The heap order along a path and beside it. -/
def HeapC : List (Frame V) → Prop
  | [] => True
  | f :: C => Above (fb f) f.t ∧ HeapT f.t ∧ TopLe C (fb f) ∧ HeapC C

theorem Above.trans {a b : Int} {t : Tree V} (hab : a ≤ b) (h : Above b t) : Above a t := by
  cases t with
  | nil => trivial
  | node _ _ _ _ _ _ => exact Int.le_trans hab h

theorem AboveC.of {C : List (Frame V)} {b : Int} {t : Tree V} (hab : TopLe C b) (h : Above b t) : AboveC C t := by
  cases C with
  | nil => trivial
  | cons f C => exact h.trans hab

theorem heapT_plug : ∀ (C : List (Frame V)) (t : Tree V), HeapT (plug C t) ↔ HeapT t ∧ HeapC C ∧ AboveC C t
  | [], t => by simp [plug, HeapC, AboveC]
  | .L a b c v r :: C, t => by
    rw [plug, heapT_plug C]
    simp only [Frame.fill, HeapT, HeapC, Frame.t]
    change (_ ∧ _ ∧ AboveC C (Tree.node a b c v t r)) ↔ HeapT t ∧ (Above b r ∧ HeapT r ∧ TopLe C b ∧ HeapC C) ∧ Above b t
    have : AboveC C (Tree.node a b c v t r) ↔ TopLe C b := by cases C <;> simp [AboveC, TopLe, Above]
    rw [this]
    tauto
  | .R a b c v l :: C, t => by
    rw [plug, heapT_plug C]
    simp only [Frame.fill, HeapT, HeapC, Frame.t]
    change (_ ∧ _ ∧ AboveC C (Tree.node a b c v l t)) ↔ HeapT t ∧ (Above b l ∧ HeapT l ∧ TopLe C b ∧ HeapC C) ∧ Above b t
    have : AboveC C (Tree.node a b c v l t) ↔ TopLe C b := by cases C <;> simp [AboveC, TopLe, Above]
    rw [this]
    tauto

theorem setBalance_spec {h : Heap V} {C : List (Frame V)} {p : Nat} {b c : Int} {v : V} {l r : Tree V} (he : Exact h (plug C (.node p b c v l r))) (x : Int) :
    ∃ h', setBalance h p x = some h' ∧ Exact h' (plug C (.node p x c v l r)) := by
  obtain ⟨hs, hp0, hP⟩ := he.sat_node
  obtain ⟨h', e, s⟩ := Sat.setBalance (L1 := [_]) hs x
  exact ⟨h', e, Exact.of_sat_node s hp0 hP rfl⟩

/-- `retrace_up` after the priority is set. -/
theorem upLoop_spec {p : Nat} {b c : Int} {v : V} (hb : 0 ≤ b) : ∀ (C : List (Frame V)) (l r : Tree V) (h : Heap V) (fuel : Nat), Exact h (plug C (.node p b c v l r)) → C.length < fuel →
    ∃ h' t', upLoop p fuel h = some h' ∧ Exact h' t' ∧ t'.seq = pre C ++ l.seq ++ (p, v, c) :: (r.seq ++ suf C) ∧
      (HeapC C → HeapT l → HeapT r → Above b l → Above b r → AboveC C l → AboveC C r → HeapT t')
  | [], l, r, h, fuel, he, hf => by
    obtain ⟨h1, h2, h3, h4, h5, h6, -⟩ := he.rep.node
    obtain ⟨fuel, rfl⟩ : ∃ k, fuel = k + 1 := ⟨fuel - 1, by simp at hf; omega⟩
    refine ⟨h, _, ?_, he, by simp [plug, Tree.seq, pre, suf], ?_⟩
    · rw [upLoop, h3]
      simp only [Option.bind_eq_bind, Option.bind_some, parOf]
      rw [h1.nil]
      simp only [Option.bind_some]
      rw [if_neg (by omega)]
    · intro _ a1 a2 a3 a4 _ _
      exact ⟨a3, a4, a1, a2⟩
  | .L a b' c' v' r' :: C, l, r, h, fuel, he, hf => by
    obtain ⟨h1, h2, h3, h4, h5, h6, -⟩ := he.rep.node
    have he' : Exact h (plug C (.node a b' c' v' (.node p b c v l r) r')) := he
    obtain ⟨g1, g2, g3, g4, g5, g6, g7⟩ := he'.rep.node
    obtain ⟨fuel, rfl⟩ : ∃ k, fuel = k + 1 := ⟨fuel - 1, by simp at hf; omega⟩
    simp only [List.length_cons] at hf
    rw [upLoop, h3]
    simp only [Option.bind_eq_bind, Option.bind_some, parOf, Frame.a]
    rw [g3]
    simp only [Option.bind_some]
    by_cases hlt : b < b'
    · rw [if_pos hlt, if_pos (show (Tree.node p b c v l r).root = p from rfl)]
      obtain ⟨h', e, s⟩ := rotateRight_spec he'
      rw [e]
      simp only [Option.bind_some]
      obtain ⟨h'', t', j1, j2, j3, j4⟩ := upLoop_spec hb C l (.node a b' c' v' r r') h' fuel s (by omega)
      refine ⟨h'', t', j1, j2, ?_, ?_⟩
      · rw [j3]; simp [Tree.seq, pre, suf]
      · rintro ⟨k1, k2, k3, k4⟩ a1 a2 a3 a4 a5 a6
        refine j4 k4 a1 ⟨a6, k1, a2, k2⟩ a3 (by simp only [Above]; omega) (AboveC.of k3 a5) (AboveC.of k3 ?_)
        simp [Above, fb]
    · rw [if_neg hlt]
      refine ⟨h, _, rfl, he, ?_, ?_⟩
      · rw [plug_seq]; simp [Tree.seq]
      · intro k a1 a2 a3 a4 a5 a6
        exact (heapT_plug _ _).mpr ⟨⟨a3, a4, a1, a2⟩, k, by simp only [AboveC, Above, fb]; omega⟩
  | .R a b' c' v' l' :: C, l, r, h, fuel, he, hf => by
    obtain ⟨h1, h2, h3, h4, h5, h6, -⟩ := he.rep.node
    have he' : Exact h (plug C (.node a b' c' v' l' (.node p b c v l r))) := he
    obtain ⟨g1, g2, g3, g4, g5, g6, g7⟩ := he'.rep.node
    obtain ⟨fuel, rfl⟩ : ∃ k, fuel = k + 1 := ⟨fuel - 1, by simp at hf; omega⟩
    simp only [List.length_cons] at hf
    have hne : l'.root ≠ p := by
      intro e
      cases l' with
      | nil => exact h2 e.symm
      | node q _ _ _ _ _ =>
        rw [show (Tree.node q _ _ _ _ _).root = q from rfl] at e
        subst e
        simp [Tree.ad] at g7
    rw [upLoop, h3]
    simp only [Option.bind_eq_bind, Option.bind_some, parOf, Frame.a]
    rw [g3]
    simp only [Option.bind_some]
    by_cases hlt : b < b'
    · rw [if_pos hlt, if_neg hne]
      obtain ⟨h', e, s⟩ := rotateLeft_spec he'
      rw [e]
      simp only [Option.bind_some]
      obtain ⟨h'', t', j1, j2, j3, j4⟩ := upLoop_spec hb C (.node a b' c' v' l' l) r h' fuel s (by omega)
      refine ⟨h'', t', j1, j2, ?_, ?_⟩
      · rw [j3]; simp [Tree.seq, pre, suf]
      · rintro ⟨k1, k2, k3, k4⟩ a1 a2 a3 a4 a5 a6
        refine j4 k4 ⟨k1, a5, k2, a1⟩ a2 (by simp only [Above]; omega) a4 (AboveC.of k3 ?_) (AboveC.of k3 a6)
        simp [Above, fb]
    · rw [if_neg hlt]
      refine ⟨h, _, rfl, he, ?_, ?_⟩
      · rw [plug_seq]; simp [Tree.seq]
      · intro k a1 a2 a3 a4 a5 a6
        exact (heapT_plug _ _).mpr ⟨⟨a3, a4, a1, a2⟩, k, by simp only [AboveC, Above, fb]; omega⟩

theorem retraceUp_spec {p : Nat} {b c : Int} {v : V} {rnd : Int} (hb : 0 ≤ rnd) {C : List (Frame V)} {l r : Tree V} {h : Heap V} {fuel : Nat} (he : Exact h (plug C (.node p b c v l r)))
    (hf : C.length < fuel) : ∃ h' t', retraceUp fuel h p rnd = some h' ∧ Exact h' t' ∧ t'.seq = (plug C (.node p b c v l r)).seq ∧
      (HeapC C → l = .nil → r = .nil → HeapT t') := by
  have hp := he.rep.node.2.1
  obtain ⟨h', e, s⟩ := setBalance_spec he rnd
  obtain ⟨h'', t', j1, j2, j3, j4⟩ := upLoop_spec hb C l r h' fuel s hf
  refine ⟨h'', t', ?_, j2, ?_, ?_⟩
  · rw [retraceUp, if_neg hp, e]
    exact j1
  · rw [j3, plug_seq]; simp [Tree.seq]
  · rintro k rfl rfl
    exact j4 k trivial trivial trivial trivial (by cases C <;> trivial) (by cases C <;> trivial)

/-- `retrace_down`. -/
theorem downLoop_spec {p : Nat} {b c : Int} {v : V} : ∀ (fuel : Nat) (C : List (Frame V)) (l r : Tree V) (h : Heap V), Exact h (plug C (.node p b c v l r)) → l.nodes + r.nodes < fuel →
    ∃ h' C' l' r', downLoop p fuel h = some h' ∧ Exact h' (plug C' (.node p b c v l' r')) ∧ (l' = .nil ∨ r' = .nil) ∧ pre C' ++ l'.seq = pre C ++ l.seq ∧ r'.seq ++ suf C' = r.seq ++ suf C ∧
      (HeapC C → HeapT l → HeapT r → AboveC C l → AboveC C r → HeapC C' ∧ HeapT l' ∧ HeapT r' ∧ AboveC C' l' ∧ AboveC C' r')
  | 0, C, l, r, h, he, hf => by omega
  | fuel + 1, C, l, r, h, he, hf => by
    obtain ⟨h1, h2, h3, h4, h5, h6, -⟩ := he.rep.node
    have hstop : (l = .nil ∨ r = .nil) → ∃ h' C' l' r', downLoop p (fuel + 1) h = some h' ∧ Exact h' (plug C' (.node p b c v l' r')) ∧ (l' = .nil ∨ r' = .nil) ∧ pre C' ++ l'.seq = pre C ++ l.seq ∧
        r'.seq ++ suf C' = r.seq ++ suf C ∧ (HeapC C → HeapT l → HeapT r → AboveC C l → AboveC C r → HeapC C' ∧ HeapT l' ∧ HeapT r' ∧ AboveC C' l' ∧ AboveC C' r') := by
      intro hlr
      refine ⟨h, C, l, r, ?_, he, hlr, rfl, rfl, fun a1 a2 a3 a4 a5 => ⟨a1, a2, a3, a4, a5⟩⟩
      rw [downLoop, h3]
      simp only [Option.bind_eq_bind, Option.bind_some]
      rw [if_neg]
      rintro ⟨k1, k2⟩
      rcases hlr with rfl | rfl
      · exact k1 rfl
      · exact k2 rfl
    match (generalizing := true) l, r with
    | .nil, r => exact hstop (Or.inl rfl)
    | l, .nil => exact hstop (Or.inr rfl)
    | .node q bq cq vq ll lr, .node q' bq' cq' vq' rl rr =>
      clear hstop
      obtain ⟨a1, a2, a3, a4, a5⟩ := h4
      obtain ⟨b1, b2, b3, b4, b5⟩ := h5
      rw [downLoop, h3]
      simp only [Option.bind_eq_bind, Option.bind_some, Tree.root]
      rw [if_pos ⟨a1, b1⟩, a3]
      simp only [Option.bind_some]
      rw [b3]
      simp only [Option.bind_some]
      simp only [Tree.nodes, Tree.ad, List.length_cons, List.length_append] at hf
      by_cases hlt : bq < bq'
      · rw [if_pos hlt]
        obtain ⟨h', e, s⟩ := rotateRight_spec he
        rw [e]
        simp only [Option.bind_some]
        obtain ⟨h'', C', l', r', j1, j2, j3, j4, j5, j6⟩ := downLoop_spec fuel (.R q bq cq vq ll :: C) lr (.node q' bq' cq' vq' rl rr) h' s (by
          simp only [Tree.nodes, Tree.ad, List.length_cons, List.length_append]; omega)
        refine ⟨h'', C', l', r', j1, j2, j3, ?_, ?_, ?_⟩
        · rw [j4]; simp [Tree.seq, pre]
        · rw [j5]; simp [suf]
        · rintro k1 ⟨k2, k3, k4, k5⟩ k6 k7 k8
          refine j6 ⟨k2, k4, ?_, k1⟩ k5 k6 k3 (by simp only [AboveC, Above, fb]; omega)
          cases C with
          | nil => trivial
          | cons f C => exact k7
      · rw [if_neg hlt]
        obtain ⟨h', e, s⟩ := rotateLeft_spec he
        rw [e]
        simp only [Option.bind_some]
        obtain ⟨h'', C', l', r', j1, j2, j3, j4, j5, j6⟩ := downLoop_spec fuel (.L q' bq' cq' vq' rr :: C) (.node q bq cq vq ll lr) rl h' s (by
          simp only [Tree.nodes, Tree.ad, List.length_cons, List.length_append]; omega)
        refine ⟨h'', C', l', r', j1, j2, j3, ?_, ?_, ?_⟩
        · rw [j4]; simp [pre]
        · rw [j5]; simp [suf, Tree.seq]
        · rintro k1 k2 ⟨k3, k4, k5, k6⟩ k7 k8
          refine j6 ⟨k4, k6, ?_, k1⟩ k2 k5 (by simp only [AboveC, Above, fb]; omega) k3
          cases C with
          | nil => trivial
          | cons f C => exact k8

theorem erase_spec {dup : Dup} {h : Heap V} {t : Tree V} (he : Exact h t) {s1 s2 : List (Entry V)} {p : Nat} {v : V} {c : Int} (hs : t.seq = s1 ++ (p, v, c) :: s2) (cnt : Int) {fuel : Nat}
    (hf : t.nodes + 1 < fuel) : ∃ h' t', erase dup fuel h p cnt = some h' ∧ Exact h' t' ∧
      t'.seq = s1 ++ (if copies dup cnt < c then [(p, v, c - copies dup cnt)] else []) ++ s2 ∧ (¬copies dup cnt < c → HeapT t → HeapT t') := by
  obtain ⟨C, b, l, r, rfl, rfl, rfl⟩ := he.rep.split hs
  have hp := he.rep.node.2.1
  have hlen := path_length (C := C) (t := .node p b c v l r)
  obtain ⟨h1, C', l', r', j1, j2, j3, j4, j5, j6⟩ := downLoop_spec fuel C l r h he (by simp only [Tree.nodes, Tree.ad, List.length_cons, List.length_append] at hlen hf ⊢; omega)
  have hseq : (plug C' (.node p b c v l' r')).seq = (plug C (.node p b c v l r)).seq := by
    rw [plug_seq, plug_seq]
    simp only [Tree.seq]
    rw [List.append_assoc, List.append_assoc, List.append_assoc, List.append_assoc, List.cons_append, List.cons_append, j5, ← List.append_assoc, j4, List.append_assoc]
  have hlen' := path_length (C := C') (t := .node p b c v l' r')
  have hnodes : (plug C' (.node p b c v l' r')).nodes = (plug C (.node p b c v l r)).nodes := by rw [nodes_seq, nodes_seq, hseq]
  have hr : retraceDown fuel h p = some h1 := by rw [retraceDown, if_neg hp]; exact j1
  rw [erase, hr]
  simp only [Option.bind_eq_bind, Option.bind_some]
  by_cases hc : copies dup cnt < c
  · obtain ⟨h', e, s⟩ := eraseNode_less j2 hc (fuel := fuel) (by simp only [Tree.nodes, Tree.ad, List.length_cons] at hlen' hnodes hf ⊢; omega)
    rw [e]
    refine ⟨h', _, rfl, s, ?_, fun hn => absurd hc hn⟩
    rw [plug_seq, if_pos hc, ← j4, ← j5]
    simp [Tree.seq]
  · rw [if_neg hc]
    obtain ⟨h', e, s⟩ := eraseNode_small j2 hc j3 (fuel := fuel) (by simp only [Tree.nodes, Tree.ad, List.length_cons] at hlen' hnodes hf ⊢; omega)
    rw [e]
    refine ⟨h', _, rfl, s, ?_, ?_⟩
    · rw [plug_seq, onlyChild_seq j3, ← j4, ← j5]
      simp
    · intro _ hh
      obtain ⟨⟨k1, k2, k3, k4⟩, k5, k6⟩ := (heapT_plug _ _).mp hh
      obtain ⟨m1, m2, m3, m4, m5⟩ := j6 k5 k3 k4 (by
        cases C with
        | nil => trivial
        | cons f C => exact k1.trans k6) (by
        cases C with
        | nil => trivial
        | cons f C => exact k2.trans k6)
      refine (heapT_plug _ _).mpr ⟨?_, m1, ?_⟩
      · cases l' <;> simp only [onlyChild] <;> assumption
      · cases l' <;> simp only [onlyChild] <;> assumption

theorem erase_nil {dup : Dup} {h : Heap V} {t : Tree V} (he : Exact h t) (cnt : Int) (fuel : Nat) : erase dup fuel h 0 cnt = some h := by
  rw [erase, retraceDown, if_pos rfl]
  simp only [Option.bind_eq_bind, Option.bind_some]
  rw [eraseNode_nil he]
  rfl

theorem eraseRange_spec {dup : Dup} {fuel : Nat} {cnt : Int} : ∀ (M : List (Entry V)) (A B : List (Entry V)) (h : Heap V) (t : Tree V) (steps : Nat), Exact h t → t.seq = A ++ M ++ B →
    t.nodes + 1 < fuel → M.length ≤ steps → ∃ h' t', eraseRange dup fuel cnt steps h (first (M ++ B)) (first B) = some h' ∧ Exact h' t' ∧
      t'.seq = A ++ eraseSpec (copies dup cnt) (fun _ => true) M ++ B ∧ ((∀ e ∈ M, e.2.2 ≤ copies dup cnt) → HeapT t → HeapT t')
  | [], A, B, h, t, steps, he, hs, _, _ => by
    refine ⟨h, t, ?_, he, by simpa [eraseSpec] using hs, fun _ hh => hh⟩
    rw [eraseRange.eq_def]
    simp only [List.nil_append, if_true]
  | m :: M, A, B, h, t, steps, he, hs, hf, hst => by
    obtain ⟨steps, rfl⟩ : ∃ k, steps = k + 1 := ⟨steps - 1, by simp at hst; omega⟩
    obtain ⟨p, v, c⟩ := m
    have hs' : t.seq = A ++ (p, v, c) :: (M ++ B) := by rw [hs]; simp
    have hn := he.rep.seq_nodup
    rw [hs', List.map_append] at hn
    have hne : p ≠ first B := by
      have : (0 :: ((p, v, c) :: M ++ B).map (·.1)).Nodup := by
        refine hn.sublist (List.Sublist.cons_cons _ ?_)
        exact List.sublist_append_right _ _
      exact first_ne this
    obtain ⟨h', t', e1, e2, e3, e4⟩ := erase_spec (dup := dup) he hs' cnt hf
    rw [← List.append_assoc] at e3
    have hlen : t'.nodes + 1 < fuel := by
      rw [nodes_seq, e3]
      rw [nodes_seq, hs] at hf
      have : (if copies dup cnt < c then [(p, v, c - copies dup cnt)] else []).length ≤ 1 := by split <;> simp
      simp only [List.length_append, List.length_cons] at hf ⊢
      omega
    obtain ⟨h'', t'', j1, j2, j3, j4⟩ := eraseRange_spec M _ B h' t' steps e2 e3 hlen (by simp at hst; omega)
    refine ⟨h'', t'', ?_, j2, ?_, ?_⟩
    · rw [eraseRange.eq_def]
      simp only
      rw [show first ((p, v, c) :: M ++ B) = p from rfl, if_neg hne, inorderNext_spec he.rep hs' (by omega)]
      simp only [Option.bind_eq_bind, Option.bind_some]
      rw [e1]
      simp only [Option.bind_some]
      exact j1
    · rw [j3, eraseSpec_cons]
      simp
    · intro hall hh
      have := hall (p, v, c) (by simp)
      exact j4 (fun e he => hall e (by simp [he])) (e4 (by simp only at this; omega) hh)

/-- `insert`. -/
theorem insert_spec {dup : Dup} {key : V → K} {cmp : K → K → Bool} (hw : StrictWeak cmp) {h : Heap V} {t : Tree V} (he : Exact h t) (hg : Good dup key cmp t.seq) {fresh : Nat}
    (hfr0 : fresh ≠ 0) (hfr : fresh ∉ t.seq.map (·.1)) (junk : Int) (v : V) (cnt : Int) {rnd : Int} (hrnd : 0 ≤ rnd) {fuel : Nat} (hf : t.nodes + 1 < fuel) :
    ∃ h' t', insert dup key cmp fuel h fresh junk v cnt rnd = some (h', (insertSpec dup key cmp fresh v cnt t.seq).2) ∧ Exact h' t' ∧ t'.seq = (insertSpec dup key cmp fresh v cnt t.seq).1 ∧
      ((dup = .store ∨ ∀ e ∈ t.seq, eqv key cmp (key v) e = false) → HeapT t → HeapT t') := by
  obtain ⟨h1, t1, e1, e2, e3, e4⟩ := BST.insert_spec hw he hg hfr0 hfr junk v cnt hf
  have hin : (insertSpec dup key cmp fresh v cnt t.seq).2 ∈ t1.ad := by
    rw [← (seq_ad t1).mem_iff, e3]
    by_cases hnew : dup = .store ∨ t.seq.find? (eqv key cmp (key v)) = none
    · rw [insertSpec_new _ _ _ _ hnew]; simp
    · rw [not_or] at hnew
      obtain ⟨e, he⟩ := Option.ne_none_iff_exists'.mp hnew.2
      have hm := List.mem_of_find?_eq_some he
      cases dup with
      | store => exact absurd rfl hnew.1
      | ignore => rw [insertSpec_ignore _ _ _ _ he]; exact List.mem_map_of_mem hm
      | count =>
        rw [insertSpec_count _ _ _ _ he, List.map_map]
        refine List.mem_map.mpr ⟨e, hm, ?_⟩
        simp only [Function.comp]
        split <;> rfl
  have hn1 : t1.nodes < fuel := by
    have := specStep_length (dup := dup) (key := key) (cmp := cmp) t.seq (.insert fresh junk v 1) ⟨hfr0, hfr, by omega⟩
    have hc : (insertSpec dup key cmp fresh v cnt t.seq).1.length = (insertSpec dup key cmp fresh v 1 t.seq).1.length := by
      by_cases hnew : dup = .store ∨ t.seq.find? (eqv key cmp (key v)) = none
      · rw [insertSpec_new _ _ _ _ hnew, insertSpec_new _ _ _ _ hnew]; simp
      · rw [not_or] at hnew
        obtain ⟨e, he⟩ := Option.ne_none_iff_exists'.mp hnew.2
        cases dup with
        | store => exact absurd rfl hnew.1
        | ignore => rw [insertSpec_ignore _ _ _ _ he, insertSpec_ignore _ _ _ _ he]
        | count => rw [insertSpec_count _ _ _ _ he, insertSpec_count _ _ _ _ he]; simp
    rw [specStep, ← hc, ← e3, ← nodes_seq, ← nodes_seq] at this
    omega
  rw [insert, e1]
  simp only [Option.bind_eq_bind, Option.bind_some]
  by_cases hnew : dup = .store ∨ ∀ e ∈ t.seq, eqv key cmp (key v) e = false
  · obtain ⟨C, c1, c2⟩ := e4 hnew
    have hq : (insertSpec dup key cmp fresh v cnt t.seq).2 = fresh := by
      rw [insertSpec_new]
      refine hnew.imp id (fun hx => ?_)
      rw [List.find?_eq_none]; intro x hx'; rw [hx x hx']; simp
    rw [hq]
    rw [c2] at e2 hn1
    have hlen := path_length (C := C) (t := .node fresh junk (copies dup cnt) v .nil .nil)
    obtain ⟨h2, t2, f1, f2, f3, f4⟩ := retraceUp_spec (rnd := rnd) hrnd e2 (fuel := fuel) (by omega)
    rw [f1]
    refine ⟨h2, t2, rfl, f2, by rw [f3, ← c2, e3], ?_⟩
    intro _ hh
    rw [c1] at hh
    exact f4 ((heapT_plug _ _).mp hh).2.1 rfl rfl
  · obtain ⟨C, b, c, w, l, r, hx⟩ := exists_focus t1 _ hin
    rw [hx] at e2 hn1
    have hlen := path_length (C := C) (t := .node (insertSpec dup key cmp fresh v cnt t.seq).2 b c w l r)
    obtain ⟨h2, t2, f1, f2, f3, -⟩ := retraceUp_spec (rnd := rnd) hrnd e2 (fuel := fuel) (by omega)
    rw [f1]
    exact ⟨h2, t2, rfl, f2, by rw [f3, ← hx, e3], fun hx => absurd hx hnew⟩

end Altruct.Treap
