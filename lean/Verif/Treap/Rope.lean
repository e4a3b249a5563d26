/-
C26: a rope behaves as a sequence.
-/
import Verif.Treap.Props

namespace Altruct.BST

variable {V : Type}

theorem pre_append : ∀ (C D : List (Frame V)), pre (C ++ D) = pre D ++ pre C
  | [], D => by simp [pre]
  | .L .. :: C, D => by rw [List.cons_append, pre, pre, pre_append C D]
  | .R a b c v l :: C, D => by rw [List.cons_append, pre, pre, pre_append C D]; simp

theorem suf_append : ∀ (C D : List (Frame V)), suf (C ++ D) = suf C ++ suf D
  | [], D => by simp [suf]
  | .L a b c v r :: C, D => by rw [List.cons_append, suf, suf, suf_append C D]; simp
  | .R .. :: C, D => by rw [List.cons_append, suf, suf, suf_append C D]

theorem rightmost : ∀ t : Tree V, t ≠ .nil → ∃ Kf d b c v E, t = plug Kf (.node d b c v E .nil) ∧ suf Kf = []
  | .nil, h => absurd rfl h
  | .node a b c v l r, _ => by
    by_cases hr : r = .nil
    · subst hr
      exact ⟨[], a, b, c, v, l, rfl, rfl⟩
    · obtain ⟨Kf, d, b', c', v', E, e1, e3⟩ := rightmost r hr
      refine ⟨Kf ++ [.R a b c v l], d, b', c', v', E, by rw [plug_append, ← e1]; rfl, ?_⟩
      rw [suf_append, e3]
      rfl

/-- `insert_before`: the new node goes into the gap before the iterator. -/
theorem insertBefore_spec {h : Heap V} {t : Tree V} (he : Exact h t) {s1 s2 : List (Entry V)} (hs : t.seq = s1 ++ s2) {fresh : Nat} (hfr : h fresh = none) (bal : Int) (v : V) (cnt : Int)
    {dup : Dup} {fuel : Nat} (hf : t.nodes + 1 < fuel) : ∃ h' C, insertBefore dup fuel h fresh bal (first s2) v cnt = some (h', fresh) ∧ t = plug C .nil ∧
      Exact h' (plug C (.node fresh bal (copies dup cnt) v .nil .nil)) ∧ pre C = s1 ∧ suf C = s2 := by
  -- the gap decides
  have main : ∀ (C : List (Frame V)) (g : Bool), t = plug C .nil → Side C g → pre C = s1 → suf C = s2 →
      insertBefore dup fuel h fresh bal (first s2) v cnt = insertNode dup h fuel fresh bal (parOf C 0) g v cnt →
      ∃ h' C, insertBefore dup fuel h fresh bal (first s2) v cnt = some (h', fresh) ∧ t = plug C .nil ∧
      Exact h' (plug C (.node fresh bal (copies dup cnt) v .nil .nil)) ∧ pre C = s1 ∧ suf C = s2 := by
    intro C g e1 e2 e3 e4 e5
    rw [e1] at he hf
    have hlen := path_length (C := C) (t := .nil)
    obtain ⟨h', j1, j2⟩ := insertNode_hole (dup := dup) he e2 hfr bal v cnt (fuel := fuel) (by simp only [Tree.nodes, Tree.ad, List.length_nil] at hlen hf ⊢; omega)
    exact ⟨h', C, by rw [e5, j1], e1, j2, e3, e4⟩
  match s2, hs, main with
  | [], hs, main =>
    by_cases ht : t = .nil
    · subst ht
      refine main [] true rfl trivial (by simpa [Tree.seq, pre] using hs) rfl ?_
      rw [insertBefore, show first ([] : List (Entry V)) = 0 from rfl, he.rep.nil]
      simp only [Option.bind_eq_bind, Option.bind_some]
      rw [(he.rep.own.isNil he.rep.nil).1]
      rfl
    · obtain ⟨Kf, d, b', c', v', E, e1, e2⟩ := rightmost t ht
      have hseq : t.seq = (pre Kf ++ E.seq) ++ (d, v', c') :: [] := by rw [e1, plug_seq, e2]; simp [Tree.seq]
      refine main (.R d b' c' v' E :: Kf) false (by rw [e1]; rfl) rfl ?_ (by rw [suf, e2]) ?_
      · rw [hseq] at hs
        rw [pre, List.append_assoc]
        simpa using hs
      · rw [insertBefore, show first ([] : List (Entry V)) = 0 from rfl, he.rep.nil]
        simp only [Option.bind_eq_bind, Option.bind_some]
        rw [(he.rep.own.isNil he.rep.nil).1]
        have : t.isNil = false := by cases t with
          | nil => exact absurd rfl ht
          | node _ _ _ _ _ _ => rfl
        rw [this]
        simp only [Option.bind_some]
        rw [if_neg (by simp), inorderPrev_nil he.rep (by omega), hseq]
        simp [last, parOf, Frame.a]
  | (a, w, c) :: s2, hs, main =>
    obtain ⟨C, b, l, r, e1, e2, e3⟩ := he.rep.split hs
    have hrep := he.rep
    rw [e1] at hrep
    obtain ⟨h1, h2, h3, h4, h5, h6, -⟩ := hrep.node
    have hz := (h4.isNil h1.nil).1
    by_cases hl : l = .nil
    · subst hl
      refine main (.L a b c w r :: C) true (by rw [e1]; rfl) rfl (by rw [e2]; simp [pre, Tree.seq]) (by rw [e3]; simp [suf]) ?_
      rw [insertBefore, show first ((a, w, c) :: s2) = a from rfl, h3]
      simp only [Option.bind_eq_bind, Option.bind_some]
      rw [hz]
      rfl
    · obtain ⟨Kf, d, b', c', v', E, k1, k2⟩ := rightmost l hl
      have hlseq : l.seq = (pre Kf ++ E.seq) ++ [(d, v', c')] := by rw [k1, plug_seq, k2]; simp [Tree.seq]
      refine main (.R d b' c' v' E :: (Kf ++ .L a b c w r :: C)) false ?_ rfl ?_ ?_ ?_
      · rw [e1, plug, plug_append]
        show _ = plug C (.node a b c w (plug Kf _) r)
        rw [k1]
        rfl
      · rw [pre, pre_append, pre, e2, hlseq]; simp
      · rw [suf, suf_append, suf, k2, e3]; simp
      · rw [insertBefore, show first ((a, w, c) :: s2) = a from rfl, h3]
        simp only [Option.bind_eq_bind, Option.bind_some]
        rw [hz]
        have : l.isNil = false := by cases l with
          | nil => exact absurd rfl hl
          | node _ _ _ _ _ _ => rfl
        rw [this]
        simp only [Option.bind_some]
        rw [if_neg (by simp), inorderPrev_spec he.rep hs (by omega), e2, hlseq, ← List.append_assoc]
        simp [last, parOf, Frame.a]

end Altruct.BST

namespace Altruct.Rope

open Altruct.BST hiding insert eraseRange step run Op ValidRun specStep specRun OpValid Holds specStep_length step_spec run_spec sample

variable {V : Type}

/-! ### The sequence -/

/-- The operations; `rnd` is the random number that the operation draws. -/
inductive Op (V : Type) where
  | insert (pos : Int) (v : V) (rnd : Int)
  | pushBack (v : V) (rnd : Int)
  | erase (pos : Int)
  | eraseRange (b e : Int)
  | set (pos : Int) (v : V)

/-- The same edit of a list. -/
def specStep (s : List V) : Op V → List V
  | .insert pos v _ => s.insertIdx pos.toNat v
  | .pushBack v _ => s ++ [v]
  | .erase pos => s.eraseIdx pos.toNat
  | .eraseRange b e => s.take b.toNat ++ s.drop e.toNat
  | .set pos v => s.set pos.toNat v

/-- Positions are in range, random numbers are not negative. -/
def OpValid (s : List V) : Op V → Prop
  | .insert pos _ rnd => 0 ≤ pos ∧ pos ≤ s.length ∧ 0 ≤ rnd
  | .pushBack _ rnd => 0 ≤ rnd
  | .erase pos => 0 ≤ pos ∧ pos < s.length
  | .eraseRange b e => 0 ≤ b ∧ b ≤ e ∧ e ≤ s.length
  | .set pos _ => 0 ≤ pos ∧ pos < s.length

/-- The list after a history of edits. -/
def specRun : List V → List (Op V) → List V
  | s, [] => s
  | s, op :: ops => specRun (specStep s op) ops

/-- All edits of a history are valid. -/
def ValidRun : List V → List (Op V) → Prop
  | _, [] => True
  | s, op :: ops => OpValid s op ∧ ValidRun (specStep s op) ops

/-! ### The program -/

/-- An allocator gives an address that is not in use if there is one. -/
def AllocOk (alloc : Heap V → Nat) : Prop := ∀ h : Heap V, (∃ x, x ≠ 0 ∧ h x = none) → alloc h ≠ 0 ∧ h (alloc h) = none

/-- An edit of the rope. -/
def step (alloc : Heap V → Nat) (junk : Nat → Int) (fuel : Nat) (h : Heap V) : Op V → Option (Heap V)
  | .insert pos v rnd => insert fuel h (alloc h) (junk (alloc h)) pos v rnd
  | .pushBack v rnd => pushBack fuel h (alloc h) (junk (alloc h)) v rnd
  | .erase pos => erase fuel h pos
  | .eraseRange b e => eraseRange fuel h b e
  | .set pos v => set fuel h pos v

/-- A history of the rope. -/
def run (alloc : Heap V → Nat) (junk : Nat → Int) (fuel : Nat) : Heap V → List (Op V) → Option (Heap V)
  | h, [] => some h
  | h, op :: ops => do
    let h ← step alloc junk fuel h op
    run alloc junk fuel h ops

/-! ### Proofs -/

/-- The rope in the heap holds the values `s`. -/
def Holds (h : Heap V) (s : List V) : Prop := ∃ t, Exact h t ∧ t.seq.map (·.2.1) = s ∧ ∀ e ∈ t.seq, e.2.2 = 1

theorem total_ones {u : List (Entry V)} (h : ∀ e ∈ u, e.2.2 = 1) : total u = u.length := by
  induction u with
  | nil => rfl
  | cons e u ih =>
    rw [total_cons, h e (by simp), ih (fun f hf => h f (by simp [hf]))]
    simp; omega

theorem kth_drop {u : List (Entry V)} (h : ∀ e ∈ u, e.2.2 = 1) (k : Nat) : kthFrom u k = first (u.drop k) := by
  induction u generalizing k with
  | nil => simp [kthFrom, first]
  | cons e u ih =>
    rw [kthFrom, h e (by simp)]
    cases k with
    | zero => simp [first]
    | succ k =>
      rw [if_neg (by omega)]
      have : ((k + 1 : Nat) : Int) - 1 = k := by omega
      rw [this, ih (fun f hf => h f (by simp [hf]))]
      rfl

theorem findKth_spec {h : Heap V} {t : Tree V} (he : Exact h t) (h1 : ∀ e ∈ t.seq, e.2.2 = 1) {fuel : Nat} (hf : t.nodes < fuel) (k : Nat) : findKth fuel h k = some (first (t.seq.drop k)) := by
  rw [findKth, rootPtr_spec he.rep]
  simp only [Option.bind_eq_bind, Option.bind_some]
  rw [inorderKth_spec he.rep.nil t 0 fuel k he.rep.own (fun e he => by rw [h1 e he]; omega) hf, kth, if_neg (by omega), kth_drop h1]

theorem free_address {h : Heap V} {t : Tree V} (he : Exact h t) : ∃ x, x ≠ 0 ∧ h x = none := by
  have hb : ∀ l : List Nat, ∃ m, ∀ x ∈ l, x < m := by
    intro l
    induction l with
    | nil => exact ⟨0, by simp⟩
    | cons a l ih =>
      obtain ⟨m, hm⟩ := ih
      refine ⟨m + a + 1, ?_⟩
      intro x hx
      rcases List.mem_cons.mp hx with rfl | hx
      · omega
      · have := hm x hx; omega
  obtain ⟨m, hm⟩ := hb t.ad
  exact ⟨m + 1, by omega, he.out _ (by omega) (fun hx => by have := hm _ hx; omega)⟩

theorem insertAt_spec {h : Heap V} {t : Tree V} (he : Exact h t) {s1 s2 : List (Entry V)} (hs : t.seq = s1 ++ s2) {fresh : Nat} (hfr : h fresh = none) (junk : Int) (v : V)
    {rnd : Int} (hr : 0 ≤ rnd) {fuel : Nat} (hf : t.nodes + 2 < fuel) :
    ∃ h' t', insertAt fuel h fresh junk (first s2) v rnd = some h' ∧ Exact h' t' ∧ t'.seq = s1 ++ (fresh, v, 1) :: s2 := by
  obtain ⟨h2, C, e1, e2, e3, e4, e5⟩ := insertBefore_spec he hs hfr junk v 1 (dup := .store) (fuel := fuel) (by omega)
  have hn : (plug C (.node fresh junk (copies .store 1) v .nil .nil)).nodes = t.nodes + 1 := by
    rw [plug_nodes, e2, plug_nodes]
    simp [Tree.nodes, Tree.ad]
    omega
  have hlen := path_length (C := C) (t := .node fresh junk (copies .store 1) v .nil .nil)
  obtain ⟨h3, t', f1, f2, f3, -⟩ := Treap.retraceUp_spec (rnd := rnd) hr e3 (fuel := fuel) (by omega)
  refine ⟨h3, t', ?_, f2, ?_⟩
  · rw [insertAt, Treap.insertBefore, e1]
    simp only [Option.bind_eq_bind, Option.bind_some]
    rw [f1]
    rfl
  · rw [f3, plug_seq, e4, e5]
    simp [Tree.seq, copies]

theorem eraseRangeAt_eq (fuel : Nat) : ∀ (steps : Nat) (h : Heap V) (b e : Nat), eraseRangeAt fuel steps h b e = Treap.eraseRange .store fuel 1 steps h b e
  | 0, h, b, e => by rw [eraseRangeAt.eq_def, Treap.eraseRange.eq_def]
  | steps + 1, h, b, e => by
    rw [eraseRangeAt.eq_def, Treap.eraseRange.eq_def]
    simp only [eraseAt, eraseRangeAt_eq fuel steps]

theorem eraseSpec_ones {u : List (Entry V)} (h : ∀ e ∈ u, e.2.2 = 1) : eraseSpec 1 (fun _ => true) u = [] := by
  rw [eraseSpec, List.filterMap_eq_nil_iff]
  intro e he
  simp [h e he]

theorem setVal_spec {h : Heap V} {C : List (Frame V)} {p : Nat} {b c : Int} {w : V} {l r : Tree V} (he : Exact h (plug C (.node p b c w l r))) (v : V) :
    Exact (h.set p ⟨parOf C 0, l.root, r.root, b, l.size + c + r.size, some v⟩) (plug C (.node p b c v l r)) := by
  obtain ⟨hs, hp0, hP⟩ := he.sat_node
  have := Sat.setNode (L1 := [_]) hs ⟨parOf C 0, l.root, r.root, b, l.size + c + r.size, some v⟩
  exact Exact.of_sat_node this hp0 hP rfl

theorem specStep_length (s : List V) (op : Op V) (hv : OpValid s op) : (specStep s op).length ≤ s.length + 1 := by
  cases op with
  | insert pos v rnd => simp only [specStep, List.length_insertIdx]; split <;> omega
  | pushBack v rnd => simp [specStep]
  | erase pos => simp only [specStep, List.length_eraseIdx]; split <;> omega
  | eraseRange b e =>
    obtain ⟨h1, h2, h3⟩ := hv
    simp only [specStep, List.length_append, List.length_take, List.length_drop]
    omega
  | set pos v => simp [specStep]

theorem insertIdx_split : ∀ {s : List V} (k : Nat) (v : V), k ≤ s.length → s.insertIdx k v = s.take k ++ v :: s.drop k
  | s, 0, v, _ => by simp
  | [], k + 1, v, hk => by simp at hk
  | a :: s, k + 1, v, hk => by
    rw [List.insertIdx_succ_cons, insertIdx_split k v (by simpa using hk)]
    simp

theorem insert_spec {alloc : Heap V → Nat} (ha : AllocOk alloc) {junk : Int} {h : Heap V} {s : List V} (hh : Holds h s) (k : Nat) (hk : k ≤ s.length) (v : V) {rnd : Int} (hr : 0 ≤ rnd) {fuel : Nat}
    (hf : s.length + 2 < fuel) : ∃ h', insert fuel h (alloc h) junk k v rnd = some h' ∧ Holds h' (s.insertIdx k v) := by
  obtain ⟨t, he, hs, h1⟩ := hh
  have hn : t.nodes = s.length := by rw [nodes_seq, ← hs, List.length_map]
  obtain ⟨a1, a2⟩ := ha h (free_address he)
  obtain ⟨h', t', e1, e2, e3⟩ := insertAt_spec he (s1 := t.seq.take k) (s2 := t.seq.drop k) (List.take_append_drop k t.seq).symm a2 junk v hr (fuel := fuel) (by omega)
  refine ⟨h', ?_, t', e2, ?_, ?_⟩
  · rw [insert, findKth_spec he h1 (by omega)]
    exact e1
  · rw [e3, ← hs, List.map_append, List.map_cons, List.map_take, List.map_drop]
    generalize t.seq.map (fun e => e.2.1) = u at *
    subst hs
    rw [insertIdx_split k v hk]
  · rw [e3]
    intro e he'
    rcases List.mem_append.mp he' with he' | he'
    · exact h1 e (List.mem_of_mem_take he')
    · rcases List.mem_cons.mp he' with rfl | he'
      · rfl
      · exact h1 e (List.mem_of_mem_drop he')

theorem size_spec {h : Heap V} {s : List V} (hh : Holds h s) : size h = some (s.length : Int) := by
  obtain ⟨t, he, hs, h1⟩ := hh
  rw [size, rootPtr_spec he.rep]
  simp only [Option.bind_eq_bind, Option.bind_some]
  rw [(he.rep.own.isNil he.rep.nil).2, size_total, total_ones h1, ← hs, List.length_map]

/-- Removing a range. -/
theorem range_spec {h : Heap V} {s : List V} (hh : Holds h s) (i j : Nat) (hij : i ≤ j) (hj : j ≤ s.length) {fuel : Nat} (hf : s.length + 1 < fuel) :
    ∃ h' a b, findKth fuel h i = some a ∧ findKth fuel h j = some b ∧ Treap.eraseRange .store fuel 1 fuel h a b = some h' ∧ Holds h' (s.take i ++ s.drop j) := by
  obtain ⟨t, he, hs, h1⟩ := hh
  have hn : t.nodes = s.length := by rw [nodes_seq, ← hs, List.length_map]
  have hl : t.seq.length = s.length := by rw [← hs, List.length_map]
  have hsplit : t.seq.drop i = (t.seq.drop i).take (j - i) ++ t.seq.drop j := by
    have := (List.take_append_drop (j - i) (t.seq.drop i)).symm
    rwa [List.drop_drop, Nat.add_sub_cancel' hij] at this
  obtain ⟨h', t', e1, e2, e3, -⟩ := Treap.eraseRange_spec (dup := .store) (fuel := fuel) (cnt := 1) ((t.seq.drop i).take (j - i)) (t.seq.take i) (t.seq.drop j) h t fuel he
    (by rw [List.append_assoc, ← hsplit, List.take_append_drop]) (by omega) (by rw [List.length_take, List.length_drop]; omega)
  rw [← hsplit] at e1
  refine ⟨h', _, _, findKth_spec he h1 (by omega) i, findKth_spec he h1 (by omega) j, e1, t', e2, ?_, ?_⟩
  · rw [e3, show copies .store 1 = 1 from rfl, eraseSpec_ones (fun e he' => h1 e (List.mem_of_mem_drop (List.mem_of_mem_take he'))), ← hs]
    simp
  · rw [e3, show copies .store 1 = 1 from rfl, eraseSpec_ones (fun e he' => h1 e (List.mem_of_mem_drop (List.mem_of_mem_take he')))]
    intro e he'
    rw [List.append_nil] at he'
    rcases List.mem_append.mp he' with he' | he'
    · exact h1 e (List.mem_of_mem_take he')
    · exact h1 e (List.mem_of_mem_drop he')

theorem drop_cons {u : List (Entry V)} {k : Nat} (hk : k < u.length) : ∃ e, u.drop k = e :: u.drop (k + 1) ∧ u = u.take k ++ e :: u.drop (k + 1) ∧ u[k]? = some e := by
  refine ⟨u[k], List.drop_eq_getElem_cons hk, ?_, by simp [hk]⟩
  rw [← List.drop_eq_getElem_cons hk, List.take_append_drop]

theorem step_spec {alloc : Heap V → Nat} (ha : AllocOk alloc) {junk : Nat → Int} {h : Heap V} {s : List V} (hh : Holds h s) {op : Op V} (hv : OpValid s op) {fuel : Nat} (hf : s.length + 2 < fuel) :
    ∃ h', step alloc junk fuel h op = some h' ∧ Holds h' (specStep s op) := by
  cases op with
  | insert pos v rnd =>
    obtain ⟨h1, h2, h3⟩ := hv
    obtain ⟨k, rfl⟩ := Int.eq_ofNat_of_zero_le h1
    exact insert_spec ha hh k (by omega) v h3 hf
  | pushBack v rnd =>
    obtain ⟨h', e1, e2⟩ := insert_spec ha (junk := junk (alloc h)) hh s.length (Nat.le_refl _) v hv hf
    refine ⟨h', ?_, ?_⟩
    · rw [step, pushBack, size_spec hh]
      exact e1
    · rw [specStep]
      rwa [List.insertIdx_length_self] at e2
  | erase pos =>
    obtain ⟨h1, h2⟩ := hv
    obtain ⟨k, rfl⟩ := Int.eq_ofNat_of_zero_le h1
    obtain ⟨t, he, hs, h1'⟩ := hh
    have hn : t.nodes = s.length := by rw [nodes_seq, ← hs, List.length_map]
    have hl : t.seq.length = s.length := by rw [← hs, List.length_map]
    obtain ⟨⟨a, w, c⟩, d1, d2, -⟩ := drop_cons (u := t.seq) (k := k) (by omega)
    obtain ⟨h', t', e1, e2, e3, -⟩ := Treap.erase_spec (dup := .store) he d2 1 (fuel := fuel) (by omega)
    have hc : c = 1 := h1' (a, w, c) (by rw [d2]; simp)
    rw [if_neg (by simp [copies, hc]), List.append_nil] at e3
    refine ⟨h', ?_, t', e2, ?_, ?_⟩
    · rw [step, erase, findKth_spec he h1' (by omega), d1]
      exact e1
    · rw [e3, specStep, ← hs]
      simp [List.eraseIdx_eq_take_drop_succ]
    · rw [e3]
      intro e he'
      rcases List.mem_append.mp he' with he' | he'
      · exact h1' e (List.mem_of_mem_take he')
      · exact h1' e (List.mem_of_mem_drop he')
  | eraseRange b e =>
    obtain ⟨h1, h2, h3⟩ := hv
    obtain ⟨i, rfl⟩ := Int.eq_ofNat_of_zero_le h1
    obtain ⟨j, rfl⟩ := Int.eq_ofNat_of_zero_le (Int.le_trans h1 h2)
    obtain ⟨h', a, b, e1, e2, e3, e4⟩ := range_spec hh i j (by omega) (by omega) (fuel := fuel) (by omega)
    refine ⟨h', ?_, e4⟩
    rw [step, eraseRange, e1]
    simp only [Option.bind_eq_bind, Option.bind_some]
    rw [e2]
    simp only [Option.bind_some]
    rw [eraseRangeAt_eq, e3]
  | set pos v =>
    obtain ⟨h1, h2⟩ := hv
    obtain ⟨k, rfl⟩ := Int.eq_ofNat_of_zero_le h1
    obtain ⟨t, he, hs, h1'⟩ := hh
    have hn : t.nodes = s.length := by rw [nodes_seq, ← hs, List.length_map]
    have hl : t.seq.length = s.length := by rw [← hs, List.length_map]
    obtain ⟨⟨a, w, c⟩, d1, d2, -⟩ := drop_cons (u := t.seq) (k := k) (by omega)
    obtain ⟨C, b, l, r, k1, k2, k3⟩ := he.rep.split d2
    have he2 := he
    rw [k1] at he2
    have hnode := he2.rep.node.2.2.1
    have hx := setVal_spec he2 v
    have hseq : (plug C (.node a b c v l r)).seq = t.seq.take k ++ (a, v, c) :: t.seq.drop (k + 1) := by
      rw [k2, k3, plug_seq]; simp [Tree.seq]
    refine ⟨_, ?_, _, hx, ?_, ?_⟩
    · rw [step, set, findKth_spec he h1' (by omega), d1]
      simp only [Option.bind_eq_bind, Option.bind_some, first, List.head?_cons, Option.map_some, Option.getD_some]
      rw [hnode]
      rfl
    · rw [hseq, specStep, ← hs, Int.toNat_natCast, List.set_eq_take_append_cons_drop, if_pos (by simpa using by omega)]
      simp
    · rw [hseq]
      intro e he'
      rcases List.mem_append.mp he' with he' | he'
      · exact h1' e (List.mem_of_mem_take he')
      · rcases List.mem_cons.mp he' with rfl | he'
        · exact h1' (a, w, c) (by rw [d2]; simp)
        · exact h1' e (List.mem_of_mem_drop he')

theorem run_spec {alloc : Heap V → Nat} (ha : AllocOk alloc) {junk : Nat → Int} {fuel : Nat} : ∀ (ops : List (Op V)) {h : Heap V} {s : List V}, Holds h s → ValidRun s ops → s.length + ops.length + 1 < fuel →
    ∃ h', run alloc junk fuel h ops = some h' ∧ Holds h' (specRun s ops) ∧ (specRun s ops).length ≤ s.length + ops.length
  | [], h, s, hh, _, _ => ⟨h, rfl, hh, by simp [specRun]⟩
  | op :: ops, h, s, hh, hv, hf => by
    simp only [List.length_cons] at hf ⊢
    have hlen := specStep_length s op hv.1
    obtain ⟨h1, e1, e2⟩ := step_spec ha (junk := junk) hh hv.1 (fuel := fuel) (by omega)
    obtain ⟨h2, e3, e4, e5⟩ := run_spec ha (junk := junk) (fuel := fuel) ops (s := specStep s op) e2 hv.2 (by omega)
    refine ⟨h2, ?_, e4, by rw [specRun]; omega⟩
    rw [run, e1]
    exact e3

theorem init_holds : Holds (init : Heap V) [] := ⟨.nil, Treap.init_exact, rfl, by simp [Tree.seq]⟩

theorem run_holds {alloc : Heap V → Nat} (ha : AllocOk alloc) {junk : Nat → Int} {fuel : Nat} {ops : List (Op V)} (hv : ValidRun [] ops) (hf : ops.length + 1 < fuel) {h : Heap V}
    (hr : run alloc junk fuel init ops = some h) : Holds h (specRun [] ops) ∧ (specRun [] ops).length < fuel := by
  obtain ⟨h', e1, e2, e3⟩ := run_spec ha (junk := junk) (fuel := fuel) ops init_holds hv (by simpa using hf)
  rw [hr] at e1
  cases e1
  exact ⟨e2, by simp at e3; omega⟩

/-! ### The theorems -/

/-- The edits are executed without undefined behaviour and end, whatever the random numbers are. -/
theorem C26_run {alloc : Heap V → Nat} (ha : AllocOk alloc) (junk : Nat → Int) {fuel : Nat} {ops : List (Op V)} (hv : ValidRun [] ops) (hf : ops.length + 1 < fuel) :
    ∃ h, run alloc junk fuel init ops = some h := by
  obtain ⟨h', e1, -⟩ := run_spec ha (junk := junk) (fuel := fuel) ops init_holds hv (by simpa using hf)
  exact ⟨h', e1⟩

/-- Iteration yields the list. -/
theorem C26_iterate {alloc : Heap V → Nat} (ha : AllocOk alloc) {junk : Nat → Int} {fuel : Nat} {ops : List (Op V)} (hv : ValidRun [] ops) (hf : ops.length + 1 < fuel) {h : Heap V}
    (hr : run alloc junk fuel init ops = some h) : ((inorderNext h fuel 0).bind (walk h fuel fuel)).map (List.map (·.2.1)) = some (specRun [] ops) := by
  obtain ⟨⟨t, he, hs, h1⟩, hl⟩ := run_holds ha hv hf hr
  have hn : t.nodes < fuel := by rw [nodes_seq, ← List.length_map (f := fun e : Entry V => e.2.1), hs]; exact hl
  rw [inorderNext_nil he.rep hn, Option.bind_some, walk_spec he (by omega) t.seq [] fuel rfl (by rw [← nodes_seq]; omega)]
  simp only [Option.map_some]
  rw [hs]

/-- `size`. -/
theorem C26_size {alloc : Heap V → Nat} (ha : AllocOk alloc) {junk : Nat → Int} {fuel : Nat} {ops : List (Op V)} (hv : ValidRun [] ops) (hf : ops.length + 1 < fuel) {h : Heap V}
    (hr : run alloc junk fuel init ops = some h) : size h = some ((specRun [] ops).length : Int) :=
  size_spec (run_holds ha hv hf hr).1

/-- `at(pos)` and `operator[]`. -/
theorem C26_at {alloc : Heap V → Nat} (ha : AllocOk alloc) {junk : Nat → Int} {fuel : Nat} {ops : List (Op V)} (hv : ValidRun [] ops) (hf : ops.length + 1 < fuel) {h : Heap V}
    (hr : run alloc junk fuel init ops = some h) (k : Nat) : get fuel h k = (specRun [] ops)[k]? := by
  obtain ⟨⟨t, he, hs, h1⟩, hl⟩ := run_holds ha hv hf hr
  have hlen : t.seq.length = (specRun [] ops).length := by rw [← hs, List.length_map]
  have hn : t.nodes < fuel := by rw [nodes_seq, hlen]; exact hl
  rw [get, findKth_spec he h1 hn]
  simp only [Option.bind_eq_bind, Option.bind_some]
  by_cases hk : k < t.seq.length
  · obtain ⟨⟨a, w, c⟩, d1, d2, d3⟩ := drop_cons hk
    obtain ⟨C, b, l, r, k1, -, -⟩ := he.rep.split d2
    have he2 := he
    rw [k1] at he2
    rw [d1, show first ((a, w, c) :: t.seq.drop (k + 1)) = a from rfl, he2.rep.node.2.2.1, ← hs, List.getElem?_map, d3]
    rfl
  · rw [List.drop_eq_nil_of_le (by omega), show first ([] : List (Entry V)) = 0 from rfl, he.rep.nil, List.getElem?_eq_none (by omega)]
    rfl

/-- Iterators: `find_kth(i)` has the position `i`, and `it + off` is the iterator of the position `i + off`. -/
theorem C26_iterator {alloc : Heap V → Nat} (ha : AllocOk alloc) {junk : Nat → Int} {fuel : Nat} {ops : List (Op V)} (hv : ValidRun [] ops) (hf : ops.length + 1 < fuel) {h : Heap V}
    (hr : run alloc junk fuel init ops = some h) (i : Nat) (hi : i ≤ (specRun [] ops).length) :
    ∃ it, findKth fuel h i = some it ∧ (inorderPos h fuel it).map (·.1) = some (i : Int) ∧ ∀ off : Int, inorderAdd h fuel it off = findKth fuel h (i + off) := by
  obtain ⟨⟨t, he, hs, h1⟩, hl⟩ := run_holds ha hv hf hr
  have hlen : t.seq.length = (specRun [] ops).length := by rw [← hs, List.length_map]
  have hn : t.nodes < fuel := by rw [nodes_seq, hlen]; exact hl
  have hpos : inorderPos h fuel (first (t.seq.drop i)) = some ((i : Int), 0) := by
    by_cases hk : i < t.seq.length
    · obtain ⟨⟨a, w, c⟩, d1, d2, d3⟩ := drop_cons hk
      rw [d1, show first ((a, w, c) :: t.seq.drop (i + 1)) = a from rfl, inorderPos_spec he.rep d2 hn, total_ones (fun e he' => h1 e (List.mem_of_mem_take he')), List.length_take]
      congr 2
      omega
    · rw [List.drop_eq_nil_of_le (by omega), show first ([] : List (Entry V)) = 0 from rfl, inorderPos_nil he.rep (by omega), total_ones h1]
      congr 2
      omega
  refine ⟨_, findKth_spec he h1 hn i, by rw [hpos]; rfl, ?_⟩
  intro off
  rw [inorderAdd, hpos, findKth, rootPtr]
  simp only [Option.bind_eq_bind, Option.bind_some]
  rw [he.rep.nil]
  rfl

/-! ### The hypotheses are met -/

/-- An allocator that takes the first free address. -/
theorem exists_alloc : ∃ alloc : Heap V → Nat, AllocOk alloc := by
  classical
  refine ⟨fun h => if hx : ∃ x, x ≠ 0 ∧ h x = none then hx.choose else 0, ?_⟩
  intro h hx
  simp only [dif_pos hx]
  exact hx.choose_spec

/-- Edits in the middle, at the end, of a range and of a value. -/
def sample : List (Op Int) := [.pushBack 10 5, .pushBack 20 3, .insert 1 30 4, .insert 0 40 1, .insert 4 50 9, .erase 2, .set 1 60, .insert 2 70 0, .eraseRange 1 3]

example : ValidRun [] sample := by
  simp only [sample, ValidRun, OpValid, specStep]
  decide +kernel

example : specRun [] sample = [40, 20, 50] := by decide +kernel

/-- The addresses are given out in ascending order. -/
def bump (h : Heap Int) : Nat := ((List.range 20).find? (fun x => x != 0 && (h x).isNone)).getD 0

example : (run bump (fun _ => 7) 20 init sample).bind (fun h => ((inorderNext h 20 0).bind (walk h 20 20)).map (List.map (·.2.1))) = some [40, 20, 50] := by decide +kernel
example : (run bump (fun _ => 7) 20 init sample).bind (fun h => get 20 h 2) = some 50 := by decide +kernel

end Altruct.Rope
