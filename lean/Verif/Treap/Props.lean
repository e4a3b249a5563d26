/-
C25: a treap holds the same elements as the plain tree, whatever the random numbers are.

The elements, the operations and their effect are those of `Verif/BST/Props.lean`: `specRun` is a history of the list of
the elements with their iterators and counts.  The `bal` of an insertion is the random number.
-/
import Verif.Treap.Heap

namespace Altruct.Treap

open Altruct.BST hiding insert eraseKey eraseRange step run insert_spec eraseRange_spec step_spec run_spec

variable {V K : Type}

/-- An operation of the treap; `junk` are the uninitialised balances of new nodes. -/
def step (dup : Dup) (key : V → K) (cmp : K → K → Bool) (maxInt : Int) (junk : Nat → Int) (fuel : Nat) (h : Heap V) : Op V K → Option (Heap V)
  | .insert fresh rnd v cnt => (insert dup key cmp fuel h fresh (junk fresh) v cnt rnd).map (·.1)
  | .eraseKey x cnt => eraseKey dup key cmp maxInt fuel h x cnt
  | .eraseIt p cnt => erase dup fuel h p cnt
  | .eraseRange b e cnt => eraseRange dup fuel cnt fuel h b e

/-- A history of the treap. -/
def run (dup : Dup) (key : V → K) (cmp : K → K → Bool) (maxInt : Int) (junk : Nat → Int) (fuel : Nat) : Heap V → List (Op V K) → Option (Heap V)
  | h, [] => some h
  | h, op :: ops => do
    let h ← step dup key cmp maxInt junk fuel h op
    run dup key cmp maxInt junk fuel h ops

/-- The random numbers are not negative. -/
def RandOk : Op V K → Prop
  | .insert _ rnd _ _ => 0 ≤ rnd
  | _ => True

/-- The operation inserts no equivalent element where it would not be stored, and removes all copies of what it
removes. -/
def Keeps (dup : Dup) (key : V → K) (cmp : K → K → Bool) (s : List (Entry V)) : Op V K → Prop
  | .insert _ _ v _ => dup = .store ∨ ∀ e ∈ s, eqv key cmp (key v) e = false
  | .eraseKey x cnt => dup = .count → ∀ e ∈ s, eqv key cmp x e = true → e.2.2 ≤ cnt
  | .eraseIt p cnt => dup = .count → ∀ e ∈ s, e.1 = p → e.2.2 ≤ cnt
  | .eraseRange b e cnt => dup = .count → ∀ x ∈ (from' e (from' b s).2).1, x.2.2 ≤ cnt

/-- All operations of a history do. -/
def KeepsRun (dup : Dup) (key : V → K) (cmp : K → K → Bool) : List (Entry V) → List (Op V K) → Prop
  | _, [] => True
  | s, op :: ops => Keeps dup key cmp s op ∧ KeepsRun dup key cmp (specStep dup key cmp s op) ops

theorem step_spec {dup : Dup} {key : V → K} {cmp : K → K → Bool} (hw : StrictWeak cmp) {maxInt : Int} {junk : Nat → Int} {h : Heap V} {s : List (Entry V)} {t : Tree V} (he : Exact h t) (hs : t.seq = s)
    (hgd : Good dup key cmp s) {op : Op V K} (hv : OpValid s op) (hr : RandOk op) {fuel : Nat} (hf : s.length + 1 < fuel) :
    ∃ h' t', step dup key cmp maxInt junk fuel h op = some h' ∧ Exact h' t' ∧ t'.seq = specStep dup key cmp s op ∧ Good dup key cmp (specStep dup key cmp s op) ∧ (Keeps dup key cmp s op → HeapT t → HeapT t') := by
  have hh : Holds dup key cmp h s := ⟨⟨t, he, hs⟩, hgd⟩
  have hnd := hh.nodup
  have hft : t.nodes + 1 < fuel := by rw [nodes_seq, hs]; exact hf
  have hc0 : ∀ cnt : Int, 0 ≤ cnt → 0 ≤ (if dup = .count then cnt else 1) := by intro cnt h; split <;> omega
  have h0 : 0 ∉ s.map (·.1) := (List.nodup_cons.mp hnd).1
  cases op with
  | insert fresh bal v cnt =>
    obtain ⟨v1, v2, v3⟩ := hv
    obtain ⟨h', t', e1, e2, e3, e4⟩ := insert_spec hw he (by rw [hs]; exact hh.good) v1 (by rw [hs]; exact v2) (junk fresh) v cnt hr hft
    refine ⟨h', t', by rw [step, e1]; rfl, e2, by rw [e3, hs]; rfl, hh.good.insert hw fresh v v3, ?_⟩
    rw [hs] at e4
    exact e4
  | eraseKey x cnt =>
    have hgood : Good dup key cmp (specStep dup key cmp s (.eraseKey x cnt)) := hh.good.shrink (eraseSpec_shrink (hc0 cnt hv) _ _)
    rw [step, eraseKey]
    by_cases hd : dup = .store
    · rw [if_pos hd, lowerBound_spec hw hh x (by omega)]
      simp only [Option.bind_eq_bind, Option.bind_some]
      rw [upperBound_spec hw hh x (by omega)]
      simp only [Option.bind_some]
      rw [firstOf_filter, firstOf_filter]
      obtain ⟨w1, w2⟩ := three_way hw x hh.good.sorted
      rw [w2]
      have hlen : (s.filter (eqv key cmp x)).length ≤ s.length := List.length_filter_le _ _
      obtain ⟨h', t', e1, e2, e3, e4⟩ := eraseRange_spec (dup := dup) (fuel := fuel) (cnt := maxInt) (s.filter (eqv key cmp x)) (s.filter (fun e => cmp (key e.2.1) x)) (s.filter (fun e => cmp x (key e.2.1)))
        h t fuel he (by rw [hs]; exact w1) hft (by omega)
      refine ⟨h', t', e1, e2, ?_, hgood, fun _ => e4 (fun e hin => by
        have := hh.good.one (by simp [hd]) e (List.mem_filter.mp hin).1
        simp [copies, hd, this])⟩
      rw [e3]
      have hone : eraseSpec (copies dup maxInt) (fun _ => true) (s.filter (eqv key cmp x)) = [] := by
        rw [eraseSpec, List.filterMap_eq_nil_iff]
        intro e hin
        have := hh.good.one (by simp [hd]) e (List.mem_filter.mp hin).1
        simp [copies, hd, this]
      rw [hone, List.append_nil, specStep, if_neg (by simp [hd])]
      have key1 : eraseSpec 1 (eqv key cmp x) s = eraseSpec 1 (eqv key cmp x) (s.filter (fun e => cmp (key e.2.1) x) ++ s.filter (eqv key cmp x) ++ s.filter (fun e => cmp x (key e.2.1))) := by rw [← w1]
      rw [key1]
      have hap : ∀ a b : List (Entry V), eraseSpec 1 (eqv key cmp x) (a ++ b) = eraseSpec 1 (eqv key cmp x) a ++ eraseSpec 1 (eqv key cmp x) b := by
        intro a b; rw [eraseSpec, List.filterMap_append]; rfl
      rw [hap, hap]
      rw [eraseSpec_none (s := s.filter (fun e => cmp (key e.2.1) x)), eraseSpec_none (s := s.filter (fun e => cmp x (key e.2.1)))]
      · have : eraseSpec 1 (eqv key cmp x) (s.filter (eqv key cmp x)) = [] := by
          rw [eraseSpec, List.filterMap_eq_nil_iff]
          intro e hin
          have h1 := hh.good.one (by simp [hd]) e (List.mem_filter.mp hin).1
          simp [(List.mem_filter.mp hin).2, h1]
        rw [this, List.append_nil]
      · intro e hin
        have := (List.mem_filter.mp hin).2
        simp [eqv, this]
      · intro e hin
        have := (List.mem_filter.mp hin).2
        simp [eqv, this]
    · rw [if_neg hd, find_spec hw hh x (by omega)]
      simp only [Option.bind_eq_bind, Option.bind_some]
      rcases firstOf_mem (p := eqv key cmp x) (s := s) with ⟨w1, w2⟩ | ⟨s1, e, s2, w1, w2, w3, w4⟩
      · rw [w1, erase_nil he]
        refine ⟨h, t, rfl, he, ?_, hgood, fun _ hx => hx⟩
        rw [hs, specStep, eraseSpec_none w2]
      · rw [w4]
        obtain ⟨a, v, c⟩ := e
        obtain ⟨h', t', e1, e2, e3, e4⟩ := erase_spec (dup := dup) he (s1 := s1) (s2 := s2) (by rw [hs, w1]) cnt hft
        rw [e1]
        refine ⟨h', t', rfl, e2, ?_, hgood, fun hk => e4 ?_⟩
        swap
        · have hm : (a, v, c) ∈ s := by rw [w1]; simp
          by_cases hd2 : dup = .count
          · have := hk hd2 _ hm w2
            simp only [copies, if_pos hd2] at this ⊢
            omega
          · have := hh.good.one hd2 _ hm
            simp only [copies, if_neg hd2] at this ⊢
            omega
        have hu := hh.good.sorted.unique hw hd x
        rw [w1] at hu
        rw [e3, specStep, w1, eraseSpec_one w3 ?_ w2]
        · rfl
        · intro f hf'
          have := (List.pairwise_cons.mp (List.pairwise_append.mp hu).2.1).1 f hf'
          simpa [w2] using this
  | eraseIt p cnt =>
    have hgood : Good dup key cmp (specStep dup key cmp s (.eraseIt p cnt)) := hh.good.shrink (eraseSpec_shrink (hc0 cnt hv.2) _ _)
    rw [step]
    rcases hv.1 with rfl | hp
    · rw [erase_nil he]
      refine ⟨h, t, rfl, he, ?_, hgood, fun _ hx => hx⟩
      rw [hs, specStep, first_nil_ne _ _ h0]
    · obtain ⟨⟨a, v, c⟩, hin, rfl⟩ := List.mem_map.mp hp
      obtain ⟨s1, s2, w1⟩ := List.append_of_mem hin
      obtain ⟨h', t', e1, e2, e3, e4⟩ := erase_spec (dup := dup) he (s1 := s1) (s2 := s2) (by rw [hs, w1]) cnt hft
      simp only at e1 ⊢
      rw [e1]
      refine ⟨h', t', rfl, e2, ?_, hgood, fun hk => e4 ?_⟩
      swap
      · by_cases hd2 : dup = .count
        · have := hk hd2 _ hin rfl
          simp only [copies, if_pos hd2] at this ⊢
          omega
        · have := hh.good.one hd2 _ hin
          simp only [copies, if_neg hd2] at this ⊢
          omega
      have hn := (List.nodup_cons.mp hnd).2
      rw [w1, List.map_append, List.map_cons] at hn
      have hn1 := List.nodup_append.mp hn
      rw [e3, specStep, w1, eraseSpec_one (e := (a, v, c)) ?_ ?_ (by simp)]
      · rfl
      · intro f hf'
        rw [beq_eq_false_iff_ne]
        exact hn1.2.2 f.1 (List.mem_map_of_mem hf') a (by simp)
      · intro f hf'
        rw [beq_eq_false_iff_ne]
        rintro hx
        exact (List.nodup_cons.mp hn1.2.1).1 (List.mem_map.mpr ⟨f, hf', hx⟩)
  | eraseRange b e cnt =>
    have hA := from_append b s
    have hB := from_append e (from' b s).2
    rw [step]
    have hb := from_first h0 hv.1
    have h0' : 0 ∉ (from' b s).2.map (·.1) := fun hx => h0 (by rw [← hA, List.map_append]; exact List.mem_append_right _ hx)
    have he' := from_first h0' hv.2.1
    obtain ⟨h', t', e1, e2, e3, e4⟩ := eraseRange_spec (dup := dup) (fuel := fuel) (cnt := cnt) (from' e (from' b s).2).1 (from' b s).1 (from' e (from' b s).2).2 h t fuel he
      (by rw [hs, List.append_assoc, hB, hA]) hft (by
        have h1 := congrArg List.length hA
        have h2 := congrArg List.length hB
        simp only [List.length_append] at h1 h2
        omega)
    rw [hB, hb, he'] at e1
    refine ⟨h', t', e1, e2, by rw [e3]; rfl, ?_, fun hk => e4 ?_⟩
    swap
    · intro x hx
      by_cases hd2 : dup = .count
      · have := hk hd2 _ hx
        simp only [copies, if_pos hd2]
        omega
      · have hx' : x ∈ s := by
          rw [← hA, ← hB]
          simp [hx]
        have := hh.good.one hd2 _ hx'
        simp only [copies, if_neg hd2]
        omega
    rw [specStep, List.append_assoc]
    refine hh.good.shrink ?_
    have := (Shrink.refl (from' b s).1).append ((eraseSpec_shrink (hc0 cnt hv.2.2) (fun _ => true) (from' e (from' b s).2).1).append (Shrink.refl (from' e (from' b s).2).2))
    rwa [hB, hA] at this

theorem run_spec {dup : Dup} {key : V → K} {cmp : K → K → Bool} (hw : StrictWeak cmp) {maxInt : Int} {junk : Nat → Int} {fuel : Nat} : ∀ (ops : List (Op V K)) {h : Heap V} {s : List (Entry V)} {t : Tree V},
    Exact h t → t.seq = s → Good dup key cmp s → ValidRun dup key cmp s ops → (∀ op ∈ ops, RandOk op) → s.length + ops.length < fuel →
    ∃ h' t', run dup key cmp maxInt junk fuel h ops = some h' ∧ Exact h' t' ∧ t'.seq = specRun dup key cmp s ops ∧ Good dup key cmp (specRun dup key cmp s ops) ∧
      (specRun dup key cmp s ops).length ≤ s.length + ops.length ∧ (KeepsRun dup key cmp s ops → HeapT t → HeapT t')
  | [], h, s, t, he, hs, hg, _, _, _ => ⟨h, t, rfl, he, hs, hg, by simp [specRun], fun _ hx => hx⟩
  | op :: ops, h, s, t, he, hs, hg, hv, hr, hf => by
    simp only [List.length_cons] at hf ⊢
    have hlen := specStep_length (dup := dup) (key := key) (cmp := cmp) s op hv.1
    obtain ⟨h1, t1, e1, e2, e3, e4, e5⟩ := step_spec hw (maxInt := maxInt) (junk := junk) he hs hg hv.1 (hr op (by simp)) (fuel := fuel) (by omega)
    obtain ⟨h2, t2, f1, f2, f3, f4, f5, f6⟩ := run_spec hw (maxInt := maxInt) (junk := junk) (fuel := fuel) ops (s := specStep dup key cmp s op) e2 e3 e4 hv.2 (fun o ho => hr o (by simp [ho])) (by omega)
    refine ⟨h2, t2, ?_, f2, f3, f4, by rw [specRun]; omega, fun hk hh => f6 hk.2 (e5 hk.1 hh)⟩
    rw [run, e1]
    exact f1

theorem init_exact : Exact (init : Heap V) .nil := by
  refine ⟨⟨rfl, trivial, by simp [Tree.ad]⟩, ?_⟩
  intro a ha _
  simp [init, ha]

theorem run_holds {dup : Dup} {key : V → K} {cmp : K → K → Bool} (hw : StrictWeak cmp) {maxInt : Int} {junk : Nat → Int} {fuel : Nat} {ops : List (Op V K)} (hv : ValidRun dup key cmp [] ops)
    (hrand : ∀ op ∈ ops, RandOk op) (hf : ops.length < fuel) {h : Heap V} (hr : run dup key cmp maxInt junk fuel init ops = some h) :
    Holds dup key cmp h (specRun dup key cmp [] ops) ∧ (specRun dup key cmp [] ops).length < fuel := by
  obtain ⟨h', t, e1, e2, e3, e4, e5, -⟩ := run_spec hw (maxInt := maxInt) (junk := junk) (fuel := fuel) ops init_exact rfl (init_holds dup key cmp).good hv hrand (by simpa [Tree.seq] using hf)
  rw [hr] at e1
  cases e1
  exact ⟨⟨⟨t, e2, e3⟩, e4⟩, by simp [Tree.seq] at e5; omega⟩

/-! ### The theorems -/

/-- The history is executed without undefined behaviour and ends, whatever the random numbers are. -/
theorem C25_run {dup : Dup} {key : V → K} {cmp : K → K → Bool} (hw : StrictWeak cmp) (maxInt : Int) (junk : Nat → Int) {fuel : Nat} {ops : List (Op V K)} (hv : ValidRun dup key cmp [] ops)
    (hrand : ∀ op ∈ ops, RandOk op) (hf : ops.length < fuel) : ∃ h, run dup key cmp maxInt junk fuel init ops = some h := by
  obtain ⟨h', t, e1, -⟩ := run_spec hw (maxInt := maxInt) (junk := junk) (fuel := fuel) ops init_exact rfl (init_holds dup key cmp).good hv hrand (by simpa [Tree.seq] using hf)
  exact ⟨h', e1⟩

/-- Iteration yields the elements that the plain tree would hold. -/
theorem C25_iterate {dup : Dup} {key : V → K} {cmp : K → K → Bool} (hw : StrictWeak cmp) {maxInt : Int} {junk : Nat → Int} {fuel : Nat} {ops : List (Op V K)} (hv : ValidRun dup key cmp [] ops)
    (hrand : ∀ op ∈ ops, RandOk op) (hf : ops.length < fuel) {h : Heap V} (hr : run dup key cmp maxInt junk fuel init ops = some h) :
    (do let b ← inorderNext h fuel 0; walk h fuel fuel b) = some (specRun dup key cmp [] ops) := by
  obtain ⟨hh, hl⟩ := run_holds hw hv hrand hf hr
  exact hh.iterate hw hl

/-- The treap and the plain tree are iterated alike after the same operations. -/
theorem C25_same_as_tree {dup : Dup} {key : V → K} {cmp : K → K → Bool} (hw : StrictWeak cmp) {maxInt : Int} {junk : Nat → Int} {fuel : Nat} {ops : List (Op V K)} (hv : ValidRun dup key cmp [] ops)
    (hrand : ∀ op ∈ ops, RandOk op) (hf : ops.length < fuel) {h h' : Heap V} (hr : run dup key cmp maxInt junk fuel init ops = some h) (hr' : BST.run dup key cmp maxInt fuel init ops = some h') :
    (do let b ← inorderNext h fuel 0; walk h fuel fuel b) = (do let b ← inorderNext h' fuel 0; walk h' fuel fuel b) := by
  rw [C25_iterate hw hv hrand hf hr, C24_iterate hw hv hf hr']

/-- `++it`, `--it`. -/
theorem C25_step_iterator {dup : Dup} {key : V → K} {cmp : K → K → Bool} (hw : StrictWeak cmp) {maxInt : Int} {junk : Nat → Int} {fuel : Nat} {ops : List (Op V K)} (hv : ValidRun dup key cmp [] ops)
    (hrand : ∀ op ∈ ops, RandOk op) (hf : ops.length < fuel) {h : Heap V} (hr : run dup key cmp maxInt junk fuel init ops = some h) :
    (∀ s1 e s2, specRun dup key cmp [] ops = s1 ++ e :: s2 → inorderNext h fuel e.1 = some (first s2) ∧ inorderPrev h fuel e.1 = some (last s1)) ∧
    inorderNext h fuel 0 = some (first (specRun dup key cmp [] ops)) ∧ inorderPrev h fuel 0 = some (last (specRun dup key cmp [] ops)) := by
  obtain ⟨hh, hl⟩ := run_holds hw hv hrand hf hr
  exact hh.step_iterator hw hl

/-- `size` and `empty`. -/
theorem C25_size {dup : Dup} {key : V → K} {cmp : K → K → Bool} (hw : StrictWeak cmp) {maxInt : Int} {junk : Nat → Int} {fuel : Nat} {ops : List (Op V K)} (hv : ValidRun dup key cmp [] ops)
    (hrand : ∀ op ∈ ops, RandOk op) (hf : ops.length < fuel) {h : Heap V} (hr : run dup key cmp maxInt junk fuel init ops = some h) :
    size h = some ((specRun dup key cmp [] ops).map (·.2.2)).sum ∧ empty h = some (specRun dup key cmp [] ops).isEmpty := by
  obtain ⟨hh, hl⟩ := run_holds hw hv hrand hf hr
  exact hh.sizes hw hl

/-- `find`, `lower_bound` and `upper_bound`. -/
theorem C25_find {dup : Dup} {key : V → K} {cmp : K → K → Bool} (hw : StrictWeak cmp) {maxInt : Int} {junk : Nat → Int} {fuel : Nat} {ops : List (Op V K)} (hv : ValidRun dup key cmp [] ops)
    (hrand : ∀ op ∈ ops, RandOk op) (hf : ops.length < fuel) {h : Heap V} (hr : run dup key cmp maxInt junk fuel init ops = some h) (x : K) :
    find dup key cmp fuel h x = some (first ((specRun dup key cmp [] ops).filter (fun e => !cmp (key e.2.1) x && !cmp x (key e.2.1)))) ∧
    lowerBound key cmp fuel h x = some (first ((specRun dup key cmp [] ops).filter (fun e => !cmp (key e.2.1) x))) ∧
    upperBound key cmp fuel h x = some (first ((specRun dup key cmp [] ops).filter (fun e => cmp x (key e.2.1)))) := by
  obtain ⟨hh, hl⟩ := run_holds hw hv hrand hf hr
  exact hh.finds hw hl x

/-- `count_less`, `count_less_or_equal` and `count`. -/
theorem C25_count {dup : Dup} {key : V → K} {cmp : K → K → Bool} (hw : StrictWeak cmp) {maxInt : Int} {junk : Nat → Int} {fuel : Nat} {ops : List (Op V K)} (hv : ValidRun dup key cmp [] ops)
    (hrand : ∀ op ∈ ops, RandOk op) (hf : ops.length < fuel) {h : Heap V} (hr : run dup key cmp maxInt junk fuel init ops = some h) (x : K) :
    countLess key cmp fuel h x = some (((specRun dup key cmp [] ops).filter (fun e => cmp (key e.2.1) x)).map (·.2.2)).sum ∧
    countLessOrEqual key cmp fuel h x = some (((specRun dup key cmp [] ops).filter (fun e => !cmp x (key e.2.1))).map (·.2.2)).sum ∧
    countKey dup key cmp fuel h x = some (((specRun dup key cmp [] ops).filter (fun e => !cmp (key e.2.1) x && !cmp x (key e.2.1))).map (·.2.2)).sum := by
  obtain ⟨hh, hl⟩ := run_holds hw hv hrand hf hr
  exact hh.counts hw hl x

/-- `find_kth` and the position of an iterator. -/
theorem C25_kth {dup : Dup} {key : V → K} {cmp : K → K → Bool} (hw : StrictWeak cmp) {maxInt : Int} {junk : Nat → Int} {fuel : Nat} {ops : List (Op V K)} (hv : ValidRun dup key cmp [] ops)
    (hrand : ∀ op ∈ ops, RandOk op) (hf : ops.length < fuel) {h : Heap V} (hr : run dup key cmp maxInt junk fuel init ops = some h) :
    (∀ s1 e s2, specRun dup key cmp [] ops = s1 ++ e :: s2 → (inorderPos h fuel e.1).map (·.1) = some (s1.map (·.2.2)).sum ∧
      ∀ k, (s1.map (·.2.2)).sum ≤ k → k < (s1.map (·.2.2)).sum + e.2.2 → findKth fuel h k = some e.1) ∧
    (∀ k, k < 0 ∨ ((specRun dup key cmp [] ops).map (·.2.2)).sum ≤ k → findKth fuel h k = some 0) := by
  obtain ⟨hh, hl⟩ := run_holds hw hv hrand hf hr
  exact hh.kths hw hl

/-- No node has a smaller priority than its parent, as long as no equivalent element is inserted again and removals
remove all copies. -/
theorem C25_heap {dup : Dup} {key : V → K} {cmp : K → K → Bool} (hw : StrictWeak cmp) {maxInt : Int} {junk : Nat → Int} {fuel : Nat} {ops : List (Op V K)} (hv : ValidRun dup key cmp [] ops)
    (hrand : ∀ op ∈ ops, RandOk op) (hk : KeepsRun dup key cmp [] ops) (hf : ops.length < fuel) {h : Heap V} (hr : run dup key cmp maxInt junk fuel init ops = some h)
    {p : Nat} {n : Node V} (hp : h p = some n) (hpar : n.parent ≠ 0) : ∃ m, h n.parent = some m ∧ m.balance ≤ n.balance := by
  obtain ⟨h', t, e1, e2, -, -, -, e6⟩ := run_spec hw (maxInt := maxInt) (junk := junk) (fuel := fuel) ops init_exact rfl (init_holds dup key cmp).good hv hrand (by simpa [Tree.seq] using hf)
  rw [hr] at e1
  cases e1
  have hh := e6 hk trivial
  have hp0 : p ≠ 0 := by
    rintro rfl
    rw [e2.rep.nil] at hp
    cases hp
    exact hpar rfl
  have hin : p ∈ t.ad := by
    by_contra hc
    rw [e2.out p hp0 hc] at hp
    simp at hp
  obtain ⟨C, b, c, v, l, r, rfl⟩ := exists_focus t p hin
  obtain ⟨h1, h2, h3, h4, h5, h6, -⟩ := e2.rep.node
  rw [hp] at h3
  cases h3
  have ha := ((heapT_plug _ _).mp hh).2.2
  match C, e2, ha, hpar with
  | [], _, _, hpar => exact absurd rfl hpar
  | .L a b' c' v' r' :: C, e2, ha, _ =>
    have e3 : Exact h (plug C (.node a b' c' v' (.node p b c v l r) r')) := e2
    exact ⟨_, e3.rep.node.2.2.1, ha⟩
  | .R a b' c' v' l' :: C, e2, ha, _ =>
    have e3 : Exact h (plug C (.node a b' c' v' l' (.node p b c v l r))) := e2
    exact ⟨_, e3.rep.node.2.2.1, ha⟩

/-! ### The hypotheses are met -/

/-- A history with rotations in both directions. -/
def sample : List (Op Int Int) :=
  [.insert 1 50 50 1, .insert 2 30 30 2, .insert 3 70 70 1, .insert 4 10 60 3, .insert 5 20 80 1, .insert 6 0 10 4, .insert 7 40 40 1, .eraseIt 4 3, .eraseKey 30 9, .eraseRange 3 5 1]

example : ValidRun .count id less [] sample := by decide +kernel
example : ∀ op ∈ sample, RandOk op := by simp [sample, RandOk]
example : KeepsRun .count id less [] sample := by
  simp only [sample, KeepsRun]
  refine ⟨?_, ?_, ?_, ?_, ?_, ?_, ?_, ?_, ?_, ?_, trivial⟩
  iterate 7 exact Or.inr (by decide +kernel)
  iterate 3 exact fun _ => by decide +kernel

example : (run .count id less 2147483647 (fun _ => -7) 11 init sample).bind (fun h => (inorderNext h 11 0).bind (walk h 11 11)) = some [(6, 10, 4), (7, 40, 1), (1, 50, 1), (5, 80, 1)] := by decide +kernel

/-- The heap order is lost when an element is inserted again: it gets a new priority but moves only up. -/
theorem C25_reinsert : (run .ignore id less 2147483647 (fun _ => 0) 11 init [.insert 1 10 10 1, .insert 2 20 20 1, .insert 3 99 10 1]).bind
    (fun h => do let n ← h 2; let m ← h n.parent; some (m.balance, n.balance)) = some (99, 20) := by decide +kernel

/-- The heap order is lost when only some copies are removed: the node moves down and stays there. -/
theorem C25_partial_erase : (run .count id less 2147483647 (fun _ => 0) 11 init [.insert 1 10 10 2, .insert 2 20 5 1, .insert 3 30 20 1, .eraseIt 1 1]).bind
    (fun h => do let n ← h 1; let m ← h n.parent; some (m.balance, n.balance)) = some (20, 10) := by decide +kernel

/-- A negative random number is not accepted: the sentinel is rotated and the loop does not end within the given number of rounds. -/
theorem C25_negative_random : (run .ignore id less 2147483647 (fun _ => 0) 11 init [.insert 1 (-1) 10 1]) = none := by decide +kernel

end Altruct.Treap
