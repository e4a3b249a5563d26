/-
The prefix tree is a numbered set of words (C104).
-/
import Verif.Tries.PrefixModel
import Verif.Tries.PrefixSpec
import Verif.Tries.AhoProps
import Mathlib.Data.List.Lex
import Mathlib.Data.List.GetD
import Mathlib.Data.Finset.Card

namespace Altruct.Tries

open Altruct

/-! ### The heap -/

/-- The node of the path `p` is at the address `a p` and holds `g p`. -/
structure HRep (P : List (List Nat)) (a : List Nat → Nat) (g : List Nat → TrNode) (h : List (Option TrNode)) : Prop where
  pos : ∀ p ∈ P, 0 < a p
  get : ∀ p ∈ P, h[a p]? = some (some (g p))
  inj : ∀ p ∈ P, ∀ q ∈ P, a p = a q → p = q

theorem HRep.lt {P a g h} (hr : HRep P a g h) {p : List Nat} (hp : p ∈ P) : a p < h.length :=
  (List.getElem?_eq_some_iff.mp (hr.get p hp)).1

theorem HRep.read {P a g h} (hr : HRep P a g h) {p : List Nat} (hp : p ∈ P) : trGet h (a p) = some (g p) := by
  rw [trGet, rd, hr.get p hp]; rfl

theorem HRep.put {P a g h} (hr : HRep P a g h) {p : List Nat} (hp : p ∈ P) (nd : TrNode) :
    trPut h (a p) nd = some (h.set (a p) (some nd)) ∧ HRep P a (Function.update g p nd) (h.set (a p) (some nd)) := by
  refine ⟨by rw [trPut, hr.read hp, Option.bind_some, wr, if_pos (hr.lt hp)], hr.pos, fun q hq => ?_, hr.inj⟩
  by_cases e : q = p
  · subst e; rw [List.getElem?_set_self (hr.lt hp), Function.update_self]
  · rw [List.getElem?_set_ne (fun e' => e (hr.inj q hq p hp e'.symm)), Function.update_of_ne e, hr.get q hq]

theorem HRep.push {P a g h} (hr : HRep P a g h) {p : List Nat} (hp : p ∉ P) (hl : 0 < h.length) (nd : TrNode) :
    HRep (P ++ [p]) (Function.update a p h.length) (Function.update g p nd) (h ++ [some nd]) := by
  have hne : ∀ q ∈ P, q ≠ p := fun q hq e => hp (e ▸ hq)
  have hcases : ∀ q ∈ P ++ [p], q ∈ P ∨ q = p := fun q hq => by simpa using hq
  refine ⟨fun q hq => ?_, fun q hq => ?_, fun q hq r hrr e => ?_⟩
  · rcases hcases q hq with hq | rfl
    · rw [Function.update_of_ne (hne q hq)]; exact hr.pos q hq
    · rw [Function.update_self]; exact hl
  · rcases hcases q hq with hq | rfl
    · rw [Function.update_of_ne (hne q hq), Function.update_of_ne (hne q hq), List.getElem?_append_left (hr.lt hq), hr.get q hq]
    · rw [Function.update_self, Function.update_self]; simp
  · rcases hcases q hq with hq | rfl
    · rw [Function.update_of_ne (hne q hq)] at e
      have := hr.lt hq
      rcases hcases r hrr with hrr | rfl
      · rw [Function.update_of_ne (hne r hrr)] at e; exact hr.inj q hq r hrr e
      · rw [Function.update_self] at e; omega
    · rw [Function.update_self] at e
      rcases hcases r hrr with hrr | rfl
      · rw [Function.update_of_ne (hne r hrr)] at e
        have := hr.lt hrr; omega
      · rfl

theorem HRep.free {P a g h} (hr : HRep P a g h) (hn : P.Nodup) {p : List Nat} (hp : p ∈ P) :
    wr h (a p) none = some (h.set (a p) none) ∧ HRep (P.erase p) a g (h.set (a p) none) := by
  refine ⟨by rw [wr, if_pos (hr.lt hp)], fun q hq => hr.pos q (List.mem_of_mem_erase hq), fun q hq => ?_,
    fun q hq r hrr => hr.inj q (List.mem_of_mem_erase hq) r (List.mem_of_mem_erase hrr)⟩
  obtain ⟨e, hq⟩ := hn.mem_erase_iff.mp hq
  rw [List.getElem?_set_ne (fun e' => e (hr.inj q hq p hp e'.symm)), hr.get q hq]

theorem numberOf_eq (ws : List (List Nat)) (w : List Nat) : numberOf ws w = idx ws w := by
  rw [numberOf, idx]
  have : (List.instBEq : BEq (List Nat)) = instBEqOfDecidableEq := lawful_beq_subsingleton _ _
  split_ifs
  · rw [this]
  · rfl

/-! ### The tree -/

/-- The number of children of the path `q`. -/
def nk (A : Nat) (P : List (List Nat)) (q : List Nat) : Nat := ((Finset.range A).filter fun c => q ++ [c] ∈ P).card

/-- The tree of the paths `P` with the numbered words `ws`. -/
structure Good (A : Nat) (ws P : List (List Nat)) (a : List Nat → Nat) (g : List Nat → TrNode) : Prop where
  nil : [] ∈ P
  nodup : P.Nodup
  closed : ∀ q c, q ++ [c] ∈ P → q ∈ P
  next : ∀ p ∈ P, Rep (g p).next A fun c => if p ++ [c] ∈ P then a (p ++ [c]) else 0
  numCh : ∀ p ∈ P, (g p).numCh = nk A P p
  lett : ∀ p c, p ++ [c] ∈ P → (g (p ++ [c])).ord = c ∧ (g (p ++ [c])).parent = a p ∧ c < A
  wid : ∀ p ∈ P, (g p).wordId = idx ws p
  wsP : ∀ w ∈ ws, w ∈ P ∧ w ≠ []
  wsn : ws.Nodup

theorem closed_append {P : List (List Nat)} (h : ∀ q c, q ++ [c] ∈ P → q ∈ P) {q w : List Nat} : q ++ w ∈ P → q ∈ P := by
  induction w using List.reverseRecOn with
  | nil => intro h'; rwa [List.append_nil] at h'
  | append_singleton w c ih => intro h'; rw [← List.append_assoc] at h'; exact ih (h _ _ h')

theorem Good.prefix {A ws P a g} (hg : Good A ws P a g) {q p : List Nat} (h : q <+: p) (hp : p ∈ P) : q ∈ P := by
  obtain ⟨w, rfl⟩ := h; exact closed_append hg.closed hp

theorem Good.idx_nil {A ws P a g} (hg : Good A ws P a g) : idx ws [] = 0 := idx_eq_zero.mpr fun h => (hg.wsP _ h).2 rfl

/-- Every path leads to a word. -/
def Tight (ws P : List (List Nat)) : Prop := ∀ p ∈ P, p = [] ∨ ∃ w ∈ ws, p <+: w

theorem nk_push {A : Nat} {P : List (List Nat)} {q : List Nat} {c : Nat} (hc : c < A) (hn : q ++ [c] ∉ P) (r : List Nat) :
    nk A (P ++ [q ++ [c]]) r = if r = q then nk A P r + 1 else nk A P r := by
  split_ifs with e
  · subst e
    rw [nk, nk, ← Finset.card_insert_of_notMem (s := (Finset.range A).filter fun d => r ++ [d] ∈ P) (a := c) (by simp [hn])]
    congr 1
    ext d
    simp only [Finset.mem_filter, Finset.mem_range, List.mem_append, List.mem_singleton, Finset.mem_insert]
    constructor
    · rintro ⟨h1, h2 | h2⟩
      · exact Or.inr ⟨h1, h2⟩
      · left; simpa using h2
    · rintro (rfl | ⟨h1, h2⟩)
      · exact ⟨hc, Or.inr rfl⟩
      · exact ⟨h1, Or.inl h2⟩
  · rw [nk, nk]
    congr 1
    ext d
    simp only [Finset.mem_filter, Finset.mem_range, List.mem_append, List.mem_singleton]
    have : ¬ r ++ [d] = q ++ [c] := fun e' => e (List.append_inj_left' e' rfl)
    simp [this]

theorem nk_erase {A : Nat} {P : List (List Nat)} (hP : P.Nodup) {q : List Nat} {c : Nat} (hc : c < A) (hn : q ++ [c] ∈ P) (r : List Nat) :
    nk A (P.erase (q ++ [c])) r = if r = q then nk A P r - 1 else nk A P r := by
  split_ifs with e
  · subst e
    rw [nk, nk, ← Finset.card_erase_of_mem (s := (Finset.range A).filter fun d => r ++ [d] ∈ P) (a := c) (by simp [hn, hc])]
    congr 1
    ext d
    simp only [Finset.mem_filter, Finset.mem_range, hP.mem_erase_iff, Finset.mem_erase, ne_eq, List.append_cancel_left_eq, List.cons.injEq, and_true]
    constructor
    · rintro ⟨h1, h2, h3⟩; exact ⟨h2, h1, h3⟩
    · rintro ⟨h1, h2, h3⟩; exact ⟨h2, h1, h3⟩
  · rw [nk, nk]
    congr 1
    ext d
    simp only [Finset.mem_filter, Finset.mem_range, hP.mem_erase_iff]
    have : r ++ [d] ≠ q ++ [c] := fun e' => e (List.append_inj_left' e' rfl)
    simp [this]

/-! ### Insertion -/

theorem Good.push {A ws P a g} (hg : Good A ws P a g) {q : List Nat} {c l : Nat} (hc : c < A) (hq : q ∈ P) (hn : q ++ [c] ∉ P) :
    Good A ws (P ++ [q ++ [c]]) (Function.update a (q ++ [c]) l) (Function.update (Function.update g (q ++ [c]) { trZero A with parent := a q, ord := c }) q
      { g q with next := (g q).next.set c l, numCh := (g q).numCh + 1 }) := by
  set p := q ++ [c] with hp
  have hpq : p ≠ q := by rw [hp]; intro e; have := congrArg List.length e; simp at this
  have hne : ∀ r ∈ P, r ≠ p := fun r hr e => hn (e ▸ hr)
  have hcases : ∀ r ∈ P ++ [p], r ∈ P ∨ r = p := fun r hr => by simpa using hr
  have atp : Function.update (Function.update g p { trZero A with parent := a q, ord := c }) q
      { g q with next := (g q).next.set c l, numCh := (g q).numCh + 1 } p = { trZero A with parent := a q, ord := c } := by
    rw [Function.update_of_ne hpq, Function.update_self]
  have old : ∀ r, r ≠ p → r ≠ q → Function.update (Function.update g p { trZero A with parent := a q, ord := c }) q
      { g q with next := (g q).next.set c l, numCh := (g q).numCh + 1 } r = g r := by
    intro r h1 h2; rw [Function.update_of_ne h2, Function.update_of_ne h1]
  have hnk : ∀ d, p ++ [d] ∉ P ++ [p] := fun d h => by
    rcases hcases _ h with h | h
    · exact hn (hg.closed _ _ h)
    · have := congrArg List.length h; simp at this
  constructor
  · exact List.mem_append_left _ hg.nil
  · rw [List.nodup_append]
    exact ⟨hg.nodup, List.nodup_singleton _, fun x hx y hy e => by
      rw [List.mem_singleton] at hy; subst hy; subst e; exact hn hx⟩
  · intro r d h
    rcases hcases _ h with h | h
    · exact List.mem_append_left _ (hg.closed _ _ h)
    · rw [List.append_inj_left' h rfl]; exact List.mem_append_left _ hq
  · intro r h
    rcases hcases r h with hr | rfl
    · by_cases e : r = q
      · subst e
        rw [Function.update_self]
        refine ((hg.next r hr).set c l).congr fun d _ => ?_
        by_cases ed : d = c
        · subst ed
          rw [Function.update_self, if_pos (by simp [hp]), ← hp, Function.update_self]
        · have h2 : r ++ [d] ≠ p := by rw [hp]; intro e; exact ed (by simpa using e)
          rw [Function.update_of_ne ed, Function.update_of_ne h2]
          simp only [List.mem_append, List.mem_singleton, h2, or_false]
      · rw [old r (hne r hr) e]
        refine (hg.next r hr).congr fun d _ => ?_
        have h2 : r ++ [d] ≠ p := by rw [hp]; intro e'; exact e (List.append_inj_left' e' rfl)
        rw [Function.update_of_ne h2]
        simp only [List.mem_append, List.mem_singleton, h2, or_false]
    · rw [atp]
      refine (Rep.replicate A 0).congr fun d _ => ?_
      rw [if_neg (hnk d)]
  · intro r h
    rw [hp, nk_push hc hn, ← hp]
    rcases hcases r h with hr | rfl
    · by_cases e : r = q
      · subst e; rw [Function.update_self, if_pos rfl, ← hg.numCh r hr]
      · rw [old r (hne r hr) e, if_neg e, hg.numCh r hr]
    · rw [atp, if_neg hpq]
      symm
      show nk A P p = 0
      rw [nk, Finset.card_eq_zero, Finset.filter_eq_empty_iff]
      intro d _ h'
      exact hn (hg.closed _ _ h')
  · intro r d h
    rcases hcases _ h with h | h
    · have h3 := hg.lett r d h
      rw [Function.update_of_ne (hne r (hg.closed _ _ h))]
      by_cases e : r ++ [d] = q
      · rw [e] at h3 ⊢; rw [Function.update_self]; exact h3
      · rw [old _ (hne _ h) e]; exact h3
    · rw [h, atp]
      have h1 : r = q := List.append_inj_left' h rfl
      have h2 : d = c := by rw [hp, h1] at h; simpa using h
      subst h1 h2
      rw [Function.update_of_ne hpq.symm]
      exact ⟨rfl, rfl, hc⟩
  · intro r h
    rcases hcases r h with hr | rfl
    · by_cases e : r = q
      · subst e; rw [Function.update_self]; exact hg.wid r hr
      · rw [old r (hne r hr) e]; exact hg.wid r hr
    · rw [atp, idx_eq_zero.mpr fun h' => hn (hg.wsP _ h').1]; rfl
  · exact fun w hw => ⟨List.mem_append_left _ (hg.wsP w hw).1, (hg.wsP w hw).2⟩
  · exact hg.wsn

theorem trInsertLoop_spec {A : Nat} {ws : List (List Nat)} : ∀ (w : List Nat) (P : List (List Nat)) (a : List Nat → Nat) (g : List Nat → TrNode)
    (h : List (Option TrNode)) (q : List Nat), HRep P a g h → Good A ws P a g → q ∈ P → (∀ c ∈ w, c < A) →
    ∃ P' a' g' h', trInsertLoop A h P.length (a q) w = some (a' (q ++ w), h', P'.length) ∧ HRep P' a' g' h' ∧ Good A ws P' a' g' ∧
      q ++ w ∈ P' ∧ (∀ r ∈ P, r ∈ P' ∧ a' r = a r) ∧ (∀ r ∈ P', r ∈ P ∨ r <+: q ++ w) ∧ P'.length ≤ P.length + w.length := by
  intro w
  induction w with
  | nil =>
    intro P a g h q hr hg hq _
    exact ⟨P, a, g, h, by rw [trInsertLoop, List.append_nil], hr, hg, by rwa [List.append_nil], fun r h => ⟨h, rfl⟩, fun r h => Or.inl h, by simp⟩
  | cons c w ih =>
    intro P a g h q hr hg hq hc
    have hcA := hc c (by simp)
    have e : q ++ c :: w = q ++ [c] ++ w := by simp
    rw [trInsertLoop, hr.read hq, Option.bind_some, (hg.next q hq).rd hcA, Option.bind_some, e]
    by_cases hin : q ++ [c] ∈ P
    · rw [if_pos hin, if_neg (by have := hr.pos _ hin; omega)]
      obtain ⟨P', a', g', h', e1, h1, h2, h3, h4, h5, h6⟩ := ih P a g h (q ++ [c]) hr hg hin (fun d hd => hc d (by simp [hd]))
      exact ⟨P', a', g', h', e1, h1, h2, h3, h4, h5, by simp; omega⟩
    · rw [if_neg hin, if_pos rfl, (hg.next q hq).wr hcA, Option.bind_some]
      have hr1 := hr.push hin (by have := hr.lt hq; omega) { trZero A with parent := a q, ord := c }
      have hqp : q ≠ q ++ [c] := by intro e; have := congrArg List.length e; simp at this
      obtain ⟨ep, hr2⟩ := hr1.put (p := q) (List.mem_append_left _ hq) { g q with next := (g q).next.set c h.length, numCh := (g q).numCh + 1 }
      rw [Function.update_of_ne hqp] at ep hr2
      rw [ep, Option.bind_some]
      have hg2 := hg.push (l := h.length) hcA hq hin
      obtain ⟨P', a', g', h', e1, h1, h2, h3, h4, h5, h6⟩ := ih _ _ _ _ (q ++ [c]) hr2 hg2 (by simp) (fun d hd => hc d (by simp [hd]))
      rw [Function.update_self, List.length_append, List.length_singleton] at e1
      refine ⟨P', a', g', h', e1, h1, h2, h3, fun r hrr => ?_, fun r hrr => ?_, by simp at h6 ⊢; omega⟩
      · obtain ⟨m1, m2⟩ := h4 r (List.mem_append_left _ hrr)
        exact ⟨m1, by rw [m2, Function.update_of_ne (fun e : r = q ++ [c] => hin (e ▸ hrr))]⟩
      · rcases h5 r hrr with h' | h'
        · rw [List.mem_append, List.mem_singleton] at h'
          rcases h' with h' | rfl
          · exact Or.inl h'
          · exact Or.inr (List.prefix_append _ _)
        · exact Or.inr h'

/-- The object. -/
structure TInv (A : Nat) (ws : List (List Nat)) (s : TrState) (P : List (List Nat)) (a : List Nat → Nat) (g : List Nat → TrNode) : Prop where
  rep : HRep P a g s.heap
  good : Good A ws P a g
  tight : Tight ws P
  root : s.root = a []
  nodes : s.nodes = P.length
  words : s.words = a [] :: ws.map a

theorem Good.addWord {A ws P a g} (hg : Good A ws P a g) {v : List Nat} (hv : v ∈ P) (hne : v ≠ []) (hn : v ∉ ws) {n : Nat} (hl : n = ws.length + 1) :
    Good A (ws ++ [v]) P a (Function.update g v { g v with wordId := n }) := by
  constructor
  · exact hg.nil
  · exact hg.nodup
  · exact hg.closed
  · intro r hr
    by_cases e : r = v
    · subst e; rw [Function.update_self]; exact hg.next r hr
    · rw [Function.update_of_ne e]; exact hg.next r hr
  · intro r hr
    by_cases e : r = v
    · subst e; rw [Function.update_self]; exact hg.numCh r hr
    · rw [Function.update_of_ne e]; exact hg.numCh r hr
  · intro r d hr
    have h3 := hg.lett r d hr
    by_cases e : r ++ [d] = v
    · rw [e] at h3 ⊢; rw [Function.update_self]; exact h3
    · rw [Function.update_of_ne e]; exact h3
  · intro r hr
    by_cases e : r = v
    · subst e; rw [Function.update_self, idx_append_self hn]; exact hl
    · rw [Function.update_of_ne e, idx_append e]; exact hg.wid r hr
  · intro w hw
    rw [List.mem_append, List.mem_singleton] at hw
    rcases hw with hw | rfl
    · exact hg.wsP w hw
    · exact ⟨hv, hne⟩
  · rw [List.nodup_append]
    exact ⟨hg.wsn, List.nodup_singleton _, fun x hx y hy e => by
      rw [List.mem_singleton] at hy; subst hy; subst e; exact hn hx⟩

theorem trInsert_spec {A ws s P a g} (h : TInv A ws s P a g) {q w : List Nat} (hq : q ∈ P) (hw : ∀ c ∈ w, c < A) :
    ∃ s' P' a' g', trInsert A s (a q) w = some (numberOf (addWord ws (q ++ w)) (q ++ w), s') ∧
      TInv A (addWord ws (q ++ w)) s' P' a' g' ∧ P'.length ≤ P.length + w.length := by
  obtain ⟨P', a', g', h', e1, hr, hg, hv, hold, hnew, hlen⟩ := trInsertLoop_spec w P a g s.heap q h.rep h.good hq hw
  have hwords : s.words = a' [] :: ws.map a' := by
    rw [h.words, (hold [] h.good.nil).2, List.map_congr_left fun w hw => ((hold w (h.good.wsP w hw).1).2).symm]
  have hroot : s.root = a' [] := by rw [h.root, (hold [] h.good.nil).2]
  rw [trInsert, h.nodes, e1, Option.bind_some]
  simp only
  rw [hr.read hv, Option.bind_some, hg.wid _ hv]
  by_cases hc : q ++ w = [] ∨ q ++ w ∈ ws
  · rw [if_neg]
    · rw [addWord, if_pos hc]
      refine ⟨⟨h', P'.length, s.root, s.words⟩, P', a', g', by rw [numberOf_eq], ⟨hr, hg, fun r hrr => ?_, hroot, rfl, hwords⟩, hlen⟩
      rcases hnew r hrr with h1 | h1
      · exact h.tight r h1
      · rcases hc with hc | hc
        · left; rw [hc] at h1; exact List.prefix_nil.mp h1
        · exact Or.inr ⟨_, hc, h1⟩
    · rintro ⟨h1, h2⟩
      rcases hc with hc | hc
      · exact h1 (by rw [hc, hroot])
      · have := idx_pos hc; omega
  · rw [not_or] at hc
    have hl : s.words.length = ws.length + 1 := by rw [hwords]; simp
    obtain ⟨ep, hr2⟩ := hr.put hv { g' (q ++ w) with wordId := s.words.length }
    rw [if_pos ⟨fun e => hc.1 (hr.inj _ hv _ hg.nil (by rw [e, hroot])), idx_eq_zero.mpr hc.2⟩, ep, Option.map_some, addWord,
      if_neg (not_or.mpr hc)]
    refine ⟨⟨_, P'.length, s.root, s.words ++ [a' (q ++ w)]⟩, P', a', _, ?_, ⟨hr2, hg.addWord hv hc.1 hc.2 hl, fun r hrr => ?_, hroot, rfl, ?_⟩, hlen⟩
    · rw [numberOf_eq, idx_append_self hc.2, hl]
    · rcases hnew r hrr with h1 | h1
      · rcases h.tight r h1 with e | ⟨v, v1, v2⟩
        · exact Or.inl e
        · exact Or.inr ⟨v, List.mem_append_left _ v1, v2⟩
      · exact Or.inr ⟨q ++ w, by simp, h1⟩
    · show s.words ++ [_] = _
      rw [hwords]; simp

/-! ### Reading -/

theorem trFindLoop_spec {A ws P a g h} (hr : HRep P a g h) (hg : Good A ws P a g) (root : Nat) : ∀ (w q : List Nat), q ∈ P → (∀ c ∈ w, c < A) →
    trFindLoop h root (a q) w = some (if q ++ w ∈ P then a (q ++ w) else root) := by
  intro w
  induction w with
  | nil => intro q hq _; rw [trFindLoop, List.append_nil, if_pos hq]
  | cons c w ih =>
    intro q hq hc
    have e : q ++ c :: w = q ++ [c] ++ w := by simp
    rw [trFindLoop, hr.read hq, Option.bind_some, (hg.next q hq).rd (hc c (by simp)), Option.bind_some, e]
    by_cases hin : q ++ [c] ∈ P
    · rw [if_pos hin, if_neg (by have := hr.pos _ hin; omega), ih _ hin fun d hd => hc d (by simp [hd])]
    · rw [if_neg hin, if_pos rfl, if_neg fun h' => hin (closed_append hg.closed h')]

theorem trFind_spec {A ws s P a g} (h : TInv A ws s P a g) {w : List Nat} (hw : ∀ c ∈ w, c < A) : trFind s w = some (numberOf ws w) := by
  have hn : numberOf ws w = idx ws w := numberOf_eq ws w
  rw [trFind, h.root, trFindLoop_spec h.rep h.good _ w [] h.good.nil hw, Option.bind_some, List.nil_append, hn]
  by_cases hin : w ∈ P
  · rw [if_pos hin, h.rep.read hin, Option.map_some, h.good.wid w hin]
  · rw [if_neg hin, h.rep.read h.good.nil, Option.map_some, h.good.wid _ h.good.nil, h.good.idx_nil,
      idx_eq_zero.mpr fun h' => hin (h.good.wsP _ h').1]

theorem trGetLoop_spec {A ws P a g h} (hr : HRep P a g h) (hg : Good A ws P a g) : ∀ (p : List Nat) (fuel : Nat), p ∈ P → p.length < fuel →
    trGetLoop h (a []) fuel (a p) = some p.reverse := by
  intro p
  induction p using List.reverseRecOn with
  | nil =>
    intro fuel _ hf
    obtain ⟨f, rfl⟩ : ∃ f, fuel = f + 1 := ⟨fuel - 1, by omega⟩
    rw [trGetLoop, if_pos rfl]; rfl
  | append_singleton p c ih =>
    intro fuel hp hf
    obtain ⟨f, rfl⟩ : ∃ f, fuel = f + 1 := ⟨fuel - 1, by omega⟩
    have hl := hg.lett p c hp
    rw [trGetLoop, if_neg (fun e => by have := hr.inj _ hp _ hg.nil e; simp at this), hr.read hp, Option.bind_some, hl.2.1,
      ih f (hg.closed _ _ hp) (by simp at hf; omega), Option.map_some, hl.1]
    simp

theorem wordOf_mem {A ws s P a g} (h : TInv A ws s P a g) {id : Nat} (hid : id ≤ ws.length) : wordOf ws id ∈ P ∧ rd s.words id = some (a (wordOf ws id)) := by
  rw [h.words, wordOf, rd]
  cases id with
  | zero => exact ⟨h.good.nil, rfl⟩
  | succ id =>
    rw [if_neg (by omega), Nat.add_sub_cancel, List.getD_eq_getElem _ _ (by omega)]
    refine ⟨(h.good.wsP _ (List.getElem_mem (by omega))).1, ?_⟩
    rw [List.getElem?_cons_succ, List.getElem?_map, List.getElem?_eq_getElem (by omega)]; rfl

theorem trWord_spec {A ws s P a g} (h : TInv A ws s P a g) {id : Nat} (hid : id ≤ ws.length) {fuel : Nat} (hf : ∀ p ∈ P, p.length < fuel) :
    trWord fuel s id = some (wordOf ws id) := by
  obtain ⟨h1, h2⟩ := wordOf_mem h hid
  rw [trWord, h2, Option.bind_some, h.root, trGetLoop_spec h.rep h.good _ fuel h1 (hf _ h1), Option.map_some, List.reverse_reverse]

/-- What visiting the node of `p` yields. -/
def VisitOk (ws : List (List Nat)) (p : List Nat) (l : List (List Nat × Nat)) : Prop :=
  (l.map Prod.fst).Pairwise (List.Lex (· < ·)) ∧ ∀ w n, (w, n) ∈ l ↔ w ∈ ws ∧ n = idx ws w ∧ p <+: w

theorem prefix_head {p w : List Nat} : p <+: w ↔ w = p ∨ ∃ c, p ++ [c] <+: w := by
  constructor
  · rintro ⟨v, rfl⟩
    cases v with
    | nil => left; simp
    | cons c v => exact Or.inr ⟨c, v, by simp⟩
  · rintro (rfl | ⟨c, h⟩)
    · exact List.prefix_rfl
    · exact (List.prefix_append p [c]).trans h

theorem lex_kids {p v w : List Nat} {c d : Nat} (hcd : c < d) (hv : p ++ [c] <+: v) (hw : p ++ [d] <+: w) : List.Lex (· < ·) v w := by
  obtain ⟨v', rfl⟩ := hv
  obtain ⟨w', rfl⟩ := hw
  rw [List.append_assoc, List.append_assoc]
  exact List.Lex.append_left _ (List.Lex.rel hcd) p

theorem trKids_spec {ws P : List (List Nat)} {a : List Nat → Nat} {visit : Nat → List Nat → Option (List (List Nat × Nat))} {p : List Nat}
    (hpos : ∀ q ∈ P, 0 < a q) (hwsP : ∀ w ∈ ws, ∀ q, q <+: w → q ∈ P)
    (hv : ∀ c, p ++ [c] ∈ P → ∃ l, visit (a (p ++ [c])) (p ++ [c]) = some l ∧ VisitOk ws (p ++ [c]) l) : ∀ (k o : Nat),
    ∃ l, trKids visit p o ((List.range k).map fun i => if p ++ [o + i] ∈ P then a (p ++ [o + i]) else 0) = some l ∧
      (l.map Prod.fst).Pairwise (List.Lex (· < ·)) ∧ ∀ w n, (w, n) ∈ l ↔ w ∈ ws ∧ n = idx ws w ∧ ∃ c, o ≤ c ∧ c < o + k ∧ p ++ [c] <+: w := by
  intro k
  induction k with
  | zero =>
    intro o
    refine ⟨[], rfl, by simp, fun w n => ?_⟩
    constructor
    · intro h; simp at h
    · rintro ⟨_, _, c, h1, h2, _⟩; omega
  | succ k ih =>
    intro o
    obtain ⟨l, e, h1, h2⟩ := ih (o + 1)
    rw [List.range_succ_eq_map, List.map_cons, List.map_map, Nat.add_zero]
    have e' : ((fun i => if p ++ [o + i] ∈ P then a (p ++ [o + i]) else 0) ∘ Nat.succ) = fun i => if p ++ [o + 1 + i] ∈ P then a (p ++ [o + 1 + i]) else 0 := by
      funext i; simp only [Function.comp_apply, Nat.succ_eq_add_one, show o + (i + 1) = o + 1 + i by omega]
    rw [e', trKids]
    by_cases hin : p ++ [o] ∈ P
    · rw [if_pos hin, if_neg (by have := hpos _ hin; omega)]
      obtain ⟨l1, e1, h3, h4⟩ := hv o hin
      rw [e1, Option.bind_some, e, Option.map_some]
      refine ⟨_, rfl, ?_, fun w n => ?_⟩
      · rw [List.map_append, List.pairwise_append]
        refine ⟨h3, h1, fun v hv1 w hw1 => ?_⟩
        obtain ⟨⟨v', n⟩, m1, rfl⟩ := List.mem_map.mp hv1
        obtain ⟨⟨w', n'⟩, m2, rfl⟩ := List.mem_map.mp hw1
        obtain ⟨_, _, c, c1, _, c2⟩ := (h2 _ _).mp m2
        exact lex_kids (by omega) ((h4 _ _).mp m1).2.2 c2
      · rw [List.mem_append, h4, h2]
        constructor
        · rintro (⟨m1, m2, m3⟩ | ⟨m1, m2, c, m3, m4, m5⟩)
          · exact ⟨m1, m2, o, le_refl _, by omega, m3⟩
          · exact ⟨m1, m2, c, by omega, by omega, m5⟩
        · rintro ⟨m1, m2, c, m3, m4, m5⟩
          by_cases e : c = o
          · subst e; exact Or.inl ⟨m1, m2, m5⟩
          · exact Or.inr ⟨m1, m2, c, by omega, by omega, m5⟩
    · rw [if_neg hin, if_pos rfl, e]
      refine ⟨l, rfl, h1, fun w n => ?_⟩
      rw [h2]
      constructor
      · rintro ⟨m1, m2, c, m3, m4, m5⟩; exact ⟨m1, m2, c, by omega, by omega, m5⟩
      · rintro ⟨m1, m2, c, m3, m4, m5⟩
        by_cases e : c = o
        · subst e; exact absurd (hwsP w m1 _ m5) hin
        · exact ⟨m1, m2, c, by omega, by omega, m5⟩

theorem trVisit_spec {A ws P a g h} (hr : HRep P a g h) (hg : Good A ws P a g) {N : Nat} (hN : ∀ p ∈ P, p.length < N) : ∀ (fuel : Nat) (p : List Nat),
    p ∈ P → N ≤ fuel + p.length → ∃ l, trVisit h fuel (a p) p = some l ∧ VisitOk ws p l := by
  intro fuel
  induction fuel with
  | zero => intro p hp h; have := hN p hp; omega
  | succ fuel ih =>
    intro p hp hf
    have hwsP : ∀ w ∈ ws, ∀ q, q <+: w → q ∈ P := fun w hw q hq => hg.prefix hq (hg.wsP w hw).1
    obtain ⟨l, e, h1, h2⟩ := trKids_spec (ws := ws) (p := p) hr.pos hwsP (visit := trVisit h fuel)
      (fun c hc => ih (p ++ [c]) hc (by simp; omega)) A 0
    have e0 : (g p).next = (List.range A).map fun i => if p ++ [0 + i] ∈ P then a (p ++ [0 + i]) else 0 := by
      rw [(hg.next p hp).eq_map]; simp only [Nat.zero_add]
    rw [trVisit, hr.read hp, Option.bind_some, e0, e, Option.map_some, hg.wid p hp]
    have hkid : ∀ w ∈ ws, ∀ c, p ++ [c] <+: w → c < A := fun w hw c hc => (hg.lett p c (hwsP w hw _ hc)).2.2
    have hlt : ∀ w c, p ++ [c] <+: w → List.Lex (· < ·) p w := by
      rintro w c ⟨v, rfl⟩
      rw [List.append_assoc]
      conv => arg 2; rw [← List.append_nil p]
      exact List.Lex.append_left _ List.Lex.nil p
    by_cases hin : p ∈ ws
    · rw [if_pos (by have := idx_pos hin; omega)]
      refine ⟨_, rfl, ?_, fun w n => ?_⟩
      · rw [List.map_cons, List.pairwise_cons]
        refine ⟨fun v hv => ?_, h1⟩
        obtain ⟨⟨v', n⟩, m1, rfl⟩ := List.mem_map.mp hv
        obtain ⟨_, _, c, _, _, c2⟩ := (h2 _ _).mp m1
        exact hlt _ c c2
      · rw [List.mem_cons, h2, prefix_head, Prod.mk.injEq]
        constructor
        · rintro (⟨rfl, m⟩ | ⟨m1, m2, c, _, _, m5⟩)
          · exact ⟨hin, m, Or.inl rfl⟩
          · exact ⟨m1, m2, Or.inr ⟨c, m5⟩⟩
        · rintro ⟨m1, m2, rfl | ⟨c, m5⟩⟩
          · exact Or.inl ⟨rfl, m2⟩
          · exact Or.inr ⟨m1, m2, c, by omega, by have := hkid w m1 c m5; omega, m5⟩
    · rw [if_neg (by rw [idx_eq_zero.mpr hin]; simp)]
      refine ⟨_, rfl, h1, fun w n => ?_⟩
      rw [h2, prefix_head]
      constructor
      · rintro ⟨m1, m2, c, _, _, m5⟩; exact ⟨m1, m2, Or.inr ⟨c, m5⟩⟩
      · rintro ⟨m1, m2, rfl | ⟨c, m5⟩⟩
        · exact absurd m1 hin
        · exact ⟨m1, m2, c, by omega, by have := hkid w m1 c m5; omega, m5⟩

/-! ### Removal -/

theorem Good.erase {A ws P a g} (hg : Good A ws P a g) {q : List Nat} {c : Nat} (hp : q ++ [c] ∈ P) (hk : nk A P (q ++ [c]) = 0) (hw : q ++ [c] ∉ ws) :
    Good A ws (P.erase (q ++ [c])) a (Function.update g q { g q with numCh := (g q).numCh - 1, next := (g q).next.set c 0 }) := by
  set p := q ++ [c] with hpd
  have hcA := (hg.lett q c hp).2.2
  have hm : ∀ r, r ∈ P.erase p ↔ r ≠ p ∧ r ∈ P := fun r => hg.nodup.mem_erase_iff
  have hnk : ∀ d, p ++ [d] ∉ P := fun d hd => by
    rw [nk, Finset.card_eq_zero, Finset.filter_eq_empty_iff] at hk
    exact hk (Finset.mem_range.mpr (hg.lett p d hd).2.2) hd
  have hpne : p ≠ [] := by rw [hpd]; simp
  constructor
  · exact (hm _).mpr ⟨hpne.symm, hg.nil⟩
  · exact hg.nodup.erase p
  · intro r d h
    have h' := ((hm _).mp h).2
    exact (hm _).mpr ⟨fun e => hnk d (by rw [← e]; exact h'), hg.closed _ _ h'⟩
  · intro r h
    have hr := ((hm _).mp h).2
    by_cases e : r = q
    · subst e
      rw [Function.update_self]
      refine ((hg.next r hr).set c 0).congr fun d _ => ?_
      by_cases ed : d = c
      · subst ed
        rw [Function.update_self, if_neg fun h' => ((hm _).mp h').1 rfl]
      · have h2 : r ++ [d] ≠ p := by rw [hpd]; intro e; exact ed (by simpa using e)
        rw [Function.update_of_ne ed]
        simp only [hm, ne_eq, h2, not_false_eq_true, true_and]
    · rw [Function.update_of_ne e]
      refine (hg.next r hr).congr fun d _ => ?_
      have h2 : r ++ [d] ≠ p := by rw [hpd]; intro e'; exact e (List.append_inj_left' e' rfl)
      simp only [hm, ne_eq, h2, not_false_eq_true, true_and]
  · intro r h
    have hr := ((hm _).mp h).2
    rw [hpd, nk_erase hg.nodup hcA hp]
    by_cases e : r = q
    · subst e; rw [Function.update_self, if_pos rfl, ← hg.numCh r hr]
    · rw [Function.update_of_ne e, if_neg e, hg.numCh r hr]
  · intro r d h
    have h3 := hg.lett r d ((hm _).mp h).2
    by_cases e : r ++ [d] = q
    · rw [e] at h3 ⊢; rw [Function.update_self]; exact h3
    · rw [Function.update_of_ne e]; exact h3
  · intro r h
    have hr := ((hm _).mp h).2
    by_cases e : r = q
    · subst e; rw [Function.update_self]; exact hg.wid r hr
    · rw [Function.update_of_ne e]; exact hg.wid r hr
  · exact fun w hw' => ⟨(hm _).mpr ⟨fun e => hw (e ▸ hw'), (hg.wsP w hw').1⟩, (hg.wsP w hw').2⟩
  · exact hg.wsn

theorem trEraseLoop_spec {A ws a} : ∀ (fuel : Nat) (P : List (List Nat)) (g : List Nat → TrNode) (h : List (Option TrNode)) (t : List Nat),
    HRep P a g h → Good A ws P a g → t ∈ P → t.length < fuel → (∀ p ∈ P, p = [] ∨ (∃ w ∈ ws, p <+: w) ∨ p <+: t) →
    ∃ P' g' h', trEraseLoop (a []) fuel h P.length (a t) = some (h', P'.length) ∧ HRep P' a g' h' ∧ Good A ws P' a g' ∧ Tight ws P' ∧
      P'.length ≤ P.length := by
  intro fuel
  induction fuel with
  | zero => intro P g h t _ _ _ hf; omega
  | succ fuel ih =>
    intro P g h t hr hg ht hf hti
    rw [trEraseLoop, hr.read ht, Option.bind_some, hg.numCh t ht, hg.wid t ht]
    by_cases hc : a t ≠ a [] ∧ nk A P t = 0 ∧ idx ws t = 0
    · rw [if_pos hc]
      rcases List.eq_nil_or_concat t with rfl | ⟨q, c, rfl⟩
      · exact absurd rfl hc.1
      rw [List.concat_eq_append] at *
      have hl := hg.lett q c ht
      have hq := hg.closed _ _ ht
      have hqp : q ++ [c] ≠ q := by intro e; have := congrArg List.length e; simp at this
      obtain ⟨ep, hr1⟩ := hr.put hq { g q with numCh := (g q).numCh - 1, next := (g q).next.set c 0 }
      obtain ⟨ef, hr2⟩ := hr1.free hg.nodup ht
      have hg2 := hg.erase ht hc.2.1 (idx_eq_zero.mp hc.2.2)
      have hlen : (P.erase (q ++ [c])).length = P.length - 1 := List.length_erase_of_mem ht
      obtain ⟨P', g', h', e1, h1, h2, h3, h4⟩ := ih _ _ _ q hr2 hg2 (hg.nodup.mem_erase_iff.mpr ⟨hqp.symm, hq⟩) (by simp at hf; omega) (by
        intro p hp
        obtain ⟨p1, p2⟩ := hg.nodup.mem_erase_iff.mp hp
        rcases hti p p2 with e | h' | h'
        · exact Or.inl e
        · exact Or.inr (Or.inl h')
        · rcases List.prefix_concat_iff.mp h' with e | h'
          · exact absurd e p1
          · exact Or.inr (Or.inr h'))
      rw [hl.2.1, hr.read hq, Option.bind_some, hl.1, (hg.next q hq).wr hl.2.2, Option.bind_some, ep, Option.bind_some, ef, Option.bind_some, ← hlen, e1]
      exact ⟨P', g', h', rfl, h1, h2, h3, by omega⟩
    · rw [if_neg hc]
      refine ⟨P, g, h, rfl, hr, hg, fun p hp => ?_, le_refl _⟩
      rcases hti p hp with e | h' | h'
      · exact Or.inl e
      · exact Or.inr h'
      · by_cases e1 : a t = a []
        · left
          rw [hr.inj t ht _ hg.nil e1] at h'
          exact List.prefix_nil.mp h'
        by_cases e2 : idx ws t = 0
        · have e3 : nk A P t ≠ 0 := fun e3 => hc ⟨e1, e3, e2⟩
          rw [nk, Finset.card_ne_zero] at e3
          obtain ⟨d, hd⟩ := e3
          have hd := (Finset.mem_filter.mp hd).2
          rcases hti _ hd with e | ⟨w, w1, w2⟩ | h2
          · simp at e
          · exact Or.inr ⟨w, w1, h'.trans ((List.prefix_append _ _).trans w2)⟩
          · have := h2.length_le; simp at this
        · have : t ∈ ws := by by_contra h2; exact e2 (idx_eq_zero.mpr h2)
          exact Or.inr ⟨t, this, h'⟩

/-- The words after a removal. -/
theorem erase_words {ws : List (List Nat)} (hn : ws.Nodup) {i : Nat} {t : List Nat} (hi : ws[i]? = some t) :
    ∃ last, ws.getLastD [] = last ∧ last ∈ ws ∧ ws[ws.length - 1]? = some last ∧ eraseWord ws (i + 1) = (ws.set i last).dropLast ∧
      ((ws.set i last).dropLast).Nodup ∧ (∀ w, w ∈ (ws.set i last).dropLast ↔ w ∈ ws ∧ w ≠ t) ∧
      ∀ p, p ≠ t → idx ((ws.set i last).dropLast) p = if p = last then i + 1 else idx ws p := by
  obtain ⟨hil, hit⟩ := List.getElem?_eq_some_iff.mp hi
  have hne : ws ≠ [] := by intro e; subst e; simp at hil
  obtain ⟨last, hlast⟩ : ∃ last, ws[ws.length - 1]? = some last := ⟨_, List.getElem?_eq_getElem (by omega)⟩
  obtain ⟨hll, hlast'⟩ := List.getElem?_eq_some_iff.mp hlast
  have hgl : ws.getLastD [] = last := by
    rw [List.getLastD_eq_getLast?, List.getLast?_eq_getElem?, hlast]; rfl
  set ws' := (ws.set i last).dropLast with hws'
  have hlen : ws'.length = ws.length - 1 := by rw [hws']; simp
  have hget : ∀ j, j < ws.length - 1 → ws'[j]? = if j = i then some last else ws[j]? := by
    intro j hj
    rw [hws', List.getElem?_dropLast, if_pos (by simpa using hj)]
    by_cases e : j = i
    · subst e; rw [if_pos rfl, List.getElem?_set_self hil]
    · rw [if_neg e, List.getElem?_set_ne (Ne.symm e)]
  have huniq : ∀ (j k : Nat) (w : List Nat), ws[j]? = some w → ws[k]? = some w → j = k := by
    intro j k w h1 h2
    obtain ⟨j1, j2⟩ := List.getElem?_eq_some_iff.mp h1
    obtain ⟨k1, k2⟩ := List.getElem?_eq_some_iff.mp h2
    exact (List.Nodup.getElem_inj_iff hn).mp (by rw [j2, k2])
  -- elements of the new list come from the old one, at other places
  have hsrc : ∀ (j : Nat) (w : List Nat), ws'[j]? = some w → j < ws.length - 1 ∧ ((j = i ∧ w = last) ∨ (j ≠ i ∧ ws[j]? = some w)) := by
    intro j w hj
    have hjl : j < ws.length - 1 := by rw [← hlen]; exact (List.getElem?_eq_some_iff.mp hj).1
    rw [hget j hjl] at hj
    refine ⟨hjl, ?_⟩
    split_ifs at hj with e
    · exact Or.inl ⟨e, (Option.some.inj hj).symm⟩
    · exact Or.inr ⟨e, hj⟩
  have hnod : ws'.Nodup := by
    rw [List.nodup_iff_getElem?_ne_getElem?]
    intro j k hjk hk e
    rw [hlen] at hk
    obtain ⟨w, hw⟩ : ∃ w, ws'[j]? = some w := ⟨_, List.getElem?_eq_getElem (by omega)⟩
    obtain ⟨a1, a2⟩ := hsrc j w hw
    obtain ⟨b1, b2⟩ := hsrc k w (by rw [← e]; exact hw)
    rcases a2 with ⟨a2, a3⟩ | ⟨a2, a3⟩
    · rcases b2 with ⟨b2, b3⟩ | ⟨b2, b3⟩
      · omega
      · have := huniq k (ws.length - 1) w b3 (by rw [hlast, a3]); omega
    · rcases b2 with ⟨b2, b3⟩ | ⟨b2, b3⟩
      · have := huniq j (ws.length - 1) w a3 (by rw [hlast, b3]); omega
      · have := huniq j k w a3 b3; omega
  have hmem : ∀ w, w ∈ ws' ↔ w ∈ ws ∧ w ≠ t := by
    intro w
    constructor
    · intro h
      obtain ⟨j, hj⟩ := List.mem_iff_getElem?.mp h
      obtain ⟨a1, a2⟩ := hsrc j w hj
      rcases a2 with ⟨a2, a3⟩ | ⟨a2, a3⟩
      · refine ⟨by rw [a3]; exact List.mem_of_getElem? hlast, fun e => ?_⟩
        have := huniq i (ws.length - 1) t hi (by rw [hlast, ← a3, e]); omega
      · exact ⟨List.mem_of_getElem? a3, fun e => a2 (huniq j i t (by rw [a3, e]) hi)⟩
    · rintro ⟨h1, h2⟩
      obtain ⟨j, hj⟩ := List.mem_iff_getElem?.mp h1
      have hjl := (List.getElem?_eq_some_iff.mp hj).1
      have hji : j ≠ i := fun e => h2 (by rw [e, hi] at hj; exact (Option.some.inj hj).symm)
      by_cases e : j = ws.length - 1
      · have hw : w = last := by rw [e, hlast] at hj; exact (Option.some.inj hj).symm
        have hi2 : i < ws.length - 1 := by omega
        exact List.mem_of_getElem? (i := i) (by rw [hget i hi2, if_pos rfl, hw])
      · exact List.mem_of_getElem? (i := j) (by rw [hget j (by omega), if_neg hji, hj])
  refine ⟨last, hgl, List.mem_of_getElem? hlast, hlast, by rw [eraseWord, if_neg (by omega), Nat.add_sub_cancel, hgl], hnod, hmem, fun p hp => ?_⟩
  split_ifs with e
  · have hi2 : i < ws.length - 1 := by
      by_contra h2
      have : i = ws.length - 1 := by omega
      rw [← this, hi] at hlast
      exact hp (by rw [e]; exact (Option.some.inj hlast).symm)
    exact idx_getElem? hnod (by rw [hget i hi2, if_pos rfl, e])
  · by_cases hin : p ∈ ws
    · obtain ⟨j, hj⟩ := List.mem_iff_getElem?.mp hin
      have hjl := (List.getElem?_eq_some_iff.mp hj).1
      have hji : j ≠ i := fun e => hp (by rw [e, hi] at hj; exact (Option.some.inj hj).symm)
      have hj2 : j ≠ ws.length - 1 := fun e2 => e (by rw [e2, hlast] at hj; exact (Option.some.inj hj).symm)
      rw [idx_getElem? hn hj]
      exact idx_getElem? hnod (by rw [hget j (by omega), if_neg hji, hj])
    · rw [idx_eq_zero.mpr hin, idx_eq_zero.mpr fun h => hin ((hmem p).mp h).1]

theorem trErase_spec {A ws s P a g} (h : TInv A ws s P a g) {id : Nat} (hid : id ≤ ws.length) {fuel : Nat} (hf : ∀ p ∈ P, p.length < fuel) :
    ∃ s' P' g', trErase fuel s id = some (id, s') ∧ TInv A (eraseWord ws id) s' P' a g' ∧ P'.length ≤ P.length := by
  obtain ⟨ht, hrd⟩ := wordOf_mem h hid
  rw [trErase, hrd, Option.bind_some, h.rep.read ht, Option.bind_some, h.good.wid _ ht]
  cases id with
  | zero =>
    rw [wordOf, if_pos rfl, h.good.idx_nil, if_pos rfl, eraseWord, if_pos rfl]
    exact ⟨s, P, g, rfl, h, le_refl _⟩
  | succ i =>
    have hi : ws[i]? = some (wordOf ws (i + 1)) := by
      rw [wordOf, if_neg (by omega), Nat.add_sub_cancel, List.getD_eq_getElem _ _ (by omega)]
      exact List.getElem?_eq_getElem (by omega)
    set t := wordOf ws (i + 1) with htd
    obtain ⟨last, _, l1, l2, l3, l4, l5, l6⟩ := erase_words h.good.wsn hi
    have hidx : idx ws t = i + 1 := idx_getElem? h.good.wsn hi
    have hlP := (h.good.wsP last l1).1
    have hwl : s.words.length = ws.length + 1 := by rw [h.words]; simp
    have hpos : 0 < ws.length := by omega
    rw [hidx, if_neg (by omega)]
    have e1 : rd s.words (s.words.length - 1) = some (a last) := by
      rw [hwl, Nat.add_sub_cancel, h.words, rd]
      obtain ⟨n, hn⟩ : ∃ n, ws.length = n + 1 := ⟨ws.length - 1, by omega⟩
      rw [hn, List.getElem?_cons_succ, List.getElem?_map]
      rw [hn, Nat.add_sub_cancel] at l2
      rw [l2]; rfl
    have e2 : wr s.words (i + 1) (a last) = some (a [] :: (ws.set i last).map a) := by
      rw [wr, if_pos (by omega), h.words, List.set_cons_succ, List.map_set]
    have e3 : rd (a [] :: (ws.set i last).map a) (i + 1) = some (a last) := by
      rw [rd, List.getElem?_cons_succ, List.getElem?_map, List.getElem?_set_self (by omega)]; rfl
    obtain ⟨p1, hr1⟩ := h.rep.put hlP { g last with wordId := i + 1 }
    obtain ⟨g1, hg1⟩ : ∃ g1, g1 = Function.update g last { g last with wordId := i + 1 } := ⟨_, rfl⟩
    rw [← hg1] at hr1
    obtain ⟨p2, hr2⟩ := hr1.put ht { g1 t with wordId := 0 }
    obtain ⟨g2, hg2⟩ : ∃ g2, g2 = Function.update g1 t { g1 t with wordId := 0 } := ⟨_, rfl⟩
    rw [← hg2] at hr2
    -- the fields other than the number of the word are unchanged
    have same1 : ∀ r, (g1 r).next = (g r).next ∧ (g1 r).numCh = (g r).numCh ∧ (g1 r).ord = (g r).ord ∧ (g1 r).parent = (g r).parent := by
      intro r
      by_cases e : r = last
      · subst e; rw [hg1, Function.update_self]; exact ⟨rfl, rfl, rfl, rfl⟩
      · rw [hg1, Function.update_of_ne e]; exact ⟨rfl, rfl, rfl, rfl⟩
    have same : ∀ r, (g2 r).next = (g r).next ∧ (g2 r).numCh = (g r).numCh ∧ (g2 r).ord = (g r).ord ∧ (g2 r).parent = (g r).parent := by
      intro r
      by_cases e : r = t
      · subst e; rw [hg2, Function.update_self]; exact same1 _
      · rw [hg2, Function.update_of_ne e]; exact same1 r
    have hgood : Good A ((ws.set i last).dropLast) P a g2 := by
      refine ⟨h.good.nil, h.good.nodup, h.good.closed, fun r hr => by rw [(same r).1]; exact h.good.next r hr,
        fun r hr => by rw [(same r).2.1]; exact h.good.numCh r hr,
        fun r d hr => by rw [(same _).2.2.1, (same _).2.2.2]; exact h.good.lett r d hr, fun r hr => ?_,
        fun w hw => h.good.wsP w ((l5 w).mp hw).1, l4⟩
      by_cases e : r = t
      · subst e
        rw [hg2, Function.update_self, idx_eq_zero.mpr fun h' => ((l5 _).mp h').2 rfl]
      · rw [hg2, Function.update_of_ne e, l6 r e]
        by_cases e' : r = last
        · subst e'; rw [hg1, Function.update_self, if_pos rfl]
        · rw [hg1, Function.update_of_ne e', if_neg e', h.good.wid r hr]
    obtain ⟨P', g', h', e4, q1, q2, q3, q4⟩ := trEraseLoop_spec fuel P g2 _ t hr2 hgood ht (hf t ht) (by
      intro p hp
      rcases h.tight p hp with e | ⟨w, w1, w2⟩
      · exact Or.inl e
      · by_cases e : w = t
        · exact Or.inr (Or.inr (e ▸ w2))
        · exact Or.inr (Or.inl ⟨w, (l5 w).mpr ⟨w1, e⟩, w2⟩))
    rw [e1, Option.bind_some, e2, Option.bind_some, e3, Option.bind_some, h.rep.read hlP, Option.bind_some, p1, Option.bind_some,
      hr1.read ht, Option.bind_some, p2, Option.bind_some, h.root, h.nodes, e4, Option.map_some, l3]
    refine ⟨_, P', g', rfl, ⟨q1, q2, q3, rfl, rfl, ?_⟩, q4⟩
    have hne : (ws.set i last).map a ≠ [] := by
      intro e
      have := congrArg List.length e
      simp at this
      rw [this] at hpos; simp at hpos
    show (a [] :: (ws.set i last).map a).dropLast = _
    rw [List.dropLast_cons_of_ne_nil hne, List.map_dropLast]

/-! ### Histories -/

theorem letters_card {A ws s P a g} (h : TInv A ws s P a g) : s.nodes - 1 = ((ws.flatMap List.inits).toFinset.erase []).card := by
  have e : (ws.flatMap List.inits).toFinset.erase [] = P.toFinset.erase [] := by
    ext p
    rw [Finset.mem_erase, Finset.mem_erase, List.mem_toFinset, List.mem_toFinset, List.mem_flatMap]
    refine and_congr_right fun hp => ⟨?_, fun hm => ?_⟩
    · rintro ⟨w, w1, w2⟩
      exact h.good.prefix ((List.mem_inits _ _).mp w2) (h.good.wsP w w1).1
    · rcases h.tight p hm with e | ⟨w, w1, w2⟩
      · exact absurd e hp
      · exact ⟨w, w1, (List.mem_inits _ _).mpr w2⟩
  rw [e, Finset.card_erase_of_mem (List.mem_toFinset.mpr h.good.nil), List.toFinset_card_of_nodup h.good.nodup, h.nodes]

theorem paths_lt {A ws s P a g} (h : TInv A ws s P a g) {p : List Nat} (hp : p ∈ P) : p.length < P.length := by
  have hs : ∀ r ∈ p.inits, r ∈ P := fun r hr => h.good.prefix ((List.mem_inits _ _).mp hr) hp
  have hn : p.inits.Nodup := by
    rw [List.nodup_iff_injective_get]
    intro i j e
    have h1 := congrArg List.length e
    simp only [List.get_eq_getElem, List.getElem_inits, List.length_take] at h1
    have hi := i.2
    have hj := j.2
    simp only [List.length_inits] at hi hj
    exact Fin.ext (by omega)
  have := (List.subperm_of_subset hn hs).length_le
  rw [List.length_inits] at this
  omega

theorem numberOf_le (ws : List (List Nat)) (w : List Nat) : numberOf ws w ≤ ws.length := by
  by_cases h : w ∈ ws
  · rw [numberOf_eq]; exact idx_le h
  · rw [numberOf_eq, idx_eq_zero.mpr h]; omega

theorem trRun_spec (A fuel : Nat) : ∀ (ops : List TrOp) (ws : List (List Nat)) (s : TrState) (P : List (List Nat)) (a : List Nat → Nat) (g : List Nat → TrNode),
    TInv A ws s P a g → LegalOps A ws ops → P.length + opsLetters ops ≤ fuel → ∃ outs, trRun fuel A s ops = some outs ∧ OutsOk ws ops outs := by
  intro ops
  induction ops with
  | nil => intro ws s P a g _ _ _; exact ⟨[], rfl, trivial⟩
  | cons op ops ih =>
    intro ws s P a g h hleg hf
    obtain ⟨hl, hleg⟩ := hleg
    have hfP : P.length ≤ fuel := by omega
    have hfp : ∀ p ∈ P, p.length < fuel := fun p hp => by have := paths_lt h hp; omega
    -- one call and the rest
    have step : ∀ out s' P' a' g', trStep fuel A s op = some (out, s') → OutOk ws op out → TInv A (nextWords ws op) s' P' a' g' →
        P'.length + opsLetters ops ≤ fuel → ∃ outs, trRun fuel A s (op :: ops) = some outs ∧ OutsOk ws (op :: ops) outs := by
      intro out s' P' a' g' e1 e2 e3 e4
      obtain ⟨outs, e5, e6⟩ := ih _ s' P' a' g' e3 hleg e4
      exact ⟨out :: outs, by rw [trRun, e1, Option.bind_some, e5, Option.map_some], e2, e6⟩
    cases op with
    | add w =>
      obtain ⟨s', P', a', g', e, h', hlen⟩ := trInsert_spec h h.good.nil (w := w) hl
      rw [List.nil_append] at e h'
      rw [opsLetters] at hf
      exact step (.num _) s' P' a' g' (by rw [trStep, trAdd, h.root, e, Option.map_some]) rfl h' (by omega)
    | append id w =>
      obtain ⟨h1, h2⟩ := wordOf_mem h hl.1
      obtain ⟨s', P', a', g', e, h', hlen⟩ := trInsert_spec h h1 (w := w) hl.2
      rw [opsLetters] at hf
      exact step (.num _) s' P' a' g' (by rw [trStep, trAppend, h2, Option.bind_some, e, Option.map_some]) rfl h' (by omega)
    | find w => exact step (.num _) s P a g (by rw [trStep, trFind_spec h hl, Option.map_some]) rfl h hf
    | get id => exact step (.word _) s P a g (by rw [trStep, trWord_spec h hl hfp, Option.map_some]) rfl h hf
    | forEach id =>
      obtain ⟨h1, h2⟩ := wordOf_mem h hl
      obtain ⟨l, e, h3⟩ := trVisit_spec h.rep h.good hfp fuel _ h1 (by omega)
      exact step (.visits l) s P a g (by rw [trStep, trForEach, trWord_spec h hl hfp, Option.bind_some, h2, Option.bind_some, e, Option.map_some])
        ⟨h3.1, fun w n => by rw [numberOf_eq]; exact h3.2 w n⟩ h hf
    | erase id =>
      obtain ⟨s', P', g', e, h', hlen⟩ := trErase_spec h hl hfp
      rw [opsLetters] at hf
      · exact step (.num _) s' P' a g' (by rw [trStep, e, Option.map_some]) rfl h' (by omega)
      all_goals simp
    | eraseWord w =>
      obtain ⟨s', P', g', e, h', hlen⟩ := trErase_spec h (numberOf_le ws w) hfp
      rw [opsLetters] at hf
      · exact step (.num _) s' P' a g' (by rw [trStep, trFind_spec h hl, Option.bind_some, e, Option.map_some]) rfl h' (by omega)
      all_goals simp
    | numWords => exact step (.num _) s P a g rfl (by rw [OutOk, h.words]; simp) h hf
    | numLetters => exact step (.num _) s P a g rfl (by rw [OutOk, letters_card h]) h hf

theorem trNew_inv (A : Nat) : TInv A [] (trNew A) [[]] (fun _ => 1) (fun _ => trZero A) := by
  refine ⟨⟨fun _ _ => by omega, fun _ _ => rfl, fun p hp q hq _ => ?_⟩, ?_, fun p hp => Or.inl (by simpa using hp), rfl, rfl, rfl⟩
  · rw [List.mem_singleton] at hp hq; rw [hp, hq]
  · refine ⟨by simp, by simp, fun q c h => by simp at h, fun p hp => ?_, fun p hp => ?_, fun p c h => by simp at h, fun p hp => rfl,
      fun w hw => by simp at hw, List.nodup_nil⟩
    · refine (Rep.replicate A 0).congr fun d _ => ?_
      rw [if_neg (by simp)]
    · symm
      show nk A [[]] p = 0
      rw [nk, Finset.card_eq_zero, Finset.filter_eq_empty_iff]
      intro d _ h; simp at h

/-- **C104.** For every alphabet and every sequence of calls with letters of the alphabet and numbers of words, all calls
end and return what a numbered set of words returns: `add`, `append` and `find` the number of the word (0 for a
missing or empty word), `get` the word, `for_each` the words with the prefix and their numbers in lexicographic order,
`erase` moves the last word to the freed number, and `num_letters` is the number of different non-empty prefixes. -/
theorem C104_prefix_tree (A : Nat) (ops : List TrOp) (hops : LegalOps A [] ops) (fuel : Nat) (hf : opsLetters ops < fuel) :
    ∃ outs, trRun fuel A (trNew A) ops = some outs ∧ OutsOk [] ops outs :=
  trRun_spec A fuel ops [] _ _ _ _ (trNew_inv A) hops (by simp; omega)

/-- A history: "ab", "a", "abb" (appended), removal of "ab". -/
example : trRun 20 2 (trNew 2) [.add [0, 1], .add [0], .append 1 [1], .add [], .numLetters, .forEach 0, .erase 1, .find [0, 1, 1], .forEach 2, .get 1,
    .eraseWord [0, 1, 1], .numLetters, .numWords] =
    some [.num 1, .num 2, .num 3, .num 0, .num 3, .visits [([0], 2), ([0, 1], 1), ([0, 1, 1], 3)], .num 1, .num 1,
      .visits [([0], 2), ([0, 1, 1], 1)], .word [0, 1, 1], .num 1, .num 1, .num 1] := by decide +kernel

/-- The hypotheses are met. -/
example : LegalOps 2 [] [.add [0, 1], .add [0], .append 1 [1], .erase 1, .find [0, 1, 1], .forEach 2] := by
  simp [LegalOps, nextWords, addWord, eraseWord, wordOf]

end Altruct.Tries
