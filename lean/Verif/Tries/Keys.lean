/-
Nodes kept in a vector and numbered from 1 by keys (paths of a trie, palindromes).
-/
import Verif.Common.Vec
import Mathlib.Data.List.Nodup

namespace Altruct.Tries

open Altruct

variable {α β : Type} [DecidableEq α]

/-- The number of the node of the key `q`: keys are numbered from 1 in the order of `P`; 0 is "no node". -/
def idx (P : List α) (q : α) : Nat := if q ∈ P then P.idxOf q + 1 else 0

theorem idx_pos {P : List α} {q : α} (h : q ∈ P) : 0 < idx P q := by
  rw [idx, if_pos h]; omega

theorem idx_eq_zero {P : List α} {q : α} : idx P q = 0 ↔ q ∉ P := by
  rw [idx]; split_ifs with h
  · simp [h]
  · simp [h]

theorem idx_inj {P : List α} {q r : α} (hq : q ∈ P) (hr : r ∈ P) (e : idx P q = idx P r) : q = r := by
  rw [idx, idx, if_pos hq, if_pos hr] at e
  exact (List.idxOf_inj hq).mp (by omega)

theorem idx_le {P : List α} {q : α} (hq : q ∈ P) : idx P q ≤ P.length := by
  rw [idx, if_pos hq]
  exact List.idxOf_lt_length_of_mem hq

theorem idx_append {P : List α} {p q : α} (hq : q ≠ p) : idx (P ++ [p]) q = idx P q := by
  rw [idx, idx]
  by_cases h : q ∈ P
  · rw [if_pos h, if_pos (List.mem_append_left _ h), List.idxOf_append_of_mem h]
  · rw [if_neg h, if_neg (by simp [h, hq])]

theorem idx_append_self {P : List α} {p : α} (hp : p ∉ P) : idx (P ++ [p]) p = P.length + 1 := by
  rw [idx, if_pos (by simp), List.idxOf_append_of_notMem hp]
  simp

theorem idx_append_mem {P : List α} {p q : α} (hp : p ∉ P) (hq : q ∈ P) : idx (P ++ [p]) q = idx P q :=
  idx_append (fun e => hp (e ▸ hq))

theorem idx_getElem? {P : List α} (hn : P.Nodup) {q : α} {i : Nat} (h : P[i]? = some q) : idx P q = i + 1 := by
  obtain ⟨hi, e⟩ := List.getElem?_eq_some_iff.mp h
  rw [idx, if_pos (List.mem_of_getElem? h), ← e, hn.idxOf_getElem]

/-- The node of the key `q` holds `g q`. -/
structure PRep (P : List α) (t : List β) (g : α → β) : Prop where
  len : t.length = P.length + 1
  get : ∀ q ∈ P, t[idx P q]? = some (g q)

theorem PRep.rd {P : List α} {t : List β} {g : α → β} (h : PRep P t g) {q : α} (hq : q ∈ P) : rd t (idx P q) = some (g q) := h.get q hq

theorem PRep.wr {P : List α} {t : List β} {g : α → β} (h : PRep P t g) {q : α} (hq : q ∈ P) (x : β) :
    ∃ t', wr t (idx P q) x = some t' ∧ PRep P t' (Function.update g q x) := by
  have hl : idx P q < t.length := by rw [h.len]; have := idx_le hq; omega
  refine ⟨t.set (idx P q) x, by rw [Altruct.wr, if_pos hl], by rw [List.length_set, h.len], fun r hr => ?_⟩
  by_cases e : r = q
  · subst e
    rw [List.getElem?_set_self hl, Function.update_self]
  · rw [List.getElem?_set_ne (fun e' => e (idx_inj hr hq e'.symm)), Function.update_of_ne e, h.get r hr]

theorem PRep.push {P : List α} {t : List β} {g : α → β} (h : PRep P t g) {p : α} (hp : p ∉ P) (x : β) :
    PRep (P ++ [p]) (t ++ [x]) (Function.update g p x) := by
  refine ⟨by simp [h.len], fun r hr => ?_⟩
  by_cases e : r = p
  · subst e
    rw [idx_append_self hp, Function.update_self, ← h.len]; simp
  · have hrP : r ∈ P := by simpa [e] using hr
    rw [idx_append e, Function.update_of_ne e, List.getElem?_append_left (by rw [h.len]; have := idx_le hrP; omega), h.get r hrP]

end Altruct.Tries
