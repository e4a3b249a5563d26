/-
C46: `bounded_contiguous_allocator` never hands out a live slot.
-/
import Verif.Alloc.Model
import Mathlib.Data.List.Perm.Basic
import Mathlib.Data.List.Nodup

namespace Altruct.Alloc

/-! ### Specification -/

/-- The slots that are live after an operation with an outcome. -/
def nextLive (live : List Nat) : Op → Out → List Nat
  | .allocate _ _ _, .ptr p => p :: live
  | .deallocate p, _ => live.erase p
  | _, _ => live

/-- Only live pointers are freed, and the pool is cleared only when nothing is live. -/
def OkOp (live : List Nat) : Op → Prop
  | .deallocate p => p ∈ live
  | .clear => live = []
  | .allocate _ _ _ => True

/-- A history is valid if each operation is allowed with the slots that are live when it is executed. -/
def Valid (s : State) (live : List Nat) : List Op → Prop
  | [] => True
  | op :: ops => OkOp live op ∧ ∀ s' o, step s op = some (s', o) → Valid s' (nextLive live op o) ops

/-- What an outcome must be, for a pool of `cap` slots: a slot that is handed out lies in the pool and is not
live; allocation fails only if more than one element is asked for, all slots are live, or there is no memory. -/
def OkOut (cap : Nat) (live : List Nat) : Op → Out → Prop
  | .allocate n _ _, .ptr p => n = 1 ∧ live.length < cap ∧ p < cap ∧ p ∉ live
  | .allocate n m1 m2, .thrown => n ≠ 1 ∨ live.length = cap ∨ m1 = false ∨ m2 = false
  | .allocate _ _ _, .unit => False
  | _, o => o = .unit

/-- The outcomes of a history are all as they must be. -/
def Good (cap : Nat) : List Nat → List Op → List Out → Prop
  | _, [], os => os = []
  | live, op :: ops, o :: os => OkOut cap live op o ∧ Good cap (nextLive live op o) ops os
  | _, _ :: _, [] => False

/-! ### The invariant -/

/-- The live slots and the available ones are all the slots, each once. -/
def Inv (cap : Nat) (live : List Nat) (s : State) : Prop :=
  s.capacity = cap ∧ s.available + live.length = cap ∧
  match s.ptrs with
  | none => live = []
  | some ps => ps.length = cap ∧ (ps.take s.available ++ live).Perm (List.range cap)

theorem ensure_spec {cap : Nat} {live : List Nat} {s : State} (hI : Inv cap live s) (m1 m2 : Bool) :
    (∃ s' ps, ensure m1 m2 s = (s', true) ∧ s'.ptrs = some ps ∧ Inv cap live s') ∨
    ((m1 = false ∨ m2 = false) ∧ ∃ s', ensure m1 m2 s = (s', false) ∧ Inv cap live s') := by
  obtain ⟨c, d, a, p⟩ := s
  obtain ⟨h1, h2, h3⟩ := hI
  simp only at h1 h2 h3
  subst h1
  cases p with
  | some ps => exact Or.inl ⟨_, ps, rfl, rfl, rfl, h2, h3⟩
  | none =>
    simp only at h3
    subst h3
    have key : Inv c [] ⟨c, true, a, some (List.range c)⟩ := by
      refine ⟨rfl, h2, List.length_range, ?_⟩
      simp only [List.length_nil] at h2
      change (List.take a (List.range c) ++ []).Perm _
      rw [List.append_nil, List.take_of_length_le (by rw [List.length_range]; omega)]
    cases d <;> cases m1 <;> cases m2 <;>
      first
      | exact Or.inl ⟨_, _, rfl, rfl, key⟩
      | exact Or.inr ⟨by simp, _, rfl, rfl, h2, rfl⟩

theorem step_spec {cap : Nat} {live : List Nat} {s : State} (hI : Inv cap live s) (op : Op)
    (hv : OkOp live op) :
    ∃ s' o, step s op = some (s', o) ∧ Inv cap (nextLive live op o) s' ∧ OkOut cap live op o := by
  cases op with
  | allocate n m1 m2 =>
    rcases ensure_spec hI m1 m2 with ⟨s', ps, e, hp, hI'⟩ | ⟨hm, s', e, hI'⟩
    · by_cases hc : n ≠ 1 ∨ s'.available < 1
      · refine ⟨s', .thrown, ?_, hI', ?_⟩
        · rw [step, allocate, e]
          simp only
          rw [if_pos (Or.inr hc)]
        · have := hI'.2.1
          rcases hc with hc | hc
          · exact Or.inl hc
          · exact Or.inr (Or.inl (by omega))
      · have hc1 : n = 1 := by omega
        have hc2 : 0 < s'.available := by omega
        obtain ⟨c1, c2, c3⟩ := hI'
        rw [hp] at c3
        obtain ⟨c3, c4⟩ := c3
        have hlt : s'.available - 1 < ps.length := by omega
        have hsplit : ps.take s'.available = ps.take (s'.available - 1) ++ [ps[s'.available - 1]] := by
          rw [List.take_append_getElem]; congr 1; omega
        rw [hsplit] at c4
        have c5 : (ps.take (s'.available - 1) ++ ps[s'.available - 1] :: live).Perm (List.range cap) := by
          rw [List.append_assoc] at c4; exact c4
        have hmem : ps[s'.available - 1] ∈ List.range cap := c5.subset (by simp)
        have hnd : (ps.take (s'.available - 1) ++ ps[s'.available - 1] :: live).Nodup := c5.nodup_iff.mpr List.nodup_range
        refine ⟨{ s' with available := s'.available - 1 }, .ptr ps[s'.available - 1], ?_, ⟨c1, ?_, ?_⟩, hc1, by omega, List.mem_range.mp hmem, ?_⟩
        · rw [step, allocate, e]
          simp only
          rw [if_neg (by rw [not_or]; exact ⟨by simp, hc⟩), hp]
          simp only [Option.bind_eq_bind, Option.bind_some]
          rw [rd, List.getElem?_eq_getElem hlt]
          rfl
        · change s'.available - 1 + (live.length + 1) = cap; omega
        · change match s'.ptrs with
            | none => _
            | some ps => _
          rw [hp]
          exact ⟨c3, c5⟩
        · exact (List.nodup_cons.mp (List.nodup_append.mp hnd).2.1).1
    · refine ⟨s', .thrown, ?_, hI', Or.inr (Or.inr hm)⟩
      rw [step, allocate, e]
      simp only
      rw [if_pos (Or.inl trivial)]
  | deallocate p =>
    change p ∈ live at hv
    obtain ⟨c1, c2, c3⟩ := hI
    cases hp : s.ptrs with
    | none => rw [hp] at c3; simp only at c3; subst c3; simp at hv
    | some ps =>
      rw [hp] at c3
      obtain ⟨c3, c4⟩ := c3
      have hl : 0 < live.length := List.length_pos_of_mem hv
      have hlt : s.available < ps.length := by omega
      refine ⟨{ s with ptrs := some (ps.set s.available p), available := s.available + 1 }, .unit, ?_, ⟨c1, ?_, ?_⟩, rfl⟩
      · rw [step, deallocate, hp]
        simp only [Option.bind_eq_bind, Option.bind_some]
        rw [wr, if_pos hlt]
        rfl
      · change s.available + 1 + (live.erase p).length = cap
        rw [List.length_erase_of_mem hv]; omega
      · change (ps.set s.available p).length = cap ∧ (List.take (s.available + 1) (ps.set s.available p) ++ live.erase p).Perm (List.range cap)
        refine ⟨by rw [List.length_set]; exact c3, ?_⟩
        have hsplit : (ps.set s.available p).take (s.available + 1) = ps.take s.available ++ [p] := by
          rw [← List.take_append_getElem (by rw [List.length_set]; exact hlt), List.getElem_set_self, List.take_set_of_le (Nat.le_refl _)]
        rw [hsplit, List.append_assoc]
        exact ((List.perm_cons_erase hv).symm.append_left _).trans c4
  | clear =>
    change live = [] at hv
    subst hv
    exact ⟨clear s, .unit, rfl, ⟨hI.1, hI.2.1, rfl⟩, rfl⟩

/-- **C46**: over any history in which only live pointers are freed and the pool is cleared only when nothing is
live, every allocation gives a slot of the pool that is not live, and fails only when all `cap` slots are live, more
than one element is asked for, or there is no memory. -/
theorem C46_history (cap : Nat) (ops : List Op) (hv : Valid (init cap) [] ops) :
    ∃ s os, run (init cap) ops = some (s, os) ∧ Good cap [] ops os := by
  have hI : Inv cap [] (init cap) := ⟨rfl, rfl, rfl⟩
  generalize init cap = s at hI hv ⊢
  generalize ([] : List Nat) = live at hI hv
  induction ops generalizing s live with
  | nil => exact ⟨s, [], rfl, rfl⟩
  | cons op ops ih =>
    obtain ⟨s1, o, e, hI1, hg⟩ := step_spec hI op hv.1
    obtain ⟨s2, os, e2, hg2⟩ := ih s1 _ hI1 (hv.2 s1 o e)
    refine ⟨s2, o :: os, ?_, hg, hg2⟩
    rw [run, e]
    simp only [Option.bind_eq_bind, Option.bind_some]
    rw [e2]
    rfl

example : Valid (init 2) [] [.allocate 1 true true, .allocate 1 true true, .deallocate 1, .allocate 1 true true, .deallocate 0, .deallocate 1, .clear] := by
  simp only [Valid, OkOp]
  refine ⟨trivial, fun s1 o1 h1 => ⟨trivial, fun s2 o2 h2 => ?_⟩⟩
  obtain ⟨rfl, rfl⟩ := Prod.mk.inj (Option.some.inj h1)
  obtain ⟨rfl, rfl⟩ := Prod.mk.inj (Option.some.inj h2)
  refine ⟨by decide, fun s3 o3 h3 => ⟨trivial, fun s4 o4 h4 => ?_⟩⟩
  obtain ⟨rfl, rfl⟩ := Prod.mk.inj (Option.some.inj h3)
  obtain ⟨rfl, rfl⟩ := Prod.mk.inj (Option.some.inj h4)
  refine ⟨by decide, fun s5 o5 h5 => ?_⟩
  obtain ⟨rfl, rfl⟩ := Prod.mk.inj (Option.some.inj h5)
  exact ⟨by decide, fun s6 o6 h6 => ⟨by cases o6 <;> rfl, fun _ _ _ => trivial⟩⟩

example : (run (init 2) [.allocate 1 true true, .allocate 1 true true, .deallocate 1, .allocate 1 true true, .allocate 1 true true]).map Prod.snd
    = some [.ptr 1, .ptr 0, .unit, .ptr 1, .thrown] := by decide +kernel

/-- Clearing while a slot is live hands out slots of the new pool only up to the old count, and freeing the old
pointer puts it into the new pool: slot 1 of the old pool and slot 1 of the new one are then mixed up. -/
theorem C46_clear_live : (run (init 2) [.allocate 1 true true, .clear, .allocate 1 true true, .allocate 1 true true]).map Prod.snd
    = some [.ptr 1, .unit, .ptr 0, .thrown] := by decide +kernel

end Altruct.Alloc
