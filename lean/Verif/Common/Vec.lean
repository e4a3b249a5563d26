/-
Vectors (`std::vector`, raw arrays) as lists with checked access.
-/
import Mathlib.Data.List.Basic
import Mathlib.Logic.Function.Basic
import Mathlib.Order.Basic

namespace Altruct

variable {α : Type*}

/-- `v[i]` as a value; `none` is an access out of bounds (undefined behaviour). -/
def rd (v : List α) (i : Nat) : Option α := v[i]?

/-- `v[i] = x`; `none` is an access out of bounds (undefined behaviour). -/
def wr (v : List α) (i : Nat) (x : α) : Option (List α) :=
  if i < v.length then some (v.set i x) else none

/-- The vector `v` has `n` elements, the `i`-th being `g i`. -/
structure Rep (v : List α) (n : Nat) (g : Nat → α) : Prop where
  len : v.length = n
  get : ∀ i, i < n → v[i]? = some (g i)

theorem Rep.rd {v : List α} {n : Nat} {g : Nat → α} (h : Rep v n g) {i : Nat} (hi : i < n) :
    rd v i = some (g i) := h.get i hi

theorem Rep.set {v : List α} {n : Nat} {g : Nat → α} (h : Rep v n g) (i : Nat) (x : α) :
    Rep (v.set i x) n (Function.update g i x) := by
  refine ⟨by rw [List.length_set, h.len], fun j hj => ?_⟩
  by_cases hij : j = i
  · subst hij
    rw [List.getElem?_set_self (by rw [h.len]; exact hj), Function.update_self]
  · rw [List.getElem?_set_ne (Ne.symm hij), Function.update_of_ne hij, h.get j hj]

theorem Rep.wr {v : List α} {n : Nat} {g : Nat → α} (h : Rep v n g) {i : Nat} (hi : i < n) (x : α) :
    wr v i x = some (v.set i x) := by
  rw [Altruct.wr, if_pos (by rw [h.len]; exact hi)]

theorem Rep.eq_map {v : List α} {n : Nat} {g : Nat → α} (h : Rep v n g) :
    v = (List.range n).map g := by
  apply List.ext_getElem?
  intro i
  by_cases hi : i < n
  · rw [h.get i hi, List.getElem?_map, List.getElem?_range hi]; rfl
  · rw [List.getElem?_eq_none (by rw [h.len]; omega), List.getElem?_eq_none (by simp; omega)]

theorem Rep.of_map (n : Nat) (g : Nat → α) : Rep ((List.range n).map g) n g :=
  ⟨by simp, fun i hi => by rw [List.getElem?_map, List.getElem?_range hi]; rfl⟩

theorem Rep.congr {v : List α} {n : Nat} {g g' : Nat → α} (h : Rep v n g)
    (e : ∀ i, i < n → g i = g' i) : Rep v n g' :=
  ⟨h.len, fun i hi => by rw [h.get i hi, e i hi]⟩

theorem Rep.replicate (n : Nat) (x : α) : Rep (List.replicate n x) n (fun _ => x) :=
  ⟨by simp, fun i hi => by simp [hi]⟩

theorem Rep.self [Inhabited α] (v : List α) : Rep v v.length (fun i => v.getD i default) :=
  ⟨rfl, fun i hi => by simp [List.getElem?_eq_getElem hi]⟩

theorem Rep.eq_of {v : List α} {n : Nat} {g : Nat → α} (h : Rep v n g) {i : Nat} {a : α}
    (e : v[i]? = some a) : i < n ∧ g i = a := by
  have hi : i < n := by rw [← h.len]; exact (List.getElem?_eq_some_iff.mp e).1
  refine ⟨hi, ?_⟩
  rw [h.get i hi] at e
  exact Option.some.inj e

theorem Rep.unique {v : List α} {n : Nat} {g g' : Nat → α} (h : Rep v n g) (h' : Rep v n g') {i : Nat}
    (hi : i < n) : g i = g' i := by
  have := h.get i hi
  rw [h'.get i hi] at this
  exact (Option.some.inj this).symm

end Altruct
