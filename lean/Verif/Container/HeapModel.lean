/-
Model of `include/altruct/structure/container/binary_heap.h`.
-/
import Verif.Common.Vec

namespace Altruct.Heap

variable {T : Type*}

/-- `std::swap(v[i], v[j])`. -/
def swp (v : List T) (i j : Nat) : Option (List T) := do
  let a ← rd v i
  let b ← rd v j
  let v ← wr v i b
  wr v j a

/-- binary_heap.h:74-81 `heapify_up`. -/
def heapifyUp (cmp : T → T → Bool) (v : List T) (index : Nat) : Option (List T) :=
  if index > 0 then
    match rd v index, rd v ((index - 1) / 2) with
    | some a, some b =>
      if !cmp a b then some v
      else match swp v index ((index - 1) / 2) with
        | some v => heapifyUp cmp v ((index - 1) / 2)
        | none => none
    | _, _ => none
  else some v
termination_by index
decreasing_by omega

/-- binary_heap.h:87-88 `if (c < sz && cmp(v[c], v[best])) best = c;`. -/
def better (cmp : T → T → Bool) (v : List T) (c sz best : Nat) : Option Nat :=
  if c < sz then
    match rd v c, rd v best with
    | some a, some b => some (if cmp a b then c else best)
    | _, _ => none
  else some best

/-- binary_heap.h:83-93 `heapify_down`.  (The test `index < best < sz` always holds there;
it makes the termination visible.) -/
def heapifyDown (cmp : T → T → Bool) (v : List T) (index sz : Nat) : Option (List T) :=
  match (better cmp v (index * 2 + 1) sz index).bind (better cmp v (index * 2 + 2) sz) with
  | none => none
  | some best =>
    if best = index then some v
    else if index < best ∧ best < sz then
      match swp v index best with
      | some v => heapifyDown cmp v best sz
      | none => none
    else none
termination_by sz - index

/-- binary_heap.h:42-45 `insert`. -/
def insert (cmp : T → T → Bool) (v : List T) (val : T) : Option (List T) :=
  heapifyUp cmp (v ++ [val]) ((v ++ [val]).length - 1)

/-- binary_heap.h:47-49 `front` (undefined on an empty heap). -/
def front (v : List T) : Option T := v.head?

/-- binary_heap.h:51-55 `pop_front` (undefined on an empty heap). -/
def popFront (cmp : T → T → Bool) (v : List T) : Option (List T) :=
  if v.length = 0 then none
  else (swp v 0 (v.length - 1)).bind fun v => heapifyDown cmp v.dropLast 0 v.dropLast.length

/-- binary_heap.h:59-61 the loop of `rebuild`. -/
def rebuildLoop (cmp : T → T → Bool) : Nat → List T → Option (List T)
  | 0, v => some v
  | index + 1, v => (heapifyDown cmp v index v.length).bind fun v => rebuildLoop cmp index v

/-- binary_heap.h:58-62 `rebuild`. -/
def rebuild (cmp : T → T → Bool) (v : List T) : Option (List T) := rebuildLoop cmp (v.length / 2) v

/-- binary_heap.h:66-69 the loop of `sort`. -/
def sortLoop (cmp : T → T → Bool) : Nat → List T → Option (List T)
  | 0, v => some v
  | index + 1, v =>
    (swp v 0 index).bind fun v => (heapifyDown cmp v 0 index).bind fun v => sortLoop cmp index v

/-- binary_heap.h:65-71 `sort`. -/
def sort (cmp : T → T → Bool) (v : List T) : Option (List T) :=
  (sortLoop cmp v.length v).map List.reverse

/-- Calls of the mutating member functions. -/
inductive Op (T : Type*) where
  | insert (val : T)
  | pop
  | rebuild
  | sort

/-- The effect of a call. -/
def step (cmp : T → T → Bool) (v : List T) : Op T → Option (List T)
  | .insert x => insert cmp v x
  | .pop => popFront cmp v
  | .rebuild => rebuild cmp v
  | .sort => sort cmp v

/-- A history of calls; also collects the elements seen by `front()` just before each
`pop_front()`. -/
def run (cmp : T → T → Bool) (v : List T) (popped : List T) : List (Op T) → Option (List T × List T)
  | [] => some (v, popped)
  | .pop :: h =>
    match front v, popFront cmp v with
    | some a, some v => run cmp v (popped ++ [a]) h
    | _, _ => none
  | op :: h => (step cmp v op).bind fun v => run cmp v popped h

end Altruct.Heap
