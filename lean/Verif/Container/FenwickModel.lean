/-
Model of `include/altruct/structure/math/fenwick_tree.h`.
-/
import Verif.Common.Vec

namespace Altruct.Fenwick

variable {T : Type*}

/-- fenwick_tree.h:34-36 `lo_bit`: `index & -index` on 64-bit `size_t`. -/
def loBit (index : Nat) : Nat := index &&& ((2 ^ 64 - index) % 2 ^ 64)

/-- fenwick_tree.h:17-18 the constructor (`v(sz + 1, id)`). -/
def mk (sz : Nat) (id : T) : List T := List.replicate (sz + 1) id

/-- fenwick_tree.h:20-22 `reset`. -/
def reset (v : List T) (id : T) : List T := List.replicate v.length id

/-- fenwick_tree.h:25 the loop of `add`, `index` already incremented; `fuel` bounds the
number of iterations (`none`: it ran out, or an access out of bounds). -/
def addLoop (f : T → T → T) (val : T) : Nat → List T → Nat → Option (List T)
  | 0, _, _ => none
  | fuel + 1, v, index =>
    if index < v.length then do
      let x ← rd v index
      let v ← wr v index (f x val)
      addLoop f val fuel v ((index + loBit index) % 2 ^ 64)
    else some v

/-- fenwick_tree.h:24-26 `add`.  The loop gets `v.size() + 1` iterations. -/
def add (f : T → T → T) (v : List T) (index : Nat) (val : T) : Option (List T) :=
  addLoop f val (v.length + 1) v (index + 1)

/-- fenwick_tree.h:29-31 the loop of `get_sum`. -/
def sumLoop (f : T → T → T) (v : List T) : Nat → T → Nat → Option T
  | 0, _, _ => none
  | fuel + 1, r, index =>
    if index > 0 then do
      let x ← rd v index
      sumLoop f v fuel (f r x) (index - loBit index)
    else some r

/-- fenwick_tree.h:28-32 `get_sum`. -/
def getSum (f : T → T → T) (v : List T) (index : Nat) (id : T) : Option T :=
  sumLoop f v (index + 2) id (index + 1)

/-- A call of a mutating member function. -/
inductive Op (T : Type*) where
  | add (index : Nat) (val : T)
  | reset

/-- The effect of a call (`id` is the neutral element given to `reset`). -/
def step (f : T → T → T) (id : T) (v : List T) : Op T → Option (List T)
  | .add i x => add f v i x
  | .reset => some (reset v id)

/-- A history of calls. -/
def run (f : T → T → T) (id : T) (v : List T) : List (Op T) → Option (List T)
  | [] => some v
  | op :: h => (step f id v op).bind fun v => run f id v h

end Altruct.Fenwick
