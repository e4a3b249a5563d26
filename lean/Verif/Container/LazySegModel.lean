/-
Model of `include/altruct/structure/container/lazy_segment_tree.h`.

The functors mutate their arguments in place; here they return the new values.  The calls
`f_up(tl, tl, x)` and `f_up(tr, x, tr)`, whose arguments alias, are modelled as if the
functor read its arguments before writing its result.
-/
import Verif.Container.SegTreeModel

namespace Altruct.LazySeg

variable {T : Type*}

/-- lazy_segment_tree.h:109-111 `size`. -/
def size (v : List T) : Nat := v.length / 2

/-- lazy_segment_tree.h:151-153 `update_down`. -/
def updateDown (fdown : T → T → T → T × T × T) (v : List T) (i : Nat) : Option (List T) :=
  match rd v i, rd v (2 * i + 0), rd v (2 * i + 1) with
  | some p, some l, some r =>
    (wr v i (fdown p l r).1).bind fun v =>
      (wr v (2 * i + 0) (fdown p l r).2.1).bind fun v => wr v (2 * i + 1) (fdown p l r).2.2
  | _, _, _ => none

/-- lazy_segment_tree.h:166-168 `update_up`. -/
def updateUp (fup : T → T → T → T) (v : List T) (i : Nat) : Option (List T) :=
  match rd v i, rd v (2 * i + 0), rd v (2 * i + 1) with
  | some p, some l, some r => wr v i (fup p l r)
  | _, _, _ => none

/-- lazy_segment_tree.h:177 the loop of `calc_height`. -/
def heightLoop (sz h : Nat) : Nat := if 2 ^ h ≤ sz then heightLoop sz (h + 1) else h
termination_by sz - h
decreasing_by
  have : h < 2 ^ h := Nat.lt_two_pow_self
  omega

/-- lazy_segment_tree.h:176-179 `calc_height` (`-1`, for `sz = 0`, is replaced by `0`: the
callers only compare it with `1`). -/
def calcHeight (sz : Nat) : Nat := heightLoop sz 0 - 1

/-- lazy_segment_tree.h:172 the loop of `top` (it does not terminate for `i = 0`, which
does not occur since `size() ≥ 1`). -/
def topLoop (i : Nat) : Nat := if 0 < i ∧ i % 2 = 0 then topLoop (i / 2) else i
termination_by i
decreasing_by omega

/-- lazy_segment_tree.h:170-174 `top`. -/
def top (v : List T) (begin_ : Nat) : Nat := topLoop (size v + begin_)

/-- lazy_segment_tree.h:146-148 the loop of `update_from_root`, `h` counting down to 1. -/
def fromRootLoop (fdown : T → T → T → T × T × T) (i : Nat) : Nat → List T → Option (List T)
  | 0, v => some v
  | h + 1, v => (updateDown fdown v (i / 2 ^ (h + 1))).bind fun v => fromRootLoop fdown i h v

/-- lazy_segment_tree.h:145-149 `update_from_root`. -/
def updateFromRoot (fdown : T → T → T → T × T × T) (v : List T) (i : Nat) : Option (List T) :=
  fromRootLoop fdown i (calcHeight i) v

/-- lazy_segment_tree.h:140-143 `propagate_down`. -/
def propagateDown (fdown : T → T → T → T × T × T) (v : List T) (b e : Nat) : Option (List T) :=
  (updateFromRoot fdown v (top v b)).bind fun v => updateFromRoot fdown v (top v e - 1)

/-- lazy_segment_tree.h:160-164 `update_to_root`. -/
def updateToRoot (fup : T → T → T → T) (v : List T) (i : Nat) : Option (List T) :=
  if 0 < i / 2 then (updateUp fup v (i / 2)).bind fun v => updateToRoot fup v (i / 2)
  else some v
termination_by i
decreasing_by omega

/-- lazy_segment_tree.h:155-158 `propagate_up`. -/
def propagateUp (fup : T → T → T → T) (v : List T) (b e : Nat) : Option (List T) :=
  (updateToRoot fup v (top v b)).bind fun v => updateToRoot fup v (top v e - 1)

/-- lazy_segment_tree.h:114-123 `update_segment`; `n` is `v.size()`, an access with
`i ≥ n` is out of bounds. -/
def updateSegment (fup : T → T → T → T) (fdown : T → T → T → T × T × T) (f : T → Bool × T) (n : Nat)
    (v : List T) (i : Nat) : Option (List T) :=
  if 0 < i ∧ i < n then
    match rd v i with
    | none => none
    | some t =>
      match wr v i (f t).2 with
      | none => none
      | some v =>
        if (f t).1 then some v
        else
          match updateDown fdown v i with
          | none => none
          | some v =>
            match updateSegment fup fdown f n v (2 * i + 0) with
            | none => none
            | some v =>
              match updateSegment fup fdown f n v (2 * i + 1) with
              | none => none
              | some v => updateUp fup v i
  else none
termination_by n - i
decreasing_by all_goals omega

/-- lazy_segment_tree.h:70-71 `if (c) update_segment(x, f);`. -/
def updateIf (fup : T → T → T → T) (fdown : T → T → T → T × T × T) (f : T → Bool × T) (c : Prop)
    [Decidable c] (v : List T) (x : Nat) : Option (List T) :=
  if c then updateSegment fup fdown f v.length v x else some v

/-- lazy_segment_tree.h:69-73 the loop of `update`. -/
def updateLoop (fup : T → T → T → T) (fdown : T → T → T → T × T × T) (f : T → Bool × T)
    (v : List T) (i b e : Nat) : Option (List T) :=
  if b < e then
    match updateIf fup fdown f (b % 2 = 1) v (i + b) with
    | none => none
    | some v =>
      match updateIf fup fdown f (e % 2 = 1) v (i + (e - 1)) with
      | none => none
      | some v =>
        updateLoop fup fdown f v (i / 2) ((if b % 2 = 1 then b + 1 else b) / 2)
          ((if e % 2 = 1 then e - 1 else e) / 2)
  else some v
termination_by e
decreasing_by split <;> omega

/-- lazy_segment_tree.h:66-75 `update`. -/
def update (fup : T → T → T → T) (fdown : T → T → T → T × T × T) (f : T → Bool × T)
    (v : List T) (b e : Nat) : Option (List T) :=
  (propagateDown fdown v b e).bind fun v =>
    (updateLoop fup fdown f v (size v) b e).bind fun v => propagateUp fup v b e

/-- lazy_segment_tree.h:55 the new `tl`. -/
def takeL (fup : T → T → T → T) (v : List T) (tl : T) (i b : Nat) : Option T :=
  if b % 2 = 1 then (rd v (i + b)).map (fun x => fup tl tl x) else some tl

/-- lazy_segment_tree.h:56 the new `tr`. -/
def takeR (fup : T → T → T → T) (v : List T) (tr : T) (i e : Nat) : Option T :=
  if e % 2 = 1 then (rd v (i + (e - 1))).map (fun x => fup tr x tr) else some tr

/-- lazy_segment_tree.h:54-58 the loop of `get`. -/
def getLoop (fup : T → T → T → T) (v : List T) (tl tr : T) (i b e : Nat) : Option (T × T) :=
  if b < e then
    match takeL fup v tl i b, takeR fup v tr i e with
    | some tl, some tr =>
      getLoop fup v tl tr (i / 2) ((if b % 2 = 1 then b + 1 else b) / 2) ((if e % 2 = 1 then e - 1 else e) / 2)
    | _, _ => none
  else some (tl, tr)
termination_by e
decreasing_by split <;> omega

/-- lazy_segment_tree.h:50-61 `get`: the new state and the result. -/
def get (fup : T → T → T → T) (fdown : T → T → T → T × T × T) (v : List T) (b e : Nat) : Option (List T × T) :=
  match propagateDown fdown v b e with
  | none => none
  | some v =>
    match rd v 0 with
    | none => none
    | some id =>
      match getLoop fup v id id (size v) b e with
      | none => none
      | some (tl, tr) => some (v, fup tl tl tr)

/-- lazy_segment_tree.h:78-81 reading through `operator[]`. -/
def get1 (v : List T) (index : Nat) : Option T := rd v (index + size v)

/-- lazy_segment_tree.h:78-81 assigning through `operator[]`. -/
def write (v : List T) (index : Nat) (t : T) : Option (List T) := wr v (index + size v) t

/-- lazy_segment_tree.h:84-86 the loop of `rebuild()`. -/
def rebuildLoop (fup : T → T → T → T) : Nat → List T → Option (List T)
  | 0, v => some v
  | i + 1, v => (updateUp fup v (i + 1)).bind fun v => rebuildLoop fup i v

/-- lazy_segment_tree.h:83-87 `rebuild()`. -/
def rebuild (fup : T → T → T → T) (v : List T) : Option (List T) :=
  if size v = 0 then none else rebuildLoop fup (size v - 1) v

/-- lazy_segment_tree.h:93-95 the inner loop of `rebuild(begin, end)`. -/
def levelLoop (fup : T → T → T → T) (b : Nat) (v : List T) (i : Nat) : Option (List T) :=
  if b ≤ i then
    if i = 0 then none
    else (updateUp fup v i).bind fun v => levelLoop fup b v (i - 1)
  else some v
termination_by i
decreasing_by omega

/-- lazy_segment_tree.h:91-96 the outer loop of `rebuild(begin, end)`. -/
def rangeLoop (fup : T → T → T → T) (v : List T) (b e : Nat) : Option (List T) :=
  if b > 1 then (levelLoop fup (b / 2) v (e / 2)).bind fun v => rangeLoop fup v (b / 2) (e / 2)
  else some v
termination_by b
decreasing_by omega

/-- lazy_segment_tree.h:89-97 `rebuild(begin, end)`. -/
def rebuildRange (fup : T → T → T → T) (v : List T) (b e : Nat) : Option (List T) :=
  rangeLoop fup v (b + size v) (e + size v - 1)

/-- lazy_segment_tree.h:103-105 the inner loop of `restore`, `i` counting up to `e`. -/
def restoreLevel (fdown : T → T → T → T × T × T) (v : List T) (i e : Nat) : Option (List T) :=
  if i ≤ e then (updateDown fdown v i).bind fun v => restoreLevel fdown v (i + 1) e
  else some v
termination_by e + 1 - i

/-- lazy_segment_tree.h:102-106 the outer loop of `restore`, `h` counting down to 1. -/
def restoreLoop (fdown : T → T → T → T × T × T) (b e : Nat) : Nat → List T → Option (List T)
  | 0, v => some v
  | h + 1, v => (restoreLevel fdown v (b / 2 ^ (h + 1)) (e / 2 ^ (h + 1))).bind fun v =>
      restoreLoop fdown b e h v

/-- lazy_segment_tree.h:100-107 `restore`. -/
def restore (fdown : T → T → T → T × T × T) (v : List T) (b e : Nat) : Option (List T) :=
  restoreLoop fdown (b + size v) (e + size v - 1) (calcHeight (size v)) v

/-- lazy_segment_tree.h:181-184 `calc_pow2` is the same function as in segment_tree.h. -/
abbrev calcPow2 := SegTree.calcPow2

/-- lazy_segment_tree.h:37-40 constructor with a size. -/
def mkSize (sz : Nat) (id : T) : List T := List.replicate (calcPow2 sz * 2) id

/-- lazy_segment_tree.h:43-48 constructor with a range. -/
def mkRange (fup : T → T → T → T) (l : List T) (id : T) : Option (List T) :=
  rebuild fup (List.replicate (calcPow2 l.length) id ++ l ++
    List.replicate (calcPow2 l.length - l.length) id)

/-- Assignments through `operator[]`, one after the other. -/
def writes (v : List T) : List (Nat × T) → Option (List T)
  | [] => some v
  | (i, t) :: ws => (write v i t).bind fun v => writes v ws

/-- Calls by a user.  `edit b e ws` is the documented way of assigning elements directly:
`restore(b, e)`, then assignments through `operator[]` to elements in `[b, e)`, then
`rebuild(b, e)`. -/
inductive Op (T : Type*) where
  | update (b e : Nat) (f : T → Bool × T)
  | get (b e : Nat)
  | restore (b e : Nat)
  | edit (b e : Nat) (ws : List (Nat × T))

/-- The effect of a call on the state. -/
def step (fup : T → T → T → T) (fdown : T → T → T → T × T × T) (v : List T) : Op T → Option (List T)
  | .update b e f => update fup fdown f v b e
  | .get b e => (get fup fdown v b e).map (·.1)
  | .restore b e => restore fdown v b e
  | .edit b e ws =>
    (restore fdown v b e).bind fun v => (writes v ws).bind fun v => rebuildRange fup v b e

/-- A history of calls. -/
def run (fup : T → T → T → T) (fdown : T → T → T → T × T × T) (v : List T) : List (Op T) → Option (List T)
  | [] => some v
  | op :: h => (step fup fdown v op).bind fun v => run fup fdown v h

end Altruct.LazySeg
