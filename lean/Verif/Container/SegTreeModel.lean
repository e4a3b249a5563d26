/-
Model of `include/altruct/structure/container/segment_tree.h`.
-/
import Verif.Common.Vec

namespace Altruct.SegTree

variable {T : Type*}

/-- segment_tree.h:116 the loop of `calc_pow2` (unbounded integers). -/
def pow2Loop (w sz : Nat) (hw : 0 < w) : Nat :=
  if w < sz then pow2Loop (w * 2) sz (by omega) else w
termination_by sz - w

/-- segment_tree.h:115-118 `calc_pow2`. -/
def calcPow2 (sz : Nat) : Nat := pow2Loop 1 sz (by omega)

/-- segment_tree.h:84-86 `size`. -/
def size (v : List T) : Nat := v.length / 2

/-- segment_tree.h:111-113 `update`. -/
def update (f : T → T → T) (v : List T) (i : Nat) : Option (List T) :=
  match rd v (2 * i + 0), rd v (2 * i + 1) with
  | some a, some b => wr v i (f a b)
  | _, _ => none

/-- segment_tree.h:49-51 and :96-98 `while ((index /= 2) > 0) update(index);`. -/
def upLoop (f : T → T → T) (v : List T) (index : Nat) : Option (List T) :=
  if 0 < index / 2 then (update f v (index / 2)).bind fun v => upLoop f v (index / 2)
  else some v
termination_by index
decreasing_by omega

/-- segment_tree.h:46-52 `set`. -/
def set (f : T → T → T) (v : List T) (index : Nat) (t : T) : Option (List T) :=
  (wr v (index + size v) t).bind fun v' => upLoop f v' (index + size v)

/-- segment_tree.h:58-61 an assignment through `operator[]`. -/
def write (v : List T) (index : Nat) (t : T) : Option (List T) := wr v (index + size v) t

/-- segment_tree.h:63-71 `operator[] const` and `get(index)`. -/
def get1 (v : List T) (index : Nat) : Option T := rd v (index + size v)

/-- segment_tree.h:77 `if (begin & 1) tl = f(tl, v[i + begin++]);`, the new `tl`. -/
def takeL (f : T → T → T) (v : List T) (tl : T) (i b : Nat) : Option T :=
  if b % 2 = 1 then (rd v (i + b)).map (fun x => f tl x) else some tl

/-- segment_tree.h:78 `if (end & 1) tr = f(v[i + --end], tr);`, the new `tr`. -/
def takeR (f : T → T → T) (v : List T) (tr : T) (i e : Nat) : Option T :=
  if e % 2 = 1 then (rd v (i + (e - 1))).map (fun x => f x tr) else some tr

/-- segment_tree.h:76-80 the loop of `get(begin, end)`. -/
def getLoop (f : T → T → T) (v : List T) (tl tr : T) (i b e : Nat) : Option (T × T) :=
  if b < e then
    match takeL f v tl i b, takeR f v tr i e with
    | some tl, some tr =>
      getLoop f v tl tr (i / 2) ((if b % 2 = 1 then b + 1 else b) / 2) ((if e % 2 = 1 then e - 1 else e) / 2)
    | _, _ => none
  else some (tl, tr)
termination_by e
decreasing_by split <;> omega

/-- segment_tree.h:73-82 `get(begin, end)`. -/
def get (f : T → T → T) (v : List T) (b e : Nat) : Option T :=
  match rd v 0 with
  | none => none
  | some id =>
    match getLoop f v id id (size v) b e with
    | none => none
    | some (tl, tr) => some (f tl tr)

/-- segment_tree.h:89-91 the loop of `rebuild()`, counting down from `i`. -/
def rebuildLoop (f : T → T → T) : Nat → List T → Option (List T)
  | 0, v => some v
  | i + 1, v => (update f v (i + 1)).bind fun v => rebuildLoop f i v

/-- segment_tree.h:88-92 `rebuild()`.  (For a default-constructed object `size() - 1`
wraps around; that is `none` here.) -/
def rebuild (f : T → T → T) (v : List T) : Option (List T) :=
  if size v = 0 then none else rebuildLoop f (size v - 1) v

/-- segment_tree.h:94-99 `rebuild(index)`. -/
def rebuildAt (f : T → T → T) (v : List T) (index : Nat) : Option (List T) :=
  upLoop f v (index + size v)

/-- segment_tree.h:105-107 the inner loop of `rebuild(begin, end)`, `i` counting down to
`b`.  (`i = 0` would wrap around; that is `none` here.) -/
def levelLoop (f : T → T → T) (b : Nat) (v : List T) (i : Nat) : Option (List T) :=
  if b ≤ i then
    if i = 0 then none
    else (update f v i).bind fun v => levelLoop f b v (i - 1)
  else some v
termination_by i
decreasing_by omega

/-- segment_tree.h:103-108 the outer loop of `rebuild(begin, end)`. -/
def rangeLoop (f : T → T → T) (v : List T) (b e : Nat) : Option (List T) :=
  if b > 1 then (levelLoop f (b / 2) v (e / 2)).bind fun v => rangeLoop f v (b / 2) (e / 2)
  else some v
termination_by b
decreasing_by omega

/-- segment_tree.h:101-109 `rebuild(begin, end)`.  (`end - 1 + size()` does not wrap
around after the addition.) -/
def rebuildRange (f : T → T → T) (v : List T) (b e : Nat) : Option (List T) :=
  rangeLoop f v (b + size v) (e + size v - 1)

/-- segment_tree.h:33-36 constructor with a size. -/
def mkSize (sz : Nat) (id : T) : List T := List.replicate (calcPow2 sz * 2) id

/-- segment_tree.h:39-44 constructor with a range: the identity everywhere, then the
elements copied to `v.begin() + size()`, then `rebuild`. -/
def mkRange (f : T → T → T) (l : List T) (id : T) : Option (List T) :=
  rebuild f (List.replicate (calcPow2 l.length) id ++ l ++
    List.replicate (calcPow2 l.length - l.length) id)

/-- Calls of the mutating member functions. -/
inductive Op (T : Type*) where
  | set (index : Nat) (t : T)
  | write (index : Nat) (t : T)
  | rebuild
  | rebuildAt (index : Nat)
  | rebuildRange (b e : Nat)

/-- The effect of a call. -/
def step (f : T → T → T) (v : List T) : Op T → Option (List T)
  | .set i t => set f v i t
  | .write i t => write v i t
  | .rebuild => rebuild f v
  | .rebuildAt i => rebuildAt f v i
  | .rebuildRange b e => rebuildRange f v b e

/-- A history of calls. -/
def run (f : T → T → T) (v : List T) : List (Op T) → Option (List T)
  | [] => some v
  | op :: h => (step f v op).bind fun v => run f v h

end Altruct.SegTree
