/-
Model of /repo/include/altruct/structure/container/treap.h and rope.h.

A treap is the tree of `Verif/BST/Model.lean` that is rotated by priorities.  The random numbers are arguments.
Not modelled: construction, copying, relational operators, the iterator that `erase` returns.
-/
import Verif.BST.Model

namespace Altruct.Treap

open Altruct.BST

variable {V K : Type}

/-- treap.h:269-275: the loop of `retrace_up`. -/
def upLoop (it : Nat) : Nat → Heap V → Option (Heap V)
  | 0, _ => none
  | fuel + 1, h => do
    let n ← h it
    let p ← h n.parent
    if n.balance < p.balance then do
      let h ← (if p.left = it then rotateRight h n.parent else rotateLeft h n.parent)
      upLoop it fuel h
    else some h

/-- treap.h:266-277 `retrace_up`; `rnd` is what the generator returns. -/
def retraceUp (fuel : Nat) (h : Heap V) (it : Nat) (rnd : Int) : Option (Heap V) :=
  if it = 0 then some h
  else do
    let h ← setBalance h it rnd
    upLoop it fuel h

/-- treap.h:281-287: the loop of `retrace_down`. -/
def downLoop (it : Nat) : Nat → Heap V → Option (Heap V)
  | 0, _ => none
  | fuel + 1, h => do
    let n ← h it
    if n.left ≠ 0 ∧ n.right ≠ 0 then do
      let l ← h n.left
      let r ← h n.right
      let h ← (if l.balance < r.balance then rotateRight h it else rotateLeft h it)
      downLoop it fuel h
    else some h

/-- treap.h:279-289 `retrace_down`. -/
def retraceDown (fuel : Nat) (h : Heap V) (it : Nat) : Option (Heap V) :=
  if it = 0 then some h else downLoop it fuel h

/-- treap.h:239-241 `insert`; `fresh` is the address of a new node, `junk` its uninitialised balance. -/
def insert (dup : Dup) (key : V → K) (cmp : K → K → Bool) (fuel : Nat) (h : Heap V) (fresh : Nat) (junk : Int) (v : V) (cnt rnd : Int) : Option (Heap V × Nat) := do
  let (h, it) ← BST.insert dup key cmp fuel h fresh junk v cnt
  let h ← retraceUp fuel h it rnd
  some (h, it)

/-- treap.h:243-245 `insert_before`. -/
def insertBefore (dup : Dup) (fuel : Nat) (h : Heap V) (fresh : Nat) (junk : Int) (it : Nat) (v : V) (cnt rnd : Int) : Option (Heap V × Nat) := do
  let (h, it) ← BST.insertBefore dup fuel h fresh junk it v cnt
  let h ← retraceUp fuel h it rnd
  some (h, it)

/-- treap.h:261-263 `erase(it, cnt)`. -/
def erase (dup : Dup) (fuel : Nat) (h : Heap V) (it : Nat) (cnt : Int) : Option (Heap V) := do
  let h ← retraceDown fuel h it
  let (h, _) ← eraseNode dup fuel h it cnt
  some h

/-- treap.h:255-259 `erase(b, e, cnt)`. -/
def eraseRange (dup : Dup) (fuel : Nat) (cnt : Int) : Nat → Heap V → Nat → Nat → Option (Heap V)
  | steps, h, b, e =>
    if b = e then some h
    else match steps with
      | 0 => none
      | steps + 1 => do
        let nxt ← inorderNext h fuel b
        let h ← erase dup fuel h b cnt
        eraseRange dup fuel cnt steps h nxt e

/-- treap.h:247-253 `erase(key, cnt)`; `maxInt` is `std::numeric_limits<int>::max()`. -/
def eraseKey (dup : Dup) (key : V → K) (cmp : K → K → Bool) (maxInt : Int) (fuel : Nat) (h : Heap V) (x : K) (cnt : Int) : Option (Heap V) :=
  if dup = .store then do
    let b ← lowerBound key cmp fuel h x
    let e ← upperBound key cmp fuel h x
    eraseRange dup fuel maxInt fuel h b e
  else do
    let p ← find dup key cmp fuel h x
    erase dup fuel h p cnt

end Altruct.Treap

namespace Altruct.Rope

open Altruct.BST

variable {V : Type}

/-- rope.h:97 `comparator_t`: all elements are equivalent. -/
def never (_ _ : V) : Bool := false

/-- rope.h:197-199 `insert(it, val)`. -/
def insertAt (fuel : Nat) (h : Heap V) (fresh : Nat) (junk : Int) (it : Nat) (v : V) (rnd : Int) : Option (Heap V) := do
  let (h, _) ← Treap.insertBefore .store fuel h fresh junk it v 1 rnd
  some h

/-- rope.h:193-195 `insert(pos, val)`. -/
def insert (fuel : Nat) (h : Heap V) (fresh : Nat) (junk : Int) (pos : Int) (v : V) (rnd : Int) : Option (Heap V) := do
  let it ← findKth fuel h pos
  insertAt fuel h fresh junk it v rnd

/-- rope.h:189-191 `push_back`. -/
def pushBack (fuel : Nat) (h : Heap V) (fresh : Nat) (junk : Int) (v : V) (rnd : Int) : Option (Heap V) := do
  let n ← size h
  insert fuel h fresh junk n v rnd

/-- rope.h:213-215 `erase(it)`. -/
def eraseAt (fuel : Nat) (h : Heap V) (it : Nat) : Option (Heap V) := Treap.erase .store fuel h it 1

/-- rope.h:209-211 `erase(pos)`. -/
def erase (fuel : Nat) (h : Heap V) (pos : Int) : Option (Heap V) := do
  let it ← findKth fuel h pos
  eraseAt fuel h it

/-- rope.h:205-207 `erase(b, e)` with iterators. -/
def eraseRangeAt (fuel : Nat) : Nat → Heap V → Nat → Nat → Option (Heap V)
  | steps, h, b, e =>
    if b = e then some h
    else match steps with
      | 0 => none
      | steps + 1 => do
        let nxt ← inorderNext h fuel b
        let h ← eraseAt fuel h b
        eraseRangeAt fuel steps h nxt e

/-- rope.h:201-203 `erase(b, e)` with positions. -/
def eraseRange (fuel : Nat) (h : Heap V) (b e : Int) : Option (Heap V) := do
  let i ← findKth fuel h b
  let j ← findKth fuel h e
  eraseRangeAt fuel fuel h i j

/-- rope.h:217-223 `at(pos)` as a value; `none` on the `nil` node, which has no value. -/
def get (fuel : Nat) (h : Heap V) (pos : Int) : Option V := do
  let it ← findKth fuel h pos
  let n ← h it
  n.val

/-- rope.h:221-223 `at(pos) = v`. -/
def set (fuel : Nat) (h : Heap V) (pos : Int) (v : V) : Option (Heap V) := do
  let it ← findKth fuel h pos
  let n ← h it
  if n.val.isNone then none
  else some (h.set it { n with val := some v })

end Altruct.Rope
