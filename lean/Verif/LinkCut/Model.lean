/-
Model of structure/container/link_cut_tree.h on an explicit memory.

The pointer `nodes[i]` is modelled by the index `i` itself, so that `nodes[i]` and `->index` are the identity; `nil` is 0.
`none` is an access to a node that does not exist, or an endless loop: loops take a `fuel`, and the theorems say how much
is enough.  `f_up(node->val, l, r)` is `fup node.val l r`, the new value of the node.  The numbers `int` are unbounded.
-/
import Verif.Common.Vec

namespace Altruct.LinkCut

/-- link_cut_tree.h:24-37 `link_cut_node`. -/
structure Node (T : Type) where
  parent : Nat
  left : Nat
  right : Nat
  size : Int
  val : T

/-- The nodes in memory. -/
abbrev Heap (T : Type) := Nat → Option (Node T)

variable {T : Type}

/-- Store a node. -/
def Heap.set (h : Heap T) (a : Nat) (n : Node T) : Heap T := fun x => if x = a then some n else h x

/-- Change the node at an address. -/
def Heap.upd (h : Heap T) (a : Nat) (f : Node T → Node T) : Option (Heap T) := do
  let n ← h a
  some (h.set a (f n))

/-- link_cut_tree.h:34-36 `is_root`. -/
def isRoot (h : Heap T) (x : Nat) : Option Bool := do
  let n ← h x
  let p ← h n.parent
  some (x != p.left && x != p.right)

/-- link_cut_tree.h:243-247 `connect`. -/
def connect (h : Heap T) (x p : Nat) (connectLeft connectRight : Bool) : Option (Heap T) := do
  let h ← (if x ≠ 0 then h.upd x (fun n => { n with parent := p }) else some h)
  let h ← (if connectLeft then h.upd p (fun n => { n with left := x }) else some h)
  if connectRight then h.upd p (fun n => { n with right := x }) else some h

/-- link_cut_tree.h:250-255 `update`. -/
def update (fup : T → T → T → T) (h : Heap T) (x : Nat) : Option (Heap T) :=
  if x ≠ 0 then do
    let n ← h x
    let l ← h n.left
    let r ← h n.right
    h.upd x (fun n => { n with size := l.size + r.size + 1, val := fup n.val l.val r.val })
  else some h

/-- link_cut_tree.h:230-240 `rotate`. -/
def rotate (fup : T → T → T → T) (h : Heap T) (x : Nat) : Option (Heap T) := do
  let n ← h x
  let p ← h n.parent
  let isLeft := x == p.left
  let ch := if isLeft then n.right else n.left
  let h ← connect h ch n.parent isLeft (!isLeft)
  let h ← connect h n.parent x (!isLeft) isLeft
  let g ← h p.parent
  let h ← connect h x p.parent (n.parent == g.left) (n.parent == g.right)
  let h ← update fup h n.parent
  update fup h x

/-- link_cut_tree.h:219-227 `splay`. -/
def splay (fup : T → T → T → T) : Nat → Heap T → Nat → Option (Heap T)
  | 0, _, _ => none
  | fuel + 1, h, x => do
    if x = 0 then some h
    else do
      let z ← isRoot h x
      if z then some h
      else do
        let n ← h x
        let p ← h n.parent
        let g ← h p.parent
        let zigZig := (x == p.left) == (n.parent == g.left)
        let y ← isRoot h n.parent
        let h ← (if !y then rotate fup h (if zigZig then n.parent else x) else some h)
        let h ← rotate fup h x
        splay fup fuel h x

/-- link_cut_tree.h:208-213 the loop of `access`; the first number bounds its rounds. -/
def accessLoop (fup : T → T → T → T) (fuel : Nat) : Nat → Heap T → Nat → Nat → Option (Heap T × Nat)
  | 0, _, _, _ => none
  | rounds + 1, h, temp, last =>
    if temp ≠ 0 then do
      let h ← splay fup fuel h temp
      let h ← h.upd temp (fun n => { n with right := last })
      let h ← update fup h temp
      let n ← h temp
      accessLoop fup fuel rounds h n.parent temp
    else some (h, last)

/-- link_cut_tree.h:206-216 `access`. -/
def access (fup : T → T → T → T) (fuel : Nat) (h : Heap T) (x : Nat) : Option (Heap T × Nat) := do
  let (h, last) ← accessLoop fup fuel fuel h x 0
  let h ← splay fup fuel h x
  some (h, last)

/-- The tree and the length of `nodes`. -/
structure St (T : Type) where
  mem : Heap T
  cnt : Nat

/-- link_cut_tree.h:258-267 `_init`. -/
def init (id : T) : St T := ⟨fun x => if x = 0 then some ⟨0, 0, 0, 0, id⟩ else none, 1⟩

/-- link_cut_tree.h:277-287 `_buy`, link_cut_tree.h:97, 129-131 `add`, `make_tree`. -/
def add (s : St T) (v : T) : St T × Nat := (⟨s.mem.set s.cnt ⟨0, 0, 0, 1, v⟩, s.cnt + 1⟩, s.cnt)

/-- link_cut_tree.h:135-141 `link`. -/
def link (fup : T → T → T → T) (fuel : Nat) (h : Heap T) (x p : Nat) : Option (Heap T) := do
  let (h, _) ← access fup fuel h x
  let (h, _) ← access fup fuel h p
  h.upd x (fun n => { n with parent := p })

/-- link_cut_tree.h:144-150 `cut`. -/
def cut (fup : T → T → T → T) (fuel : Nat) (h : Heap T) (x : Nat) : Option (Heap T) := do
  let (h, _) ← access fup fuel h x
  let n ← h x
  let h ← h.upd n.left (fun m => { m with parent := 0 })
  let h ← h.upd x (fun n => { n with left := 0 })
  update fup h x

/-- link_cut_tree.h:154-156 the loop of `find_root`. -/
def goLeft (h : Heap T) : Nat → Nat → Option Nat
  | 0, _ => none
  | fuel + 1, x => do
    let n ← h x
    if n.left ≠ 0 then goLeft h fuel n.left else some x

/-- link_cut_tree.h:164-166 the loop of `find_parent`. -/
def goRight (h : Heap T) : Nat → Nat → Option Nat
  | 0, _ => none
  | fuel + 1, x => do
    let n ← h x
    if n.right ≠ 0 then goRight h fuel n.right else some x

/-- link_cut_tree.h:152-159 `find_root`. -/
def findRoot (fup : T → T → T → T) (fuel : Nat) (h : Heap T) (x : Nat) : Option (Heap T × Nat) := do
  let (h, _) ← access fup fuel h x
  let y ← goLeft h fuel x
  let (h, _) ← access fup fuel h y
  some (h, y)

/-- link_cut_tree.h:161-169 `find_parent`. -/
def findParent (fup : T → T → T → T) (fuel : Nat) (h : Heap T) (x : Nat) : Option (Heap T × Nat) := do
  let (h, _) ← access fup fuel h x
  let n ← h x
  let y ← goRight h fuel n.left
  let (h, _) ← access fup fuel h y
  some (h, y)

/-- link_cut_tree.h:171-175 `find_lca`; the C++ standard leaves open which operand of `!=` is evaluated first, and
the model takes the left one. -/
def findLca (fup : T → T → T → T) (fuel : Nat) (h : Heap T) (x y : Nat) : Option (Heap T × Nat) := do
  let (h, a) ← findRoot fup fuel h x
  let (h, b) ← findRoot fup fuel h y
  if a ≠ b then some (h, 0)
  else do
    let (h, _) ← access fup fuel h x
    access fup fuel h y

/-- link_cut_tree.h:177-180 `depth`. -/
def depth (fup : T → T → T → T) (fuel : Nat) (h : Heap T) (x : Nat) : Option (Heap T × Int) := do
  let (h, _) ← access fup fuel h x
  let n ← h x
  let l ← h n.left
  some (h, l.size)

/-- link_cut_tree.h:182-185 `get`; the reference is modelled by the value, and by `put` for an assignment to it. -/
def get (fup : T → T → T → T) (fuel : Nat) (h : Heap T) (x : Nat) : Option (Heap T × T) := do
  let (h, _) ← access fup fuel h x
  let n ← h x
  some (h, n.val)

/-- link_cut_tree.h:182-185 `get(x) = v`. -/
def put (fup : T → T → T → T) (fuel : Nat) (h : Heap T) (x : Nat) (v : T) : Option (Heap T) := do
  let (h, _) ← access fup fuel h x
  h.upd x (fun n => { n with val := v })

/-- link_cut_tree.h:191-196 the loop of `traverse`. -/
def traverseLoop (h : Heap T) (f : T → T → T → Int → Int) : Nat → Nat → Int → Option Nat
  | 0, _, _ => none
  | fuel + 1, x, d =>
    if x ≠ 0 then do
      let n ← h x
      let l ← h n.left
      let r ← h n.right
      let dir := f n.val l.val r.val d
      if dir = 0 then some x
      else do
        let y := if dir < 0 then n.left else n.right
        let m ← h y
        let ml ← h m.left
        traverseLoop h f fuel y (d + ((if dir < 0 then -m.size else 1) + ml.size))
    else some x

/-- link_cut_tree.h:188-198 `traverse`. -/
def traverse (fup : T → T → T → T) (fuel : Nat) (h : Heap T) (x : Nat) (f : T → T → T → Int → Int) : Option (Heap T × Nat) := do
  let (h, _) ← access fup fuel h x
  let n ← h x
  let l ← h n.left
  let y ← traverseLoop h f fuel x l.size
  some (h, y)

end Altruct.LinkCut
