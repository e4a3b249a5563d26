/-
Model of structure/container/binary_search_tree.h on an explicit heap of nodes.

A pointer is a natural number and 0 is the address of the `nil` node of the tree.  The heap maps an address to the node
that has been allocated there.  `none` is an access through a pointer to which nothing is allocated, or an endless
loop: loops take a `fuel`, and the theorems say how much is enough.  The numbers `int` are unbounded.
-/
import Verif.Common.Vec

namespace Altruct.BST

/-- binary_search_tree.h:48-61 `bst_node`; the value of the `nil` node is never constructed. -/
structure Node (V : Type) where
  parent : Nat
  left : Nat
  right : Nat
  balance : Int
  size : Int
  val : Option V

/-- The allocated nodes. -/
abbrev Heap (V : Type) := Nat → Option (Node V)

variable {V K : Type}

/-- Store a node. -/
def Heap.set (h : Heap V) (a : Nat) (n : Node V) : Heap V := fun x => if x = a then some n else h x

/-- binary_search_tree.h:707-710 `_free`. -/
def Heap.free (h : Heap V) (a : Nat) : Option (Heap V) := do
  let _ ← h a
  some fun x => if x = a then none else h x

/-- `p->parent = x`. -/
def setParent (h : Heap V) (p x : Nat) : Option (Heap V) := do
  let n ← h p
  some (h.set p { n with parent := x })

/-- `p->left = x`. -/
def setLeft (h : Heap V) (p x : Nat) : Option (Heap V) := do
  let n ← h p
  some (h.set p { n with left := x })

/-- `p->right = x`. -/
def setRight (h : Heap V) (p x : Nat) : Option (Heap V) := do
  let n ← h p
  some (h.set p { n with right := x })

/-- `p->size = x`. -/
def setSize (h : Heap V) (p : Nat) (x : Int) : Option (Heap V) := do
  let n ← h p
  some (h.set p { n with size := x })

/-- `p->balance = x`. -/
def setBalance (h : Heap V) (p : Nat) (x : Int) : Option (Heap V) := do
  let n ← h p
  some (h.set p { n with balance := x })

/-- binary_search_tree.h:59 `is_nil`. -/
def isNil (h : Heap V) (p : Nat) : Option Bool := do
  let n ← h p
  some (n.parent == p)

/-- `p->size`. -/
def sizeOf' (h : Heap V) (p : Nat) : Option Int := do
  let n ← h p
  some n.size

/-- binary_search_tree.h:60 `count`. -/
def count (h : Heap V) (p : Nat) : Option Int := do
  let n ← h p
  if n.parent == p then some 0
  else do
    let l ← sizeOf' h n.left
    let r ← sizeOf' h n.right
    some (n.size - l - r)

/-! ### binary_search_tree.h:66-142 `bst_iterator_util` -/

/-- binary_search_tree.h:75 the climb of `inorder_prev`. -/
def climbPrev (h : Heap V) : Nat → Nat → Option Nat
  | 0, _ => none
  | fuel + 1, p => do
    let n ← h p
    let q ← h n.parent
    if p ≠ q.right then climbPrev h fuel n.parent else some n.parent

/-- binary_search_tree.h:89 the climb of `inorder_next`. -/
def climbNext (h : Heap V) : Nat → Nat → Option Nat
  | 0, _ => none
  | fuel + 1, p => do
    let n ← h p
    let q ← h n.parent
    if p ≠ q.left then climbNext h fuel n.parent else some n.parent

/-- binary_search_tree.h:77 the descent of `inorder_prev`, from the child. -/
def descendRight (h : Heap V) : Nat → Nat → Option Nat
  | 0, _ => none
  | fuel + 1, p => do
    let n ← h p
    let z ← isNil h n.right
    if z then some p else descendRight h fuel n.right

/-- binary_search_tree.h:91 the descent of `inorder_next`, from the child. -/
def descendLeft (h : Heap V) : Nat → Nat → Option Nat
  | 0, _ => none
  | fuel + 1, p => do
    let n ← h p
    let z ← isNil h n.left
    if z then some p else descendLeft h fuel n.left

/-- binary_search_tree.h:72-80 `inorder_prev`. -/
def inorderPrev (h : Heap V) (fuel : Nat) (p : Nat) : Option Nat := do
  let n ← h p
  let z ← isNil h n.left
  if z then climbPrev h fuel p else descendRight h fuel n.left

/-- binary_search_tree.h:86-94 `inorder_next`. -/
def inorderNext (h : Heap V) (fuel : Nat) (p : Nat) : Option Nat := do
  let n ← h p
  let z ← isNil h n.right
  if z then climbNext h fuel p else descendLeft h fuel n.right

/-- binary_search_tree.h:112-115 the loop of `inorder_pos`; also returns the `nil` node it ends at. -/
def posLoop (h : Heap V) : Nat → Nat → Int → Bool → Option (Int × Nat)
  | 0, _, _, _ => none
  | fuel + 1, p, k, wasRight => do
    let n ← h p
    if n.parent == p then some (k, p)
    else do
      let r ← sizeOf' h n.right
      let q ← h n.parent
      posLoop h fuel n.parent (if wasRight then k + (n.size - r) else k) (q.right == p)

/-- binary_search_tree.h:110-118 `inorder_pos`. -/
def inorderPos (h : Heap V) (fuel : Nat) (p : Nat) : Option (Int × Nat) := do
  let n ← h p
  let l ← sizeOf' h n.left
  posLoop h fuel p l false

/-- binary_search_tree.h:124-135 `inorder_kth`. -/
def inorderKth (h : Heap V) : Nat → Nat → Int → Option Nat
  | 0, _, _ => none
  | fuel + 1, p, k => do
    let n ← h p
    if n.parent == p then some p
    else do
      let l ← sizeOf' h n.left
      let r ← sizeOf' h n.right
      if k < l then inorderKth h fuel n.left k
      else if k - (n.size - r) ≥ 0 then inorderKth h fuel n.right (k - (n.size - r))
      else some p

/-- binary_search_tree.h:100-104 `inorder_add`. -/
def inorderAdd (h : Heap V) (fuel : Nat) (p : Nat) (off : Int) : Option Nat := do
  let (pos, z) ← inorderPos h fuel p
  let n ← h z
  inorderKth h fuel n.left (pos + off)

/-! ### Queries -/

/-- binary_search_tree.h:213-219 `bst_duplicate_handling`. -/
inductive Dup where
  | ignore
  | count
  | store
deriving DecidableEq

/-- The key of the value of a node, binary_search_tree.h:683-685 `_key`. -/
def keyOf (key : V → K) (n : Node V) : Option K := n.val.map key

/-- binary_search_tree.h:394-401 the loop of `count_less_or_equal`. -/
def countLE (key : V → K) (cmp : K → K → Bool) (x : K) (h : Heap V) : Nat → Nat → Int → Option Int
  | 0, _, _ => none
  | fuel + 1, p, k => do
    let n ← h p
    if n.parent == p then some k
    else do
      let y ← keyOf key n
      if cmp x y then countLE key cmp x h fuel n.left k
      else do
        let r ← sizeOf' h n.right
        countLE key cmp x h fuel n.right (k + (n.size - r))

/-- binary_search_tree.h:407-414 the loop of `count_less`. -/
def countLT (key : V → K) (cmp : K → K → Bool) (x : K) (h : Heap V) : Nat → Nat → Int → Option Int
  | 0, _, _ => none
  | fuel + 1, p, k => do
    let n ← h p
    if n.parent == p then some k
    else do
      let y ← keyOf key n
      if cmp y x then do
        let r ← sizeOf' h n.right
        countLT key cmp x h fuel n.right (k + (n.size - r))
      else countLT key cmp x h fuel n.left k

/-- binary_search_tree.h:436-449 the loop of `find`. -/
def findLoop (dup : Dup) (key : V → K) (cmp : K → K → Bool) (x : K) (h : Heap V) : Nat → Nat → Nat → Option Nat
  | 0, _, _ => none
  | fuel + 1, p, res => do
    let n ← h p
    if n.parent == p then some res
    else do
      let y ← keyOf key n
      if cmp y x then findLoop dup key cmp x h fuel n.right res
      else if cmp x y then findLoop dup key cmp x h fuel n.left res
      else if dup = .store then findLoop dup key cmp x h fuel n.left p
      else some p

/-- binary_search_tree.h:459-466 the loop of `lower_bound`. -/
def lowerLoop (key : V → K) (cmp : K → K → Bool) (x : K) (h : Heap V) : Nat → Nat → Nat → Option Nat
  | 0, _, _ => none
  | fuel + 1, p, res => do
    let n ← h p
    if n.parent == p then some res
    else do
      let y ← keyOf key n
      if cmp y x then lowerLoop key cmp x h fuel n.right res
      else lowerLoop key cmp x h fuel n.left p

/-- binary_search_tree.h:476-483 the loop of `upper_bound`. -/
def upperLoop (key : V → K) (cmp : K → K → Bool) (x : K) (h : Heap V) : Nat → Nat → Nat → Option Nat
  | 0, _, _ => none
  | fuel + 1, p, res => do
    let n ← h p
    if n.parent == p then some res
    else do
      let y ← keyOf key n
      if cmp x y then upperLoop key cmp x h fuel n.left p
      else upperLoop key cmp x h fuel n.right res

/-- binary_search_tree.h:280-286 `root_ptr`. -/
def rootPtr (h : Heap V) : Option Nat := do
  let n ← h 0
  some n.left

/-- binary_search_tree.h:347-349 `size`. -/
def size (h : Heap V) : Option Int := do
  let r ← rootPtr h
  sizeOf' h r

/-- binary_search_tree.h:343-345 `empty`. -/
def empty (h : Heap V) : Option Bool := do
  let r ← rootPtr h
  let s ← sizeOf' h r
  some (s == 0)

/-- binary_search_tree.h:392-403 `count_less_or_equal`. -/
def countLessOrEqual (key : V → K) (cmp : K → K → Bool) (fuel : Nat) (h : Heap V) (x : K) : Option Int := do
  let r ← rootPtr h
  countLE key cmp x h fuel r 0

/-- binary_search_tree.h:405-416 `count_less`. -/
def countLess (key : V → K) (cmp : K → K → Bool) (fuel : Nat) (h : Heap V) (x : K) : Option Int := do
  let r ← rootPtr h
  countLT key cmp x h fuel r 0

/-- binary_search_tree.h:434-451 `find`. -/
def find (dup : Dup) (key : V → K) (cmp : K → K → Bool) (fuel : Nat) (h : Heap V) (x : K) : Option Nat := do
  let r ← rootPtr h
  findLoop dup key cmp x h fuel r 0

/-- binary_search_tree.h:457-468 `lower_bound`. -/
def lowerBound (key : V → K) (cmp : K → K → Bool) (fuel : Nat) (h : Heap V) (x : K) : Option Nat := do
  let r ← rootPtr h
  lowerLoop key cmp x h fuel r 0

/-- binary_search_tree.h:474-485 `upper_bound`. -/
def upperBound (key : V → K) (cmp : K → K → Bool) (fuel : Nat) (h : Heap V) (x : K) : Option Nat := do
  let r ← rootPtr h
  upperLoop key cmp x h fuel r 0

/-- binary_search_tree.h:418-424 `count(key)`. -/
def countKey (dup : Dup) (key : V → K) (cmp : K → K → Bool) (fuel : Nat) (h : Heap V) (x : K) : Option Int :=
  if dup = .store then do
    let a ← countLessOrEqual key cmp fuel h x
    let b ← countLess key cmp fuel h x
    some (a - b)
  else do
    let p ← find dup key cmp fuel h x
    count h p

/-- binary_search_tree.h:426-428 `find_kth`. -/
def findKth (fuel : Nat) (h : Heap V) (k : Int) : Option Nat := do
  let r ← rootPtr h
  inorderKth h fuel r k

/-! ### Links -/

/-- binary_search_tree.h:662-666 `make_link` with a side. -/
def makeLinkSide (h : Heap V) (par ch : Nat) (goLeft : Bool) : Option (Heap V) := do
  let z ← isNil h par
  let h ← (if z || goLeft then setLeft h par ch else some h)
  let z ← isNil h par
  let h ← (if z || !goLeft then setRight h par ch else some h)
  let z ← isNil h ch
  if z then some h else setParent h ch par

/-- binary_search_tree.h:668-673 `make_link` with the old child. -/
def makeLink (h : Heap V) (par ch old : Nat) : Option (Heap V) := do
  let n ← h par
  let h ← (if n.right == old then setRight h par ch else some h)
  let n ← h par
  let h ← (if n.left == old then setLeft h par ch else some h)
  let z ← isNil h ch
  if z then some h else setParent h ch par

/-- binary_search_tree.h:675-680 `propagate_size`. -/
def propagateSize (h : Heap V) (fuel : Nat) (p fin : Nat) (cnt : Int) : Option (Heap V) :=
  if cnt = 0 then some h else go fuel h p
where
  go : Nat → Heap V → Nat → Option (Heap V)
    | 0, _, _ => none
    | fuel + 1, h, p =>
      if p = fin then some h
      else do
        let n ← h p
        go fuel (h.set p { n with size := n.size + cnt }) n.parent

/-- binary_search_tree.h:619-629 `rotate_left`. -/
def rotateLeft (h : Heap V) (p : Nat) : Option (Heap V) := do
  let n ← h p
  let ch := n.right
  let sz := n.size
  let h ← makeLink h n.parent ch p
  let c ← h ch
  let h ← makeLink h p c.left ch
  let n ← h p
  let c ← h ch
  let l ← sizeOf' h c.left
  let h ← setSize h p (n.size + (l - c.size))
  let h ← setLeft h ch p
  let h ← setParent h p ch
  setSize h ch sz

/-- binary_search_tree.h:631-641 `rotate_right`. -/
def rotateRight (h : Heap V) (p : Nat) : Option (Heap V) := do
  let n ← h p
  let ch := n.left
  let sz := n.size
  let h ← makeLink h n.parent ch p
  let c ← h ch
  let h ← makeLink h p c.right ch
  let n ← h p
  let c ← h ch
  let r ← sizeOf' h c.right
  let h ← setSize h p (n.size + (r - c.size))
  let h ← setRight h ch p
  let h ← setParent h p ch
  setSize h ch sz

/-- binary_search_tree.h:645-648 exchange the parents. -/
def swapParents (h : Heap V) (p d : Nat) : Option (Heap V) := do
  let pn ← h p
  let dn ← h d
  let h ← setParent h p dn.parent
  let h ← setParent h d pn.parent
  let pn ← h p
  let h ← (if pn.parent == p then setParent h p d else some h)
  let pn ← h p
  let h ← makeLink h pn.parent p d
  let dn ← h d
  makeLink h dn.parent d p

/-- `if (!ch->is_nil()) ch->parent = par`, binary_search_tree.h:651-652, 655-656. -/
def fixParent (h : Heap V) (ch par : Nat) : Option (Heap V) := do
  let z ← isNil h ch
  if z then some h else setParent h ch par

/-- binary_search_tree.h:649-652 exchange the left children. -/
def swapLefts (h : Heap V) (p d : Nat) : Option (Heap V) := do
  let pn ← h p
  let dn ← h d
  let h ← setLeft h p dn.left
  let h ← setLeft h d pn.left
  let dn ← h d
  let h ← (if dn.left == d then setLeft h d p else some h)
  let pn ← h p
  let h ← fixParent h pn.left p
  let dn ← h d
  fixParent h dn.left d

/-- binary_search_tree.h:653-656 exchange the right children. -/
def swapRights (h : Heap V) (p d : Nat) : Option (Heap V) := do
  let pn ← h p
  let dn ← h d
  let h ← setRight h p dn.right
  let h ← setRight h d pn.right
  let dn ← h d
  let h ← (if dn.right == d then setRight h d p else some h)
  let pn ← h p
  let h ← fixParent h pn.right p
  let dn ← h d
  fixParent h dn.right d

/-- binary_search_tree.h:657-658 exchange the balances and the sizes. -/
def swapNumbers (h : Heap V) (p d : Nat) : Option (Heap V) := do
  let pn ← h p
  let dn ← h d
  let h ← setBalance h p dn.balance
  let h ← setBalance h d pn.balance
  let pn ← h p
  let dn ← h d
  let h ← setSize h p dn.size
  setSize h d pn.size

/-- binary_search_tree.h:644-660 `swap_with_descendant`. -/
def swapWithDescendant (h : Heap V) (fuel : Nat) (p d : Nat) : Option (Heap V) := do
  let h ← swapParents h p d
  let h ← swapLefts h p d
  let h ← swapRights h p d
  let h ← swapNumbers h p d
  let cd ← count h d
  let cp ← count h p
  propagateSize h fuel p d (cd - cp)

/-! ### Insertion and removal -/

/-- binary_search_tree.h:565-580 `insert_node`; `fresh` is the address at which `_buy` allocates, `bal` the
uninitialised balance of the new node. -/
def insertNode (dup : Dup) (h : Heap V) (fuel : Nat) (fresh : Nat) (bal : Int) (par : Nat) (goLeft : Bool) (v : V) (cnt : Int) : Option (Heap V × Nat) := do
  let n ← h par
  let p := if goLeft then n.left else n.right
  let z ← isNil h p
  let (h, p) ← (if z then
      if (h fresh).isSome then none
      else do
        let h := h.set fresh ⟨par, 0, 0, bal, 0, some v⟩
        let h ← makeLinkSide h par fresh goLeft
        some (h, fresh)
    else some (h, p))
  let cnt := if dup = .count then cnt else 1
  let h ← propagateSize h fuel p 0 cnt
  some (h, p)

/-- binary_search_tree.h:501-521 the loop of `insert`: the parent and the side, or the element that is already there. -/
def insertLoop (dup : Dup) (key : V → K) (cmp : K → K → Bool) (v : V) (h : Heap V) : Nat → Nat → Nat → Bool → Option (Nat ⊕ (Nat × Bool))
  | 0, _, _, _ => none
  | fuel + 1, p, par, goLeft => do
    let n ← h p
    if n.parent == p then some (.inr (par, goLeft))
    else do
      let y ← keyOf key n
      if cmp (key v) y then insertLoop dup key cmp v h fuel n.left p true
      else if cmp y (key v) then insertLoop dup key cmp v h fuel n.right p false
      else match dup with
        | .store => insertLoop dup key cmp v h fuel n.right p false
        | .count => some (.inr (n.parent, goLeft))
        | .ignore => some (.inl p)

/-- binary_search_tree.h:499-525 `insert`; returns the element. -/
def insert (dup : Dup) (key : V → K) (cmp : K → K → Bool) (fuel : Nat) (h : Heap V) (fresh : Nat) (bal : Int) (v : V) (cnt : Int) : Option (Heap V × Nat) := do
  let r ← rootPtr h
  let w ← insertLoop dup key cmp v h fuel r 0 true
  match w with
  | .inl p => some (h, p)
  | .inr (par, goLeft) => insertNode dup h fuel fresh bal par goLeft v cnt

/-- binary_search_tree.h:528-531 `insert_before`. -/
def insertBefore (dup : Dup) (fuel : Nat) (h : Heap V) (fresh : Nat) (bal : Int) (it : Nat) (v : V) (cnt : Int) : Option (Heap V × Nat) := do
  let n ← h it
  let goLeft ← isNil h n.left
  let it ← (if goLeft then some it else inorderPrev h fuel it)
  insertNode dup h fuel fresh bal it goLeft v cnt

/-- binary_search_tree.h:582-603 `erase_node`. -/
def eraseNode (dup : Dup) (fuel : Nat) (h : Heap V) (p : Nat) (cnt : Int) : Option (Heap V × Nat) := do
  let z ← isNil h p
  if z then some (h, 0)
  else do
    let cnt := if dup = .count then cnt else 1
    let c ← count h p
    if cnt < c then do
      let h ← propagateSize h fuel p 0 (-cnt)
      some (h, p)
    else do
      let n ← h p
      let zl ← isNil h n.left
      let zr ← isNil h n.right
      let h ← (if !zl && !zr then do
          let d ← inorderNext h fuel p
          swapWithDescendant h fuel p d
        else some h)
      let n ← h p
      let zl ← isNil h n.left
      let ch := if !zl then n.left else n.right
      let par := n.parent
      let h ← makeLink h par ch p
      let h ← propagateSize h fuel par 0 (-c)
      let h ← h.free p
      some (h, par)

/-- binary_search_tree.h:541-544 `erase(b, e, cnt)`: `while (b != e) erase(b++, cnt);`. -/
def eraseRange (dup : Dup) (fuel : Nat) (cnt : Int) : Nat → Heap V → Nat → Nat → Option (Heap V)
  | steps, h, b, e =>
    if b = e then some h
    else match steps with
      | 0 => none
      | steps + 1 => do
        let nxt ← inorderNext h fuel b
        let (h, _) ← eraseNode dup fuel h b cnt
        eraseRange dup fuel cnt steps h nxt e

/-- binary_search_tree.h:533-539 `erase(key, cnt)`; `maxInt` is `std::numeric_limits<int>::max()`. -/
def eraseKey (dup : Dup) (key : V → K) (cmp : K → K → Bool) (maxInt : Int) (fuel : Nat) (h : Heap V) (x : K) (cnt : Int) : Option (Heap V) :=
  if dup = .store then do
    let b ← lowerBound key cmp fuel h x
    let e ← upperBound key cmp fuel h x
    eraseRange dup fuel maxInt fuel h b e
  else do
    let p ← find dup key cmp fuel h x
    let (h, _) ← eraseNode dup fuel h p cnt
    some h

/-- binary_search_tree.h:687-694 `_init`: the empty tree. -/
def init : Heap V := fun x => if x = 0 then some ⟨0, 0, 0, 0, 0, none⟩ else none

end Altruct.BST
