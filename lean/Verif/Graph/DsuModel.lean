/-
Model of `include/altruct/structure/graph/disjoint_set.h`.
-/
import Mathlib.Data.List.Basic

namespace Altruct.Dsu

/-- disjoint_set.h:10-13 `struct atom`. -/
structure Atom where
  parent : Nat
  rank : Nat
  count : Nat
deriving DecidableEq, Repr

/-- disjoint_set.h:15-16 the members.  (`size_t` counters are unbounded here.) -/
structure State where
  dist : Int
  va : List Atom
deriving DecidableEq, Repr

/-- disjoint_set.h:18-23 `ensure`. -/
def ensure (s : State) (sz : Nat) : State :=
  if s.va.length < sz then
    ensure { dist := s.dist + 1, va := s.va ++ [⟨s.va.length, 0, 1⟩] } sz
  else s
termination_by sz - s.va.length
decreasing_by simp; omega

/-- disjoint_set.h:26-34 constructor and `clear`. -/
def clear (sz : Nat) : State := ensure { dist := 0, va := [] } sz

/-- disjoint_set.h:57-60 first loop of `find`: follow the parents from `y`.  `none`: an
access out of bounds or more iterations than the given bound. -/
def findRoot (va : List Atom) : Nat → Nat → Option Nat
  | 0, _ => none
  | fuel + 1, y =>
    match va[y]? with
    | none => none
    | some a => if y ≠ a.parent then findRoot va fuel a.parent else some y

/-- disjoint_set.h:61-63 second loop of `find`: path compression. -/
def compress (y : Nat) : Nat → List Atom → Nat → Option (List Atom)
  | 0, _, _ => none
  | fuel + 1, va, x =>
    match va[x]? with
    | none => none
    | some a =>
      if x ≠ a.parent then compress y fuel (va.set x { a with parent := y }) a.parent else some va

/-- disjoint_set.h:55-65 `find`: the new state and the result.  Both loops are given
`va.size()` iterations; the theorems show that they need no more. -/
def find (s : State) (x : Nat) : Option (State × Nat) := do
  let s := ensure s (x + 1)
  let y ← findRoot s.va s.va.length x
  let va ← compress y s.va.length s.va x
  some ({ s with va := va }, y)

/-- disjoint_set.h:42-47 link the roots `x ≠ y` (`ax`, `ay` are their atoms). -/
def link (va : List Atom) (x y : Nat) (ax ay : Atom) : List Atom :=
  if ax.rank < ay.rank then
    (va.set x { ax with parent := y }).set y { ay with count := ay.count + ax.count }
  else
    (va.set y { ay with parent := x }).set x { ax with count := ax.count + ay.count }

/-- disjoint_set.h:48-50 `if (va[x].rank == va[y].rank) va[x].rank++;`. -/
def bumpRank (va : List Atom) (x y : Nat) : Option (List Atom) := do
  let ax ← va[x]?
  let ay ← va[y]?
  some (if ax.rank = ay.rank then va.set x { ax with rank := ax.rank + 1 } else va)

/-- disjoint_set.h:36-53 `unite`. -/
def unite (s : State) (x y : Nat) : Option (State × Bool) := do
  let (s, x) ← find s x
  let (s, y) ← find s y
  if x = y then some (s, false)
  else do
    let ax ← s.va[x]?
    let ay ← s.va[y]?
    let va ← bumpRank (link s.va x y ax ay) x y
    some ({ dist := s.dist - 1, va := va }, true)

/-- disjoint_set.h:67-69 `add_count`. -/
def addCount (s : State) (x c : Nat) : Option State := do
  let (s, r) ← find s x
  let a ← s.va[r]?
  some { s with va := s.va.set r { a with count := a.count + c } }

/-- disjoint_set.h:71-73 `count`. -/
def count (s : State) (x : Nat) : Option (State × Nat) := do
  let (s, r) ← find s x
  let a ← s.va[r]?
  some (s, a.count)

/-- disjoint_set.h:75-77 `distinct`. -/
def distinct (s : State) : Int := s.dist

/-- disjoint_set.h:79-81 `size`. -/
def size (s : State) : Nat := s.va.length

/-- A call of a mutating member function (`find` and `count` compress paths and may
grow the structure). -/
inductive Op where
  | unite (x y : Nat)
  | find (x : Nat)
  | addCount (x c : Nat)
  | count (x : Nat)
deriving DecidableEq, Repr

/-- The effect of a call on the state. -/
def step (s : State) : Op → Option State
  | .unite x y => (unite s x y).map (·.1)
  | .find x => (find s x).map (·.1)
  | .addCount x c => addCount s x c
  | .count x => (count s x).map (·.1)

/-- A history of calls. -/
def run (s : State) : List Op → Option State
  | [] => some s
  | op :: h => (step s op).bind fun s => run s h

end Altruct.Dsu
