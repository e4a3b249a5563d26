/-
Model of `experimental/include/altruct/structure/container/palindrome_tree.h`.

Letters are given as ordinals (the functor `ordinal` is applied beforehand) and numbers are unbounded.
-/
import Verif.Common.Vec
import Verif.Common.Loop

namespace Altruct.Tries

open Altruct

/-- `node_t` (palindrome_tree.h 26-33); `next` has `ALPHABET_SIZE` elements. -/
structure PtNode where
  len : Int
  pos : Int
  cnt : Nat
  depth : Nat
  suff : Nat
  next : List Nat
deriving DecidableEq

/-- The object (palindrome_tree.h 40-43). -/
structure PtState where
  str : List Nat
  nodes : List PtNode
  suff : Nat
  total : Nat
deriving DecidableEq

/-- A value-initialised node. -/
def ptZero (A : Nat) : PtNode := ⟨0, 0, 0, 0, 0, List.replicate A 0⟩

/-- `_init` (palindrome_tree.h 55-62): `NIL` is 0, `NEGAT` is 1, `EMPTY` is 2. -/
def ptNew (A : Nat) : PtState :=
  ⟨[], [ptZero A, { ptZero A with len := -1, suff := 1 }, { ptZero A with len := 0, suff := 1 }], 2, 0⟩

/-- `_find_suffix` (palindrome_tree.h 109-115); `fuel` bounds the rounds (`none`: no termination). -/
def ptFind (str : List Nat) (nodes : List PtNode) (c : Nat) : Nat → Nat → Option Nat
  | 0, _ => none
  | fuel + 1, i => (rd nodes i).bind fun nd =>
    if (str.length : Int) < nd.len + 2 then ptFind str nodes c fuel nd.suff
    else (rd str ((str.length : Int) - nd.len - 2).toNat).bind fun x =>
      if x ≠ c then ptFind str nodes c fuel nd.suff else some i

/-- `_find_suffix2` (palindrome_tree.h 103-107). -/
def ptFind2 (fuel : Nat) (str : List Nat) (nodes : List PtNode) (i c : Nat) : Option Nat :=
  if i = 1 then some 2
  else (rd nodes i).bind fun nd => (ptFind str nodes c fuel nd.suff).bind fun j => (rd nodes j).bind fun nj => rd nj.next c

/-- `_nodes[i].next[c] = r`. -/
def ptSetNext (nodes : List PtNode) (i c r : Nat) : Option (List PtNode) :=
  (rd nodes i).bind fun nd => (wr nd.next c r).bind fun nx => wr nodes i { nd with next := nx }

/-- `_nodes[i].cnt += k`. -/
def ptAddCnt (nodes : List PtNode) (i k : Nat) : Option (List PtNode) :=
  (rd nodes i).bind fun nd => wr nodes i { nd with cnt := nd.cnt + k }

/-- `add` (palindrome_tree.h 81-101).  The fields of the new node are set in one step. -/
def ptAdd (fuel A : Nat) (s : PtState) (c : Nat) : Option (Nat × PtState) :=
  (ptFind (s.str ++ [c]) s.nodes c fuel s.suff).bind fun i => (rd s.nodes i).bind fun nd => (rd nd.next c).bind fun nx =>
    if nx ≠ 0 then (ptAddCnt s.nodes nx 1).bind fun ns => (rd ns nx).map fun nn => (0, ⟨s.str ++ [c], ns, nx, s.total + nn.depth⟩)
    else (ptFind2 fuel (s.str ++ [c]) s.nodes i c).bind fun suff2 => (rd s.nodes suff2).bind fun n2 =>
      (ptSetNext (s.nodes ++ [⟨nd.len + 2, ((s.str.length : Int) + 1) - (nd.len + 2), 1, n2.depth + 1, suff2, List.replicate A 0⟩])
        i c s.nodes.length).map fun ns =>
        (1, ⟨s.str ++ [c], ns, s.nodes.length, s.total + (n2.depth + 1)⟩)

/-- `add_all` (palindrome_tree.h 64-74) and the constructor: the number of new palindromes. -/
def ptAddAll (fuel A : Nat) : PtState → List Nat → Option (Nat × PtState)
  | s, [] => some (0, s)
  | s, c :: w => (ptAdd fuel A s c).bind fun r => (ptAddAll fuel A r.2 w).map fun r' => (r.1 + r'.1, r'.2)

/-- `distinct` (palindrome_tree.h 131-133). -/
def ptDistinct (s : PtState) : Nat := s.nodes.length - 3

/-- The loop of `propagate` (palindrome_tree.h 119-122) over the nodes `3 + k - 1, …, 3`. -/
def ptPropLoop : Nat → List PtNode → Option (List PtNode)
  | 0, ns => some ns
  | k + 1, ns => (rd ns (3 + k)).bind fun nd => (ptAddCnt ns nd.suff nd.cnt).bind fun ns' => ptPropLoop k ns'

/-- `propagate` (palindrome_tree.h 118-123). -/
def ptPropagate (s : PtState) : Option PtState :=
  (ptPropLoop (s.nodes.length - 3) s.nodes).map fun ns => { s with nodes := ns }

end Altruct.Tries
