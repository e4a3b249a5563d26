/-
Model of `experimental/include/altruct/structure/container/prefix_tree.h`.

Nodes live in a heap: address 0 is `nullptr`, an address is never used twice, and using a freed node is `none`
(undefined behaviour).  Letters are given as ordinals (the functors `ordinal` and `letter` are the identity) and
numbers are unbounded.  Copying a tree (which copies the pointers) is not modelled.
-/
import Verif.Common.Vec

namespace Altruct.Tries

open Altruct

/-- `node_t` (prefix_tree.h 34-43); `next` has `ALPHABET_SIZE` elements. -/
structure TrNode where
  wordId : Nat
  numCh : Nat
  ord : Nat
  parent : Nat
  next : List Nat
deriving DecidableEq

/-- The object (prefix_tree.h 45-48) and the heap. -/
structure TrState where
  heap : List (Option TrNode)
  nodes : Nat
  root : Nat
  words : List Nat
deriving DecidableEq

/-- Reading `*p`. -/
def trGet (h : List (Option TrNode)) (p : Nat) : Option TrNode := (rd h p).bind id

/-- Writing `*p`. -/
def trPut (h : List (Option TrNode)) (p : Nat) (nd : TrNode) : Option (List (Option TrNode)) :=
  (trGet h p).bind fun _ => wr h p (some nd)

/-- The node constructor (prefix_tree.h 40-42). -/
def trZero (A : Nat) : TrNode := ⟨0, 0, 0, 0, List.replicate A 0⟩

/-- `_init` on the empty heap (prefix_tree.h 51-53, 210-213). -/
def trNew (A : Nat) : TrState := ⟨[none, some (trZero A)], 1, 1, [1]⟩

/-- `_find` (prefix_tree.h 153-161). -/
def trFindLoop (h : List (Option TrNode)) (root : Nat) : Nat → List Nat → Option Nat
  | t, [] => some t
  | t, o :: w => (trGet h t).bind fun nd => (rd nd.next o).bind fun nx =>
    if nx = 0 then some root else trFindLoop h root nx w

/-- `find` (prefix_tree.h 89-96). -/
def trFind (s : TrState) (w : List Nat) : Option Nat :=
  (trFindLoop s.heap s.root s.root w).bind fun t => (trGet s.heap t).map fun nd => nd.wordId

/-- The loop of `_insert` (prefix_tree.h 165-174) with `_buy` (215-220): the last node, the heap and the number of nodes. -/
def trInsertLoop (A : Nat) : List (Option TrNode) → Nat → Nat → List Nat → Option (Nat × List (Option TrNode) × Nat)
  | h, n, t, [] => some (t, h, n)
  | h, n, t, o :: w => (trGet h t).bind fun nd => (rd nd.next o).bind fun nx =>
    if nx = 0 then (wr nd.next o h.length).bind fun nx' =>
      (trPut (h ++ [some { trZero A with parent := t, ord := o }]) t { nd with next := nx', numCh := nd.numCh + 1 }).bind fun h' =>
        trInsertLoop A h' (n + 1) h.length w
    else trInsertLoop A h n nx w

/-- `_insert` and the `word_id` of its result (prefix_tree.h 164-180). -/
def trInsert (A : Nat) (s : TrState) (t : Nat) (w : List Nat) : Option (Nat × TrState) :=
  (trInsertLoop A s.heap s.nodes t w).bind fun r => (trGet r.2.1 r.1).bind fun nd =>
    if r.1 ≠ s.root ∧ nd.wordId = 0 then
      (trPut r.2.1 r.1 { nd with wordId := s.words.length }).map fun h =>
        (s.words.length, { s with heap := h, nodes := r.2.2, words := s.words ++ [r.1] })
    else some (nd.wordId, { s with heap := r.2.1, nodes := r.2.2 })

/-- `add` (prefix_tree.h 67-74). -/
def trAdd (A : Nat) (s : TrState) (w : List Nat) : Option (Nat × TrState) := trInsert A s s.root w

/-- `append` (prefix_tree.h 79-86). -/
def trAppend (A : Nat) (s : TrState) (id : Nat) (w : List Nat) : Option (Nat × TrState) :=
  (rd s.words id).bind fun t => trInsert A s t w

/-- The loop of `_erase` (prefix_tree.h 189-195) with `_free` (222-226); `fuel` bounds the rounds. -/
def trEraseLoop (root : Nat) : Nat → List (Option TrNode) → Nat → Nat → Option (List (Option TrNode) × Nat)
  | 0, _, _, _ => none
  | fuel + 1, h, n, t => (trGet h t).bind fun nd =>
    if t ≠ root ∧ nd.numCh = 0 ∧ nd.wordId = 0 then
      (trGet h nd.parent).bind fun p => (wr p.next nd.ord 0).bind fun nx =>
        (trPut h nd.parent { p with numCh := p.numCh - 1, next := nx }).bind fun h1 =>
          (wr h1 t none).bind fun h2 => trEraseLoop root fuel h2 (n - 1) nd.parent
    else some (h, n)

/-- `erase` (prefix_tree.h 121-123, 182-197). -/
def trErase (fuel : Nat) (s : TrState) (id : Nat) : Option (Nat × TrState) :=
  (rd s.words id).bind fun t => (trGet s.heap t).bind fun nd =>
    if nd.wordId = 0 then some (0, s)
    else (rd s.words (s.words.length - 1)).bind fun last => (wr s.words nd.wordId last).bind fun ws1 =>
      (rd ws1 nd.wordId).bind fun l => (trGet s.heap l).bind fun ln =>
        (trPut s.heap l { ln with wordId := nd.wordId }).bind fun h1 => (trGet h1 t).bind fun nd1 =>
          (trPut h1 t { nd1 with wordId := 0 }).bind fun h2 => (trEraseLoop s.root fuel h2 s.nodes t).map fun r =>
            (nd.wordId, { s with heap := r.1, nodes := r.2, words := ws1.dropLast })

/-- The loop of `get` (prefix_tree.h 102-104): the letters from the last to the first. -/
def trGetLoop (h : List (Option TrNode)) (root : Nat) : Nat → Nat → Option (List Nat)
  | 0, _ => none
  | fuel + 1, t => if t = root then some [] else (trGet h t).bind fun nd => (trGetLoop h root fuel nd.parent).map fun w => nd.ord :: w

/-- `get` (prefix_tree.h 100-106). -/
def trWord (fuel : Nat) (s : TrState) (id : Nat) : Option (List Nat) :=
  (rd s.words id).bind fun t => (trGetLoop s.heap s.root fuel t).map List.reverse

/-- The loop of `_for_each` over the children (prefix_tree.h 202-207) from the ordinal `o` on; `visit` is the recursive call. -/
def trKids (visit : Nat → List Nat → Option (List (List Nat × Nat))) (w : List Nat) : Nat → List Nat → Option (List (List Nat × Nat))
  | _, [] => some []
  | o, nx :: rest => if nx = 0 then trKids visit w (o + 1) rest
    else (visit nx (w ++ [o])).bind fun l => (trKids visit w (o + 1) rest).map fun l' => l ++ l'

/-- `_for_each` (prefix_tree.h 200-208): the list of the calls of the visitor; `fuel` bounds the depth. -/
def trVisit (h : List (Option TrNode)) : Nat → Nat → List Nat → Option (List (List Nat × Nat))
  | 0, _, _ => none
  | fuel + 1, t, w => (trGet h t).bind fun nd => (trKids (trVisit h fuel) w 0 nd.next).map fun l =>
    if nd.wordId ≠ 0 then (w, nd.wordId) :: l else l

/-- `for_each` (prefix_tree.h 110-117). -/
def trForEach (fuel : Nat) (s : TrState) (id : Nat) : Option (List (List Nat × Nat)) :=
  (trWord fuel s id).bind fun w => (rd s.words id).bind fun t => trVisit s.heap fuel t w

/-- The calls of the interface. -/
inductive TrOp
  | add (w : List Nat)
  | append (id : Nat) (w : List Nat)
  | find (w : List Nat)
  | get (id : Nat)
  | forEach (id : Nat)
  | erase (id : Nat)
  | eraseWord (w : List Nat)
  | numWords
  | numLetters
deriving DecidableEq

/-- The results of the calls. -/
inductive TrOut
  | num (n : Nat)
  | word (w : List Nat)
  | visits (l : List (List Nat × Nat))
deriving DecidableEq

/-- A call (`erase` of a word: prefix_tree.h 124-131, `num_words`, `num_letters`: 134-142). -/
def trStep (fuel A : Nat) (s : TrState) : TrOp → Option (TrOut × TrState)
  | .add w => (trAdd A s w).map fun r => (.num r.1, r.2)
  | .append id w => (trAppend A s id w).map fun r => (.num r.1, r.2)
  | .find w => (trFind s w).map fun r => (.num r, s)
  | .get id => (trWord fuel s id).map fun r => (.word r, s)
  | .forEach id => (trForEach fuel s id).map fun r => (.visits r, s)
  | .erase id => (trErase fuel s id).map fun r => (.num r.1, r.2)
  | .eraseWord w => (trFind s w).bind fun id => (trErase fuel s id).map fun r => (.num r.1, r.2)
  | .numWords => some (.num (s.words.length - 1), s)
  | .numLetters => some (.num (s.nodes - 1), s)

/-- A sequence of calls. -/
def trRun (fuel A : Nat) : TrState → List TrOp → Option (List TrOut)
  | _, [] => some []
  | s, op :: ops => (trStep fuel A s op).bind fun r => (trRun fuel A r.2 ops).map fun outs => r.1 :: outs

end Altruct.Tries
