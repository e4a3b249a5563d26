/-
Model of `experimental/include/altruct/structure/container/aho_corasick_trie.h`.

Letters are given as ordinals (the functor `ordinal` is applied beforehand) and numbers are unbounded: `index_t`,
`alpha_t` and `int64_t` do not overflow (with `ALPHA_T = char` and an alphabet of 128 or more letters the loop of
`build` over the letters does not end in the code; the model does not cover that).
-/
import Verif.Common.Vec

namespace Altruct.Tries

open Altruct

/-- `node_t` (aho_corasick_trie.h 35-41); `next` has `ALPHABET_SIZE` elements. -/
structure AcNode where
  lett : Nat
  parent : Nat
  suff : Nat
  cnt : Nat
  next : List Nat
deriving DecidableEq

/-- A value-initialised node. -/
def acZero (A : Nat) : AcNode := ⟨0, 0, 0, 0, List.replicate A 0⟩

/-- The constructor (aho_corasick_trie.h 45-48): `NIL` is 0, `ROOT` is 1. -/
def acNew (A : Nat) : List AcNode := [acZero A, { acZero A with suff := 1 }]

/-- `trie[cur].next[c] = r`. -/
def acSetNext (t : List AcNode) (cur c r : Nat) : Option (List AcNode) :=
  (rd t cur).bind fun nd => (wr nd.next c r).bind fun nx => wr t cur { nd with next := nx }

/-- `trie[cur].suff_link = r`. -/
def acSetSuff (t : List AcNode) (cur r : Nat) : Option (List AcNode) :=
  (rd t cur).bind fun nd => wr t cur { nd with suff := r }

/-- `trie[cur].word_cnt += k`. -/
def acAddCnt (t : List AcNode) (cur k : Nat) : Option (List AcNode) :=
  (rd t cur).bind fun nd => wr t cur { nd with cnt := nd.cnt + k }

/-- `_insert` (aho_corasick_trie.h 72-78). -/
def acChild (A : Nat) (t : List AcNode) (cur c : Nat) : Option (Nat × List AcNode) :=
  (rd t cur).bind fun nd => (rd nd.next c).bind fun nx =>
    if nx ≠ 0 then some (nx, t)
    else (acSetNext (t ++ [{ acZero A with lett := c, parent := cur }]) cur c t.length).map fun t' => (t.length, t')

/-- The loop of `insert` over the letters (aho_corasick_trie.h 64-67). -/
def acWalk (A : Nat) : List AcNode → Nat → List Nat → Option (Nat × List AcNode)
  | t, cur, [] => some (cur, t)
  | t, cur, c :: w => (acChild A t cur c).bind fun r => acWalk A r.2 r.1 w

/-- `insert` (aho_corasick_trie.h 60-70); the reservation of memory is left out. -/
def acInsert (A : Nat) (t : List AcNode) (w : List Nat) : Option (Nat × List AcNode) :=
  (acWalk A t 1 w).bind fun r => (acAddCnt r.2 r.1 1).map fun t' => (r.1, t')

/-- Insertion of several words, with the results of the calls. -/
def acInsertAll (A : Nat) : List AcNode → List (List Nat) → Option (List Nat × List AcNode)
  | t, [] => some ([], t)
  | t, w :: ws => (acInsert A t w).bind fun r => (acInsertAll A r.2 ws).map fun r' => (r.1 :: r'.1, r'.2)

/-- `_get_suff_link` (aho_corasick_trie.h 126-132) over `mv`, the function `move_next`. -/
def acSuff (mv : List AcNode → Nat → Nat → Option (Nat × List AcNode)) (t : List AcNode) (cur : Nat) :
    Option (Nat × List AcNode) :=
  (rd t cur).bind fun nd =>
    if nd.suff ≠ 0 then some (nd.suff, t)
    else if nd.parent = 1 then (acSetSuff t cur 1).map fun t' => (1, t')
    else (rd t nd.parent).bind fun p => (mv t p.suff nd.lett).bind fun r =>
      (acSetSuff r.2 cur r.1).map fun t' => (r.1, t')

/-- `move_next` (aho_corasick_trie.h 118-124); `fuel` bounds the depth of the recursion (`none`: it does not end). -/
def acMove : Nat → List AcNode → Nat → Nat → Option (Nat × List AcNode)
  | 0, _, _, _ => none
  | fuel + 1, t, cur, c => (rd t cur).bind fun nd => (rd nd.next c).bind fun nx =>
    if nx ≠ 0 then some (nx, t)
    else if cur = 1 then (acSetNext t cur c 1).map fun t' => (1, t')
    else (acSuff (acMove fuel) t cur).bind fun s => (acMove fuel s.2 s.1 c).bind fun r =>
      (acSetNext r.2 cur c r.1).map fun t' => (r.1, t')

/-- The loop of `build` (aho_corasick_trie.h 84-93): the children are put into the queue, then the suffix link is
found and the counter is increased.  `fuel` bounds the recursion of `move_next`, the second number the rounds. -/
def acBfs (fuel : Nat) : Nat → List Nat → List AcNode → Option (List AcNode)
  | _, [], t => some t
  | 0, _ :: _, _ => none
  | k + 1, cur :: q, t => (rd t cur).bind fun nd => (acSuff (acMove fuel) t cur).bind fun s =>
    (acSetSuff s.2 cur s.1).bind fun t2 => (rd t2 s.1).bind fun ns => (acAddCnt t2 cur ns.cnt).bind fun t3 =>
      acBfs fuel k (q ++ nd.next.filter (fun x => x ≠ 0)) t3

/-- `build` (aho_corasick_trie.h 81-94). -/
def acBuild (fuel : Nat) (t : List AcNode) : Option (List AcNode) := acBfs fuel fuel [1] t

/-- The loop of `count_matches` (aho_corasick_trie.h 110-113). -/
def acCountLoop (fuel : Nat) : List AcNode → Nat → Nat → List Nat → Option (Nat × List AcNode)
  | t, _, r, [] => some (r, t)
  | t, cur, r, c :: s => (acMove fuel t cur c).bind fun m => (rd m.2 m.1).bind fun nd =>
    acCountLoop fuel m.2 m.1 (r + nd.cnt) s

/-- `count_matches` (aho_corasick_trie.h 107-115): the number and the trie, which remembers the moves. -/
def acCount (fuel : Nat) (t : List AcNode) (s : List Nat) : Option (Nat × List AcNode) := acCountLoop fuel t 1 0 s

/-- Several calls of `count_matches`. -/
def acCounts (fuel : Nat) : List AcNode → List (List Nat) → Option (List Nat)
  | _, [] => some []
  | t, s :: ss => (acCount fuel t s).bind fun r => (acCounts fuel r.2 ss).map fun rs => r.1 :: rs

end Altruct.Tries
