/-
Model of `experimental/include/altruct/structure/container/range_minimum_query.h` (`direct_rmq`).

The comparison is a parameter, `B` is `BLOCK_SIZE`.  `index_t` and `int` are unbounded; `small_index_t` is `char`, whose
signedness is a parameter.  Uninitialised memory holds the arbitrary value `junk`.  `none` is an access out of bounds.
-/
import Verif.Common.Vec
import Verif.Common.Loop
import Verif.GraphAlg.FloydModel

namespace Altruct.Rmq

open Altruct.GraphAlg (rd2 wr2)

variable {α : Type}

/-- The conversion to `char`. -/
def charOf (signed : Bool) (x : Int) : Int := if signed then (x + 128) % 256 - 128 else x % 256

/-- The data of the object (range_minimum_query.h 93-99). -/
structure RmqData (α : Type) where
  blocks : Nat
  arr : List α
  trees : List (List (List Int))
  block : List Nat
  sparse : List Int

/-- `calc_ballot_numbers` (range_minimum_query.h 156-168). -/
def calcBallot (B junk : Nat) : Option (List (List Nat)) :=
  (forUp (fun q b => wr2 b 0 q 1) 0 (B + 1) (List.replicate (B + 1) (List.replicate (B + 1) junk))).bind fun b =>
    forUp (fun p b => (forUp (fun q b => wr2 b p q 0) 0 p b).bind fun b =>
      forUp (fun q b => (rd2 b p (q - 1)).bind fun x => (rd2 b (p - 1) q).bind fun y => wr2 b p q (x + y)) p (B + 1) b) 1 (B + 1) b

/-- The `while` loop of `build_block_trees` (range_minimum_query.h 113-116); with `q = 0` its condition is false because
`j < BLOCK_SIZE`. -/
def popLoop (lt : α → α → Bool) (ballot : List (List Nat)) (B j : Nat) (pj : α) (rp : List α) : Nat → Nat → Option (Nat × Nat)
  | 0, N => some (0, N)
  | q + 1, N =>
    if B < q + 1 + j then (rd rp (q + 1 + j - B)).bind fun x =>
      if lt pj x then (rd2 ballot (B - j - 1) (q + 1)).bind fun c => popLoop lt ballot B j pj rp q (N + c)
      else some (q + 1, N)
    else some (q + 1, N)

/-- The type of a block (range_minimum_query.h 110-118): `q`, `N` and the array `rp`. -/
def typeLoop (lt : α → α → Bool) (ballot : List (List Nat)) (B : Nat) (arr : List α) (i : Nat) (rp : List α) : Option (Nat × Nat × List α) :=
  forUp (fun j s => (rd arr (i * B + j)).bind fun pj => (popLoop lt ballot B j pj s.2.2 s.1 s.2.1).bind fun r =>
    if r.1 + j + 1 < B then none else (wr s.2.2 (r.1 + j + 1 - B) pj).map fun rp => (r.1, r.2, rp)) 0 B (B, 0, rp)

/-- The table of a tree (range_minimum_query.h 123-131). -/
def populate (signed : Bool) (lt : α → α → Bool) (B : Nat) (arr : List α) (i : Nat) (T : List (List Int)) : Option (List (List Int)) :=
  forUp (fun left T => (forUp (fun right (s : Nat × List (List Int)) =>
    (rd arr (i * B + right)).bind fun x => (rd arr (i * B + s.1)).bind fun y =>
      (wr2 s.2 left right (charOf signed ((if lt x y then right else s.1 : Nat) : Int))).map fun T =>
        (if lt x y then right else s.1, T)) left B (left, T)).map Prod.snd) 0 B T

/-- `build_block_trees` (range_minimum_query.h 101-133): the trees and the tree of each block. -/
def buildTrees (signed : Bool) (lt : α → α → Bool) (ballot : List (List Nat)) (B blocks : Nat) (arr : List α) (junk : α) :
    Option (List (List (List Int)) × List Nat) :=
  (rd2 ballot B B).bind fun cnt =>
    (wr2 (List.replicate B (List.replicate B 0)) 0 0 (charOf signed (-1))).bind fun T0 =>
      (forUp (fun i (s : List (List (List Int)) × List Nat × List α) =>
        (typeLoop lt ballot B arr i s.2.2).bind fun r => (rd s.1 r.2.1).bind fun T =>
          (wr s.2.1 i r.2.1).bind fun block => (rd2 T 0 0).bind fun x =>
            if x ≠ -1 then some (s.1, block, r.2.2)
            else (populate signed lt B arr i T).bind fun T => (wr s.1 r.2.1 T).map fun trees => (trees, block, r.2.2))
        0 blocks (List.replicate cnt T0, List.replicate blocks 0, List.replicate (B + 1) junk)).map fun s => (s.1, s.2.1)

/-- `v[i]` for an index that may be negative. -/
def rdI {β : Type} (v : List β) (i : Int) : Option β := if i < 0 then none else rd v i.toNat

/-- `min_index` (range_minimum_query.h 152-154). -/
def minIndex (lt : α → α → Bool) (arr : List α) (x y : Int) : Option Int :=
  (rdI arr y).bind fun b => (rdI arr x).map fun a => if lt b a then y else x

/-- The loop for `height` (range_minimum_query.h 136). -/
def heightLoop (blocks : Nat) : Nat → Nat → Option Nat
  | 0, _ => none
  | fuel + 1, h => if 2 ^ h < blocks then heightLoop blocks fuel (h + 1) else some h

/-- `_block_tree[x]->idx[l][r]` with the offset of the block. -/
def treeIdx (B : Nat) (trees : List (List (List Int))) (block : List Nat) (i l r : Nat) : Option Int :=
  (rd block i).bind fun N => (rd trees N).bind fun T => (rd2 T l r).map fun m => ((i * B : Nat) : Int) + m

/-- The loop over `t` of `build_sparse_table` (range_minimum_query.h 143-149); `off` is the position of `b`. -/
def levels (lt : α → α → Bool) (arr : List α) (blocks : Nat) : Nat → Nat → Nat → List Int → Option (List Int)
  | 0, _, _, _ => none
  | fuel + 1, t, off, s =>
    if t * 2 < blocks then
      (forUp (fun i s => (rd s (off + i)).bind fun x => wr s (off + blocks + i) x) 0 blocks s).bind fun s =>
        (forUp (fun i s => (rd s (off + blocks + i)).bind fun x => (rd s (off + blocks + (i + t))).bind fun y =>
          (minIndex lt arr x y).bind fun m => wr s (off + blocks + i) m) 0 (blocks - t) s).bind fun s =>
            levels lt arr blocks fuel (t * 2) (off + blocks) s
    else some s

/-- `build_sparse_table` (range_minimum_query.h 135-150). -/
def buildSparse (lt : α → α → Bool) (B blocks : Nat) (arr : List α) (trees : List (List (List Int))) (block : List Nat) : Option (List Int) :=
  (heightLoop blocks (blocks + 1) 0).bind fun height =>
    if height = 0 then some (List.replicate (blocks * height) 0)
    else (forUp (fun i s => (treeIdx B trees block i 0 (B - 1)).bind fun m => wr s i m) 0 blocks (List.replicate (blocks * height) 0)).bind fun s =>
      levels lt arr blocks (blocks + 1) 1 0 s

/-- The constructor and `build` (range_minimum_query.h 51-63); `z` is `value_t()`. -/
def build (signed : Bool) (lt : α → α → Bool) (B junkN : Nat) (junk z : α) (xs : List α) : Option (RmqData α) :=
  (calcBallot B junkN).bind fun ballot =>
    let blocks := (xs.length + B - 1) / B
    let arr := xs ++ List.replicate (blocks * B - xs.length) z
    (buildTrees signed lt ballot B blocks arr junk).bind fun t => (buildSparse lt B blocks arr t.1 t.2).map fun s =>
      ⟨blocks, arr, t.1, t.2, s⟩

/-- The table of `log2_32` (range_minimum_query.h 171-175). -/
def logTbl : List Nat :=
  [0, 9, 1, 10, 13, 21, 2, 29, 11, 14, 16, 18, 22, 25, 3, 30, 8, 12, 20, 28, 15, 17, 24, 7, 19, 27, 23, 6, 26, 5, 4, 31]

/-- `val |= val >> k`. -/
def orShift (k : Nat) (v : BitVec 32) : BitVec 32 := v ||| (v >>> k)

/-- `log2_32` (range_minimum_query.h 170-182). -/
def log2_32 (v : BitVec 32) : Option Nat :=
  let v := orShift 16 (orShift 8 (orShift 4 (orShift 2 (orShift 1 v))))
  rd logTbl ((v * 0x07C4ACDD#32) >>> 27).toNat

/-- `get_index` (range_minimum_query.h 69-86). -/
def getIndex (lt : α → α → Bool) (B : Nat) (s : RmqData α) (b e : Nat) : Option Int :=
  let l := b
  let r := e - 1
  let x := l / B
  let y := r / B
  let z := y - x
  if z = 0 then treeIdx B s.trees s.block x (l % B) (r % B)
  else if z = 1 then (treeIdx B s.trees s.block x (l % B) (B - 1)).bind fun i => (treeIdx B s.trees s.block y 0 (r % B)).bind fun j =>
    minIndex lt s.arr i j
  else (log2_32 (BitVec.ofNat 32 (z - 2))).bind fun k =>
    (treeIdx B s.trees s.block x (l % B) (B - 1)).bind fun i => (rd s.sparse (x + 1 + s.blocks * k)).bind fun i' =>
      (minIndex lt s.arr i i').bind fun m => (rd s.sparse (y + s.blocks * k - 2 ^ k)).bind fun j' =>
        (treeIdx B s.trees s.block y 0 (r % B)).bind fun j => (minIndex lt s.arr j' j).bind fun m' => minIndex lt s.arr m m'

/-- `get_value` (range_minimum_query.h 65-67). -/
def getValue (lt : α → α → Bool) (B : Nat) (s : RmqData α) (b e : Nat) : Option α :=
  (getIndex lt B s b e).bind fun i => rdI s.arr i

/-- `size` (range_minimum_query.h 88-90). -/
def size (s : RmqData α) : Nat := s.arr.length

end Altruct.Rmq
