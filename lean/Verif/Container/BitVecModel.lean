/-
Model of `include/altruct/structure/container/bit_vector.h`.

A vector is its size `sz` and the list of its words.  `L` is the number of bits of a word;
`rev` and `cnt` are `math::bit_reverse` and `math::bit_cnt1` for that word (modelled in
`Verif.Bits.Model`).  Positions and sizes (`size_t`) are unbounded; `end - begin` on ranges
with `end < begin` is not modelled (all theorems assume `begin ≤ end`).
Small word types are promoted to `int` in C++ and cut back on assignment, with the same result.
-/
import Verif.Common.Vec

namespace Altruct.BitVector

/-- bit_vector.h:41-42 the members `sz` and `words`. -/
structure BV (L : Nat) where
  sz : Nat
  words : List (BitVec L)
deriving DecidableEq, Repr

variable {L : Nat}

/-- bit_vector.h:332-334 `num_words`. -/
def numWords (L sz : Nat) : Nat := (sz + L - 1) / L

/-- bit_vector.h:337-339 `first_bits`. -/
def firstBits (L l : Nat) : BitVec L := (1#L <<< l) - 1#L

/-- bit_vector.h:45 the constructor with a size. -/
def mk (L sz : Nat) : BV L := ⟨sz, List.replicate (numWords L sz + 1) 0#L⟩

/-- bit_vector.h:319-324 `resize`.  `std::vector::resize` cuts, or pads with zero words. -/
def resize (v : BV L) (n : Nat) : Option (BV L) := do
  let m := numWords L n + 1
  let ws := v.words.take m ++ List.replicate (m - v.words.length) 0#L
  let x ← rd ws (n / L)
  let ws ← wr ws (n / L) (x &&& firstBits L (n % L))
  let ws ← wr ws (m - 1) 0#L
  some ⟨n, ws⟩

/-- bit_vector.h:314-316 `reserve`. -/
def reserve (v : BV L) (n : Nat) : Option (BV L) := if v.sz < n then resize v n else some v

/-- bit_vector.h:268-279 `set`. -/
def set (v : BV L) (pos : Nat) (val : Int) : Option (BV L) := do
  let i := pos / L
  let m := 1#L <<< (pos % L)
  if val = 0 then do
    let x ← rd v.words i
    let ws ← wr v.words i (x &&& ~~~m)
    some ⟨v.sz, ws⟩
  else if val = 1 then do
    let x ← rd v.words i
    let ws ← wr v.words i (x ||| m)
    some ⟨v.sz, ws⟩
  else if val = -1 then do
    let x ← rd v.words i
    let ws ← wr v.words i (x ^^^ m)
    some ⟨v.sz, ws⟩
  else some v

/-- bit_vector.h:282-285 `bit_at`. -/
def bitAt (v : BV L) (pos : Nat) : Option Int := do
  let x ← rd v.words (pos / L)
  some (((x >>> (pos % L)) &&& 1#L).toNat : Int)

/-- bit_vector.h:34 `bit_proxy::operator int`. -/
def proxyGet (v : BV L) (pos : Nat) : Option Int := bitAt v pos

/-- bit_vector.h:35 `bit_proxy::operator =` (`val & 1` is 0 or 1). -/
def proxyAssign (v : BV L) (pos : Nat) (val : Int) : Option (BV L) := set v pos (val % 2)

/-- bit_vector.h:36 `bit_proxy::operator ^=`. -/
def proxyXor (v : BV L) (pos : Nat) (val : Int) : Option (BV L) := if val = 1 then set v pos (-1) else some v

/-- bit_vector.h:37 `bit_proxy::operator |=`. -/
def proxyOr (v : BV L) (pos : Nat) (val : Int) : Option (BV L) := if val = 1 then set v pos 1 else some v

/-- bit_vector.h:38 `bit_proxy::operator &=`. -/
def proxyAnd (v : BV L) (pos : Nat) (val : Int) : Option (BV L) := if val = 0 then set v pos 0 else some v

/-- bit_vector.h:52-54 the loop of the iterator constructor. -/
def setAll : BV L → Nat → List Int → Option (BV L)
  | v, _, [] => some v
  | v, pos, x :: xs => do
    let v ← set v pos (x % 2)
    setAll v (pos + 1) xs

/-- bit_vector.h:48-55 the iterator constructor. -/
def ofList (L : Nat) (xs : List Int) : Option (BV L) := do
  let v ← resize (⟨0, []⟩ : BV L) xs.length
  setAll v 0 xs

/-- bit_vector.h:293-295 `word_at(i, l)`. -/
def wordAt (ws : List (BitVec L)) (i l : Nat) : Option (BitVec L) :=
  if l = 0 then rd ws i
  else do
    let a ← rd ws i
    let b ← rd ws (i + 1)
    some ((a >>> l) ||| (b <<< (L - l)))

/-- bit_vector.h:288-290 `word_at(pos)`. -/
def wordAtPos (ws : List (BitVec L)) (pos : Nat) : Option (BitVec L) := wordAt ws (pos / L) (pos % L)

/-- bit_vector.h:303-306 `push_back`. -/
def pushBack (v : BV L) (val : Int) : Option (BV L) := do
  let v ← resize v (v.sz + 1)
  set v (v.sz - 1) val

/-- bit_vector.h:309-311 `pop_back`; `none` on an empty vector (the size wraps around). -/
def popBack (v : BV L) : Option (BV L) := if v.sz = 0 then none else resize v (v.sz - 1)

/-! ### apply -/

/-- An operation on words as it is called by `apply`: it may look at the current words (when
it is a two-range operation on overlapping ranges of one vector). -/
abbrev WordOp (L : Nat) := List (BitVec L) → BitVec L → Nat → Nat → Option (BitVec L)

/-- bit_vector.h:155 the forward loop, `n` iterations from word `i`. -/
def applyFwd (op : WordOp L) (begin_ : Nat) : Nat → Nat → List (BitVec L) → Option (List (BitVec L))
  | 0, _, ws => some ws
  | n + 1, i, ws => do
    let w ← rd ws i
    let r ← op ws w (i * L - begin_) L
    let ws ← wr ws i r
    applyFwd op begin_ n (i + 1) ws

/-- bit_vector.h:153 the backward loop, `n` iterations from word `i`. -/
def applyBwd (op : WordOp L) (begin_ : Nat) : Nat → Nat → List (BitVec L) → Option (List (BitVec L))
  | 0, _, ws => some ws
  | n + 1, i, ws => do
    let w ← rd ws i
    let r ← op ws w (i * L - begin_) L
    let ws ← wr ws i r
    applyBwd op begin_ n (i - 1) ws

/-- bit_vector.h:142-161 `apply` on one range. -/
def apply (ws : List (BitVec L)) (begin_ end_ : Nat) (op : WordOp L) (backwards : Bool) :
    Option (List (BitVec L)) := do
  let ib := begin_ / L
  let ie := end_ / L
  let lb := begin_ % L
  let le := end_ % L
  let mb := BitVec.allOnes L <<< lb
  let me := firstBits L le
  let mb' := if ib = ie then mb &&& me else mb
  let me' := if ib = ie then mb &&& me else me
  let w ← rd ws ib
  let o ← op ws (w >>> lb) 0 (L - lb)
  let wb := (w &&& ~~~mb') ||| ((o <<< lb) &&& mb')
  if ib = ie then wr ws ib wb
  else do
    let w2 ← rd ws ie
    let o2 ← op ws w2 (end_ - begin_ - le) le
    let we := (w2 &&& ~~~me') ||| (o2 &&& me')
    let ws ← if backwards then applyBwd op begin_ (ie - 1 - ib) (ie - 1) ws
      else applyFwd op begin_ (ie - 1 - ib) (ib + 1) ws
    let ws ← wr ws ib wb
    wr ws ie we

/-- The four one-range operations, bit_vector.h:342-345. -/
def opSet0 : WordOp L := fun _ _ _ _ => some 0#L
def opSet1 : WordOp L := fun _ _ _ _ => some (BitVec.allOnes L)
def opNop : WordOp L := fun _ w _ _ => some w
def opFlip : WordOp L := fun _ w _ _ => some (~~~w)

/-- bit_vector.h:168-174 the operation `op2` of the two-range `apply`; `other = none` means that
the second vector is the first one, so its words are the current ones. -/
def op2 (f : BitVec L → BitVec L → BitVec L) (other : Option (List (BitVec L))) (begin2 : Nat) : WordOp L :=
  fun cur w pos _ => do
    let w2 ← wordAtPos (other.getD cur) (begin2 + pos)
    some (f w w2)

/-- bit_vector.h:168-174 `apply` on two ranges. -/
def apply2 (ws : List (BitVec L)) (begin1 : Nat) (other : Option (List (BitVec L))) (begin2 len : Nat)
    (f : BitVec L → BitVec L → BitVec L) : Option (List (BitVec L)) :=
  apply ws begin1 (begin1 + len) (op2 f other begin2) (begin2 < begin1)

/-- The two-range operations, bit_vector.h:346-353. -/
def fSet (_ w2 : BitVec L) : BitVec L := w2
def fSetn (_ w2 : BitVec L) : BitVec L := ~~~w2
def fAnd (w1 w2 : BitVec L) : BitVec L := w1 &&& w2
def fOr (w1 w2 : BitVec L) : BitVec L := w1 ||| w2
def fXor (w1 w2 : BitVec L) : BitVec L := w1 ^^^ w2
def fNand (w1 w2 : BitVec L) : BitVec L := ~~~(w1 &&& w2)
def fNor (w1 w2 : BitVec L) : BitVec L := ~~~(w1 ||| w2)
def fEq (w1 w2 : BitVec L) : BitVec L := ~~~(w1 ^^^ w2)

/-- bit_vector.h:79 `operator ~`. -/
def not (v : BV L) : Option (BV L) := do
  let ws ← apply v.words 0 v.sz opFlip false
  some ⟨v.sz, ws⟩

/-- bit_vector.h:81 `operator &=`. -/
def andAssign (v that : BV L) : Option (BV L) := do
  let v ← reserve v that.sz
  let ws ← apply2 v.words 0 (some that.words) 0 that.sz fAnd
  let ws ← apply ws that.sz v.sz opSet0 false
  some ⟨v.sz, ws⟩

/-- bit_vector.h:82 `operator |=`. -/
def orAssign (v that : BV L) : Option (BV L) := do
  let v ← reserve v that.sz
  let ws ← apply2 v.words 0 (some that.words) 0 that.sz fOr
  some ⟨v.sz, ws⟩

/-- bit_vector.h:83 `operator ^=`. -/
def xorAssign (v that : BV L) : Option (BV L) := do
  let v ← reserve v that.sz
  let ws ← apply2 v.words 0 (some that.words) 0 that.sz fXor
  some ⟨v.sz, ws⟩

/-! ### Shifts -/

/-- bit_vector.h:91-93 the first loop of `operator >>=`. -/
def shrLoop (q r : Nat) : Nat → Nat → List (BitVec L) → Option (List (BitVec L))
  | 0, _, ws => some ws
  | n + 1, i, ws => do
    let x ← wordAt ws (i + q) r
    let ws ← wr ws i x
    shrLoop q r n (i + 1) ws

/-- bit_vector.h:94-96 the second loop of `operator >>=`. -/
def zeroLoop : Nat → Nat → List (BitVec L) → Option (List (BitVec L))
  | 0, _, ws => some ws
  | n + 1, i, ws => do
    let ws ← wr ws i 0#L
    zeroLoop n (i + 1) ws

/-- bit_vector.h:88-98 `operator >>=`; `none` for shifts longer than the words (the loop bound
`wsz - q` wraps around). -/
def shrAssign (v : BV L) (cnt : Nat) : Option (BV L) := do
  let wsz := v.words.length - 1
  let q := cnt / L
  let r := cnt % L
  if wsz < q then none
  else do
    let ws ← shrLoop q r (wsz - q) 0 v.words
    let ws ← zeroLoop q (wsz - q) ws
    some ⟨v.sz, ws⟩

/-- bit_vector.h:103-105 the first loop of `operator <<=`. -/
def shlLoop (q r : Nat) : Nat → Nat → List (BitVec L) → Option (List (BitVec L))
  | 0, _, ws => some ws
  | n + 1, i, ws => do
    let x ← if r = 0 then rd ws (i - q) else do
      let a ← rd ws (i - q - 1)
      let b ← rd ws (i - q)
      some ((a >>> (L - r)) ||| (b <<< r))
    let ws ← wr ws i x
    shlLoop q r n (i + 1) ws

/-- bit_vector.h:100-111 `operator <<=`. -/
def shlAssign (v : BV L) (cnt : Nat) : Option (BV L) := do
  let wsz := v.words.length - 1
  let q := cnt / L
  let r := cnt % L
  let ws ← shlLoop q r (wsz - (q + 1)) (q + 1) v.words
  let w0 ← rd ws 0
  let ws ← wr ws q (w0 <<< r)
  let ws ← zeroLoop q 0 ws
  some ⟨v.sz, ws⟩

/-! ### reverse, swap, rotate -/

section
variable (rev : BitVec L → Option (BitVec L))

/-- bit_vector.h:190-191 the loop for `l < L`, `n` iterations down from word `i`. -/
def revBwd (l : Nat) : Nat → Nat → List (BitVec L) → Option (List (BitVec L))
  | 0, _, ws => some ws
  | n + 1, i, ws => do
    let x ← wordAt ws (i - 1) l
    let y ← rev x
    let ws ← wr ws i y
    revBwd l n (i - 1) ws

/-- bit_vector.h:192-193 the loop for `l ≥ L`, `n` iterations up from word `i`. -/
def revFwd (l : Nat) : Nat → Nat → List (BitVec L) → Option (List (BitVec L))
  | 0, _, ws => some ws
  | n + 1, i, ws => do
    let x ← wordAt ws i (l - L)
    let y ← rev x
    let ws ← wr ws i y
    revFwd l n (i + 1) ws

/-- bit_vector.h:196 the loop swapping whole words. -/
def swapLoop (i j : Nat) (ws : List (BitVec L)) : Option (List (BitVec L)) :=
  if i < j then do
    let a ← rd ws i
    let b ← rd ws j
    let ws ← wr ws i b
    let ws ← wr ws j a
    swapLoop (i + 1) (j - 1) ws
  else some ws
termination_by j - i

/-- bit_vector.h:177-201 `reverse`. -/
def reverse (ws : List (BitVec L)) (begin_ end_ : Nat) : Option (List (BitVec L)) :=
  if begin_ ≥ end_ then some ws
  else do
    let ib := begin_ / L
    let ie := end_ / L
    let lb := begin_ % L
    let le := end_ % L
    let l := lb + le
    let mb := BitVec.allOnes L <<< lb
    let me := firstBits L le
    let mb' := if ib = ie then mb &&& me else mb
    let me' := if ib = ie then mb &&& me else me
    let w2 ← rd ws ie
    let we0 := w2 &&& ~~~me'
    let we ← if le ≠ 0 then do
        let x ← wordAtPos ws begin_
        let y ← rev x
        some (we0 ||| ((y >>> (L - le)) &&& me'))
      else some we0
    if ib = ie then wr ws ie we
    else do
      let w ← rd ws ib
      let x ← wordAtPos ws (end_ - (L - lb))
      let y ← rev x
      let wb := (w &&& ~~~mb') ||| (y &&& mb')
      let ws ← if l < L then revBwd rev l (ie - 1 - ib) (ie - 1) ws
        else revFwd rev l (ie - 1 - ib) (ib + 1) ws
      let ws ← swapLoop (ib + 1) (ie - 1) ws
      let ws ← wr ws ib wb
      wr ws ie we

/-- bit_vector.h:207 the four calls of `swap`, the first range being to the left. -/
def swapSorted (ws : List (BitVec L)) (begin1 end1 begin2 end2 : Nat) : Option (List (BitVec L)) := do
  let ws ← reverse rev ws begin1 end1
  let ws ← reverse rev ws end1 begin2
  let ws ← reverse rev ws begin2 end2
  reverse rev ws begin1 end2

/-- bit_vector.h:205-209 `swap`. -/
def swap (ws : List (BitVec L)) (begin1 end1 begin2 end2 : Nat) : Option (List (BitVec L)) :=
  if begin1 > begin2 then swapSorted rev ws begin2 end2 begin1 end1
  else swapSorted rev ws begin1 end1 begin2 end2

/-- bit_vector.h:212-217 `rotate_left`. -/
def rotateLeft (ws : List (BitVec L)) (begin_ end_ cnt : Nat) : Option (List (BitVec L)) :=
  if begin_ ≥ end_ then some ws
  else do
    let mid := begin_ + cnt % (end_ - begin_)
    let ws ← reverse rev ws begin_ mid
    let ws ← reverse rev ws mid end_
    reverse rev ws begin_ end_

/-- bit_vector.h:220-225 `rotate_right`. -/
def rotateRight (ws : List (BitVec L)) (begin_ end_ cnt : Nat) : Option (List (BitVec L)) :=
  if begin_ ≥ end_ then some ws
  else do
    let mid := end_ - cnt % (end_ - begin_)
    let ws ← reverse rev ws begin_ mid
    let ws ← reverse rev ws mid end_
    reverse rev ws begin_ end_

end

/-! ### scan, hamming_distance, compare, to_string -/

/-- bit_vector.h:121 the loop of `scan` over whole words, `n` words left; the visitor updates a
state and says whether to go on. -/
def scanLoop {σ : Type} (ws : List (BitVec L)) (begin_ : Nat)
    (visitor : σ → BitVec L → Nat → Nat → Option (σ × Bool)) :
    Nat → Nat → σ → Bool → Option (σ × Bool)
  | 0, _, s, r => some (s, r)
  | n + 1, i, s, r =>
    if r then do
      let w ← rd ws i
      let (s, b) ← visitor s w (i * L - begin_) L
      scanLoop ws begin_ visitor n (i + 1) s b
    else some (s, r)

/-- bit_vector.h:117-124 `scan` of one range. -/
def scan {σ : Type} (ws : List (BitVec L)) (begin_ end_ : Nat)
    (visitor : σ → BitVec L → Nat → Nat → Option (σ × Bool)) (s : σ) : Option (σ × Bool) := do
  let ib := begin_ / L
  let ie := end_ / L
  let lb := begin_ % L
  let le := end_ % L
  let w ← rd ws ib
  let (s, r) ← visitor s (w >>> lb) 0 ((if ib ≠ ie then L else le) - lb)
  let (s, r) ← scanLoop ws begin_ visitor (ie - (ib + 1)) (ib + 1) s r
  if r && ib ≠ ie then do
    let w ← rd ws ie
    visitor s w (end_ - begin_ - le) le
  else some (s, r)

/-- bit_vector.h:131-136 `scan` of two ranges. -/
def scan2 {σ : Type} (ws1 : List (BitVec L)) (begin1 : Nat) (ws2 : List (BitVec L)) (begin2 len : Nat)
    (visitor : σ → BitVec L → BitVec L → Nat → Option (σ × Bool)) (s : σ) : Option (σ × Bool) :=
  scan ws1 begin1 (begin1 + len) (fun s w pos l => do
    let w2 ← wordAtPos ws2 (begin2 + pos)
    visitor s w w2 l) s

/-- bit_vector.h:228-237 `hamming_distance`. -/
def hammingDistance (cnt : BitVec L → Option Nat) (ws1 : List (BitVec L)) (begin1 : Nat)
    (ws2 : List (BitVec L)) (begin2 len : Nat) : Option Nat := do
  let (d, _) ← scan2 ws1 begin1 ws2 begin2 len (fun dist w1 w2 l => do
    let w := w1 ^^^ w2
    let w := if l < L then w &&& firstBits L l else w
    let c ← cnt w
    some (dist + c, true)) 0
  some d

/-- bit_vector.h:240-252 `compare`. -/
def compare (rev : BitVec L → Option (BitVec L)) (ws1 : List (BitVec L)) (begin1 end1 : Nat)
    (ws2 : List (BitVec L)) (begin2 end2 : Nat) : Option Int := do
  let len1 := end1 - begin1
  let len2 := end2 - begin2
  let len := min len1 len2
  let (ret, _) ← scan2 ws1 begin1 ws2 begin2 len (fun (ret : Int) w1 w2 l => do
    let w1 := if l < L then w1 &&& firstBits L l else w1
    let w2 := if l < L then w2 &&& firstBits L l else w2
    let ret ← if w1 ≠ w2 then do
        let a ← rev w1
        let b ← rev w2
        some (if a.toNat < b.toNat then -1 else 1)
      else some ret
    some (ret, w1 = w2)) 0
  if ret ≠ 0 then some ret
  else if len1 ≠ len2 then some (if len1 < len2 then -1 else 1)
  else some 0

/-- bit_vector.h:259-261 the characters of one word. -/
def wordChars : Nat → BitVec L → List Char
  | 0, _ => []
  | k + 1, w => (if (w &&& 1#L) = 1#L then '1' else '0') :: wordChars k (w >>> 1)

/-- bit_vector.h:257-262 the loop of `to_string`; `fuel` bounds the number of words. -/
def stringLoop (ws : List (BitVec L)) (end_ : Nat) : Nat → Nat → List Char → Option (List Char)
  | 0, _, _ => none
  | fuel + 1, pos, s =>
    if pos < end_ then do
      let w ← wordAtPos ws pos
      stringLoop ws end_ fuel (pos + L) (s ++ wordChars L w)
    else some s

/-- bit_vector.h:255-265 `to_string` (`s.resize` cuts the surplus; it never has to pad). -/
def toStr (v : BV L) (begin_ end_ : Nat) : Option (List Char) := do
  let s ← stringLoop v.words end_ (end_ - begin_ + 1) begin_ []
  some (s.take (end_ - begin_))

end Altruct.BitVector
