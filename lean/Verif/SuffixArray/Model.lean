/-
Model of `experimental/include/altruct/structure/container/suffix_array.h`.

Letters are natural numbers (a negative letter is an index out of bounds); `index_t` is unbounded.  A string is the memory that
starts at `str`, so that it may be longer than `n`: the code reads `str[n]`.  `sa` holds integers, `-1` being an empty cell.
`none` is an access out of bounds or a loop that does not end.
-/
import Verif.Common.Vec
import Verif.Common.Loop
import Verif.Rmq.Model

namespace Altruct.SuffixArray

open Altruct.Rmq (rdI)

/-- `for (k = n - 1; k >= 0; k--) s = body(k, s);`. -/
def forBack {σ : Type} (body : Nat → σ → Option σ) : Nat → σ → Option σ
  | 0, s => some s
  | k + 1, s => (body k s).bind fun s => forBack body k s

/-- The types of the suffixes (suffix_array.h 79-83): `true` is S, `false` is L. -/
def setTypes (str : List Nat) (n : Nat) : Option (List Bool) :=
  if n = 0 then none
  else (wr (List.replicate (n + 1) false) (n - 1) false).bind fun t => (wr t n true).bind fun t =>
    forBack (fun i t => (rd str i).bind fun x => (rd str (i + 1)).bind fun y => (rd t (i + 1)).bind fun b =>
      wr t i (decide (x < y) || (decide (x = y) && b))) (n - 1) t

/-- `std::fill(v + a, v + b, x)`. -/
def fill {α : Type} (v : List α) (a b : Nat) (x : α) : Option (List α) := forUp (fun i v => wr v i x) a b v

/-- `count_alphabets` (suffix_array.h 188-197). -/
def countAlphabets (str : List Nat) (n alpha : Nat) (bo : List Nat) (b : Bool) : Option (List Nat) :=
  if b = true ∨ alpha ≤ bo.length / 2 then
    let off := if b then 0 else alpha
    (fill bo off (off + alpha) 0).bind fun bo =>
      forUp (fun i bo => (rd str i).bind fun c => (rd bo (off + c)).bind fun x => wr bo (off + c) (x + 1)) 0 n bo
  else some bo

/-- `get_bucket_offsets` (suffix_array.h 164-186). -/
def getOffsets (str : List Nat) (n : Nat) (dir : Bool) (alpha : Nat) (bo : List Nat) : Option (List Nat) :=
  (if bo.length / 2 < alpha then countAlphabets str n alpha bo true else some bo).bind fun bo' =>
    let off := if bo.length / 2 < alpha then 0 else alpha
    (forUp (fun i (s : Nat × List Nat) => (rd s.2 (off + i)).bind fun x =>
      (wr s.2 i (if dir then s.1 + x else s.1)).map fun bo => (s.1 + x, bo)) 0 alpha (1, bo')).map Prod.snd

/-- `sa[--bucket_offsets[(index_t)str[j]]] = j`. -/
def pushBack (str : List Nat) (j : Nat) (s : List Int × List Nat) : Option (List Int × List Nat) :=
  (rd str j).bind fun c => (rd s.2 c).bind fun o => if o = 0 then none
    else (wr s.2 c (o - 1)).bind fun bo => (wr s.1 (o - 1) (j : Int)).map fun sa => (sa, bo)

/-- `sa[bucket_offsets[(index_t)str[j]]++] = j`. -/
def pushFront (str : List Nat) (j : Nat) (s : List Int × List Nat) : Option (List Int × List Nat) :=
  (rd str j).bind fun c => (rd s.2 c).bind fun o =>
    (wr s.2 c (o + 1)).bind fun bo => (wr s.1 o (j : Int)).map fun sa => (sa, bo)

/-- `types[i] && !types[i - 1]` for `i > 0`. -/
def isLms (types : List Bool) (i : Nat) : Option Bool :=
  (rd types i).bind fun a => if a then (rd types (i - 1)).map not else some false

/-- `induced_sort` (suffix_array.h 150-162). -/
def inducedSort (str : List Nat) (n alpha : Nat) (types : List Bool) (sa : List Int) (bo : List Nat) : Option (List Int × List Nat) :=
  (getOffsets str n false alpha bo).bind fun bo =>
    (forUp (fun i (s : List Int × List Nat) => (rd s.1 i).bind fun v =>
      if v - 1 ≥ 0 then (rd types (v - 1).toNat).bind fun t => if t then some s else pushFront str (v - 1).toNat s
      else some s) 0 n (sa, bo)).bind fun s =>
        (getOffsets str n true alpha s.2).bind fun bo =>
          forBack (fun k (s : List Int × List Nat) => (rd s.1 (k + 1)).bind fun v =>
            if v - 1 ≥ 0 then (rd types (v - 1).toNat).bind fun t => if t then pushBack str (v - 1).toNat s else some s
            else some s) n (s.1, bo)

/-- The leftmost S suffixes at the ends of their buckets, then the first induced sort (suffix_array.h 85-92). -/
def firstSort (str : List Nat) (n alpha : Nat) (types : List Bool) (sa : List Int) (bo : List Nat) : Option (List Int × List Nat) :=
  (countAlphabets str n alpha bo false).bind fun bo => (getOffsets str n true alpha bo).bind fun bo =>
    (fill sa 0 (n + 1) (-1)).bind fun sa =>
      (forUp (fun i s => (isLms types i).bind fun b => if b then pushBack str i s else some s) 1 n (sa, bo)).bind fun s =>
        (wr s.1 0 (n : Int)).bind fun sa => inducedSort str n alpha types sa s.2

/-- The sorted leftmost S suffixes are moved to the front (suffix_array.h 94-98): `n1` and `sa`. -/
def compact (n : Nat) (types : List Bool) (sa : List Int) : Option (Nat × List Int) :=
  forUp (fun i (s : Nat × List Int) => (rd s.2 i).bind fun j =>
    if j > 0 then (isLms types j.toNat).bind fun b =>
      if b then (wr s.2 s.1 j).map fun sa => (s.1 + 1, sa) else some s
    else some s) 0 (n + 1) (0, sa)

/-- The comparison of two substrings (suffix_array.h 110-117), `d = j - pos`. -/
def diffLoop (str : List Nat) (types : List Bool) (pos prev : Nat) : Nat → Nat → Option Bool
  | 0, _ => none
  | fuel + 1, d =>
    (rd str (pos + d)).bind fun x => (rd str (prev + d)).bind fun y =>
      if x ≠ y then some true
      else (rd types (pos + d)).bind fun s => (rd types (prev + d)).bind fun t =>
        if s ≠ t then some true
        else if d = 0 then diffLoop str types pos prev fuel (d + 1)
        else (isLms types (pos + d)).bind fun a => if a then some false
          else (isLms types (prev + d)).bind fun b => if b then some false else diffLoop str types pos prev fuel (d + 1)

/-- The variables of the naming loop. -/
structure Naming where
  sa : List Int
  cnt : Nat
  prev : Int

/-- The body of the naming loop (suffix_array.h 105-123). -/
def nameStep (str : List Nat) (n : Nat) (types : List Bool) (n1 i : Nat) (s : Naming) : Option Naming :=
  (rd s.sa i).bind fun pos =>
    (if s.prev = -1 then some true else diffLoop str types pos.toNat s.prev.toNat (n + 2) 0).bind fun diff =>
      (wr s.sa (n1 + pos.toNat / 2) (((if diff then s.cnt + 1 else s.cnt) : Nat) - 1 : Int)).map fun sa =>
        ⟨sa, if diff then s.cnt + 1 else s.cnt, if diff then pos else s.prev⟩

/-- The names of the substrings, in the rest of `sa` (suffix_array.h 100-124). -/
def nameLms (str : List Nat) (n : Nat) (types : List Bool) (n1 : Nat) (sa : List Int) : Option Naming :=
  (fill sa n1 (n + 1) (-1)).bind fun sa => (rd sa 0).bind fun x => (wr sa (n1 + x.toNat / 2) 0).bind fun sa =>
    forUp (nameStep str n types n1) 1 n1 ⟨sa, 1, -1⟩

/-- The names are moved to the end (suffix_array.h 125-127). -/
def gather (n n1 : Nat) (sa : List Int) : Option (List Int) :=
  (forBack (fun k (s : Nat × List Int) => (rd s.2 (n1 + k)).bind fun x =>
    if x ≥ 0 then (if s.1 = 0 then none else (wr s.2 (s.1 - 1) x).map fun sa => (s.1 - 1, sa)) else some s) (n + 1 - n1) (n + 1, sa)).map Prod.snd

/-- All names are different: `sa1[s1[i]] = i` (suffix_array.h 131). -/
def invertNames (n n1 : Nat) (sa : List Int) : Option (List Int) :=
  forUp (fun i sa => (rd sa (n + 1 - n1 + i)).bind fun x => if x < 0 then none else wr sa x.toNat (i : Int)) 0 n1 sa

/-- The positions of the sorted leftmost S suffixes in their buckets, then the second induced sort (suffix_array.h 136-147). -/
def secondSort (str : List Nat) (n alpha : Nat) (types : List Bool) (n1 : Nat) (sa : List Int) (bo : List Nat) : Option (List Int × List Nat) :=
  (countAlphabets str n alpha bo false).bind fun bo => (getOffsets str n true alpha bo).bind fun bo =>
    (forUp (fun i (s : Nat × List Int) => (isLms types i).bind fun b =>
      if b then (wr s.2 (n + 1 - n1 + s.1) (i : Int)).map fun sa => (s.1 + 1, sa) else some s) 1 (n + 1) (0, sa)).bind fun s =>
        (forUp (fun i sa => (rd sa i).bind fun x => if x < 0 then none else (rd sa (n + 1 - n1 + x.toNat)).bind fun y => wr sa i y) 0 n1 s.2).bind fun sa =>
          (fill sa n1 (n + 1) (-1)).bind fun sa =>
            (forBack (fun k (s : List Int × List Nat) => (rd s.1 (k + 1)).bind fun j => (wr s.1 (k + 1) (-1)).bind fun sa =>
              if j < 0 then none else pushBack str j.toNat (sa, s.2)) (n1 - 1) (sa, bo)).bind fun s =>
                inducedSort str n alpha types s.1 s.2

/-- `sa_is` (suffix_array.h 77-148); the recursive call works on the first `n1` cells of `sa`, its string being the last `n1`
cells.  `fuel` bounds the depth of the recursion. -/
def saIs : Nat → List Nat → Nat → Nat → List Int → List Nat → Option (List Int × List Nat)
  | 0, _, _, _, _, _ => none
  | fuel + 1, str, n, alpha, sa, bo =>
    (setTypes str n).bind fun types => (firstSort str n alpha types sa bo).bind fun s1 =>
      (compact n types s1.1).bind fun s2 => (nameLms str n types s2.1 s2.2).bind fun s3 =>
        (gather n s2.1 s3.sa).bind fun sa =>
          (if s3.cnt = s2.1 then (invertNames n s2.1 sa).map fun sa => (sa, s1.2)
            else (saIs fuel ((sa.drop (n + 1 - s2.1)).map Int.toNat) (s2.1 - 1) s3.cnt (sa.take s2.1) s1.2).map fun r =>
              (r.1 ++ sa.drop s2.1, r.2)).bind fun s4 =>
                secondSort str n alpha types s2.1 s4.1 s4.2

/-- The largest letter. -/
def maxLetter (s : List Nat) : Nat := s.foldl max 0

/-- `build_suffix_array` (suffix_array.h 46-59, 71-75): the string must not be empty; `junk` is the memory after the string. -/
def buildSa (s junk : List Nat) : Option (List Int) :=
  if s = [] then none
  else (saIs (s.length + 1) (s ++ junk) s.length (maxLetter s + 1) (List.replicate (s.length + 1) 0)
    (List.replicate (max (maxLetter s + 1) ((s.length + 1) / 2) + 1) 0)).map Prod.fst

/-- `build_inverse_suffix_array` (suffix_array.h 61-67). -/
def buildOrd (n : Nat) (sa : List Int) : Option (List Int) :=
  forUp (fun i o => (rd sa i).bind fun x => if x < 0 then none else wr o x.toNat (i : Int)) 0 (n + 1) (List.replicate (n + 1) 0)

/-- The loop over `h` (suffix_array.h 211). -/
def matchLoop (s : List Nat) (i j hmax : Nat) : Nat → Nat → Option Nat
  | 0, _ => none
  | fuel + 1, h => if h < hmax then (rd s (i + h)).bind fun x => (rd s (j + h)).bind fun y =>
      if x = y then matchLoop s i j hmax fuel (h + 1) else some h
    else some h

/-- The lcp array (suffix_array.h 204-214). -/
def lcpArray (s : List Nat) (sa ord : List Int) : Option (List Int) :=
  (forUp (fun i (st : Nat × List Int) => (rd ord i).bind fun o => (rdI sa (o - 1)).bind fun j => if j < 0 then none else
    (matchLoop s i j.toNat (min (s.length - j.toNat) (s.length - i)) (s.length + 1) st.1).bind fun h =>
      (wr st.2 (o - 1).toNat (h : Int)).map fun l => (h - 1, l)) 0 s.length (0, List.replicate (s.length + 2) 0)).map Prod.snd

/-- The data of the object (suffix_array.h 27-31). -/
structure Data where
  str : List Nat
  sa : List Int
  ord : List Int
  rmq : Rmq.RmqData Int

/-- `a < b` on integers. -/
def ltI (a b : Int) : Bool := decide (a < b)

/-- The constructor (suffix_array.h 33-44, 215); `B` is the block size of the range minimum structure. -/
def build (B junkN : Nat) (junkI : Int) (junk s : List Nat) : Option Data :=
  (buildSa s junk).bind fun sa => (buildOrd s.length sa).bind fun ord => (lcpArray s sa ord).bind fun l =>
    (Rmq.build true ltI B junkN junkI 0 l).map fun r => ⟨s, sa, ord, r⟩

/-- `get_lcp` (suffix_array.h 219-227). -/
def getLcp (B : Nat) (d : Data) (i j : Nat) : Option Int :=
  if i = j then some ((d.str.length : Int) - i)
  else (rd d.ord i).bind fun x => (rd d.ord j).bind fun y =>
    if x > y then Rmq.getValue ltI B d.rmq y.toNat x.toNat else Rmq.getValue ltI B d.rmq x.toNat y.toNat

/-- `_compare` (suffix_array.h 239-240). -/
def cmp3 (a b : Int) : Int := if a < b then -1 else if b < a then 1 else 0

/-- `compare_substrings` (suffix_array.h 229-238). -/
def compareSubstrings (B : Nat) (d : Data) (b1 e1 b2 e2 : Nat) : Option Int :=
  if b1 = b2 then some (cmp3 e1 e2)
  else (getLcp B d b1 b2).bind fun len =>
    if (b1 : Int) + len < e1 ∧ (b2 : Int) + len < e2 then
      (rdI d.str (b1 + len)).bind fun x => (rdI d.str (b2 + len)).map fun y => cmp3 x y
    else some (cmp3 (e1 - b1) (e2 - b2))

/-- `get_kth_suffix` (suffix_array.h 242-244). -/
def kthSuffix (d : Data) (k : Nat) : Option Int := rd d.sa k

/-- `get_suffix_order` (suffix_array.h 246-247). -/
def suffixOrder (d : Data) (i : Nat) : Option Int := rd d.ord i

end Altruct.SuffixArray
