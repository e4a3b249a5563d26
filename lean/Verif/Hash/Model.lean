/-
Model of `include/altruct/algorithm/hash/polynomial_hash.h`.

`polynomial_hash<K, I, IT>` has `K` moduli, bases and inverse bases (`Par`); `I` holds the integers
of `[-L, L)` and `IT` those of `[-LT, LT)`, and a result outside is `none` (signed overflow).
`polynomial_hash1` is the case `K = 1`, `L = 2^31`, `LT = 2^63` of it with the same expressions.
The static tables `W`, `WI`, shared by all hashes of the type, are an explicit state `Tab`.
-/
import Verif.Common.Vec

namespace Altruct.Hash

/-- polynomial_hash.h:74-76 `M[k]`, `B[k]`, `BI[k]`. -/
structure Par where
  M : Int
  B : Int
  BI : Int

/-- polynomial_hash.h:78-79 `W[k]` and `WI[k]` for every `k`. -/
abbrev Tab := List (List Int × List Int)

/-- The two integer types of the template: `I` is `[-L, L)`, `IT` is `[-LT, LT)`. -/
structure Lim where
  L : Int
  LT : Int

/-- A signed result has to be representable. -/
def chk (lim x : Int) : Option Int := if -lim ≤ x ∧ x < lim then some x else none

/-- polynomial_hash.h:81 `mul(a, b, m)`. -/
def mul (l : Lim) (a b m : Int) : Option Int := do
  let p ← chk l.LT (a * b)
  if m = 0 then none else chk l.L (p.tmod m)

/-- polynomial_hash.h:82 `mul(s, a, b, m)`. -/
def mulAdd (l : Lim) (s a b m : Int) : Option Int := do
  let p ← chk l.LT (a * b)
  let q ← chk l.LT (s + p)
  if m = 0 then none else chk l.L (q.tmod m)

/-- polynomial_hash.h:90-92 the loop of `_ensure`; `k` iterations remain. -/
def ensureLoop (l : Lim) (b m : Int) : Nat → Nat → List Int → Option (List Int)
  | 0, _, w => some w
  | k + 1, i, w => do
    let x ← rd w (i - 1)
    let y ← mul l x b m
    let w ← wr w i y
    ensureLoop l b m k (i + 1) w

/-- polynomial_hash.h:84-93 `_ensure`. -/
def ensure1 (l : Lim) (w : List Int) (sz : Nat) (b m : Int) : Option (List Int) := do
  let i0 := w.length
  let w := w.take sz ++ List.replicate (sz - w.length) 0
  let w ← if i0 = 0 then wr w 0 1 else some w
  let i := if i0 = 0 then 1 else i0
  ensureLoop l b m (sz - i) i w

/-- polynomial_hash.h:99-102 the loop of `ensure`. -/
def ensureAll (l : Lim) (size : Nat) : List Par → Tab → Option Tab
  | p :: ps, (w, wi) :: ts => do
    let w ← ensure1 l w size p.B p.M
    let wi ← ensure1 l wi size p.BI p.M
    let ts ← ensureAll l size ps ts
    some ((w, wi) :: ts)
  | _, ts => some ts

/-- polynomial_hash.h:95-103 `ensure`. -/
def ensure (l : Lim) (ps : List Par) (tab : Tab) (size : Nat) : Option Tab := do
  let cur ← (tab.head?).map (fun t => t.1.length)
  if size ≤ cur then some tab else ensureAll l (max size (cur + cur / 2)) ps tab

/-- polynomial_hash.h:108-112 the default constructor. -/
def zero (ps : List Par) : List Int := ps.map (fun _ => 0)

/-- polynomial_hash.h:210-212, 219-221 the loop of `add`: the element is the same for every `k`
(`Sum.inl`) or a hash (`Sum.inr`). -/
def addLoop (l : Lim) (pos : Nat) : List Par → Tab → List Int → List Int → Option (List Int)
  | p :: ps, t :: ts, h :: hs, x :: xs => do
    let w ← rd t.1 pos
    let r ← mulAdd l h x w p.M
    let rs ← addLoop l pos ps ts hs xs
    some (r :: rs)
  | _, _, _, _ => some []

/-- polynomial_hash.h:217-223 `add(const polynomial_hash&, pos)`. -/
def addHash (l : Lim) (ps : List Par) (tab : Tab) (h rhs : List Int) (pos : Nat) :
    Option (Tab × List Int) := do
  let tab ← ensure l ps tab (pos + 1)
  let r ← addLoop l pos ps tab h rhs
  some (tab, r)

/-- polynomial_hash.h:208-214 `add(I, pos)`. -/
def add (l : Lim) (ps : List Par) (tab : Tab) (h : List Int) (x : Int) (pos : Nat) :
    Option (Tab × List Int) :=
  addHash l ps tab h (ps.map (fun _ => x)) pos

/-- polynomial_hash.h:237-239 the loop of `sub_shr`. -/
def subLoop (l : Lim) (pos : Nat) : List Par → Tab → List Int → List Int → Option (List Int)
  | p :: ps, t :: ts, h :: hs, x :: xs => do
    let s ← chk l.L (h + p.M)
    let d ← chk l.L (s - x)
    let w ← rd t.2 pos
    let r ← mul l d w p.M
    let rs ← subLoop l pos ps ts hs xs
    some (r :: rs)
  | _, _, _, _ => some []

/-- polynomial_hash.h:235-241 `sub_shr(const polynomial_hash&, pos)`. -/
def subShr (l : Lim) (ps : List Par) (tab : Tab) (h rhs : List Int) (pos : Nat) :
    Option (Tab × List Int) := do
  let tab ← ensure l ps tab (pos + 1)
  let r ← subLoop l pos ps tab h rhs
  some (tab, r)

/-- polynomial_hash.h:124-129 `operator <`. -/
def lt : List Int → List Int → Bool
  | h :: hs, r :: rs => if h ≠ r then decide (h < r) else lt hs rs
  | _, _ => false

/-- polynomial_hash.h:131-136 `operator ==`. -/
def beq : List Int → List Int → Bool
  | h :: hs, r :: rs => if h ≠ r then false else beq hs rs
  | _, _ => true

/-- polynomial_hash.h:163-168 `operator +=`. -/
def plus (l : Lim) : List Par → List Int → List Int → Option (List Int)
  | p :: ps, h :: hs, x :: xs => do
    let s ← chk l.L (h + x)
    let r ← if p.M = 0 then none else some (s.tmod p.M)
    let rs ← plus l ps hs xs
    some (r :: rs)
  | _, _, _ => some []

/-- polynomial_hash.h:179-184 `operator -=`. -/
def minus (l : Lim) : List Par → List Int → List Int → Option (List Int)
  | p :: ps, h :: hs, x :: xs => do
    let s ← chk l.L (h + p.M)
    let d ← chk l.L (s - x)
    let r ← if p.M = 0 then none else some (d.tmod p.M)
    let rs ← minus l ps hs xs
    some (r :: rs)
  | _, _, _ => some []

/-- polynomial_hash.h:147-152 `operator *=`. -/
def times (l : Lim) : List Par → List Int → List Int → Option (List Int)
  | p :: ps, h :: hs, x :: xs => do
    let r ← mul l h x p.M
    let rs ← times l ps hs xs
    some (r :: rs)
  | _, _, _ => some []

/-- polynomial_hash.h:188-194 (`sel` = second table), 198-204 (first table) the loops of
`operator >>=` and `operator <<=`. -/
def shLoop (l : Lim) (sel : List Int × List Int → List Int) (cnt : Nat) :
    List Par → Tab → List Int → Option (List Int)
  | p :: ps, t :: ts, h :: hs => do
    let w ← rd (sel t) cnt
    let r ← mul l h w p.M
    let rs ← shLoop l sel cnt ps ts hs
    some (r :: rs)
  | _, _, _ => some []

/-- polynomial_hash.h:188-194 `operator >>=` with a non-negative count. -/
def shr (l : Lim) (ps : List Par) (tab : Tab) (h : List Int) (cnt : Nat) : Option (Tab × List Int) := do
  let tab ← ensure l ps tab (cnt + 1)
  let r ← shLoop l Prod.snd cnt ps tab h
  some (tab, r)

/-- polynomial_hash.h:198-204 `operator <<=` with a non-negative count. -/
def shl (l : Lim) (ps : List Par) (tab : Tab) (h : List Int) (cnt : Nat) : Option (Tab × List Int) := do
  let tab ← ensure l ps tab (cnt + 1)
  let r ← shLoop l Prod.fst cnt ps tab h
  some (tab, r)

/-- polynomial_hash.h:282-285 the loop of `assign`. -/
def assignLoop (l : Lim) (ps : List Par) : List Int → List Int → Nat → Tab → List (List Int) →
    Option (Tab × List (List Int))
  | [], _, _, tab, vh => some (tab, vh)
  | x :: xs, h, pos, tab, vh => do
    let (tab, h) ← add l ps tab h x pos
    assignLoop l ps xs h (pos + 1) tab (vh ++ [h])

/-- polynomial_hash.h:278-286 `assign` (it appends to `vh`). -/
def assign (l : Lim) (ps : List Par) (tab : Tab) (vh : List (List Int)) (xs : List Int) :
    Option (Tab × List (List Int)) := do
  let tab ← ensure l ps tab xs.length
  assignLoop l ps xs (zero ps) 0 tab vh

/-- polynomial_hash.h:288-293 `push_back`. -/
def pushBack (l : Lim) (ps : List Par) (tab : Tab) (vh : List (List Int)) (x : Int) :
    Option (Tab × List (List Int)) := do
  let h := (vh.getLast?).getD (zero ps)
  let (tab, h) ← add l ps tab h x vh.length
  some (tab, vh ++ [h])

/-- polynomial_hash.h:295-297 `pop_back` (undefined when empty). -/
def popBack (vh : List (List Int)) : Option (List (List Int)) :=
  if vh = [] then none else some vh.dropLast

/-- polynomial_hash.h:299-304 `get`. -/
def get (l : Lim) (ps : List Par) (tab : Tab) (vh : List (List Int)) (begin_ end_ : Nat) :
    Option (Tab × List Int) := do
  let r ← if 0 < end_ then rd vh (end_ - 1) else some (zero ps)
  if 0 < begin_ then do
    let v ← rd vh (begin_ - 1)
    subShr l ps tab r v begin_
  else some (tab, r)

end Altruct.Hash
