/-
Models of structure/container/sqrt_map.h and structure/container/lohi_map.h.

Keys are non-negative (a negative key indexes outside the vectors).  Vectors are lists with checked access:
`none` is an access out of bounds or a division by zero.  The `unordered_map` of `lohi_map` is a finite map.
-/
import Verif.Common.Vec

namespace Altruct.Maps

variable {α : Type}

/-- What an operation gives back. -/
inductive Out (α : Type) where
  | unit
  | val (v : α)
  | thrown
  | ins (k : Nat) (b : Bool)
  | num (n : Nat)
deriving DecidableEq

/-- The operations on the maps: `m[k] = v`, `m.at(k)`, `m.el(k)` (also the constant `m[k]` and `m(k)`),
`insert({k, v})`, `erase(k)`, `count(k)` and `reset_max(n)`. -/
inductive Op (α : Type) where
  | set (k : Nat) (v : α)
  | at (k : Nat)
  | el (k : Nat)
  | insert (k : Nat) (v : α)
  | erase (k : Nat)
  | count (k : Nat)
  | resetMax (n : Nat)

/-- sqrt_map.h:23-29 the members. -/
structure SqrtMap (α : Type) where
  maxLo : Nat
  maxKey : Nat
  cntLo : List Nat
  tblLo : List α
  cntHi : List Nat
  tblHi : List α

/-- sqrt_map.h:60-64 `reset_max`; `dflt` is `T()`. -/
def SqrtMap.resetMax (dflt : α) (s : SqrtMap α) (maxKey : Nat) : Option (SqrtMap α) :=
  if s.maxLo = 0 then none
  else
    let sz := maxKey / s.maxLo + 1
    some { s with maxKey := maxKey, cntHi := List.replicate sz 0, tblHi := (s.tblHi.take sz) ++ List.replicate (sz - s.tblHi.length) dflt }

/-- sqrt_map.h:41-49 the constructor with `max_lo_key` and `max_key`. -/
def SqrtMap.mk' (dflt : α) (maxLo maxKey : Nat) : Option (SqrtMap α) :=
  SqrtMap.resetMax dflt ⟨maxLo, 0, List.replicate (maxLo + 1) 0, List.replicate (maxLo + 1) dflt, [], []⟩ maxKey

/-- `max_key / k`. -/
def SqrtMap.slot (s : SqrtMap α) (k : Nat) : Option Nat := if k = 0 then none else some (s.maxKey / k)

/-- sqrt_map.h:111-120 `m[k] = v` through the reference returned by `operator []`. -/
def SqrtMap.set (s : SqrtMap α) (k : Nat) (v : α) : Option (SqrtMap α) :=
  if k ≤ s.maxLo then do
    let c ← wr s.cntLo k 1
    let t ← wr s.tblLo k v
    some { s with cntLo := c, tblLo := t }
  else do
    let i ← s.slot k
    let c ← wr s.cntHi i 1
    let t ← wr s.tblHi i v
    some { s with cntHi := c, tblHi := t }

/-- sqrt_map.h:91-108 `el`, `operator ()` and the constant `operator []`. -/
def SqrtMap.el (s : SqrtMap α) (k : Nat) : Option α :=
  if k ≤ s.maxLo then rd s.tblLo k else do
    let i ← s.slot k
    rd s.tblHi i

/-- sqrt_map.h:66-68 `count`. -/
def SqrtMap.count (s : SqrtMap α) (k : Nat) : Option Nat :=
  if k ≤ s.maxLo then rd s.cntLo k else do
    let i ← s.slot k
    rd s.cntHi i

/-- sqrt_map.h:123-144 `at`; an index outside the vector throws as well. -/
def SqrtMap.at (s : SqrtMap α) (k : Nat) : Option (Out α) :=
  if k ≤ s.maxLo then
    match s.cntLo[k]? with
    | none => some .thrown
    | some c => if c = 0 then some .thrown else do
      let v ← rd s.tblLo k
      some (.val v)
  else do
    let i ← s.slot k
    match s.cntHi[i]? with
    | none => some .thrown
    | some c => if c = 0 then some .thrown else do
      let v ← rd s.tblHi i
      some (.val v)

/-- sqrt_map.h:146-160 `insert`. -/
def SqrtMap.insert (s : SqrtMap α) (k : Nat) (v : α) : Option (SqrtMap α × Bool) :=
  if k ≤ s.maxLo then do
    let c ← rd s.cntLo k
    if c ≠ 0 then some (s, false) else do
    let t ← wr s.tblLo k v
    let c ← wr s.cntLo k 1
    some ({ s with cntLo := c, tblLo := t }, true)
  else do
    let i ← s.slot k
    let c ← rd s.cntHi i
    if c ≠ 0 then some (s, false) else do
    let t ← wr s.tblHi i v
    let c ← wr s.cntHi i 1
    some ({ s with cntHi := c, tblHi := t }, true)

/-- sqrt_map.h:162-164 `erase`. -/
def SqrtMap.erase (s : SqrtMap α) (k : Nat) : Option (SqrtMap α × Nat) :=
  if k ≤ s.maxLo then do
    let p ← rd s.cntLo k
    let c ← wr s.cntLo k 0
    some ({ s with cntLo := c }, p)
  else do
    let i ← s.slot k
    let p ← rd s.cntHi i
    let c ← wr s.cntHi i 0
    some ({ s with cntHi := c }, p)

/-- One operation. -/
def SqrtMap.step (dflt : α) (s : SqrtMap α) : Op α → Option (SqrtMap α × Out α)
  | .set k v => do let s ← s.set k v; some (s, .unit)
  | .at k => do let o ← s.at k; some (s, o)
  | .el k => do let v ← s.el k; some (s, .val v)
  | .insert k v => do let (s, b) ← s.insert k v; some (s, .ins k b)
  | .erase k => do let (s, n) ← s.erase k; some (s, .num n)
  | .count k => do let n ← s.count k; some (s, .num n)
  | .resetMax n => do let s ← s.resetMax dflt n; some (s, .unit)

/-- A history, with what it gives back. -/
def SqrtMap.run (dflt : α) : SqrtMap α → List (Op α) → Option (SqrtMap α × List (Out α))
  | s, [] => some (s, [])
  | s, op :: ops => do
    let (s, o) ← s.step dflt op
    let (s, os) ← SqrtMap.run dflt s ops
    some (s, o :: os)

/-! ### `lohi_map` -/

/-- lohi_map.h:21-25 the members. -/
structure LohiMap (α : Type) where
  maxLo : Nat
  cntLo : List Nat
  tblLo : List α
  tblHi : Nat → Option α

/-- lohi_map.h:33-36 the constructor. -/
def LohiMap.mk' (dflt : α) (maxLo : Nat) : LohiMap α :=
  ⟨maxLo, List.replicate (maxLo + 1) 0, List.replicate (maxLo + 1) dflt, fun _ => none⟩

/-- lohi_map.h:50-52 `m[k] = v`. -/
def LohiMap.set (s : LohiMap α) (k : Nat) (v : α) : Option (LohiMap α) :=
  if k ≤ s.maxLo then do
    let c ← wr s.cntLo k 1
    let t ← wr s.tblLo k v
    some { s with cntLo := c, tblLo := t }
  else some { s with tblHi := Function.update s.tblHi k (some v) }

/-- lohi_map.h:42-48 `at`. -/
def LohiMap.at (s : LohiMap α) (k : Nat) : Out α :=
  if k ≤ s.maxLo then
    match s.tblLo[k]? with
    | none => .thrown
    | some v => .val v
  else
    match s.tblHi k with
    | none => .thrown
    | some v => .val v

/-- lohi_map.h:38-40 `count`. -/
def LohiMap.count (s : LohiMap α) (k : Nat) : Option Nat :=
  if k ≤ s.maxLo then rd s.cntLo k else some (if (s.tblHi k).isSome then 1 else 0)

/-- lohi_map.h:54-65 `insert`. -/
def LohiMap.insert (s : LohiMap α) (k : Nat) (v : α) : Option (LohiMap α × Bool) :=
  if k ≤ s.maxLo then do
    let c ← rd s.cntLo k
    if c ≠ 0 then some (s, false) else do
    let t ← wr s.tblLo k v
    let c ← wr s.cntLo k 1
    some ({ s with cntLo := c, tblLo := t }, true)
  else
    match s.tblHi k with
    | some _ => some (s, false)
    | none => some ({ s with tblHi := Function.update s.tblHi k (some v) }, true)

/-- lohi_map.h:67-69 `erase`. -/
def LohiMap.erase (s : LohiMap α) (k : Nat) : Option (LohiMap α × Nat) :=
  if k ≤ s.maxLo then do
    let p ← rd s.cntLo k
    let c ← wr s.cntLo k 0
    some ({ s with cntLo := c }, p)
  else some ({ s with tblHi := Function.update s.tblHi k none }, if (s.tblHi k).isSome then 1 else 0)

/-- One operation (`el` is the non-constant `m[k]` of a key that is present, `reset_max` does not exist). -/
def LohiMap.step (s : LohiMap α) : Op α → Option (LohiMap α × Out α)
  | .set k v => do let s ← s.set k v; some (s, .unit)
  | .at k => some (s, s.at k)
  | .el k => if k ≤ s.maxLo then do
      let c ← wr s.cntLo k 1
      let v ← rd s.tblLo k
      some ({ s with cntLo := c }, .val v)
    else do
      let v ← s.tblHi k
      some (s, .val v)
  | .insert k v => do let (s, b) ← s.insert k v; some (s, .ins k b)
  | .erase k => do let (s, n) ← s.erase k; some (s, .num n)
  | .count k => do let n ← s.count k; some (s, .num n)
  | .resetMax _ => none

/-- A history, with what it gives back. -/
def LohiMap.run : LohiMap α → List (Op α) → Option (LohiMap α × List (Out α))
  | s, [] => some (s, [])
  | s, op :: ops => do
    let (s, o) ← s.step op
    let (s, os) ← LohiMap.run s ops
    some (s, o :: os)

end Altruct.Maps
