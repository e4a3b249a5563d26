/-
Model of `include/altruct/structure/math/factorial_holder.h`.
-/
import Verif.Ranges.Model

namespace Altruct.Holders

open Altruct.Polynom (Quo cdiv)

variable {α : Type} [CommRing α] [DecidableEq α] [Quo α]

/-- factorial_holder.h:12-17 the members. -/
structure FactHolder (α : Type) where
  sz : Nat
  fact : List α
  ifact : List α
  inv : List α

/-- factorial_holder.h:20-24 the constructor, with `id` the one of the ring; `_fact[sz - 1]` is read unchecked. -/
def FactHolder.make (sz : Nat) : Option (FactHolder α) :=
  let fact := Ranges.factorials (List.replicate sz (1 : α))
  if sz = 0 then none
  else
    (rd fact (sz - 1)).bind fun f =>
      (Ranges.invFactorials (List.replicate sz (1 : α)) f (sz - 1)).bind fun ifact =>
        (Ranges.inversesFromIfact ifact).map fun inv => ⟨sz, fact, ifact, inv⟩

/-- factorial_holder.h:32 `fact(k)`; `none` is the exception of `at`. -/
def FactHolder.factAt (h : FactHolder α) (k : Nat) : Option α := rd h.fact k
/-- factorial_holder.h:33 `ifact(k)`. -/
def FactHolder.ifactAt (h : FactHolder α) (k : Nat) : Option α := rd h.ifact k
/-- factorial_holder.h:34 `inv(k)`. -/
def FactHolder.invAt (h : FactHolder α) (k : Nat) : Option α := rd h.inv k

/-- factorial_holder.h:35-38 `bin(n, k)` (`k < 0` is never true: `k` is unsigned). -/
def FactHolder.bin (h : FactHolder α) (n k : Nat) : Option α :=
  if k > n then some 0
  else (rd h.fact n).bind fun a => (rd h.ifact (n - k)).bind fun b => (rd h.ifact k).map fun c => a * b * c

end Altruct.Holders
