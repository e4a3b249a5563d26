/-
Model of `include/altruct/structure/math/prime_holder.h`: tables that are computed at the first use.
-/
import Verif.Primes.SieveModel
import Verif.Primes.TablesModel
import Verif.Primes.FactorModel
import Verif.Ranges.Model

namespace Altruct.Holders

open Altruct.Primes

/-- The greatest `int`. -/
def intMax : Nat := 2 ^ 31 - 1

/-- prime_holder.h:16-25 the members.  `vp` is the memory of the vector: its first `m` cells are the elements, the cells
after them are those that `vp.resize(m)` of line 71 gave up but left in place. -/
structure PrimeHolder where
  sz : Nat
  m : Nat
  vp : List Nat
  vq : List Nat
  vpf : List Nat
  vpi : List Nat
  vphi : List Nat
  vmu : List Int
  vnu : List Nat
  vmer : List Int

/-- prime_holder.h:31 the constructor. -/
def PrimeHolder.make (sz : Nat) : PrimeHolder := ⟨sz, 0, [], [], [], [], [], [], [], []⟩

/-- The compiler's copy constructor: the copy of a vector has its elements and nothing after them. -/
def PrimeHolder.copy (h : PrimeHolder) : PrimeHolder := { h with vp := h.vp.take h.m }

/-- prime_holder.h:64-73 `ensure_pq`; `est` is the value of the expression `int(sz / (log(sz) - 1.1)) + 5` of line 66. -/
def PrimeHolder.ensurePq (est : Nat) (h : PrimeHolder) : Option PrimeHolder :=
  if h.vq = [] then
    let c := if h.sz < 40 then h.sz / 2 + 2 else est
    (primes both intMax h.sz (List.replicate c 0, List.replicate h.sz 0)).map fun r =>
      { h with vp := r.1.1, vq := r.1.2, m := r.2 }
  else some h

/-- prime_holder.h:38, 75-81 `pf()`: `ensure` with `factor`. -/
def PrimeHolder.ensurePf (est : Nat) (h : PrimeHolder) : Option PrimeHolder :=
  if h.vpf = [] then
    (h.ensurePq est).bind fun h => (factor intMax (List.replicate h.sz 0) h.sz h.vp h.m).map fun v => { h with vpf := v }
  else some h

/-- prime_holder.h:39, 75-81 `pi()`: `ensure` with `prime_pi`, which does not look at the number of primes. -/
def PrimeHolder.ensurePi (est : Nat) (h : PrimeHolder) : Option PrimeHolder :=
  if h.vpi = [] then
    (h.ensurePq est).bind fun h => (primePi (List.replicate h.sz 0) h.sz h.vp).map fun v => { h with vpi := v }
  else some h

/-- prime_holder.h:40, 75-81 `phi()`. -/
def PrimeHolder.ensurePhi (est : Nat) (h : PrimeHolder) : Option PrimeHolder :=
  if h.vphi = [] then
    (h.ensurePq est).bind fun h => (eulerPhi intMax (List.replicate h.sz 0) h.sz h.vp h.m).map fun v => { h with vphi := v }
  else some h

/-- prime_holder.h:41, 75-81 `mu()`; `moebius_mu` does not use the primes. -/
def PrimeHolder.ensureMu (est : Nat) (h : PrimeHolder) : Option PrimeHolder :=
  if h.vmu = [] then
    (h.ensurePq est).bind fun h => (moebiusMu intMax (List.replicate h.sz 0) h.sz).map fun v => { h with vmu := v }
  else some h

/-- prime_holder.h:42, 75-81 `nu()`. -/
def PrimeHolder.ensureNu (est : Nat) (h : PrimeHolder) : Option PrimeHolder :=
  if h.vnu = [] then
    (h.ensurePq est).bind fun h => (primeNu intMax (List.replicate h.sz 0) h.sz h.vp h.m).map fun v => { h with vnu := v }
  else some h

/-- prime_holder.h:43 `mertens()`. -/
def PrimeHolder.ensureMer (est : Nat) (h : PrimeHolder) : Option PrimeHolder :=
  if h.vmer = [] then (h.ensureMu est).map fun h => { h with vmer := Ranges.accumulate h.vmu } else some h

/-- `std::sort` of pairs: lexicographic, modelled by merge sort. -/
def sortPairs (l : List (Nat × Nat)) : List (Nat × Nat) :=
  l.mergeSort fun a b => decide (a.1 < b.1) || (decide (a.1 = b.1) && decide (a.2 ≤ b.2))

/-- The member functions (prime_holder.h:33-43, 54-62).  The accessors with an index (45-52) are `at` on these tables.
The references the table accessors return are not const; writing through them is not modelled.  `divisors` is with `I = int`. -/
inductive PHOp where
  | size | primes | p | q | pf | pi | phi | mu | nu | mertens
  | factor (n : Nat) | factors (vn : List Nat)
  | divisors (n maxd : Nat) | divisorsL (vn : List Nat) (maxd : Nat) | divisorsF (vf : List (Nat × Nat)) (maxd : Nat)

/-- What a member function returns. -/
inductive PHRes where
  | nat (n : Nat) | nats (l : List Nat) | ints (l : List Int) | pairs (l : List (Nat × Nat))

/-- prime_holder.h:90-95 `factor_integer(n)`. -/
def PrimeHolder.factorInt (est : Nat) (h : PrimeHolder) (n : Nat) : Option (PrimeHolder × List (Nat × Nat)) :=
  (h.ensurePf est).bind fun h => (factorInteger h.vpf [] n).map fun vf => (h, sortPairs vf)

/-- prime_holder.h:83-88 `factor_integer(vn)`. -/
def PrimeHolder.factorInts (est : Nat) (h : PrimeHolder) (vn : List Nat) : Option (PrimeHolder × List (Nat × Nat)) :=
  (h.ensurePf est).bind fun h => (factorIntegers h.vpf [] vn).map fun vf => (h, sortPairs vf)

/-- prime_holder.h:33-43, 83-113 one call. -/
def PrimeHolder.step (est : Nat) (h : PrimeHolder) : PHOp → Option (PrimeHolder × PHRes)
  | .size => some (h, .nat h.sz)
  | .primes => (h.ensurePq est).map fun h => (h, .nat h.m)
  | .p => (h.ensurePq est).map fun h => (h, .nats (h.vp.take h.m))
  | .q => (h.ensurePq est).map fun h => (h, .nats h.vq)
  | .pf => (h.ensurePf est).map fun h => (h, .nats h.vpf)
  | .pi => (h.ensurePi est).map fun h => (h, .nats h.vpi)
  | .phi => (h.ensurePhi est).map fun h => (h, .nats h.vphi)
  | .mu => (h.ensureMu est).map fun h => (h, .ints h.vmu)
  | .nu => (h.ensureNu est).map fun h => (h, .nats h.vnu)
  | .mertens => (h.ensureMer est).map fun h => (h, .ints h.vmer)
  | .factor n => (h.factorInt est n).map fun r => (r.1, .pairs r.2)
  | .factors vn => (h.factorInts est vn).map fun r => (r.1, .pairs r.2)
  | .divisors n maxd =>
    (h.factorInt est n).bind fun r => (Primes.divisors intMax r.2 maxd).map fun vd => (r.1, .nats vd)
  | .divisorsL vn maxd =>
    (h.factorInts est vn).bind fun r => (Primes.divisors intMax r.2 maxd).map fun vd => (r.1, .nats vd)
  | .divisorsF vf maxd => (Primes.divisors intMax vf maxd).map fun vd => (h, .nats vd)

/-- A sequence of calls on one holder: what they return, in order. -/
def PrimeHolder.run (est : Nat) : PrimeHolder → List PHOp → Option (List PHRes)
  | _, [] => some []
  | h, op :: ops => (h.step est op).bind fun r => (r.1.run est ops).map fun rs => r.2 :: rs

end Altruct.Holders
