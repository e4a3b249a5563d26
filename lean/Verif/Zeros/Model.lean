/-
Model of `include/altruct/algorithm/math/polynoms.h` 11-81: `monotonic_search` and `find_zeros`.

The floating point type `F` is an ordered field `K` here, so arithmetic is exact and rounding is not
modelled; the coefficient type `T` of `find_zeros` is the same `K`.  `int max_iter` is a `Nat`; a negative
one behaves like 0.  A functor `P` is a function.
-/
import Verif.Common.Loop
import Verif.Polynom.Model
import Mathlib.Algebra.Order.Field.Basic

namespace Altruct.Zeros

variable {K : Type} [Field K] [LinearOrder K]

/-- polynoms.h:29-41 the loop of `monotonic_search` with `max_iter` rounds left; `s` is `s > 0`. -/
def bisect (p : K → K) (s : Bool) (y epsy epsx : K) : Nat → K → K → K → K
  | 0, _, _, mid => mid
  | iter + 1, lo, hi, mid =>
    if epsx < hi - lo then
      let mid := (lo + hi) / 2
      if mid = lo ∨ mid = hi then mid
      else if -epsy ≤ p mid ∧ p mid ≤ epsy then mid
      else if (if s then p mid < y else y < p mid) then bisect p s y epsy epsx iter mid hi mid
      else bisect p s y epsy epsx iter lo mid mid
    else mid

/-- polynoms.h:22-42 `monotonic_search(p, b, e, y, epsy, epsx, max_iter)`. -/
def monotonicSearch (y epsy epsx : K) (iter : Nat) (p : K → K) (b e : K) : K :=
  if -epsy ≤ p b ∧ p b ≤ epsy then b
  else if -epsy ≤ p e ∧ p e ≤ epsy then e
  else bisect p (!decide (p e < p b)) y epsy epsx iter b e e

/-- polynoms.h:57-62 the vector `pd` of `l` derivatives. -/
def derivs (p : List K) (l : Nat) : Option (List (List K)) :=
  (wr (List.replicate l []) 0 p).bind
    (forUp (fun i pd => (rd pd (i - 1)).bind fun q => wr pd i (Polynom.derivative q)) 1 l)

/-- polynoms.h:67-69 the inner loop, `j` from the given value down to 1; `search q b e` stands for the call
of `monotonic_search` for the functor `q`. -/
def innerLoop (search : (K → K) → K → K → K) (q : List K) : Nat → List K → Option (List K)
  | 0, z => some z
  | j + 1, z => (rd z j).bind fun a => (rd z (j + 1)).bind fun b =>
    (wr z (j + 1) (search (Polynom.eval q) a b)).bind (innerLoop search q j)

/-- polynoms.h:65-70 the loop over the derivatives, `i` from one less than the given value down to 0. -/
def outerLoop (search : (K → K) → K → K → K) (inf : K) (l : Nat) (pd : List (List K)) : Nat → List K → Option (List K)
  | 0, z => some z
  | i + 1, z => (rd pd i).bind fun q => (wr z 0 (-inf)).bind fun z => (wr z (l - i) inf).bind fun z =>
    (innerLoop search q (l - i) z).bind (outerLoop search inf l pd i)

/-- polynoms.h:74-77 one round of the loop that keeps the actual zeros; the state is `z`, `n`. -/
def keepStep (p : List K) (epsz : K) (i : Nat) (s : List K × Nat) : Option (List K × Nat) :=
  (rd s.1 i).bind fun x =>
    if -epsz ≤ Polynom.eval p x ∧ Polynom.eval p x ≤ epsz then (wr s.1 s.2 x).map (·, s.2 + 1) else some s

/-- polynoms.h:55-81 `find_zeros`, for an arbitrary `search` in place of `monotonic_search`. -/
def findZerosWith (search : (K → K) → K → K → K) (p : List K) (inf epsz : K) : Option (List K) :=
  let l := max (Polynom.deg p) 1
  (derivs p l).bind fun pd =>
    (outerLoop search inf l pd l (List.replicate (l + 1) 0)).bind fun z =>
      (forUp (keepStep p epsz) 0 (l + 1) (z, 0)).map fun s => s.1.take s.2

/-- polynoms.h:55-81 `find_zeros(p, inf, epsz, epsy, epsx, max_iter)`. -/
def findZeros (p : List K) (inf epsz epsy epsx : K) (iter : Nat) : Option (List K) :=
  findZerosWith (monotonicSearch 0 epsy epsx iter) p inf epsz

end Altruct.Zeros
