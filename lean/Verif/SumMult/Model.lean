/-
Model of algorithm/math/divisor_sums.h, third part: `make_sqrt_map` and `sum_multiplicative_34`.

`f a p e` is the function object `f(f_pe1, p, e)`, `s1` the sums over primes.  The integer square root is the
parameter `sq` (see C01).  `id` is the `1` of the ring.
-/
import Verif.Maps.Model
import Verif.Common.Loop
import Mathlib.Algebra.Ring.Defs

namespace Altruct.SumMult

open Altruct.Maps (SqrtMap)

variable {α : Type} [CommRing α]

/-- divisor_sums.h:456-468 `make_sqrt_map`; `tbl[1]` is created by the reference in the last line if it is missing. -/
def makeSqrtMap (sq : Nat → Nat) (f : Nat → α) (n : Nat) : Option (SqrtMap α) := do
  let q := sq n
  let tbl ← SqrtMap.mk' 0 q n
  let tbl ← forUp (fun i (tbl : SqrtMap α) => tbl.set i (f i)) 1 (q + 1) tbl
  let tbl ← forUp (fun i (tbl : SqrtMap α) => tbl.set (n / i) (f (n / i))) 1 (n / (q + 1) + 1) tbl
  let _ ← tbl.el 1
  tbl.set 0 0

/-- divisor_sums.h:863-871, the loop over the exponents; `self` is the recursive call with the arguments `n`, `m`,
`f_tb`, `bpf_t_val` and `bpf_t_exp`, `v` is `bpf_t_val_next`; `fuel` bounds the number of rounds. -/
def expLoop (self : Nat → Nat → α → Nat → Nat → Option α) (f : α → Nat → Nat → α) (p i : Nat) (ftb : α) (be v : Nat) :
    Nat → Nat → Nat → α → α → Option α
  | fuel, nn, e, fpe, ret =>
    if v ≤ nn then match fuel with
      | 0 => none
      | fuel + 1 =>
        let e := e + 1
        let fpe := f fpe p e
        (self nn i (if be ≠ 0 then ftb else fpe) v (if be ≠ 0 then be else e)).bind fun r =>
          if p = 0 then none
          else expLoop self f p i ftb be v fuel (nn / p) e fpe (ret + if be ≠ 0 then fpe * r else r)
    else some ret

/-- divisor_sums.h:856-872, the loop over the primes from index `i`, `c` of them. -/
def primeLoop (self : Nat → Nat → α → Nat → Nat → Option α) (f : α → Nat → Nat → α) (pa : List Nat) (n : Nat) (ftb : α) (bv be fuel : Nat) :
    Nat → Nat → α → Option α
  | 0, _, ret => some ret
  | c + 1, i, ret =>
    (rd pa i).bind fun p =>
      if p = 0 then none
      else
        let v := if be ≠ 0 then bv else p
        if n / p < v then some ret
        else (expLoop self f p i ftb be v fuel (n / p) 0 1 ret).bind fun ret => primeLoop self f pa n ftb bv be fuel c (i + 1) ret

/-- divisor_sums.h:845-874 `sum_multiplicative_34`, the recursion; `fuel` bounds the depth and the loops. -/
def sum34 (s1 : SqrtMap α) (f : α → Nat → Nat → α) (pa : List Nat) : Nat → Nat → Nat → α → Nat → Nat → Option α
  | 0, _, _, _, _, _ => none
  | fuel + 1, n, m, ftb, bv, be =>
    (s1.el n).bind fun sn =>
      (if be ≠ 0 then (s1.el bv).map fun sb => f ftb bv (be + 1) + ftb * (sn - sb) else some (1 + sn)).bind fun ret =>
        primeLoop (sum34 s1 f pa fuel) f pa n ftb bv be fuel m 0 ret

/-- divisor_sums.h:876-880 `sum_multiplicative_34`. -/
def sumMultiplicative34 (sq : Nat → Nat) (s1 : Nat → α) (f : α → Nat → Nat → α) (fuel n : Nat) (pa : List Nat) (m : Nat) : Option α :=
  (makeSqrtMap sq s1 n).bind fun tbl => sum34 tbl f pa fuel n m 1 1 0

end Altruct.SumMult
