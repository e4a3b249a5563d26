/-
Model of algorithm/math/mertens.h: the sieves and the functions that fill a table with `sum_m`.  The versions that
take a table of prime counts are in `PiModel.lean`.  `id` is the `1` of the ring.
-/
import Verif.Dirichlet.SumModel

namespace Altruct.Mertens

open Altruct.Dirichlet
open Altruct.Polynom (Quo)

variable {α : Type} [CommRing α]

/-- mertens.h:34 and 50, the lambda `p`: `(k % 2 == 1) ? id : zero`. -/
def odd (k : Nat) : α := if k % 2 = 1 then 1 else 0

/-- mertens.h:17-20 `sieve_mertens`. -/
def sieve (lim : Nat) (M : List α) (n : Nat) (pa : List Nat) (m : Nat) : Option (List α) :=
  sieveMMultiplicative lim M (fun _ => 1) (fun _ => 1) n pa m

/-- mertens.h:31-36 `sieve_mertens_odd`. -/
def sieveOdd (lim : Nat) (M1 : List α) (n : Nat) (pa : List Nat) (m : Nat) : Option (List α) :=
  sieveMMultiplicative lim M1 (fun _ => 1) odd n pa m

/-- mertens.h:47-52 `sieve_mertens_even`. -/
def sieveEven [DecidableEq α] [Quo α] (lim : Nat) (M0 : List α) (n : Nat) : Option (List α) :=
  sieveM lim M0 (fun k => if 1 < k then -1 else 0) odd n

/-- mertens.h:62-66 `sieve_mertens_even_odd`: the tables `(M0, M1)`. -/
def sieveEvenOdd (lim : Nat) (M0 M1 : List α) (n : Nat) (pa : List Nat) (m : Nat) : Option (List α × List α) := do
  let M1 ← sieveOdd lim M1 n pa m
  let M0 ← sieve lim M0 n pa m
  let M0 ← forUp (fun k M0 => do
    let x ← rd M0 k
    let y ← rd M1 k
    wr M0 k (x - y)) 0 n M0
  some (M0, M1)

/-- mertens.h:81-85 `mertens` with a table. -/
def mertens (sq : Nat → Nat) (fuel n : Nat) (tbl : Nat → Option α) : Option (α × (Nat → Option α)) :=
  sumM1 sq (fun _ => 1) fuel n tbl

/-- mertens.h:115 and 149, the lambda `s`: `castOf<T>(id, (k + 1) / 2)`. -/
def odds (k : Nat) : α := (((k + 1) / 2 : Nat) : α)

/-- mertens.h:112-117 `mertens_odd` with a table. -/
def mertensOdd [DecidableEq α] [Quo α] (sq : Nat → Nat) (fuel n : Nat) (tbl : Nat → Option α) : Option (α × (Nat → Option α)) :=
  sumM sq (fun _ => 1) odds fuel n tbl

/-- The conversion of a 64-bit argument to the parameter `int k` of a lambda, modulo `2 ^ 32`. -/
def toInt32 (k : Nat) : Int := if k % 2 ^ 32 < 2 ^ 31 then ((k % 2 ^ 32 : Nat) : Int) else ((k % 2 ^ 32 : Nat) : Int) - 2 ^ 32

/-- mertens.h:145-151 `mertens_even` with a table; the parameter of the lambda `t` is an `int`, whatever the type
of `n`. -/
def mertensEven [DecidableEq α] [Quo α] (sq : Nat → Nat) (fuel n : Nat) (tbl : Nat → Option α) : Option (α × (Nat → Option α)) :=
  sumM sq (fun k => if 1 < toInt32 k then -1 else 0) odds fuel n tbl

end Altruct.Mertens
