/-
Model of algorithm/math/mertens.h, second part: the versions with a table of prime counts.  `pi_tbl` is a function; `sq` and `cb` are
`isqrt` and `icbrt`; `id` is the `1` of the ring.
-/
import Verif.SumMult.Model23

namespace Altruct.Mertens

open Altruct.Maps (SqrtMap)
open Altruct.SumMult (sumMultiplicative)

variable {α : Type} [CommRing α]

/-- mertens.h:94-98 `mertens` with `pi_tbl`. -/
def mertensPi (sq cb : Nat → Nat) (fuel n : Nat) (pi : Nat → Nat) (pa : List Nat) (psz : Nat) : Option (SqrtMap α) :=
  sumMultiplicative sq cb (fun k => -((pi k : Nat) : α)) (fun _ _ e => if 1 < e then 0 else -1) fuel n pa psz

/-- mertens.h:126-131 `mertens_odd` with `pi_tbl`. -/
def mertensOddPi (sq cb : Nat → Nat) (fuel n : Nat) (pi : Nat → Nat) (pa : List Nat) (psz : Nat) : Option (SqrtMap α) :=
  sumMultiplicative sq cb (fun k => -((pi k : Nat) : α) + if 2 ≤ k then 1 else 0) (fun _ p e => if p = 2 ∨ 1 < e then 0 else -1) fuel n pa psz

/-- mertens.h:165-166 `M0[i] -= M1[i]`. -/
def subAt (M1 : SqrtMap α) (k : Nat) (M0 : SqrtMap α) : Option (SqrtMap α) :=
  (M0.el k).bind fun x => (M1.el k).bind fun y => M0.set k (x - y)

/-- mertens.h:161-168 `mertens_even` with `pi_tbl`. -/
def mertensEvenPi (sq cb : Nat → Nat) (fuel n : Nat) (pi : Nat → Nat) (pa : List Nat) (psz : Nat) : Option (SqrtMap α) :=
  (mertensOddPi sq cb fuel n pi pa psz).bind fun M1 =>
  (mertensPi sq cb fuel n pi pa psz).bind fun M0 =>
  let q := sq n
  let nq := n / (q + 1)
  (forUp (fun i (M0 : SqrtMap α) => subAt M1 i M0) 1 (q + 1) M0).bind fun M0 =>
  forUp (fun i (M0 : SqrtMap α) => subAt M1 (n / i) M0) 1 (nq + 1) M0

end Altruct.Mertens
