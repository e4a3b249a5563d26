/-
Model of algorithm/math/prime_pi.h for `I = int64_t` and `J = int`.  `cb` is `cbrtT` (see C01).  The two static tables are passed
along; `lim` is the largest value of `I`.  `a - b` in `prime_pi_PHI` evaluates its operands in an unspecified order; the model
evaluates `a` first.
-/
import Verif.Common.Vec
import Mathlib.Logic.Function.Basic

namespace Altruct.PrimePi

/-- prime_pi.h:20-24 `prime_pi_PHI_key`; a value above `lim` is an overflow. -/
def phiKey (lim m n : Nat) : Option Nat := if m * 2 ^ 16 + n ≤ lim then some (m * 2 ^ 16 + n) else none

/-- prime_pi.h:30-38 `prime_pi_PHI`: the value and the table. -/
def PHI (lim : Nat) (p : List Nat) : Nat → Nat → (Nat → Option Int) → Option (Int × (Nat → Option Int))
  | 0, m, tbl => some ((m : Int), tbl)
  | n + 1, m, tbl =>
    if m = 0 then some (0, tbl)
    else
      (phiKey lim m (n + 1)).bind fun t =>
      match tbl t with
      | some v => some (v, tbl)
      | none =>
        (PHI lim p n m tbl).bind fun a =>
        (rd p n).bind fun q =>
        if q = 0 then none
        else (PHI lim p n (m / q) a.2).bind fun b => some (a.1 - b.1, Function.update b.2 t (some (a.1 - b.1)))

/-- prime_pi.h:40-45 `prime_pi_P2`, the loop from `k`; `fuel` bounds the number of rounds. -/
def P2 (pi p : List Nat) (m : Nat) : Nat → Nat → Int → Option Int
  | fuel, k, r =>
    (rd p k).bind fun q =>
      if q * q ≤ m then match fuel with
        | 0 => none
        | fuel + 1 => if q = 0 then none else (rd pi (m / q)).bind fun v => P2 pi p m fuel (k + 1) (r + ((v : Int) - (k : Int)))
      else some r

/-- The static tables of prime_pi.h:27 and 49. -/
structure Tables where
  phi : Nat → Option Int
  pi : Nat → Option Int

/-- prime_pi.h:52-61 `prime_pi_deprecated`. -/
def primePi (lim : Nat) (cb : Nat → Nat) (fuel m : Nat) (pi p : List Nat) (piSize : Nat) (t : Tables) : Option (Int × Tables) :=
  if m < 2 then some (0, t)
  else if m < piSize then (rd pi m).bind fun v => some ((v : Int), t)
  else match t.pi m with
    | some v => some (v, t)
    | none =>
      let y := cb m + 1
      (rd pi y).bind fun n =>
      (PHI lim p n m t.phi).bind fun a =>
      (P2 pi p m fuel n 0).bind fun b =>
      let v := a.1 - b + (n : Int) - 1
      some (v, ⟨a.2, Function.update t.pi m (some v)⟩)

/-- Calls with the same static tables, one after the other. -/
def calls (lim : Nat) (cb : Nat → Nat) (fuel : Nat) (pi p : List Nat) (piSize : Nat) : List Nat → Tables → Option (List Int)
  | [], _ => some []
  | m :: ms, t => (primePi lim cb fuel m pi p piSize t).bind fun r => (calls lim cb fuel pi p piSize ms r.2).map fun vs => r.1 :: vs

end Altruct.PrimePi
