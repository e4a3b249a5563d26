/-
Model of `include/altruct/algorithm/math/comb_mod_pp.h`, lines 20-183: factorials and binomials modulo a prime power by the
direct loops and by the look-up table up to `p^e`.

Integers are unbounded (no overflow); the arguments are natural numbers.  A `moduloX<R>` is its value, the modulus being fixed;
its operations are those of modulo.h on normalised values (C06, C07).  `r *= castOf<R>(i)` multiplies by the unnormalised `i`
(modulo.h:205), which `mulM` covers.  The version with the smaller table (lines 185-342) is not modelled.
-/
import Verif.NumTheory.Model
import Verif.Primes.FactorModel
import Verif.Common.Loop
import Verif.Common.Vec

namespace Altruct.CombPP

open Altruct.Base (powT)
open Altruct.NumTheory (mulM negM divM)
open Altruct.Primes (factorOut)

/-- modulo.h:204 the constructor `moduloX(v, M)` for `v ≥ 0`. -/
def normM (v M : Int) : Int := v.tmod M

/-- comb_mod_pp.h:33-36 the body of the loop; `none` is a division by zero or an access out of bounds. -/
def tableBody (p : Nat) (m : Int) (i : Nat) (s : Int × List Int) : Option (Int × List Int) :=
  if p = 0 then none
  else do
    let r := if i % p ≠ 0 then mulM s.1 i m else s.1
    let tbl ← wr s.2 i r
    some (r, tbl)

/-- comb_mod_pp.h:30-38 `factorials_mod_pp_skipped`. -/
def skippedTable (n p e : Nat) : Option (List Int) := do
  let m := powT (p : Int) e
  let s ← forUp (tableBody p m) 0 (n + 1) (normM 1 m, List.replicate (n + 1) 0)
  some s.2

/-- comb_mod_pp.h:53-59 `factorial_mod_pp_skipped_slow`. -/
def skippedSlow (n p e : Nat) : Option (Int × Nat) := do
  let m := powT (p : Int) e
  if p = 0 then none
  else do
    let r ← forUp (fun i r => some (if i % p ≠ 0 then mulM r i m else r)) 1 (n + 1) (normM 1 m)
    some (r, n / p)

/-- comb_mod_pp.h:76-83 `factorial_mod_pp_reduced_slow`. -/
def reducedSlow (n p e : Nat) : Option (Int × Nat) :=
  let m := powT (p : Int) e
  forUp (fun i (s : Int × Nat) => do
    let (t, a) ← factorOut i p s.2
    some (mulM s.1 t m, a)) 1 (n + 1) (normM 1 m, 0)

/-- comb_mod_pp.h:104-107 the loop of `binomial_mod_pp_reduced_slow`: `(n, r, ar, s, as)`. -/
def binomialLoop (p : Nat) (m : Int) (k : Nat) (st : Nat × (Int × Nat) × Int × Nat) : Option (Nat × (Int × Nat) × Int × Nat) :=
  forUp (fun i (st : Nat × (Int × Nat) × Int × Nat) => do
    let (t, ar) ← factorOut st.1 p st.2.1.2
    let (u, as) ← factorOut i p st.2.2.2
    some (st.1 - 1, (mulM st.2.1.1 t m, ar), mulM st.2.2.1 u m, as)) 1 (k + 1) st

/-- comb_mod_pp.h:100-111 `binomial_mod_pp_reduced_slow`, for `k ≤ n`; the difference of the exponents is an integer. -/
def binomialSlow (n k p e : Nat) : Option (Int × Int) := do
  let k := min k (n - k)
  let m := powT (p : Int) e
  let st ← binomialLoop p m k (n, (normM 1 m, 0), normM 1 m, 0)
  some (divM st.2.1.1 st.2.2.1 m, (st.2.1.2 : Int) - (st.2.2.2 : Int))

/-- comb_mod_pp.h:140-145 the loop of `factorial_mod_pp_reduced_2_modx`; `none` is a division by zero, an access out of bounds
or no termination (`fuel` used up). -/
def reduced2Loop (p pe : Nat) (sign : Bool) (tbl : List Int) : Nat → Nat → Int → Nat → Option (Int × Nat)
  | 0, _, _, _ => none
  | fuel + 1, n, f, a =>
    if 1 < n then
      if pe = 0 ∨ p = 0 then none
      else do
        let q := n / pe
        let r := n % pe
        let f := if sign && q % 2 != 0 then negM f pe else f
        let t ← rd tbl r
        reduced2Loop p pe sign tbl fuel (n / p) (mulM f t pe) (a + n / p)
    else some (f, a)

/-- comb_mod_pp.h:134-152 `factorial_mod_pp_reduced_2_modx` and `factorial_mod_pp_reduced_2`. -/
def reduced2 (n p e : Nat) (tbl : List Int) : Option (Int × Nat) := do
  let pe := (powT (p : Int) e).toNat
  let sign := !(p == 2 && e != 2)
  let t ← rd tbl 0
  reduced2Loop p pe sign tbl (n + 2) n (normM t pe) 0

/-- comb_mod_pp.h:176-183 `binomial_mod_pp_reduced_2`, for `k ≤ n`. -/
def binomial2 (n k p e : Nat) (tbl : List Int) : Option (Int × Int) := do
  let pe := powT (p : Int) e
  let fn ← reduced2 n p e tbl
  let fk ← reduced2 k p e tbl
  let fl ← reduced2 (n - k) p e tbl
  some (divM fn.1 (mulM fk.1 fl.1 pe) pe, (fn.2 : Int) - ((fk.2 + fl.2 : Nat) : Int))

end Altruct.CombPP
