/-
Model of the closed forms of experimental/include/altruct/algorithm/graph/chromatic_polynomial.h: the chromatic polynomials of a
tree, a cycle and a complete graph, over the model of `polynom` (C37).  The coefficients are integers (`id` = 1) without overflow.
`chromatic_polynomial` itself (lines 48-111) is not modelled.
-/
import Verif.Polynom.Model
import Verif.Common.Loop
import Mathlib.Algebra.Ring.Int.Defs

namespace Altruct.Chromatic
open Altruct.Polynom

/-- include/altruct/algorithm/math/base.h:158-167 `powT` on polynomials: the loop with state `(r, x, y)`.  The first argument bounds the number of rounds; `y` is enough. -/
def powLoop (thr : Nat) : Nat → List Int → List Int → Nat → Option (List Int)
  | 0, r, _, _ => some r
  | k + 1, r, x, y =>
    if y > 0 then
      (if y % 2 ≠ 0 then mul thr r none (some x) none else some r).bind fun r => (mul thr x none none none).bind fun x => powLoop thr k r x (y / 2)
    else some r

/-- base.h:158-167 `powT(x, y)` for a polynomial `x`; the identity is the constant 1. -/
def pow (thr : Nat) (x : List Int) (y : Nat) : Option (List Int) := powLoop thr y [1] x y

/-- chromatic_polynomial.h:13-18 `chromatic_polynomial_T`; for `n = 0` the exponent is -1 and `powT` gives the identity, as with 0. -/
def chrT (thr n : Nat) : Option (List Int) := (pow thr [-1, 1] (n - 1)).bind fun p => mul thr [0, 1] none (some p) none

/-- chromatic_polynomial.h:20-25 `chromatic_polynomial_C`. -/
def chrC (thr n : Nat) : Option (List Int) := (pow thr [-1, 1] n).map fun p => add p none (some (mulScalar [-1, 1] none (.inl (if n % 2 = 0 then 1 else -1))))

/-- chromatic_polynomial.h:27-34 `chromatic_polynomial_K`. -/
def chrK (thr n : Nat) : Option (List Int) := forUp (fun i p => mul thr p none (some [-1 * (i : Int), 1]) none) 0 n [1]

end Altruct.Chromatic
