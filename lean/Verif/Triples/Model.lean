/-
Model of `include/altruct/algorithm/math/triples.h`.

Integers are unbounded (no overflow).  The visitors append the triple to a vector (the second version of each function).
-/
import Verif.Base.Model
import Verif.NumTheory.Model
import Verif.Primes.FactorModel
import Mathlib.Data.Int.Sqrt

namespace Altruct.Triples

open Altruct.Base (sqrtT)
open Altruct.NumTheory (gcdExM negM)

variable {σ : Type}

/-- `for (i = i0; i <= hi; i += d + 1) s = body(i, s);`. -/
def forTo (body : Int → σ → σ) (d : Nat) (hi i : Int) (s : σ) : σ :=
  if i ≤ hi then forTo body d hi (i + d + 1) (body i s) else s
termination_by (hi + 1 - i).toNat
decreasing_by omega

/-- triples.h:23-34 `triple`. -/
abbrev Triple := Int × Int × Int

/-- triples.h:40-42 `min_element`. -/
def minElement (t : Triple) : Int := min (min t.1 t.2.1) t.2.2

/-- triples.h:48-50 `max_element`. -/
def maxElement (t : Triple) : Int := max (max t.1 t.2.1) t.2.2

/-- triples.h:56-58 `is_primitive`. -/
def isPrimitive (t : Triple) : Bool := Base.gcd (Base.gcd t.1 t.2.1) t.2.2 == 1

/-- triples.h:64-70 `next_pythagorean_triple`; a matrix is its three rows. -/
def next (m : Triple × Triple × Triple) (t : Triple) : Triple :=
  (m.1.1 * t.1 + m.1.2.1 * t.2.1 + m.1.2.2 * t.2.2,
   m.2.1.1 * t.1 + m.2.1.2.1 * t.2.1 + m.2.1.2.2 * t.2.2,
   m.2.2.1 * t.1 + m.2.2.2.1 * t.2.1 + m.2.2.2.2 * t.2.2)

/-- triples.h:76-86 `is_pythagorean_triple_generator`. -/
def isGenerator (t : Triple) : Bool :=
  isPrimitive t &&
  decide (minElement (next ((-2, -1, 2), (1, 2, -2), (-2, -2, 3)) t) < 0) &&
  decide (minElement (next ((1, 2, -2), (-2, -1, 2), (-2, -2, 3)) t) < 0) &&
  decide (minElement (next ((2, 1, -2), (1, 2, -2), (-2, -2, 3)) t) < 0)

/-- triples.h:106-111 the loop over `b`; `isqrt` is the exact square root rounded down (C01). -/
def generatorsB (k a : Int) (vg : List Triple) : List Triple :=
  forTo (fun b vg =>
    let c2 := a * a + b * b + k
    let c := Int.sqrt c2
    if c * c = c2 ∧ isGenerator (a, b, c) = true then vg ++ [(a, b, c)] else vg) 0 (k.tdiv (max a 1) + a) a vg

/-- triples.h:94-115 `pythagorean_triples_generators`. -/
def generators (k : Int) : List Triple :=
  if k = 0 then [(3, 4, 5)]
  else if k = 1 then [(2, 2, 3)]
  else if 2 ≤ k then forTo (fun a vg => generatorsB k a vg) 0 (Int.sqrt k * 2) 0 []
  else []

/-- triples.h:132-137 the loop over the three matrices, for `vt[i] = t`; `m` is the list of matrices with their index. -/
def generateInner (n : Int) (t : Triple) : List (Nat × Triple × Triple × Triple) → List Triple → List Triple
  | [], vt => vt
  | (j, m) :: ms, vt =>
    if j = 1 ∧ t.1 = t.2.1 then generateInner n t ms vt
    else if j = 2 ∧ t.1 = 0 then generateInner n t ms vt
    else
      let u := next m t
      generateInner n t ms (if maxElement u ≤ n ∧ isPrimitive u = true then vt ++ [u] else vt)

/-- triples.h:125-129 the matrices. -/
def matrices : List (Nat × Triple × Triple × Triple) :=
  [(0, (-2, 1, 2), (-1, 2, 2), (-2, 2, 3)), (1, (1, -2, 2), (2, -1, 2), (2, -2, 3)), (2, (2, 1, 2), (1, 2, 2), (2, 2, 3))]

/-- triples.h:131-138 the loop over the growing vector; `none` when `fuel` is used up. -/
def generateLoop (n : Int) : Nat → Nat → List Triple → Option (List Triple)
  | 0, _, _ => none
  | fuel + 1, i, vt =>
    match vt[i]? with
    | none => some vt
    | some t => generateLoop n fuel (i + 1) (generateInner n t matrices vt)

/-- triples.h:124-140 `generate_pythagorean_triples`. -/
def generate (n : Int) (gens : List Triple) : Option (List Triple) := generateLoop n (gens.length * 4 ^ (n.toNat + 2) + 1) 0 gens

/-- triples.h:165-169, 241-245, 287-291 the multiples `k = 1, ..., k_max` of a triple. -/
def multiples (kMax a b c : Int) (vt : List Triple) : List Triple :=
  (forTo (fun _ (s : Triple × List Triple) =>
    let t := (s.1.1 + a, s.1.2.1 + b, s.1.2.2 + c)
    (t, s.2 ++ [t])) 0 kMax 1 ((0, 0, 0), vt)).2

/-- triples.h:160-169 the body of the loop over `n`. -/
def pythBody (cMax : Int) (prim : Bool) (m n : Int) (vt : List Triple) : List Triple :=
  if Base.gcd m n ≠ 1 then vt
  else
    let n2 := n * n
    let mn := m * n
    let a := m * m - n2
    let b := mn * 2
    let c := m * m + n2
    let ab := if b < a then (b, a) else (a, b)
    multiples (if prim then 1 else cMax.tdiv c) ab.1 ab.2 c vt

/-- triples.h:151-179 `pythagorean_triples`. -/
def pythagorean (cMax : Int) (prim : Bool) : List Triple :=
  forTo (fun m vt =>
    let m2 := m * m
    let nMin := m.tmod 2 + 1
    let nMax := min (m - 1) (sqrtT (cMax - m2))
    forTo (fun n vt => pythBody cMax prim m n vt) 1 nMax nMin vt) 0 (sqrtT (cMax - 1)) 1 []

/-- triples.h:195-200 the loop over the divisors. -/
def fixedLegLoop (leg : Int) : List Nat → List Triple → List Triple
  | [], vt => vt
  | d :: vd, vt =>
    let e := (leg * leg).tdiv d
    let c2 := e + d
    let b2 := e - d
    if b2 ≤ 0 ∨ b2.tmod 2 ≠ 0 then fixedLegLoop leg vd vt
    else fixedLegLoop leg vd (vt ++ [(leg, b2.tdiv 2, c2.tdiv 2)])

/-- triples.h:187-208 `pythagorean_triples_fixed_leg`; the divisors are computed in a type with the largest value `lim`. -/
def fixedLeg (lim : Nat) (leg : Int) (f : List (Nat × Nat)) : Option (List Triple) := do
  let vd ← Primes.divisorsRec lim 0 (f.map fun t => (t.1, t.2 * 2)) 1
  some (fixedLegLoop leg vd [])

/-- triples.h:232-245 the body of the loop over `n`. -/
def body60 (cMax : Int) (prim : Bool) (m n : Int) (vt : List Triple) : List Triple :=
  if Base.gcd m n ≠ 1 then vt
  else
    let n2 := n * n
    let mn := m * n
    let a := m * m - n2
    let b := m * m - mn + n2
    let c := mn * 2 - n2
    let ac := if c < a then (c, a) else (a, c)
    let t := if (m + n).tmod 3 = 0 then (ac.1.tdiv 3, b.tdiv 3, ac.2.tdiv 3) else (ac.1, b, ac.2)
    if cMax < t.2.2 then vt
    else multiples (if prim then 1 else cMax.tdiv t.2.2) t.1 t.2.1 t.2.2 vt

/-- triples.h:219-255 `eisenstein_triples60`. -/
def eisenstein60 (cMax : Int) (prim : Bool) : List Triple :=
  forTo (fun m vt => forTo (fun n vt => body60 cMax prim m n vt) 0 (m.tdiv 2) 1 vt) 0
    (min (sqrtT (cMax * 4)) ((cMax * 3 + 1).tdiv 2)) 1 []

/-- triples.h:280-291 the body of the loop over `n`. -/
def body120 (cMax : Int) (prim : Bool) (m n : Int) (vt : List Triple) : List Triple :=
  if (m - n).tmod 3 = 0 then vt
  else if Base.gcd m n ≠ 1 then vt
  else
    let n2 := n * n
    let mn := m * n
    let a := m * m - n2
    let b := mn * 2 + n2
    let c := m * m + mn + n2
    let ab := if b < a then (b, a) else (a, b)
    if cMax < c then vt
    else multiples (if prim then 1 else cMax.tdiv c) ab.1 ab.2 c vt

/-- triples.h:266-301 `eisenstein_triples120`. -/
def eisenstein120 (cMax : Int) (prim : Bool) : List Triple :=
  forTo (fun m vt => forTo (fun n vt => body120 cMax prim m n vt) 0 (m - 1) 1 vt) 0 (sqrtT cMax) 1 []

/-- triples.h:314-329 the body of the loop over `m`. -/
def almostBody (cMax n m : Int) (vt : List Triple) : List Triple :=
  let r := gcdExM n m
  if r.1 ≠ 1 then vt
  else
    let mi := negM r.2.2 n
    let ni := if m = 1 then 1 else r.2.1
    let a := n * m - ni * mi
    let b := n * ni + m * mi
    let c := n * m + ni * mi
    if cMax < c then vt
    else if c.tmod 2 = 1 ∧ b < a then vt
    else
      let vt := vt ++ [(a, b, c)]
      if b ≠ a then vt ++ [(b, a, c)] else vt

/-- triples.h:310-340 `almost_pythagorean_triples`. -/
def almost (cMax : Int) : List Triple :=
  forTo (fun n vt => forTo (fun m vt => almostBody cMax n m vt) 0 (cMax.tdiv n) 1 vt) 0 cMax 1 []

end Altruct.Triples
