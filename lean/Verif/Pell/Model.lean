/-
Model of `pell.h`: Pell equations by the continued fraction of a quadratic irrational.

The integers are unbounded.  `none` is an access out of bounds, a division by zero or a loop that has
not ended after `fuel` rounds.  The output parameters are returned; they are given the values they
had before the call.
-/
import Verif.Base.Model
import Verif.Common.Vec
import Verif.Primes.FactorModel
import Verif.Quadratic.Model

namespace Altruct.Pell

open Altruct

/-- The vectors that `pell_PQa` extends. -/
structure Tab where
  P : List Int
  Q : List Int
  a : List Int
  A : List Int
  B : List Int
  G : List Int
deriving DecidableEq, Repr

/-- The local variables of `pell_PQa` (pell.h:48-53). -/
structure Loc where
  i : Nat
  i0 : Nat
  P0 : Int
  Q0 : Int
  A2 : Int
  A1 : Int
  B2 : Int
  B1 : Int
  G2 : Int
  G1 : Int
deriving DecidableEq, Repr

/-- pell.h:62 the test for a reduced pair. -/
def isReduced (D P0 Q0 : Int) : Bool :=
  decide (Q0 > 0) && decide (P0 > 0) && decide (P0 * P0 < D) && decide ((P0 - Q0) * (P0 - Q0) < D)
    && decide (D < (P0 + Q0) * (P0 + Q0))

/-- pell.h:55-62 one round of the loop of `pell_PQa`. -/
def pqaStep (D qD : Int) (v : Loc) (t : Tab) : Option (Loc × Tab) := do
  let pi ← rd t.P v.i
  let qi ← rd t.Q v.i
  if qi = 0 ∨ v.Q0 = 0 then none
  else
    let a0 := Base.divFloor (pi + (if qi < 0 then qD + 1 else qD)) qi
    let A0 := a0 * v.A1 + v.A2
    let B0 := a0 * v.B1 + v.B2
    let G0 := a0 * v.G1 + v.G2
    let i := v.i + 1
    let P0 := a0 * v.Q0 - v.P0
    let Q0 := (D - P0 * P0).tdiv v.Q0
    let i0 := if v.i0 = 0 ∧ isReduced D P0 Q0 then i else v.i0
    some (⟨i, i0, P0, Q0, v.A1, A0, v.B1, B0, v.G1, G0⟩,
      ⟨t.P ++ [P0], t.Q ++ [Q0], t.a ++ [a0], t.A ++ [A0], t.B ++ [B0], t.G ++ [G0]⟩)

/-- pell.h:54-64 the loop of `pell_PQa`: the vectors and the length of the period. -/
def pqaLoop (D qD : Int) : Nat → Loc → Tab → Option (Tab × Nat)
  | 0, _, _ => none
  | fuel + 1, v, t => do
    let (v, t) ← pqaStep D qD v t
    if v.i0 ≠ 0 ∧ v.i > v.i0 then
      let pi ← rd t.P v.i
      let qi ← rd t.Q v.i
      let pi0 ← rd t.P v.i0
      let qi0 ← rd t.Q v.i0
      if pi = pi0 ∧ qi = qi0 then some (t, v.i - v.i0)
      else pqaLoop D qD fuel v t
    else pqaLoop D qD fuel v t

/-- pell.h:45-65 `pell_PQa`. -/
def pqa (fuel : Nat) (D : Int) (t : Tab) : Option (Tab × Nat) := do
  let qD := Base.sqrtT D
  let i := t.a.length
  let P0 ← rd t.P i
  let Q0 ← rd t.Q i
  if i ≥ 2 then
    let A2 ← rd t.A (i - 2)
    let A1 ← rd t.A (i - 1)
    let B2 ← rd t.B (i - 2)
    let B1 ← rd t.B (i - 1)
    let G2 ← rd t.G (i - 2)
    let G1 ← rd t.G (i - 1)
    pqaLoop D qD fuel ⟨i, i, P0, Q0, A2, A1, B2, B1, G2, G1⟩ t
  else pqaLoop D qD fuel ⟨i, i, P0, Q0, 0, 1, 1, 0, -P0, Q0⟩ t

/-- The vectors before the first call. -/
def start (P0 Q0 : Int) : Tab := ⟨[P0], [Q0], [], [], [], []⟩

/-- pell.h:79-113 `pell1(D, N, x0, y0)`: the returned value and the final `x0`, `y0`. -/
def pell1 (fuel : Nat) (D N x0 y0 : Int) : Option (Nat × Int × Int) := do
  let (t, l) ← pqa fuel D (start 0 1)
  if l % 2 = 1 then
    if N = -1 then
      let x ← rd t.G (l - 1)
      let y ← rd t.B (l - 1)
      some (l, x, y)
    else if N = 1 then
      let (t, _) ← pqa fuel D t
      let x ← rd t.G (2 * l - 1)
      let y ← rd t.B (2 * l - 1)
      some (l, x, y)
    else some (0, x0, y0)
  else if N = 1 then
    let x ← rd t.G (l - 1)
    let y ← rd t.B (l - 1)
    some (l, x, y)
  else some (0, x0, y0)

/-- pell.h:136-148 the loop of `pellS`; the list is the part of `(xc0, yc0)` still to be appended
when `cnt` rounds are left. -/
def pellSLoop (N : Int) (t : Tab) : Nat → Nat → Option (List (Int × Int))
  | 0, _ => some []
  | cnt + 1, i => do
    let q ← rd t.Q (i + 1)
    if q = 0 then none
    else if N.tmod q ≠ 0 then pellSLoop N t cnt (i + 1)
    else
      let f2 := N.tdiv q
      let f2 := if i % 2 = 0 then -f2 else f2
      if f2 < 0 then pellSLoop N t cnt (i + 1)
      else
        let f := Base.sqrtT f2
        if f * f ≠ f2 then pellSLoop N t cnt (i + 1)
        else
          let g ← rd t.G i
          let b ← rd t.B i
          let r ← pellSLoop N t cnt (i + 1)
          some ((f * g, f * b) :: r)

/-- pell.h:128-149 `pellS`: the pairs appended to `(xc0, yc0)`. -/
def pellS (fuel : Nat) (D N : Int) : Option (List (Int × Int)) := do
  let (t, l) ← pqa fuel D (start 0 1)
  let ql ← rd t.Q l
  if l % 2 = 1 ∨ ql ≠ 1 then
    let (t, _) ← pqa fuel D t
    pellSLoop N t (l * 2) 0
  else pellSLoop N t l 0

/-- pell.h:168 the first index from `i` on whose `Q` is `1` or `-1`, or the size of the vector. -/
def findUnit (Q : List Int) : Nat → Nat → Nat
  | 0, i => i
  | cnt + 1, i => match rd Q i with
    | none => i
    | some q => if q ≠ 1 ∧ q ≠ -1 then findUnit Q cnt (i + 1) else i

/-- pell.h:171, :177 the value of `Q[i]` that gives a solution. -/
def expected (i : Nat) (ms : Int) : Int := if i % 2 = 1 then -ms else ms

/-- pell.h:160-187 `pell_mz`: the returned value and the final `x0`, `y0`. -/
def pellMZ (fuel : Nat) (D m z x0 y0 : Int) : Option (Nat × Int × Int) := do
  let mm : Int := |m|
  let ms : Int := if m < 0 then -1 else 1
  let mh := mm.tdiv 2
  let zh := if z ≤ mh then z else z - mm
  let (t, l) ← pqa fuel D (start zh mm)
  let i := findUnit t.Q (t.Q.length - 1) 1
  if i ≥ t.Q.length then some (0, x0, y0)
  else
    let q ← rd t.Q i
    let (t, i) ← if q ≠ expected i ms then (pqa fuel D t).map (fun r => (r.1, i + l)) else some (t, i)
    let q ← rd t.Q i
    if q ≠ expected i ms then some (0, x0, y0)
    else
      let x ← rd t.G (i - 1)
      let y ← rd t.B (i - 1)
      some (l, x, y)

/-- pell.h:219-224 the solutions for the classes `z` of one divisor `f`. -/
def pellZ (fuel : Nat) (D m : Int) (f : Int) : List Int → Option (List (Quadratic.Quad Int D))
  | [] => some []
  | z :: vz => do
    let (r, x, y) ← pellMZ fuel D m z 0 0
    let rest ← pellZ fuel D m f vz
    if r ≠ 0 then some (Quadratic.mulScalar ⟨x, y⟩ f :: rest) else some rest

/-- pell.h:215-218 the classes: all `z` in `[0, mm)` with `z^2 = D (mod mm)`. -/
def classes (D mm : Int) : List Int :=
  ((List.range mm.toNat).map (fun z : Nat => (z : Int))).filter (fun z => decide ((z * z - D).tmod mm = 0))

/-- pell.h:209-225 the loop over the divisors `f`. -/
def pellF (fuel : Nat) (D N : Int) : List Nat → Option (List (Quadratic.Quad Int D))
  | [] => some []
  | f :: vf =>
    if (f : Int) * f = 0 then none
    else do
      let m := N.tdiv ((f : Int) * f)
      let mm : Int := |m|
      let r ← pellZ fuel D m f (classes D mm)
      let rest ← pellF fuel D N vf
      some (r ++ rest)

/-- pell.h:204-207 the factorization of the largest square divisor's root. -/
def halfExponents (fN : List (Nat × Nat)) : List (Nat × Nat) :=
  fN.filterMap (fun f => if f.2 ≥ 2 then some (f.1, f.2 / 2) else none)

/-- pell.h:201-227 `pell(D, N, fN)`.  `lim` is the largest value of the integer type (in the model of
`divisors`). -/
def pell (lim fuel : Nat) (D N : Int) (fN : List (Nat × Nat)) : Option (List (Quadratic.Quad Int D)) := do
  let vf ← Primes.divisorsRec lim 0 (halfExponents fN) 1
  pellF fuel D N vf

/-- pell.h:246-252 the loop of the listing `pell1`. -/
def pell1Loop {D : Int} (s1 : Quadratic.Quad Int D) (xMax yMax : Int) (count : Int) :
    Nat → Quadratic.Quad Int D → List (Quadratic.Quad Int D) → Option (List (Quadratic.Quad Int D))
  | 0, _, _ => none
  | fuel + 1, s, vs =>
    let t := s
    let s := s * s1
    if xMax > 0 ∧ t.a > xMax then some vs
    else if yMax > 0 ∧ t.b > yMax then some vs
    else if count > 0 ∧ (vs.length : Int) ≥ count then some vs
    else pell1Loop s1 xMax yMax count fuel s (vs ++ [t])

/-- pell.h:239-255 `pell1(D, N, x_max, y_max, count)`. -/
def pell1List (fuel : Nat) (D N xMax yMax count : Int) : Option (List (Quadratic.Quad Int D)) := do
  let (r, x, y) ← pell1 fuel D N 0 0
  if r ≠ 0 then
    let s1 : Quadratic.Quad Int D := ⟨x, y⟩
    let s := s1
    let s1 := if N = -1 then s1 * s1 else s1
    pell1Loop s1 xMax yMax count fuel s []
  else some []

/-- pell.h:275-283 one pass of the listing `pell` over the classes: the advanced solutions and the
visited ones. -/
def pellPass {D : Int} (s1 : Quadratic.Quad Int D) (xMax yMax : Int) (count : Int) :
    List (Quadratic.Quad Int D) → List (Quadratic.Quad Int D) →
      List (Quadratic.Quad Int D) × List (Quadratic.Quad Int D)
  | [], out => ([], out)
  | s :: vs, out =>
    let t := s
    let s := s * s1
    let s := if s.a ≤ 0 ∧ s.b ≤ 0 then -s else s
    let out :=
      if t.a < 0 ∨ t.b < 0 then out
      else if xMax > 0 ∧ t.a > xMax then out
      else if yMax > 0 ∧ t.b > yMax then out
      else if count > 0 ∧ (out.length : Int) ≥ count then out
      else out ++ [t]
    let (vs, out) := pellPass s1 xMax yMax count vs out
    (s :: vs, out)

/-- pell.h:273-285 the passes, until one visits nothing. -/
def pellPasses {D : Int} (s1 : Quadratic.Quad Int D) (xMax yMax : Int) (count : Int) :
    Nat → List (Quadratic.Quad Int D) → List (Quadratic.Quad Int D) → Option (List (Quadratic.Quad Int D))
  | 0, _, _ => none
  | fuel + 1, vs, out =>
    let (vs, out') := pellPass s1 xMax yMax count vs out
    if out'.length = out.length then some out'
    else pellPasses s1 xMax yMax count fuel vs out'

/-- pell.h:267-293 `pell(D, N, fN, x_max, y_max, count)`: the visited solutions. -/
def pellList (lim fuel : Nat) (D N : Int) (fN : List (Nat × Nat)) (xMax yMax count : Int) :
    Option (List (Quadratic.Quad Int D)) := do
  let (r, x, y) ← pell1 fuel D 1 0 0
  if r ≠ 0 then
    let vs ← pell lim fuel D N fN
    pellPasses ⟨x, y⟩ xMax yMax count fuel vs []
  else some []

end Altruct.Pell
