/-
Model of algorithm/math/recurrence.h.

The coefficients are elements of a commutative ring with a division `Quo`; polynomials are those of
the polynom.h model (`Verif.Polynom.Model`), so `thr` is the Karatsuba threshold and `useLong` the
floating point choice between the two division algorithms.  The values `A` of a recurrence are a
module over the coefficients: the product `castOf(r, t) * a` is `t • a`.
-/
import Verif.Polynom.Model
import Mathlib.Algebra.Module.Defs

namespace Altruct.Recurrence

open Altruct.Polynom

section Ring
variable {α : Type} [CommRing α]

/-- recurrence.h:25-27 the loop of `linear_recurrence_poly_to_coeff`; `n` iterations remain. -/
def polyToCoeffLoop (p : List α) (L : Nat) : Nat → Nat → List α → Option (List α)
  | 0, _, f => some f
  | n + 1, i, f => do
    let f ← wr f i (-(at' p (L - 1 - i)))
    polyToCoeffLoop p L n (i + 1) f

/-- recurrence.h:19-29 `linear_recurrence_poly_to_coeff`. -/
def polyToCoeff [DecidableEq α] (p : List α) : Option (List α) :=
  let L := deg p
  polyToCoeffLoop p L L 0 (List.replicate L 0)

/-- recurrence.h:36-38 the loop of `linear_recurrence_coeff_to_poly`; `n` iterations remain. -/
def coeffToPolyLoop (f : List α) (L : Nat) : Nat → Nat → List α → Option (List α)
  | 0, _, p => some p
  | n + 1, i, p => do
    let x ← rd f i
    coeffToPolyLoop f L n (i + 1) (put p (L - 1 - i) (-x))

/-- recurrence.h:30-40 `linear_recurrence_coeff_to_poly`; the zero and the identity are taken from
element 0, which has to exist. -/
def coeffToPoly (f : List α) : Option (List α) := do
  let _ ← rd f 0
  let L := f.length
  coeffToPolyLoop f L L 0 (put (List.replicate (L + 1) 0) L 1)

end Ring

section Quo
variable {α : Type} [CommRing α] [DecidableEq α] [Quo α]

/-- modulo.h:21-22, 231 `operator *=` of polynomials modulo `M`. -/
def polymodMul (thr : Nat) (useLong : Nat → Nat → Bool) (M x y : List α) : Option (List α) := do
  let t ← times thr x y
  mod thr useLong t M

/-- base.h:162-165 the loop of `powT` for polynomials modulo `M`. -/
def powLoop (thr : Nat) (useLong : Nat → Nat → Bool) (M : List α) : Nat → Int → List α → List α → Option (List α)
  | fuel, y, x, r =>
    if 0 < y then match fuel with
      | 0 => none
      | fuel + 1 => do
        let r ← if y.tmod 2 ≠ 0 then polymodMul thr useLong M r x else some r
        let x ← polymodMul thr useLong M x x
        powLoop thr useLong M fuel (y.tdiv 2) x r
    else some r

/-- base.h:158-167 `powT(polymod(x, M), y)`: the base and the identity are reduced modulo `M` by the
constructor (modulo.h:13-14, 204). -/
def polymodPow (thr : Nat) (useLong : Nat → Nat → Bool) (M x : List α) (y : Int) : Option (List α) := do
  let x ← mod thr useLong x M
  let e1 ← mod thr useLong [1] M
  powLoop thr useLong M y.toNat y x e1

variable {A : Type} [AddCommGroup A] [Module α A]

/-- recurrence.h:62-64 the loop of `linear_recurrence`; `n` iterations remain. -/
def dotLoop (xn : List α) (init : List A) : Nat → Nat → A → Option A
  | 0, _, r => some r
  | n + 1, i, r => do
    let a ← rd init i
    dotLoop xn init n (i + 1) (r + at' xn i • a)

/-- recurrence.h:51-66 `linear_recurrence`. -/
def linearRecurrence (thr : Nat) (useLong : Nat → Nat → Bool) (coeff : List α) (init : List A) (n : Int) : Option A := do
  let p ← coeffToPoly coeff
  let xn ← polymodPow thr useLong p [0, 1] n
  let _ ← rd init 0
  dotLoop xn init coeff.length 0 0

/-- recurrence.h:75-77 the loop of `linear_recurrence_next`; `n` iterations remain. -/
def nextLoop (coeff : List α) (init : List A) : Nat → Nat → A → Option A
  | 0, _, r => some r
  | n + 1, i, r => do
    let c ← rd coeff i
    let a ← if i < init.length then rd init (init.length - 1 - i) else none
    nextLoop coeff init n (i + 1) (r + c • a)

/-- recurrence.h:71-79 `linear_recurrence_next`. -/
def linearRecurrenceNext (coeff : List α) (init : List A) : Option A := do
  let _ ← rd init 0
  nextLoop coeff init coeff.length 0 0

/-- recurrence.h:84-87 `fibonacci`. -/
def fibonacci (thr : Nat) (useLong : Nat → Nat → Bool) (n : Int) : Option α :=
  linearRecurrence thr useLong [(1 : α), 1] [(1 : α) - 1, 1] n

/-- recurrence.h:92-95 `lucas_l`. -/
def lucasL (thr : Nat) (useLong : Nat → Nat → Bool) (n : Int) : Option α :=
  linearRecurrence thr useLong [(1 : α), 1] [(1 : α) + 1, 1] n

/-- recurrence.h:100-104 `lucas_u`. -/
def lucasU (thr : Nat) (useLong : Nat → Nat → Bool) (p q : α) (n : Int) : Option α :=
  linearRecurrence thr useLong [p, -q] [(1 : α) - 1, 1] n

/-- recurrence.h:109-113 `lucas_v`. -/
def lucasV (thr : Nat) (useLong : Nat → Nat → Bool) (p q : α) (n : Int) : Option α :=
  linearRecurrence thr useLong [p, -q] [(1 : α) + 1, p] n

/-! ### Berlekamp-Massey -/

/-- recurrence.h:155-161 the loop of `berlekamp_massey_poly`; `fuel` bounds the number of rounds. -/
def bmLoop (thr : Nat) (useLong : Nat → Nat → Bool) (n : Nat) : Nat → List α → List α → List α → List α → Option (List α)
  | fuel, R0, R1, V0, V1 =>
    if n ≤ deg R1 then match fuel with
      | 0 => none
      | fuel + 1 => do
        let Q ← div thr useLong R0 R1
        let QR ← times thr Q R1
        let R := minus R0 QR
        let QV ← times thr Q V1
        let V := minus V0 QV
        bmLoop thr useLong n fuel R1 R V1 V
    else some V1

/-- recurrence.h:150-152 the loop that fills `R1`; `k` iterations remain. -/
def bmFill (a : List α) (m : Nat) : Nat → Nat → List α → Option (List α)
  | 0, _, R1 => some R1
  | k + 1, i, R1 => do
    let x ← rd a (m - i)
    bmFill a m k (i + 1) (put R1 i x)

/-- recurrence.h:142-163 `berlekamp_massey_poly`, for `A = T`.  With fewer than two elements the upper
index `m` is `-1`: the loop that fills `R1` is empty and `R0[0]` is set; the model starts with `m + 1`. -/
def berlekampMasseyPoly (thr : Nat) (useLong : Nat → Nat → Bool) (a : List α) : Option (List α) := do
  let n := a.length / 2
  let m1 := 2 * n
  let _ ← rd a 0
  let R0 := put [0] m1 1
  let R1 ← bmFill a (m1 - 1) m1 0 [0]
  let V1 ← bmLoop thr useLong n (m1 + 1) R0 R1 [0] [1]
  divScalar V1 none (at' V1 (deg V1))

/-- recurrence.h:170-173 `berlekamp_massey`. -/
def berlekampMassey (thr : Nat) (useLong : Nat → Nat → Bool) (a : List α) : Option (List α) := do
  let p ← berlekampMasseyPoly thr useLong a
  polyToCoeff p

/-! ### Bernoulli numbers -/

/-- recurrence.h:123-125 the inner loop of `bernoulli_b`: `j` counts down to 1. -/
def bernInner : Nat → List α → Option (List α)
  | 0, a => some a
  | j + 1, a => do
    let x ← rd a j
    let y ← rd a (j + 1)
    let a ← wr a j ((x - y) * ((j + 1 : Nat) : α))
    bernInner j a

/-- recurrence.h:121-127 the outer loop of `bernoulli_b`; `k` iterations remain. -/
def bernOuter : Nat → Nat → List α → List α → Option (List α)
  | 0, _, _, b => some b
  | k + 1, m, a, b => do
    let x ← cdiv 1 ((m + 1 : Nat) : α)
    let a ← wr a m x
    let a ← bernInner m a
    let x ← rd a 0
    let b ← wr b m x
    bernOuter k (m + 1) a b

/-- recurrence.h:118-129 `bernoulli_b` for `n ≥ 0`. -/
def bernoulliB (n : Nat) : Option (List α) :=
  bernOuter (n + 1) 0 (List.replicate (n + 1) 0) (List.replicate (n + 1) 0)

end Quo

end Altruct.Recurrence
