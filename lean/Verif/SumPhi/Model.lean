/-
Model of algorithm/math/divisor_sums.h, fourth part: `sum_m` on a `sqrt_map`, `sum_g_L`, `sum_phi_D_L` and `sum_phi`.

The integer roots are the parameters `sq` and `cb` (see C01), `lim` is the largest `int`, `thr` the threshold of the
multiplication of polynomials (see C37).  `id` is the `1` of the ring.
-/
import Verif.Maps.Model
import Verif.Dirichlet.Model
import Verif.Sums.PowModel

namespace Altruct.SumPhi

open Altruct.Maps (SqrtMap)
open Altruct.Dirichlet (moebiusTransform)
open Altruct.Polynom (Quo cdiv)

section ring

variable {α : Type} [CommRing α] [DecidableEq α] [Quo α]

/-- divisor_sums.h:563-577 `sum_m` with a `sqrt_map` as the table; `fuel` bounds the depth.  `tbl[n]` of a key that is
present only reads it. -/
def sumMS (sq : Nat → Nat) (t : Nat → Option α) (s : Nat → α) : Nat → Nat → SqrtMap α → Option (α × SqrtMap α)
  | fuel, n, mm =>
    if n < 1 then some (0, mm)
    else (mm.count n).bind fun c =>
      if c ≠ 0 then (mm.el n).bind fun v => some (v, mm)
      else match fuel with
        | 0 => none
        | fuel + 1 =>
          (t n).bind fun r =>
          let q := sq n
          if q = 0 then none
          else
            (forUp (fun k (st : α × SqrtMap α) =>
              (sumMS sq t s fuel (n / k) st.2).bind fun x => some (st.1 - (s k - s (k - 1)) * x.1, x.2)) 2 (n / q + 1) (r, mm)).bind fun a =>
            (forUp (fun m (st : α × SqrtMap α) =>
              (sumMS sq t s fuel m st.2).bind fun x => some (st.1 - (s (n / m) - s (n / (m + 1))) * x.1, x.2)) 1 q a).bind fun b =>
            (cdiv b.1 (s 1 - s 0)).bind fun v =>
            (b.2.set n v).bind fun mm => some (v, mm)

/-- divisor_sums.h:377-381 `moebius_transform` on a `sqrt_map`, for `U` at most its `max_lo_key`: `operator []` of these keys
is an access to `tbl_lo`, and makes the key present. -/
def moebiusMap (lim : Nat) (mm : SqrtMap α) (f : Nat → α) (U : Nat) : Option (SqrtMap α) :=
  (moebiusTransform lim mm.tblLo f U).bind fun t => some { mm with tblLo := t, cntLo := List.replicate U 1 ++ mm.cntLo.drop U }

/-- divisor_sums.h:773 the lambda `tri`. -/
def tri (n : Nat) : Option α := cdiv ((n : α) * ((n : α) + 1)) 2

/-- divisor_sums.h:777, the loop with a table of `phi`. -/
def fillTable (phi : List Int) (U : Nat) (mm : SqrtMap α) : Option (SqrtMap α) :=
  forUp (fun k (mm : SqrtMap α) => (mm.el (k - 1)).bind fun a => (rd phi k).bind fun x => mm.set k (a + (x : α))) 1 U mm

/-- divisor_sums.h:718-720 and 780, the partial sums of `p(k) * mm[k]`; `p` is `1` in line 780. -/
def partialSums (p : Nat → α) (U : Nat) (mm : SqrtMap α) : Option (SqrtMap α) :=
  forUp (fun k (mm : SqrtMap α) => (mm.el (k - 1)).bind fun a => (mm.el k).bind fun b => mm.set k (a + p k * b)) 1 U mm

/-- divisor_sums.h:776-781, the keys below `U`. -/
def fillLow (lim : Nat) (phi : Option (List Int)) (U : Nat) (mm : SqrtMap α) : Option (SqrtMap α) :=
  match phi with
  | some phi => fillTable phi U mm
  | none => (moebiusMap lim mm (fun n => (n : α)) U).bind fun mm => partialSums (fun _ => 1) U mm

/-- divisor_sums.h:770-784 `sum_phi`; `phi` is the pointer, which may be null. -/
def sumPhi (lim : Nat) (sq cb : Nat → Nat) (fuel n : Nat) (phi : Option (List Int)) : Option (SqrtMap α) :=
  let U := cb n * cb n
  (SqrtMap.mk' 0 U n).bind fun mm =>
  (mm.set 0 0).bind fun mm =>
  (fillLow lim phi U mm).bind fun mm =>
  (sumMS sq tri (fun n => (n : α)) fuel n mm).bind fun r => some r.2

end ring

section field

variable {α : Type} [Field α] [DecidableEq α]

/-- base.h:158-167 `powT` of a polynomial; `fuel` bounds the number of rounds. -/
def powPoly (thr : Nat) : Nat → List α → List α → Nat → Option (List α)
  | fuel, r, x, y =>
    if 0 < y then match fuel with
      | 0 => none
      | fuel + 1 =>
        (if y % 2 ≠ 0 then Polynom.mul thr r none (some x) none else some r).bind fun r =>
        (Polynom.mul thr x none none none).bind fun x => powPoly thr fuel r x (y / 2)
    else some r

/-- divisor_sums.h:723-727, the loop over the arguments: `v`. -/
def values (sq : Nat → Nat) (t s : Nat → α) (fuel : Nat) : List Nat → SqrtMap α → Option (List α)
  | [], _ => some []
  | k :: vn, mm =>
    (mm.resetMax 0 k).bind fun mm =>
    (sumMS sq (fun n => some (t n)) s fuel k mm).bind fun r =>
    (values sq t s fuel vn r.2).bind fun v => some (r.1 :: v)

/-- divisor_sums.h:696-729 `sum_g_L`.  `max_element` of an empty range must not be read. -/
def sumGL (lim thr : Nat) (sq cb : Nat → Nat) (fuel : Nat) (g : List α) (L : Nat) (vn : List Nat) (U : Int) : Option (List α) :=
  (powPoly thr fuel [1] [0, 1] L).bind fun p =>
  (Sums.polynomSum p).bind fun s =>
  (Polynom.times thr p g).bind fun pg =>
  (Sums.polynomSum pg).bind fun t =>
  (vn.max?).bind fun n =>
  let U := if U ≤ 0 then cb n * cb n else U.toNat
  (SqrtMap.mk' 0 U n).bind fun mm =>
  (moebiusMap lim mm (fun n => Polynom.eval g (n : α)) U).bind fun mm =>
  (mm.set 0 0).bind fun mm =>
  (partialSums (fun n => Polynom.eval p (n : α)) U mm).bind fun mm =>
  values sq (fun n => Polynom.eval t (n : α)) (fun n => Polynom.eval s (n : α)) fuel vn mm

/-- divisor_sums.h:753-755 the loop, `c` factors remain. -/
def gPhi (thr : Nat) : Nat → Nat → List α → Option (List α)
  | 0, _, g => some g
  | c + 1, i, g =>
    (Polynom.divScalar [((i : Nat) : α), 1] none ((i + 1 : Nat) : α)).bind fun q =>
    (Polynom.mul thr g none (some q) none).bind fun g => gPhi thr c (i + 1) g

/-- divisor_sums.h:750-757 `sum_phi_D_L`. -/
def sumPhiDL (lim thr : Nat) (sq cb : Nat → Nat) (fuel D L : Nat) (vn : List Nat) (U : Int) : Option (List α) :=
  (gPhi thr D 0 [1]).bind fun g => sumGL lim thr sq cb fuel g L vn U

/-- divisor_sums.h:758-761 `sum_phi_D_L` for one argument. -/
def sumPhiDL1 (lim thr : Nat) (sq cb : Nat → Nat) (fuel D L n : Nat) (U : Int) : Option α :=
  (sumPhiDL lim thr sq cb fuel D L [n] U).bind fun v => v.getLast?

end field

end Altruct.SumPhi
