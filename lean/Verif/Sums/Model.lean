/-
Model of `include/altruct/algorithm/math/sums.h` (`sum_ratio`, `sum`, `sum_sqrt`, `sum_sqrt2m`,
`sum_sqrt2`).

The index type `I` is unbounded; the result type `T` is a ring and `castOf` is the integer cast.
-/
import Verif.Base.Model
import Mathlib.Data.Int.Cast.Defs
import Mathlib.Algebra.Ring.Basic
import Mathlib.Data.Int.Cast.Basic

namespace Altruct.Sums

variable {T : Type} [CommRing T]

/-- sums.h:26 `t = n * (n - 1) / 2` without a division in `T`. -/
def tri (n : Int) : T :=
  if n.tmod 2 = 1 then ((n : Int) : T) * (((n - 1).tdiv 2 : Int) : T)
  else ((n.tdiv 2 : Int) : T) * ((n - 1 : Int) : T)

/-- sums.h:34 `return (i % 2 == 1) ? -s : s;` -/
def signed (i : Nat) (s : T) : T := if i % 2 = 1 then -s else s

/-- sums.h:27 `s += TT(b / q) * TT(n) + TT(a / q) * t`. -/
def addDivs (a b q n : Int) (s : T) : T :=
  s + (((b.tdiv q : Int) : T) * ((n : Int) : T) + ((a.tdiv q : Int) : T) * tri n)

/-- sums.h:24-34 the loop and the return.  `none` is a division by zero. -/
def ratioLoop (a b q n : Int) (s : T) (i : Nat) : Option T :=
  if 0 < n then
    if h : q = 0 then none
    else if a.tmod q = 0 then some (signed i (addDivs a b q n s))
    else
      let n' := ((a.tmod q) * (n - 1) + b.tmod q).tdiv q
      ratioLoop q (q - 1 - b.tmod q) (a.tmod q) n'
        (-(addDivs a b q n s + ((n' : Int) : T) * ((n - 1 : Int) : T))) (i + 1)
  else some (signed i s)
termination_by q.natAbs
decreasing_by
  have := Int.emod_lt_of_pos a.natAbs (by omega : (0 : Int) < q.natAbs)
  rw [Int.natAbs_tmod]
  exact Nat.mod_lt _ (by omega)

/-- sums.h:15-35 `sum_ratio` with at most `fuel` nested calls. -/
def sumRatioF : Nat → Int → Int → Int → Int → Option T
  | 0, _, _, _, _ => none
  | fuel + 1, a, b, q, n =>
    if n < 1 then some 0
    else if q < 0 then sumRatioF fuel (-a) (-b) (-q) n
    else if a < 0 then (sumRatioF fuel (-a) (q - 1 - b) q n).map (fun s => -s)
    else if b < 0 then
      if q = 0 then none
      else
        let m := (-b).tdiv q + 1
        (sumRatioF fuel a (b + q * m) q n).map
          (fun s => s - ((n : Int) : T) * ((m : Int) : T))
    else ratioLoop a b q n 0 0

/-- sums.h:15-35 `sum_ratio`: at most four nested calls. -/
def sumRatio (a b q n : Int) : Option T := sumRatioF 4 a b q n

/-- sums.h:45-47 `for (I k = b; k >= a; k--) r += f(k)`, `c` steps left. -/
def sumLoop (f : Int → T) : Nat → Int → T → T
  | 0, _, r => r
  | c + 1, k, r => sumLoop f c (k - 1) (r + f k)

/-- sums.h:42-49 `sum`. -/
def sum (f : Int → T) (a b : Int) : T := sumLoop f (b - a + 1).toNat b 0

/-- `for (I k = 1; k <= K; k++) r += t(k)`, `c` steps left: sums.h:124-126, 144-146, 166-168,
188-190, and with `k < q` 127-129 and 191-193. -/
def upLoop (t : Int → T) : Nat → Int → T → T
  | 0, _, r => r
  | c + 1, k, r => upLoop t c (k + 1) (r + t k)

/-- sums.h:119-131 `sum_sqrt`.  `sq` is `sqrtT<I>`; `none` is a division by zero. -/
def sumSqrt (sq : Int → Int) (f : Int → T) (n : Int) : Option T :=
  if n < 1 then some 0
  else if sq n = 0 then none
  else
    let q := sq n
    let r := upLoop (fun k => f (n.tdiv k)) (n.tdiv q).toNat 1 0
    some (upLoop (fun m => f m * ((n.tdiv m - n.tdiv (m + 1) : Int) : T)) (q - 1).toNat 1 r)

/-- sums.h:147-151, 169-173 the loop over `m` of `sum_sqrt2m`, with the previous prefix sum. -/
def loop2m (sf g : Int → T) (n : Int) : Nat → Int → T → T → T
  | 0, _, _, r => r
  | c + 1, m, sf0, r =>
    loop2m sf g n c (m + 1) (sf (n.tdiv (m + 1))) (r + (sf0 - sf (n.tdiv (m + 1))) * g m)

/-- sums.h:138-153 `sum_sqrt2m(sf, g, n)`. -/
def sumSqrt2m (sq : Int → Int) (sf g : Int → T) (n : Int) : Option T :=
  if n < 1 then some 0
  else if sq n = 0 then none
  else
    let q := sq n
    let r := upLoop (fun k => (sf k - sf (k - 1)) * g (n.tdiv k)) (n.tdiv q).toNat 1 0
    some (loop2m sf g n (q - 1).toNat 1 (sf n) r)

/-- sums.h:160-175 `sum_sqrt2m(f, sf, g, n)`. -/
def sumSqrt2mF (sq : Int → Int) (f sf g : Int → T) (n : Int) : Option T :=
  if n < 1 then some 0
  else if sq n = 0 then none
  else
    let q := sq n
    let r := upLoop (fun k => f k * g (n.tdiv k)) (n.tdiv q).toNat 1 0
    some (loop2m sf g n (q - 1).toNat 1 (sf n) r)

/-- sums.h:182-195 `sum_sqrt2`. -/
def sumSqrt2 (sq : Int → Int) (sf : Int → Int → T) (n : Int) : Option T :=
  if n < 1 then some 0
  else if sq n = 0 then none
  else
    let q := sq n
    let r := upLoop (fun k => sf k (n.tdiv k) - sf (k - 1) (n.tdiv k)) (n.tdiv q).toNat 1 0
    some (upLoop (fun m => sf (n.tdiv m) m - sf (n.tdiv (m + 1)) m) (q - 1).toNat 1 r)

end Altruct.Sums
