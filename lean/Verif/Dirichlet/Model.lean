/-
Model of algorithm/math/divisor_sums.h: Dirichlet convolution, division and inverse tables, their
multiplicative variants, Moebius transforms and the sieves and sums built on them.

Tables are vectors with checked access; `f`, `g` are total functions of the index.  `lim` is the largest
value of `int`: exceeding it is an overflow (`none`).  `castOf`, `zeroOf` and `identityOf` are the
conversions, zero and one of a commutative ring `α`; the element `h[0]` they are called with is read.
-/
import Verif.Common.Vec
import Verif.Common.Loop
import Verif.Polynom.Model

namespace Altruct.Dirichlet

open Altruct.Polynom (Quo cdiv)

variable {α : Type} [CommRing α]

/-- divisor_sums.h:75-77, 96-98 and others: `for (int i = a; i < n; i++) h[i] = x(i);`. -/
def fill (h : List α) (x : Nat → α) (a n : Nat) : Option (List α) :=
  forUp (fun i h => wr h i (x i)) a n h

/-- divisor_sums.h:80 `h[i] += f(d) * g(e);`. -/
def convBody (f g : Nat → α) (d e i : Nat) (h : List α) : Option (List α) := do
  let x ← rd h i
  wr h i (x + f d * g e)

/-- divisor_sums.h:73-83 `dirichlet_convolution`. -/
def convolution (lim : Nat) (h : List α) (f g : Nat → α) (n : Nat) : Option (List α) := do
  let _ ← rd h 0
  let h ← fill h (fun _ => 0) 0 n
  forUp (fun d h => forStep lim (convBody f g d) n d n 1 d h) 1 n h

/-- divisor_sums.h:112 `h[i] -= g(j) * h[d];`. -/
def divBody (g : Nat → α) (d j i : Nat) (h : List α) : Option (List α) := do
  let x ← rd h i
  let y ← rd h d
  wr h i (x - g j * y)

/-- `h[d] *= y;` -/
def mulAt (h : List α) (d : Nat) (y : α) : Option (List α) := do
  let x ← rd h d
  wr h d (x * y)

/-- `h[d] += h[e];` -/
def addAt (h : List α) (d e : Nat) : Option (List α) := do
  let x ← rd h d
  let y ← rd h e
  wr h d (x + y)

/-- divisor_sums.h:101-115 `dirichlet_division`. -/
def division [DecidableEq α] [Quo α] (lim : Nat) (h : List α) (f g : Nat → α) (n : Nat) : Option (List α) := do
  let _ ← rd h 0
  let ig1 ← cdiv 1 (g 1)
  let h ← fill h f 1 n
  forUp (fun d h => do
    let h ← mulAt h d ig1
    if lim < d * 2 then none else
    forStep lim (divBody g d) n d n 2 (d * 2) h) 1 n h

/-- divisor_sums.h:133 the Dirichlet identity `e`. -/
def unit (n : Nat) : α := if n = 1 then 1 else 0

/-- divisor_sums.h:131-135 `dirichlet_inverse`. -/
def inverse [DecidableEq α] [Quo α] (lim : Nat) (h : List α) (f : Nat → α) (n : Nat) : Option (List α) := do
  let _ ← rd h 0
  division lim h unit f n

/-! ### multiplicative functions -/

/-- divisor_sums.h:151 `if (l % p != 0) f[m] *= f[q];`. -/
def multBody (p q l m : Nat) (f : List α) : Option (List α) :=
  if l % p ≠ 0 then do
    let x ← rd f m
    let y ← rd f q
    wr f m (x * y)
  else some f

/-- divisor_sums.h:149-153 the loop over the powers of `p`; `fuel` bounds the number of rounds. -/
def powersLoop (lim n p : Nat) : Nat → Nat → List α → Option (List α)
  | fuel, qq, f =>
    if qq < n then match fuel with
      | 0 => none
      | fuel + 1 =>
        if lim < 2 * qq then none else do
        let f ← forStep lim (multBody p qq) n qq n 2 (2 * qq) f
        powersLoop lim n p fuel (qq * p) f
    else some f

/-- The loop `for (int i = 0; i < m && pa[i] < n; i++)` on `pa[i]`; `m - i` rounds remain at most. -/
def primesLoop (pa : List Nat) (n : Nat) (body : Nat → List α → Option (List α)) : Nat → Nat → List α → Option (List α)
  | 0, _, h => some h
  | cnt + 1, i, h => do
    let p ← rd pa i
    if p < n then do
      let h ← body p h
      primesLoop pa n body cnt (i + 1) h
    else some h

/-- divisor_sums.h:147-155 `calc_multiplicative`. -/
def calcMultiplicative (lim : Nat) (f : List α) (n : Nat) (pa : List Nat) (m : Nat) : Option (List α) :=
  primesLoop pa n (fun p f => powersLoop lim n p n p f) m 0 f

/-- divisor_sums.h:181-186 the powers of `p` below `n`, in an array of 32 elements; `fuel` bounds the
number of rounds. -/
def powersOf (n p : Nat) : Nat → Nat → List Nat → Option (List Nat)
  | fuel, qq, q =>
    if qq < n then match fuel with
      | 0 => none
      | fuel + 1 => if q.length < 32 then powersOf n p fuel (qq * p) (q ++ [qq]) else none
    else some q

/-- divisor_sums.h:188-191 the inner sum of `dirichlet_convolution_multiplicative` (`fq`, `gq` are the
values of `f` and `g` at the elements of `q`). -/
def convAt (f g : Nat → α) (q : List Nat) (k : Nat) : Option α :=
  forUp (fun j s => do
    let x ← rd q (k - j)
    let y ← rd q j
    some (s + f x * g y)) 0 (k + 1) 0

/-- divisor_sums.h:175-197 `dirichlet_convolution_multiplicative`. -/
def convolutionMultiplicative (lim : Nat) (h : List α) (f g : Nat → α) (n : Nat) (pa : List Nat) (m : Nat) : Option (List α) := do
  let _ ← rd h 0
  let h ← fill h (fun _ => 1) 1 n
  let h ← primesLoop pa n (fun p h => do
    let q ← powersOf n p n 1 []
    forUp (fun k h => do
      let s ← convAt f g q k
      let qk ← rd q k
      wr h qk s) 0 q.length h) m 0 h
  calcMultiplicative lim h n pa m

/-- divisor_sums.h:227-231 the values `hq`: `hq[k] = f(q[k]) - Sum[gq[k-j] hq[j], {j, 0, k-1}]`. -/
def quotAt (f g : Nat → α) (q : List Nat) (hq : List α) (k : Nat) : Option α := do
  let qk ← rd q k
  forUp (fun j s => do
    let x ← rd q (k - j)
    let y ← rd hq j
    some (s - g x * y)) 0 k (f qk)

/-- divisor_sums.h:215-237 `dirichlet_division_multiplicative`; the array `hq` holds what was computed so
far. -/
def divisionMultiplicative (lim : Nat) (h : List α) (f g : Nat → α) (n : Nat) (pa : List Nat) (m : Nat) : Option (List α) := do
  let _ ← rd h 0
  let h ← fill h (fun _ => 1) 1 n
  let h ← primesLoop pa n (fun p h => do
    let q ← powersOf n p n 1 []
    let (h, _) ← forUp (fun k (s : List α × List α) => do
      let x ← quotAt f g q s.2 k
      let qk ← rd q k
      let h ← wr s.1 qk x
      some (h, s.2 ++ [x])) 1 q.length (h, [1])
    some h) m 0 h
  calcMultiplicative lim h n pa m

/-- divisor_sums.h:254-259 `dirichlet_inverse_multiplicative`. -/
def inverseMultiplicative (lim : Nat) (h : List α) (f : Nat → α) (n : Nat) (pa : List Nat) (m : Nat) : Option (List α) := do
  let _ ← rd h 0
  divisionMultiplicative lim h unit f n pa m

/-! ### completely multiplicative functions -/

/-- divisor_sums.h:270-276 `calc_completely_multiplicative`. -/
def calcCompletely (f : List α) (n : Nat) (pf : List Nat) : Option (List α) :=
  forUp (fun i f => do
    let p ← rd pf i
    if p ≠ i then
      if p = 0 then none else do
      let x ← rd f (i / p)
      let y ← rd f p
      wr f i (x * y)
    else some f) 2 n f

/-- divisor_sums.h:305-307, 339-341 the loop over the primes in `pf`. -/
def primesFill (h : List α) (x : Nat → α) (n : Nat) (pf : List Nat) : Option (List α) :=
  forUp (fun p h => do
    let q ← rd pf p
    if q = p then wr h p (x p) else some h) 2 n h

/-- divisor_sums.h:298-309 `dirichlet_convolution_completely_multiplicative`. -/
def convolutionCompletely (h : List α) (f g : Nat → α) (n : Nat) (pf : List Nat) : Option (List α) := do
  let _ ← rd h 0
  let h ← fill h (fun _ => 1) 1 n
  let h ← primesFill h (fun p => f p * g 1 + g p * f 1) n pf
  calcCompletely h n pf

/-- divisor_sums.h:333-343 `dirichlet_division_completely_multiplicative`. -/
def divisionCompletely (h : List α) (f g : Nat → α) (n : Nat) (pf : List Nat) : Option (List α) := do
  let _ ← rd h 0
  let h ← fill h (fun _ => 1) 1 n
  let h ← primesFill h (fun p => f p - g p) n pf
  calcCompletely h n pf

/-- divisor_sums.h:364-369 `dirichlet_inverse_completely_multiplicative`. -/
def inverseCompletely (h : List α) (f : Nat → α) (n : Nat) (pf : List Nat) : Option (List α) := do
  let _ ← rd h 0
  divisionCompletely h unit f n pf

/-! ### Moebius transforms -/

/-- divisor_sums.h:380-384 `moebius_transform`. -/
def moebiusTransform [DecidableEq α] [Quo α] (lim : Nat) (g : List α) (f : Nat → α) (n : Nat) : Option (List α) := do
  let _ ← rd g 0
  division lim g f (fun _ => 1) n

/-- divisor_sums.h:397-401 `moebius_transform_multiplicative`. -/
def moebiusTransformMultiplicative (lim : Nat) (g : List α) (f : Nat → α) (n : Nat) (pa : List Nat) (m : Nat) : Option (List α) := do
  let _ ← rd g 0
  divisionMultiplicative lim g f (fun _ => 1) n pa m

/-- divisor_sums.h:414-418 `moebius_transform_completely_multiplicative`. -/
def moebiusTransformCompletely (g : List α) (f : Nat → α) (n : Nat) (pf : List Nat) : Option (List α) := do
  let _ ← rd g 0
  divisionCompletely g f (fun _ => 1) n pf

/-! ### sieves of partial sums -/

/-- divisor_sums.h:442, `for (int i = 1; i < n; i++) M[i] += M[i - 1];`. -/
def prefixSums (M : List α) (n : Nat) : Option (List α) := forUp (fun i M => addAt M i (i - 1)) 1 n M

/-- divisor_sums.h:440-444 `sieve_m_multiplicative_inv`. -/
def sieveMMultiplicativeInv (lim : Nat) (M : List α) (t pinv : Nat → α) (n : Nat) (pa : List Nat) (m : Nat) : Option (List α) := do
  let M ← convolutionMultiplicative lim M pinv (fun i => if i = 1 then t i else t i - t (i - 1)) n pa m
  prefixSums M n

/-- divisor_sums.h:446-451 `sieve_m_multiplicative`; the values of the table of inverses are read within
its bounds (`0` elsewhere). -/
def sieveMMultiplicative (lim : Nat) (M : List α) (t p : Nat → α) (n : Nat) (pa : List Nat) (m : Nat) : Option (List α) := do
  let pinv ← inverseMultiplicative lim M p n pa m
  sieveMMultiplicativeInv lim M t (fun i => pinv.getD i 0) n pa m

/-- divisor_sums.h:490-504 `sieve_m` with `p`. -/
def sieveM [DecidableEq α] [Quo α] (lim : Nat) (M : List α) (t p : Nat → α) (n : Nat) : Option (List α) := do
  let _ ← rd M 0
  let ip1 ← cdiv 1 (p 1)
  let M ← wr M 1 (t 1)
  let M ← fill M (fun i => t i - t (i - 1)) 2 n
  forUp (fun d M => do
    let M ← mulAt M d ip1
    if lim < d * 2 then none else do
    let M ← forStep lim (divBody p d) n d n 2 (d * 2) M
    if 1 < d then addAt M d (d - 1) else some M) 1 n M

/-- divisor_sums.h:522-535 `sieve_m` without `p`. -/
def sieveM1 (lim : Nat) (M : List α) (t : Nat → α) (n : Nat) : Option (List α) := do
  let _ ← rd M 0
  let M ← wr M 1 (t 1)
  let M ← fill M (fun i => t i - t (i - 1)) 2 n
  forUp (fun d M => do
    if lim < d * 2 then none else do
    let M ← forStep lim (fun _ i M => do
      let x ← rd M i
      let y ← rd M d
      wr M i (x - y)) n d n 2 (d * 2) M
    if 1 < d then addAt M d (d - 1) else some M) 1 n M

end Altruct.Dirichlet
