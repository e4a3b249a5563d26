/-
Model of `include/altruct/algorithm/math/comb_primes.h` and `include/altruct/algorithm/math/counting.h`.

The result type `T` is a ring with the `operator /` of `Polynom.Quo`; a division by zero is `none`.  Sizes and indices are
not negative and do not overflow; the integers of `comb_primes.h` are natural numbers.
-/
import Verif.Polynom.Model
import Verif.Series.Model
import Verif.Ranges.Model
import Verif.Base.Model
import Verif.Common.Loop

namespace Altruct.Counting

open Altruct.Polynom (Quo cdiv)

/-- comb_primes.h:16 the loop of `factorial_prime_exponent`; `none` is a division by zero or, when `fuel` is used up, no
termination. -/
def fpeLoop (p : Nat) : Nat → Nat → Nat → Option Nat
  | 0, _, _ => none
  | fuel + 1, n, e =>
    if p = 0 then none
    else if 0 < n / p then fpeLoop p fuel (n / p) (e + n / p) else some e

/-- comb_primes.h:13-18 `factorial_prime_exponent`. -/
def factorialPrimeExponent (n p : Nat) : Option Nat := fpeLoop p (n + 2) n 0

/-- comb_primes.h:23-26 `binomial_prime_exponent`; `k` is at most `n`. -/
def binomialPrimeExponent (n k p : Nat) : Option Int := do
  let a ← factorialPrimeExponent n p
  let b ← factorialPrimeExponent (n - k) p
  let c ← factorialPrimeExponent k p
  some ((a : Int) - b - c)

/-- comb_primes.h:35-38 the loop of `multinomial_prime_exponent`. -/
def mpeLoop (p : Nat) : List Nat → Nat → Nat → Option (Nat × Nat)
  | [], e, n => some (e, n)
  | k :: ks, e, n => do
    let a ← factorialPrimeExponent k p
    mpeLoop p ks (e + a) (n + k)

/-- comb_primes.h:31-40 (and 45-48) `multinomial_prime_exponent`. -/
def multinomialPrimeExponent (ks : List Nat) (p : Nat) : Option Int := do
  let (e, n) ← mpeLoop p ks 0 0
  let a ← factorialPrimeExponent n p
  some ((a : Int) - e)

section Ring
variable {α : Type} [CommRing α] [DecidableEq α] [Quo α]

/-- comb_primes.h:61-64 the inner loop of `multinomial`; `c` rounds remain. -/
def multInner : Nat → α → α → α → α → α × α × α × α
  | 0, n, num, d, den => (n, num, d, den)
  | c + 1, n, num, d, den => multInner c (n + 1) (num * (n + 1)) (d + 1) (den * (d + 1))

/-- comb_primes.h:59-65 the loop of `multinomial`. -/
def multLoop : List Nat → α → α → α → α × α
  | [], _, num, den => (num, den)
  | k :: ks, n, num, den =>
    let (n, num, _, den) := multInner k n num 0 den
    multLoop ks n num den

/-- comb_primes.h:55-67 (and 72-75) `multinomial`. -/
def multinomial (ks : List Nat) : Option α :=
  let (num, den) := multLoop ks (0 : α) 1 1
  cdiv num den

/-- comb_primes.h:90-95 the loop of `elements_multinomial`; `prev` is the element before. -/
def elemLoop {β : Type} [DecidableEq β] : β → List β → α → α → α → α → α × α
  | _, [], _, _, f, d => (f, d)
  | prev, x :: l, n, len, f, d =>
    let n := n + 1
    let len := if prev = x then len + 1 else 1
    elemLoop x l n len (f * n) (d * len)

/-- comb_primes.h:85-97 (and 102-105) `elements_multinomial`. -/
def elementsMultinomial {β : Type} [DecidableEq β] (l : List β) : Option α :=
  match l with
  | [] => some 1
  | x :: l =>
    let (f, d) := elemLoop x l (1 : α) 1 1 1
    cdiv f d

/-- counting.h:20-22 the loop of `factorial`; `c` rounds remain. -/
def facLoop : Nat → Nat → α → α
  | 0, _, f => f
  | c + 1, i, f => facLoop c (i + 1) (f * ((i : Nat) : α))

/-- counting.h:17-24 `factorial`. -/
def factorial (n : Nat) : α := facLoop (n - 1) 2 1

/-- counting.h:37-39, 103-105 the body of the inner loop of the tables: `upd` is the new entry. -/
def rowStep (upd : Nat → Nat → α → α → α) (i : Nat) (prev : List α) (j : Nat) (row : List α) : Option (List α) := do
  let a ← rd prev (j - 1)
  let b ← rd prev j
  wr row j (upd i j a b)

/-- counting.h:36-40, 102-106 the body of the outer loop of the tables: one new row. -/
def tabStep (upd : Nat → Nat → α → α → α) (k : Nat) (i : Nat) (s : List (List α)) : Option (List (List α)) := do
  let row := List.replicate (min (i + 1) k) (0 : α)
  let row ← forUp (fun j row => do
    let prev ← rd s (i - 1)
    rowStep upd i prev j row) 1 (min i k) row
  let row ← (if i < k then wr row i 1 else some row)
  wr s i row

/-- counting.h:31-43 `stirling_s1_all`. -/
def stirlingS1All (n k : Nat) : Option (List (List α)) :=
  forUp (tabStep (fun i _ a b => a - b * (((i : Int) - 1 : Int) : α)) k) 0 n (List.replicate n [])

/-- counting.h:97-109 `stirling_s2_all`. -/
def stirlingS2All (n k : Nat) : Option (List (List α)) :=
  forUp (tabStep (fun _ j a b => a + b * ((j : Nat) : α)) k) 0 n (List.replicate n [])

/-- counting.h:50-57 `stirling_s1_all_n_for_k`. -/
def stirlingS1AllNForK (thr n k : Nat) : Option (List α) := do
  let s : Series.Ser α := (Series.mk [1, 1] 2).resize n
  let l ← Series.ln thr s 0
  let w ← Series.pow thr 3 l (k : Int) 200
  let e ← Series.divScalar w (factorial k)
  some (Polynom.resize (Series.makeOrdinary e).p n)

/-- counting.h:71-74 the inner loop of `stirling_s1_all_k_for_n`; `fuel` bounds the number of rounds. -/
def treeInner (thr n l : Nat) : Nat → Nat → List (List α) → Option (List (List α))
  | 0, _, _ => none
  | fuel + 1, i, vp =>
    if i + l < n then do
      let a ← rd vp i
      let b ← rd vp (i + l)
      let c ← Polynom.times thr a b
      let vp ← wr vp i c
      let vp ← wr vp (i + l) []
      treeInner thr n l fuel (i + l * 2) vp
    else some vp

/-- counting.h:70-75 the outer loop of `stirling_s1_all_k_for_n`; `fuel` bounds the number of rounds. -/
def treeOuter (thr n : Nat) : Nat → Nat → List (List α) → Option (List (List α))
  | 0, _, _ => none
  | fuel + 1, l, vp =>
    if l < n then do
      let vp ← treeInner thr n l (n + 1) 0 vp
      treeOuter thr n fuel (l * 2) vp
    else some vp

/-- counting.h:64-77 `stirling_s1_all_k_for_n`. -/
def stirlingS1AllKForN (thr n : Nat) : Option (List α) :=
  if n = 0 then some [1]
  else do
    let vp : List (List α) := (List.range n).map (fun i => [-1 * ((i : Nat) : α), 1])
    let vp ← treeOuter thr n (n + 1) 1 vp
    rd vp 0

/-- counting.h:84-90 `stirling_s1`. -/
def stirlingS1 (thr n k : Nat) : Option α :=
  if k = n then some 1
  else if k = 0 ∨ n < k then some 0
  else do
    let v ← stirlingS1AllNForK thr (n + 1) k
    rd v n

/-- counting.h:116-123 `stirling_s2_all_n_for_k`. -/
def stirlingS2AllNForK (thr n k : Nat) : Option (List α) := do
  let x ← Series.expOf (1 : α) n
  let w ← Series.pow thr 3 (Series.sub x (Series.mk [1] 1)) (k : Int) 200
  let e ← Series.divScalar w (factorial k)
  some (Polynom.resize (Series.makeOrdinary e).p n)

/-- counting.h:130-137 `stirling_s2_all_k_for_n`. -/
def stirlingS2AllKForN (thr n : Nat) : Option (List α) := do
  let v := Ranges.power (n : Int) (Ranges.range (1 : α) (List.replicate (n + 1) 1))
  let x ← Series.expOf (-1 : α) (n + 1)
  let y ← Series.makeExponential (Series.mk v (n + 1))
  let r ← Series.mul thr x y
  some (Polynom.resize r.p (n + 1))

/-- counting.h:150-155 the loop of `stirling_s2`; `c` rounds remain. -/
def s2Loop (n k : Nat) : Nat → Nat → α → α → α → Option (α × α)
  | 0, _, _, f, r => some (f, r)
  | c + 1, j, b, f, r => do
    let b ← cdiv (b * (((k : Int) + 1 - j : Int) : α)) ((j : Nat) : α)
    let f := f * ((j : Nat) : α)
    let t := b * Base.powT (1 * ((j : Nat) : α)) n
    let r := r + (if ((k : Int) - j).tmod 2 = 1 then -t else t)
    s2Loop n k c (j + 1) b f r

/-- counting.h:144-157 `stirling_s2`. -/
def stirlingS2 (n k : Nat) : Option α :=
  if k = n then some 1
  else if k = 0 ∨ n < k then some 0
  else do
    let (f, r) ← s2Loop n k k 1 (1 : α) 1 0
    cdiv r f

/-- counting.h:172-174, 175-177 the loops of `euler_function`; `ev` is the value stored for an even `k`, `od` for an odd one;
`fuel` bounds the number of rounds. -/
def eulerLoop (n : Nat) (ev od : α) : Nat → Nat → Nat → List α → Option (List α)
  | 0, _, _, _ => none
  | fuel + 1, k, m, e =>
    if m < n then do
      let e ← wr e m (if k % 2 = 0 then ev else od)
      eulerLoop n ev od fuel (k + 3) (m + k) e
    else some e

/-- counting.h:166-179 `euler_function`. -/
def eulerFunction (n : Nat) : Option (List α) := do
  let e ← wr (List.replicate n (0 : α)) 0 1
  let e ← eulerLoop n (-1) 1 (n + 1) 4 1 e
  eulerLoop n 1 (-1) (n + 1) 5 2 e

/-- counting.h:196-198, 199-201 (`step` 3, `md` 2) and 219-221, 222-224 (`step` 6, `md` 4): the inner loops of the partition
recurrences; `pos` says whether the term is added when `md` divides `k`; `fuel` bounds the number of rounds. -/
def pentLoop (i step md : Nat) (pos : Bool) : Nat → Nat → Nat → List α → Option (List α)
  | 0, _, _, _ => none
  | fuel + 1, k, m, p =>
    if m ≤ i then do
      let a ← rd p (i - m)
      let x ← rd p i
      let p ← wr p i (x + (if decide (k % md = 0) = pos then a else -a))
      pentLoop i step md pos fuel (k + step) (m + k) p
    else some p

/-- counting.h:189-204 `partitions_p_slow`. -/
def partitionsSlow (n : Nat) : Option (List α) := do
  let p ← wr (List.replicate n (0 : α)) 0 1
  forUp (fun i p => do
    let p ← pentLoop i 3 2 true (i + 1) 4 1 p
    pentLoop i 3 2 false (i + 1) 5 2 p) 1 n p

/-- counting.h:218-225 the loop of `partitions_p_distinct_slow`: indices `i - 1, ..., 0` remain. -/
def distinctLoop : Nat → List α → Option (List α)
  | 0, q => some q
  | i + 1, q => do
    let q ← pentLoop i 6 4 false (i + 1) 8 2 q
    let q ← pentLoop i 6 4 true (i + 1) 10 4 q
    distinctLoop i q

/-- counting.h:214-227 `partitions_p_distinct_slow`. -/
def partitionsDistinctSlow (n : Nat) : Option (List α) := do
  let q ← partitionsSlow n
  distinctLoop n q

/-- counting.h:236-240 `partitions_p`. -/
def partitions (thr n : Nat) : Option (List α) := do
  let e ← eulerFunction n
  let r ← Series.inverse thr (Series.mk e e.length)
  some r.p

/-- counting.h:249-253 `partitions_p_distinct`. -/
def partitionsDistinct (thr n : Nat) : Option (List α) := do
  let e ← eulerFunction n
  let e := Series.mk e e.length
  let a ← Series.subPow e 2
  let r ← Series.div thr a e
  some r.p

/-- counting.h:262-266 `partitions_p_distinct_odd`. -/
def partitionsDistinctOdd (thr n : Nat) : Option (List α) := do
  let e ← eulerFunction n
  let e := Series.mk e e.length
  let b ← Series.subPow e 2
  let r ← Series.div thr (Series.subMul e (-1)) b
  some r.p

end Ring

end Altruct.Counting
