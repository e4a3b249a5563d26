/-
Model of algorithm/math/factorization.h:23-158: Miller-Rabin, Pollard's rho and `factor_integer`, for
the unsigned integer type of `w` bits.

`moduloX<T>` values are those of modulo.h as modelled in `Verif.Modulo.Model`.
-/
import Verif.Modulo.Model
import Verif.Common.Vec

namespace Altruct.Factorization

open Altruct.Modulo

/-- factorization.h:30 `while (d % 2 == 0) d /= 2, r++;`; `fuel` bounds the number of rounds. -/
def twos : Nat → Nat → Nat → Option (Nat × Nat)
  | fuel, d, r =>
    if d % 2 = 0 then match fuel with
      | 0 => none
      | fuel + 1 => twos fuel (d / 2) (r + 1)
    else some (d, r)

/-- factorization.h:34-37 the loop that squares; `k` iterations remain. -/
def squares (w n : Nat) : Nat → Nat → Nat
  | 0, x => x
  | k + 1, x =>
    let x := mulU w x x n
    if x = 1 ∨ x = n - 1 then x else squares w n k x

/-- factorization.h:31-39 the loop over the null-terminated array of bases; `none` when there is no
terminator. -/
def basesLoop (w n d r : Nat) : List Nat → Option Bool
  | [] => none
  | b :: bs =>
    if b ≠ 0 ∧ b < n then
      let x := powMod w n (normU b n) (d : Int)
      if x = 1 ∨ x = n - 1 then basesLoop w n d r bs
      else if squares w n (r - 1) x ≠ n - 1 then some false
      else basesLoop w n d r bs
    else some true

/-- factorization.h:23-41 `miller_rabin(n, bases)`. -/
def millerRabin (w n : Nat) (bases : List Nat) : Option Bool :=
  if n = 0 ∨ n = 1 then some false
  else if n = 2 ∨ n = 3 then some true
  else if n % 2 = 0 then some false
  else do
    let (d, r) ← twos n (n - 1) 0
    basesLoop w n d r bases

/-- factorization.h:49-71 `miller_rabin(n)`: the choice of the bases. -/
def autoBases (n : Nat) : List Nat :=
  if n < 2047 then [2, 0]
  else if n < 9080191 then [31, 73, 0]
  else if n < 4759123141 then [2, 7, 61, 0]
  else if n < 1122004669633 then [2, 13, 23, 1662803, 0]
  else if n < 341550071728321 then [2, 3, 5, 7, 11, 13, 17, 0]
  else [2, 3, 5, 7, 11, 13, 17, 19, 23, 0]

/-- factorization.h:49-71 `miller_rabin(n)`. -/
def millerRabinAuto (w n : Nat) : Option Bool := millerRabin w n (autoBases n)

/-- factorization.h:97 `g(x) = x*x + a`; `a` is converted to `moduloX<I>` without reducing it
(modulo.h:205). -/
def rhoStep (w n a x : Nat) : Nat := addU w (mulU w x x n) a n

/-- factorization.h:99-103 the loop of `pollard_rho`; `iter` is `max_inner_iter`. -/
def rhoLoop (w n a : Nat) : Nat → Nat → Nat → Nat → Nat
  | iter, x, y, d =>
    if d = 1 then match iter with
      | 0 => d
      | iter + 1 =>
        let x := rhoStep w n a x
        let y := rhoStep w n a (rhoStep w n a y)
        rhoLoop w n a iter x y (gcdU (subU w x y n) n)
    else d

/-- factorization.h:92-106 `pollard_rho`. -/
def pollardRho (w n k a iter : Nat) : Nat :=
  if n = 0 then 0
  else if n = 1 then 1
  else if n % 2 = 0 then 2
  else
    let d := rhoLoop w n a iter (normU k n) (normU k n) 1
    if d = 1 then n else d

/-- factorization.h:116-119 the loop of `pollard_rho_repeated`; `t` iterations remain. -/
def rhoRepLoop (w n iter : Nat) : Nat → Nat → Nat
  | 0, _ => n
  | t + 1, k =>
    let d := pollardRho w n k k iter
    if d ≠ n then d else rhoRepLoop w n iter t (k + 1)

/-- factorization.h:114-121 `pollard_rho_repeated`: `k` from 2 to `max_iter`. -/
def pollardRhoRepeated (w n maxIter iter : Nat) : Nat := rhoRepLoop w n iter (maxIter - 1) 2

/-- factorization.h:140 `while (b % a == 0) b /= a, e++;`; `fuel` bounds the number of rounds. -/
def divideOut (a : Nat) : Nat → Nat → Nat → Option (Nat × Nat)
  | fuel, b, e =>
    if b % a = 0 then match fuel with
      | 0 => none
      | fuel + 1 => divideOut a fuel (b / a) (e + 1)
    else some (b, e)

/-- factorization.h:139-141 the loop over the queue. -/
def divideAll (a : Nat) : List Nat → Nat → Option (List Nat × Nat)
  | [], e => some ([], e)
  | b :: bs, e => do
    let (b, e) ← divideOut a b b e
    let (bs, e) ← divideAll a bs e
    some (b :: bs, e)

/-- factorization.h:131-156 the loop of `factor_integer`: `q` is the queue, its back first (the loop
over the queue may run in any order); `fuel` bounds the number of rounds. -/
def factorLoop (w maxIter iter : Nat) : Nat → List Nat → List (Nat × Nat) → Option (List (Nat × Nat))
  | _, [], vf => some vf
  | 0, _ :: _, _ => none
  | fuel + 1, a :: q, vf =>
    if a = 1 then factorLoop w maxIter iter fuel q vf
    else do
      let pr ← millerRabinAuto w a
      if pr then do
        let (q, e) ← divideAll a q 1
        factorLoop w maxIter iter fuel q (vf ++ [(a, e)])
      else
        let d := pollardRhoRepeated w a maxIter iter
        if d = 1 ∨ d = a then factorLoop w maxIter iter fuel q (vf ++ [(a, 1)])
        else factorLoop w maxIter iter fuel (a / d :: d :: q) vf

/-- factorization.h:126-158 `factor_integer`; `iter` is the default `max_inner_iter` of
`pollard_rho_repeated`. -/
def factorInteger (w n maxIter iter : Nat) : Option (List (Nat × Nat)) :=
  if n = 0 ∨ n = 1 then some []
  else factorLoop w maxIter iter (2 * n) [n] []

end Altruct.Factorization
