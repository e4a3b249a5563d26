/-
Model of the rest of `modulos.h` (orders, primitive roots, k-th roots, discrete logarithms, square
roots modulo a number, Garner's algorithm) and of the functions of a factorization in `primes.h`.

The integer type `I` is the mathematical integers (no overflow).  A `moduloX<I>(v, m)` is represented
by the residue class of `v` in `ZMod m`; that the class implements this arithmetic is C06, C07 and
C08.  `std::set`, `std::unordered_set` and `std::unordered_map` are finite sets and association lists;
the order in which the unordered containers are traversed is not modelled.
-/
import Verif.Base.Model
import Verif.Common.Vec
import Verif.Quadratic.Model
import Verif.Modulo.Model
import Mathlib.Data.ZMod.Basic

namespace Altruct.NumTheory

open Altruct.Base (powT gcdEx)

/-! ### modular arithmetic on plain integers -/

/-- modulo.h:96-103 `modulo_gcd_ex_int`: `(g, ni1, ni2)`. -/
def gcdExM (n1 n2 : Int) : Int × Int × Int :=
  let r := gcdEx n1 n2
  let ni1 := if r.2.2.2 % 2 = 1 ∧ r.2.1 ≠ 0 then r.2.1 + n2 else r.2.1
  let ni2 := if r.2.2.2 % 2 = 0 ∧ r.2.2.1 ≠ 0 then r.2.2.1 + n1 else r.2.2.1
  (r.1, ni1, ni2)

/-- modulo.h:107-112 `modulo_inv_int`. -/
def invM (v M : Int) : Int :=
  let r := gcdEx M v
  let vi := if r.2.2.2 % 2 = 0 ∧ r.2.2.1 ≠ 0 then r.2.2.1 + M else r.2.2.1
  if r.1 = 1 then vi else 0

/-- modulo.h:81-94 `modulo_mul` for normalised operands (exact by C06). -/
def mulM (x y M : Int) : Int := (x * y).tmod M

/-- modulo.h:55-59 `modulo_add_int`. -/
def addM (x y M : Int) : Int :=
  let r := x + y
  if ¬ r < 0 ∧ r < M then r else r - M

/-- modulo.h:69 `modulo_neg_int`. -/
def negM (v M : Int) : Int := if v = 0 then v else M - v

/-- modulo.h:116-123 `modulo_div_int`. -/
def divM (x y M : Int) : Int :=
  if y ≠ 0 ∧ x.tmod y = 0 then x.tdiv y
  else
    let yi := invM y M
    if yi ≠ 0 then mulM x yi M
    else
      let g := Base.gcd (Base.gcd x y) M
      mulM (x.tdiv g) (invM (y.tdiv g) (M.tdiv g)) M

/-- modulo.h:283-285 `modulo_power(x, y, M)`; the representative of the power in `Z/M`. -/
def powM (x y M : Int) : Int := ((powT (x : ZMod M.toNat) y).val : Int)

/-- modulos.h:27-36 `chinese_remainder(&a, &n, a1, n1, a2, n2)`: `(a, n)`. -/
def crt (a1 n1 a2 n2 : Int) : Int × Int :=
  let (g, ni1, ni2) := gcdExM n1 n2
  if (a2 - a1).tmod g ≠ 0 then (0, 0) else
    let t1 := mulM a1 ni2 n1
    let t2 := mulM a2 ni1 n2
    let n1 := n1.tdiv g
    let n2 := n2.tdiv g
    let n := n1 * n2 * g
    (addM (mulM t1 n2 n) (mulM t2 n1 n) n, n)

/-! ### functions of a factorization -/

/-- primes.h:306-313 `prime_factors(vf)`. -/
def primeFactors (vf : List (Int × Nat)) : List Int := vf.map Prod.fst

/-- primes.h:321-328 `prime_exponents(vf)`. -/
def primeExponents (vf : List (Int × Nat)) : List Nat := vf.map Prod.snd

/-- primes.h:334-340 `divisor_sigma0(vf)`. -/
def divisorSigma0 (vf : List (Int × Nat)) : Int := vf.foldl (fun r f => r * ((f.2 : Int) + 1)) 1

/-- primes.h:346-352 `euler_phi(vf)`. -/
def eulerPhi (vf : List (Int × Nat)) : Int :=
  vf.foldl (fun r f => r * (powT f.1 ((f.2 : Int) - 1) * (f.1 - 1))) 1

/-- primes.h:358-365 `carmichael_lambda(vf)`; `none` is the division by zero in `lcm`. -/
def carmichaelLambda (vf : List (Int × Nat)) : Option Int :=
  vf.foldlM (fun r f =>
    let e : Int := if f.1 = 2 ∧ f.2 > 2 then (f.2 : Int) - 1 else f.2
    Base.lcm r (powT f.1 (e - 1) * (f.1 - 1))) 1

/-- primes.h:293-298 `squarefree_signed_divisors(vd, vf, d, i)`; the list `vf` is the part from `i` on,
and the result is what is appended to `vd`. -/
def squarefreeSignedDivisors : List (Int × Nat) → Int → List Int
  | [], d => [d]
  | f :: vf, d => squarefreeSignedDivisors vf d ++ squarefreeSignedDivisors vf (d * -f.1)

/-! ### multiplicative order -/

section group
variable {G : Type} [Monoid G] [DecidableEq G]

/-- modulos.h:231 `while (k % p == 0 && powT(a, I(k / p)) == id) k /= p;`; `none` is a division by zero or
a loop that does not end within `fuel` iterations. -/
def ordLoop (a : G) (p : Int) : Nat → Int → Option Int
  | 0, _ => none
  | fuel + 1, k =>
    if p = 0 then none
    else if k.tmod p = 0 ∧ powT a (k.tdiv p) = 1 then ordLoop a p fuel (k.tdiv p)
    else some k

/-- modulos.h:230-232 the loop over the prime factors. -/
def orderLoop (a : G) : List Int → Int → Option Int
  | [], k => some k
  | p :: ps, k => do
    let k ← ordLoop a p (k.toNat + 1) k
    orderLoop a ps k

/-- modulos.h:227-234 `multiplicative_order_g(a, n, n_factors)`. -/
def multiplicativeOrderG (a : G) (n : Int) (nFactors : List Int) : Option Int := orderLoop a nFactors n

end group

/-- modulos.h:245-248 `multiplicative_order(a, m, phi, phi_factors)`. -/
def multiplicativeOrder (a : Int) (m : Nat) (phi : Int) (phiFactors : List Int) : Option Int :=
  multiplicativeOrderG (a : ZMod m) phi phiFactors

/-! ### primitive roots -/

/-- modulos.h:268-271 the test of one candidate; `none` is a division by zero. -/
def primTest (m : Nat) (phi g : Int) : List Int → Bool → Option Bool
  | [], primitive => some primitive
  | p :: ps, primitive =>
    if p = 0 then none
    else primTest m phi g ps (primitive && decide (powT (g : ZMod m) (phi.tdiv p) ≠ 1))

/-- modulos.h:266-274 the loop over `g`; the first argument counts the iterations left. -/
def primLoop (m : Nat) (phi : Int) (phiFactors : List Int) : Nat → Int → Option Int
  | 0, _ => some 0
  | k + 1, g =>
    if Base.gcd g m > 1 then primLoop m phi phiFactors k (g + 1)
    else do
      let primitive ← primTest m phi g phiFactors true
      if primitive then some g else primLoop m phi phiFactors k (g + 1)

/-- modulos.h:264-275 `primitive_root(m, phi, phi_factors)`. -/
def primitiveRoot (m : Nat) (phi : Int) (phiFactors : List Int) : Option Int :=
  primLoop m phi phiFactors (m - 1) 1

/-- modulos.h:292-294 `primitive_root_of_unity(m, lam, lam_factors)`. -/
def primitiveRootOfUnity (m : Nat) (lam : Int) (lamFactors : List Int) : Option Int :=
  primitiveRoot m lam lamFactors

/-- modulos.cpp:6-10 `primitive_root(m, prim)`; `vfm` and `vfphi` stand for the factorizations of `m` and of
`phi` by the prime holder. -/
def primitiveRootPrim (m : Nat) (vfm : List (Int × Nat)) (factor : Int → List (Int × Nat)) : Option Int :=
  let phi := eulerPhi vfm
  primitiveRoot m phi (primeFactors (factor phi))

/-- modulos.cpp:12-16 `primitive_root_of_unity(m, prim)`. -/
def primitiveRootOfUnityPrim (m : Nat) (vfm : List (Int × Nat)) (factor : Int → List (Int × Nat)) : Option Int := do
  let lam ← carmichaelLambda vfm
  primitiveRootOfUnity m lam (primeFactors (factor lam))

/-! ### k-th roots -/

/-- modulos.h:325-328 and 359-362: insert `r`, multiply by `w`. -/
def rootsLoop {m : Nat} (w : ZMod m) : Nat → ZMod m → Finset Nat → Finset Nat
  | 0, _, sr => sr
  | n + 1, r, sr => rootsLoop w n (r * w) (insert r.val sr)

/-- modulos.h:319-330 `kth_roots_of_unity(m, k, lam, g)`; `none` is the division by zero. -/
def kthRootsOfUnity (m : Nat) (k lam g : Int) : Option (Finset Nat) :=
  let d := Base.gcd k lam
  if d = 0 then none
  else
    let w := powT (g : ZMod m) (lam.tdiv d)
    some (rootsLoop w d.toNat 1 ∅)

/-- modulos.h:349-364 `kth_roots(m, k, phi, g, l)`. -/
def kthRoots (m : Nat) (k phi g l : Int) : Finset Nat :=
  let d := Base.gcd k phi
  if d = 0 ∨ l.tmod d ≠ 0 then ∅
  else
    let phi := phi.tdiv d
    let l := l.tdiv d
    let k := k.tdiv d
    let h := divM (l.tmod phi) k phi
    let r := powT (g : ZMod m) h
    let w := powT (g : ZMod m) phi
    rootsLoop w d.toNat r ∅

/-! ### discrete logarithms -/

section group
variable {G : Type} [Monoid G] [DecidableEq G]

/-- modulos.h:377-381 the loop; the first argument counts the iterations left. -/
def bruteLoop (a b : G) : Nat → Int → G → Int
  | 0, _, _ => -1
  | k + 1, x, ax => if ax = b then x else bruteLoop a b k (x + 1) (ax * a)

/-- modulos.h:375-382 `discrete_log_brute_force_g(a, b, max_iter)`. -/
def bruteForceG (a b : G) (maxIter : Int) : Int := bruteLoop a b maxIter.toNat 0 1

/-- The `unordered_map` `baby`: `count`/`operator []`. -/
def lookup (l : List (G × Int)) (x : G) : Option Int :=
  match l with
  | [] => none
  | e :: l => if e.1 = x then some e.2 else lookup l x

/-- modulos.h:397-400 the baby steps; the first argument counts the iterations left. -/
def babyLoop (a : G) : Nat → Int → G → List (G × Int) → List (G × Int)
  | 0, _, _, baby => baby
  | k + 1, j, cur, baby =>
    match lookup baby cur with
    | some _ => baby
    | none => babyLoop a k (j + 1) (cur * a) (baby ++ [(cur, j)])

/-- modulos.h:404-410 the giant steps; the first argument counts the iterations left. -/
def giantLoop (baby : List (G × Int)) (alpha : G) (q : Int) : Nat → Int → G → Int
  | 0, _, _ => -1
  | k + 1, i, gamma =>
    match lookup baby gamma with
    | some j => i * q + j
    | none => giantLoop baby alpha q k (i + 1) (gamma * alpha)

/-- modulos.h:392-411 `discrete_log_baby_giant_g(a, b, n)`. -/
def babyGiantG (a b : G) (n : Int) : Int :=
  let q := Base.sqrtT n + 1
  let baby := babyLoop a q.toNat 0 1 []
  let alpha := powT a (n - q)
  giantLoop baby alpha q q.toNat 0 b

/-- modulos.h:430-434 the powers of `p` up to the order of `a`: returns the new `s` and `pp`.  The first
argument counts the iterations left. -/
def ppLoop (a : G) (p : Int) : Nat → Nat → List Int → Option (Nat × List Int)
  | 0, k, pp => some (k - 1, pp)
  | n + 1, k, pp => do
    let q ← rd pp (k - 1)
    if powT a q = 1 then some (k - 1, pp)
    else ppLoop a p n (k + 1) (pp ++ [q * p])

/-- modulos.h:438-442 the digits of the logarithm; the first argument counts the iterations left. -/
def digitLoop (b ai gamma : G) (p : Int) (pp : List Int) (s : Nat) : Nat → Nat → Int → Option Int
  | 0, _, x => some x
  | n + 1, k, x => do
    let q ← rd pp (s - 1 - k)
    let bk := powT (powT ai x * b) q
    let d := babyGiantG gamma bk p
    let r ← rd pp k
    digitLoop b ai gamma p pp s n (k + 1) (x + r * d)

/-- modulos.h:421-444 `discrete_log_order_pp_g(a, b, p, s)`.  The vector `pp` has `s + 1` elements in the
code and those not yet written are zero; here it grows, and reading an element that was not written is
`none`. -/
def orderPpG (a b : G) (p : Int) (s : Nat) : Option Int :=
  if s = 0 then some 0
  else if a = 1 then some 0
  else if b = 1 then some 0
  else if a = b then some 1
  else do
    let (s, pp) ← ppLoop a p s 1 [1]
    let ps ← rd pp s
    let ai := powT a (ps - 1)
    let pt ← rd pp (s - 1)
    let gamma := powT a pt
    digitLoop b ai gamma p pp s s 0 0

/-- modulos.h:462-463 `d = o, pe = 1; while (d % p == 0) d /= p, pe *= p, e++;`. -/
def splitLoop (p : Int) : Nat → Int → Int → Nat → Option (Int × Int × Nat)
  | 0, _, _, _ => none
  | fuel + 1, d, pe, e =>
    if p = 0 then none
    else if d.tmod p = 0 then splitLoop p fuel (d.tdiv p) (pe * p) (e + 1)
    else some (d, pe, e)

/-- modulos.h:461-469 the loop over the prime factors; returns `(x, q)`. -/
def dlogLoop (a b : G) (o : Int) : List Int → Int → Int → Option (Int × Int)
  | [], x, q => some (x, q)
  | p :: ps, x, q => do
    let (d, pe, e) ← splitLoop p (o.toNat + 1) o 1 0
    if e = 0 then dlogLoop a b o ps x q
    else do
      let xpe ← orderPpG (powT a d) (powT b d) p e
      let r := crt x q xpe pe
      dlogLoop a b o ps r.1 r.2

/-- modulos.h:458-472 `discrete_log_g(a, b, n, n_factors, &o)`: `(x, o)`. -/
def dlogG (a b : G) (n : Int) (nFactors : List Int) : Option (Int × Int) := do
  let o ← multiplicativeOrderG a n nFactors
  let (x, _) ← dlogLoop a b o nFactors 0 1
  some (x, o)

end group

/-- modulos.h:482-485 `discrete_log_brute_force(a, b, m)`. -/
def bruteForce (a b : Int) (m : Nat) : Int := bruteForceG (a : ZMod m) (b : ZMod m) m

/-- modulos.h:496-499 `discrete_log_baby_giant(a, b, m, n)`. -/
def babyGiant (a b : Int) (m : Nat) (n : Int) : Int := babyGiantG (a : ZMod m) (b : ZMod m) n

/-- modulos.h:509-511 `discrete_log_shanks(a, b, p)`. -/
def shanks (a b : Int) (p : Nat) : Int := babyGiant a b p ((p : Int) - 1)

/-- modulos.h:521-525 `discrete_log_oddp(a, b, p)`. -/
def oddp (a b : Int) (p : Nat) : Int :=
  if p < 1100 then bruteForce a b p else shanks a b p

/-- modulos.h:540-544 `while (ao != 1) ...`: returns `(o, t)`. -/
def p2Loop (m : Int) : Nat → Int → Int → Nat → Option (Int × Nat)
  | 0, _, _, _ => none
  | fuel + 1, ao, o, t =>
    if ao ≠ 1 then p2Loop m fuel (mulM ao ao m) (o * 2) (t + 1) else some (o, t)

/-- modulos.h:547-551 the bits of the logarithm; the first argument counts the iterations left. -/
def p2Bits (b ai o m : Int) : Nat → Nat → Int → Int
  | 0, _, x => x
  | n + 1, i, x =>
    let e := o >>> (i + 1)
    let y := powM (mulM b (powM ai x m) m) e m
    p2Bits b ai o m n (i + 1) (if y ≠ 1 then x + 1 <<< i else x)

/-- modulos.h:535-553 `discrete_log_p2(a, b, s)`; the bound on the iterations of the `while` loop is `s`. -/
def dlogP2 (a b : Int) (s : Nat) : Option Int := do
  let m := powT (2 : Int) s
  let (o, t) ← p2Loop m (s + 1) a 1 0
  let ai := invM a m
  some (p2Bits b ai o m t 0 0)

/-- modulos.h:580 `while (ta % p == 0 && tb % p == 0 && ps1 % p == 0) ta /= p, tb /= p, ps1 /= p;`. -/
def thetaLoop (p : Int) : Nat → Int → Int → Int → Option (Int × Int × Int)
  | 0, _, _, _ => none
  | fuel + 1, ta, tb, ps1 =>
    if ta.tmod p = 0 ∧ tb.tmod p = 0 ∧ ps1.tmod p = 0 then
      thetaLoop p fuel (ta.tdiv p) (tb.tdiv p) (ps1.tdiv p)
    else some (ta, tb, ps1)

/-- modulos.h:578 `theta(c)`. -/
def theta (phi ps ps1 c : Int) : Int := (powM c phi (ps * ps1) - 1).tdiv ps

/-- modulos.h:566-583 `discrete_log_pp(a, b, p, s)`; the bound on the iterations of the `while` loop is
`s`. -/
def dlogPp (a b : Int) (p s : Nat) : Option Int :=
  if s = 0 then some 0
  else if a = 1 then some 0
  else if b = 1 then some 0
  else if a = b then some 1
  else if p = 2 then dlogP2 a b s
  else
    let x1 := oddp (a.tmod p) (b.tmod p) p
    if s = 1 then some x1
    else do
      let p1 : Int := (p : Int) - 1
      let phi := p1 * powT (p : Int) ((s : Int) - 1)
      let ps1 := powT (p : Int) ((s : Int) - 1)
      let ps := ps1 * p
      let ta := theta phi ps ps1 a
      let tb := theta phi ps ps1 b
      let (ta, tb, ps1) ← thetaLoop p (s + 1) ta tb ps1
      let xs1 := mulM tb (invM ta ps1) ps1
      some (crt x1 p1 xs1 ps1).1

/-- modulos.h:598-601 `discrete_log(a, b, m, phi, phi_factors, &o)`. -/
def dlog (a b : Int) (m : Nat) (phi : Int) (phiFactors : List Int) : Option (Int × Int) :=
  dlogG (a : ZMod m) (b : ZMod m) phi phiFactors

/-! ### square roots -/

open Altruct.Quadratic (Quad)

/-- modulos.h:111-114 the search for a non-residue; the result is `(a, d)`. -/
def cipollaLoop {p : Nat} (y : ZMod p) : Nat → ZMod p → Option (ZMod p × ZMod p)
  | 0, _ => none
  | fuel + 1, a =>
    let a := a + 1
    let d := a * a - y
    if powT d (((p : Int) - 1).tdiv 2) = 1 then cipollaLoop y fuel a else some (a, d)

/-- modulos.h:106-117 `sqrt_cipolla(y)` for a `modulo` value; the bound on the iterations of the search is
`p`. -/
def cipolla {p : Nat} (y : ZMod p) : Option (ZMod p) :=
  if p = 2 then some y
  else do
    let (a, d) ← cipollaLoop y p 0
    some (powT (⟨a, 1⟩ : Quad (ZMod p) d) (((p : Int) + 1).tdiv 2)).a

/-- modulos.h:125-127 `sqrt_cipolla(y, p)`. -/
def sqrtCipolla (y : Int) (p : Nat) : Option Int := do
  let r ← cipolla (y : ZMod p)
  some (r.val : Int)

/-- modulos.h:148-155 one step of the lifting modulo powers of two. -/
def p2Step (y w2 s : Int) : Int :=
  let v := (s * s - y) % (w2 * 4)
  if v ≠ 0 then s + w2
  else if s ≥ w2 then s + w2 * 2
  else s

/-- modulos.h:146-158 the loop; the first argument counts the iterations left. -/
def p2Lift (y : Int) : Nat → Int → Int → Int → Int × Int
  | 0, _, s0, s1 => (s0, s1)
  | n + 1, w2, s0, s1 => p2Lift y n (w2 * 2) (p2Step y w2 s0) (p2Step y w2 s1)

/-- modulos.h:137-160 `sqrt_hensel_lift_p2(y, k)`. -/
def sqrtP2 (y : Int) (k : Nat) : Int × Int :=
  if y.tmod 2 ≠ 1 then (0, 0)
  else if k = 1 then (1, 1)
  else if y.tmod 4 ≠ 1 then (0, 0)
  else if k = 2 then (1, 1)
  else if y.tmod 8 ≠ 1 then (0, 0)
  else p2Lift y (k - 3) 4 1 3

/-- modulos.h:173-179 the Newton iteration on `(r.v, r.M)`; `i` is the exponent reached. -/
def henselLoop (y p : Int) (k : Nat) : Nat → Nat → Int → Int → Option Int
  | 0, _, _, _ => none
  | fuel + 1, i, r, M =>
    if i < k then
      let phi := M.tdiv p * (p - 1)
      let u := powM (r * 2) (phi - 1) M
      let M' := if i * 2 < k then M * M else powT p k
      let v := (r * r - y) % M'
      henselLoop y p k fuel (i * 2) ((r - v * u) % M') M'
    else some r

/-- modulos.h:169-181 `sqrt_hensel_lift(y, p, k)`. -/
def sqrtHensel (y : Int) (p k : Nat) : Option Int := do
  let r ← cipolla (y : ZMod p)
  henselLoop y p k (k + 1) 1 (r.val : Int) p

/-- modulos.h:194-200 the lambda `add`; returns the new `sr`. -/
def addRoots (y m : Int) (sr0 : Finset Int) (x q : Int) (sr : Finset Int) : Finset Int :=
  if (x * x - y).tmod q ≠ 0 then sr
  else sr ∪ sr0.image (fun r0 => (crt r0 m x q).1) ∪ sr0.image (fun r0 => (crt r0 m (negM x q) q).1)

/-- modulos.h:201-215 the loop over the prime powers; returns `sr`. -/
def sqrtModLoop (y : Int) : List (Nat × Nat) → Int → Finset Int → Option (Finset Int)
  | [], _, sr => some sr
  | f :: vf, m, sr0 => do
    let q := powT (f.1 : Int) f.2
    let sr ← (if f.1 = 2 then
        let x := sqrtP2 y f.2
        some (addRoots y m sr0 x.2 q (addRoots y m sr0 x.1 q ∅))
      else do
        let x ← sqrtHensel y f.1 f.2
        some (addRoots y m sr0 x q ∅))
    sqrtModLoop y vf (m * q) sr

/-- modulos.h:191-217 `sqrt_mod(y, vf)`; the vector returned lists the elements of the set in an
unspecified order. -/
def sqrtMod (y : Int) (vf : List (Nat × Nat)) : Option (Finset Int) := sqrtModLoop y vf 1 {0}

/-! ### Garner's algorithm, on unsigned words -/

/-- modulos.h:63-66 the inner loop on `w`-bit unsigned words: `y` is reduced modulo `M`, the list holds the
pairs `(vx[j], p[j])`. -/
def garnerInner (w M : Nat) : List (Nat × Nat) → Nat → Nat
  | [], y => y
  | e :: l, y => garnerInner w M l (Modulo.divU w (Modulo.subU w y e.1 M) e.2 M)

/-- modulos.h:61-68 the outer loop; `done` holds the pairs `(vx[j], p[j])` already calculated. -/
def garnerLoop (w : Nat) : List (Nat × Nat) → List (Nat × Nat) → List (Nat × Nat)
  | [], done => done
  | e :: l, done => garnerLoop w l (done ++ [(garnerInner w e.2 done e.1, e.2)])

/-- modulos.h:59-70 `garner(vap)` for `moduloX` of `w`-bit unsigned words; pairs of value and modulus. -/
def garner (w : Nat) (vap : List (Nat × Nat)) : List (Nat × Nat) := garnerLoop w vap []

end Altruct.NumTheory
