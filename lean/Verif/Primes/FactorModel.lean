/-
Model of factorisation from tables (`src/algorithm/math/primes.cpp`, `primes.h`) and of
`factorization.h` (trial division, `factor_out`, `from_factorization`, `from_primes`,
`fraction_reduce`).

Numbers are unbounded naturals: for `n ≤ 1`, negative values included, the factoring loops do
nothing.  Where an overflow matters, `lim` is the largest value of the type and an overflow
is `none`.  A division by zero and an endless loop are `none`.
-/
import Verif.Common.Vec
import Verif.Base.Model
import Mathlib.Algebra.Ring.Int.Defs
import Mathlib.Algebra.Ring.Nat

namespace Altruct.Primes

/-- factorization.h:178-182 `factor_out`, also the inner loops at primes.cpp:179-181, 191-193,
primes.h:210-212, factorization.h:168: `while (n % p == 0) n /= p, e++;`. -/
def factorOut (n p e : Nat) : Option (Nat × Nat) :=
  if p = 0 then none
  else if n % p = 0 then
    if h : n = 0 ∨ p < 2 then none else factorOut (n / p) p (e + 1)
  else some (n, e)
termination_by n
decreasing_by
  simp only [not_or] at h
  exact Nat.div_lt_self (by omega) (by omega)

/-- primes.cpp:176-184 `factor_integer(vf, n, pf)`: the vector `vf` after the loop.  An
iteration that does not make `n` smaller would be repeated forever: `none`. -/
def factorInteger (pf : List Nat) (vf : List (Nat × Nat)) (n : Nat) : Option (List (Nat × Nat)) :=
  if n > 1 then
    match rd pf n with
    | none => none
    | some p =>
      match factorOut n p 0 with
      | none => none
      | some (n', e) => if n' < n then factorInteger pf (vf ++ [(p, e)]) n' else none
  else some vf
termination_by n

/-- primes.h:207-216 `factor_integer_to_map(mf, n, pf)`; the map is a function with the value 0
at absent keys. -/
def factorIntegerToMap (pf : List Nat) (mf : Nat → Nat) (n : Nat) : Option (Nat → Nat) :=
  if n > 1 then
    match rd pf n with
    | none => none
    | some p =>
      match factorOut n p 0 with
      | none => none
      | some (n', e) =>
        if n' < n then factorIntegerToMap pf (fun q => if q = p then mf q + e else mf q) n' else none
  else some mf
termination_by n

/-- primes.cpp:190-194 `for (auto &m : vn) while (m % p == 0) m /= p, e++;`: the new vector and
the counter. -/
def outAll (p : Nat) : List Nat → Nat → Option (List Nat × Nat)
  | [], e => some ([], e)
  | m :: vn, e =>
    match factorOut m p e with
    | none => none
    | some (m', e') => (outAll p vn e').map fun r => (m' :: r.1, r.2)

/-- primes.cpp:188-196 `while (n > 1) {…}` for the element `n` at position `k`. -/
def manyWhile (pf : List Nat) (k : Nat) (vf : List (Nat × Nat)) (vn : List Nat) :
    Option (List (Nat × Nat) × List Nat) :=
  match rd vn k with
  | none => none
  | some n =>
    if n > 1 then
      match rd pf n with
      | none => none
      | some p =>
        match outAll p vn 0 with
        | none => none
        | some (vn', e) =>
          if vn'.getD k 0 < vn.getD k 0 then manyWhile pf k (vf ++ [(p, e)]) vn' else none
    else some (vf, vn)
termination_by vn.getD k 0

/-- primes.cpp:187 the loop over the elements. -/
def manyLoop (pf : List Nat) (vf : List (Nat × Nat)) (vn : List Nat) (k : Nat) : Nat → Option (List (Nat × Nat))
  | 0 => some vf
  | c + 1 =>
    match manyWhile pf k vf vn with
    | none => none
    | some (vf, vn) => manyLoop pf vf vn (k + 1) c

/-- primes.cpp:186-198 `factor_integer(vf, vn, pf)`. -/
def factorIntegers (pf : List Nat) (vf : List (Nat × Nat)) (vn : List Nat) : Option (List (Nat × Nat)) :=
  manyLoop pf vf vn 0 vn.length

/-- factorization.h:166-170 the loop of `factor_integer_slow`; `i += 1` beyond `lim` is an
overflow. -/
def slowLoop (lim : Nat) (vf : List (Nat × Nat)) (n i : Nat) : Option (List (Nat × Nat) × Nat) :=
  if h : i ≤ n / i then
    if h0 : i = 0 ∨ lim < i + 1 then none
    else if n % i ≠ 0 then slowLoop lim vf n (i + 1)
    else
      match factorOut n i 0 with
      | none => none
      | some (n', e) => if hn : n' ≤ n then slowLoop lim (vf ++ [(i, e)]) n' (i + 1) else none
  else some (vf, n)
termination_by n + 1 - i
decreasing_by
  all_goals
    have : n / i ≤ n := Nat.div_le_self n i
    omega

/-- factorization.h:163-173 `factor_integer_slow`. -/
def factorIntegerSlow (lim n : Nat) : Option (List (Nat × Nat)) :=
  (slowLoop lim [] n 2).map fun r => if r.2 > 1 then r.1 ++ [(r.2, 1)] else r.1

/-- factorization.h:187-194 `from_factorization`. -/
def fromFactorization (vf : List (Nat × Nat)) : Nat :=
  vf.foldl (fun (r : Nat) f => r * Base.powT f.1 (f.2 : Int)) 1

/-- A call of the visitor of `from_primes`: the factorisation and the number. -/
abbrev Visit := List (Nat × Nat) × Nat

/-- factorization.h:208-212 the loop of `from_primes_impl`; `f` is the recursive call.  For
`p < 2` the loop does not terminate (or divides by zero). -/
def fromPrimesLoop (f : List (Nat × Nat) → Nat → Nat → Option (List Visit)) (p : Nat) (vf : List (Nat × Nat))
    (nmax n e : Nat) : Option (List Visit) :=
  if h : p < 2 then none
  else if h0 : nmax / p > 0 then
    match f (vf ++ [(p, e)]) (nmax / p) (n * p) with
    | none => none
    | some l => (fromPrimesLoop f p vf (nmax / p) (n * p) (e + 1)).map (l ++ ·)
  else some []
termination_by nmax
decreasing_by
  have : nmax ≠ 0 := by rintro rfl; simp at h0
  exact Nat.div_lt_self (by omega) (by omega)

/-- factorization.h:203-213 `from_primes_impl`: the calls of the visitor. -/
def fromPrimesImpl (pa : List Nat) : Nat → List (Nat × Nat) → Nat → Nat → Option (List Visit)
  | 0, vf, _, n => some [(vf, n)]
  | psz + 1, vf, nmax, n =>
    match rd pa psz with
    | none => none
    | some p =>
      match fromPrimesImpl pa psz vf nmax n with
      | none => none
      | some l => (fromPrimesLoop (fromPrimesImpl pa psz) p vf nmax n 1).map (l ++ ·)

/-- factorization.h:214-218 `from_primes`. -/
def fromPrimes (vp : List Nat) (nmax : Nat) : Option (List Visit) := fromPrimesImpl vp vp.length [] nmax 1

/-- factorization.h:230-237 the loop for one denominator, with `gcd` being the library's. -/
def reduceOne (num : List Nat) (d i : Nat) : Option (List Nat × Nat) :=
  if h : d > 1 ∧ i < num.length then
    let g := (Base.gcd (num[i]'h.2) d).toNat
    if g > 1 then
      if h0 : d / g < d then reduceOne (num.set i ((num[i]'h.2) / g)) (d / g) i else none
    else reduceOne num d (i + 1)
  else some (num, d)
termination_by d + (num.length - i)
decreasing_by
  · rw [List.length_set]; exact Nat.add_lt_add_right h0 _
  · omega

/-- factorization.h:227-239 `fraction_reduce`: the new numerators and denominators. -/
def fractionReduce : List Nat → List Nat → Option (List Nat × List Nat)
  | num, [] => some (num, [])
  | num, d :: den =>
    match reduceOne num d 0 with
    | none => none
    | some (num, d') => (fractionReduce num den).map fun r => (r.1, d' :: r.2)

/-- primes.h:267-271 the loop of `divisors`: `e` runs up to the exponent, `c` is the number of
rounds left; `f` is the recursive call.  `d *= f.first` is checked against `lim`; note that it
is also executed in the last round. -/
def divisorsLoop (lim : Nat) (f : Nat → Option (List Nat)) (maxd p : Nat) : Nat → Nat → Option (List Nat)
  | 0, _ => some []
  | c + 1, d =>
    match f d with
    | none => none
    | some l =>
      if maxd > 0 ∧ p = 0 then none
      else if maxd > 0 ∧ d > maxd / p then some l
      else if lim < d * p then none
      else (divisorsLoop lim f maxd p c (d * p)).map (l ++ ·)

/-- primes.h:260-272 `divisors(vd, vf, maxd, d, i)`: the elements appended to `vd`; the
argument is the part of `vf` from `i` on. -/
def divisorsRec (lim maxd : Nat) : List (Nat × Nat) → Nat → Option (List Nat)
  | [], d => some [d]
  | f :: vf, d => divisorsLoop lim (divisorsRec lim maxd vf) maxd f.1 (f.2 + 1) d

/-- primes.h:273-279 `divisors(vf, maxd)`: sorted (`std::sort` is modelled by merge sort). -/
def divisors (lim : Nat) (vf : List (Nat × Nat)) (maxd : Nat) : Option (List Nat) :=
  (divisorsRec lim maxd vf 1).map fun vd => vd.mergeSort (fun a b => decide (a ≤ b))

/-- primes.h:292-298 `squarefree_signed_divisors` over unbounded integers. -/
def squarefreeSigned : List (Nat × Nat) → Int → List Int
  | [], d => [d]
  | f :: vf, d => squarefreeSigned vf d ++ squarefreeSigned vf (d * -(f.1 : Int))

/-- primes.h:305-313 `prime_factors`. -/
def primeFactorsOf (vf : List (Nat × Nat)) : List Nat := vf.foldl (fun vp f => vp ++ [f.1]) []

/-- primes.h:320-328 `prime_exponents`. -/
def primeExponentsOf (vf : List (Nat × Nat)) : List Nat := vf.foldl (fun vp f => vp ++ [f.2]) []

/-- primes.h:333-340 `divisor_sigma0(vf)`. -/
def sigma0Of (vf : List (Nat × Nat)) : Nat := vf.foldl (fun r f => r * (f.2 + 1)) 1

/-- primes.h:345-352 `euler_phi(vf)`. -/
def eulerPhiOf (vf : List (Nat × Nat)) : Int :=
  vf.foldl (fun r f => r * (Base.powT (f.1 : Int) ((f.2 : Int) - 1) * ((f.1 : Int) - 1))) 1

/-- primes.h:357-365 `carmichael_lambda(vf)`. -/
def carmichaelOf (vf : List (Nat × Nat)) : Option Int :=
  vf.foldl (fun r f => r.bind fun r =>
    let e : Int := if f.1 = 2 ∧ f.2 > 2 then (f.2 : Int) - 1 else f.2
    Base.lcm r (Base.powT (f.1 : Int) (e - 1) * ((f.1 : Int) - 1))) (some 1)

end Altruct.Primes
