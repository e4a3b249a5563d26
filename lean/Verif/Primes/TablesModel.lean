/-
Model of the table functions of `src/algorithm/math/primes.cpp`.

`lim` is the largest value of the index type (`int` or `int64_t`); overflows of the index
arithmetic are `none`.  Entries of tables that are never negative are natural numbers.
`forPrimes p body m 0` is the loop `for (int i = 0; i < m; i++)` with `p[i]` passed to the
body; `stride lim off f e d v s` is `for (j = s; j < e; j += d) v[j - off] = f(j, v[j - off])`.
-/
import Verif.Common.Stride
import Verif.Base.Model

namespace Altruct.Primes

/-- primes.cpp:36-39 the loop of `prime_pi`. -/
def piLoop (p : List Nat) (n : Nat) (v : List Nat) (l i : Nat) : Option (List Nat) :=
  if i < n then
    match rd p l with
    | none => none
    | some q =>
      match wr v i (if i = q then l + 1 else l) with
      | none => none
      | some v => piLoop p n v (if i = q then l + 1 else l) (i + 1)
  else some v
termination_by n - i

/-- primes.cpp:35-40 `prime_pi` (`m` is not used). -/
def primePi (pi : List Nat) (n : Nat) (p : List Nat) : Option (List Nat) := piLoop p n pi 0 0

/-- primes.cpp:42-48 `euler_phi`. -/
def eulerPhi (lim : Nat) (phi : List Nat) (n : Nat) (p : List Nat) (m : Nat) : Option (List Nat) :=
  (stride lim 0 (fun i _ => some i) n 1 phi 0).bind fun phi =>
    forPrimes p (fun q phi => stride lim 0 (fun _ x => some (x / q * (q - 1))) n q phi q) m 0 phi

/-- primes.cpp:60 `mu[j] *= -i`, `none` when the product does not fit. -/
def mulNeg (lim : Nat) (i : Nat) (x : Int) : Option Int :=
  if (x * -(i : Int)).natAbs ≤ lim then some (x * -(i : Int)) else none

/-- primes.cpp:54-61 the main loop of `moebius_mu`; an overflow of `i * i` is `none`. -/
def muLoop (lim n : Nat) (mu : List Int) (i : Nat) : Option (List Int) :=
  if lim < i * i then none
  else if h : i * i < n then
    match rd mu i with
    | none => none
    | some x =>
      if x ≠ 1 then muLoop lim n mu (i + 1)
      else
        match stride lim 0 (fun _ _ => some 0) n (i * i) mu 0 with
        | none => none
        | some mu =>
          match stride lim 0 (fun _ x => mulNeg lim i x) n i mu 0 with
          | none => none
          | some mu => muLoop lim n mu (i + 1)
  else some mu
termination_by n - i
decreasing_by all_goals (have := Nat.le_mul_self i; omega)

/-- primes.cpp:63-66 the correction of one entry. -/
def muFix (i : Nat) (x : Int) : Int :=
  if x = i then 1 else if x = -i then -1 else if x < 0 then 1 else if x > 0 then -1 else x

/-- primes.cpp:50-68 `moebius_mu` (`p` and `m` are not used). -/
def moebiusMu (lim : Nat) (mu : List Int) (n : Nat) : Option (List Int) :=
  (wr mu 0 0).bind fun mu =>
    (stride lim 0 (fun _ _ => some 1) n 1 mu 1).bind fun mu =>
      (muLoop lim n mu 2).bind fun mu => stride lim 0 (fun i x => some (muFix i x)) n 1 mu 2

/-- primes.cpp:70-76 `prime_nu`. -/
def primeNu (lim : Nat) (nu : List Nat) (n : Nat) (p : List Nat) (m : Nat) : Option (List Nat) :=
  (stride lim 0 (fun _ _ => some 0) n 1 nu 0).bind fun nu =>
    forPrimes p (fun q nu => stride lim 0 (fun _ x => some (x + 1)) n q nu q) m 0 nu

/-- base.h:375-378 `multiple<int64_t>(a, b)` for `b ≥ 0`. -/
def multipleN (a b : Nat) : Nat := (Base.multiple a b).toNat

/-- primes.cpp:84-89 the loop of `segmented_q` over the primes; the state is the array and
`b`; the `break` returns the array. -/
def segQLoop (lim off e : Nat) (p : List Nat) (m : Nat) (q : List Nat) (b i : Nat) : Option (List Nat) :=
  if i < m then
    match rd p i with
    | none => none
    | some r =>
      if max b (r * r) ≥ e then some q
      else
        match stride lim off (fun _ _ => some 0) e r q (multipleN r (max b (r * r))) with
        | none => none
        | some q => segQLoop lim off e p m q (max b (r * r)) (i + 1)
  else some q
termination_by m - i

/-- primes.cpp:80-81 `if (b == k) _q[b++] = 0;`, the array and `b`. -/
def segSkip (off k : Nat) (q : List Nat) (b : Nat) : Option (List Nat × Nat) :=
  if b = k then (wr q (b - off) 0).map fun q => (q, b + 1) else some (q, b)

/-- primes.cpp:78-90 `segmented_q`; entry `a - b` of the array is `_q[a]`. -/
def segmentedQ (lim : Nat) (q : List Nat) (b e : Nat) (p : List Nat) (m : Nat) : Option (List Nat) :=
  (segSkip b 0 q b).bind fun s =>
    (segSkip b 1 s.1 s.2).bind fun s =>
      (stride lim b (fun _ _ => some 1) e 1 s.1 s.2).bind fun q => segQLoop lim b e p m q s.2 0

/-- primes.cpp:100-101 `while (tmp % p == 0) phi *= p, tmp /= p;` (it does not terminate for
`tmp = 0` or `p = 1`). -/
def phiWhile (p phi tmp : Nat) : Option (Nat × Nat) :=
  if h : tmp % p = 0 then
    if h0 : tmp = 0 ∨ p < 2 then none else phiWhile p (phi * p) (tmp / p)
  else some (phi, tmp)
termination_by tmp
decreasing_by
  simp only [not_or] at h0
  exact Nat.div_lt_self (by omega) (by omega)

/-- primes.cpp:92-107 `segmented_phi`; the arrays `phi` and `tmp` are kept as one array of
pairs. -/
def segmentedPhi (lim : Nat) (v : List (Nat × Nat)) (b e : Nat) (p : List Nat) (m : Nat) :
    Option (List (Nat × Nat)) :=
  (if b = 0 then (rd v 0).bind fun x => (wr v 0 (0, x.2)).map fun v => (v, 1) else some (v, b)).bind fun s =>
    (stride lim b (fun q _ => some (1, q)) e 1 s.1 s.2).bind fun v =>
      (forPrimes p (fun r v => stride lim b (fun _ x => phiWhile r (x.1 * (r - 1)) (x.2 / r)) e r v
        (multipleN r s.2)) m 0 v).bind fun v =>
        stride lim b (fun _ x => some (if x.2 > 1 then (x.1 * (x.2 - 1), x.2) else x)) e 1 v s.2

/-- primes.cpp:125-126 the correction of one entry. -/
def segMuFix (q : Nat) (x : Int) : Int :=
  let x := if x < 0 ∧ x ≠ -q then (q : Int) else x
  if x > 0 ∧ x ≠ q then -q else x

/-- primes.cpp:130-131 the normalisation of one entry. -/
def segMuSign (x : Int) : Int :=
  let x := if x < 0 then -1 else x
  if x > 0 then 1 else x

/-- primes.cpp:109-133 `segmented_mu`. -/
def segmentedMu (lim : Nat) (mu : List Int) (b e : Nat) (p : List Nat) (m : Nat) : Option (List Int) :=
  (if b = 0 then (wr mu 0 0).map fun mu => (mu, 1) else some (mu, b)).bind fun s =>
    (stride lim b (fun _ _ => some 1) e 1 s.1 s.2).bind fun mu =>
      (forPrimes p (fun r mu =>
        (stride lim b (fun _ x => mulNeg lim r x) e r mu (multipleN r s.2)).bind fun mu =>
          stride lim b (fun _ _ => some 0) e (r * r) mu (multipleN (r * r) s.2)) m 0 mu).bind fun mu =>
        (stride lim b (fun q x => some (segMuFix q x)) e 1 mu s.2).bind fun mu =>
          stride lim b (fun _ x => some (segMuSign x)) e 1 mu s.2

/-- primes.cpp:138-140 and :146-148 the loop `for (int i = 1; i < n; i++)` over all divisors;
`w i` is what is added. -/
def divLoop (lim : Nat) (w : Nat → Nat) (n : Nat) (v : List Nat) (i : Nat) : Option (List Nat) :=
  if i < n then
    match stride lim 0 (fun _ x => some (x + w i)) n i v i with
    | none => none
    | some v => divLoop lim w n v (i + 1)
  else some v
termination_by n - i

/-- primes.cpp:135-141 `divisor_sigma0`. -/
def divisorSigma0 (lim : Nat) (ds : List Nat) (n : Nat) : Option (List Nat) :=
  (stride lim 0 (fun _ _ => some 0) n 1 ds 1).bind fun ds => divLoop lim (fun _ => 1) n ds 1

/-- primes.cpp:143-149 `divisor_sigma1`. -/
def divisorSigma1 (lim : Nat) (ds : List Nat) (n : Nat) : Option (List Nat) :=
  (stride lim 0 (fun _ _ => some 0) n 1 ds 1).bind fun ds => divLoop lim (fun i => i) n ds 1

/-- primes.cpp:155-160 the first pass of `smallest_factor`. -/
def spfLoop1 (lim n : Nat) (v : List Nat) (i : Nat) : Option (List Nat) :=
  if i < n then
    match rd v i with
    | none => none
    | some x =>
      if x ≠ 0 ∨ i > n / i then spfLoop1 lim n v (i + 1)
      else
        match stride lim 0 (fun _ _ => some 1) n i v (i * i) with
        | none => none
        | some v => spfLoop1 lim n v (i + 1)
  else some v
termination_by n - i

/-- primes.cpp:161-166 the second pass of `smallest_factor`, `i` counting down to 2. -/
def spfLoop2 (lim n : Nat) : Nat → List Nat → Option (List Nat)
  | 0, v => some v
  | i + 1, v =>
    if i + 1 ≥ 2 then
      match rd v (i + 1) with
      | none => none
      | some x =>
        if x ≠ 0 ∨ i + 1 > n / (i + 1) then spfLoop2 lim n i v
        else
          match stride lim 0 (fun _ _ => some (i + 1)) n (i + 1) v ((i + 1) * (i + 1)) with
          | none => none
          | some v => spfLoop2 lim n i v
    else some v

/-- primes.cpp:151-167 `smallest_factor`.  For `n = 0` the start `n - 1` of the second pass
wraps around and the access `spf[n - 1]` is out of bounds. -/
def smallestFactor (lim : Nat) (spf : List Nat) (n : Nat) : Option (List Nat) :=
  (stride lim 0 (fun _ _ => some 0) n 1 spf 0).bind fun v =>
    (spfLoop1 lim n v 2).bind fun v => if n = 0 then none else spfLoop2 lim n (n - 1) v

/-- primes.cpp:169-174 `factor`. -/
def factor (lim : Nat) (bpf : List Nat) (n : Nat) (p : List Nat) (m : Nat) : Option (List Nat) :=
  (wr bpf 0 0).bind fun v => (wr v 1 1).bind fun v =>
    forPrimes p (fun q v => stride lim 0 (fun _ _ => some q) n q v q) m 0 v

end Altruct.Primes
