/-
Model of algorithm/math/divisor_sums.h, second part: `sum_m`, square-free counts, `divisor_sigma`,
`coprime_sum` and `traverse_rough_numbers`.

Tables with a `count` member are finite maps, `Nat → Option α`.  The integer roots are parameters: `sq` for
`sqrtT`/`isqrt` and `cb` for `cbrtT` (see C01 for these).
-/
import Verif.Dirichlet.Model

namespace Altruct.Dirichlet

open Altruct.Polynom (Quo cdiv)

variable {α : Type} [CommRing α]

/-- divisor_sums.h:564-577 and 593-606: the common body of both versions of `sum_m`.  `c1 k` and `c2 n m` are
the factors of `sum_m(n / k)` and `sum_m(m)`, `fin` is the final division; `fuel` bounds the depth. -/
def sumMG (sq : Nat → Nat) (t c1 : Nat → α) (c2 : Nat → Nat → α) (fin : α → Option α) :
    Nat → Nat → (Nat → Option α) → Option (α × (Nat → Option α))
  | fuel, n, tbl =>
    if n < 1 then some (0, tbl)
    else match tbl n with
      | some v => some (v, tbl)
      | none => match fuel with
        | 0 => none
        | fuel + 1 =>
          let q := sq n
          if q = 0 then none else do
          let (r, tbl) ← forUp (fun k (st : α × (Nat → Option α)) => do
            let (v, tbl) ← sumMG sq t c1 c2 fin fuel (n / k) st.2
            some (st.1 - c1 k * v, tbl)) 2 (n / q + 1) (t n, tbl)
          let (r, tbl) ← forUp (fun m (st : α × (Nat → Option α)) => do
            let (v, tbl) ← sumMG sq t c1 c2 fin fuel m st.2
            some (st.1 - c2 n m * v, tbl)) 1 q (r, tbl)
          let v ← fin r
          some (v, Function.update tbl n (some v))

/-- divisor_sums.h:563-577 `sum_m` with `s`. -/
def sumM [DecidableEq α] [Quo α] (sq : Nat → Nat) (t s : Nat → α) (fuel n : Nat) (tbl : Nat → Option α) : Option (α × (Nat → Option α)) :=
  sumMG sq t (fun k => s k - s (k - 1)) (fun n m => s (n / m) - s (n / (m + 1))) (fun r => cdiv r (s 1 - s 0)) fuel n tbl

/-- divisor_sums.h:592-606 `sum_m` without `s`; the factor `1` is explicit here. -/
def sumM1 (sq : Nat → Nat) (t : Nat → α) (fuel n : Nat) (tbl : Nat → Option α) : Option (α × (Nat → Option α)) :=
  sumMG sq t (fun _ => 1) (fun n m => ((n / m - n / (m + 1) : Nat) : α)) some fuel n tbl

/-- divisor_sums.h:626-628 `for (int64_t j = p2; j < n; j += p2) sqfc[j] = e0;`; `fuel` bounds the number of
rounds. -/
def clearSquares (n p2 : Nat) : Nat → Nat → List α → Option (List α)
  | fuel, j, s =>
    if j < n then match fuel with
      | 0 => none
      | fuel + 1 => do
        let s ← wr s j 0
        clearSquares n p2 fuel (j + p2) s
    else some s

/-- divisor_sums.h:617-633 `sieve_sqfree_count`. -/
def sieveSqfree (sqfc : List α) (n : Nat) (pa : List Nat) (m : Nat) : Option (List α) := do
  let s ← wr sqfc 0 0
  let s ← fill s (fun _ => 1) 1 n
  let s ← forUp (fun i s => do
    let p ← rd pa i
    clearSquares n (p * p) n (p * p) s) 0 m s
  prefixSums s n

/-- `for (I k = a; k > 1; k--) s = body(k, s);`. -/
def forDown {σ : Type} (body : Nat → σ → Option σ) : Nat → σ → Option σ
  | 0, s => some s
  | k + 1, s => if 1 < k + 1 then match body (k + 1) s with
      | none => none
      | some s => forDown body k s
    else some s

/-- divisor_sums.h:646-660 `sqfree_count`; `fuel` bounds the depth. -/
def sqfreeCount (sq cb : Nat → Nat) : Nat → Nat → (Nat → Option α) → Option (α × (Nat → Option α))
  | fuel, n, tbl =>
    if n < 1 then some (0, tbl)
    else match tbl n with
      | some v => some (v, tbl)
      | none => match fuel with
        | 0 => none
        | fuel + 1 =>
          let q := cb n
          if q = 0 then none else do
          let (r, tbl) ← forUp (fun m (st : α × (Nat → Option α)) => do
            let (v, tbl) ← sqfreeCount sq cb fuel m st.2
            some (st.1 - ((sq (n / m) - sq (n / (m + 1)) : Nat) : α) * v, tbl)) 1 q ((n : α), tbl)
          let (r, tbl) ← forDown (fun k (st : α × (Nat → Option α)) => do
            let (v, tbl) ← sqfreeCount sq cb fuel (n / (k * k)) st.2
            some (st.1 - v, tbl)) (sq (n / q)) (r, tbl)
          some (r, Function.update tbl n (some r))

/-- divisor_sums.h:798-815 `divisor_sigma`; `powT` is the power of the ring. -/
def divisorSigma (lim : Nat) (ds : List α) (k n : Nat) (pa : List Nat) (m : Nat) : Option (List α) :=
  if k = 0 then convolutionMultiplicative lim ds (fun _ => 1) (fun _ => 1) n pa m
  else if k = 1 then convolutionMultiplicative lim ds (fun n => (n : α)) (fun _ => 1) n pa m
  else if k = 2 then convolutionMultiplicative lim ds (fun n => (n : α) * (n : α)) (fun _ => 1) n pa m
  else convolutionMultiplicative lim ds (fun n => (n : α) ^ k) (fun _ => 1) n pa m

/-- divisor_sums.h:1082-1087 `coprime_sum`; the range `[pb, pe)` is a list, `none` is the division by zero. -/
def coprimeSum (sf : Nat → Nat → α) : List Nat → Nat → Nat → Option α
  | [], n, m => some (sf n m)
  | p :: L, n, m =>
    if n = 0 then some (sf n m)
    else if p = 0 then none
    else do
      let a ← coprimeSum sf L n m
      let b ← coprimeSum sf L (n / p) (m * p)
      some (a - b)

end Altruct.Dirichlet
