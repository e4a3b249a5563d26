/-
Model of algorithm/math/divisor_sums.h, fourth part: `traverse_rough_numbers`, `calc_F_k` and `sum_multiplicative`.

`sq` and `cb` are `isqrt` and `icbrt` (see C01).  The one-based `pa1 = pa - 1` is not defined at zero.  Reading a map through
the reference of `operator []` also marks the key as present; only the values are used, so `SqrtMap.el` is read.
-/
import Verif.Maps.Model
import Verif.Container.FenwickModel
import Verif.Common.Loop
import Mathlib.Algebra.Ring.Defs

namespace Altruct.SumMult

open Altruct.Maps (SqrtMap)

variable {α : Type} [CommRing α] {σ : Type}

/-- divisor_sums.h:896 and 961 `pa1[k]`. -/
def pa1 (pa : List Nat) (k : Nat) : Option Nat := if k = 0 then none else rd pa (k - 1)

/-- divisor_sums.h:909-911, the loop over the next primes, from index `j`, at most `c` of them; `self` is the recursive call with the
arguments `n`, `k`, `m` and `f_m`. -/
def roughNext (self : Nat → Nat → Nat → α → σ → Option σ) (pa : List Nat) (npe mpe : Nat) (fmpe : α) : Nat → Nat → σ → Option σ
  | 0, _, s => some s
  | c + 1, j, s =>
    (pa1 pa j).bind fun p =>
      if p ≤ npe then (self npe j mpe fmpe s).bind fun s => roughNext self pa npe mpe fmpe c (j + 1) s
      else some s

/-- divisor_sums.h:902-912, the loop over the exponents; `fuel` bounds the number of rounds. -/
def roughExp (self : Nat → Nat → Nat → α → σ → Option σ) (f : α → Nat → Nat → α) (visit : Nat → α → σ → Option σ) (pa : List Nat) (psz k p : Nat) (fm : α) :
    Nat → Nat → Nat → Nat → α → σ → Option σ
  | fuel, npe, mpe, e, fpe, s =>
    if p ≤ npe then match fuel with
      | 0 => none
      | fuel + 1 =>
        if p = 0 then none
        else
          let e := e + 1
          let fpe := f fpe p e
          let npe := npe / p
          let mpe := mpe * p
          let fmpe := fm * fpe
          (visit mpe fmpe s).bind fun s =>
            (roughNext self pa npe mpe fmpe (psz - k) (k + 1) s).bind fun s =>
              roughExp self f visit pa psz k p fm fuel npe mpe e fpe s
    else some s

/-- divisor_sums.h:894-913 `traverse_rough_numbers`; `fuel` bounds the depth and the loops. -/
def rough (f : α → Nat → Nat → α) (visit : Nat → α → σ → Option σ) (pa : List Nat) (psz : Nat) : Nat → Nat → Nat → Nat → α → σ → Option σ
  | 0, _, _, _, _, _ => none
  | fuel + 1, n, k, m, fm, s =>
    (pa1 pa k).bind fun p => roughExp (rough f visit pa psz fuel) f visit pa psz k p fm fuel n m 0 1 s

/-- divisor_sums.h:926-929, the loop of `calc_F_k`; `fuel` bounds the number of rounds. -/
def calcLoop (f : α → Nat → Nat → α) (p : Nat) (F1 : Nat → Option α) : Nat → Nat → Nat → α → α → Option α
  | fuel, mpe, e, fpe, s =>
    if p = 0 then none
    else
      let mpe := mpe / p
      if 0 < mpe then match fuel with
        | 0 => none
        | fuel + 1 =>
          let fpe := f fpe p e
          (F1 mpe).bind fun v => calcLoop f p F1 fuel mpe (e + 1) fpe (s + fpe * v)
      else some s

/-- divisor_sums.h:921-931 `calc_F_k`. -/
def calcFk (f : α → Nat → Nat → α) (fuel p m : Nat) (F1 : Nat → Option α) : Option α :=
  (F1 m).bind fun s => calcLoop f p F1 fuel m 1 1 s

/-- `for (i = a; i > b; i--) s = body(i, s);` with `c = a - b`. -/
def downTo (body : Nat → σ → Option σ) (b : Nat) : Nat → σ → Option σ
  | 0, s => some s
  | c + 1, s => (body (b + c + 1) s).bind fun s => downTo body b c s

/-- divisor_sums.h:987, the search for the first prime above `c`, `cnt` steps at most. -/
def findK (pa : List Nat) (c : Nat) : Nat → Nat → Option Nat
  | 0, k => some k
  | cnt + 1, k => (pa1 pa k).bind fun p => if p ≤ c then findK pa c cnt (k + 1) else some k

/-- divisor_sums.h:1000-1003, the quotients below `p_k^2`. -/
def below (n p2 : Nat) (b : α) (Fp : SqrtMap α) : Nat → SqrtMap α → Option (SqrtMap α)
  | 0, Fk => some Fk
  | i + 1, Fk =>
    let m := n / (i + 1)
    if p2 ≤ m then some Fk
    else (Fp.el m).bind fun v => (Fk.set m (b + v)).bind fun Fk => below n p2 b Fp i Fk

/-- divisor_sums.h:1008-1013, the semiprimes. -/
def semi (f : α → Nat → Nat → α) (pa : List Nat) (Fp : SqrtMap α) (m : Nat) : Nat → Nat → α → Option α
  | 0, _, s2 => some s2
  | c + 1, j, s2 =>
    (pa1 pa j).bind fun p =>
      if p * p ≤ m then
        let fp := f 1 p 1
        let fp2 := f fp p 2
        if p = 0 then none
        else (Fp.el (m / p)).bind fun x => (Fp.el p).bind fun y => semi f pa Fp m c (j + 1) (s2 + (fp2 + fp * (x - y)))
      else some s2

/-- divisor_sums.h:986-1017, step 2: the map `F_k` and `last_k`. -/
def step2 (f : α → Nat → Nat → α) (n q c nq : Nat) (pa : List Nat) (psz : Nat) (Fp Fk : SqrtMap α) : Option (SqrtMap α × Nat) :=
  (findK pa c (psz - 1) 1).bind fun k =>
  (pa1 pa k).bind fun p =>
  (Fk.set 0 0).bind fun Fk =>
  (forUp (fun m (Fk : SqrtMap α) => Fk.set m 1) 1 p Fk).bind fun Fk =>
  (Fp.el (p - 1)).bind fun x =>
  let b := 1 - x
  (forUp (fun m (Fk : SqrtMap α) => (Fp.el m).bind fun v => Fk.set m (b + v)) p (q + 1) Fk).bind fun Fk =>
  (below n (p * p) b Fp nq Fk).bind fun Fk =>
  (downTo (fun i (Fk : SqrtMap α) =>
    let m := n / i
    if m < p * p then some Fk
    else (semi f pa Fp m (psz + 1 - k) k 0).bind fun s2 => (Fp.el m).bind fun v => Fk.set m (b + v + s2)) 0 c Fk).bind fun Fk =>
  some (Fk, k)

/-- divisor_sums.h:1023, 1026 the index in the Fenwick tree. -/
def ftIdx (n q tsz m : Nat) : Nat := if m ≤ q then m else tsz - n / m

/-- divisor_sums.h:1021-1024 `get_Ft_k1`. -/
def getFt (n q nd tsz : Nat) (Fk1 : SqrtMap α) (Ft : List α) (m : Nat) : Option α :=
  if nd ≤ m then Fk1.el m else Fenwick.getSum (fun x y => x + y) Ft (ftIdx n q tsz m) 0

/-- divisor_sums.h:1029-1030, adding a value at one place and taking it away at the next. -/
def put (Ft : List α) (i : Nat) (v : α) : Option (List α) :=
  (Fenwick.add (fun x y => x + y) Ft i v).bind fun Ft => Fenwick.add (fun x y => x + y) Ft (i + 1) (-v)

/-- divisor_sums.h:1032-1043, the main loop of step 3 from index `k` down; reading `pa1[0]` is out of bounds.  The result is `F_k`,
`F_k1`, the tree and `last_k`. -/
def loop3 (f : α → Nat → Nat → α) (fuel n q d nd h tsz : Nat) (pa : List Nat) (psz : Nat) :
    Nat → SqrtMap α → SqrtMap α → List α → Nat → Option (SqrtMap α × SqrtMap α × List α × Nat)
  | 0, _, _, _, _ => none
  | k + 1, Fk, Fk1, Ft, last =>
    (pa1 pa (k + 1)).bind fun p =>
      if h < p then
        (downTo (fun i (G : SqrtMap α) =>
          let m := n / i
          (calcFk f fuel p m (getFt n q nd tsz Fk Ft)).bind fun v => G.set m v) 0 d Fk1).bind fun G =>
        (rough f (fun m v Ft => Fenwick.add (fun x y => x + y) Ft (ftIdx n q tsz m) v) pa psz fuel (nd - 1) (k + 1) 1 1 Ft).bind fun Ft =>
        loop3 f fuel n q d nd h tsz pa psz k G Fk Ft (k + 1)
      else some (Fk, Fk1, Ft, last)

/-- divisor_sums.h:1020-1047, step 3: `F_k`, `F_k1` and `last_k`. -/
def step3 (f : α → Nat → Nat → α) (fuel n q d nd h nq tsz : Nat) (pa : List Nat) (psz : Nat) (Fk Fk1 : SqrtMap α) (Ft : List α) (last : Nat) :
    Option (SqrtMap α × SqrtMap α × Nat) :=
  (forUp (fun m (Ft : List α) => (Fk.el m).bind fun v => put Ft m v) 1 (q + 1) Ft).bind fun Ft =>
  (downTo (fun i (Ft : List α) => (Fk.el (n / i)).bind fun v => put Ft (tsz - i) v) d (nq - d) Ft).bind fun Ft =>
  (loop3 f fuel n q d nd h tsz pa psz (last - 1) Fk Fk1 Ft last).bind fun r =>
  (forUp (fun m (G : SqrtMap α) => (getFt n q nd tsz r.2.1 r.2.2.1 m).bind fun v => G.set m v) 0 (q + 1) r.1).bind fun G =>
  (downTo (fun i (G : SqrtMap α) => (getFt n q nd tsz r.2.1 r.2.2.1 (n / i)).bind fun v => G.set (n / i) v) d (nq - d) G).bind fun G =>
  some (G, r.2.1, r.2.2.2)

/-- divisor_sums.h:1050-1064, step 4 from index `k` down. -/
def step4 (f : α → Nat → Nat → α) (fuel n q nq : Nat) (pa : List Nat) : Nat → SqrtMap α → SqrtMap α → Option (SqrtMap α)
  | 0, Fk, _ => some Fk
  | k + 1, Fk, Fk1 =>
    (pa1 pa (k + 1)).bind fun p =>
      (forUp (fun m (G : SqrtMap α) => (calcFk f fuel p m (fun x => Fk.el x)).bind fun v => G.set m v) 1 (q + 1) Fk1).bind fun G =>
      (downTo (fun i (G : SqrtMap α) => (calcFk f fuel p (n / i) (fun x => Fk.el x)).bind fun v => G.set (n / i) v) 0 nq G).bind fun G =>
      step4 f fuel n q nq pa k G Fk

/-- divisor_sums.h:952-1067 `sum_multiplicative`; `fuel` bounds loops and recursion. -/
def sumMultiplicative (sq cb : Nat → Nat) (s1 : Nat → α) (f : α → Nat → Nat → α) (fuel n : Nat) (pa : List Nat) (psz : Nat) : Option (SqrtMap α) :=
  let q := sq n
  let d := cb n
  if d = 0 then none
  else
    let nd := n / d
    (pa1 pa psz).bind fun pl =>
    if pl = 0 then none
    else
      let h := nd / pl + 1
      let nq := n / (q + 1)
      let tsz := q + 1 + nq
      (SqrtMap.mk' 0 q n).bind fun Fp =>
      (SqrtMap.mk' 0 q n).bind fun Fk1 =>
      (SqrtMap.mk' 0 q n).bind fun Fk =>
      let Ft := Fenwick.mk (tsz - d + 1) 0
      if n = 1 then Fk.set 1 1
      else
        (forUp (fun i (Fp : SqrtMap α) => (Fp.set i (s1 i)).bind fun Fp => Fp.set (n / i) (s1 (n / i))) 1 (q + 1) Fp).bind fun Fp =>
        (step2 f n q d nq pa psz Fp Fk).bind fun r =>
        (step3 f fuel n q d nd h nq tsz pa psz r.1 Fk1 Ft r.2).bind fun t =>
        step4 f fuel n q nq pa (t.2.2 - 1) t.1 t.2.1

end Altruct.SumMult
