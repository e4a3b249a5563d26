/-
Model of `primes` from `src/algorithm/math/primes.cpp`.

The function works on memory it gets through two pointers, one of which may be null.  It is
modelled over an interface `Mem` of the accesses it makes; the three ways of calling it are
three instances: both arrays given, only `q` given, only `p` given (then the flags share the
memory of `p`).
-/
import Verif.Common.Vec

namespace Altruct.Primes

/-- The accesses `q[i]`, `q[i] = x` and `if (p) p[k] = x`; `none` is an access out of
bounds. -/
structure Mem (σ : Type) where
  rq : σ → Nat → Option Nat
  wq : σ → Nat → Nat → Option σ
  wp : σ → Nat → Nat → Option σ

/-- Both `p` and `q` are given: two separate arrays. -/
def both : Mem (List Nat × List Nat) where
  rq s i := rd s.2 i
  wq s i x := (wr s.2 i x).map fun q => (s.1, q)
  wp s k x := (wr s.1 k x).map fun p => (p, s.2)

/-- `p` is null. -/
def onlyQ : Mem (List Nat) where
  rq s i := rd s i
  wq s i x := wr s i x
  wp s _ _ := some s

/-- `*(int*)(s + a) = x` for 4-byte little-endian integers. -/
def wr32 (s : List Nat) (a x : Nat) : Option (List Nat) :=
  (wr s a (x % 256)).bind fun s => (wr s (a + 1) (x / 256 % 256)).bind fun s =>
    (wr s (a + 2) (x / 65536 % 256)).bind fun s => wr s (a + 3) (x / 16777216 % 256)

/-- `*(int*)(s + a)` for 4-byte little-endian integers. -/
def rd32 (s : List Nat) (a : Nat) : Option Nat :=
  match rd s a, rd s (a + 1), rd s (a + 2), rd s (a + 3) with
  | some b0, some b1, some b2, some b3 => some (b0 + 256 * b1 + 65536 * b2 + 16777216 * b3)
  | _, _, _, _ => none

/-- primes.cpp:14 `q` is null: the state is the bytes of the array `p`, and
`q = (char *) (p + n) - n` starts at byte `4 n - n`. -/
def shared (n : Nat) : Mem (List Nat) where
  rq s i := rd s (4 * n - n + i)
  wq s i x := wr s (4 * n - n + i) x
  wp s k x := wr32 s (4 * k) x

variable {σ : Type}

/-- primes.cpp:18-20 `for (int i = 2; i < n; i++) q[i] = 1;`. -/
def initLoop (M : Mem σ) (n : Nat) (s : σ) (i : Nat) : Option σ :=
  if i < n then
    match M.wq s i 1 with
    | none => none
    | some s => initLoop M n s (i + 1)
  else some s
termination_by n - i

/-- primes.cpp:28-29 `for (int j = i * i; j < n; j += i) q[j] = 0;`.  `lim` is the largest
value of `int`: an overflow of `j += i` is `none`.  (`i = 0` would not terminate.) -/
def crossLoop (M : Mem σ) (lim n i : Nat) (s : σ) (j : Nat) : Option σ :=
  if j < n then
    match M.wq s j 0 with
    | none => none
    | some s => if lim < j + i ∨ i = 0 then none else crossLoop M lim n i s (j + i)
  else some s
termination_by n - j
decreasing_by omega

/-- primes.cpp:23-30 the sieving loop: the state and the number of primes found. -/
def sieveLoop (M : Mem σ) (lim n : Nat) (s : σ) (m i : Nat) : Option (σ × Nat) :=
  if i < n then
    match M.rq s i with
    | none => none
    | some q =>
      if q = 0 then sieveLoop M lim n s m (i + 1)
      else
        match M.wp s m i with
        | none => none
        | some s =>
          if i > n / i then sieveLoop M lim n s (m + 1) (i + 1)
          else
            match crossLoop M lim n i s (i * i) with
            | none => none
            | some s => sieveLoop M lim n s (m + 1) (i + 1)
  else some (s, m)
termination_by n - i

/-- primes.cpp:11-33 `primes`. -/
def primes (M : Mem σ) (lim n : Nat) (s : σ) : Option (σ × Nat) :=
  (if n > 0 then M.wq s 0 0 else some s).bind fun s =>
    (if n > 1 then M.wq s 1 0 else some s).bind fun s =>
      (initLoop M n s 2).bind fun s =>
        (sieveLoop M lim n s 0 2).bind fun r =>
          (M.wp r.1 r.2 0).map fun s => (s, r.2)

end Altruct.Primes
