/-
Model of `include/altruct/structure/math/permutation.h`.

The elements, indices and sizes (type `I`) are natural numbers.
-/
import Verif.Common.Vec

namespace Altruct.Permutation

/-- permutation.h:24-31 the members: cycle notation and the number of elements. -/
structure Perm where
  cycles : List (List Nat)
  n : Nat
deriving DecidableEq, Repr

/-- permutation.h:158-164 `identity_line`: the loop writes `line[i] = i`. -/
def identityLoop : Nat → Nat → List Nat → Option (List Nat)
  | 0, _, line => some line
  | k + 1, i, line => do
    let line ← wr line i i
    identityLoop k (i + 1) line

/-- permutation.h:158-164 `identity_line`. -/
def identityLine (n : Nat) : Option (List Nat) := identityLoop n 0 (List.replicate n 0)

/-- permutation.h:166-171 `expand_line`: `k` more elements, `line.size()` is `i`. -/
def expandLoop : Nat → Nat → List Nat → List Nat
  | 0, _, line => line
  | k + 1, i, line => expandLoop k (i + 1) (line ++ [i])

/-- permutation.h:166-171 `expand_line`. -/
def expandLine (line : List Nat) (n : Nat) : List Nat :=
  expandLoop (n - line.length) line.length line

/-- permutation.h:177, 206 `std::swap(line[a], line[b])`. -/
def swapAt (line : List Nat) (a b : Nat) : Option (List Nat) := do
  let x ← rd line a
  let y ← rd line b
  let line ← wr line a y
  wr line b x

/-- permutation.h:176-178 the swaps of one cycle, from the element `a = c[i - 1]` on. -/
def swapCycle (line : List Nat) : Nat → List Nat → Option (List Nat)
  | _, [] => some line
  | a, b :: c => do
    let line ← swapAt line a b
    swapCycle line b c

/-- permutation.h:175-179 the loop over the cycles. -/
def swapCycles (line : List Nat) : List (List Nat) → Option (List Nat)
  | [] => some line
  | [] :: cs => swapCycles line cs
  | (a :: c) :: cs => do
    let line ← swapCycle line a c
    swapCycles line cs

/-- permutation.h:173-181 `apply_cycles_to_line`. -/
def applyCyclesToLine (line : List Nat) (cycles : List (List Nat)) (n : Nat) : Option (List Nat) :=
  swapCycles (expandLine line n) cycles

/-- permutation.h:183-186 `cycles_to_line`. -/
def cyclesToLine (cycles : List (List Nat)) (n : Nat) : Option (List Nat) := do
  let line ← identityLine n
  applyCyclesToLine line cycles n

/-- permutation.h:195-198 and 79-82: the loop that follows a cycle.  `elem j` is the element at
the loop variable `j` (`j` itself, or `cycle[j]`), `next j` the new loop variable (`line[j]`, or
`(j + T) % L`), `u` the marks of the visited elements, `c` the elements collected.  `none`: an
access out of bounds, or more iterations than `fuel`. -/
def walk (elem next : Nat → Option Nat) : Nat → Nat → List Bool → List Nat →
    Option (List Bool × List Nat)
  | 0, _, _, _ => none
  | fuel + 1, j, u, c => do
    let e ← elem j
    let b ← rd u e
    if b then some (u, c)
    else do
      let u ← wr u e true
      let j ← next j
      walk elem next fuel j u (c ++ [e])

/-- permutation.h:192-200 the outer loop of `line_to_cycles`. -/
def lineLoop (line : List Nat) : Nat → Nat → List Bool → List (List Nat) →
    Option (List (List Nat))
  | 0, _, _, cs => some cs
  | k + 1, i, u, cs => do
    let b ← rd u i
    if b then lineLoop line k (i + 1) u cs
    else do
      let (u, c) ← walk some (rd line) (line.length + 1) i u []
      lineLoop line k (i + 1) u (if c.length > 1 then cs ++ [c] else cs)

/-- permutation.h:188-202 `line_to_cycles`. -/
def lineToCycles (line : List Nat) : Option (List (List Nat)) :=
  lineLoop line line.length 0 (List.replicate line.length false) []

/-- permutation.h:38 construction from line notation. -/
def ofLine (line : List Nat) : Option Perm := do
  let cs ← lineToCycles line
  some ⟨cs, line.length⟩

/-- permutation.h:47 `to_line`. -/
def toLine (p : Perm) : Option (List Nat) := cyclesToLine p.cycles p.n

/-- permutation.h:34, 255-258 the identity permutation. -/
def one (n : Nat) : Perm := ⟨[], n⟩

/-- permutation.h:68 `apply_to`. -/
def applyTo (p : Perm) (line : List Nat) : Option (List Nat) :=
  applyCyclesToLine line p.cycles p.n

/-- permutation.h:60 `operator *`. -/
def mul (p1 p2 : Perm) : Option Perm := do
  let line ← toLine p2
  let line ← applyTo p1 line
  ofLine line

/-- permutation.h:92-94 reverse all but the first element of every cycle.  `c.begin() + 1` of
an empty cycle is undefined. -/
def invLoop : List (List Nat) → Option (List (List Nat))
  | [] => some []
  | [] :: _ => none
  | (a :: c) :: cs => do
    let cs ← invLoop cs
    some ((a :: c.reverse) :: cs)

/-- permutation.h:90-96 `inv`. -/
def inv (p : Perm) : Option Perm := do
  let cs ← invLoop p.cycles
  some ⟨cs, p.n⟩

/-- permutation.h:64 `operator /`. -/
def div (p1 p2 : Perm) : Option Perm := do
  let q ← inv p2
  mul p1 q

/-- permutation.h:77-84 the loop over the positions of one cycle in `pow`.  (`j + T` is
unbounded here.) -/
def powCycle (cycle : List Nat) (T n : Nat) : Nat → Nat → List Bool → List (List Nat) →
    Option (List Bool × List (List Nat))
  | 0, _, u, vc => some (u, vc)
  | k + 1, i, u, vc => do
    let (u, c) ← walk (rd cycle) (fun j => some ((j + T) % cycle.length)) (n + 1) i u []
    powCycle cycle T n k (i + 1) u (if c.length > 1 then vc ++ [c] else vc)

/-- permutation.h:75-85 the loop over the cycles in `pow`. -/
def powLoop (T n : Nat) : List (List Nat) → List Bool → List (List Nat) →
    Option (List (List Nat))
  | [], _, vc => some vc
  | cycle :: cs, u, vc => do
    let (u, vc) ← powCycle cycle T n cycle.length 0 u vc
    powLoop T n cs u vc

/-- permutation.h:73-86 `pow` for `T ≥ 0`. -/
def powNat (p : Perm) (T : Nat) : Option Perm := do
  let vc ← powLoop T p.n p.cycles (List.replicate p.n false) []
  some ⟨vc, p.n⟩

/-- permutation.h:71-87 `pow`.  (`-T` is unbounded here.) -/
def pow (p : Perm) (T : Int) : Option Perm :=
  if T < 0 then do
    let q ← inv p
    powNat q (-T).toNat
  else powNat p T.toNat

/-- permutation.h:148-150 mark the elements of a cycle. -/
def markCycle : List Nat → List Bool → Option (List Bool)
  | [], u => some u
  | e :: c, u => do
    let u ← wr u e true
    markCycle c u

/-- permutation.h:147-151 mark the elements of the cycles. -/
def markCycles : List (List Nat) → List Bool → Option (List Bool)
  | [], u => some u
  | c :: cs, u => do
    let u ← markCycle c u
    markCycles cs u

/-- permutation.h:152-154 append the 1-cycles. -/
def onesLoop (u : List Bool) : Nat → Nat → List (List Nat) → Option (List (List Nat))
  | 0, _, vc => some vc
  | k + 1, i, vc => do
    let b ← rd u i
    onesLoop u k (i + 1) (if b then vc else vc ++ [[i]])

/-- permutation.h:144-156 `all_cycles`. -/
def allCycles (cycles : List (List Nat)) (n : Nat) : Option (List (List Nat)) := do
  let u ← markCycles cycles (List.replicate n false)
  onesLoop u n 0 cycles

/-- permutation.h:223-225 the transpositions of one cycle, from `a = c[i - 1]` on. -/
def cycleTranspositions : Nat → List Nat → List (Nat × Nat)
  | _, [] => []
  | a, b :: c => (a, b) :: cycleTranspositions b c

/-- permutation.h:220-228 `cycles_to_transpositions`. -/
def cyclesToTranspositions : List (List Nat) → List (Nat × Nat)
  | [] => []
  | [] :: cs => cyclesToTranspositions cs
  | (a :: c) :: cs => cycleTranspositions a c ++ cyclesToTranspositions cs

/-- permutation.h:204-209 `apply_transpositions_to_line`. -/
def applyTranspositionsToLine (line : List Nat) : List (Nat × Nat) → Option (List Nat)
  | [] => some line
  | (a, b) :: ts => do
    let line ← swapAt line a b
    applyTranspositionsToLine line ts

/-- permutation.h:211-214 `transpositions_to_line`. -/
def transpositionsToLine (ts : List (Nat × Nat)) (n : Nat) : Option (List Nat) := do
  let line ← identityLine n
  applyTranspositionsToLine line ts

/-- permutation.h:40 construction from transpositions. -/
def ofTranspositions (ts : List (Nat × Nat)) (n : Nat) : Option Perm := do
  let line ← transpositionsToLine ts n
  ofLine line

/-- permutation.h:216-218 `line_to_transpositions`. -/
def lineToTranspositions (line : List Nat) : Option (List (Nat × Nat)) := do
  let cs ← lineToCycles line
  some (cyclesToTranspositions cs)

/-- permutation.h:244-251 `size` of a list of transpositions. -/
def sizeTranspositions (ts : List (Nat × Nat)) : Nat :=
  ts.foldl (fun n t => max (max n (t.1 + 1)) (t.2 + 1)) 0

/-- permutation.h:234-242 `size` of a list of cycles. -/
def sizeCycles (cycles : List (List Nat)) : Nat :=
  cycles.foldl (fun n c => c.foldl (fun n e => max n (e + 1)) n) 0

/-- permutation.h:230-232 `transpositions_to_cycles`. -/
def transpositionsToCycles (ts : List (Nat × Nat)) : Option (List (List Nat)) := do
  let line ← transpositionsToLine ts (sizeTranspositions ts)
  lineToCycles line

end Altruct.Permutation
