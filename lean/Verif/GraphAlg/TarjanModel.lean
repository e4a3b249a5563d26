/-
Model of `experimental/include/altruct/algorithm/graph/tarjan_scc.h`.

The tops of the two stacks are the heads of the lists.  `none` is an access out of bounds (also `back()` of an empty vector) or
a loop that has not ended after `fuel` rounds.
-/
import Verif.Common.Vec

namespace Altruct.GraphAlg

/-- tarjan_scc.h:20-26 the local variables. -/
structure Tj where
  cnt : Int
  low : List Int
  idx : List Int
  act : List Int
  sta : List Nat
  vscc : List (List Nat)

/-- tarjan_scc.h:29-30, 42-43 `act[v] = low[v] = idx[v] = cnt++; sta.push_back(v)`. -/
def tjVisit (v : Nat) (t : Tj) : Option Tj := do
  let idx ← wr t.idx v t.cnt
  let low ← wr t.low v t.cnt
  let act ← wr t.act v t.cnt
  some { t with cnt := t.cnt + 1, low := low, idx := idx, act := act, sta := v :: t.sta }

/-- tarjan_scc.h:38-40 the update of `low[u]` for an edge to `v`. -/
def tjLow (u v : Nat) (t : Tj) : Option Tj := do
  let a ← rd t.act v
  if a ≠ -1 then
    let lu ← rd t.low u
    let iv ← rd t.idx v
    let low ← wr t.low u (min lu iv)
    some { t with low := low }
  else some t

/-- tarjan_scc.h:49-54 the do-while loop that takes a component from the stack. -/
def tjPop (u : Nat) : List Nat → List Int → List Nat → Option (List Nat × List Int × List Nat)
  | [], _, _ => none
  | v :: sta, act, scc => do
    let act ← wr act v (-1)
    let scc := scc ++ [v]
    if v ≠ u then tjPop u sta act scc else some (sta, act, scc)

/-- tarjan_scc.h:46-56 closing the component of `u`. -/
def tjClose (u : Nat) (t : Tj) : Option Tj := do
  let lu ← rd t.low u
  let iu ← rd t.idx u
  if lu = iu then
    let (sta, act, scc) ← tjPop u t.sta t.act []
    some { t with sta := sta, act := act, vscc := t.vscc ++ [scc] }
  else some t

/-- tarjan_scc.h:58-61 the update of the parent. -/
def tjUp (v : Nat) (stk : List (Nat × Nat)) (t : Tj) : Option Tj := match stk with
  | [] => some t
  | (u, _) :: _ => do
    let lu ← rd t.low u
    let lv ← rd t.low v
    let low ← wr t.low u (min lu lv)
    some { t with low := low }

/-- tarjan_scc.h:32-63 the loop over the dfs stack. -/
def tjLoop (g : List (List Nat)) : Nat → Tj → List (Nat × Nat) → Option Tj
  | 0, _, _ => none
  | fuel + 1, t, stk => match stk with
    | [] => some t
    | (u, i) :: stk => do
      let es ← rd g u
      if i < es.length then
        let v ← rd es i
        let t ← tjLow u v t
        let iv ← rd t.idx v
        if iv ≠ -1 then tjLoop g fuel t ((u, i + 1) :: stk)
        else do
          let t ← tjVisit v t
          tjLoop g fuel t ((v, 0) :: (u, i + 1) :: stk)
      else do
        let t ← tjClose u t
        let t ← tjUp u stk t
        tjLoop g fuel t stk

/-- tarjan_scc.h:27-64 the loop over the roots. -/
def tjRoots (fuel : Nat) (g : List (List Nat)) : List Nat → Tj → Option Tj
  | [], t => some t
  | o :: os, t => do
    let io ← rd t.idx o
    if io ≠ -1 then tjRoots fuel g os t
    else do
      let t ← tjVisit o t
      let t ← tjLoop g fuel t [(o, 0)]
      tjRoots fuel g os t

/-- tarjan_scc.h:20-26 the initial values. -/
def tjInit (n : Nat) : Tj :=
  { cnt := 0, low := List.replicate n (-1), idx := List.replicate n (-1), act := List.replicate n (-1), sta := [], vscc := [] }

/-- tarjan_scc.h:18-67 `tarjan_scc`. -/
def tarjanScc (fuel : Nat) (g : List (List Nat)) : Option (List (List Nat)) := do
  let t ← tjRoots fuel g (List.range g.length) (tjInit g.length)
  some t.vscc.reverse

end Altruct.GraphAlg
