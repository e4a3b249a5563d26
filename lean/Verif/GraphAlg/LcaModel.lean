/-
Model of `experimental/include/altruct/algorithm/graph/lowest_common_ancestor.h`, on top of the models of `iterative_dfs`
and of `segment_tree`.
-/
import Verif.GraphAlg.DfsModel
import Verif.Container.SegTreeModel

namespace Altruct.GraphAlg

/-- lowest_common_ancestor.h:24 `min_f`: `std::min` of pairs. -/
def pairMin (e1 e2 : Int × Int) : Int × Int := if e2.1 < e1.1 ∨ (e2.1 = e1.1 ∧ e2.2 < e1.2) then e2 else e1

/-- lowest_common_ancestor.h:36 `std::numeric_limits<int>::max()`. -/
def intMax : Int := 2147483647

/-- lowest_common_ancestor.h:39 `if (parent != -1) indices[parent] = s;`. -/
def lcaIndex (ind : List Int) (parent : Int) (s : Nat) : Option (List Int) :=
  if parent ≠ -1 then wr ind parent.toNat (s : Int) else some ind

/-- lowest_common_ancestor.h:39-40 what the visitor does with `e = { depth - 1, parent }`; the state is `s`, `indices` and `levels`. -/
def lcaStep (st : Nat × List Int × List (Int × Int)) (e : Int × Int) : Option (Nat × List Int × List (Int × Int)) :=
  (lcaIndex st.2.1 e.2 st.1).bind fun ind => (SegTree.write st.2.2 st.1 e).map fun lev => (st.1 + 1, ind, lev)

/-- lowest_common_ancestor.h:38-42 the visitor. -/
def lcaVisit : Visitor (Nat × List Int × List (Int × Int)) := fun st _ parent _ depth => (lcaStep st (depth - 1, parent)).map (·, true)

/-- lowest_common_ancestor.h:33-45 the constructor: `indices` and `levels`. -/
def lcaBuild (fuel : Nat) (g : List (List Nat)) : Option (List Int × List (Int × Int)) := do
  let st ← iterativeDfs fuel g lcaVisit (-1) (0, List.replicate g.length (-1), SegTree.mkSize (g.length * 2 + 1) (intMax, -1))
  let lev ← SegTree.write st.2.2 st.1 (-1, -1)
  let lev ← SegTree.rebuild pairMin lev
  some (st.2.1, lev)

/-- lowest_common_ancestor.h:48-51 `depth`. -/
def lcaDepth (t : List Int × List (Int × Int)) (u : Int) : Option Int :=
  if u < 0 then some (-1)
  else do
    let i ← rd t.1 u.toNat
    if i < 0 then some (-1)
    else do
      let e ← SegTree.get1 t.2 i.toNat
      some e.1

/-- lowest_common_ancestor.h:54-58 `ancestor`. -/
def lcaAncestor (t : List Int × List (Int × Int)) (u v : Int) : Option Int :=
  if u < 0 ∨ v < 0 then some (-1)
  else do
    let i ← rd t.1 u.toNat
    let j ← rd t.1 v.toNat
    if i < 0 ∨ j < 0 then some (-1)
    else do
      let (i, j) := if i > j then (j, i) else (i, j)
      let e ← SegTree.get pairMin t.2 i.toNat (j.toNat + 1)
      some e.2

/-- lowest_common_ancestor.h:61-64 `distance`. -/
def lcaDistance (t : List Int × List (Int × Int)) (u v : Int) : Option Int := do
  let a ← lcaAncestor t u v
  if a < 0 then some (-1)
  else do
    let du ← lcaDepth t u
    let da ← lcaDepth t a
    let dv ← lcaDepth t v
    some ((du - da) + (dv - da))

end Altruct.GraphAlg
