/-
Model of `heavy_light_decomposition_ex` (heavy_light_decomposition.h:100-184).

`none` is an access out of bounds (also at a negative index) or a loop that has not ended after `fuel` rounds.
-/
import Verif.Hld.Model

namespace Altruct.Hld

open GraphAlg

/-- The members of heavy_light_decomposition.h:102-103. -/
structure Ex where
  lca : List Int × List (Int × Int)
  hld : Hld

/-- heavy_light_decomposition.h:106-109 the constructor: first `lca(g)`, then `hld(g)`, which changes the graph. -/
def buildEx (fuel : Nat) (g : List (List Nat)) : Option (List (List Nat) × Ex) :=
  (lcaBuild fuel g).bind fun t => (build fuel g).map fun r => (r.1, ⟨t, r.2⟩)

/-- heavy_light_decomposition.h:115 `hld.parent(u)` for any `int`. -/
def Ex.chain (x : Ex) (u : Int) : Option Int := if u < 0 then none else x.hld.parent u.toNat

/-- heavy_light_decomposition.h:116 `hld.position(u)` for any `int`. -/
def Ex.position (x : Ex) (u : Int) : Option Int := if u < 0 then none else x.hld.position u.toNat

/-- heavy_light_decomposition.h:125-131 the loop of `parent(u, k)`. -/
def kthLoop (x : Ex) (d : Int) : Nat → Int → Option Int
  | 0, _ => none
  | fuel + 1, u => (x.chain u).bind fun p => (lcaDepth x.lca p).bind fun dp =>
    if dp < d then (x.position u).bind fun pos => (lcaDepth x.lca u).bind fun du => x.hld.node (pos - (du - d))
    else kthLoop x d fuel p

/-- heavy_light_decomposition.h:122-132 `parent(u, k)`. -/
def Ex.parentK (x : Ex) (fuel : Nat) (u k : Int) : Option Int :=
  (lcaDepth x.lca u).bind fun du => if k < 0 ∨ du < k then some (-1) else kthLoop x (du - k) fuel u

/-- The arguments of one call of the visitor, heavy_light_decomposition.h:134. -/
structure Seg where
  chainBegin : Int
  chainEnd : Int
  pathFirst : Int
  pathLast : Int
  pathLength : Int
  direction : Bool
  deriving DecidableEq, Repr

/-- heavy_light_decomposition.h:151-154 and 161-164 `p`, `len` and `end_pos`. -/
def climbStep (x : Ex) (a w : Int) : Option (Int × Int × Int) :=
  (x.chain w).bind fun p => (lcaDepth x.lca p).bind fun dp => (lcaDepth x.lca a).bind fun da =>
  let p := if dp < da then a else p
  (lcaDepth x.lca w).bind fun dw => (lcaDepth x.lca p).bind fun dp => (x.position w).map fun pos => (p, dw - dp, pos + 1)

/-- heavy_light_decomposition.h:150-158 going up from `u` to `a`: the calls of the visitor. -/
def fromU (x : Ex) (u a uv : Int) : Nat → Int → Option (List Seg)
  | 0, _ => none
  | fuel + 1, w =>
    if w = a then some []
    else (climbStep x a w).bind fun s => (lcaDepth x.lca u).bind fun du => (lcaDepth x.lca w).bind fun dw =>
      (fromU x u a uv fuel s.1).map (⟨s.2.2 - s.2.1, s.2.2, du - dw + s.2.1 - 1, du - dw, uv, true⟩ :: ·)

/-- heavy_light_decomposition.h:160-168 going up from `v` to `a`: the calls of the visitor. -/
def fromV (x : Ex) (v a uv : Int) : Nat → Int → Option (List Seg)
  | 0, _ => none
  | fuel + 1, w =>
    if w = a then some []
    else (climbStep x a w).bind fun s => (lcaDepth x.lca v).bind fun dv => (lcaDepth x.lca w).bind fun dw =>
      (fromV x v a uv fuel s.1).map (⟨s.2.2 - s.2.1, s.2.2, uv - (dv - dw) - s.2.1, uv - (dv - dw) - 1, uv, false⟩ :: ·)

/-- heavy_light_decomposition.h:169-173 the call for the ancestor. -/
def atA (x : Ex) (u a uv : Int) : Option Seg :=
  (x.position a).bind fun pos => (lcaDepth x.lca u).bind fun du => (lcaDepth x.lca a).map fun da =>
    ⟨pos, pos + 1, du - da, du - da, uv, false⟩

/-- heavy_light_decomposition.h:146-175 `walk`: the calls of the visitor and the result.  The visitor is taken to leave the object alone. -/
def Ex.walk (x : Ex) (fuel : Nat) (u v : Int) (includeAncestor : Bool) : Option (List Seg × Int) :=
  (lcaAncestor x.lca u v).bind fun a => (lcaDistance x.lca u v).bind fun d =>
  let uv := d + (if includeAncestor then 1 else 0)
  (fromU x u a uv fuel u).bind fun l1 => (fromV x v a uv fuel v).bind fun l2 =>
    if includeAncestor then (atA x u a uv).map fun s => (l1 ++ l2 ++ [s], uv)
    else some (l1 ++ l2, uv)

/-- heavy_light_decomposition.h:177-179 `walk_nodes`. -/
def Ex.walkNodes (x : Ex) (fuel : Nat) (u v : Int) : Option (List Seg × Int) := x.walk fuel u v true

/-- heavy_light_decomposition.h:181-183 `walk_edges`. -/
def Ex.walkEdges (x : Ex) (fuel : Nat) (u v : Int) : Option (List Seg × Int) := x.walk fuel u v false

end Altruct.Hld
