/-
Model of `experimental/include/altruct/algorithm/graph/hungarian.h`.

Costs are unbounded integers.  All the vectors hold integers, `-1` and `-2` marking missing vertices as in the code.
`none` is an access out of bounds or a loop that does not end.
-/
import Verif.Common.Vec
import Verif.Common.Loop

namespace Altruct.Hungarian

/-- The working state (hungarian.h 77-85). -/
structure St where
  S : List Int
  T : List Int
  lx : List Int
  ly : List Int
  slack : List Int
  slackx : List Int
  prev : List Int
  q : List Int
  xy : List Int
  yx : List Int

/-- The object (hungarian.h 72-85): `n`, `logSZ`, the cost matrix and the working state. -/
structure Obj where
  n : Nat
  logSZ : Nat
  c : List Int
  st : St

/-- A freshly constructed object (hungarian.h 74-85). -/
def empty : Obj := ⟨0, 0, [], ⟨[], [], [], [], [], [], [], [], [], []⟩⟩

/-- `std::vector::resize`. -/
def resizeV (v : List Int) (m : Nat) : List Int := v.take m ++ List.replicate (m - v.length) 0

/-- `while ((1 << logSZ) < n) logSZ++;` (hungarian.h 28). -/
def growLog (n : Nat) : Nat → Nat → Option Nat
  | 0, _ => none
  | fuel + 1, l => if 2 ^ l < n then growLog n fuel (l + 1) else some l

/-- `resize` (hungarian.h 26-41). -/
def resize (h : Obj) (n : Nat) : Option Obj :=
  (growLog n (n + 2) h.logSZ).map fun l =>
    let sz := 2 ^ l
    ⟨n, l, resizeV h.c (sz * sz), ⟨resizeV h.st.S sz, resizeV h.st.T sz, resizeV h.st.lx sz, resizeV h.st.ly sz, resizeV h.st.slack sz,
      resizeV h.st.slackx sz, resizeV h.st.prev sz, resizeV h.st.q sz, resizeV h.st.xy sz, resizeV h.st.yx sz⟩⟩

/-- `cost(x, y)` read (hungarian.h 43-45). -/
def costAt (sz : Nat) (c : List Int) (x y : Nat) : Option Int := rd c (x * sz + y)

/-- `cost(x, y)` (hungarian.h 43-45). -/
def cost (h : Obj) (x y : Nat) : Option Int := costAt (2 ^ h.logSZ) h.c x y

/-- `cost(x, y) = v` (hungarian.h 43-45). -/
def setCost (h : Obj) (x y : Nat) (v : Int) : Option Obj := (wr h.c (x * 2 ^ h.logSZ + y) v).map fun c => { h with c := c }

/-- `negate_cost` (hungarian.h 86-92). -/
def negateCost (h : Obj) : Option Obj :=
  forUp (fun x h => forUp (fun y h => (cost h x y).bind fun v => setCost h x y (-v)) 0 h.n h) 0 h.n h

/-- An integer used as an index. -/
def ix (v : Int) : Option Nat := if v < 0 then none else some v.toNat

/-- `for (; y < n; y++)` with `break`; the body returns `true` to break.  The result is the last value of `y` and the state. -/
def forBrk {σ : Type} (body : Nat → σ → Option (Bool × σ)) : Nat → Nat → σ → Option (Nat × σ)
  | 0, y, s => some (y, s)
  | k + 1, y, s => (body y s).bind fun r => if r.1 then some (y, r.2) else forBrk body k (y + 1) r.2

/-- `for (i = 0; i < n; i++) v[i] = f(i, v[i]);`; where the code skips an element, the same value is written back. -/
def updN (f : Nat → Int → Option Int) (n : Nat) (v : List Int) : Option (List Int) :=
  forUp (fun i v => (rd v i).bind fun x => (f i x).bind fun x => wr v i x) 0 n v

/-- `for (i = 0; i < n; i++) v[i] = x;`. -/
def fillN (x : Int) (n : Nat) (v : List Int) : Option (List Int) := forUp (fun i v => wr v i x) 0 n v

/-- The body of the slack update (hungarian.h 99-105). -/
def relax (sz : Nat) (c : List Int) (x y : Nat) (st : St) : Option St :=
  (rd st.lx x).bind fun a => (rd st.ly y).bind fun b => (costAt sz c x y).bind fun w => (rd st.slack y).bind fun s0 =>
    if a + b - w < s0 then (wr st.slack y (a + b - w)).bind fun sl => (wr st.slackx y (x : Int)).map fun sx => { st with slack := sl, slackx := sx }
    else some st

/-- `add_to_tree` (hungarian.h 94-106). -/
def addToTree (n sz : Nat) (c : List Int) (x : Nat) (prevx : Int) (st : St) : Option St :=
  (wr st.S x 1).bind fun S => (wr st.prev x prevx).bind fun prev => forUp (relax sz c x) 0 n { st with S := S, prev := prev }

/-- Appending the partner `v` of `y` to the tree and to the queue (hungarian.h 148-149, 183-184). -/
def grow (n sz : Nat) (c : List Int) (v : Int) (prevx : Int) (st : St) (w : Nat) : Option (St × Nat) :=
  (wr st.q w v).bind fun q => (ix v).bind fun x' => (addToTree n sz c x' prevx { st with q := q }).map fun st => (st, w + 1)

/-- One edge of the breadth-first search (hungarian.h 145-150). -/
def scanStep (n sz : Nat) (c : List Int) (x : Nat) (y : Nat) (s : St × Nat) : Option (Bool × (St × Nat)) :=
  (rd s.1.T y).bind fun t => if t ≠ 0 then some (false, s) else
    (costAt sz c x y).bind fun w => (rd s.1.lx x).bind fun a => (rd s.1.ly y).bind fun b => if w ≠ a + b then some (false, s) else
      (rd s.1.yx y).bind fun v => if v = -1 then some (true, s) else
        (wr s.1.T y 1).bind fun T => (grow n sz c v (x : Int) { s.1 with T := T } s.2).map fun s => (false, s)

/-- The breadth-first search (hungarian.h 142-153): the result is `x`, `y`, the state and the write index. -/
def bfs (n sz : Nat) (c : List Int) : Nat → Nat → Nat → Nat → St × Nat → Option (Nat × Nat × (St × Nat))
  | 0, _, _, _, _ => none
  | fuel + 1, r, x, y, s =>
    if r < s.2 then (rd s.1.q r).bind fun v => (ix v).bind fun x => (forBrk (scanStep n sz c x) n 0 s).bind fun p =>
      if p.1 < n then some (x, p.1, p.2) else bfs n sz c fuel (r + 1) x p.1 p.2
    else some (x, y, s)

/-- The first slack outside `T` (hungarian.h 157-159). -/
def delta0 (n : Nat) (st : St) : Option Int :=
  (forBrk (fun y (d : Int) => (rd st.T y).bind fun t => if t ≠ 0 then some (false, d) else (rd st.slack y).map fun s => (true, s)) n 0 0).map Prod.snd

/-- The least slack outside `T` (hungarian.h 160-161). -/
def calcDelta (n : Nat) (st : St) : Option Int :=
  (delta0 n st).bind fun d => forUp (fun y d => (rd st.T y).bind fun t => if t ≠ 0 then some d else (rd st.slack y).map fun s => min d s) 0 n d

/-- The new labels (hungarian.h 162-167). -/
def improve (n : Nat) (st : St) : Option St :=
  (calcDelta n st).bind fun d =>
    (updN (fun y s => (rd st.T y).map fun t => if t = 0 then s - d else s) n st.slack).bind fun slack =>
    (updN (fun x l => (rd st.S x).map fun t => if t ≠ 0 then l - d else l) n st.lx).bind fun lx =>
    (updN (fun y l => (rd st.T y).map fun t => if t ≠ 0 then l + d else l) n st.ly).map fun ly => { st with slack := slack, lx := lx, ly := ly }

/-- The new edges (hungarian.h 170-188): the state holds `x` as well. -/
def addStep (n sz : Nat) (c : List Int) (y : Nat) (s : Int × (St × Nat)) : Option (Bool × (Int × (St × Nat))) :=
  (rd s.2.1.T y).bind fun t => (rd s.2.1.slack y).bind fun sl => if t ≠ 0 ∨ sl ≠ 0 then some (false, s) else
    (rd s.2.1.yx y).bind fun v => (rd s.2.1.slackx y).bind fun x => if v = -1 then some (true, (x, s.2)) else
      (wr s.2.1.T y 1).bind fun T => (ix v).bind fun x' => (rd s.2.1.S x').bind fun sx =>
        if sx = 0 then (grow n sz c v x { s.2.1 with T := T } s.2.2).map fun s' => (false, (s.1, s'))
        else some (false, (s.1, ({ s.2.1 with T := T }, s.2.2)))

/-- The main cycle (hungarian.h 141-190): the result is `x`, `y` and the state. -/
def mainCycle (n sz : Nat) (c : List Int) : Nat → Nat → Nat → St × Nat → Option (Int × Nat × St)
  | 0, _, _, _ => none
  | fuel + 1, x, y, s => (bfs n sz c (n + 2) 0 x y s).bind fun p =>
    if p.2.1 < n then some ((p.1 : Int), p.2.1, p.2.2.1) else
      (improve n p.2.2.1).bind fun st => (forBrk (addStep n sz c) n 0 ((n : Int), (st, 0))).bind fun r =>
        if r.1 < n then some (r.2.1, r.1, r.2.2.1) else mainCycle n sz c fuel n r.1 r.2.2

/-- Inverting the edges along the path (hungarian.h 192-196). -/
def augment : Nat → Int → Int → St → Option St
  | 0, _, _, _ => none
  | fuel + 1, x, y, st => if x = -2 then some st else
    (ix x).bind fun i => (rd st.xy i).bind fun ty => (ix y).bind fun j => (wr st.yx j x).bind fun yx => (wr st.xy i y).bind fun xy =>
      (rd st.prev i).bind fun x => augment fuel x ty { st with yx := yx, xy := xy }

/-- The root of the tree (hungarian.h 126-134): the result is `x`. -/
def findRoot (n : Nat) (s : St × Nat) : Option (Nat × (St × Nat)) :=
  forBrk (fun x (s : St × Nat) => (rd s.1.xy x).bind fun v => if v ≠ -1 then some (false, s) else
    (wr s.1.q s.2 (x : Int)).bind fun q => (wr s.1.prev x (-2)).bind fun prev => (wr s.1.S x 1).map fun S =>
      (true, ({ s.1 with q := q, prev := prev, S := S }, s.2 + 1))) n 0 s

/-- The initial slacks (hungarian.h 136-139). -/
def initSlack (n sz : Nat) (c : List Int) (x : Nat) (st : St) : Option St :=
  forUp (fun y (st : St) => (rd st.lx x).bind fun a => (rd st.ly y).bind fun b => (costAt sz c x y).bind fun w =>
    (wr st.slack y (a + b - w)).bind fun sl => (wr st.slackx y (x : Int)).map fun sx => { st with slack := sl, slackx := sx }) 0 n st

/-- One phase (hungarian.h 122-196). -/
def phase (n sz : Nat) (c : List Int) (st : St) : Option St :=
  (fillN 0 n st.S).bind fun S => (fillN 0 n st.T).bind fun T => (fillN (-1) n st.prev).bind fun prev =>
    (findRoot n ({ st with S := S, T := T, prev := prev }, 0)).bind fun r => (initSlack n sz c r.1 r.2.1).bind fun st =>
      (mainCycle n sz c (n + 2) r.1 n (st, r.2.2)).bind fun m => augment (n + 2) m.1 (m.2.1 : Int) m.2.2

/-- The largest cost of a row (hungarian.h 115-118). -/
def rowMax (n sz : Nat) (c : List Int) (x : Nat) : Option Int :=
  (costAt sz c x 0).bind fun m => forUp (fun y m => (costAt sz c x y).map fun w => max m w) 0 n m

/-- `calc_max_cost_impl` (hungarian.h 108-198). -/
def calcImpl (n sz : Nat) (c : List Int) (st : St) : Option St :=
  (fillN (-1) n st.xy).bind fun xy => (fillN (-1) n st.yx).bind fun yx => (fillN 0 n st.ly).bind fun ly =>
    (updN (fun x _ => rowMax n sz c x) n st.lx).bind fun lx =>
      forUp (fun _ st => phase n sz c st) 0 n { st with xy := xy, yx := yx, ly := ly, lx := lx }

/-- `calc_max_cost` (hungarian.h 54-61). -/
def calcMax (h : Obj) : Option (Int × Obj) :=
  (calcImpl h.n (2 ^ h.logSZ) h.c h.st).bind fun st =>
    (forUp (fun x r => (rd st.xy x).bind fun v => (ix v).bind fun y => (costAt (2 ^ h.logSZ) h.c x y).map fun w => r + w) 0 h.n 0).map fun r =>
      (r, { h with st := st })

/-- `calc_min_cost` (hungarian.h 47-52). -/
def calcMin (h : Obj) : Option (Int × Obj) :=
  (negateCost h).bind fun h => (calcMax h).bind fun r => (negateCost r.2).map fun h => (-r.1, h)

/-- `get_matches_for_x` (hungarian.h 63-65). -/
def matchesX (h : Obj) : List Int := h.st.xy

/-- `get_matches_for_y` (hungarian.h 67-69). -/
def matchesY (h : Obj) : List Int := h.st.yx

/-- The object with the given cost matrix, set by `resize` and `cost(x, y) = …` (hungarian.h 15-19, the documented usage). -/
def load (h : Obj) (n : Nat) (m : Nat → Nat → Int) : Option Obj :=
  (resize h n).bind fun h => forUp (fun x h => forUp (fun y h => setCost h x y (m x y)) 0 n h) 0 n h

end Altruct.Hungarian
