/-
Model of `experimental/include/altruct/algorithm/graph/push_relabel_flow.h`.

Capacities and flows are unbounded integers, heights are natural numbers not above `INT_MAX`.  `none` is an access out of
bounds, an overflow of a height or a loop that has not ended after `fuel` rounds.
-/
import Verif.GraphAlg.DinicModel

namespace Altruct.PushRelabel

open GraphAlg

/-- push_relabel_flow.h:21-25 the fields a calculation works on. -/
structure St where
  flow : List (List Int)
  height : List Nat
  excess : List Int
  seen : List Nat

/-- push_relabel_flow.h:113 `std::numeric_limits<int>::max()`. -/
def intMax : Nat := 2147483647

/-- push_relabel_flow.h:103-109 `push`. -/
def push (cap : List (List Int)) (u v : Nat) (s : St) : Option St :=
  (rd s.excess u).bind fun e => (rd2 cap u v).bind fun c => (rd2 s.flow u v).bind fun x =>
  let send := min e (c - x)
  (wr2 s.flow u v (x + send)).bind fun flow => (rd2 flow v u).bind fun y => (wr2 flow v u (y - send)).bind fun flow =>
  (wr s.excess u (e - send)).bind fun excess => (rd excess v).bind fun e2 => (wr excess v (e2 + send)).map fun excess =>
  { s with flow := flow, excess := excess }

/-- push_relabel_flow.h:114-119 the loop of `relabel`: the neighbours still to look at, `min_height` and `height`. -/
def relabelLoop (cap flow : List (List Int)) (u : Nat) : List Nat → Nat → List Nat → Option (List Nat)
  | [], _, height => some height
  | v :: vs, mh, height => (rd2 cap u v).bind fun c => (rd2 flow u v).bind fun x =>
    if c - x > 0 then (rd height v).bind fun hv =>
      let mh := min mh hv
      if mh + 1 > intMax then none else (wr height u (mh + 1)).bind fun height => relabelLoop cap flow u vs mh height
    else relabelLoop cap flow u vs mh height

/-- push_relabel_flow.h:111-120 `relabel`. -/
def relabel (cap : List (List Int)) (adjl : List (List Nat)) (u : Nat) (s : St) : Option St :=
  (rd adjl u).bind fun vs => (relabelLoop cap s.flow u vs intMax s.height).map fun height => { s with height := height }

/-- push_relabel_flow.h:124-136 the loop of `discharge`: the state and `it`. -/
def dischargeLoop (cap : List (List Int)) (adjl : List (List Nat)) (u : Nat) : Nat → Nat → St → Option (St × Nat)
  | 0, _, _ => none
  | fuel + 1, it, s => (rd s.excess u).bind fun e =>
    if e > 0 then (rd adjl u).bind fun vs =>
      if it < vs.length then (rd vs it).bind fun v => (rd2 cap u v).bind fun c => (rd2 s.flow u v).bind fun x =>
        (rd s.height u).bind fun hu => (rd s.height v).bind fun hv =>
        if c - x > 0 ∧ hu > hv then (push cap u v s).bind fun s => dischargeLoop cap adjl u fuel it s
        else dischargeLoop cap adjl u fuel (it + 1) s
      else (relabel cap adjl u s).bind fun s => dischargeLoop cap adjl u fuel 0 s
    else some (s, it)

/-- push_relabel_flow.h:122-138 `discharge`. -/
def discharge (fuel : Nat) (cap : List (List Int)) (adjl : List (List Nat)) (u : Nat) (s : St) : Option St :=
  (rd s.seen u).bind fun it => (dischargeLoop cap adjl u fuel it s).bind fun r => (wr r.1.seen u r.2).map fun seen => { r.1 with seen := seen }

/-- push_relabel_flow.h:61-73 and 79-91 the loops over the queue; `reorder` is what is done with the queue, the place and the
node there once its height has grown. -/
def select (reorder : List Nat → List Nat → Nat → Nat → List Nat) (fd : Nat) (cap : List (List Int)) (adjl : List (List Nat)) :
    Nat → List Nat → Nat → St → Option St
  | 0, _, _, _ => none
  | fuel + 1, que, i, s =>
    if i < que.length then (rd que i).bind fun u => (rd s.height u).bind fun oldH => (discharge fd cap adjl u s).bind fun s =>
      (rd s.height u).bind fun newH =>
      if newH > oldH then select reorder fd cap adjl fuel (reorder s.height que i u) 0 s
      else select reorder fd cap adjl fuel que (i + 1) s
    else some s

/-- push_relabel_flow.h:67-68 `que.erase(it); que.push_front(u);`. -/
def toFront (_height que : List Nat) (i u : Nat) : List Nat := u :: que.eraseIdx i

/-- push_relabel_flow.h:57-60 and 75-78 the queue at the start. -/
def queue (n source sink : Nat) : List Nat := (List.range n).filter (fun v => v ≠ source ∧ v ≠ sink)

/-- push_relabel_flow.h:45-54 the state before the main loop. -/
def start (cap : List (List Int)) (inf : Int) (source : Nat) : Option St :=
  let n := cap.length
  (wr (List.replicate n 0) source n).bind fun height => (wr (List.replicate n 0) source inf).bind fun excess =>
  forUp (fun v => push cap source v) 0 n ⟨List.replicate n (List.replicate n 0), height, excess, List.replicate n 0⟩

/-- push_relabel_flow.h:41-99 `calc_max_flow`: the flow and the result.  `adjl` is what the constructor (28-39, the same text as
dinic_flow.h:22-32) makes.  `srt` is line 86, `std::sort` by decreasing heights, which leaves the order of equal heights open.
The flow left by `source == sink` is the one of an object just made. -/
def calcMaxFlow (srt : List Nat → List Nat → List Nat) (fuel : Nat) (cap : List (List Int)) (inf : Int) (source sink : Nat) (rule : Nat) : Option (List (List Int) × Int) :=
  (dnAdj cap).bind fun adjl =>
  if source = sink then some ([], 0)
  else (start cap inf source).bind fun s =>
    (if rule = 0 then select toFront fuel cap adjl fuel (queue cap.length source sink) 0 s
     else if rule = 1 then select (fun height que _ _ => srt height que) fuel cap adjl fuel (queue cap.length source sink) 0 s
     else some s).bind fun s =>
    (rd s.flow source).map fun r => (s.flow, r.foldl (fun f df => f + df) 0)

end Altruct.PushRelabel
