/-
Model of `experimental/include/altruct/algorithm/graph/dinic_flow.h` and `bipartite_matching.h`.

Capacities and flows are unbounded integers.  The stack is the list with its top first.  `none` is an access out of bounds or
a loop that has not ended after `fuel` rounds.
-/
import Verif.GraphAlg.FloydModel

namespace Altruct.GraphAlg

/-- dinic_flow.h:26 `cap[u][v] > 0 || cap[v][u] > 0`. -/
def dnLinked (cap : List (List Int)) (u v : Nat) : Option Bool :=
  (rd2 cap u v).bind fun a => if a > 0 then some true else (rd2 cap v u).map fun b => decide (b > 0)

/-- `adjl[u].push_back(v)`. -/
def pushAt (adjl : List (List Nat)) (u v : Nat) : Option (List (List Nat)) := (rd adjl u).bind fun r => wr adjl u (r ++ [v])

/-- dinic_flow.h:26-29 the body of the constructor's loops. -/
def dnPair (cap : List (List Int)) (u v : Nat) (adjl : List (List Nat)) : Option (List (List Nat)) :=
  (dnLinked cap u v).bind fun b => if b then (pushAt adjl u v).bind fun adjl => pushAt adjl v u else some adjl

/-- dinic_flow.h:22-32 the constructor: `adjl`. -/
def dnAdj (cap : List (List Int)) : Option (List (List Nat)) :=
  forUp (fun u => forUp (dnPair cap u) 0 u) 0 cap.length (List.replicate cap.length [])

/-- dinic_flow.h:54, 84 `cap[u][v] > flow[u][v] || flow[v][u] > 0`. -/
def dnResid (cap flow : List (List Int)) (u v : Nat) : Option Bool :=
  (rd2 cap u v).bind fun a => (rd2 flow u v).bind fun b => if a > b then some true else (rd2 flow v u).map fun x => decide (x > 0)

/-- dinic_flow.h:52-58 the successors of `u` in the search for levels. -/
def dnScan (cap flow : List (List Int)) (u : Nat) : List Nat → List Nat → List Nat → Option (List Nat × List Nat)
  | [], level, que => some (level, que)
  | v :: vs, level, que => (rd level v).bind fun lv =>
    if lv ≠ 0 then dnScan cap flow u vs level que
    else (dnResid cap flow u v).bind fun b =>
      if b then (rd level u).bind fun lu => (wr level v (lu + 1)).bind fun level => dnScan cap flow u vs level (que ++ [v])
      else dnScan cap flow u vs level que

/-- dinic_flow.h:50-59 the queue of the search for levels. -/
def dnBfs (cap flow : List (List Int)) (adjl : List (List Nat)) : Nat → List Nat → List Nat → Option (List Nat)
  | 0, _, _ => none
  | fuel + 1, level, que => match que with
    | [] => some level
    | u :: que => (rd adjl u).bind fun vs => (dnScan cap flow u vs level que).bind fun r => dnBfs cap flow adjl fuel r.1 r.2

/-- dinic_flow.h:45-61 `build_level_graph`: `level`; the result is `level[sink] != 0`. -/
def dnLevels (fuel : Nat) (cap flow : List (List Int)) (adjl : List (List Nat)) (source : Nat) : Option (List Nat) :=
  (wr (List.replicate adjl.length 0) source 1).bind fun level => dnBfs cap flow adjl fuel level [source]

/-- dinic_flow.h:96-103 `get_path_flow`.  The first argument bounds the number of nodes of the path. -/
def dnPathFlow (cap flow : List (List Int)) (prev : List Nat) (source : Nat) : Nat → Nat → Int → Option Int
  | 0, _, _ => none
  | fuel + 1, v, f => (rd prev v).bind fun u =>
    if v = source then some f
    else (rd2 cap u v).bind fun c => (rd2 flow u v).bind fun x =>
      if c - x > 0 then dnPathFlow cap flow prev source fuel u (min f (c - x))
      else (rd2 flow v u).bind fun y => dnPathFlow cap flow prev source fuel u (min f y)

/-- dinic_flow.h:105-118 `update_path_flow`: the flow and the bottleneck. -/
def dnPathUpdate (cap : List (List Int)) (prev : List Nat) (source : Nat) (f : Int) : Nat → Nat → List (List Int) → Nat → Option (List (List Int) × Nat)
  | 0, _, _, _ => none
  | fuel + 1, v, flow, bott => (rd prev v).bind fun u =>
    if v = source then some (flow, bott)
    else (rd2 cap u v).bind fun c => (rd2 flow u v).bind fun x =>
      if c - x > 0 then (wr2 flow u v (x + f)).bind fun flow =>
        dnPathUpdate cap prev source f fuel u flow (if c = x + f then u else bott)
      else (rd2 flow v u).bind fun y => (wr2 flow v u (y - f)).bind fun flow =>
        dnPathUpdate cap prev source f fuel u flow (if y - f = 0 then u else bott)

/-- The variables of `construct_blocking_flow`. -/
structure DnState where
  flow : List (List Int)
  prev : List Nat
  visited : List Bool
  stk : List (Nat × Nat)
  ret : Int

/-- dinic_flow.h:73-78 the sink is on the top of the stack.  A path with more nodes than the graph would be a cycle. -/
def dnAugment (cap : List (List Int)) (inf : Int) (source sink : Nat) (s : DnState) : Option DnState :=
  (dnPathFlow cap s.flow s.prev source (s.prev.length + 1) sink inf).bind fun f =>
    (dnPathUpdate cap s.prev source f (s.prev.length + 1) sink s.flow 0).map fun r =>
      { s with flow := r.1, stk := s.stk.dropWhile (fun e => decide (e.1 ≠ r.2)), ret := s.ret + f }

/-- dinic_flow.h:80-91 another node is on the top of the stack. -/
def dnAdvance (cap : List (List Int)) (adjl : List (List Nat)) (level : List Nat) (s : DnState) (u i : Nat) (stk : List (Nat × Nat)) : Option DnState :=
  (rd adjl u).bind fun a =>
    if i < a.length then (rd a i).bind fun v =>
      (rd s.visited v).bind fun vis =>
      if vis then some { s with stk := (u, i + 1) :: stk }
      else (rd level v).bind fun lv => (rd level u).bind fun lu =>
        if lv ≠ lu + 1 then some { s with stk := (u, i + 1) :: stk }
        else (dnResid cap s.flow u v).bind fun b =>
          if b then (wr s.visited v true).bind fun visited => (wr s.prev v u).map fun prev =>
            { s with visited := visited, prev := prev, stk := (v, 0) :: (u, i + 1) :: stk }
          else some { s with stk := (u, i + 1) :: stk }
    else some { s with stk := stk }

/-- dinic_flow.h:70-92 the loop of `construct_blocking_flow`. -/
def dnLoop (cap : List (List Int)) (adjl : List (List Nat)) (level : List Nat) (inf : Int) (source sink : Nat) : Nat → DnState → Option (List (List Int) × Int)
  | 0, _ => none
  | fuel + 1, s => match s.stk with
    | [] => some (s.flow, s.ret)
    | (u, i) :: stk =>
      if u = sink then (dnAugment cap inf source sink s).bind fun s => dnLoop cap adjl level inf source sink fuel s
      else (dnAdvance cap adjl level s u i stk).bind fun s => dnLoop cap adjl level inf source sink fuel s

/-- dinic_flow.h:63-94 `construct_blocking_flow`. -/
def dnBlocking (fuel : Nat) (cap : List (List Int)) (adjl : List (List Nat)) (level : List Nat) (inf : Int) (source sink : Nat) (flow : List (List Int)) :
    Option (List (List Int) × Int) :=
  (wr (List.replicate adjl.length false) source true).bind fun visited =>
    dnLoop cap adjl level inf source sink fuel ⟨flow, List.replicate adjl.length 0, visited, [(source, 0)], 0⟩

/-- dinic_flow.h:38-40 the phases.  `fi` bounds the rounds within a phase. -/
def dnPhases (fi : Nat) (cap : List (List Int)) (adjl : List (List Nat)) (inf : Int) (source sink : Nat) : Nat → List (List Int) → Int → Option (List (List Int) × Int)
  | 0, _, _ => none
  | fuel + 1, flow, f => (dnLevels fi cap flow adjl source).bind fun level => (rd level sink).bind fun ls =>
    if ls ≠ 0 then (dnBlocking fi cap adjl level inf source sink flow).bind fun r => dnPhases fi cap adjl inf source sink fuel r.1 (f + r.2)
    else some (flow, f)

/-- dinic_flow.h:22-42 the constructor and `calc_max_flow`: the flow and its value.  For `source == sink` the member `flow` stays
as it was, here empty. -/
def dinic (fuel : Nat) (cap : List (List Int)) (inf : Int) (source sink : Nat) : Option (List (List Int) × Int) :=
  (dnAdj cap).bind fun adjl =>
    if source = sink then some ([], 0)
    else dnPhases fuel cap adjl inf source sink fuel (List.replicate adjl.length (List.replicate adjl.length 0)) 0

/-- bipartite_matching.h:23-27 the capacities. -/
def bmCap (src sink : Nat) : List (Nat × Nat) → List (List Int) → Option (List (List Int))
  | [], cap => some cap
  | (u, v) :: es, cap => (wr2 cap src u 1).bind fun cap => (wr2 cap u v 1).bind fun cap => (wr2 cap v sink 1).bind fun cap => bmCap src sink es cap

/-- bipartite_matching.h:30-33 the selected edges. -/
def bmSelect (flow : List (List Int)) : List (Nat × Nat) → Option (List (Nat × Nat))
  | [] => some []
  | (u, v) :: es => (rd2 flow u v).bind fun x => (bmSelect flow es).map fun r => if x ≠ 0 then (u, v) :: r else r

/-- bipartite_matching.h:18-35 `bipartite_matching`; an edge is the pair of its fields `u` and `v`. -/
def bipartiteMatching (fuel nodes : Nat) (edges : List (Nat × Nat)) : Option (List (Nat × Nat)) :=
  (bmCap nodes (nodes + 1) edges (List.replicate (nodes + 2) (List.replicate (nodes + 2) 0))).bind fun cap =>
    (dinic fuel cap 2147483647 nodes (nodes + 1)).bind fun r => bmSelect r.1 edges


end Altruct.GraphAlg
