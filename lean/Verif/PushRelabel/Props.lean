/-
Maximum flow by pushing and relabelling (C108).
-/
import Mathlib.Data.List.Sort
import Verif.PushRelabel.Run

namespace Altruct.PushRelabel

open GraphAlg Finset

/-- The net flow once the source has filled its edges to the nodes below `k`. -/
def x0 (c : Nat → Nat → Int) (src k : Nat) (u v : Nat) : Int :=
  if u = src ∧ v ≠ src ∧ v < k then c src v else if v = src ∧ u ≠ src ∧ u < k then - c src u else 0

/-- The excesses then. -/
def e0 (c : Nat → Nat → Int) (inf : Int) (src k : Nat) (u : Nat) : Int :=
  if u = src then inf - ∑ v ∈ (range k).erase src, c src v else if u < k then c src u else 0

theorem start_spec {n : Nat} {cap : List (List Int)} {c : Nat → Nat → Int} (hc : Mat cap n c) (hc0 : ∀ u v, u < n → v < n → 0 ≤ c u v) {src : Nat} (hsrc : src < n) {inf : Int}
    (hinf : ∑ v ∈ (range n).erase src, c src v ≤ inf) :
    ∃ s, start cap inf src = some s ∧ Rp n s (x0 c src n) (Function.update (fun _ => 0) src n) (e0 c inf src n) (fun _ => 0) := by
  unfold start
  rw [hc.len]
  obtain ⟨s, e, h⟩ := forUp_spec (body := fun v => push cap src v)
    (fun k s => Rp n s (x0 c src k) (Function.update (fun _ => 0) src n) (e0 c inf src k) (fun _ => 0)) (a := 0) (n := n)
    (s := ⟨List.replicate n (List.replicate n 0), (List.replicate n 0).set src n, (List.replicate n 0).set src inf, List.replicate n 0⟩) (Nat.zero_le _)
    ⟨Mat.congr2 (Mat.replicate n 0) (fun u v _ _ => by simp [x0]), (Rep.replicate n 0).set src n, ((Rep.replicate n (0 : Int)).set src inf).congr (fun u hu => by
      rw [e0]
      by_cases h1 : u = src
      · rw [h1, Function.update_self, if_pos rfl]; simp
      · rw [Function.update_of_ne h1, if_neg h1, if_neg (by omega)]), Rep.replicate n 0⟩
    (fun k s _ hk R => by
      by_cases hks : k = src
      · subst hks
        obtain ⟨s', g1, g2⟩ := push_self hc R hk
        refine ⟨s', g1, Mat.congr2 g2.flow (fun u v hu hv => ?_), g2.height, g2.excess.congr (fun u hu => ?_), g2.seen⟩
        · unfold x0
          by_cases q1 : u = k ∧ v ≠ k ∧ v < k
          · rw [if_pos q1, if_pos (by omega)]
          · rw [if_neg q1, if_neg (show ¬ (u = k ∧ v ≠ k ∧ v < k + 1) by omega)]
            by_cases q2 : v = k ∧ u ≠ k ∧ u < k
            · rw [if_pos q2, if_pos (by omega)]
            · rw [if_neg q2, if_neg (by omega)]
        · unfold e0
          by_cases q1 : u = k
          · rw [if_pos q1, if_pos q1, range_add_one, erase_insert_eq_erase]
          · rw [if_neg q1, if_neg q1]
            by_cases q2 : u < k
            · rw [if_pos q2, if_pos (by omega)]
            · rw [if_neg q2, if_neg (by omega)]
      · obtain ⟨s', g1, g2⟩ := push_spec hc R hsrc hk (Ne.symm hks)
        have hx : x0 c src k src k = 0 := by rw [x0, if_neg (by omega), if_neg (by omega)]
        have hx' : x0 c src k k src = 0 := by rw [x0, if_neg (by omega), if_neg (by omega)]
        have hck := hc0 src k hsrc hk
        have hsum : ∑ v ∈ (range (k + 1)).erase src, c src v = ∑ v ∈ (range k).erase src, c src v + c src k := by
          rw [range_add_one, erase_insert_of_ne hks, sum_insert (by simp), add_comm]
        have hle : ∑ v ∈ (range (k + 1)).erase src, c src v ≤ ∑ v ∈ (range n).erase src, c src v :=
          sum_le_sum_of_subset_of_nonneg (erase_subset_erase _ (range_mono (by omega))) (fun v hv _ => hc0 src v hsrc (mem_range.mp (mem_erase.mp hv).2))
        have hd : min (e0 c inf src k src) (c src k - x0 c src k src k) = c src k := by
          rw [hx, e0, if_pos rfl]; omega
        rw [hd] at g2
        refine ⟨s', g1, Mat.congr2 g2.flow (fun u v hu hv => ?_), g2.height, g2.excess.congr (fun u hu => ?_), g2.seen⟩
        · by_cases q1 : u = src ∧ v = k
          · rw [q1.1, q1.2, sent_uv (Ne.symm hks), hx, x0, if_pos (by omega)]; omega
          by_cases q2 : u = k ∧ v = src
          · rw [q2.1, q2.2, sent_vu, hx', x0, if_neg (by omega), if_pos (by omega)]; omega
          · rw [sent_ne _ q1 q2]
            unfold x0
            by_cases q3 : u = src ∧ v ≠ src ∧ v < k
            · rw [if_pos q3, if_pos (by omega)]
            · rw [if_neg q3, if_neg (show ¬ (u = src ∧ v ≠ src ∧ v < k + 1) by omega)]
              by_cases q4 : v = src ∧ u ≠ src ∧ u < k
              · rw [if_pos q4, if_pos (by omega)]
              · rw [if_neg q4, if_neg (by omega)]
        · rw [moved]
          unfold e0
          by_cases q1 : u = src
          · rw [if_pos q1, if_pos q1, if_neg (by omega), if_pos q1, hsum]; omega
          · rw [if_neg q1, if_neg q1, if_neg q1]
            by_cases q2 : u = k
            · rw [if_neg (show ¬ u < k by omega), if_pos q2, if_pos (by omega), q2]; omega
            · rw [if_neg q2]
              by_cases q3 : u < k
              · rw [if_pos q3, if_pos (by omega)]; omega
              · rw [if_neg q3, if_neg (by omega)]; omega)
  refine ⟨s, ?_, h⟩
  show ((wr (List.replicate n 0) src n).bind fun height => (wr (List.replicate n 0) src inf).bind fun excess =>
    forUp (fun v => push cap src v) 0 n ⟨List.replicate n (List.replicate n 0), height, excess, List.replicate n 0⟩) = _
  rw [(Rep.replicate n 0).wr hsrc, Option.bind_some, (Rep.replicate n (0 : Int)).wr hsrc, Option.bind_some, e]

theorem start_inv {n : Nat} {c : Nat → Nat → Int} (hc0 : ∀ u v, u < n → v < n → 0 ≤ c u v) {src sink : Nat} (hsrc : src < n) (hne : src ≠ sink) (inf : Int) :
    Inv n c src sink (x0 c src n) (Function.update (fun _ => 0) src n) (e0 c inf src n) := by
  refine ⟨fun u v hu hv => ?_, fun u v hu hv => ?_, fun u hu hus => ?_, fun u hu hus => ?_, fun u v hu hv huv => ?_, by rw [Function.update_self], by rw [Function.update_of_ne (Ne.symm hne)]⟩
  · unfold x0
    by_cases q1 : u = src ∧ v ≠ src ∧ v < n
    · rw [if_pos q1, if_neg (by omega), if_pos (by omega)]; omega
    · rw [if_neg q1]
      by_cases q2 : v = src ∧ u ≠ src ∧ u < n
      · rw [if_pos q2, if_pos (by omega)]
      · rw [if_neg q2, if_neg (by omega), if_neg (by omega)]; rfl
  · unfold x0
    have g1 := hc0 u v hu hv
    by_cases q1 : u = src ∧ v ≠ src ∧ v < n
    · rw [if_pos q1, q1.1]
    · rw [if_neg q1]
      by_cases q2 : v = src ∧ u ≠ src ∧ u < n
      · have := hc0 src u hsrc hu
        rw [if_pos q2]; omega
      · rw [if_neg q2]; exact g1
  · rw [e0, if_neg hus, if_pos hu, sum_eq_single_of_mem src (mem_range.mpr hsrc) (fun b _ hb => by rw [x0, if_neg (by omega), if_neg (by omega)]), x0, if_pos ⟨rfl, hus, hu⟩]
  · rw [e0, if_neg hus, if_pos hu]; exact hc0 src u hsrc hu
  · by_cases q1 : u = src
    · subst q1
      by_cases q2 : v = u
      · subst q2; omega
      · rw [x0, if_pos ⟨rfl, q2, hv⟩] at huv; omega
    · rw [Function.update_of_ne q1]; omega

theorem foldl_sum {r : List Int} {n : Nat} {g : Nat → Int} (h : Rep r n g) : r.foldl (fun f df => f + df) 0 = ∑ v ∈ range n, g v := by
  rw [h.eq_map]
  clear h
  induction n with
  | zero => rfl
  | succ n ih => rw [List.range_succ, List.map_append, List.foldl_append, ih, sum_range_succ]; rfl

/-- For every square matrix of capacities, two different nodes, either rule and every order `std::sort` may give to equal heights the computation ends;
the positive parts of the entries left in `flow` are a flow and its value is the result; no flow has a greater value, and the result is the capacity of a cut.
`infinity` has to be at least what can leave the source. -/
theorem C108_max_flow {cap : List (List Int)} {n : Nat} {c : Nat → Nat → Int} (hc : Mat cap n c) {src sink : Nat} (hsrc : src < n) (hsink : sink < n) (hne : src ≠ sink)
    (hc0 : ∀ u v, u < n → v < n → 0 ≤ c u v) {inf : Int} (hinf : ∑ v ∈ (range n).erase src, c src v ≤ inf) (hn : 2 * n ≤ intMax) {srt} (hs : Sorts srt) {rule : Nat} (hrule : rule = 0 ∨ rule = 1) :
    ∃ flow x f, (∃ fuel0, ∀ fuel, fuel0 ≤ fuel → calcMaxFlow srt fuel cap inf src sink rule = some (flow, f)) ∧ Mat flow n x ∧ (∀ u v, u < n → v < n → x u v = - x v u)
      ∧ IsFlow n c src sink (fun u v => max (x u v) 0) ∧ flowValue n src (fun u v => max (x u v) 0) = f
      ∧ (∀ y, IsFlow n c src sink y → flowValue n src y ≤ f) ∧ ∃ S ⊆ range n, src ∈ S ∧ sink ∉ S ∧ f = cutCap n c S := by
  obtain ⟨adjl, a, ea, h1, h2⟩ := dnAdj_spec hc
  have N : Net n cap adjl c a src sink := ⟨hc, h1, h2, hc0, hsrc, hsink, hne, hn⟩
  obtain ⟨s, es, R⟩ := start_spec hc hc0 hsrc hinf
  have I := start_inv hc0 hsrc hne inf
  have hbound : ∀ v, v < n → Function.update (fun _ => 0) src n v < 2 * n := fun v hv => by
    by_cases q : v = src
    · rw [q, Function.update_self]; omega
    · rw [Function.update_of_ne q]; omega
  have G : Good n c a src sink s (x0 c src n) (Function.update (fun _ => 0) src n) (e0 c inf src n) := ⟨⟨_, R, fun w _ i v hi => absurd hi (Nat.not_lt_zero _)⟩, I, hbound⟩
  have hq : ∀ v, v ∈ queue n src sink ↔ (v < n ∧ v ≠ src ∧ v ≠ sink) := fun v => by simp [queue]
  have hnd : (queue n src sink).Nodup := List.nodup_range.filter _
  have hT : Topo c (x0 c src n) (Function.update (fun _ => 0) src n) (queue n src sink) := by
    refine List.Pairwise.imp_of_mem (fun {v w} hv hw _ hadm => ?_) hnd
    have := hadm.2
    rw [Function.update_of_ne ((hq v).mp hv).2.1, Function.update_of_ne ((hq w).mp hw).2.1] at this
    omega
  have key : ∃ F s' x' h' e', (∀ fuel, F ≤ fuel → (if rule = 0 then select toFront fuel cap adjl fuel (queue cap.length src sink) 0 s
     else if rule = 1 then select (fun height que _ _ => srt height que) fuel cap adjl fuel (queue cap.length src sink) 0 s
     else some s) = some s') ∧ Good n c a src sink s' x' h' e' ∧ ∀ v ∈ queue n src sink, e' v = 0 := by
    rw [hc.len]
    rcases hrule with rfl | rfl
    · obtain ⟨F, s', x', h', e', g1, g⟩ := select_spec N reorders_toFront _ (queue n src sink) [] s _ _ _ rfl G (fun v hv => (hq v).mp hv) hnd hT (by simp)
      exact ⟨F, s', x', h', e', fun fuel hf => by rw [if_pos rfl]; exact g1 fuel fuel hf hf, g⟩
    · obtain ⟨F, s', x', h', e', g1, g⟩ := select_spec N (reorders_sort hs) _ (queue n src sink) [] s _ _ _ rfl G (fun v hv => (hq v).mp hv) hnd hT (by simp)
      exact ⟨F, s', x', h', e', fun fuel hf => by rw [if_neg (by omega), if_pos rfl]; exact g1 fuel fuel hf hf, g⟩
  obtain ⟨F, s', x', h', e', g1, G', g3⟩ := key
  obtain ⟨sn, R', _⟩ := G'.rep
  obtain ⟨m1, m2, S, m3, m4, m5, m6⟩ := finish G'.inv hc0 hsrc hsink hne (fun v hv q1 q2 => g3 v ((hq v).mpr ⟨hv, q1, q2⟩))
  obtain ⟨r, er, hr⟩ := R'.flow.row src hsrc
  refine ⟨s'.flow, x', ∑ v ∈ range n, x' src v, ⟨F, fun fuel hf => ?_⟩, R'.flow, G'.inv.skew, m1, m2, fun y hy => ?_, S, m3, m4, m5, m6⟩
  · rw [calcMaxFlow, ea, Option.bind_some, if_neg hne, es, Option.bind_some, g1 fuel hf, Option.bind_some, rd, er, Option.map_some, foldl_sum hr]
  · rw [m6]
    exact value_le_cut hy m3 m4 m5

/-- From a node to itself nothing flows. -/
theorem C108_same_node {cap : List (List Int)} {n : Nat} {c : Nat → Nat → Int} (hc : Mat cap n c) (srt : List Nat → List Nat → List Nat) (inf : Int) (fuel src rule : Nat) :
    (calcMaxFlow srt fuel cap inf src src rule).map Prod.snd = some 0 := by
  obtain ⟨adjl, a, e, _⟩ := dnAdj_spec hc
  rw [calcMaxFlow, e, Option.bind_some, if_pos rfl]
  rfl

/-! ### Examples -/

/-- A stable sort by decreasing heights. -/
def insertSort (height : List Nat) (que : List Nat) : List Nat := que.foldr (fun u => List.orderedInsert (fun v w => height.getD w 0 ≤ height.getD v 0) u) []

example : (calcMaxFlow insertSort 100 [[0, 3, 2, 0], [0, 0, 1, 2], [0, 0, 0, 2], [0, 0, 0, 0]] 5 0 3 0).map Prod.snd = some 4 := by decide +kernel
example : calcMaxFlow insertSort 100 [[0, 3, 2, 0], [0, 0, 1, 2], [0, 0, 0, 2], [0, 0, 0, 0]] 5 0 3 1
    = some ([[0, 2, 2, 0], [-2, 0, 0, 2], [-2, 0, 0, 2], [0, -2, -2, 0]], 4) := by decide +kernel

/-- `infinity` greater than every capacity is not enough: too little leaves the source. -/
theorem C108_infinity_too_small : (calcMaxFlow insertSort 100 [[0, 3, 3, 0], [0, 0, 0, 3], [0, 0, 0, 3], [0, 0, 0, 0]] 4 0 3 0).map Prod.snd = some 4
    ∧ (calcMaxFlow insertSort 100 [[0, 3, 3, 0], [0, 0, 0, 3], [0, 0, 0, 3], [0, 0, 0, 0]] 6 0 3 0).map Prod.snd = some 6 := by decide +kernel

/-- A `rule` that is neither of the two is not an error: the result is then what can leave the source, not a flow. -/
theorem C108_unknown_rule : (calcMaxFlow insertSort 100 [[0, 3], [0, 0]] 3 0 1 2).map Prod.snd = some 3
    ∧ (calcMaxFlow insertSort 100 [[0, 3, 0], [0, 0, 1], [0, 0, 0]] 3 0 2 2).map Prod.snd = some 3
    ∧ (calcMaxFlow insertSort 100 [[0, 3, 0], [0, 0, 1], [0, 0, 0]] 3 0 2 1).map Prod.snd = some 1 := by decide +kernel

example : Sorts insertSort := by
  intro height que
  refine ⟨?_, ?_⟩
  · exact List.perm_insertionSort (fun v w => height.getD w 0 ≤ height.getD v 0) que
  · have : Std.Total (fun v w : Nat => height.getD w 0 ≤ height.getD v 0) := ⟨fun v w => le_total _ _⟩
    have : IsTrans Nat (fun v w : Nat => height.getD w 0 ≤ height.getD v 0) := ⟨fun u v w h1 h2 => le_trans h2 h1⟩
    exact (List.pairwise_insertionSort (fun v w => height.getD w 0 ≤ height.getD v 0) que).imp (fun h => not_lt.mpr h)

example : ∃ c : Nat → Nat → Int, Mat [[0, 3, 2, 0], [0, 0, 1, 2], [0, 0, 0, 2], [0, 0, 0, 0]] 4 c ∧ (∀ u v, u < 4 → v < 4 → 0 ≤ c u v) ∧ ∑ v ∈ (range 4).erase 0, c 0 v ≤ 5 := by
  refine ⟨fun u v => (([[0, 3, 2, 0], [0, 0, 1, 2], [0, 0, 0, 2], [0, 0, 0, 0]] : List (List Int)).getD u []).getD v 0, ⟨rfl, fun u hu => ?_⟩, fun u v hu hv => ?_, by decide⟩
  · rcases u with _ | _ | _ | _ | u
    · exact ⟨_, rfl, Rep.self _⟩
    · exact ⟨_, rfl, Rep.self _⟩
    · exact ⟨_, rfl, Rep.self _⟩
    · exact ⟨_, rfl, Rep.self _⟩
    · omega
  · exact (by decide : ∀ u < 4, ∀ v < 4, (0 : Int) ≤ (([[0, 3, 2, 0], [0, 0, 1, 2], [0, 0, 0, 2], [0, 0, 0, 0]] : List (List Int)).getD u []).getD v 0) u hu v hv

end Altruct.PushRelabel
