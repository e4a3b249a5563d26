/-
Transitive closure and transitive reduction (C91).
-/
import Verif.GraphAlg.Spec
import Verif.GraphAlg.ClosureModel
import Mathlib.Data.List.Count
import Mathlib.Data.Finset.Card
import Mathlib.Data.Finset.Range

namespace Altruct.GraphAlg

open Relation

/-! ### Closure -/

/-- The entry of `v` is not zero. -/
def Vis (d : List Int) (v : Nat) : Prop := ∃ x, d[v]? = some x ∧ x ≠ 0

theorem vis_set (d : List Int) (w : Nat) (hw : w < d.length) (x : Int) (hx : x ≠ 0) (v : Nat) :
    Vis (d.set w x) v ↔ Vis d v ∨ v = w := by
  by_cases h : v = w
  · subst h
    refine ⟨fun _ => Or.inr rfl, fun _ => ⟨x, by rw [List.getElem?_set_self hw], hx⟩⟩
  · unfold Vis
    rw [List.getElem?_set_ne (Ne.symm h)]
    exact ⟨fun h => Or.inl h, fun h' => h'.elim id (fun h' => absurd h' h)⟩

theorem count_set_zero (d : List Int) (w : Nat) (h : d[w]? = some 0) (x : Int) (hx : x ≠ 0) :
    (d.set w x).count 0 + 1 = d.count 0 := by
  obtain ⟨hw, e⟩ := List.getElem?_eq_some_iff.mp h
  have h1 := List.count_set (a := x) (b := (0 : Int)) hw
  have h2 : 0 < d.count 0 := List.count_pos_iff.mpr (by rw [← e]; exact List.getElem_mem hw)
  rw [h1, e]
  simp [hx]
  omega

theorem addEdge_set (R : List (List Nat)) (i : Nat) (row : List Nat) (v : Nat) (hi : i < R.length) :
    addEdge (R.set i row) i v = some (R.set i (row ++ [v])) := by
  unfold addEdge
  have h : rd (R.set i row) i = some row := by rw [rd, List.getElem?_set_self hi]
  rw [h]
  simp [wr, hi]

theorem tcEdges_spec (R : List (List Nat)) (i : Nat) (hi : i < R.length) : ∀ (es : List Nat) (s : Search) (row : List Nat),
    (∀ v ∈ es, v < s.d.length) → s.res = R.set i row → row.Nodup → (∀ v ∈ row, Vis s.d v) →
    ∃ s' row', tcEdges i es s = some s' ∧ s'.d.length = s.d.length ∧ s'.res = R.set i row' ∧ row'.Nodup
      ∧ (∀ v, Vis s'.d v ↔ Vis s.d v ∨ v ∈ es)
      ∧ (∀ v, v ∈ s'.stk ↔ v ∈ s.stk ∨ (v ∈ es ∧ ¬ Vis s.d v))
      ∧ (∀ v, v ∈ row' ↔ v ∈ row ∨ (v ∈ es ∧ ¬ Vis s.d v))
      ∧ s'.d.count 0 + s'.stk.length = s.d.count 0 + s.stk.length := by
  intro es
  induction es with
  | nil =>
    intro s row _ hr hn _
    exact ⟨s, row, rfl, rfl, hr, hn, by simp, by simp, by simp, rfl⟩
  | cons w es ih =>
    intro s row hes hr hn hv
    have hw : w < s.d.length := hes w (by simp)
    have e : rd s.d w = some s.d[w] := by rw [rd, List.getElem?_eq_getElem hw]
    by_cases h0 : s.d[w] = 0
    · have hnv : ¬ Vis s.d w := by
        rintro ⟨x, h1, h2⟩
        rw [List.getElem?_eq_getElem hw] at h1
        exact h2 ((Option.some.inj h1).symm.trans h0)
      obtain ⟨s', row', e1, h1, h2, h3, h4, h5, h6, h7⟩ := ih ⟨s.d.set w 1, w :: s.stk, R.set i (row ++ [w])⟩ (row ++ [w])
        (fun v hv => by simpa using hes v (by simp [hv])) rfl
        (by rw [List.nodup_append]; exact ⟨hn, by simp, fun a ha b hb => by
              rw [List.mem_singleton.mp hb]; rintro rfl; exact hnv (hv _ ha)⟩)
        (fun v hv' => by
          rw [vis_set _ _ hw _ (by decide)]
          rcases List.mem_append.mp hv' with h | h
          · exact Or.inl (hv v h)
          · exact Or.inr (List.mem_singleton.mp h))
      have hvis := vis_set s.d w hw 1 (by decide)
      refine ⟨s', row', ?_, by rw [h1, List.length_set], h2, h3, ?_, ?_, ?_, ?_⟩
      · rw [tcEdges, e]
        show (if s.d[w] ≠ 0 then _ else _) = _
        rw [if_neg (by simp [h0]), hr, addEdge_set R i row w hi]
        show (wr s.d w 1).bind _ = _
        rw [wr, if_pos hw]
        exact e1
      · intro v
        rw [h4, hvis, List.mem_cons]
        tauto
      · intro v
        rw [h5, hvis]
        simp only [List.mem_cons]
        by_cases hvw : v = w
        · subst hvw; simp [hnv]
        · simp [hvw]
      · intro v
        rw [h6, hvis]
        simp only [List.mem_append, List.mem_cons, List.not_mem_nil, or_false]
        by_cases hvw : v = w
        · subst hvw; simp [hnv]
        · simp [hvw]
      · rw [h7]
        have := count_set_zero s.d w (by rw [List.getElem?_eq_getElem hw, h0]) 1 (by decide)
        simp only [List.length_cons]
        omega
    · have hvw : Vis s.d w := ⟨_, List.getElem?_eq_getElem hw, h0⟩
      obtain ⟨s', row', e1, h1, h2, h3, h4, h5, h6, h7⟩ := ih s row (fun v hv => hes v (by simp [hv])) hr hn hv
      refine ⟨s', row', ?_, h1, h2, h3, ?_, ?_, ?_, h7⟩
      · rw [tcEdges, e]
        show (if s.d[w] ≠ 0 then _ else _) = _
        rw [if_pos h0]
        exact e1
      · intro v
        rw [h4, List.mem_cons]
        constructor
        · tauto
        · rintro (h | rfl | h)
          · exact Or.inl h
          · exact Or.inl hvw
          · exact Or.inr h
      · intro v
        rw [h5, List.mem_cons]
        constructor
        · tauto
        · rintro (h | ⟨rfl | h, h'⟩)
          · exact Or.inl h
          · exact absurd hvw h'
          · exact Or.inr ⟨h, h'⟩
      · intro v
        rw [h6, List.mem_cons]
        constructor
        · tauto
        · rintro (h | ⟨rfl | h, h'⟩)
          · exact Or.inl h
          · exact absurd hvw h'
          · exact Or.inr ⟨h, h'⟩

theorem tcLoop_spec (g : List (List Nat)) (hg : Valid g) (R : List (List Nat)) (i : Nat) (hi : i < R.length) :
    ∀ (fuel : Nat) (s : Search) (row : List Nat), s.d.count 0 + s.stk.length < fuel → s.d.length = g.length →
    s.res = R.set i row → row.Nodup → (∀ v, v ∈ row ↔ v ≠ i ∧ Vis s.d v) → Vis s.d i →
    (∀ v, Vis s.d v → Reach g i v) → (∀ v ∈ s.stk, Vis s.d v) →
    (∀ u, Vis s.d u → u ∉ s.stk → ∀ v, Edge g u v → Vis s.d v) →
    ∃ s' row', tcLoop g i fuel s = some s' ∧ s'.res = R.set i row' ∧ row'.Nodup
      ∧ ∀ v, v ∈ row' ↔ v ≠ i ∧ Reach g i v := by
  intro fuel
  induction fuel with
  | zero => intro s row h; omega
  | succ fuel ih =>
    intro s row hf hl hr hn hrow hvi hre hst hcl
    rcases s with ⟨d, stk, res⟩
    cases stk with
    | nil =>
      refine ⟨_, row, rfl, hr, hn, fun v => ?_⟩
      rw [hrow v]
      refine and_congr_right' ⟨hre v, fun h => ?_⟩
      induction h with
      | refl => exact hvi
      | tail _ h2 ih => exact hcl _ ih (by simp) _ h2
    | cons u stk =>
      have hvu : Vis d u := hst u (by simp)
      have hu : u < g.length := by
        obtain ⟨x, hx, _⟩ := hvu
        rw [← hl]; exact (List.getElem?_eq_some_iff.mp hx).1
      have eu : rd g u = some g[u] := by rw [rd, List.getElem?_eq_getElem hu]
      have hedge : ∀ v, v ∈ g[u] ↔ Edge g u v := fun v =>
        ⟨fun h => ⟨_, List.getElem?_eq_getElem hu, h⟩, fun ⟨l, h1, h2⟩ => by
          rw [List.getElem?_eq_getElem hu] at h1; cases h1; exact h2⟩
      obtain ⟨s1, row1, e1, h1, h2, h3, h4, h5, h6, h7⟩ := tcEdges_spec R i hi g[u] ⟨d, stk, res⟩ row
        (fun v hv => by show v < d.length; rw [show d.length = g.length from hl]; exact hg u v ((hedge v).mp hv)) hr hn (fun v hv => ((hrow v).mp hv).2)
      simp only at h1 h4 h5 h6 h7
      obtain ⟨s', row', e2, h8⟩ := ih s1 row1 (by rw [h7]; simp only [List.length_cons] at hf; omega) (by rw [h1]; exact hl) h2 h3
        (fun v => by
          rw [h6, hrow, h4]
          constructor
          · rintro (h | ⟨h, h'⟩)
            · exact ⟨h.1, Or.inl h.2⟩
            · exact ⟨by rintro rfl; exact h' hvi, Or.inr h⟩
          · rintro ⟨h, h' | h'⟩
            · exact Or.inl ⟨h, h'⟩
            · by_cases hv : Vis d v
              · exact Or.inl ⟨h, hv⟩
              · exact Or.inr ⟨h', hv⟩)
        ((h4 i).mpr (Or.inl hvi))
        (fun v hv => by
          rcases (h4 v).mp hv with h | h
          · exact hre v h
          · exact ReflTransGen.tail (hre u hvu) ((hedge v).mp h))
        (fun v hv => by
          rw [h4]
          rcases (h5 v).mp hv with h | h
          · exact Or.inl (hst v (by simp [h]))
          · exact Or.inr h.1)
        (fun w hw hws v hv => by
          rw [h4]
          by_cases hwu : w = u
          · subst hwu; exact Or.inr ((hedge v).mpr hv)
          · have hnw : w ∉ stk ∧ ¬ (w ∈ g[u] ∧ ¬ Vis d w) := by
              rw [h5] at hws; tauto
            rcases (h4 w).mp hw with h | h
            · exact Or.inl (hcl w h (by simp [hwu, hnw.1]) v hv)
            · by_cases hvw : Vis d w
              · exact Or.inl (hcl w hvw (by simp [hwu, hnw.1]) v hv)
              · exact absurd ⟨h, hvw⟩ hnw.2)
      refine ⟨s', row', ?_, h8⟩
      rw [tcLoop]
      simp only [eu]
      show (tcEdges i g[u] ⟨d, stk, res⟩).bind _ = _
      rw [e1]
      exact e2

theorem tcFrom_spec (g : List (List Nat)) (hg : Valid g) (fuel : Nat) (hf : g.length < fuel) (R : List (List Nat))
    (hR : R.length = g.length) (i : Nat) (hi : i < g.length) (h0 : R[i]? = some []) :
    ∃ row, tcFrom fuel g i R = some (R.set i row) ∧ row.Nodup ∧ ∀ v, v ∈ row ↔ v ≠ i ∧ Reach g i v := by
  have hvis : ∀ v, Vis ((List.replicate g.length (0 : Int)).set i (-1)) v ↔ v = i := by
    intro v
    rw [vis_set _ _ (by simpa using hi) _ (by decide)]
    refine ⟨fun h => h.elim (fun ⟨x, h1, h2⟩ => ?_) id, Or.inr⟩
    rw [List.getElem?_replicate] at h1
    split at h1
    · exact absurd (Option.some.inj h1).symm h2
    · cases h1
  have hc : ((List.replicate g.length (0 : Int)).set i (-1)).count 0 + 1 = g.length := by
    rw [count_set_zero _ _ (by simp [hi]) _ (by decide)]
    simp
  obtain ⟨s, row, e, h1, h2, h3⟩ := tcLoop_spec g hg R i (by omega) fuel ⟨(List.replicate g.length 0).set i (-1), [i], R⟩ []
    (by simp only [List.length_cons, List.length_nil]; omega) (by simp)
    (by
      apply List.ext_getElem?
      intro j
      by_cases hj : j = i
      · subst hj; rw [h0, List.getElem?_set_self (by omega)]
      · rw [List.getElem?_set_ne (Ne.symm hj)])
    List.nodup_nil
    (fun v => by simp [hvis]) ((hvis i).mpr rfl)
    (fun v hv => by rw [(hvis v).mp hv]; exact ReflTransGen.refl)
    (fun v hv => by rw [hvis]; simpa using hv)
    (fun u hu hns => by rw [hvis] at hu; simp [hu] at hns)
  refine ⟨row, ?_, h2, h3⟩
  rw [tcFrom, wr, if_pos (by simpa using hi)]
  show (tcLoop g i fuel _).bind _ = _
  rw [e]
  exact congrArg some h1

/-- `transitive_closure`: the row of `i` lists, each once, the nodes other than `i` that can be reached from `i`. -/
theorem C91_transitive_closure (g : List (List Nat)) (hg : Valid g) (fuel : Nat) (hf : g.length < fuel) :
    ∃ r, transitiveClosure fuel g = some r ∧ r.length = g.length
      ∧ ∀ i, i < g.length → ∃ row, r[i]? = some row ∧ row.Nodup ∧ ∀ v, v ∈ row ↔ v ≠ i ∧ Reach g i v := by
  obtain ⟨r, e, h1, h2, _⟩ := forUp_spec (body := tcFrom fuel g) (P := fun k (r : List (List Nat)) => r.length = g.length
      ∧ (∀ i, i < k → ∃ row, r[i]? = some row ∧ row.Nodup ∧ ∀ v, v ∈ row ↔ v ≠ i ∧ Reach g i v)
      ∧ ∀ i, k ≤ i → i < g.length → r[i]? = some []) (a := 0) (n := g.length) (s := List.replicate g.length [])
    (Nat.zero_le _) ⟨by simp, by omega, fun i _ hi => by simp [hi]⟩
    (fun i r _ hi ⟨h1, h2, h3⟩ => by
      obtain ⟨row, e, h4, h5⟩ := tcFrom_spec g hg fuel hf r h1 i hi (h3 i (le_refl _) hi)
      refine ⟨_, e, by rw [List.length_set, h1], fun j hj => ?_, fun j hj hj2 => ?_⟩
      · by_cases hji : j = i
        · subst hji
          exact ⟨row, by rw [List.getElem?_set_self (by omega)], h4, h5⟩
        · rw [List.getElem?_set_ne (Ne.symm hji)]
          exact h2 j (by omega)
      · rw [List.getElem?_set_ne (by omega)]
        exact h3 j (by omega) hj2)
  exact ⟨r, e, h1, h2⟩

/-! ### Reduction -/

/-- `trFirst` and `trEdges` for the mark `x`. -/
def mark (x : Int) : List Nat → List Int → List Nat → Option (List Int × List Nat)
  | [], d, stk => some (d, stk)
  | v :: es, d, stk => do
    let dv ← rd d v
    let d ← wr d v x
    mark x es d (if dv = 0 then v :: stk else stk)

theorem trFirst_eq (es : List Nat) : ∀ d stk, trFirst es d stk = mark 1 es d stk := by
  induction es with
  | nil => intro d stk; rfl
  | cons v es ih => intro d stk; simp only [trFirst, mark, ih]

theorem trEdges_eq (es : List Nat) : ∀ d stk, trEdges es d stk = mark (-1) es d stk := by
  induction es with
  | nil => intro d stk; rfl
  | cons v es ih => intro d stk; simp only [trEdges, mark, ih]

theorem mark_spec (x : Int) (hx : x ≠ 0) : ∀ (es : List Nat) (d : List Int) (stk : List Nat), (∀ v ∈ es, v < d.length) →
    ∃ d' stk', mark x es d stk = some (d', stk') ∧ d'.length = d.length
      ∧ (∀ v, d'[v]? = if v ∈ es then some x else d[v]?)
      ∧ (∀ v, v ∈ stk' ↔ v ∈ stk ∨ (v ∈ es ∧ d[v]? = some 0))
      ∧ d'.count 0 + stk'.length = d.count 0 + stk.length := by
  intro es
  induction es with
  | nil => intro d stk _; exact ⟨d, stk, rfl, rfl, by simp, by simp, rfl⟩
  | cons w es ih =>
    intro d stk hes
    have hw : w < d.length := hes w (by simp)
    obtain ⟨d', stk', e, h1, h2, h3, h4⟩ := ih (d.set w x) (if d[w] = 0 then w :: stk else stk)
      (fun v hv => by rw [List.length_set]; exact hes v (by simp [hv]))
    refine ⟨d', stk', ?_, by rw [h1, List.length_set], fun v => ?_, fun v => ?_, ?_⟩
    · rw [mark, rd, List.getElem?_eq_getElem hw]
      show (wr d w x).bind _ = _
      rw [wr, if_pos hw]
      exact e
    · rw [h2]
      by_cases hvw : v = w
      · subst hvw
        rw [List.getElem?_set_self hw]
        simp
      · rw [List.getElem?_set_ne (Ne.symm hvw)]
        simp [hvw]
    · rw [h3]
      by_cases hvw : v = w
      · subst hvw
        rw [List.getElem?_set_self hw, List.getElem?_eq_getElem hw]
        by_cases h0 : d[v] = 0
        · simp [h0]
        · simp [h0, hx]
      · rw [List.getElem?_set_ne (Ne.symm hvw)]
        by_cases h0 : d[w] = 0
        · simp [h0, hvw]
        · simp [h0, hvw]
    · rw [h4]
      by_cases h0 : d[w] = 0
      · rw [if_pos h0]
        have := count_set_zero d w (by rw [List.getElem?_eq_getElem hw, h0]) x hx
        simp only [List.length_cons]
        omega
      · rw [if_neg h0, List.count_set hw]
        simp [h0, hx]

/-- `v` can be reached from `i` through another neighbour of `i`. -/
def Indirect (g : List (List Nat)) (i v : Nat) : Prop := ∃ w, Edge g i w ∧ Path g w v

theorem trLoop_spec (g : List (List Nat)) (hg : Valid g) (i : Nat) (hi : i < g.length) (hac : ¬ Path g i i) :
    ∀ (fuel : Nat) (d : List Int) (stk : List Nat), d.count 0 + stk.length < fuel → d.length = g.length →
    d[i]? = some (-1) →
    (∀ v, d[v]? = some (-1) → v = i ∨ Indirect g i v) →
    (∀ v, v ≠ i → Edge g i v → d[v]? = some 1 ∨ d[v]? = some (-1)) →
    (∀ v, d[v]? = some 0 ∨ d[v]? = some 1 ∨ d[v]? = some (-1) ∨ g.length ≤ v) →
    (∀ v, d[v]? = some 1 → Edge g i v) →
    (∀ v ∈ stk, v ≠ i ∧ Vis d v) →
    (∀ u, u ≠ i → Vis d u → u ∉ stk → ∀ v, Edge g u v → d[v]? = some (-1)) →
    ∃ d', trLoop g fuel d stk = some d' ∧ d'.length = g.length
      ∧ ∀ v, d'[v]? = some 1 ↔ Edge g i v ∧ ¬ Indirect g i v := by
  intro fuel
  induction fuel with
  | zero => intro d stk h; omega
  | succ fuel ih =>
    intro d stk hf hl hdi hneg hdir hval hone hst hcl
    cases stk with
    | nil =>
      refine ⟨d, rfl, hl, fun v => ⟨fun h => ⟨hone v h, ?_⟩, fun ⟨h1, h2⟩ => ?_⟩⟩
      · rintro ⟨w, hw, hp⟩
        have hwi : w ≠ i := by rintro rfl; exact hac (TransGen.single hw)
        have hvw : Vis d w := by
          rcases hdir w hwi hw with h | h
          · exact ⟨_, h, by decide⟩
          · exact ⟨_, h, by decide⟩
        have key : ∀ x, Path g w x → d[x]? = some (-1) := by
          intro x hx
          induction hx with
          | single h => exact hcl w hwi hvw (by simp) _ h
          | tail h1 h2 ih =>
            rename_i b c
            have hbi : b ≠ i := by
              rintro rfl
              exact hac (TransGen.head hw h1)
            exact hcl b hbi ⟨_, ih, by decide⟩ (by simp) _ h2
        have := key v hp
        rw [h] at this
        cases this
      · have hvi : v ≠ i := by rintro rfl; exact hac (TransGen.single h1)
        rcases hdir v hvi h1 with h | h
        · exact h
        · rcases hneg v h with h' | h'
          · exact absurd h' hvi
          · exact absurd h' h2
    | cons u stk =>
      obtain ⟨hui, hvu⟩ := hst u (by simp)
      have hu : u < g.length := by
        obtain ⟨x, hx, _⟩ := hvu
        rw [← hl]; exact (List.getElem?_eq_some_iff.mp hx).1
      have eu : rd g u = some g[u] := by rw [rd, List.getElem?_eq_getElem hu]
      have hedge : ∀ v, v ∈ g[u] ↔ Edge g u v := fun v =>
        ⟨fun h => ⟨_, List.getElem?_eq_getElem hu, h⟩, fun ⟨l, h1, h2⟩ => by
          rw [List.getElem?_eq_getElem hu] at h1; cases h1; exact h2⟩
      -- `u` is a neighbour of `i` or reached indirectly
      have hru : Edge g i u ∨ Indirect g i u := by
        obtain ⟨x, hx, hx0⟩ := hvu
        rcases hval u with h | h | h | h
        · rw [h] at hx; exact absurd (Option.some.inj hx).symm hx0
        · exact Or.inl (hone u h)
        · exact Or.inr ((hneg u h).resolve_left hui)
        · omega
      have hsucc : ∀ v, Edge g u v → Indirect g i v := by
        intro v hv
        rcases hru with h | ⟨w, h1, h2⟩
        · exact ⟨u, h, TransGen.single hv⟩
        · exact ⟨w, h1, TransGen.tail h2 hv⟩
      have hsi : ∀ v, Edge g u v → v ≠ i := by
        rintro v hv rfl
        obtain ⟨w, h1, h2⟩ := hsucc v hv
        exact hac (TransGen.head h1 h2)
      obtain ⟨d1, stk1, e1, h1, h2, h3, h4⟩ := mark_spec (-1) (by decide) g[u] d stk
        (fun v hv => by rw [hl]; exact hg u v ((hedge v).mp hv))
      have hmono : ∀ v, Vis d v → Vis d1 v := by
        rintro v ⟨x, hx, hx0⟩
        unfold Vis
        rw [h2]
        by_cases hv : v ∈ g[u]
        · rw [if_pos hv]; exact ⟨_, rfl, by decide⟩
        · rw [if_neg hv]; exact ⟨x, hx, hx0⟩
      obtain ⟨d', e2, h5⟩ := ih d1 stk1 (by rw [h4]; simp only [List.length_cons] at hf; omega) (by rw [h1, hl])
        (by rw [h2]; split
            · rfl
            · exact hdi)
        (fun v hv => by
          rw [h2] at hv
          split at hv
          · rename_i h; exact Or.inr (hsucc v ((hedge v).mp h))
          · exact hneg v hv)
        (fun v hvi hv => by
          rw [h2]
          split
          · exact Or.inr rfl
          · exact hdir v hvi hv)
        (fun v => by
          rw [h2]
          split
          · exact Or.inr (Or.inr (Or.inl rfl))
          · exact hval v)
        (fun v hv => by
          rw [h2] at hv
          split at hv
          · cases hv
          · exact hone v hv)
        (fun v hv => by
          rcases (h3 v).mp hv with h | ⟨h, _⟩
          · exact ⟨(hst v (by simp [h])).1, hmono v (hst v (by simp [h])).2⟩
          · refine ⟨hsi v ((hedge v).mp h), ?_⟩
            unfold Vis
            rw [h2, if_pos h]; exact ⟨_, rfl, by decide⟩)
        (fun w hwi hw hws v hv => by
          rw [h2]
          split
          · rfl
          rename_i hvu'
          have hwu : w ≠ u := by rintro rfl; exact hvu' ((hedge v).mpr hv)
          have hws' : w ∉ stk ∧ ¬ (w ∈ g[u] ∧ d[w]? = some 0) := by
            rw [h3] at hws; tauto
          refine hcl w hwi ?_ (by simp [hwu, hws'.1]) v hv
          obtain ⟨x, hx, hx0⟩ := hw
          rw [h2] at hx
          split at hx
          · rename_i hwg
            rcases hval w with h | h | h | h
            · exact absurd ⟨hwg, h⟩ hws'.2
            · exact ⟨_, h, by decide⟩
            · exact ⟨_, h, by decide⟩
            · have := hg u w ((hedge w).mp hwg)
              omega
          · exact ⟨x, hx, hx0⟩)
      refine ⟨d', ?_, h5⟩
      rw [trLoop]
      simp only [eu]
      show (trEdges g[u] d stk).bind _ = _
      rw [trEdges_eq, e1]
      exact e2

theorem trFrom_spec (g : List (List Nat)) (hg : Valid g) (hac : Acyclic g) (fuel : Nat) (hf : g.length < fuel) (R : List (List Nat))
    (hR : R.length = g.length) (i : Nat) (hi : i < g.length) (h0 : R[i]? = some []) :
    ∃ row, trFrom fuel g i R = some (R.set i row) ∧ row.Pairwise (· < ·) ∧ ∀ v, v ∈ row ↔ Edge g i v ∧ ¬ Indirect g i v := by
  have hedge : ∀ v, v ∈ g[i] ↔ Edge g i v := fun v =>
    ⟨fun h => ⟨_, List.getElem?_eq_getElem hi, h⟩, fun ⟨l, h1, h2⟩ => by
      rw [List.getElem?_eq_getElem hi] at h1; cases h1; exact h2⟩
  have hself : i ∉ g[i] := fun h => hac i (TransGen.single ((hedge i).mp h))
  obtain ⟨d1, stk1, e1, h1, h2, h3, h4⟩ := mark_spec 1 (by decide) g[i] ((List.replicate g.length (0 : Int)).set i (-1)) []
    (fun v hv => by rw [List.length_set, List.length_replicate]; exact hg i v ((hedge v).mp hv))
  rw [List.length_set, List.length_replicate] at h1
  have hc : ((List.replicate g.length (0 : Int)).set i (-1)).count 0 + 1 = g.length := by
    rw [count_set_zero _ _ (by simp [hi]) _ (by decide)]
    simp
  have hdi : d1[i]? = some (-1) := by
    rw [h2, if_neg hself, List.getElem?_set_self (by simpa using hi)]
  have hset : d1.set i (-1) = d1 := by
    apply List.ext_getElem?
    intro j
    by_cases hj : j = i
    · subst hj; rw [hdi, List.getElem?_set_self (by omega)]
    · rw [List.getElem?_set_ne (Ne.symm hj)]
  have hd1 : ∀ v, d1[v]? = if v ∈ g[i] then some 1 else if v = i then some (-1) else if v < g.length then some 0 else none := by
    intro v
    rw [h2]
    split
    · rfl
    · by_cases hv : v = i
      · subst hv; rw [List.getElem?_set_self (by simpa using hi), if_pos rfl]
      · rw [List.getElem?_set_ne (Ne.symm hv), if_neg hv, List.getElem?_replicate]
  obtain ⟨d2, e2, h5, h6⟩ := trLoop_spec g hg i hi (hac i) fuel d1 stk1
    (by rw [h4]; simp only [List.length_nil]; omega) h1 hdi
    (fun v hv => by
      rw [hd1] at hv
      split at hv
      · cases hv
      · split at hv
        · rename_i h; exact Or.inl h
        · split at hv <;> cases hv)
    (fun v _ hv => by rw [hd1, if_pos ((hedge v).mpr hv)]; exact Or.inl rfl)
    (fun v => by
      rw [hd1]
      split
      · exact Or.inr (Or.inl rfl)
      · split
        · exact Or.inr (Or.inr (Or.inl rfl))
        · split
          · exact Or.inl rfl
          · exact Or.inr (Or.inr (Or.inr (by omega))))
    (fun v hv => by
      rw [hd1] at hv
      split at hv
      · rename_i h; exact (hedge v).mp h
      · split at hv
        · cases hv
        · split at hv <;> cases hv)
    (fun v hv => by
      rcases (h3 v).mp hv with h | ⟨h, _⟩
      · simp at h
      · refine ⟨by rintro rfl; exact hself h, 1, ?_, by decide⟩
        rw [hd1, if_pos h])
    (fun u hui hu hus => by
      exfalso
      apply hus
      rw [h3]
      right
      obtain ⟨x, hx, hx0⟩ := hu
      rw [hd1] at hx
      split at hx
      · rename_i h
        refine ⟨h, ?_⟩
        rw [List.getElem?_set_ne (Ne.symm hui), List.getElem?_replicate, if_pos (hg i u ((hedge u).mp h))]
      · split at hx
        · exact absurd (Option.some.inj hx).symm hx0
        · cases hx)
  obtain ⟨r, e3, row, h7, h8, h9⟩ := forUp_spec (body := fun v res => do
      let dv ← rd d2 v
      if dv = 1 then addEdge res i v else some res) (P := fun k r => ∃ row, r = R.set i row ∧ row.Pairwise (· < ·)
        ∧ ∀ v, v ∈ row ↔ v < k ∧ d2[v]? = some 1) (a := 0) (n := g.length) (s := R) (Nat.zero_le _)
    ⟨[], by
      apply List.ext_getElem?
      intro j
      by_cases hj : j = i
      · subst hj; rw [h0, List.getElem?_set_self (by omega)]
      · rw [List.getElem?_set_ne (Ne.symm hj)], by simp, by simp⟩
    (fun v r _ hv ⟨row, h7, h8, h9⟩ => by
      have ev : rd d2 v = some d2[v] := by rw [rd, List.getElem?_eq_getElem (by omega)]
      subst h7
      by_cases hx : d2[v] = 1
      · refine ⟨R.set i (row ++ [v]), ?_, row ++ [v], rfl, ?_, fun w => ?_⟩
        · simp only [ev]
          show (if d2[v] = 1 then _ else _) = _
          rw [if_pos hx, addEdge_set _ _ _ _ (by omega)]
        · rw [List.pairwise_append]
          exact ⟨h8, by simp, fun a ha b hb => by
            rw [List.mem_singleton.mp hb]; exact ((h9 a).mp ha).1⟩
        · rw [List.mem_append, h9, List.mem_singleton]
          constructor
          · rintro (⟨h1, h2⟩ | rfl)
            · exact ⟨by omega, h2⟩
            · exact ⟨by omega, by rw [List.getElem?_eq_getElem (by omega), hx]⟩
          · rintro ⟨h1, h2⟩
            by_cases hwv : w = v
            · exact Or.inr hwv
            · exact Or.inl ⟨by omega, h2⟩
      · refine ⟨R.set i row, ?_, row, rfl, h8, fun w => ?_⟩
        · simp only [ev]
          show (if d2[v] = 1 then _ else _) = _
          rw [if_neg hx]
        · rw [h9]
          constructor
          · rintro ⟨h1, h2⟩; exact ⟨by omega, h2⟩
          · rintro ⟨h1, h2⟩
            refine ⟨?_, h2⟩
            by_contra hc
            have : w = v := by omega
            subst this
            rw [List.getElem?_eq_getElem (by omega)] at h2
            exact hx (Option.some.inj h2))
  refine ⟨row, ?_, h8, fun v => ?_⟩
  · rw [trFrom, wr, if_pos (by simpa using hi)]
    show (rd g i).bind _ = _
    rw [rd, List.getElem?_eq_getElem hi]
    show (trFirst g[i] _ []).bind _ = _
    rw [trFirst_eq, e1]
    show (wr d1 i (-1)).bind _ = _
    rw [wr, if_pos (by omega), hset]
    show (trLoop g fuel d1 stk1).bind _ = _
    rw [e2]
    show forUp _ 0 g.length R = _
    rw [← h7]
    exact e3
  · rw [h9, ← h6]
    exact ⟨fun h => h.2, fun h => ⟨by rw [← h5]; exact (List.getElem?_eq_some_iff.mp h).1, h⟩⟩

/-- The edges that `transitive_reduction` keeps: those that are not also a longer path. -/
theorem transitiveReduction_edges (g : List (List Nat)) (hg : Valid g) (hac : Acyclic g) (fuel : Nat) (hf : g.length < fuel) :
    ∃ r, transitiveReduction fuel g = some r ∧ r.length = g.length ∧ (∀ row ∈ r, row.Pairwise (· < ·))
      ∧ ∀ i v, Edge r i v ↔ Edge g i v ∧ ¬ Indirect g i v := by
  obtain ⟨r, e, h1, h2, _⟩ := forUp_spec (body := trFrom fuel g) (P := fun k (r : List (List Nat)) => r.length = g.length
      ∧ (∀ i, i < k → ∃ row, r[i]? = some row ∧ row.Pairwise (· < ·) ∧ ∀ v, v ∈ row ↔ Edge g i v ∧ ¬ Indirect g i v)
      ∧ ∀ i, k ≤ i → i < g.length → r[i]? = some []) (a := 0) (n := g.length) (s := List.replicate g.length [])
    (Nat.zero_le _) ⟨by simp, by omega, fun i _ hi => by simp [hi]⟩
    (fun i r _ hi ⟨h1, h2, h3⟩ => by
      obtain ⟨row, e, h4, h5⟩ := trFrom_spec g hg hac fuel hf r h1 i hi (h3 i (le_refl _) hi)
      refine ⟨_, e, by rw [List.length_set, h1], fun j hj => ?_, fun j hj hj2 => ?_⟩
      · by_cases hji : j = i
        · subst hji
          exact ⟨row, by rw [List.getElem?_set_self (by omega)], h4, h5⟩
        · rw [List.getElem?_set_ne (Ne.symm hji)]
          exact h2 j (by omega)
      · rw [List.getElem?_set_ne (by omega)]
        exact h3 j (by omega) hj2)
  refine ⟨r, e, h1, fun row hrow => ?_, fun i v => ⟨fun ⟨l, h3, h4⟩ => ?_, fun h => ?_⟩⟩
  · obtain ⟨i, hi, rfl⟩ := List.getElem_of_mem hrow
    obtain ⟨row, h3, h4, _⟩ := h2 i (by omega)
    rw [List.getElem?_eq_getElem hi] at h3
    cases h3
    exact h4
  · have hi : i < r.length := (List.getElem?_eq_some_iff.mp h3).1
    obtain ⟨row, h5, _, h6⟩ := h2 i (by omega)
    rw [h3] at h5
    cases h5
    exact (h6 v).mp h4
  · obtain ⟨row, h5, _, h6⟩ := h2 i (edge_lt h.1)
    exact ⟨row, h5, (h6 v).mpr h⟩

/-- `transitive_reduction` of an acyclic graph: a subgraph with the same reachability, whose edges occur in every relation
with this reachability. -/
theorem C91_transitive_reduction (g : List (List Nat)) (hg : Valid g) (hac : Acyclic g) (fuel : Nat) (hf : g.length < fuel) :
    ∃ r, transitiveReduction fuel g = some r ∧ r.length = g.length ∧ (∀ row ∈ r, row.Nodup)
      ∧ (∀ u v, Edge r u v → Edge g u v)
      ∧ (∀ u v, Reach r u v ↔ Reach g u v)
      ∧ ∀ R : Nat → Nat → Prop, (∀ u v, ReflTransGen R u v ↔ Reach g u v) → ∀ u v, Edge r u v → R u v := by
  classical
  obtain ⟨r, e, h1, h2, h3⟩ := transitiveReduction_edges g hg hac fuel hf
  have hlt : ∀ u v, Path g u v → u < g.length := by
    intro u v h
    induction h with
    | single h => exact edge_lt h
    | tail _ _ ih => exact ih
  have hpath : ∀ (k u v : Nat), ((Finset.range g.length).filter (fun x => Path g u x ∧ Path g x v)).card = k →
      Path g u v → Path r u v := by
    intro k
    induction k using Nat.strong_induction_on with
    | _ k ih =>
      intro u v hk hp
      by_cases hx : ∃ x, Path g u x ∧ Path g x v
      · obtain ⟨x, hx1, hx2⟩ := hx
        have hxm : x ∈ (Finset.range g.length).filter (fun x => Path g u x ∧ Path g x v) :=
          Finset.mem_filter.mpr ⟨Finset.mem_range.mpr (hlt x v hx2), hx1, hx2⟩
        refine TransGen.trans (b := x) ?_ ?_
        · refine ih _ ?_ u x rfl hx1
          rw [← hk]
          refine Finset.card_lt_card (Finset.ssubset_iff_of_subset (fun y hy => ?_) |>.mpr ⟨x, hxm, fun h => ?_⟩)
          · have := Finset.mem_filter.mp hy
            exact Finset.mem_filter.mpr ⟨this.1, this.2.1, this.2.2.trans hx2⟩
          · exact hac x (Finset.mem_filter.mp h).2.2
        · refine ih _ ?_ x v rfl hx2
          rw [← hk]
          refine Finset.card_lt_card (Finset.ssubset_iff_of_subset (fun y hy => ?_) |>.mpr ⟨x, hxm, fun h => ?_⟩)
          · have := Finset.mem_filter.mp hy
            exact Finset.mem_filter.mpr ⟨this.1, hx1.trans this.2.1, this.2.2⟩
          · exact hac x (Finset.mem_filter.mp h).2.1
      · have hed : Edge g u v := by
          cases hp with
          | single h => exact h
          | tail h1 h2 => exact absurd ⟨_, h1, TransGen.single h2⟩ hx
        refine TransGen.single ((h3 u v).mpr ⟨hed, ?_⟩)
        rintro ⟨w, hw1, hw2⟩
        exact hx ⟨w, TransGen.single hw1, hw2⟩
  refine ⟨r, e, h1, fun row hrow => (h2 row hrow).imp (fun h => ne_of_lt h), fun u v h => ((h3 u v).mp h).1,
    fun u v => ⟨fun h => ?_, fun h => ?_⟩, fun R hR u v h => ?_⟩
  · exact ReflTransGen.mono (fun a b hab => ((h3 a b).mp hab).1) _ _ h
  · rcases (reflTransGen_iff_eq_or_transGen.mp h) with h | h
    · subst h; exact ReflTransGen.refl
    · exact (hpath _ u v rfl h).to_reflTransGen
  · obtain ⟨h4, h5⟩ := (h3 u v).mp h
    have hne : u ≠ v := by rintro rfl; exact hac u (TransGen.single h4)
    have h6 : ReflTransGen R u v := (hR u v).mpr (ReflTransGen.single h4)
    have first : ∀ a, ReflTransGen R a v → a ≠ v → ∃ w, R a w ∧ w ≠ a ∧ ReflTransGen R w v := by
      intro a ha
      induction ha using ReflTransGen.head_induction_on with
      | refl => intro h; exact absurd rfl h
      | head hab hbv ih =>
        rename_i a b
        intro hav
        by_cases hba : b = a
        · subst hba; exact ih hav
        · exact ⟨b, hab, hba, hbv⟩
    obtain ⟨w, hw1, hw2, hw3⟩ := first u h6 hne
    by_cases hwv : w = v
    · rw [← hwv]; exact hw1
    · exfalso
      have h7 : Path g u w := by
        rcases reflTransGen_iff_eq_or_transGen.mp ((hR u w).mp (ReflTransGen.single hw1)) with h | h
        · exact absurd h hw2
        · exact h
      have h8 : Path g w v := by
        rcases reflTransGen_iff_eq_or_transGen.mp ((hR w v).mp hw3) with h | h
        · exact absurd h.symm hwv
        · exact h
      obtain ⟨x, hx1, hx2⟩ := TransGen.head'_iff.mp h7
      exact h5 ⟨x, hx1, TransGen.trans_right hx2 h8⟩

/-! ### The hypotheses are met -/

example : transitiveClosure 5 [[1], [2], [0, 1], [3, 1]] = some [[1, 2], [2, 0], [0, 1], [1, 2, 0]] := by decide +kernel

example : transitiveReduction 5 [[1, 2, 3], [2, 3], [3], []] = some [[1], [2], [3], []] := by decide +kernel

theorem acyclic_of_lt {g : List (List Nat)} (h : ∀ u v, Edge g u v → u < v) : Acyclic g := by
  intro u hu
  have : ∀ v, Path g u v → u < v := by
    intro v hv
    induction hv with
    | single h1 => exact h _ _ h1
    | tail _ h1 ih => exact ih.trans (h _ _ h1)
  exact absurd (this u hu) (lt_irrefl u)

theorem edge_of_forall {g : List (List Nat)} {p : Nat → Nat → Prop}
    (h : ∀ u ∈ List.range g.length, ∀ v ∈ (g[u]?).getD [], p u v) {u v : Nat} (e : Edge g u v) : p u v := by
  obtain ⟨l, h1, h2⟩ := e
  exact h u (List.mem_range.mpr (List.getElem?_eq_some_iff.mp h1).1) v (by rw [h1]; exact h2)

example : Valid [[1, 2, 3], [2, 3], [3], []] ∧ Acyclic [[1, 2, 3], [2, 3], [3], []] :=
  ⟨fun _ _ e => edge_of_forall (p := fun _ v => v < 4) (by decide) e,
    acyclic_of_lt (fun _ _ e => edge_of_forall (p := fun u v => u < v) (by decide) e)⟩

end Altruct.GraphAlg
