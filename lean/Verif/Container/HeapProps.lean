/-
C19: binary heap.
-/
import Verif.Container.HeapModel
import Mathlib.Data.List.Perm.Basic
import Mathlib.Data.Multiset.AddSub
import Mathlib.Order.Defs.Unbundled

namespace Altruct.Heap

variable {T : Type*}

/-- Specification: `cmp` is a strict weak order. -/
structure StrictWeak (cmp : T → T → Bool) : Prop where
  irrefl : ∀ a, cmp a a = false
  trans : ∀ a b c, cmp a b = true → cmp b c = true → cmp a c = true
  incomp : ∀ a b c, cmp a b = false → cmp b a = false → cmp b c = false → cmp c b = false →
    cmp a c = false ∧ cmp c a = false

/-- `a` may come before `b`. -/
def Le (cmp : T → T → Bool) (a b : T) : Prop := cmp b a = false

theorem StrictWeak.le_refl {cmp : T → T → Bool} (h : StrictWeak cmp) (a : T) : Le cmp a a := h.irrefl a

theorem StrictWeak.le_of_lt {cmp : T → T → Bool} (h : StrictWeak cmp) {a b : T} (hab : cmp a b = true) :
    Le cmp a b := by
  unfold Le
  cases hba : cmp b a
  · rfl
  · have := h.trans a b a hab hba
    rw [h.irrefl] at this; cases this

theorem StrictWeak.le_trans {cmp : T → T → Bool} (h : StrictWeak cmp) {a b c : T} (hab : Le cmp a b)
    (hbc : Le cmp b c) : Le cmp a c := by
  unfold Le at *
  cases hca : cmp c a
  · rfl
  · cases hab' : cmp a b
    · cases hbc' : cmp b c
      · have := (h.incomp a b c hab' hab hbc' hbc).2
        rw [this] at hca; cases hca
      · have := h.trans b c a hbc' hca
        rw [hab] at this; cases this
    · have := h.trans c a b hca hab'
      rw [hbc] at this; cases this

theorem le_of_not {cmp : T → T → Bool} {a b : T} (h : cmp a b = false) : Le cmp b a := h

/-! ### Swaps -/

theorem swp_spec {v : List T} {n : Nat} {g : Nat → T} (hv : Rep v n g) {i j : Nat} (hi : i < n) (hj : j < n) :
    ∃ v', swp v i j = some v' ∧ v'.Perm v ∧
      Rep v' n (fun k => if k = j then g i else if k = i then g j else g k) := by
  unfold swp
  simp only [hv.rd hi, hv.rd hj, Option.bind_eq_bind, Option.bind_some, hv.wr hi, (hv.set i (g j)).wr hj]
  refine ⟨_, rfl, ?_, ?_⟩
  · have hil : i < v.length := by rw [hv.len]; exact hi
    have hjl : j < v.length := by rw [hv.len]; exact hj
    have e1 : v[i] = g i := by
      have := hv.get i hi; rw [List.getElem?_eq_getElem hil] at this; exact Option.some.inj this
    have e2 : v[j] = g j := by
      have := hv.get j hj; rw [List.getElem?_eq_getElem hjl] at this; exact Option.some.inj this
    rw [← e1, ← e2]
    exact List.set_set_perm hil hjl
  · apply ((hv.set i (g j)).set j (g i)).congr
    intro k _
    by_cases h1 : k = j
    · subst h1; simp
    · rw [Function.update_of_ne h1, if_neg h1]
      by_cases h2 : k = i
      · subst h2; simp
      · rw [Function.update_of_ne h2, if_neg h2]

/-- Heap order of `g` below `sz`, for the parents from `k` on. -/
def HeapFrom (cmp : T → T → Bool) (g : Nat → T) (k sz : Nat) : Prop :=
  ∀ i, 0 < i → i < sz → k ≤ (i - 1) / 2 → Le cmp (g ((i - 1) / 2)) (g i)

theorem better_spec {cmp : T → T → Bool} {v : List T} {n : Nat} {g : Nat → T} (hv : Rep v n g)
    {c sz best : Nat} (hsz : sz ≤ n) (hb : best < n) :
    better cmp v c sz best = some (if c < sz ∧ cmp (g c) (g best) = true then c else best) := by
  unfold better
  by_cases hc : c < sz
  · rw [if_pos hc, hv.rd (by omega), hv.rd hb]
    simp [hc]
  · rw [if_neg hc]; simp [hc]

theorem heapifyDown_spec {cmp : T → T → Bool} (sw : StrictWeak cmp) {n sz k : Nat} (hsz : sz ≤ n) (index : Nat)
    (hix : index < n) {v : List T} {g : Nat → T} (hv : Rep v n g)
    (H1 : ∀ i, 0 < i → i < sz → k ≤ (i - 1) / 2 → (i - 1) / 2 ≠ index → Le cmp (g ((i - 1) / 2)) (g i))
    (H2 : ∀ i, 0 < i → i < sz → (i - 1) / 2 = index → 0 < index → k ≤ (index - 1) / 2 →
      Le cmp (g ((index - 1) / 2)) (g i)) (hki : k ≤ index) :
    ∃ v' g', heapifyDown cmp v index sz = some v' ∧ v'.Perm v ∧ Rep v' n g' ∧ HeapFrom cmp g' k sz ∧
      (∀ i, sz ≤ i → g' i = g i) ∧ (∀ i, i < sz → ∃ j, j < sz ∧ g' i = g j) := by
  induction hm : sz - index using Nat.strong_induction_on generalizing index v g with
  | _ m ih =>
    rw [heapifyDown, better_spec hv hsz hix]
    simp only [Option.bind_some]
    generalize hb1 : (if index * 2 + 1 < sz ∧ cmp (g (index * 2 + 1)) (g index) = true then index * 2 + 1
      else index) = b1
    have hb1n : b1 < n := by
      rw [← hb1]; split
      · rename_i h; omega
      · exact hix
    rw [better_spec hv hsz hb1n]
    simp only
    generalize hb : (if index * 2 + 2 < sz ∧ cmp (g (index * 2 + 2)) (g b1) = true then index * 2 + 2
      else b1) = b
    -- what the choice of `b` means
    have c1 : index * 2 + 1 < sz → Le cmp (g b1) (g (index * 2 + 1)) := by
      intro hl
      rw [← hb1]
      cases hc : cmp (g (index * 2 + 1)) (g index)
      · simp only [Bool.false_eq_true, and_false, if_false]; exact hc
      · simp only [hl, and_self, if_true]; exact sw.le_refl _
    have c0 : Le cmp (g b1) (g index) ∧ (b1 ≠ index → cmp (g b1) (g index) = true ∧ b1 = index * 2 + 1 ∧ b1 < sz) := by
      rw [← hb1]
      by_cases hc : index * 2 + 1 < sz ∧ cmp (g (index * 2 + 1)) (g index) = true
      · simp only [hc, and_self, if_true]
        exact ⟨sw.le_of_lt hc.2, fun _ => trivial⟩
      · simp only [hc, if_false]
        exact ⟨sw.le_refl _, fun h => absurd rfl h⟩
    have d1 : Le cmp (g b) (g b1) ∧ (b ≠ b1 → cmp (g b) (g b1) = true ∧ b = index * 2 + 2 ∧ b < sz) := by
      rw [← hb]
      by_cases hc : index * 2 + 2 < sz ∧ cmp (g (index * 2 + 2)) (g b1) = true
      · simp only [hc, and_self, if_true]
        exact ⟨sw.le_of_lt hc.2, fun _ => trivial⟩
      · simp only [hc, if_false]
        exact ⟨sw.le_refl _, fun h => absurd rfl h⟩
    have d2 : index * 2 + 2 < sz → Le cmp (g b) (g (index * 2 + 2)) := by
      intro hl
      rw [← hb]
      cases hc : cmp (g (index * 2 + 2)) (g b1)
      · simp only [Bool.false_eq_true, and_false, if_false]; exact hc
      · simp only [hl, and_self, if_true]; exact sw.le_refl _
    have e1 : index * 2 + 1 < sz → Le cmp (g b) (g (index * 2 + 1)) := fun h => sw.le_trans d1.1 (c1 h)
    by_cases hbi : b = index
    · rw [if_pos hbi]
      subst hbi
      refine ⟨v, g, rfl, List.Perm.refl _, hv, ?_, fun _ _ => rfl, fun i hi => ⟨i, hi, rfl⟩⟩
      intro i h0 hi hk
      by_cases hp : (i - 1) / 2 = b
      · rw [hp]
        have : i = b * 2 + 1 ∨ i = b * 2 + 2 := by omega
        rcases this with rfl | rfl
        · exact e1 hi
        · exact d2 hi
      · exact H1 i h0 hi hk hp
    · rw [if_neg hbi]
      have hbsz : b < sz ∧ (b = index * 2 + 1 ∨ b = index * 2 + 2) := by
        by_cases h : b = b1
        · have := c0.2 (by omega); omega
        · have := d1.2 h; omega
      rw [if_pos (by omega)]
      obtain ⟨v1, s1, p1, r1⟩ := swp_spec hv hix (by omega : b < n)
      simp only [s1]
      generalize hg1 : (fun k => if k = b then g index else if k = index then g b else g k) = g1 at r1
      have g1b : g1 b = g index := by rw [← hg1]; simp
      have g1i : g1 index = g b := by rw [← hg1]; simp [Ne.symm hbi]
      have g1o : ∀ x, x ≠ b → x ≠ index → g1 x = g x := by
        intro x h1 h2; rw [← hg1]; simp [h1, h2]
      obtain ⟨v', g', e', p', r', hp', t', s'⟩ := ih (sz - b) (by omega) b (by omega) r1 (by
        intro i h0 hi hk hp
        by_cases h1 : (i - 1) / 2 = index
        · rw [h1, g1i]
          by_cases h2 : i = b
          · subst h2; rw [g1b]; exact sw.le_trans d1.1 c0.1
          · rw [g1o i h2 (by omega)]
            have : i = index * 2 + 1 ∨ i = index * 2 + 2 := by omega
            rcases this with rfl | rfl
            · exact e1 hi
            · exact d2 hi
        · rw [g1o _ hp h1]
          by_cases h2 : i = index
          · subst h2; rw [g1i]; exact H2 b (by omega) hbsz.1 (by omega) h0 hk
          · by_cases h3 : i = b
            · omega
            · rw [g1o _ h3 h2]; exact H1 i h0 hi hk h1) (by
        intro i h0 hi hp hb0 hk
        rw [show (b - 1) / 2 = index by omega, g1i, g1o i (by omega) (by omega)]
        have := H1 i h0 hi (by omega) (by omega)
        rwa [hp] at this) (by omega) rfl
      refine ⟨v', g', e', p'.trans p1, r', hp', ?_, ?_⟩
      · intro i hi
        rw [t' i hi, g1o i (by omega) (by omega)]
      · intro i hi
        obtain ⟨j, hj, ej⟩ := s' i hi
        by_cases h1 : j = b
        · subst h1; exact ⟨index, by omega, by rw [ej, g1b]⟩
        · by_cases h2 : j = index
          · subst h2; exact ⟨b, by omega, by rw [ej, g1i]⟩
          · exact ⟨j, hj, by rw [ej, g1o j h1 h2]⟩

theorem heapifyUp_spec {cmp : T → T → Bool} (sw : StrictWeak cmp) {n : Nat} (index : Nat) (hix : index < n)
    {v : List T} {g : Nat → T} (hv : Rep v n g)
    (H1 : ∀ i, 0 < i → i < n → i ≠ index → Le cmp (g ((i - 1) / 2)) (g i))
    (H2 : ∀ i, 0 < i → i < n → (i - 1) / 2 = index → 0 < index → Le cmp (g ((index - 1) / 2)) (g i)) :
    ∃ v' g', heapifyUp cmp v index = some v' ∧ v'.Perm v ∧ Rep v' n g' ∧ HeapFrom cmp g' 0 n := by
  induction index using Nat.strong_induction_on generalizing v g with
  | _ index ih =>
    rw [heapifyUp]
    by_cases h0 : index > 0
    · rw [if_pos h0, hv.rd hix, hv.rd (by omega)]
      simp only
      cases hc : cmp (g index) (g ((index - 1) / 2))
      · simp only [Bool.not_false, if_true]
        refine ⟨v, g, rfl, List.Perm.refl _, hv, ?_⟩
        intro i hi0 hi _
        by_cases h : i = index
        · subst h; exact hc
        · exact H1 i hi0 hi h
      · simp only [Bool.not_true, Bool.false_eq_true, if_false]
        obtain ⟨v1, s1, p1, r1⟩ := swp_spec hv hix (by omega : (index - 1) / 2 < n)
        simp only [s1]
        generalize hg1 : (fun k => if k = (index - 1) / 2 then g index else if k = index
          then g ((index - 1) / 2) else g k) = g1 at r1
        have g1p : g1 ((index - 1) / 2) = g index := by rw [← hg1]; simp
        have g1i : g1 index = g ((index - 1) / 2) := by
          rw [← hg1]; simp only [if_true]; rw [if_neg (by omega)]
        have g1o : ∀ x, x ≠ (index - 1) / 2 → x ≠ index → g1 x = g x := by
          intro x h1 h2; rw [← hg1]; simp [h1, h2]
        have hlt := sw.le_of_lt hc
        obtain ⟨v', g', e', p', r', h'⟩ := ih ((index - 1) / 2) (by omega) (by omega) r1 (by
          intro i hi0 hi hne
          by_cases h1 : i = index
          · subst h1; rw [g1p, g1i]; exact hlt
          · rw [g1o i hne h1]
            by_cases h2 : (i - 1) / 2 = (index - 1) / 2
            · rw [h2, g1p]
              have := H1 i hi0 hi h1
              rw [h2] at this
              exact sw.le_trans hlt this
            · by_cases h3 : (i - 1) / 2 = index
              · rw [h3, g1i]; exact H2 i hi0 hi h3 h0
              · rw [g1o _ h2 h3]; exact H1 i hi0 hi h1) (by
          intro i hi0 hi hp hp0
          have hpp : g1 (((index - 1) / 2 - 1) / 2) = g (((index - 1) / 2 - 1) / 2) :=
            g1o _ (by omega) (by omega)
          rw [hpp]
          have hpar := H1 ((index - 1) / 2) hp0 (by omega) (by omega)
          by_cases h1 : i = index
          · subst h1; rw [g1i]; exact hpar
          · rw [g1o i (by omega) h1]
            have := H1 i hi0 hi h1
            rw [hp] at this
            exact sw.le_trans hpar this)
        exact ⟨v', g', e', p'.trans p1, r', h'⟩
    · rw [if_neg h0]
      exact ⟨v, g, rfl, List.Perm.refl _, hv, fun i hi0 hi _ => H1 i hi0 hi (by omega)⟩

theorem root_min {cmp : T → T → Bool} (sw : StrictWeak cmp) {g : Nat → T} {n : Nat}
    (h : HeapFrom cmp g 0 n) (i : Nat) (hi : i < n) : Le cmp (g 0) (g i) := by
  induction i using Nat.strong_induction_on with
  | _ i ih =>
    by_cases h0 : i = 0
    · subst h0; exact sw.le_refl _
    · exact sw.le_trans (ih ((i - 1) / 2) (by omega) (by omega)) (h i (by omega) hi (by omega))

/-- The vector is a heap. -/
def IsHeap (cmp : T → T → Bool) (v : List T) : Prop :=
  ∀ (i : Nat) (a b : T), 0 < i → v[(i - 1) / 2]? = some a → v[i]? = some b → Le cmp a b

theorem exists_rep (v : List T) (hv : v ≠ []) : ∃ g, Rep v v.length g := by
  cases v with
  | nil => exact absurd rfl hv
  | cons a l =>
    let _ : Inhabited T := ⟨a⟩
    exact ⟨_, Rep.self _⟩

theorem IsHeap.from {cmp : T → T → Bool} {v : List T} (h : IsHeap cmp v) {n : Nat} {g : Nat → T}
    (r : Rep v n g) : HeapFrom cmp g 0 n :=
  fun i h0 hi _ => h i _ _ h0 (r.get _ (by omega)) (r.get _ hi)

theorem IsHeap.of {cmp : T → T → Bool} {v : List T} {n : Nat} {g : Nat → T}
    (r : Rep v n g) (h : HeapFrom cmp g 0 n) : IsHeap cmp v := by
  intro i a b h0 ha hb
  obtain ⟨hi, rfl⟩ := r.eq_of hb
  obtain ⟨-, rfl⟩ := r.eq_of ha
  exact h i h0 hi (by omega)

theorem IsHeap.nil (cmp : T → T → Bool) : IsHeap cmp ([] : List T) := by
  intro i a b _ h; simp at h

theorem insert_spec {cmp : T → T → Bool} (sw : StrictWeak cmp) {v : List T} (hv : IsHeap cmp v) (x : T) :
    ∃ v', insert cmp v x = some v' ∧ IsHeap cmp v' ∧ v'.Perm (x :: v) := by
  have r1 : ∃ g, Rep (v ++ [x]) (v.length + 1) g := by
    obtain ⟨g, r⟩ := exists_rep (v ++ [x]) (by simp)
    exact ⟨g, by simpa using r⟩
  obtain ⟨g, r1⟩ := r1
  have hlen : (v ++ [x]).length - 1 = v.length := by simp
  have hg : ∀ i, i < v.length → v[i]? = some (g i) := by
    intro i hi
    rw [← r1.get i (by omega), List.getElem?_append_left hi]
  obtain ⟨v', g', e, p, r', h'⟩ := heapifyUp_spec sw v.length (by omega) r1 (by
    intro i h0 hi hne
    exact hv i _ _ h0 (hg _ (by omega)) (hg _ (by omega))) (by intro i h0 hi hp h0'; omega)
  refine ⟨v', by rw [insert, hlen]; exact e, IsHeap.of r' h', ?_⟩
  exact p.trans (List.perm_append_singleton x v)

theorem dropLast_rep {v : List T} {n : Nat} {g : Nat → T} (r : Rep v (n + 1) g) : Rep v.dropLast n g := by
  refine ⟨by rw [List.length_dropLast, r.len]; omega, fun i hi => ?_⟩
  rw [List.getElem?_dropLast, r.len, if_pos (by omega), r.get i (by omega)]

theorem popFront_spec {cmp : T → T → Bool} (sw : StrictWeak cmp) {v : List T} (hv : IsHeap cmp v) (hne : v ≠ []) :
    ∃ a v', front v = some a ∧ popFront cmp v = some v' ∧ IsHeap cmp v' ∧ v.Perm (a :: v') ∧
      ∀ b ∈ v, Le cmp a b := by
  obtain ⟨g, r⟩ := exists_rep v hne
  obtain ⟨n, hn⟩ : ∃ n, v.length = n + 1 := ⟨v.length - 1, by have := List.length_pos_iff.mpr hne; omega⟩
  rw [hn] at r
  have h := hv.from r
  have hfront : front v = some (g 0) := by rw [front, List.head?_eq_getElem?, r.get 0 (by omega)]
  obtain ⟨v1, s1, p1, r1⟩ := swp_spec r (by omega : 0 < n + 1) (by omega : n < n + 1)
  have hlast : v1 = v1.dropLast ++ [g 0] := by
    have hl : v1 ≠ [] := by intro hc; have := r1.len; rw [hc] at this; simp at this
    rw [← List.dropLast_append_getLast hl]
    congr 1
    · simp
    · have : v1.getLast? = some (g 0) := by
        rw [List.getLast?_eq_getElem?, r1.len, Nat.add_sub_cancel, r1.get n (by omega)]; simp
      rw [List.getLast?_eq_some_getLast hl] at this
      simpa using Option.some.inj this
  have r2 := dropLast_rep r1
  have hmin : ∀ b ∈ v, Le cmp (g 0) b := by
    intro b hb
    obtain ⟨i, hi, rfl⟩ := List.mem_iff_getElem.mp hb
    have := r.get i (by omega)
    rw [List.getElem?_eq_getElem hi] at this
    rw [Option.some.inj this]
    exact root_min sw h i (by omega)
  have hperm1 : v.Perm (g 0 :: v1.dropLast) := by
    refine p1.symm.trans ?_
    nth_rewrite 1 [hlast]
    exact List.perm_append_singleton (g 0) v1.dropLast
  have hpop : popFront cmp v = heapifyDown cmp v1.dropLast 0 n := by
    rw [popFront, if_neg (by omega), hn, Nat.add_sub_cancel, s1, Option.bind_some, r2.len]
  by_cases hn0 : n = 0
  · subst hn0
    have hd : v1.dropLast = [] := List.length_eq_zero_iff.mp r2.len
    rw [hd] at hperm1 hpop
    refine ⟨g 0, [], hfront, ?_, IsHeap.nil cmp, hperm1, hmin⟩
    rw [hpop, heapifyDown]; simp [better]
  · obtain ⟨v', g', e, p, r', h', -⟩ := heapifyDown_spec sw (k := 0) (le_refl n) 0 (by omega) r2 (by
      intro i h0 hi _ hp
      rw [if_neg (by omega), if_neg hp, if_neg (by omega), if_neg (by omega)]
      exact h i h0 (by omega) (by omega)) (by intro i _ _ _ h; omega) (le_refl 0)
    refine ⟨g 0, v', hfront, by rw [hpop]; exact e, IsHeap.of r' h', ?_, hmin⟩
    exact hperm1.trans (p.symm.cons _)

theorem rebuildLoop_spec {cmp : T → T → Bool} (sw : StrictWeak cmp) {n : Nat} (index : Nat) (hi : index ≤ n)
    {v : List T} {g : Nat → T} (hv : Rep v n g) (h : HeapFrom cmp g index n) :
    ∃ v' g', rebuildLoop cmp index v = some v' ∧ v'.Perm v ∧ Rep v' n g' ∧ HeapFrom cmp g' 0 n := by
  induction index generalizing v g with
  | zero => exact ⟨v, g, rfl, List.Perm.refl _, hv, h⟩
  | succ index ih =>
    rw [rebuildLoop, hv.len]
    obtain ⟨v1, g1, e1, p1, r1, h1, -⟩ := heapifyDown_spec sw (k := index) (le_refl n) index (by omega) hv (by
      intro i h0 hi' hk hp
      exact h i h0 hi' (by omega)) (by intro i _ _ _ h0 hk; omega) (le_refl _)
    obtain ⟨v2, g2, e2, p2, r2, h2⟩ := ih (by omega) r1 h1
    exact ⟨v2, g2, by rw [e1, Option.bind_some, e2], p2.trans p1, r2, h2⟩

theorem rebuild_spec {cmp : T → T → Bool} (sw : StrictWeak cmp) (v : List T) :
    ∃ v', rebuild cmp v = some v' ∧ IsHeap cmp v' ∧ v'.Perm v := by
  by_cases hv : v = []
  · subst hv
    exact ⟨[], by simp [rebuild, rebuildLoop], IsHeap.nil cmp, List.Perm.refl _⟩
  · obtain ⟨g, r⟩ := exists_rep v hv
    obtain ⟨v', g', e, p, r', h'⟩ := rebuildLoop_spec sw (v.length / 2) (by omega) r
      (by intro i h0 hi hk; omega)
    exact ⟨v', e, IsHeap.of r' h', p⟩

theorem sortLoop_spec {cmp : T → T → Bool} (sw : StrictWeak cmp) {n : Nat} (m : Nat) (hm : m ≤ n)
    {v : List T} {g : Nat → T} (hv : Rep v n g) (h : HeapFrom cmp g 0 m)
    (ht : ∀ i j, i < m → m ≤ j → j < n → Le cmp (g j) (g i))
    (hs : ∀ i j, m ≤ i → i < j → j < n → Le cmp (g j) (g i)) :
    ∃ v' g', sortLoop cmp m v = some v' ∧ v'.Perm v ∧ Rep v' n g' ∧
      ∀ i j, i < j → j < n → Le cmp (g' j) (g' i) := by
  induction m generalizing v g with
  | zero => exact ⟨v, g, rfl, List.Perm.refl _, hv, fun i j => hs i j (by omega)⟩
  | succ m ih =>
    obtain ⟨v1, s1, p1, r1⟩ := swp_spec hv (by omega : 0 < n) (by omega : m < n)
    obtain ⟨v2, g2, e2, p2, r2, h2, t2, f2⟩ := heapifyDown_spec sw (k := 0) (sz := m) (by omega) 0 (by omega) r1 (by
      intro i h0 hi _ hp
      rw [if_neg (by omega), if_neg hp, if_neg (by omega), if_neg (by omega)]
      exact h i h0 (by omega) (by omega)) (by intro i _ _ _ h; omega) (le_refl 0)
    have hm2 : g2 m = g 0 := by rw [t2 m (le_refl m)]; simp
    have hj2 : ∀ j, m < j → g2 j = g j := by
      intro j hj; rw [t2 j (by omega), if_neg (by omega), if_neg (by omega)]
    have hi2 : ∀ i, i < m → ∃ j, j < m + 1 ∧ g2 i = g j := by
      intro i hi
      obtain ⟨j, hj, e⟩ := f2 i hi
      rw [e, if_neg (by omega)]
      by_cases h0 : j = 0
      · rw [if_pos h0]; exact ⟨m, by omega, rfl⟩
      · rw [if_neg h0]; exact ⟨j, by omega, rfl⟩
    obtain ⟨v3, g3, e3, p3, r3, h3⟩ := ih (by omega) r2 h2 (by
      intro i j hi hj hjn
      obtain ⟨j', hj', e⟩ := hi2 i hi
      rw [e]
      by_cases hjm : j = m
      · subst hjm; rw [hm2]; exact root_min sw h j' hj'
      · rw [hj2 j (by omega)]; exact ht j' j hj' (by omega) hjn) (by
      intro i j hi hij hjn
      rw [hj2 j (by omega)]
      by_cases him : i = m
      · subst him; rw [hm2]; exact ht 0 j (by omega) (by omega) hjn
      · rw [hj2 i (by omega)]; exact hs i j (by omega) hij hjn)
    refine ⟨v3, g3, ?_, (p3.trans p2).trans p1, r3, h3⟩
    rw [sortLoop, s1, Option.bind_some, e2, Option.bind_some, e3]

theorem sort_spec {cmp : T → T → Bool} (sw : StrictWeak cmp) {v : List T} (hv : IsHeap cmp v) :
    ∃ v', sort cmp v = some v' ∧ v'.Perm v ∧ v'.Pairwise (Le cmp) ∧ IsHeap cmp v' := by
  by_cases hv0 : v = []
  · subst hv0
    exact ⟨[], by simp [sort, sortLoop], List.Perm.refl _, List.Pairwise.nil, IsHeap.nil cmp⟩
  · obtain ⟨g, r⟩ := exists_rep v hv0
    obtain ⟨v', g', e, p, r', h'⟩ := sortLoop_spec sw v.length (le_refl _) r (hv.from r)
      (by intro i j hi hj hjn; omega) (by intro i j hi hj hjn; omega)
    have hpw : v'.reverse.Pairwise (Le cmp) := by
      rw [List.pairwise_reverse, List.pairwise_iff_getElem]
      intro i j hi hj hij
      have e1 := r'.get i (by rw [← r'.len]; exact hi)
      have e2 := r'.get j (by rw [← r'.len]; exact hj)
      rw [List.getElem?_eq_getElem hi] at e1
      rw [List.getElem?_eq_getElem hj] at e2
      rw [Option.some.inj e1, Option.some.inj e2]
      exact h' i j hij (by rw [← r'.len]; exact hj)
    refine ⟨v'.reverse, by rw [sort, e]; rfl, (List.reverse_perm v').trans p, hpw, ?_⟩
    intro i a b h0 ha hb
    obtain ⟨hi, rfl⟩ := List.getElem?_eq_some_iff.mp hb
    obtain ⟨hp, rfl⟩ := List.getElem?_eq_some_iff.mp ha
    exact (List.pairwise_iff_getElem.mp hpw) _ _ hp hi (by omega)

/-! ### Histories -/

/-- Specification: the elements inserted by a history. -/
def inserted : List (Op T) → List T
  | [] => []
  | .insert x :: h => x :: inserted h
  | _ :: h => inserted h

/-- Specification: starting with `n` elements, no `pop_front` is called on an empty heap. -/
def Valid : Nat → List (Op T) → Prop
  | _, [] => True
  | n, .insert _ :: h => Valid (n + 1) h
  | 0, .pop :: _ => False
  | n + 1, .pop :: h => Valid n h
  | n, .rebuild :: h => Valid n h
  | n, .sort :: h => Valid n h

theorem run_spec {cmp : T → T → Bool} (sw : StrictWeak cmp) (h : List (Op T)) :
    ∀ (v popped : List T), IsHeap cmp v → Valid v.length h →
      ∃ v' popped', run cmp v popped h = some (v', popped') ∧ IsHeap cmp v' ∧
        (v' ++ popped').Perm (v ++ popped ++ inserted h) := by
  induction h with
  | nil => intro v popped hv _; exact ⟨v, popped, rfl, hv, by simp [inserted]⟩
  | cons op h ih =>
    intro v popped hv hval
    cases op with
    | insert x =>
      obtain ⟨v1, e1, h1, p1⟩ := insert_spec sw hv x
      have hl : v1.length = v.length + 1 := by rw [p1.length_eq]; simp
      obtain ⟨v2, q2, e2, h2, p2⟩ := ih v1 popped h1 (by rw [hl]; exact hval)
      refine ⟨v2, q2, by simp only [run, step, e1, Option.bind_some, e2], h2, p2.trans ?_⟩
      have : (v1 ++ popped ++ inserted h).Perm (x :: v ++ popped ++ inserted h) :=
        (p1.append_right popped).append_right _
      refine this.trans ?_
      simp only [inserted, List.cons_append]
      exact List.perm_middle.symm
    | pop =>
      have hne : v ≠ [] := by intro hc; subst hc; exact hval
      obtain ⟨a, v1, f1, e1, h1, p1, -⟩ := popFront_spec sw hv hne
      have hl : v.length = v1.length + 1 := by rw [p1.length_eq]; simp
      rw [hl] at hval
      obtain ⟨v2, q2, e2, h2, p2⟩ := ih v1 (popped ++ [a]) h1 hval
      refine ⟨v2, q2, by simp only [run, f1, e1, e2], h2, p2.trans ?_⟩
      simp only [inserted]
      refine List.Perm.append_right _ ?_
      rw [← List.append_assoc]
      refine (List.perm_append_singleton a _).trans ?_
      exact (p1.append_right popped).symm
    | rebuild =>
      obtain ⟨v1, e1, h1, p1⟩ := rebuild_spec sw v
      obtain ⟨v2, q2, e2, h2, p2⟩ := ih v1 popped h1 (by rw [p1.length_eq]; exact hval)
      refine ⟨v2, q2, by simp only [run, step, e1, Option.bind_some, e2], h2, p2.trans ?_⟩
      exact (p1.append_right popped).append_right _
    | sort =>
      obtain ⟨v1, e1, p1, -, h1⟩ := sort_spec sw hv
      obtain ⟨v2, q2, e2, h2, p2⟩ := ih v1 popped h1 (by rw [p1.length_eq]; exact hval)
      refine ⟨v2, q2, by simp only [run, step, e1, Option.bind_some, e2], h2, p2.trans ?_⟩
      exact (p1.append_right popped).append_right _

/-- C19: for every strict weak order, every initial content and every history of
`insert`, `pop_front`, `rebuild` and `sort` calls that never pops an empty heap, nothing
undefined happens, the remaining and popped elements together are exactly (as multisets)
the initial and inserted ones, and in the reached state `front()` is a least element
which `pop_front()` removes, leaving all the others. -/
theorem C19_binary_heap (cmp : T → T → Bool) (sw : StrictWeak cmp) (init : List T) (h : List (Op T))
    (hval : Valid init.length h) :
    ∃ v popped, (rebuild cmp init).bind (fun v0 => run cmp v0 [] h) = some (v, popped) ∧
      (v ++ popped).Perm (init ++ inserted h) ∧
      (v ≠ [] → ∃ a v', front v = some a ∧ (∀ b ∈ v, cmp b a = false) ∧
        popFront cmp v = some v' ∧ v.Perm (a :: v')) := by
  obtain ⟨v0, e0, h0, p0⟩ := rebuild_spec sw init
  obtain ⟨v, q, e, hh, p⟩ := run_spec sw h v0 [] h0 (by rw [p0.length_eq]; exact hval)
  refine ⟨v, q, by rw [e0, Option.bind_some, e], ?_, ?_⟩
  · refine p.trans ?_
    rw [List.append_nil]
    exact p0.append_right _
  · intro hne
    obtain ⟨a, v', f, e', -, p', m⟩ := popFront_spec sw hh hne
    exact ⟨a, v', f, m, e', p'⟩

/-- C19: `sort()` on a heap built from any content yields that content in ascending
order. -/
theorem C19_sort (cmp : T → T → Bool) (sw : StrictWeak cmp) (init : List T) :
    ∃ v, (rebuild cmp init).bind (sort cmp) = some v ∧ v.Perm init ∧
      v.Pairwise (fun a b => cmp b a = false) := by
  obtain ⟨v0, e0, h0, p0⟩ := rebuild_spec sw init
  obtain ⟨v, e, p, s, -⟩ := sort_spec sw h0
  exact ⟨v, by rw [e0, Option.bind_some, e], p.trans p0, s⟩

theorem popAll {cmp : T → T → Bool} (sw : StrictWeak cmp) (n : Nat) :
    ∀ (v popped : List T), v.length = n → IsHeap cmp v → popped.Pairwise (Le cmp) →
      (∀ a ∈ popped, ∀ b ∈ v, Le cmp a b) →
      ∃ l, run cmp v popped (List.replicate n Op.pop) = some ([], l) ∧ l.Perm (v ++ popped) ∧
        l.Pairwise (Le cmp) := by
  induction n with
  | zero =>
    intro v popped hl _ hp _
    have : v = [] := List.length_eq_zero_iff.mp hl
    subst this
    exact ⟨popped, rfl, by simp, hp⟩
  | succ n ih =>
    intro v popped hl hv hp hpv
    obtain ⟨a, v1, f1, e1, h1, p1, m1⟩ := popFront_spec sw hv (by intro hc; subst hc; simp at hl)
    have hl1 : v1.length = n := by have := p1.length_eq; simp at this; omega
    have ha : a ∈ v := p1.mem_iff.mpr (by simp)
    obtain ⟨l, e2, p2, s2⟩ := ih v1 (popped ++ [a]) hl1 h1 (by
      rw [List.pairwise_append]
      refine ⟨hp, List.pairwise_singleton _ _, ?_⟩
      intro x hx y hy
      rw [List.mem_singleton] at hy; subst hy
      exact hpv x hx _ ha) (by
      intro x hx b hb
      have hbv : b ∈ v := p1.mem_iff.mpr (by simp [hb])
      rw [List.mem_append, List.mem_singleton] at hx
      rcases hx with hx | rfl
      · exact hpv x hx b hbv
      · exact m1 b hbv)
    refine ⟨l, ?_, p2.trans ?_, s2⟩
    · rw [List.replicate_succ]; simp only [run, f1, e1, e2]
    · rw [← List.append_assoc]
      refine (List.perm_append_singleton a _).trans ?_
      exact (p1.append_right popped).symm

/-- C19: popping all elements of a heap built from any content yields that content in
ascending order. -/
theorem C19_pop_all (cmp : T → T → Bool) (sw : StrictWeak cmp) (init : List T) :
    ∃ l, (rebuild cmp init).bind (fun v => run cmp v [] (List.replicate init.length Op.pop)) = some ([], l) ∧
      l.Perm init ∧ l.Pairwise (fun a b => cmp b a = false) := by
  obtain ⟨v0, e0, h0, p0⟩ := rebuild_spec sw init
  obtain ⟨l, e, p, s⟩ := popAll sw init.length v0 [] p0.length_eq h0 List.Pairwise.nil (by simp)
  exact ⟨l, by rw [e0, Option.bind_some, e], p.trans (by simpa using p0), s⟩

/-- `std::less<int>` is a strict weak order. -/
theorem less_strictWeak : StrictWeak (fun a b : Int => decide (a < b)) where
  irrefl := by simp
  trans := by simp only [decide_eq_true_eq]; omega
  incomp := by simp only [decide_eq_false_iff_not]; omega

example : Valid 3 ([.insert 5, .pop, .pop, .sort, .rebuild, .insert 2, .pop, .pop] : List (Op Int)) := by
  simp [Valid]

example : (rebuild (fun a b : Int => decide (a < b)) [7, 3, 9, 1, 4]).bind
    (fun v => run (fun a b : Int => decide (a < b)) v [] [.insert 2, .pop, .pop, .sort]) =
    some ([3, 4, 7, 9], [1, 2]) := by decide +kernel

end Altruct.Heap
