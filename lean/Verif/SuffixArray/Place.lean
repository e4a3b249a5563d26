/-
The types; the leftmost S suffixes are put at the ends of their buckets.
-/
import Verif.SuffixArray.InduceS

namespace Altruct.SuffixArray

section
variable {c : Nat → Nat} {n alpha : Nat} {ty : Nat → Bool} {ρ : Nat → Nat} {str : List Nat} {types : List Bool} {W : Nat}

theorem setTypes_spec (hn : 0 < n) (hs : Str str c n alpha) : ∃ types ty, setTypes str n = some types ∧ Rep types (n + 1) ty ∧ Types c n ty := by
  rw [setTypes, if_neg (by omega), (Rep.replicate (n + 1) false).wr (by omega), Option.bind_some]
  have h1 := (Rep.replicate (n + 1) false).set (n - 1) false
  rw [h1.wr (by omega), Option.bind_some]
  have h2 := h1.set n true
  obtain ⟨t, e, ty, ht, g1, g2, g3⟩ := forBack_spec (body := fun i t => (rd str i).bind fun x => (rd str (i + 1)).bind fun y => (rd t (i + 1)).bind fun b =>
      wr t i (decide (x < y) || (decide (x = y) && b)))
    (fun k t => ∃ g, Rep t (n + 1) g ∧ g n = true ∧ g (n - 1) = false ∧
      ∀ i, k ≤ i → i + 1 < n → g i = (decide (c i < c (i + 1)) || (decide (c i = c (i + 1)) && g (i + 1)))) (n - 1) _
    ⟨_, h2, Function.update_self _ _ _, by rw [Function.update_of_ne (by omega), Function.update_self], fun i h3 h4 => by omega⟩ (by
      rintro k t hk ⟨g, hg, g1, g2, g3⟩
      have e1 : rd str k = some (c k) := hs.get k (by omega)
      have e2 : rd str (k + 1) = some (c (k + 1)) := hs.get (k + 1) (by omega)
      rw [e1, Option.bind_some, e2, Option.bind_some, hg.rd (by omega), Option.bind_some, hg.wr (by omega)]
      refine ⟨_, rfl, _, hg.set _ _, by rw [Function.update_of_ne (by omega), g1], by rw [Function.update_of_ne (by omega), g2], fun i h3 h4 => ?_⟩
      by_cases h5 : i = k
      · subst h5
        rw [Function.update_self, Function.update_of_ne (by omega)]
      · rw [Function.update_of_ne h5, Function.update_of_ne (by omega)]
        exact g3 i (by omega) h4)
  exact ⟨t, ty, e, ht, hn, g1, g2, fun i hi => g3 i (by omega) hi⟩

theorem isLms_spec (htt : Rep types (n + 1) ty) {i : Nat} (h1 : 0 < i) (h2 : i ≤ n) : isLms types i = some (decide (Lms n ty i)) := by
  rw [isLms, htt.rd (by omega), Option.bind_some]
  cases h3 : ty i with
  | false => simp [Lms, h3]
  | true =>
    rw [if_pos rfl, htt.rd (by omega), Option.map_some]
    simp [Lms, h1, h2, h3]

/-- Some leftmost S suffixes are placed, after the cell `lim`. -/
structure PInv (c : Nat → Nat) (n alpha : Nat) (ty : Nat → Bool) (ρ : Nat → Nat) (lim : Nat) (D : Nat → Prop) (A : Nat → Int) (f : Nat → Nat) : Prop where
  rng : ∀ a, a < alpha → mid c n ty a ≤ f a ∧ f a ≤ start c n (a + 1)
  cell : ∀ t, lim < t → t ≤ n → A t = -1 ∨ ∃ j : Nat, A t = j ∧ j < n ∧ Lms n ty j ∧ D j ∧ f (c j) ≤ t ∧ t < start c n (c j + 1)
  full : ∀ a, a < alpha → ∀ t, f a ≤ t → t < start c n (a + 1) → lim < t ∧ 0 ≤ A t
  inj : ∀ t t', lim < t → t ≤ n → lim < t' → t' ≤ n → 0 ≤ A t → A t = A t' → t = t'
  all : ∀ j, j < n → D j → Lms n ty j → ∃ t, lim < t ∧ t ≤ n ∧ A t = (j : Int)
  sorted : ∀ t t' (j j' : Nat), lim < t → t < t' → t' ≤ n → A t = j → A t' = j' → c j = c j' → ρ j ≤ ρ j'

variable {A : Nat → Int} {f : Nat → Nat} {lim : Nat} {D : Nat → Prop}

theorem PInv.lower (h : PInv c n alpha ty ρ (lim + 1) D A f) : PInv c n alpha ty ρ lim D (Function.update A (lim + 1) (-1)) f := by
  have u1 : ∀ t, lim < t → 0 ≤ Function.update A (lim + 1) (-1) t → lim + 1 < t ∧ Function.update A (lim + 1) (-1) t = A t := by
    intro t h1 h2
    by_cases h3 : t = lim + 1
    · rw [h3, Function.update_self] at h2; omega
    · exact ⟨by omega, Function.update_of_ne h3 _ _⟩
  have u2 : ∀ t, lim + 1 < t → Function.update A (lim + 1) (-1) t = A t := fun t h1 => Function.update_of_ne (by omega) _ _
  refine ⟨h.rng, fun t h1 h2 => ?_, fun a ha t h1 h2 => ?_, fun t t' h1 h2 h3 h4 h5 h6 => ?_, fun j h1 h2 h3 => ?_, fun t t' j j' h1 h2 h3 h4 h5 h6 => ?_⟩
  · by_cases h3 : t = lim + 1
    · left; rw [h3, Function.update_self]
    · rw [u2 t (by omega)]; exact h.cell t (by omega) h2
  · obtain ⟨h3, h4⟩ := h.full a ha t h1 h2
    exact ⟨by omega, by rw [u2 t h3]; exact h4⟩
  · obtain ⟨h7, h8⟩ := u1 t h1 h5
    obtain ⟨h9, h10⟩ := u1 t' h3 (by omega)
    exact h.inj t t' h7 h2 h9 h4 (by omega) (by omega)
  · obtain ⟨t, h4, h5, h6⟩ := h.all j h1 h2 h3
    exact ⟨t, by omega, h5, by rw [u2 t h4, h6]⟩
  · obtain ⟨h7, h8⟩ := u1 t h1 (by omega)
    obtain ⟨h9, h10⟩ := u1 t' (by omega) (by omega)
    exact h.sorted t t' j j' h7 h2 h3 (by omega) (by omega) h6

/-- There is room for one more. -/
theorem PInv.room (hlt : ∀ i, i < n → c i < alpha) (h : PInv c n alpha ty ρ lim D A f) {j : Nat} (hj : j < n) (hl : Lms n ty j) (hD : ¬ D j) :
    mid c n ty (c j) < f (c j) := by
  have ha := hlt j hj
  have r := h.rng _ ha
  have m5 := start_le (c := c) (n := n) (c j + 1)
  have m7 := start_le_mid (c := c) (n := n) (ty := ty) (c j)
  have hcell : ∀ k, f (c j) ≤ k → k < start c n (c j + 1) → ∃ j2 : Nat, A k = j2 ∧ j2 < n ∧ c j2 = c j ∧ Lms n ty j2 ∧ D j2 := by
    intro k h1 h2
    obtain ⟨h3, h4⟩ := h.full _ ha k h1 h2
    rcases h.cell k h3 (by omega) with h5 | ⟨j2, h5, h6, h7, h8, h9, h10⟩
    · omega
    · refine ⟨j2, h5, h6, ?_, h7, h8⟩
      have := (h.rng _ (hlt _ h6)).1
      have m8 := start_le_mid (c := c) (n := n) (ty := ty) (c j2)
      exact bucket_unique (show start c n (c j2) ≤ k by omega) h10 (show start c n (c j) ≤ k by omega) h2
  obtain ⟨S, s1, s2, s3⟩ := cells_card (c := c) (n := n) (ty := ty) (A := A) (lo := f (c j)) (hi := start c n (c j + 1)) (a := c j) (t := true)
    (fun k h1 h2 => by obtain ⟨j2, h3, h4, h5, h6, _⟩ := hcell k h1 h2; exact ⟨j2, h3, h4, h5, h6.2.2.1⟩)
    (fun k k' h1 h2 h3 h4 e => by
      obtain ⟨h5, h6⟩ := h.full _ ha k h1 h2
      obtain ⟨h7, h8⟩ := h.full _ ha k' h3 h4
      exact h.inj k k' h5 (by omega) h7 (by omega) h6 e)
  have h4 : S ⊂ (Finset.range n).filter (fun i => c i = c j ∧ ty i = true) := by
    refine Finset.ssubset_iff_subset_ne.mpr ⟨s1, fun e2 => ?_⟩
    have : j ∈ S := by rw [e2]; simp only [Finset.mem_filter, Finset.mem_range]; exact ⟨hj, trivial, hl.2.2.1⟩
    obtain ⟨k, hk1, hk2, hk3⟩ := (s3 j).mp this
    obtain ⟨j2, h3, _, _, _, h7⟩ := hcell k hk1 hk2
    obtain rfl : j2 = j := by omega
    exact hD h7
  have h5 := Finset.card_lt_card h4
  rw [s2] at h5
  have h6 := start_mid (c := c) (n := n) (ty := ty) (c j)
  rw [cntT] at h6
  omega

theorem PInv.push (hlt : ∀ i, i < n → c i < alpha) (h : PInv c n alpha ty ρ lim D A f) {j : Nat} (hj : j < n) (hl : Lms n ty j) (hD : ¬ D j) (hlim : lim + 1 < f (c j))
    (hρ : ∀ j', j' < n → D j' → c j' = c j → ρ j ≤ ρ j') :
    0 < f (c j) ∧ f (c j) ≤ n + 1 ∧ PInv c n alpha ty ρ lim (fun x => D x ∨ x = j) (Function.update A (f (c j) - 1) j) (Function.update f (c j) (f (c j) - 1)) := by
  have ha := hlt j hj
  have r := h.rng _ ha
  have m5 := start_le (c := c) (n := n) (c j + 1)
  have m7 := start_le_mid (c := c) (n := n) (ty := ty) (c j)
  have hroom := h.room hlt hj hl hD
  refine ⟨by omega, by omega, ?_⟩
  obtain ⟨p, hp⟩ : ∃ p, f (c j) = p + 1 := ⟨f (c j) - 1, by omega⟩
  rw [hp, Nat.add_sub_cancel]
  rw [hp] at hroom r hlim
  have u2 : ∀ t, t ≠ p → Function.update A p (j : Int) t = A t := fun t h3 => Function.update_of_ne h3 _ _
  have u3 : Function.update A p (j : Int) p = j := Function.update_self _ _ _
  have f1 : Function.update f (c j) p (c j) = p := Function.update_self _ _ _
  have f2 : ∀ a, a ≠ c j → Function.update f (c j) p a = f a := fun a h3 => Function.update_of_ne h3 _ _
  have f3 : ∀ a, Function.update f (c j) p a ≤ f a := by
    intro a
    by_cases h3 : a = c j
    · rw [h3, f1]; omega
    · rw [f2 a h3]
  have hnp : ∀ t, lim < t → t ≤ n → A t ≠ j := by
    intro t h1 h2 h3
    rcases h.cell t h1 h2 with h5 | ⟨j2, h5, h6, h7, h8, _⟩
    · omega
    · obtain rfl : j2 = j := by omega
      exact hD h8
  refine ⟨?_, ?_, ?_, ?_, ?_, ?_⟩
  · intro a ha'
    by_cases h3 : a = c j
    · rw [h3, f1]; omega
    · rw [f2 a h3]; exact h.rng a ha'
  · intro t h1 h2
    by_cases h3 : t = p
    · right
      refine ⟨j, by rw [h3, u3], hj, hl, Or.inr rfl, by rw [f1]; omega, by omega⟩
    · rw [u2 t h3]
      rcases h.cell t h1 h2 with h5 | ⟨j2, h5, h6, h7, h8, h9, h10⟩
      · exact Or.inl h5
      · exact Or.inr ⟨j2, h5, h6, h7, Or.inl h8, le_trans (f3 _) h9, h10⟩
  · intro a ha' t h1 h2
    by_cases h3 : t = p
    · rw [h3, u3]; omega
    · rw [u2 t h3]
      refine h.full a ha' t ?_ h2
      by_cases h4 : a = c j
      · rw [h4, f1] at h1; rw [h4]; omega
      · rwa [f2 a h4] at h1
  · intro t t' h1 h2 h3 h4 h5 h6
    by_cases h7 : t = p <;> by_cases h8 : t' = p
    · omega
    · rw [h7, u3, u2 t' h8] at h6; exact absurd h6.symm (hnp t' h3 h4)
    · rw [h8, u3, u2 t h7] at h6; exact absurd h6 (hnp t h1 h2)
    · rw [u2 t h7] at h5 h6
      rw [u2 t' h8] at h6
      exact h.inj t t' h1 h2 h3 h4 h5 h6
  · rintro j2 h1 (h2 | h2) h3
    · obtain ⟨t, h4, h5, h6⟩ := h.all j2 h1 h2 h3
      refine ⟨t, h4, h5, ?_⟩
      rw [u2 t ?_, h6]
      intro h7
      rcases h.cell t h4 h5 with h8 | ⟨j3, h8, h9, _, _, h12, h13⟩
      · omega
      · have r2 := h.rng _ (hlt _ h9)
        have m8 := start_le_mid (c := c) (n := n) (ty := ty) (c j3)
        have := bucket_unique (show start c n (c j3) ≤ t by omega) h13 (show start c n (c j) ≤ t by omega) (by omega)
        rw [this] at h12
        omega
    · exact ⟨p, by omega, by omega, by rw [u3, h2]⟩
  · intro t t' j1 j2 h1 h2 h3 h4 h5 h6
    by_cases h7 : t = p
    · rw [h7, u3] at h4
      obtain rfl : j = j1 := by omega
      rw [u2 t' (by omega)] at h5
      rcases h.cell t' (by omega) h3 with h8 | ⟨j3, h8, h9, _, h11, _⟩
      · omega
      · obtain rfl : j3 = j2 := by omega
        exact hρ _ h9 h11 h6.symm
    · rw [u2 t h7] at h4
      by_cases h8 : t' = p
      · exfalso
        rw [h8, u3] at h5
        obtain rfl : j = j2 := by omega
        rcases h.cell t h1 (by omega) with h9 | ⟨j3, h9, _, _, _, h12, _⟩
        · omega
        · obtain rfl : j3 = j1 := by omega
          rw [h6] at h12
          omega
      · rw [u2 t' h8] at h5
        exact h.sorted t t' j1 j2 h1 h2 h3 h4 h5 h6

theorem PInv.place (hlt : ∀ i, i < n → c i < alpha) (h : PInv c n alpha ty ρ 0 D A f) (hD : ∀ j, j < n → Lms n ty j → D j) (h0 : A 0 = n) : Place c n ty ρ A := by
  refine ⟨h0, fun t h1 h2 => ?_, fun t t' h1 h2 h3 h4 => h.inj t t' h1 h2 h3 h4, fun j h1 h2 => h.all j h1 (hD j h1 h2) h2, fun t t' j j' h1 h2 h3 h4 h5 h6 h7 => ?_⟩
  · rcases h.cell t h1 h2 with h5 | ⟨j2, h5, h6, h7, h8, h9, h10⟩
    · exact Or.inl h5
    · exact Or.inr ⟨j2, h5, h6, h7, le_trans (h.rng _ (hlt _ h6)).1 h9, h10⟩
  · rcases Nat.eq_zero_or_pos t with h8 | h8
    · rw [h8, h0] at h3; omega
    · exact h.sorted t t' j j' h8 h1 h2 h3 h4 h5

theorem PInv.init (lim : Nat) (h : ∀ t, lim < t → t ≤ n → A t = -1) : PInv c n alpha ty ρ lim (fun _ => False) A (fun a => start c n (a + 1)) :=
  ⟨fun a _ => ⟨mid_le_start a, le_refl _⟩, fun t h1 h2 => Or.inl (h t h1 h2), fun a _ t h1 h2 => by omega, fun t t' h1 h2 h3 h4 h5 h6 => by
    rw [h t h1 h2] at h5; omega, fun j _ h => h.elim, fun t t' j j' h1 h2 h3 h4 => by rw [h t h1 (by omega)] at h4; omega⟩

theorem PInv.congr {D' : Nat → Prop} (h : PInv c n alpha ty ρ lim D A f) (hD : ∀ j, j < n → Lms n ty j → (D j ↔ D' j)) : PInv c n alpha ty ρ lim D' A f := by
  refine ⟨h.rng, fun t h1 h2 => ?_, h.full, h.inj, fun j h1 h2 h3 => h.all j h1 ((hD j h1 h3).mpr h2) h3, h.sorted⟩
  rcases h.cell t h1 h2 with h5 | ⟨j2, h5, h6, h7, h8, h9⟩
  · exact Or.inl h5
  · exact Or.inr ⟨j2, h5, h6, h7, (hD j2 h6 h7).mp h8, h9⟩

/-- The first sort: by the codes up to the next leftmost S suffix. -/
theorem firstSort_spec (ht : Types c n ty) (hs : Str str c n alpha) (htt : Rep types (n + 1) ty) {sa : List Int} (hsa : sa.length = n + 1) {bo : List Nat}
    (hb : bo.length = W) (hW : alpha ≤ W) :
    ∃ sa' bo' p, firstSort str n alpha types sa bo = some (sa', bo') ∧ bo'.length = W ∧ Rep sa' (n + 1) (fun t => ((p t : Nat) : Int)) ∧ Sorted c n ty (fun _ => 0) p := by
  obtain ⟨bo1, e1, hb1⟩ := countFirst_spec hs hb
  obtain ⟨bo2, e2, hb2⟩ := getOffsets_spec hs hb1 hW true
  obtain ⟨sa3, e3, hsa3⟩ := fill_spec (hsa ▸ Rep.self sa) (Nat.zero_le (n + 1)) (le_refl _) (-1 : Int)
  rw [firstSort, e1, Option.bind_some, e2, Option.bind_some, e3, Option.bind_some]
  have hn := ht.pos
  obtain ⟨⟨sa4, bo4⟩, e4, A, f, hA, hf, hP⟩ := forUp_spec (body := fun i s => (isLms types i).bind fun b => if b then pushBack str i s else some s)
    (fun i (s : List Int × List Nat) => ∃ A f, Rep s.1 (n + 1) A ∧ Bkt c n alpha W s.2 f ∧ PInv c n alpha ty (fun _ => 0) 0 (fun x => x < i) A f)
    (show 1 ≤ n by omega) (s := (sa3, bo2))
    ⟨_, _, hsa3, hb2, by
      simp only [if_pos]
      exact (PInv.init 0 (fun t _ h => by rw [if_pos (by omega)])).congr fun j _ h => ⟨fun h => h.elim, fun h' => by have := h.1; omega⟩⟩ (by
      rintro i ⟨sa, bo⟩ h1 hi ⟨A, f, hA, hf, hP⟩
      simp only at hA hf ⊢
      rw [isLms_spec htt h1 (by omega), Option.bind_some]
      by_cases h2 : Lms n ty i
      · rw [if_pos (by simpa using h2), pushBack]
        have e5 : rd str i = some (c i) := hs.get i hi
        have hgt : 0 + 1 < f (c i) := by
          have h3 := hP.room hs.lt hi h2 (lt_irrefl i)
          have m6 := start_pos (c := c) (n := n) (c i)
          have m7 := start_le_mid (c := c) (n := n) (ty := ty) (c i)
          omega
        obtain ⟨h3, h4, h5⟩ := hP.push hs.lt hi h2 (lt_irrefl i) hgt (fun _ _ _ _ => le_refl _)
        obtain ⟨bo', e', hf'⟩ := hf.wr (hs.lt i hi) (f (c i) - 1)
        rw [e5, Option.bind_some, hf.rd (hs.lt i hi), Option.bind_some, if_neg (by omega), e', Option.bind_some, hA.wr (by omega)]
        refine ⟨_, rfl, _, _, hA.set _ _, hf', h5.congr fun j _ _ => ?_⟩
        omega
      · rw [if_neg (by simpa using h2)]
        refine ⟨_, rfl, A, f, hA, hf, hP.congr fun j _ h3 => ?_⟩
        constructor
        · intro h4; omega
        · intro h4
          have : j ≠ i := fun h5 => h2 (h5 ▸ h3)
          omega)
  rw [e4, Option.bind_some]
  simp only at hA hf ⊢
  rw [hA.wr (by omega), Option.bind_some]
  have hP' : PInv c n alpha ty (fun _ => 0) 0 (fun x => x < n) (Function.update A 0 n) f := by
    have u : ∀ t, 0 < t → Function.update A 0 (n : Int) t = A t := fun t h => Function.update_of_ne (by omega) _ _
    refine ⟨hP.rng, fun t h1 h2 => ?_, fun a ha t h1 h2 => ?_, fun t t' h1 h2 h3 h4 h5 h6 => ?_, fun j h1 h2 h3 => ?_, fun _ _ _ _ _ _ _ _ _ _ => le_refl _⟩
    · rw [u t h1]; exact hP.cell t h1 h2
    · have := hP.full a ha t h1 h2
      rw [u t this.1]; exact this
    · rw [u t h1] at h5 h6; rw [u t' h3] at h6; exact hP.inj t t' h1 h2 h3 h4 h5 h6
    · obtain ⟨t, h4, h5, h6⟩ := hP.all j h1 h2 h3
      exact ⟨t, h4, h5, by rw [u t h4, h6]⟩
  exact inducedSort_spec ht hs htt (hP'.place hs.lt (fun j h _ => h) (Function.update_self _ _ _)) (hA.set 0 _) hf.counted hW

end

end Altruct.SuffixArray
