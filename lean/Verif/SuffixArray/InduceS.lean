/-
The second loop of the induced sort: the S suffixes; the whole induced sort.
-/
import Verif.SuffixArray.InduceL

namespace Altruct.SuffixArray

section
variable {c : Nat → Nat} {n alpha : Nat} {ty : Nat → Bool} {ρ : Nat → Nat}

/-- The invariant of the loop over the S suffixes; the cells after `i` have been processed. -/
structure SInv (c : Nat → Nat) (n alpha : Nat) (ty : Nat → Bool) (ρ : Nat → Nat) (A1 : Nat → Int) (i : Nat) (A : Nat → Int) (f : Nat → Nat) : Prop where
  zero : A 0 = n
  low : ∀ a, a < alpha → ∀ t, start c n a ≤ t → t < mid c n ty a → A t = A1 t
  rng : ∀ a, a < alpha → mid c n ty a ≤ f a ∧ f a ≤ start c n (a + 1)
  cell : ∀ a, a < alpha → ∀ t, f a ≤ t → t < start c n (a + 1) →
    ∃ j : Nat, A t = j ∧ j < n ∧ c j = a ∧ ty j = true ∧ ∃ k, i < k ∧ k ≤ n ∧ A k = (j + 1 : Nat)
  valid : ∀ a, a < alpha → ∀ t, i < t → mid c n ty a ≤ t → t < start c n (a + 1) → f a ≤ t
  inj : ∀ a, a < alpha → ∀ t t', f a ≤ t → t < start c n (a + 1) → f a ≤ t' → t' < start c n (a + 1) → A t = A t' → t = t'
  done : ∀ k, i < k → k ≤ n → ∀ j : Nat, A k = (j + 1 : Nat) → ty j = true → ∃ t, f (c j) ≤ t ∧ t < start c n (c j + 1) ∧ A t = j
  sorted : ∀ a, a < alpha → ∀ t t' (j j' : Nat), f a ≤ t → t < t' → t' < start c n (a + 1) → A t = j → A t' = j' → key c n ty ρ j ≤ key c n ty ρ j'

variable {A1 A : Nat → Int} {f : Nat → Nat}

/-- What a valid cell holds. -/
theorem SInv.get (hl : LSorted c n alpha ty ρ A1) (hlt : ∀ i, i < n → c i < alpha) {i : Nat} (h : SInv c n alpha ty ρ A1 i A f) {t : Nat} (h1 : 1 ≤ t) (h2 : t ≤ n)
    (hv : ∀ a, a < alpha → mid c n ty a ≤ t → t < start c n (a + 1) → f a ≤ t) :
    ∃ j : Nat, A t = j ∧ j < n ∧ start c n (c j) ≤ t ∧ t < start c n (c j + 1) ∧
      ((ty j = false ∧ t < mid c n ty (c j) ∧ A1 t = j) ∨ (ty j = true ∧ f (c j) ≤ t)) := by
  obtain ⟨a, ha, h3, h4⟩ := bucket_exists hlt h1 h2
  rcases Nat.lt_or_ge t (mid c n ty a) with h5 | h5
  · obtain ⟨j, h6, h7, h8, h9⟩ := hl.cell a ha t h3 h5
    subst h8
    exact ⟨j, by rw [h.low _ ha t h3 h5, h6], h7, h3, h4, Or.inl ⟨h9, h5, h6⟩⟩
  · obtain ⟨j, h6, h7, h8, h9, _⟩ := h.cell a ha t (hv a ha h5 h4) h4
    subst h8
    exact ⟨j, h6, h7, h3, h4, Or.inr ⟨h9, hv _ ha h5 h4⟩⟩

theorem SInv.placed {i : Nat} (h : SInv c n alpha ty ρ A1 i A f) {a : Nat} (ha : a < alpha) :
    ∃ S : Finset Nat, S ⊆ (Finset.range n).filter (fun i => c i = a ∧ ty i = true) ∧ S.card = start c n (a + 1) - f a ∧
      ∀ j : Nat, j ∈ S ↔ ∃ k, f a ≤ k ∧ k < start c n (a + 1) ∧ A k = j :=
  cells_card (fun k h1 h2 => by obtain ⟨j, h3, h4, h5, h6, _⟩ := h.cell a ha k h1 h2; exact ⟨j, h3, h4, h5, h6⟩)
    (fun k k' h1 h2 h3 h4 e => h.inj a ha k k' h1 h2 h3 h4 e)

/-- The next cell is valid. -/
theorem SInv.next (ht : Types c n ty) (hl : LSorted c n alpha ty ρ A1) (hlt : ∀ i, i < n → c i < alpha) {i : Nat} (h : SInv c n alpha ty ρ A1 i A f) :
    ∀ a, a < alpha → mid c n ty a ≤ i → i < start c n (a + 1) → f a ≤ i := by
  intro a ha h1 h2
  by_contra h3
  obtain ⟨S, s1, s2, s3⟩ := h.placed ha
  have key : ∀ d j, j + d + 1 = n → c j = a → ty j = true → j ∈ S := by
    intro d
    induction d with
    | zero =>
      intro j hj _ h5
      have := ht.prev
      rw [show n - 1 = j by omega, h5] at this
      exact absurd this (by decide)
    | succ d ih =>
      intro j hj h4 h5
      obtain ⟨h6, h7, h8⟩ := ht.le (show j < n by omega) h5
      obtain ⟨k, hk1, hk2, hk3⟩ : ∃ k, i < k ∧ k ≤ n ∧ A k = (j + 1 : Nat) := by
        have ha' := hlt (j + 1) h6
        have m5 := start_le (c := c) (n := n) (c (j + 1) + 1)
        have m6 := mid_le_start (c := c) (n := n) (ty := ty) (c (j + 1))
        have m7 := start_le_mid (c := c) (n := n) (ty := ty) (c (j + 1))
        rcases Nat.lt_or_ge (c j) (c (j + 1)) with h9 | h9
        · have := start_mono (c := c) (n := n) (show a + 1 ≤ c (j + 1) by omega)
          cases h10 : ty (j + 1) with
          | false =>
            obtain ⟨t, h11, h12, h13⟩ := hl.all (j + 1) h6 h10
            exact ⟨t, by omega, by omega, by rw [h.low _ ha' t h11 h12, h13]⟩
          | true =>
            obtain ⟨S', s1', s2', s3'⟩ := h.placed ha'
            have hf : f (c (j + 1)) = mid c n ty (c (j + 1)) := by
              have r := h.rng _ ha'
              by_contra h11
              have := h.valid _ ha' (mid c n ty (c (j + 1))) (by omega) (le_refl _) (by omega)
              omega
            have h12 : S' = (Finset.range n).filter (fun i => c i = c (j + 1) ∧ ty i = true) := by
              refine Finset.eq_of_subset_of_card_le s1' ?_
              rw [s2', hf, start_mid (ty := ty), cntT]
              omega
            have h13 : j + 1 ∈ S' := by rw [h12]; simp only [Finset.mem_filter, Finset.mem_range]; exact ⟨h6, trivial, h10⟩
            obtain ⟨k, h14, h15, h16⟩ := (s3' _).mp h13
            exact ⟨k, by omega, by omega, h16⟩
        · have h10 : c j = c (j + 1) := by omega
          obtain ⟨k, h14, h15, h16⟩ := (s3 _).mp (ih (j + 1) (by omega) (by omega) (h8 h10))
          rw [← h10, h4] at m5
          exact ⟨k, by omega, by omega, h16⟩
      obtain ⟨t, h9, h10, h11⟩ := h.done k hk1 hk2 j hk3 h5
      rw [h4] at h9 h10
      exact (s3 j).mpr ⟨t, h9, h10, h11⟩
  have h4 : (Finset.range n).filter (fun i => c i = a ∧ ty i = true) ⊆ S := by
    intro j hj
    simp only [Finset.mem_filter, Finset.mem_range] at hj
    exact key (n - j - 1) j (by omega) hj.2.1 hj.2.2
  have h5 := Finset.card_le_card h4
  rw [s2] at h5
  have h6 := start_mid (c := c) (n := n) (ty := ty) a
  rw [cntT] at h6
  omega

/-- The order of valid cells. -/
theorem SInv.le (hl : LSorted c n alpha ty ρ A1) (hlt : ∀ i, i < n → c i < alpha) {i : Nat} (h : SInv c n alpha ty ρ A1 i A f)
    (hv : ∀ a, a < alpha → mid c n ty a ≤ i → i < start c n (a + 1) → f a ≤ i) {t t' j j' : Nat} (h0 : i ≤ t) (h1 : 1 ≤ t) (h2 : t < t') (h3 : t' ≤ n)
    (e : A t = j) (e' : A t' = j') : key c n ty ρ j ≤ key c n ty ρ j' := by
  have hv' : ∀ t, i ≤ t → ∀ a, a < alpha → mid c n ty a ≤ t → t < start c n (a + 1) → f a ≤ t := by
    intro t h4 a ha h5 h6
    rcases Nat.lt_or_ge i t with h7 | h7
    · exact h.valid a ha t h7 h5 h6
    · obtain rfl : t = i := by omega
      exact hv a ha h5 h6
  obtain ⟨j1, g1, g2, g3, g4, g5⟩ := h.get hl hlt h1 (by omega) (hv' t h0)
  obtain ⟨j2, k1, k2, k3, k4, k5⟩ := h.get hl hlt (show 1 ≤ t' by omega) h3 (hv' t' (by omega))
  obtain rfl : j1 = j := by omega
  obtain rfl : j2 = j' := by omega
  rcases lt_trichotomy (c j1) (c j2) with h4 | h4 | h4
  · exact key_le_of_code (code_lt_of_letter g2 k2 h4)
  · rcases g5 with ⟨a1, a2, a3⟩ | ⟨a1, a2⟩ <;> rcases k5 with ⟨b1, b2, b3⟩ | ⟨b1, b2⟩
    · exact hl.sorted t t' j1 j2 h2 h3 a3 b3 a1 b1 h4
    · exact key_le_of_code (code_lt_of_type g2 k2 h4 a1 b1)
    · exfalso
      have := (h.rng _ (hlt j1 g2)).1
      rw [← h4] at b2
      omega
    · exact h.sorted _ (hlt j1 g2) t t' j1 j2 a2 h2 (by rw [h4]; exact k4) e e'
  · have := start_mono (c := c) (n := n) (show c j2 + 1 ≤ c j1 by omega)
    omega

theorem SInv.skip (hv : ∀ a, a < alpha → mid c n ty a ≤ i → i < start c n (a + 1) → f a ≤ i) (hi : 1 ≤ i) (h : SInv c n alpha ty ρ A1 i A f)
    (hs : ∀ j : Nat, A i = (j + 1 : Nat) → ty j = false) : SInv c n alpha ty ρ A1 (i - 1) A f := by
  refine ⟨h.zero, h.low, h.rng, fun a ha t h1 h2 => ?_, fun a ha t h1 h2 h3 => ?_, h.inj, fun k h1 h2 j h3 h4 => ?_, h.sorted⟩
  · obtain ⟨j, h3, h4, h5, h6, k, h7, h8⟩ := h.cell a ha t h1 h2
    exact ⟨j, h3, h4, h5, h6, k, by omega, h8⟩
  · rcases Nat.lt_or_ge i t with h7 | h7
    · exact h.valid a ha t h7 h2 h3
    · obtain rfl : t = i := by omega
      exact hv a ha h2 h3
  · rcases Nat.lt_or_ge i k with h7 | h7
    · exact h.done k h7 h2 j h3 h4
    · obtain rfl : k = i := by omega
      rw [hs j h3] at h4
      exact absurd h4 (by decide)

theorem SInv.step (ht : Types c n ty) (hl : LSorted c n alpha ty ρ A1) (hlt : ∀ i, i < n → c i < alpha) {i j : Nat} (hi : 1 ≤ i) (hin : i ≤ n)
    (h : SInv c n alpha ty ρ A1 i A f) (e : A i = (j + 1 : Nat)) (hj : ty j = true) : j < n ∧ 0 < f (c j) ∧ f (c j) ≤ n + 1 ∧
      SInv c n alpha ty ρ A1 (i - 1) (Function.update A (f (c j) - 1) j) (Function.update f (c j) (f (c j) - 1)) := by
  have hv := h.next ht hl hlt
  obtain ⟨j1, g1, g2, g3, g4, g5⟩ := h.get hl hlt hi hin hv
  obtain rfl : j1 = j + 1 := by omega
  have hjn : j < n := by omega
  have ha := hlt j hjn
  obtain ⟨_, q1, q2⟩ := ht.le hjn hj
  obtain ⟨S, s1, s2, s3⟩ := h.placed ha
  have r := h.rng _ ha
  have m5 := start_le (c := c) (n := n) (c j + 1)
  have m7 := start_le_mid (c := c) (n := n) (ty := ty) (c j)
  have m6 := start_pos (c := c) (n := n) (c j)
  have hfi : f (c j) ≤ i := by
    rcases Nat.lt_or_ge (c j) (c (j + 1)) with h9 | h9
    · have := start_mono (c := c) (n := n) (show c j + 1 ≤ c (j + 1) by omega)
      omega
    · have h10 : c j = c (j + 1) := by omega
      rcases g5 with ⟨a1, _⟩ | ⟨_, a2⟩
      · rw [q2 h10] at a1; exact absurd a1 (by decide)
      · rw [h10]; exact a2
  have hinj : ∀ k, i < k → k ≤ n → A k ≠ (j + 1 : Nat) := by
    intro k h1 h2 h3
    obtain ⟨j2, k1, k2, k3, k4, k5⟩ := h.get hl hlt (show 1 ≤ k by omega) h2 (fun a ha => h.valid a ha k h1)
    obtain rfl : j2 = j + 1 := by omega
    rcases g5 with ⟨a1, a2, a3⟩ | ⟨a1, a2⟩ <;> rcases k5 with ⟨b1, b2, b3⟩ | ⟨b1, b2⟩
    · have := hl.inj i k hin h2 (by omega) (by rw [a3, b3])
      omega
    · rw [a1] at b1; exact absurd b1 (by decide)
    · rw [a1] at b1; exact absurd b1 (by decide)
    · have := h.inj _ (hlt _ g2) i k a2 g4 b2 k4 (by rw [e, h3])
      omega
  have hno : ∀ t, f (c j) ≤ t → t < start c n (c j + 1) → A t ≠ j := by
    intro t h1 h2 h3
    obtain ⟨j2, h4, h5, h6, h7, k, h8, h9, h10⟩ := h.cell _ ha t h1 h2
    obtain rfl : j2 = j := by omega
    exact hinj k h8 h9 h10
  have hroom : mid c n ty (c j) < f (c j) := by
    have h4 : S ⊂ (Finset.range n).filter (fun i => c i = c j ∧ ty i = true) := by
      refine Finset.ssubset_iff_subset_ne.mpr ⟨s1, fun e2 => ?_⟩
      have : j ∈ S := by rw [e2]; simp only [Finset.mem_filter, Finset.mem_range]; exact ⟨hjn, trivial, hj⟩
      obtain ⟨k, hk1, hk2, hk3⟩ := (s3 j).mp this
      exact hno k hk1 hk2 hk3
    have h5 := Finset.card_lt_card h4
    rw [s2] at h5
    have h6 := start_mid (c := c) (n := n) (ty := ty) (c j)
    rw [cntT] at h6
    omega
  refine ⟨hjn, by omega, by omega, ?_⟩
  obtain ⟨p, hp⟩ : ∃ p, f (c j) = p + 1 := ⟨f (c j) - 1, by omega⟩
  rw [hp, Nat.add_sub_cancel]
  rw [hp] at hfi hroom r
  have u2 : ∀ t, t ≠ p → Function.update A p (j : Int) t = A t := fun t h3 => Function.update_of_ne h3 _ _
  have u3 : Function.update A p (j : Int) p = j := Function.update_self _ _ _
  have f1 : Function.update f (c j) p (c j) = p := Function.update_self _ _ _
  have f2 : ∀ a, a ≠ c j → Function.update f (c j) p a = f a := fun a h3 => Function.update_of_ne h3 _ _
  have cells : ∀ a, a < alpha → ∀ t, Function.update f (c j) p a ≤ t → t < start c n (a + 1) → (a = c j ∧ t = p) ∨ (t ≠ p ∧ f a ≤ t) := by
    intro a ha' t h1 h2
    by_cases h3 : a = c j
    · subst h3
      rw [f1] at h1
      by_cases h4 : t = p
      · exact Or.inl ⟨rfl, h4⟩
      · exact Or.inr ⟨h4, by omega⟩
    · rw [f2 a h3] at h1
      refine Or.inr ⟨fun h4 => h3 ?_, h1⟩
      have := h.rng a ha'
      have m8 := start_le_mid (c := c) (n := n) (ty := ty) a
      exact bucket_unique (show start c n a ≤ t by omega) h2 (show start c n (c j) ≤ t by omega) (by omega)
  refine ⟨?_, ?_, ?_, ?_, ?_, ?_, ?_, ?_⟩
  · rw [u2 0 (by omega), h.zero]
  · intro a ha' t h1 h2
    rw [u2 t ?_, h.low a ha' t h1 h2]
    intro h3
    have m8 := mid_le_start (c := c) (n := n) (ty := ty) a
    have := bucket_unique h1 (by omega) (show start c n (c j) ≤ t by omega) (by omega)
    rw [this] at h2
    omega
  · intro a ha'
    by_cases h3 : a = c j
    · subst h3; rw [f1]; omega
    · rw [f2 a h3]; exact h.rng a ha'
  · intro a ha' t h1 h2
    rcases cells a ha' t h1 h2 with ⟨h3, h4⟩ | ⟨h3, h4⟩
    · subst h3; subst h4
      refine ⟨j, u3, hjn, rfl, hj, i, by omega, hin, ?_⟩
      rw [u2 i (by omega), e]
    · obtain ⟨j2, h5, h6, h7, h8, k, h9, h10, h11⟩ := h.cell a ha' t h4 h2
      refine ⟨j2, by rw [u2 t h3, h5], h6, h7, h8, k, by omega, h10, ?_⟩
      rw [u2 k (by omega), h11]
  · intro a ha' t h1 h2 h3
    have h4 : f a ≤ t := by
      rcases Nat.lt_or_ge i t with h7 | h7
      · exact h.valid a ha' t h7 h2 h3
      · obtain rfl : t = i := by omega
        exact hv a ha' h2 h3
    by_cases h5 : a = c j
    · subst h5; rw [f1]; omega
    · rw [f2 a h5]; exact h4
  · intro a ha' t t' h1 h2 h3 h4 h5
    rcases cells a ha' t h1 h2 with ⟨h6, h7⟩ | ⟨h6, h7⟩ <;> rcases cells a ha' t' h3 h4 with ⟨h8, h9⟩ | ⟨h8, h9⟩
    · omega
    · subst h6
      rw [h7, u3, u2 t' h8] at h5
      exact absurd h5.symm (hno t' h9 h4)
    · subst h8
      rw [h9, u3, u2 t h6] at h5
      exact absurd h5 (hno t h7 h2)
    · rw [u2 t h6, u2 t' h8] at h5
      exact h.inj a ha' t t' h7 h2 h9 h4 h5
  · intro k h1 h2 j2 h3 h4
    rw [u2 k (by omega)] at h3
    rcases Nat.lt_or_ge i k with h5 | h5
    · obtain ⟨t, h6, h7, h8⟩ := h.done k h5 h2 j2 h3 h4
      refine ⟨t, ?_, h7, ?_⟩
      · by_cases h9 : c j2 = c j
        · rw [h9, f1]; rw [h9, hp] at h6; omega
        · rw [f2 _ h9]; exact h6
      · rw [u2 t ?_, h8]
        intro h9
        have hj2 : c j2 < alpha := hlt j2 (by
          obtain ⟨j3, k1, k2, _⟩ := h.get hl hlt (show 1 ≤ k by omega) h2 (fun a ha => h.valid a ha k h5)
          omega)
        have r2 := h.rng _ hj2
        have m8 := start_le_mid (c := c) (n := n) (ty := ty) (c j2)
        have := bucket_unique (show start c n (c j2) ≤ t by omega) h7 (show start c n (c j) ≤ t by omega) (by omega)
        rw [this, hp] at h6
        omega
    · obtain rfl : k = i := by omega
      obtain rfl : j2 = j := by omega
      exact ⟨p, by rw [f1], by omega, u3⟩
  · intro a ha' t t' j1 j2 h1 h2 h3 h4 h5
    rcases cells a ha' t h1 (by omega) with ⟨h6, h7⟩ | ⟨h6, h7⟩ <;>
      rcases cells a ha' t' (by omega) h3 with ⟨h8, h9⟩ | ⟨h8, h9⟩
    · omega
    · subst h6
      rw [h7, u3] at h4
      rw [u2 t' h8] at h5
      obtain rfl : j = j1 := by omega
      obtain ⟨j3, h10, h11, h12, h13, k, h14, h15, h16⟩ := h.cell _ ha t' h9 h3
      obtain rfl : j3 = j2 := by omega
      refine key_le_of_eq hjn h11 (code_eq_of hjn h11 h12.symm (by rw [hj, h13])) ?_
      have hn : ∀ x, ty x = true → ¬ Lms n ty (x + 1) := fun x hx h17 => by
        have := h17.2.2.2
        rw [Nat.add_sub_cancel, hx] at this
        exact absurd this (by decide)
      rw [key_of_not (hn j hj), key_of_not (hn _ h13)]
      exact h.le hl hlt hv (le_refl i) hi h14 h15 e h16
    · subst h8
      rw [f1] at h1
      omega
    · rw [u2 t h6] at h4
      rw [u2 t' h8] at h5
      exact h.sorted a ha' t t' j1 j2 h7 h2 h3 h4 h5

theorem SInv.init (hl : LSorted c n alpha ty ρ A1) : SInv c n alpha ty ρ A1 n A1 (fun a => start c n (a + 1)) := by
  refine ⟨hl.zero, fun _ _ _ _ _ => rfl, fun a _ => ⟨mid_le_start a, le_refl _⟩, fun a _ t h1 h2 => by omega, fun a _ t h1 _ h3 => ?_,
    fun a _ t t' h1 h2 => by omega, fun k h1 h2 => by omega, fun a _ t t' _ _ h1 h2 h3 => by omega⟩
  have := start_le (c := c) (n := n) (a + 1)
  omega

/-- All suffixes, in the order of their keys. -/
structure Sorted (c : Nat → Nat) (n : Nat) (ty : Nat → Bool) (ρ : Nat → Nat) (p : Nat → Nat) : Prop where
  zero : p 0 = n
  le : ∀ t, t ≤ n → p t ≤ n
  inj : ∀ t t', t ≤ n → t' ≤ n → p t = p t' → t = t'
  sorted : ∀ t t', t < t' → t' ≤ n → key c n ty ρ (p t) ≤ key c n ty ρ (p t')

theorem SInv.final (hl : LSorted c n alpha ty ρ A1) (hlt : ∀ i, i < n → c i < alpha) (h : SInv c n alpha ty ρ A1 0 A f) :
    ∃ p : Nat → Nat, (∀ t, t ≤ n → A t = p t) ∧ Sorted c n ty ρ p := by
  have hg : ∀ t, 1 ≤ t → t ≤ n → ∃ j : Nat, A t = j ∧ j < n ∧ start c n (c j) ≤ t ∧ t < start c n (c j + 1) ∧
      ((ty j = false ∧ t < mid c n ty (c j) ∧ A1 t = j) ∨ (ty j = true ∧ f (c j) ≤ t)) := fun t h1 h2 =>
    h.get hl hlt h1 h2 (fun a ha => h.valid a ha t (by omega))
  have hp : ∀ t, t ≤ n → A t = ((A t).toNat : Int) := by
    intro t h1
    rcases Nat.eq_zero_or_pos t with h2 | h2
    · subst h2; rw [h.zero]; rfl
    · obtain ⟨j, e, _⟩ := hg t h2 h1
      rw [e]; rfl
  refine ⟨fun t => (A t).toNat, hp, ?_, ?_, ?_, ?_⟩
  · simp only [h.zero, Int.toNat_natCast]
  · intro t h1
    rcases Nat.eq_zero_or_pos t with h2 | h2
    · subst h2; simp only [h.zero, Int.toNat_natCast]; exact le_refl _
    · obtain ⟨j, e, h3, _⟩ := hg t h2 h1
      simp only [e, Int.toNat_natCast]; omega
  · intro t t' h1 h2 h3
    have h4 : A t = A t' := by rw [hp t h1, hp t' h2, h3]
    rcases Nat.eq_zero_or_pos t with h5 | h5 <;> rcases Nat.eq_zero_or_pos t' with h6 | h6
    · omega
    · obtain ⟨j, e, h7, _⟩ := hg t' h6 h2
      rw [h5, h.zero] at h4; omega
    · obtain ⟨j, e, h7, _⟩ := hg t h5 h1
      rw [h6, h.zero] at h4; omega
    · obtain ⟨j, g1, g2, g3, g4, g5⟩ := hg t h5 h1
      obtain ⟨j', k1, k2, k3, k4, k5⟩ := hg t' h6 h2
      obtain rfl : j = j' := by omega
      rcases g5 with ⟨a1, a2, a3⟩ | ⟨a1, a2⟩ <;> rcases k5 with ⟨b1, b2, b3⟩ | ⟨b1, b2⟩
      · exact hl.inj t t' h1 h2 (by omega) (by rw [a3, b3])
      · rw [a1] at b1; exact absurd b1 (by decide)
      · rw [a1] at b1; exact absurd b1 (by decide)
      · exact h.inj _ (hlt _ g2) t t' a2 g4 b2 k4 h4
  · intro t t' h1 h2
    rcases Nat.eq_zero_or_pos t with h3 | h3
    · obtain ⟨j', k1, k2, _⟩ := hg t' (by omega) h2
      simp only [h3, h.zero, k1, Int.toNat_natCast]
      refine key_le_of_code ?_
      rw [code_end]; exact code_pos k2
    · obtain ⟨j, g1, _⟩ := hg t h3 (by omega)
      obtain ⟨j', k1, _⟩ := hg t' (by omega) h2
      simp only [g1, k1, Int.toNat_natCast]
      refine h.le hl hlt (fun a ha h4 => ?_) (by omega) h3 h1 h2 g1 k1
      have := start_pos (c := c) (n := n) a
      have := start_le_mid (c := c) (n := n) (ty := ty) a
      omega

variable {str : List Nat} {types : List Bool} {W : Nat}

/-- The induced sort. -/
theorem inducedSort_spec (ht : Types c n ty) (hs : Str str c n alpha) (htt : Rep types (n + 1) ty) {A0 : Nat → Int} (hp : Place c n ty ρ A0) {sa : List Int}
    (hsa : Rep sa (n + 1) A0) {bo : List Nat} (hb : Counted c n alpha W bo) (hW : alpha ≤ W) :
    ∃ sa' bo' p, inducedSort str n alpha types sa bo = some (sa', bo') ∧ bo'.length = W ∧ Rep sa' (n + 1) (fun t => ((p t : Nat) : Int)) ∧ Sorted c n ty ρ p := by
  obtain ⟨bo1, e1, hb1⟩ := getOffsets_spec hs hb hW false
  rw [inducedSort, e1, Option.bind_some]
  obtain ⟨⟨sa2, bo2⟩, e2, A, f, hA, hf, hL⟩ := forUp_spec (body := fun i (s : List Int × List Nat) => (rd s.1 i).bind fun v =>
      if v - 1 ≥ 0 then (rd types (v - 1).toNat).bind fun t => if t then some s else pushFront str (v - 1).toNat s
      else some s)
    (fun i s => ∃ A f, Rep s.1 (n + 1) A ∧ Bkt c n alpha W s.2 f ∧ LInv c n alpha ty ρ A0 i A f) (Nat.zero_le n) (s := (sa, bo1))
    ⟨A0, _, hsa, hb1, by simpa using LInv.init hp⟩ (by
      rintro i ⟨sa, bo⟩ _ hi ⟨A, f, hA, hf, hL⟩
      simp only at hA hf ⊢
      rw [hA.rd (show i < n + 1 by omega), Option.bind_some]
      by_cases h1 : A i - 1 ≥ 0
      · obtain ⟨j, hj⟩ : ∃ j : Nat, A i = (j + 1 : Nat) := ⟨(A i - 1).toNat, by omega⟩
        have hjn : j < n + 1 := by
          rcases hL.cell i (by omega) with h1 | ⟨_, h1⟩ | ⟨j2, h1, h2, _⟩ | ⟨j2, h1, h2, _⟩ <;> omega
        rw [if_pos h1, show (A i - 1).toNat = j by omega, htt.rd hjn, Option.bind_some]
        cases h2 : ty j with
        | true =>
          refine ⟨_, rfl, A, f, hA, hf, hL.skip fun j2 h3 => ?_⟩
          obtain rfl : j2 = j := by omega
          exact h2
        | false =>
          obtain ⟨h3, h4, h5⟩ := hL.step ht hs.lt hp (by omega) hj h2
          obtain ⟨bo', e', hf'⟩ := hf.wr (hs.lt j h3) (f (c j) + 1)
          have e3 : rd str j = some (c j) := hs.get j h3
          rw [if_neg (by simp), pushFront, e3, Option.bind_some, hf.rd (hs.lt j h3), Option.bind_some, e', Option.bind_some, hA.wr (by omega)]
          exact ⟨_, rfl, _, _, hA.set _ _, hf', h5⟩
      · rw [if_neg h1]
        exact ⟨_, rfl, A, f, hA, hf, hL.skip fun j2 h3 => by omega⟩)
  rw [e2, Option.bind_some]
  have hl := hL.final ht hs.lt hp
  simp only at hA hf ⊢
  obtain ⟨bo3, e3, hb3⟩ := getOffsets_spec hs hf.counted hW true
  rw [e3, Option.bind_some]
  obtain ⟨⟨sa4, bo4⟩, e4, A', f', hA', hf', hS⟩ := forBack_spec (body := fun k (s : List Int × List Nat) => (rd s.1 (k + 1)).bind fun v =>
            if v - 1 ≥ 0 then (rd types (v - 1).toNat).bind fun t => if t then pushBack str (v - 1).toNat s else some s
            else some s)
    (fun i s => ∃ A' f, Rep s.1 (n + 1) A' ∧ Bkt c n alpha W s.2 f ∧ SInv c n alpha ty ρ A i A' f) n (sa2, bo3)
    ⟨A, _, hA, hb3, by simpa using SInv.init hl⟩ (by
      rintro i ⟨sa, bo⟩ hi ⟨A, f, hA, hf, hS⟩
      simp only at hA hf ⊢
      rw [hA.rd (show i + 1 < n + 1 by omega), Option.bind_some]
      have hv := hS.next ht hl hs.lt
      obtain ⟨j1, g1, g2, _⟩ := hS.get hl hs.lt (show 1 ≤ i + 1 by omega) (by omega) hv
      by_cases h1 : A (i + 1) - 1 ≥ 0
      · obtain ⟨j, hj⟩ : ∃ j : Nat, A (i + 1) = (j + 1 : Nat) := ⟨(A (i + 1) - 1).toNat, by omega⟩
        rw [if_pos h1, show (A (i + 1) - 1).toNat = j by omega, htt.rd (show j < n + 1 by omega), Option.bind_some]
        cases h2 : ty j with
        | false =>
          refine ⟨_, rfl, A, f, hA, hf, hS.skip hv (by omega) fun j2 h3 => ?_⟩
          obtain rfl : j2 = j := by omega
          exact h2
        | true =>
          obtain ⟨h3, h4, h5, h6⟩ := hS.step ht hl hs.lt (by omega) (by omega) hj h2
          obtain ⟨bo', e', hf'⟩ := hf.wr (hs.lt j h3) (f (c j) - 1)
          have e3 : rd str j = some (c j) := hs.get j h3
          rw [if_pos rfl, pushBack, e3, Option.bind_some, hf.rd (hs.lt j h3), Option.bind_some, if_neg (by omega), e', Option.bind_some, hA.wr (by omega)]
          exact ⟨_, rfl, _, _, hA.set _ _, hf', h6⟩
      · rw [if_neg h1]
        exact ⟨_, rfl, A, f, hA, hf, hS.skip hv (by omega) fun j2 h3 => by omega⟩)
  obtain ⟨p, h1, h2⟩ := hS.final hl hs.lt
  exact ⟨sa4, bo4, p, e4, hf'.len, hA'.congr fun t h => h1 t (by omega), h2⟩

end

end Altruct.SuffixArray
