/-
The first loop of the induced sort: the L suffixes.
-/
import Verif.SuffixArray.Buckets
import Mathlib.Order.Interval.Finset.Nat

namespace Altruct.SuffixArray

/-- Where the S suffixes with the first letter `a` start. -/
def mid (c : Nat → Nat) (n : Nat) (ty : Nat → Bool) (a : Nat) : Nat := start c n a + cntT c n ty false a

section
variable {c : Nat → Nat} {n alpha : Nat} {ty : Nat → Bool} {ρ : Nat → Nat}

theorem start_mid (a : Nat) : start c n (a + 1) = mid c n ty a + cntT c n ty true a := by
  rw [start_succ, mid, cntE_split (ty := ty)]; omega

theorem start_le_mid (a : Nat) : start c n a ≤ mid c n ty a := by rw [mid]; omega

theorem mid_le_start (a : Nat) : mid c n ty a ≤ start c n (a + 1) := by rw [start_mid (ty := ty)]; omega

theorem bucket_unique {a b t : Nat} (h1 : start c n a ≤ t) (h2 : t < start c n (a + 1)) (h3 : start c n b ≤ t) (h4 : t < start c n (b + 1)) : a = b := by
  rcases lt_trichotomy a b with h | h | h
  · have := start_mono (c := c) (n := n) (show a + 1 ≤ b by omega); omega
  · exact h
  · have := start_mono (c := c) (n := n) (show b + 1 ≤ a by omega); omega

theorem start_all (h : ∀ i, i < n → c i < alpha) : start c n alpha = n + 1 := by
  rw [start, Finset.filter_true_of_mem (fun i hi => h i (Finset.mem_range.mp hi)), Finset.card_range]; omega

theorem bucket_exists (h : ∀ i, i < n → c i < alpha) {t : Nat} (h1 : 1 ≤ t) (h2 : t ≤ n) :
    ∃ a, a < alpha ∧ start c n a ≤ t ∧ t < start c n (a + 1) := by
  have key : ∀ b, t < start c n b → ∃ a, a < b ∧ start c n a ≤ t ∧ t < start c n (a + 1) := by
    intro b
    induction b with
    | zero => intro h3; rw [start_zero] at h3; omega
    | succ b ih =>
      intro h3
      rcases Nat.lt_or_ge t (start c n b) with h4 | h4
      · obtain ⟨a, h5, h6⟩ := ih h4
        exact ⟨a, by omega, h6⟩
      · exact ⟨b, by omega, h4, h3⟩
  exact key alpha (by rw [start_all h]; omega)

/-- The positions in cells that hold different positions of one type with one letter. -/
theorem cells_card {A : Nat → Int} {lo hi a : Nat} {t : Bool}
    (hc : ∀ k, lo ≤ k → k < hi → ∃ j : Nat, A k = j ∧ j < n ∧ c j = a ∧ ty j = t)
    (hinj : ∀ k k', lo ≤ k → k < hi → lo ≤ k' → k' < hi → A k = A k' → k = k') :
    ∃ S : Finset Nat, S ⊆ (Finset.range n).filter (fun i => c i = a ∧ ty i = t) ∧ S.card = hi - lo ∧
      ∀ j : Nat, j ∈ S ↔ ∃ k, lo ≤ k ∧ k < hi ∧ A k = j := by
  refine ⟨(Finset.Ico lo hi).image (fun k => (A k).toNat), ?_, ?_, ?_⟩
  · intro j hj
    obtain ⟨k, hk, e⟩ := Finset.mem_image.mp hj
    rw [Finset.mem_Ico] at hk
    obtain ⟨j', e', h1, h2⟩ := hc k hk.1 hk.2
    rw [e', Int.toNat_natCast] at e
    subst e
    simp only [Finset.mem_filter, Finset.mem_range]
    exact ⟨h1, h2⟩
  · rw [Finset.card_image_of_injOn, Nat.card_Ico]
    intro k hk k' hk' e
    simp only [Finset.coe_Ico, Set.mem_Ico] at hk hk'
    obtain ⟨j, e1, _⟩ := hc k hk.1 hk.2
    obtain ⟨j', e2, _⟩ := hc k' hk'.1 hk'.2
    simp only [e1, e2, Int.toNat_natCast] at e
    exact hinj k k' hk.1 hk.2 hk'.1 hk'.2 (by rw [e1, e2, e])
  · intro j
    rw [Finset.mem_image]
    constructor
    · rintro ⟨k, hk, e⟩
      rw [Finset.mem_Ico] at hk
      obtain ⟨j', e', _⟩ := hc k hk.1 hk.2
      rw [e', Int.toNat_natCast] at e
      exact ⟨k, hk.1, hk.2, by rw [e', e]⟩
    · rintro ⟨k, h1, h2, e⟩
      exact ⟨k, Finset.mem_Ico.mpr ⟨h1, h2⟩, by rw [e, Int.toNat_natCast]⟩

/-- The leftmost S suffixes are at the ends of their buckets, ordered by `ρ`. -/
structure Place (c : Nat → Nat) (n : Nat) (ty : Nat → Bool) (ρ : Nat → Nat) (A0 : Nat → Int) : Prop where
  zero : A0 0 = n
  cell : ∀ t, 1 ≤ t → t ≤ n → A0 t = -1 ∨ ∃ j : Nat, A0 t = (j : Int) ∧ j < n ∧ Lms n ty j ∧ mid c n ty (c j) ≤ t ∧ t < start c n (c j + 1)
  inj : ∀ t t', 1 ≤ t → t ≤ n → 1 ≤ t' → t' ≤ n → 0 ≤ A0 t → A0 t = A0 t' → t = t'
  all : ∀ j : Nat, j < n → Lms n ty j → ∃ t, 1 ≤ t ∧ t ≤ n ∧ A0 t = j
  sorted : ∀ t t' (j j' : Nat), t < t' → t' ≤ n → A0 t = j → A0 t' = j' → c j = c j' → j < n → j' < n → ρ j ≤ ρ j'

/-- The invariant of the loop over the L suffixes. -/
structure LInv (c : Nat → Nat) (n alpha : Nat) (ty : Nat → Bool) (ρ : Nat → Nat) (A0 : Nat → Int) (i : Nat) (A : Nat → Int) (f : Nat → Nat) : Prop where
  rng : ∀ a, a < alpha → start c n a ≤ f a ∧ f a ≤ mid c n ty a
  cell : ∀ t, t ≤ n → A t = -1 ∨ (t = 0 ∧ A t = n) ∨
    (∃ j : Nat, A t = j ∧ j < n ∧ ty j = false ∧ start c n (c j) ≤ t ∧ t < f (c j) ∧ ∃ k, k < i ∧ A k = (j + 1 : Nat)) ∨
    (∃ j : Nat, A t = j ∧ j < n ∧ Lms n ty j ∧ mid c n ty (c j) ≤ t ∧ t < start c n (c j + 1) ∧ A0 t = j)
  full : ∀ a, a < alpha → ∀ t, start c n a ≤ t → t < f a → 0 ≤ A t
  keep : ∀ t, t ≤ n → 0 ≤ A0 t → A t = A0 t
  inj : ∀ t t', t ≤ n → t' ≤ n → 0 ≤ A t → A t = A t' → t = t'
  done : ∀ k, k < i → ∀ j : Nat, A k = (j + 1 : Nat) → ty j = false → ∃ t, t ≤ n ∧ A t = j
  sorted : ∀ t t' (j j' : Nat), t < t' → t' ≤ n → A t = j → A t' = j' → ty j = false → ty j' = false → c j = c j' →
    key c n ty ρ j ≤ key c n ty ρ j'

variable {A0 A : Nat → Int} {f : Nat → Nat}

theorem code_lt_of_letter {i j : Nat} (hi : i < n) (hj : j < n) (h : c i < c j) : code c n ty i < code c n ty j := by
  rw [code, code, if_pos hi, if_pos hj]
  split_ifs <;> omega

theorem code_lt_of_type {i j : Nat} (hi : i < n) (hj : j < n) (h : c i = c j) (h1 : ty i = false) (h2 : ty j = true) : code c n ty i < code c n ty j := by
  rw [code, code, if_pos hi, if_pos hj, h1, h2, h]; simp

theorem code_eq_of {i j : Nat} (hi : i < n) (hj : j < n) (h : c i = c j) (h1 : ty i = ty j) : code c n ty i = code c n ty j := by
  rw [code, code, if_pos hi, if_pos hj, h1, h]

theorem not_lms {i : Nat} (h : ty i = false) : ¬ Lms n ty i := fun h1 => by rw [h1.2.2.1] at h; exact absurd h (by decide)

theorem LInv.le (hlt : ∀ i, i < n → c i < alpha) (hp : Place c n ty ρ A0) {i : Nat} (h : LInv c n alpha ty ρ A0 i A f) {t t' j j' : Nat} (htt : t < t') (ht : t' ≤ n) (e : A t = j) (e' : A t' = j') :
    key1 c n ty ρ j ≤ key1 c n ty ρ j' := by
  have h2 : ∃ hj : j' < n, (ty j' = false ∧ start c n (c j') ≤ t' ∧ t' < f (c j')) ∨
      (Lms n ty j' ∧ mid c n ty (c j') ≤ t' ∧ t' < start c n (c j' + 1) ∧ A0 t' = j') := by
    rcases h.cell t' ht with h1 | ⟨h1, _⟩ | ⟨j2, h1, h2, h3, h4, h5, _⟩ | ⟨j2, h1, h2, h3, h4, h5, h6⟩
    · omega
    · omega
    · obtain rfl : j2 = j' := by omega
      exact ⟨h2, Or.inl ⟨h3, h4, h5⟩⟩
    · obtain rfl : j2 = j' := by omega
      exact ⟨h2, Or.inr ⟨h3, h4, h5, h6⟩⟩
  obtain ⟨hj', h2⟩ := h2
  have h3 : j = n ∨ ∃ hj : j < n, (ty j = false ∧ start c n (c j) ≤ t ∧ t < f (c j)) ∨
      (Lms n ty j ∧ mid c n ty (c j) ≤ t ∧ t < start c n (c j + 1) ∧ A0 t = j) := by
    rcases h.cell t (by omega) with h1 | ⟨h1, h3⟩ | ⟨j2, h1, h2, h3, h4, h5, _⟩ | ⟨j2, h1, h2, h3, h4, h5, h6⟩
    · omega
    · left; omega
    · obtain rfl : j2 = j := by omega
      exact Or.inr ⟨h2, Or.inl ⟨h3, h4, h5⟩⟩
    · obtain rfl : j2 = j := by omega
      exact Or.inr ⟨h2, Or.inr ⟨h3, h4, h5, h6⟩⟩
  rcases h3 with rfl | ⟨hj, h3⟩
  · refine key1_le_of_code ?_
    rw [code_end]; exact code_pos hj'
  have r1 := h.rng (c j) (hlt j hj)
  have r2 := h.rng (c j') (hlt j' hj')
  have m1 := mid_le_start (c := c) (n := n) (ty := ty) (c j)
  have m2 := mid_le_start (c := c) (n := n) (ty := ty) (c j')
  have m3 := start_le_mid (c := c) (n := n) (ty := ty) (c j)
  have m4 := start_le_mid (c := c) (n := n) (ty := ty) (c j')
  rcases lt_trichotomy (c j) (c j') with h4 | h4 | h4
  · exact key1_le_of_code (code_lt_of_letter hj hj' h4)
  · rcases h3 with ⟨a1, a2, a3⟩ | ⟨a1, a2, a3, a4⟩ <;> rcases h2 with ⟨b1, b2, b3⟩ | ⟨b1, b2, b3, b4⟩
    · rw [key_of_not (not_lms a1), key_of_not (not_lms b1)]
      exact h.sorted t t' j j' htt ht e e' a1 b1 h4
    · exact key1_le_of_code (code_lt_of_type hj hj' h4 a1 b1.2.2.1)
    · rw [h4] at a2; omega
    · rw [key1, key1, if_pos a1, if_pos b1, cons_le_cons', code_eq_of hj hj' h4 (by rw [a1.2.2.1, b1.2.2.1]), cons_le_cons']
      right
      refine ⟨rfl, ?_⟩
      have := hp.sorted t t' j j' htt ht a4 b4 h4 hj hj'
      rcases Nat.lt_or_ge (ρ j) (ρ j') with h5 | h5
      · exact Or.inl h5
      · exact Or.inr ⟨by omega, le_refl _⟩
  · have := start_mono (c := c) (n := n) (show c j' + 1 ≤ c j by omega)
    exfalso
    rcases h3 with ⟨a1, a2, a3⟩ | ⟨a1, a2, a3, a4⟩ <;> rcases h2 with ⟨b1, b2, b3⟩ | ⟨b1, b2, b3, b4⟩ <;> omega

/-- There is room for a position that has not been placed, after the cell of its successor. -/
theorem LInv.room (ht : Types c n ty) (hlt : ∀ i, i < n → c i < alpha) {i : Nat} (h : LInv c n alpha ty ρ A0 i A f) {k j : Nat} (hk : k ≤ n) (e : A k = (j + 1 : Nat)) (hj : ty j = false)
    (hno : ∀ t, t ≤ n → A t ≠ j) : j < n ∧ k < f (c j) ∧ f (c j) < mid c n ty (c j) := by
  have hjn : j < n := by
    rcases h.cell k hk with h1 | ⟨_, h1⟩ | ⟨j2, h1, h2, _⟩ | ⟨j2, h1, h2, _⟩ <;> omega
  refine ⟨hjn, ?_, ?_⟩
  · have r1 := h.rng (c j) (hlt j hjn)
    have m3 := start_pos (c := c) (n := n) (c j)
    have key : ∀ hj' : j + 1 < n, start c n (c (j + 1)) ≤ k → k < start c n (c (j + 1) + 1) → (ty (j + 1) = false → k < f (c (j + 1))) → k < f (c j) := by
      intro hj' h1 h2 h3
      obtain ⟨h4, h5⟩ := ht.ge hj' hj
      rcases Nat.lt_or_ge (c (j + 1)) (c j) with h6 | h6
      · have := start_mono (c := c) (n := n) (show c (j + 1) + 1 ≤ c j by omega)
        omega
      · have h7 : c j = c (j + 1) := by omega
        have := h3 (h5 h7)
        rwa [h7]
    rcases h.cell k hk with h1 | ⟨h1, _⟩ | ⟨j2, h1, h2, h3, h4, h5, _⟩ | ⟨j2, h1, h2, h3, h4, h5, _⟩
    · omega
    · omega
    · obtain rfl : j2 = j + 1 := by omega
      have r2 := h.rng (c (j + 1)) (hlt _ h2)
      have m2 := mid_le_start (c := c) (n := n) (ty := ty) (c (j + 1))
      exact key h2 h4 (by omega) (fun _ => h5)
    · obtain rfl : j2 = j + 1 := by omega
      have m2 := start_le_mid (c := c) (n := n) (ty := ty) (c (j + 1))
      exact key h2 (by omega) h5 (fun h6 => absurd h3 (not_lms h6))
  · have r1 := h.rng (c j) (hlt j hjn)
    have m2 := mid_le_start (c := c) (n := n) (ty := ty) (c j)
    have m5 := start_le (c := c) (n := n) (c j + 1)
    obtain ⟨S, h1, h2, h3⟩ := cells_card (c := c) (n := n) (ty := ty) (A := A) (lo := start c n (c j)) (hi := f (c j)) (a := c j) (t := false)
      (by
        intro k hk1 hk2
        have h0 := h.full (c j) (hlt j hjn) k hk1 hk2
        rcases h.cell k (by omega) with h1 | ⟨h1, _⟩ | ⟨j2, h1, h2, h3, h4, h5, _⟩ | ⟨j2, h1, h2, h3, h4, h5, _⟩
        · omega
        · have := start_pos (c := c) (n := n) (c j); omega
        · refine ⟨j2, h1, h2, ?_, h3⟩
          have r2 := h.rng (c j2) (hlt _ h2)
          have m4 := mid_le_start (c := c) (n := n) (ty := ty) (c j2)
          exact bucket_unique h4 (by omega) hk1 (by omega)
        · exfalso
          have m6 := start_le_mid (c := c) (n := n) (ty := ty) (c j2)
          have := bucket_unique (show start c n (c j2) ≤ k by omega) h5 hk1 (by omega)
          rw [this] at h4
          omega)
      (by
        intro k k' hk1 hk2 hk3 hk4 e
        exact h.inj k k' (by omega) (by omega) (h.full _ (hlt j hjn) k hk1 hk2) e)
    have h4 : S ⊂ (Finset.range n).filter (fun i => c i = c j ∧ ty i = false) := by
      refine Finset.ssubset_iff_subset_ne.mpr ⟨h1, fun e2 => ?_⟩
      have : j ∈ S := by rw [e2]; simp only [Finset.mem_filter, Finset.mem_range]; exact ⟨hjn, trivial, hj⟩
      obtain ⟨k, hk1, hk2, hk3⟩ := (h3 j).mp this
      exact hno k (by omega) hk3
    have h5 := Finset.card_lt_card h4
    rw [h2] at h5
    rw [mid, cntT]
    omega

theorem LInv.step (ht : Types c n ty) (hlt : ∀ i, i < n → c i < alpha) (hp : Place c n ty ρ A0) {i : Nat} (hi : i ≤ n) (h : LInv c n alpha ty ρ A0 i A f) {j : Nat}
    (e : A i = (j + 1 : Nat)) (hj : ty j = false) : j < n ∧ f (c j) ≤ n ∧
      LInv c n alpha ty ρ A0 (i + 1) (Function.update A (f (c j)) j) (Function.update f (c j) (f (c j) + 1)) := by
  have hno : ∀ t, t ≤ n → A t ≠ j := by
    intro t ht' e1
    rcases h.cell t ht' with h1 | ⟨_, h1⟩ | ⟨j2, h1, h2, h3, h4, h5, k, hk, h6⟩ | ⟨j2, h1, h2, h3, h4, h5, _⟩
    · omega
    · have : j = n := by omega
      rw [this, ht.last] at hj; exact absurd hj (by decide)
    · obtain rfl : j2 = j := by omega
      have := h.inj i k hi (by omega) (by omega) (by rw [e, h6])
      omega
    · obtain rfl : j2 = j := by omega
      exact absurd h3 (not_lms hj)
  obtain ⟨hjn, h1, h2⟩ := h.room ht hlt hi e hj hno
  have hc := hlt j hjn
  have r1 := h.rng (c j) hc
  have m2 := mid_le_start (c := c) (n := n) (ty := ty) (c j)
  have m5 := start_le (c := c) (n := n) (c j + 1)
  have m6 := start_pos (c := c) (n := n) (c j)
  generalize hpp : f (c j) = p at *
  have hpn : p ≤ n := by omega
  have hAp : A p = -1 := by
    rcases h.cell p hpn with h3 | ⟨h3, _⟩ | ⟨j2, h3, h4, h5, h6, h7, _⟩ | ⟨j2, h3, h4, h5, h6, h7, _⟩
    · exact h3
    · omega
    · exfalso
      have r2 := h.rng (c j2) (hlt _ h4)
      have m4 := mid_le_start (c := c) (n := n) (ty := ty) (c j2)
      have := bucket_unique h6 (by omega) (show start c n (c j) ≤ p by omega) (by omega)
      rw [this] at h7
      omega
    · exfalso
      have m7 := start_le_mid (c := c) (n := n) (ty := ty) (c j2)
      have := bucket_unique (show start c n (c j2) ≤ p by omega) h7 (show start c n (c j) ≤ p by omega) (by omega)
      rw [this] at h6
      omega
  have u1 : ∀ t, 0 ≤ A t → Function.update A p (j : Int) t = A t := fun t h3 => Function.update_of_ne (fun e3 => by rw [e3] at h3; omega) _ _
  have u2 : ∀ t, t ≠ p → Function.update A p (j : Int) t = A t := fun t h3 => Function.update_of_ne h3 _ _
  have u3 : Function.update A p (j : Int) p = j := Function.update_self _ _ _
  have f1 : ∀ a, f a ≤ Function.update f (c j) (p + 1) a := by
    intro a
    by_cases h3 : a = c j
    · rw [h3, Function.update_self]; omega
    · rw [Function.update_of_ne h3]
  refine ⟨hjn, hpn, ?_, ?_, ?_, ?_, ?_, ?_, ?_⟩
  · intro a ha
    by_cases h3 : a = c j
    · rw [h3, Function.update_self]; omega
    · rw [Function.update_of_ne h3]; exact h.rng a ha
  · intro t ht'
    by_cases h3 : t = p
    · subst h3
      refine Or.inr (Or.inr (Or.inl ⟨j, u3, hjn, hj, by omega, by rw [Function.update_self]; omega, i, by omega, ?_⟩))
      rw [u1 i (by omega), e]
    · rw [u2 t h3]
      rcases h.cell t ht' with h4 | h4 | ⟨j2, h4, h5, h6, h7, h8, k, h9, h10⟩ | h4
      · exact Or.inl h4
      · exact Or.inr (Or.inl h4)
      · refine Or.inr (Or.inr (Or.inl ⟨j2, h4, h5, h6, h7, lt_of_lt_of_le h8 (f1 _), k, by omega, ?_⟩))
        rw [u1 k (by omega), h10]
      · exact Or.inr (Or.inr (Or.inr h4))
  · intro a ha t h3 h4
    by_cases h5 : t = p
    · rw [h5, u3]; omega
    · rw [u2 t h5]
      refine h.full a ha t h3 ?_
      by_cases h6 : a = c j
      · rw [h6, Function.update_self] at h4; rw [h6, hpp]; omega
      · rwa [Function.update_of_ne h6] at h4
  · intro t h3 h4
    have := h.keep t h3 h4
    rw [u1 t (by omega), this]
  · intro t t' h3 h4 h5 h6
    by_cases h7 : t = p <;> by_cases h8 : t' = p
    · omega
    · rw [h7, u3, u2 t' h8] at h6
      exact absurd h6.symm (hno t' h4)
    · rw [h8, u3, u2 t h7] at h6
      exact absurd h6 (hno t h3)
    · rw [u2 t h7] at h5 h6
      rw [u2 t' h8] at h6
      exact h.inj t t' h3 h4 h5 h6
  · intro k hk j2 h3 h4
    rw [u2 k (by omega)] at h3
    rcases Nat.lt_or_ge k i with h5 | h5
    · obtain ⟨t, h6, h7⟩ := h.done k h5 j2 h3 h4
      exact ⟨t, h6, by rw [u1 t (by omega), h7]⟩
    · obtain rfl : k = i := by omega
      obtain rfl : j2 = j := by omega
      exact ⟨p, hpn, u3⟩
  · intro t t' j1 j2 htt ht' h3 h4 h5 h6 h7
    by_cases h8 : t' = p
    · rw [h8, u3] at h4
      obtain rfl : j = j2 := by omega
      rw [u2 t (by omega)] at h3
      rcases h.cell t (by omega) with h9 | ⟨_, h9⟩ | ⟨j3, h9, h10, h11, h12, h13, k, hk, h14⟩ | ⟨j3, h9, h10, h11, _⟩
      · omega
      · have : j1 = n := by omega
        rw [this, ht.last] at h5; exact absurd h5 (by decide)
      · obtain rfl : j3 = j1 := by omega
        exact key_le_of_eq h10 hjn (code_eq_of h10 hjn h7 (by rw [h5, h6])) (h.le hlt hp hk hi h14 e)
      · obtain rfl : j3 = j1 := by omega
        exact absurd h11 (not_lms h5)
    · rw [u2 t' h8] at h4
      by_cases h9 : t = p
      · exfalso
        rw [h9, u3] at h3
        obtain rfl : j = j1 := by omega
        rcases h.cell t' ht' with h10 | ⟨h10, _⟩ | ⟨j3, h10, h11, h12, h13, h14, _⟩ | ⟨j3, h10, h11, h12, _⟩
        · omega
        · omega
        · obtain rfl : j3 = j2 := by omega
          rw [← h7, hpp] at h14
          omega
        · obtain rfl : j3 = j2 := by omega
          exact absurd h12 (not_lms h6)
      · rw [u2 t h9] at h3
        exact h.sorted t t' j1 j2 htt ht' h3 h4 h5 h6 h7

theorem LInv.skip {i : Nat} (h : LInv c n alpha ty ρ A0 i A f) (hs : ∀ j : Nat, A i = (j + 1 : Nat) → ty j = true) : LInv c n alpha ty ρ A0 (i + 1) A f := by
  refine ⟨h.rng, fun t ht => ?_, h.full, h.keep, h.inj, fun k hk j h1 h2 => ?_, h.sorted⟩
  · rcases h.cell t ht with h4 | h4 | ⟨j2, h4, h5, h6, h7, h8, k, h9, h10⟩ | h4
    · exact Or.inl h4
    · exact Or.inr (Or.inl h4)
    · exact Or.inr (Or.inr (Or.inl ⟨j2, h4, h5, h6, h7, h8, k, by omega, h10⟩))
    · exact Or.inr (Or.inr (Or.inr h4))
  · rcases Nat.lt_or_ge k i with h5 | h5
    · exact h.done k h5 j h1 h2
    · obtain rfl : k = i := by omega
      rw [hs j h1] at h2
      exact absurd h2 (by decide)

/-- All L suffixes are placed. -/
theorem LInv.complete (ht : Types c n ty) (hlt : ∀ i, i < n → c i < alpha) (hp : Place c n ty ρ A0) (h : LInv c n alpha ty ρ A0 n A f) :
    ∀ j, j < n → ty j = false → ∃ t, t ≤ n ∧ A t = j := by
  have key : ∀ d j, j + d + 1 = n → ty j = false → ∃ t, t ≤ n ∧ A t = j := by
    intro d
    induction d with
    | zero =>
      intro j hj h1
      have h2 := h.keep 0 (by omega) (by rw [hp.zero]; omega)
      exact h.done 0 ht.pos j (by rw [h2, hp.zero]; omega) h1
    | succ d ih =>
      intro j hj h1
      obtain ⟨k, hk, e⟩ : ∃ k, k ≤ n ∧ A k = (j + 1 : Nat) := by
        cases h2 : ty (j + 1) with
        | false => exact ih (j + 1) (by omega) h2
        | true =>
          obtain ⟨t, h3, h4, h5⟩ := hp.all (j + 1) (by omega) ⟨by omega, by omega, h2, by simpa using h1⟩
          exact ⟨t, h4, by rw [h.keep t h4 (by omega), h5]⟩
      rcases Nat.lt_or_ge k n with h3 | h3
      · exact h.done k h3 j e h1
      · by_contra h4
        obtain ⟨h5, h6, h7⟩ := h.room ht hlt hk e h1 (fun t h5 h6 => h4 ⟨t, h5, h6⟩)
        have m2 := mid_le_start (c := c) (n := n) (ty := ty) (c j)
        have m5 := start_le (c := c) (n := n) (c j + 1)
        omega
  intro j hj
  exact key (n - j - 1) j (by omega)

/-- The L suffixes are sorted. -/
structure LSorted (c : Nat → Nat) (n alpha : Nat) (ty : Nat → Bool) (ρ : Nat → Nat) (A : Nat → Int) : Prop where
  zero : A 0 = n
  cell : ∀ a, a < alpha → ∀ t, start c n a ≤ t → t < mid c n ty a → ∃ j : Nat, A t = j ∧ j < n ∧ c j = a ∧ ty j = false
  all : ∀ j, j < n → ty j = false → ∃ t, start c n (c j) ≤ t ∧ t < mid c n ty (c j) ∧ A t = j
  inj : ∀ t t', t ≤ n → t' ≤ n → 0 ≤ A t → A t = A t' → t = t'
  sorted : ∀ t t' (j j' : Nat), t < t' → t' ≤ n → A t = j → A t' = j' → ty j = false → ty j' = false → c j = c j' →
    key c n ty ρ j ≤ key c n ty ρ j'

theorem LInv.final (ht : Types c n ty) (hlt : ∀ i, i < n → c i < alpha) (hp : Place c n ty ρ A0) (h : LInv c n alpha ty ρ A0 n A f) :
    LSorted c n alpha ty ρ A := by
  have hall : ∀ j, j < n → ty j = false → ∃ t, start c n (c j) ≤ t ∧ t < f (c j) ∧ A t = j := by
    intro j hj h1
    obtain ⟨t, h2, h3⟩ := h.complete ht hlt hp j hj h1
    rcases h.cell t h2 with h4 | ⟨_, h4⟩ | ⟨j2, h4, h5, h6, h7, h8, _⟩ | ⟨j2, h4, h5, h6, _⟩
    · omega
    · omega
    · obtain rfl : j2 = j := by omega
      exact ⟨t, h7, h8, h3⟩
    · obtain rfl : j2 = j := by omega
      exact absurd h6 (not_lms h1)
  have hcell : ∀ a, a < alpha → ∀ t, start c n a ≤ t → t < f a → ∃ j : Nat, A t = j ∧ j < n ∧ c j = a ∧ ty j = false := by
    intro a ha k hk1 hk2
    have h0 := h.full a ha k hk1 hk2
    have r1 := h.rng a ha
    have m2 := mid_le_start (c := c) (n := n) (ty := ty) a
    have m5 := start_le (c := c) (n := n) (a + 1)
    rcases h.cell k (by omega) with h1 | ⟨h1, _⟩ | ⟨j2, h1, h2, h3, h4, h5, _⟩ | ⟨j2, h1, h2, h3, h4, h5, _⟩
    · omega
    · have := start_pos (c := c) (n := n) a; omega
    · refine ⟨j2, h1, h2, ?_, h3⟩
      have r2 := h.rng (c j2) (hlt _ h2)
      have m4 := mid_le_start (c := c) (n := n) (ty := ty) (c j2)
      exact bucket_unique h4 (by omega) hk1 (by omega)
    · exfalso
      have m6 := start_le_mid (c := c) (n := n) (ty := ty) (c j2)
      have := bucket_unique (show start c n (c j2) ≤ k by omega) h5 hk1 (by omega)
      rw [this] at h4
      omega
  have hf : ∀ a, a < alpha → f a = mid c n ty a := by
    intro a ha
    have r1 := h.rng a ha
    have m2 := mid_le_start (c := c) (n := n) (ty := ty) a
    have m5 := start_le (c := c) (n := n) (a + 1)
    obtain ⟨S, h1, h2, h3⟩ := cells_card (hcell a ha) (fun k k' hk1 hk2 hk3 hk4 e => h.inj k k' (by omega) (by omega) (h.full _ ha k hk1 hk2) e)
    have h4 : (Finset.range n).filter (fun i => c i = a ∧ ty i = false) ⊆ S := by
      intro j hj
      simp only [Finset.mem_filter, Finset.mem_range] at hj
      obtain ⟨t, h5, h6, h7⟩ := hall j hj.1 hj.2.2
      rw [hj.2.1] at h5 h6
      exact (h3 j).mpr ⟨t, h5, h6, h7⟩
    have h5 := Finset.card_le_card h4
    rw [h2] at h5
    have : mid c n ty a = start c n a + cntT c n ty false a := rfl
    rw [cntT] at this
    omega
  refine ⟨by rw [h.keep 0 (by omega) (by rw [hp.zero]; omega), hp.zero], ?_, ?_, h.inj, h.sorted⟩
  · intro a ha t h1 h2
    exact hcell a ha t h1 (by rw [hf a ha]; exact h2)
  · intro j hj h1
    obtain ⟨t, h2, h3, h4⟩ := hall j hj h1
    exact ⟨t, h2, by rw [← hf _ (hlt j hj)]; exact h3, h4⟩

theorem LInv.init (hp : Place c n ty ρ A0) : LInv c n alpha ty ρ A0 0 A0 (start c n) := by
  have hcell : ∀ t, t ≤ n → A0 t = -1 ∨ (t = 0 ∧ A0 t = n) ∨
      (∃ j : Nat, A0 t = j ∧ j < n ∧ Lms n ty j ∧ mid c n ty (c j) ≤ t ∧ t < start c n (c j + 1) ∧ A0 t = j) := by
    intro t ht'
    rcases Nat.eq_zero_or_pos t with h1 | h1
    · exact Or.inr (Or.inl ⟨h1, by rw [h1, hp.zero]⟩)
    · rcases hp.cell t h1 ht' with h2 | ⟨j, h2, h3, h4, h5, h6⟩
      · exact Or.inl h2
      · exact Or.inr (Or.inr ⟨j, h2, h3, h4, h5, h6, h2⟩)
  refine ⟨fun a _ => ⟨le_refl _, start_le_mid a⟩, fun t h => ?_, fun a _ t h1 h2 => by omega, fun _ _ _ => rfl, fun t t' h1 h2 h3 h4 => ?_, fun k hk => by omega, ?_⟩
  · rcases hcell t h with h1 | h1 | h1
    · exact Or.inl h1
    · exact Or.inr (Or.inl h1)
    · exact Or.inr (Or.inr (Or.inr h1))
  · rcases Nat.eq_zero_or_pos t with h5 | h5 <;> rcases Nat.eq_zero_or_pos t' with h6 | h6
    · omega
    · rw [h5, hp.zero] at h4
      rcases hp.cell t' h6 h2 with h7 | ⟨j, h7, h8, _⟩ <;> omega
    · rw [h6, hp.zero] at h4
      rcases hp.cell t h5 h1 with h7 | ⟨j, h7, h8, _⟩ <;> omega
    · exact hp.inj t t' h5 h1 h6 h2 h3 h4
  · intro t t' j j' h1 h2 h3 h4 h5 h6 h7
    exfalso
    rcases hcell t' h2 with h8 | h8 | ⟨j2, h8, h9, h10, _⟩
    · omega
    · omega
    · obtain rfl : j2 = j' := by omega
      exact not_lms h6 h10

end

end Altruct.SuffixArray
