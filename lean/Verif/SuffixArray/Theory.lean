/-
The order of the suffixes and the keys by which the induced sort orders them.
-/
import Verif.SuffixArray.Model
import Verif.SuffixArray.Spec
import Mathlib.Data.List.Lex
import Mathlib.Data.Finset.Card
import Mathlib.Algebra.Order.Group.Nat

namespace Altruct.SuffixArray

/-- The loop keeps an invariant. -/
theorem forBack_spec {σ : Type} {body : Nat → σ → Option σ} (P : Nat → σ → Prop) : ∀ (n : Nat) (s : σ), P n s →
    (∀ k s, k < n → P (k + 1) s → ∃ s', body k s = some s' ∧ P k s') → ∃ s', forBack body n s = some s' ∧ P 0 s' := by
  intro n
  induction n with
  | zero => intro s h _; exact ⟨s, rfl, h⟩
  | succ n ih =>
    intro s h step
    obtain ⟨s1, e1, h1⟩ := step n s (by omega) h
    obtain ⟨s2, e2, h2⟩ := ih s1 h1 (fun k s hk => step k s (by omega))
    exact ⟨s2, by rw [forBack, e1]; exact e2, h2⟩

/-- The suffix of `c 0, …, c (n - 1)` at `i`. -/
def Suf (c : Nat → Nat) (n : Nat) (i : Nat) : List Nat := (List.range' i (n - i)).map c

theorem Suf_cons {c : Nat → Nat} {n i : Nat} (h : i < n) : Suf c n i = c i :: Suf c n (i + 1) := by
  rw [Suf, Suf, show n - i = (n - (i + 1)) + 1 by omega, List.range'_succ, List.map_cons]

theorem Suf_end {c : Nat → Nat} {n i : Nat} (h : n ≤ i) : Suf c n i = [] := by
  rw [Suf, show n - i = 0 by omega]; rfl

theorem Suf_length (c : Nat → Nat) (n i : Nat) : (Suf c n i).length = n - i := by simp [Suf]

theorem Suf_inj {c : Nat → Nat} {n i j : Nat} (hi : i ≤ n) (hj : j ≤ n) (h : Suf c n i = Suf c n j) : i = j := by
  have := congrArg List.length h
  rw [Suf_length, Suf_length] at this
  omega

/-- `ty` holds the types of the suffixes. -/
structure Types (c : Nat → Nat) (n : Nat) (ty : Nat → Bool) : Prop where
  pos : 0 < n
  last : ty n = true
  prev : ty (n - 1) = false
  step : ∀ i, i + 1 < n → ty i = (decide (c i < c (i + 1)) || (decide (c i = c (i + 1)) && ty (i + 1)))

/-- A leftmost S suffix. -/
def Lms (n : Nat) (ty : Nat → Bool) (i : Nat) : Prop := 0 < i ∧ i ≤ n ∧ ty i = true ∧ ty (i - 1) = false

instance (n : Nat) (ty : Nat → Bool) (i : Nat) : Decidable (Lms n ty i) := by unfold Lms; infer_instance

/-- The letter and the type as one number. -/
def code (c : Nat → Nat) (n : Nat) (ty : Nat → Bool) (i : Nat) : Nat := if i < n then 2 * c i + (if ty i then 1 else 0) + 1 else 0

section
variable {c : Nat → Nat} {n : Nat} {ty : Nat → Bool}

theorem Types.lms_n (h : Types c n ty) : Lms n ty n := ⟨h.pos, le_refl _, h.last, h.prev⟩

theorem Types.le (h : Types c n ty) {i : Nat} (hi : i < n) (ht : ty i = true) : i + 1 < n ∧ c i ≤ c (i + 1) ∧ (c i = c (i + 1) → ty (i + 1) = true) := by
  have h1 : i + 1 < n := by
    by_contra h2
    have := h.prev
    rw [show n - 1 = i by omega, ht] at this
    exact absurd this (by decide)
  have h2 := h.step i h1
  rw [ht] at h2
  simp only [Bool.true_eq, Bool.or_eq_true, decide_eq_true_eq, Bool.and_eq_true] at h2
  exact ⟨h1, by omega, fun e => by rcases h2 with h2 | h2; omega; exact h2.2⟩

theorem Types.ge (h : Types c n ty) {i : Nat} (hi : i + 1 < n) (ht : ty i = false) : c (i + 1) ≤ c i ∧ (c i = c (i + 1) → ty (i + 1) = false) := by
  have h2 := h.step i hi
  rw [ht] at h2
  simp only [Bool.false_eq, Bool.or_eq_false_iff, decide_eq_false_iff_not, Bool.and_eq_false_iff] at h2
  exact ⟨by omega, fun e => by rcases h2.2 with h3 | h3; exact absurd e h3; exact h3⟩

theorem Types.iff (h : Types c n ty) : ∀ {i : Nat}, i < n → (ty i = true ↔ Suf c n i < Suf c n (i + 1)) := by
  have key : ∀ k i, i + k + 1 = n → (ty i = true ↔ Suf c n i < Suf c n (i + 1)) := by
    intro k
    induction k with
    | zero =>
      intro i hi
      rw [Suf_end (show n ≤ i + 1 by omega)]
      have := h.prev
      rw [show n - 1 = i by omega] at this
      rw [this]
      simp
    | succ k ih =>
      intro i hi
      rw [Suf_cons (show i < n by omega), Suf_cons (show i + 1 < n by omega), List.cons_lt_cons_iff, ← Suf_cons (show i + 1 < n by omega),
        ← ih (i + 1) (by omega), h.step i (by omega)]
      simp
  intro i hi
  exact key (n - i - 1) i (by omega)

theorem lt_of_types (a : Nat) : ∀ X Y : List Nat, X < a :: X → a :: Y < Y → X < Y := by
  intro X
  induction X with
  | nil =>
    intro Y _ hY
    cases Y with
    | nil => simp at hY
    | cons y Y => exact List.nil_lt_cons _ _
  | cons x X ih =>
    intro Y hX hY
    cases Y with
    | nil => simp at hY
    | cons y Y =>
      rw [List.cons_lt_cons_iff] at hX hY ⊢
      rcases hX with hX | ⟨e1, hX⟩
      · rcases hY with hY | ⟨e2, hY⟩
        · left; omega
        · left; omega
      · subst e1
        rcases hY with hY | ⟨e2, hY⟩
        · left; exact hY
        · subst e2
          right; exact ⟨rfl, ih Y hX hY⟩

theorem code_pos {i : Nat} (h : i < n) : 0 < code c n ty i := by rw [code, if_pos h]; omega

theorem code_end : code c n ty n = 0 := by rw [code, if_neg (by omega)]

theorem code_eq {i j : Nat} (hi : i < n) (h : code c n ty i = code c n ty j) : j < n ∧ c i = c j ∧ ty i = ty j := by
  have hj : j < n := by
    by_contra h1
    rw [code, code, if_pos hi, if_neg h1] at h
    omega
  rw [code, code, if_pos hi, if_pos hj] at h
  refine ⟨hj, ?_, ?_⟩ <;> cases h1 : ty i <;> cases h2 : ty j <;> simp [h1, h2] at h ⊢ <;> omega

theorem Types.lt_of_code (h : Types c n ty) {i j : Nat} (hi : i ≤ n) (hj : j ≤ n) (hc : code c n ty i < code c n ty j) :
    Suf c n i < Suf c n j := by
  have hj' : j < n := by
    by_contra h1
    rw [show j = n by omega, code_end] at hc
    omega
  rcases Nat.lt_or_ge i n with hi' | hi'
  · rw [code, code, if_pos hi', if_pos hj'] at hc
    rw [Suf_cons hi', Suf_cons hj', List.cons_lt_cons_iff]
    rcases Nat.lt_or_ge (c i) (c j) with h1 | h1
    · exact Or.inl h1
    · right
      have hti : ty i = false := by
        cases h2 : ty i with
        | false => rfl
        | true => rw [h2] at hc; split_ifs at hc <;> simp at * <;> omega
      have htj : ty j = true := by
        cases h2 : ty j with
        | true => rfl
        | false => rw [h2] at hc; split_ifs at hc <;> simp at * <;> omega
      have e : c i = c j := by rw [hti, htj] at hc; simp at hc; omega
      refine ⟨e, ?_⟩
      have h3 := (h.iff hj').mp htj
      have h4 : ¬ Suf c n i < Suf c n (i + 1) := fun h5 => by
        have := (h.iff hi').mpr h5
        rw [hti] at this
        exact absurd this (by decide)
      have h5 : Suf c n (i + 1) < Suf c n i := by
        rcases lt_trichotomy (Suf c n i) (Suf c n (i + 1)) with h6 | h6 | h6
        · exact absurd h6 h4
        · exact absurd (Suf_inj (by omega) (by omega) h6) (by omega)
        · exact h6
      rw [Suf_cons hi'] at h5
      rw [Suf_cons hj', ← e] at h3
      exact lt_of_types (c i) _ _ h5 h3
  · rw [Suf_end hi', Suf_cons hj']
    exact List.nil_lt_cons _ _

theorem Types.code_le (h : Types c n ty) {i j : Nat} (hi : i ≤ n) (hj : j ≤ n) (hs : Suf c n i < Suf c n j) :
    code c n ty i ≤ code c n ty j := by
  by_contra h1
  exact absurd (h.lt_of_code hj hi (by omega)) (lt_asymm hs)

/-- The codes from a position to the next leftmost S suffix, ended by `ρ` of that suffix. -/
def keyF (c : Nat → Nat) (n : Nat) (ty : Nat → Bool) (ρ : Nat → Nat) : Nat → Nat → List Nat
  | 0, i => [code c n ty i]
  | k + 1, i => code c n ty i :: (if Lms n ty (i + 1) then [code c n ty (i + 1), ρ (i + 1)] else keyF c n ty ρ k (i + 1))

/-- The key of a position. -/
def key (c : Nat → Nat) (n : Nat) (ty : Nat → Bool) (ρ : Nat → Nat) (i : Nat) : List Nat := keyF c n ty ρ (n - i) i

/-- The key of a position while L suffixes are sorted. -/
def key1 (c : Nat → Nat) (n : Nat) (ty : Nat → Bool) (ρ : Nat → Nat) (i : Nat) : List Nat :=
  if Lms n ty i then [code c n ty i, ρ i] else key c n ty ρ i

variable {ρ : Nat → Nat}

theorem key_cons {i : Nat} (h : i < n) : key c n ty ρ i = code c n ty i :: key1 c n ty ρ (i + 1) := by
  rw [key, show n - i = (n - (i + 1)) + 1 by omega, keyF, key1]
  rfl

theorem key_head (i : Nat) : ∃ l, key c n ty ρ i = code c n ty i :: l := by
  rw [key]
  cases n - i with
  | zero => exact ⟨[], rfl⟩
  | succ k => exact ⟨_, rfl⟩

theorem key1_head (i : Nat) : ∃ l, key1 c n ty ρ i = code c n ty i :: l := by
  rw [key1]
  split_ifs
  · exact ⟨_, rfl⟩
  · exact key_head i

theorem key_of_not {i : Nat} (h : ¬ Lms n ty i) : key1 c n ty ρ i = key c n ty ρ i := by rw [key1, if_neg h]

theorem cons_le_cons' {a b : Nat} {l m : List Nat} : a :: l ≤ b :: m ↔ a < b ∨ (a = b ∧ l ≤ m) := by
  rw [← not_lt, List.cons_lt_cons_iff, ← not_lt]
  constructor
  · intro h
    rcases lt_trichotomy a b with h1 | h1 | h1
    · exact Or.inl h1
    · exact Or.inr ⟨h1, fun h2 => h (Or.inr ⟨h1.symm, h2⟩)⟩
    · exact absurd (Or.inl h1) h
  · rintro (h | ⟨h1, h2⟩) (h3 | ⟨h3, h4⟩)
    · omega
    · omega
    · omega
    · exact h2 h4

theorem key_le_of_code {i j : Nat} (h : code c n ty i < code c n ty j) : key c n ty ρ i ≤ key c n ty ρ j := by
  obtain ⟨l, e1⟩ := key_head (c := c) (n := n) (ty := ty) (ρ := ρ) i
  obtain ⟨m, e2⟩ := key_head (c := c) (n := n) (ty := ty) (ρ := ρ) j
  rw [e1, e2, cons_le_cons']
  exact Or.inl h

theorem key1_le_of_code {i j : Nat} (h : code c n ty i < code c n ty j) : key1 c n ty ρ i ≤ key1 c n ty ρ j := by
  obtain ⟨l, e1⟩ := key1_head (c := c) (n := n) (ty := ty) (ρ := ρ) i
  obtain ⟨m, e2⟩ := key1_head (c := c) (n := n) (ty := ty) (ρ := ρ) j
  rw [e1, e2, cons_le_cons']
  exact Or.inl h

theorem key_le_of_eq {i j : Nat} (hi : i < n) (hj : j < n) (h : code c n ty i = code c n ty j) (h' : key1 c n ty ρ (i + 1) ≤ key1 c n ty ρ (j + 1)) :
    key c n ty ρ i ≤ key c n ty ρ j := by
  rw [key_cons hi, key_cons hj, cons_le_cons']
  exact Or.inr ⟨h, h'⟩

/-- The order of the keys is that of the suffixes, if `ρ` respects it. -/
theorem Types.lt_of_key (h : Types c n ty)
    (hρ : ∀ i j, Lms n ty i → Lms n ty j → code c n ty i = code c n ty j → ρ i < ρ j → Suf c n i < Suf c n j) :
    ∀ {i j : Nat}, i ≤ n → j ≤ n → key c n ty ρ i < key c n ty ρ j → Suf c n i < Suf c n j := by
  have main : ∀ k i j, i + k = n → j ≤ n → key c n ty ρ i < key c n ty ρ j → Suf c n i < Suf c n j := by
    intro k
    induction k with
    | zero =>
      intro i j hi hj hk
      rw [show i = n by omega] at hk ⊢
      rw [Suf_end (le_refl n)]
      rcases Nat.lt_or_ge j n with h1 | h1
      · rw [Suf_cons h1]; exact List.nil_lt_cons _ _
      · rw [show j = n by omega] at hk; exact absurd hk (lt_irrefl _)
    | succ k ih =>
      intro i j hi hj hk
      rcases Nat.lt_or_ge j n with h1 | h1
      · rw [key_cons (show i < n by omega), key_cons h1, List.cons_lt_cons_iff] at hk
        rcases hk with hk | ⟨e, hk⟩
        · exact h.lt_of_code (by omega) hj hk
        obtain ⟨_, ec, et⟩ := code_eq (show i < n by omega) e
        rw [Suf_cons (show i < n by omega), Suf_cons h1, List.cons_lt_cons_iff]
        refine Or.inr ⟨ec, ?_⟩
        by_cases hl : Lms n ty (i + 1) ↔ Lms n ty (j + 1)
        · by_cases h2 : Lms n ty (i + 1)
          · have h3 := hl.mp h2
            rw [key1, key1, if_pos h2, if_pos h3, List.cons_lt_cons_iff] at hk
            rcases hk with hk | ⟨e', hk⟩
            · exact h.lt_of_code (by omega) (by omega) hk
            · refine hρ _ _ h2 h3 e' ?_
              rw [List.cons_lt_cons_iff] at hk
              rcases hk with hk | hk
              · exact hk
              · simp at hk
          · have h3 : ¬ Lms n ty (j + 1) := fun h4 => h2 (hl.mpr h4)
            rw [key_of_not h2, key_of_not h3] at hk
            exact ih (i + 1) (j + 1) (by omega) (by omega) hk
        · refine h.lt_of_code (by omega) (by omega) ?_
          obtain ⟨l, e1⟩ := key1_head (c := c) (n := n) (ty := ty) (ρ := ρ) (i + 1)
          obtain ⟨m, e2⟩ := key1_head (c := c) (n := n) (ty := ty) (ρ := ρ) (j + 1)
          rw [e1, e2, List.cons_lt_cons_iff] at hk
          rcases hk with hk | ⟨e', _⟩
          · exact hk
          · exfalso
            apply hl
            have h5 : ty (i + 1) = ty (j + 1) := by
              rcases Nat.lt_or_ge (i + 1) n with h6 | h6
              · exact (code_eq h6 e').2.2
              · rcases Nat.lt_or_ge (j + 1) n with h7 | h7
                · exact ((code_eq h7 e'.symm).2.2).symm
                · rw [show i + 1 = n by omega, show j + 1 = n by omega]
            rw [Lms, Lms, h5]
            simp only [Nat.add_sub_cancel, et]
            constructor
            · rintro ⟨_, _, h7, h8⟩; exact ⟨by omega, by omega, h7, h8⟩
            · rintro ⟨_, _, h7, h8⟩; exact ⟨by omega, by omega, h7, h8⟩
      · obtain ⟨l, e1⟩ := key_head (c := c) (n := n) (ty := ty) (ρ := ρ) i
        obtain ⟨m, e2⟩ := key_head (c := c) (n := n) (ty := ty) (ρ := ρ) j
        exfalso
        rw [key_cons (show i < n by omega), show j = n by omega, key, show n - n = 0 by omega, keyF, code_end, List.cons_lt_cons_iff] at hk
        have := code_pos (c := c) (ty := ty) (show i < n by omega)
        rcases hk with hk | ⟨e, _⟩ <;> omega
  intro i j hi hj
  exact main (n - i) i j (by omega) hj

end

end Altruct.SuffixArray
