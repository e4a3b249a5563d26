/-
The names of the substrings between leftmost S suffixes.
-/
import Verif.SuffixArray.Place
import Mathlib.Data.List.GetD
import Mathlib.Data.List.Perm.Basic
import Mathlib.Data.List.Nodup

namespace Altruct.SuffixArray

section
variable {c : Nat → Nat} {n alpha : Nat} {ty : Nat → Bool} {ρ : Nat → Nat} {str : List Nat} {types : List Bool}

theorem inj_surj {m : Nat} {p : Nat → Nat} (h : ∀ t, t < m → p t < m) (hi : ∀ t t', t < m → t' < m → p t = p t' → t = t') :
    ∀ x, x < m → ∃ t, t < m ∧ p t = x := by
  intro x hx
  have h1 : (Finset.range m).image p = Finset.range m := by
    refine Finset.eq_of_subset_of_card_le (fun y hy => ?_) ?_
    · obtain ⟨t, ht, e⟩ := Finset.mem_image.mp hy
      rw [Finset.mem_range] at ht ⊢
      exact e ▸ h t ht
    · rw [Finset.card_image_of_injOn]
      intro t ht t' ht' e
      simp only [Finset.coe_range, Set.mem_Iio] at ht ht'
      exact hi t t' ht ht' e
  have h2 : x ∈ (Finset.range m).image p := by rw [h1]; exact Finset.mem_range.mpr hx
  obtain ⟨t, ht, e⟩ := Finset.mem_image.mp h2
  exact ⟨t, Finset.mem_range.mp ht, e⟩

/-- The leftmost S suffixes, by position. -/
def lmsList (n : Nat) (ty : Nat → Bool) : List Nat := (List.range (n + 1)).filter fun i => decide (Lms n ty i)

theorem mem_lmsList {x : Nat} : x ∈ lmsList n ty ↔ Lms n ty x := by
  rw [lmsList, List.mem_filter, List.mem_range, decide_eq_true_iff]
  exact ⟨fun h => h.2, fun h => ⟨by have := h.2.1; omega, h⟩⟩

theorem lmsList_sorted : (lmsList n ty).Pairwise (· < ·) := List.Pairwise.filter _ List.pairwise_lt_range

theorem lmsList_nodup : (lmsList n ty).Nodup := lmsList_sorted.imp (fun h => by omega)

theorem lms_succ {x : Nat} (h : Lms n ty x) : ¬ Lms n ty (x + 1) := fun h1 => by
  have h2 := h1.2.2.2
  rw [Nat.add_sub_cancel, h.2.2.1] at h2
  exact absurd h2 (by decide)

theorem lmsList_length : (lmsList n ty).length ≤ (n + 1) / 2 := by
  rw [← List.toFinset_card_of_nodup lmsList_nodup]
  have h1 : ((lmsList n ty).toFinset.image (fun x => (x + 1) / 2)).card = (lmsList n ty).toFinset.card := by
    apply Finset.card_image_of_injOn
    intro x hx y hy e
    simp only [List.coe_toFinset, Set.mem_ofPred_eq, mem_lmsList] at hx hy
    simp only at e
    by_contra h2
    rcases Nat.lt_or_gt_of_ne h2 with h3 | h3
    · obtain rfl : y = x + 1 := by omega
      exact lms_succ hx hy
    · obtain rfl : x = y + 1 := by omega
      exact lms_succ hy hx
  rw [← h1]
  have h2 : (lmsList n ty).toFinset.image (fun x => (x + 1) / 2) ⊆ Finset.Ico 1 ((n + 1) / 2 + 1) := by
    intro y hy
    obtain ⟨x, hx, e⟩ := Finset.mem_image.mp hy
    rw [List.mem_toFinset, mem_lmsList] at hx
    rw [Finset.mem_Ico]
    have := hx.1
    have := hx.2.1
    omega
  have h3 := Finset.card_le_card h2
  rw [Nat.card_Ico] at h3
  omega

/-- The sorted leftmost S suffixes. -/
def sortedLms (n : Nat) (ty : Nat → Bool) (p : Nat → Nat) (i : Nat) : List Nat := ((List.range i).map p).filter fun x => decide (Lms n ty x)

theorem sortedLms_succ (p : Nat → Nat) (i : Nat) : sortedLms n ty p (i + 1) = sortedLms n ty p i ++ (if Lms n ty (p i) then [p i] else []) := by
  rw [sortedLms, List.range_succ, List.map_append, List.filter_append, sortedLms]
  congr 1
  by_cases h : Lms n ty (p i) <;> simp [h]

theorem compact_spec (htt : Rep types (n + 1) ty) {p : Nat → Nat} (hp : ∀ t, t ≤ n → p t ≤ n) {sa : List Int} (hsa : Rep sa (n + 1) (fun t => ((p t : Nat) : Int))) :
    ∃ sa', compact n types sa = some ((sortedLms n ty p (n + 1)).length, sa') ∧ sa'.length = n + 1 ∧
      ∀ (t x : Nat), (sortedLms n ty p (n + 1))[t]? = some x → sa'[t]? = some (x : Int) := by
  rw [compact]
  obtain ⟨⟨m, sa'⟩, e, h1, h2, h3, _⟩ := forUp_spec (body := fun i (s : Nat × List Int) => (rd s.2 i).bind fun j =>
    if j > 0 then (isLms types j.toNat).bind fun b =>
      if b then (wr s.2 s.1 j).map fun sa => (s.1 + 1, sa) else some s
    else some s) (fun i s => s.1 = (sortedLms n ty p i).length ∧ s.2.length = n + 1 ∧
      (∀ (t x : Nat), (sortedLms n ty p i)[t]? = some x → s.2[t]? = some (x : Int)) ∧ s.1 ≤ i ∧ ∀ t, i ≤ t → t ≤ n → s.2[t]? = some (p t : Int))
    (Nat.zero_le (n + 1)) (s := (0, sa)) ⟨rfl, hsa.len, fun t x h => by simp [sortedLms] at h, le_refl _, fun t _ h => hsa.get t (by omega)⟩ (by
      rintro i ⟨m, sa⟩ _ hi ⟨h1, h2, h3, h4, h5⟩
      simp only at h1 h2 h3 h4 h5 ⊢
      have e1 : rd sa i = some (p i : Int) := h5 i (le_refl _) (by omega)
      rw [e1, Option.bind_some]
      by_cases h6 : Lms n ty (p i)
      · have h7 := h6.1
        rw [if_pos (by omega), Int.toNat_natCast, isLms_spec htt h7 (hp i (by omega)), Option.bind_some, if_pos (by simpa using h6), wr,
          if_pos (show m < sa.length by omega)]
        refine ⟨_, rfl, ?_, by simpa using h2, fun t x h8 => ?_, by simpa using h4, fun t h8 h9 => ?_⟩
        · rw [sortedLms_succ, if_pos h6, List.length_append, List.length_singleton, ← h1]
        · rw [sortedLms_succ, if_pos h6] at h8
          by_cases h9 : t = m
          · rw [h9, h1, List.getElem?_append_right (le_refl _), Nat.sub_self] at h8
            simp only [List.getElem?_cons_zero, Option.some.injEq] at h8
            subst h8
            rw [h9, List.getElem?_set_self (by omega)]
          · have h10 := (List.getElem?_eq_some_iff.mp h8).1
            rw [List.length_append, List.length_singleton, ← h1] at h10
            rw [List.getElem?_append_left (by omega)] at h8
            rw [List.getElem?_set_ne (by omega)]
            exact h3 t x h8
        · rw [List.getElem?_set_ne (by omega)]
          exact h5 t (by omega) h9
      · have h7 : sortedLms n ty p (i + 1) = sortedLms n ty p i := by rw [sortedLms_succ, if_neg h6, List.append_nil]
        refine ⟨(m, sa), ?_, by rw [h7]; exact h1, h2, by rw [h7]; exact h3, by simp only; omega, fun t h8 h9 => h5 t (by omega) h9⟩
        by_cases h8 : (p i : Int) > 0
        · rw [if_pos h8, Int.toNat_natCast, isLms_spec htt (by omega) (hp i (by omega)), Option.bind_some, if_neg (by simpa using h6)]
        · rw [if_neg h8])
  simp only at h1
  exact ⟨sa', by rw [e, h1], h2, h3⟩

/-- A letter and its type. -/
def cd (c : Nat → Nat) (ty : Nat → Bool) (i : Nat) : Nat := 2 * c i + (if ty i then 1 else 0)

theorem cd_eq {i j : Nat} : cd c ty i = cd c ty j ↔ c i = c j ∧ ty i = ty j := by
  rw [cd, cd]
  cases ty i <;> cases ty j <;> simp <;> omega

/-- The letters and types up to the next leftmost S suffix. -/
def keyJF (c : Nat → Nat) (n : Nat) (ty : Nat → Bool) : Nat → Nat → List Nat
  | 0, i => [cd c ty i]
  | k + 1, i => cd c ty i :: (if Lms n ty (i + 1) then [cd c ty (i + 1)] else keyJF c n ty k (i + 1))

/-- What the comparison of substrings compares. -/
def keyJ (c : Nat → Nat) (n : Nat) (ty : Nat → Bool) (i : Nat) : List Nat := keyJF c n ty (n - i) i

/-- The rest of it. -/
def tailJ (c : Nat → Nat) (n : Nat) (ty : Nat → Bool) (i : Nat) : List Nat := if Lms n ty i then [cd c ty i] else keyJ c n ty i

theorem keyJ_cons {i : Nat} (h : i < n) : keyJ c n ty i = cd c ty i :: tailJ c n ty (i + 1) := by
  rw [keyJ, show n - i = (n - (i + 1)) + 1 by omega, keyJF, tailJ]
  rfl

theorem tailJ_ne (i : Nat) : tailJ c n ty i ≠ [] := by
  rw [tailJ]
  split_ifs
  · simp
  · rw [keyJ]
    cases n - i <;> simp [keyJF]

theorem diffLoop_tail (ht : Types c n ty) (hs : ∀ i, i ≤ n → str[i]? = some (c i)) (htt : Rep types (n + 1) ty) (pos prev : Nat) :
    ∀ fuel d, 1 ≤ d → pos + d ≤ n → prev + d ≤ n → n < fuel + d → ty (pos + d - 1) = ty (prev + d - 1) →
      diffLoop str types pos prev fuel d = some (decide (tailJ c n ty (pos + d) ≠ tailJ c n ty (prev + d))) := by
  intro fuel
  induction fuel with
  | zero => intro d _ h2 _ h4; omega
  | succ fuel ih =>
    intro d h1 h2 h3 h4 h5
    have e1 : rd str (pos + d) = some (c (pos + d)) := hs _ h2
    have e2 : rd str (prev + d) = some (c (prev + d)) := hs _ h3
    rw [diffLoop, e1, Option.bind_some, e2, Option.bind_some]
    have hd : ∀ x, x ≤ n → ∃ l, tailJ c n ty x = cd c ty x :: l := by
      intro x hx
      rw [tailJ]
      split_ifs with h6
      · exact ⟨_, rfl⟩
      · rw [keyJ]; cases n - x <;> exact ⟨_, rfl⟩
    have hne : cd c ty (pos + d) ≠ cd c ty (prev + d) → tailJ c n ty (pos + d) ≠ tailJ c n ty (prev + d) := by
      intro h6 h7
      obtain ⟨l, e3⟩ := hd _ h2
      obtain ⟨l', e4⟩ := hd _ h3
      rw [e3, e4, List.cons.injEq] at h7
      exact h6 h7.1
    by_cases h6 : c (pos + d) = c (prev + d)
    · rw [if_neg (by simpa using h6), htt.rd (by omega), Option.bind_some, htt.rd (by omega), Option.bind_some]
      by_cases h7 : ty (pos + d) = ty (prev + d)
      · rw [if_neg (by simpa using h7), if_neg (by omega), isLms_spec htt (by omega) h2, Option.bind_some]
        have h8 : Lms n ty (pos + d) ↔ Lms n ty (prev + d) := by
          rw [Lms, Lms, h7, h5]
          constructor
          · rintro ⟨_, _, a, b⟩; exact ⟨by omega, h3, a, b⟩
          · rintro ⟨_, _, a, b⟩; exact ⟨by omega, h2, a, b⟩
        have h9 : cd c ty (pos + d) = cd c ty (prev + d) := cd_eq.mpr ⟨h6, h7⟩
        by_cases h10 : Lms n ty (pos + d)
        · rw [if_pos (by simpa using h10)]
          rw [tailJ, tailJ, if_pos h10, if_pos (h8.mp h10), h9]
          simp
        · have h11 : ¬ Lms n ty (prev + d) := fun h => h10 (h8.mpr h)
          have h12 : pos + d < n := by
            rcases Nat.lt_or_ge (pos + d) n with h | h
            · exact h
            · exact absurd ((show pos + d = n by omega) ▸ ht.lms_n) h10
          have h13 : prev + d < n := by
            rcases Nat.lt_or_ge (prev + d) n with h | h
            · exact h
            · exact absurd ((show prev + d = n by omega) ▸ ht.lms_n) h11
          rw [if_neg (by simpa using h10), isLms_spec htt (by omega) h3, Option.bind_some, if_neg (by simpa using h11),
            ih (d + 1) (by omega) (by omega) (by omega) (by omega) (by simpa [← Nat.add_assoc] using h7)]
          rw [tailJ.eq_1 c n ty (pos + d), tailJ.eq_1 c n ty (prev + d), if_neg h10, if_neg h11, keyJ_cons h12, keyJ_cons h13, h9]
          simp [Nat.add_assoc]
      · rw [if_pos (by simpa using h7)]
        have := hne (fun h => h7 (cd_eq.mp h).2)
        simp [this]
    · rw [if_pos (by simpa using h6)]
      have := hne (fun h => h6 (cd_eq.mp h).1)
      simp [this]

theorem diffLoop_spec (ht : Types c n ty) (hs : ∀ i, i ≤ n → str[i]? = some (c i)) (htt : Rep types (n + 1) ty) {pos prev : Nat} (h1 : pos < n) (h2 : prev < n) :
    diffLoop str types pos prev (n + 2) 0 = some (decide (keyJ c n ty pos ≠ keyJ c n ty prev)) := by
  have e1 : rd str (pos + 0) = some (c pos) := hs _ (by omega)
  have e2 : rd str (prev + 0) = some (c prev) := hs _ (by omega)
  rw [diffLoop, e1, Option.bind_some, e2, Option.bind_some, keyJ_cons h1, keyJ_cons h2]
  by_cases h6 : c pos = c prev
  · rw [if_neg (by simpa using h6), add_zero, add_zero, htt.rd (by omega), Option.bind_some, htt.rd (by omega), Option.bind_some]
    by_cases h7 : ty pos = ty prev
    · rw [if_neg (by simpa using h7), if_pos rfl, diffLoop_tail ht hs htt pos prev _ _ (by omega) (by omega) (by omega) (by omega) (by simpa using h7)]
      simp [cd_eq.mpr ⟨h6, h7⟩]
    · rw [if_pos (by simpa using h7)]
      have : ¬ cd c ty pos = cd c ty prev := fun h => h7 (cd_eq.mp h).2
      simp [this]
  · rw [if_pos (by simpa using h6)]
    have : ¬ cd c ty pos = cd c ty prev := fun h => h6 (cd_eq.mp h).1
    simp [this]

/-- Equal substrings: the order is that of what follows them. -/
theorem keyJ_next (ht : Types c n ty) : ∀ {i j : Nat}, i < n → j < n → keyJ c n ty i = keyJ c n ty j →
    ∃ d, 1 ≤ d ∧ Lms n ty (i + d) ∧ Lms n ty (j + d) ∧ (∀ x, 0 < x → x < d → ¬ Lms n ty (i + x) ∧ ¬ Lms n ty (j + x)) ∧
      (Suf c n (i + d) < Suf c n (j + d) → Suf c n i < Suf c n j) := by
  have main : ∀ k i j, i + k = n → i < n → j < n → keyJ c n ty i = keyJ c n ty j →
    ∃ d, 1 ≤ d ∧ Lms n ty (i + d) ∧ Lms n ty (j + d) ∧ (∀ x, 0 < x → x < d → ¬ Lms n ty (i + x) ∧ ¬ Lms n ty (j + x)) ∧
      (Suf c n (i + d) < Suf c n (j + d) → Suf c n i < Suf c n j) := by
    intro k
    induction k with
    | zero => intro i j h1 h2; omega
    | succ k ih =>
      intro i j h1 hi hj h
      rw [keyJ_cons hi, keyJ_cons hj, List.cons.injEq] at h
      obtain ⟨h2, h3⟩ := h
      have h4 := (cd_eq.mp h2).1
      have hs : Suf c n (i + 1) < Suf c n (j + 1) → Suf c n i < Suf c n j := by
        intro h5
        rw [Suf_cons hi, Suf_cons hj, List.cons_lt_cons_iff]
        exact Or.inr ⟨h4, h5⟩
      have hlen : ∀ x, x < n → ∃ a b l, keyJ c n ty x = a :: b :: l := by
        intro x hx
        rw [keyJ_cons hx]
        obtain ⟨b, l, e⟩ := List.exists_cons_of_ne_nil (tailJ_ne (c := c) (n := n) (ty := ty) (x + 1))
        exact ⟨_, b, l, by rw [e]⟩
      have hlt : ∀ x, x ≤ n → ¬ Lms n ty x → x < n := by
        intro x hx h5
        rcases Nat.lt_or_ge x n with h6 | h6
        · exact h6
        · exact absurd ((show x = n by omega) ▸ ht.lms_n) h5
      rw [tailJ, tailJ] at h3
      by_cases h5 : Lms n ty (i + 1) <;> by_cases h6 : Lms n ty (j + 1)
      · exact ⟨1, le_refl _, h5, h6, fun x h7 h8 => by omega, hs⟩
      · exfalso
        rw [if_pos h5, if_neg h6] at h3
        obtain ⟨a, b, l, e⟩ := hlen (j + 1) (hlt _ (by omega) h6)
        rw [e] at h3
        simp at h3
      · exfalso
        rw [if_neg h5, if_pos h6] at h3
        obtain ⟨a, b, l, e⟩ := hlen (i + 1) (hlt _ (by omega) h5)
        rw [e] at h3
        simp at h3
      · rw [if_neg h5, if_neg h6] at h3
        obtain ⟨d, g1, g2, g3, g4, g5⟩ := ih (i + 1) (j + 1) (by omega) (hlt _ (by omega) h5) (hlt _ (by omega) h6) h3
        refine ⟨d + 1, by omega, by rwa [show i + (d + 1) = i + 1 + d by omega], by rwa [show j + (d + 1) = j + 1 + d by omega], fun x h7 h8 => ?_, fun h7 => ?_⟩
        · rcases Nat.lt_or_ge 1 x with h9 | h9
          · have := g4 (x - 1) (by omega) (by omega)
            rwa [show i + 1 + (x - 1) = i + x by omega, show j + 1 + (x - 1) = j + x by omega] at this
          · obtain rfl : x = 1 := by omega
            exact ⟨h5, h6⟩
        · rw [show i + (d + 1) = i + 1 + d by omega, show j + (d + 1) = j + 1 + d by omega] at h7
          exact hs (g5 h7)
  intro i j hi hj
  exact main (n - i) i j (by omega) hi hj

/-- Equal keys: the positions are equal, or the codes up to the next leftmost S suffix and `ρ` of it are. -/
theorem key_eq_cases {i j : Nat} (hi : i < n) (hj : j < n) (h : key c n ty ρ i = key c n ty ρ j) :
    c i = c j ∧ ty i = ty j ∧ ((i = j) ∨ (i + 1 < n ∧ j + 1 < n ∧ c (i + 1) = c (j + 1) ∧ ty (i + 1) = ty (j + 1) ∧
      ((Lms n ty (i + 1) ∧ Lms n ty (j + 1) ∧ ρ (i + 1) = ρ (j + 1)) ∨
        (¬ Lms n ty (i + 1) ∧ ¬ Lms n ty (j + 1) ∧ key c n ty ρ (i + 1) = key c n ty ρ (j + 1))))) := by
  rw [key_cons hi, key_cons hj, List.cons.injEq] at h
  obtain ⟨h1, h2⟩ := h
  obtain ⟨_, h3, h4⟩ := code_eq hi h1
  refine ⟨h3, h4, ?_⟩
  obtain ⟨l, e1⟩ := key1_head (c := c) (n := n) (ty := ty) (ρ := ρ) (i + 1)
  obtain ⟨m, e2⟩ := key1_head (c := c) (n := n) (ty := ty) (ρ := ρ) (j + 1)
  have h5 : code c n ty (i + 1) = code c n ty (j + 1) := by
    rw [e1, e2, List.cons.injEq] at h2; exact h2.1
  rcases Nat.lt_or_ge (i + 1) n with h6 | h6
  · right
    obtain ⟨h7, h8, h9⟩ := code_eq h6 h5
    refine ⟨h6, h7, h8, h9, ?_⟩
    have h10 : Lms n ty (i + 1) ↔ Lms n ty (j + 1) := by
      rw [Lms, Lms, h9, Nat.add_sub_cancel, Nat.add_sub_cancel, h4]
      constructor
      · rintro ⟨_, _, a, b⟩; exact ⟨by omega, by omega, a, b⟩
      · rintro ⟨_, _, a, b⟩; exact ⟨by omega, by omega, a, b⟩
    rw [key1, key1] at h2
    by_cases h11 : Lms n ty (i + 1)
    · rw [if_pos h11, if_pos (h10.mp h11)] at h2
      simp only [List.cons.injEq] at h2
      exact Or.inl ⟨h11, h10.mp h11, h2.2.1⟩
    · rw [if_neg h11, if_neg (fun h => h11 (h10.mpr h))] at h2
      exact Or.inr ⟨h11, fun h => h11 (h10.mpr h), h2⟩
  · left
    by_contra h7
    have h8 := code_pos (c := c) (ty := ty) (show j + 1 < n by omega)
    rw [← h5, show i + 1 = n by omega, code_end] at h8
    omega

theorem keyJ_of_key : ∀ {i j : Nat}, i < n → j < n → key c n ty ρ i = key c n ty ρ j → keyJ c n ty i = keyJ c n ty j := by
  have main : ∀ k i j, i + k = n → i < n → j < n → key c n ty ρ i = key c n ty ρ j → keyJ c n ty i = keyJ c n ty j := by
    intro k
    induction k with
    | zero => intro i j h1 h2; omega
    | succ k ih =>
      intro i j h1 hi hj h
      obtain ⟨h2, h3, h4 | ⟨h4, h5, h6, h7, h8⟩⟩ := key_eq_cases hi hj h
      · rw [h4]
      · rw [keyJ_cons hi, keyJ_cons hj, cd_eq.mpr ⟨h2, h3⟩, tailJ, tailJ]
        rcases h8 with ⟨h8, h9, _⟩ | ⟨h8, h9, h10⟩
        · rw [if_pos h8, if_pos h9, cd_eq.mpr ⟨h6, h7⟩]
        · rw [if_neg h8, if_neg h9, ih (i + 1) (j + 1) (by omega) h4 h5 h10]
  intro i j hi hj
  exact main (n - i) i j (by omega) hi hj

/-- The keys are different, if `ρ` is. -/
theorem key_inj (hρ : ∀ i j, Lms n ty i → Lms n ty j → ρ i = ρ j → i = j) : ∀ {i j : Nat}, i ≤ n → j ≤ n →
    key c n ty ρ i = key c n ty ρ j → i = j := by
  have main : ∀ k i j, i + k = n → i < n → j < n → key c n ty ρ i = key c n ty ρ j → i = j := by
    intro k
    induction k with
    | zero => intro i j h1 h2; omega
    | succ k ih =>
      intro i j h1 hi hj h
      obtain ⟨h2, h3, h4 | ⟨h4, h5, h6, h7, h8⟩⟩ := key_eq_cases hi hj h
      · exact h4
      · rcases h8 with ⟨h8, h9, h10⟩ | ⟨h8, h9, h10⟩
        · have := hρ _ _ h8 h9 h10; omega
        · have := ih (i + 1) (j + 1) (by omega) h4 h5 h10; omega
  intro i j hi hj h
  have hend : ∀ x, x < n → key c n ty ρ x ≠ key c n ty ρ n := by
    intro x hx h1
    obtain ⟨l, e⟩ := key_head (c := c) (n := n) (ty := ty) (ρ := ρ) n
    rw [key_cons hx, e, List.cons.injEq, code_end] at h1
    have := code_pos (c := c) (ty := ty) hx
    omega
  rcases Nat.lt_or_ge i n with h1 | h1 <;> rcases Nat.lt_or_ge j n with h2 | h2
  · exact main (n - i) i j (by omega) h1 h2 h
  · rw [show j = n by omega] at h; exact absurd h (hend i h1)
  · rw [show i = n by omega] at h; exact absurd h.symm (hend j h2)
  · omega

/-- The names of the sorted substrings. -/
def nameAt (c : Nat → Nat) (n : Nat) (ty : Nat → Bool) (q : Nat → Nat) : Nat → Nat
  | 0 => 0
  | 1 => 1
  | t + 2 => nameAt c n ty q (t + 1) + (if keyJ c n ty (q (t + 2)) = keyJ c n ty (q (t + 1)) then 0 else 1)

theorem nameLms_spec (ht : Types c n ty) (hs : ∀ i, i ≤ n → str[i]? = some (c i)) (htt : Rep types (n + 1) ty) {q : Nat → Nat} {n1 : Nat} (hn1 : 1 ≤ n1)
    (hn2 : n1 + n / 2 ≤ n) (hq0 : q 0 = n) (hq : ∀ t, 0 < t → t < n1 → q t < n) (hinj : ∀ t t', t < n1 → t' < n1 → q t / 2 = q t' / 2 → t = t')
    {sa : List Int} (hsa : sa.length = n + 1) (hget : ∀ t, t < n1 → sa[t]? = some (q t : Int)) :
    ∃ s, nameLms str n types n1 sa = some s ∧ s.cnt = nameAt c n ty q (n1 - 1) + 1 ∧ s.sa.length = n + 1 ∧ (∀ t, t < n1 → s.sa[t]? = some (q t : Int)) ∧
      (∀ t, t < n1 → s.sa[n1 + q t / 2]? = some (nameAt c n ty q t : Int)) ∧
      (∀ b, n1 + b ≤ n → (∀ t, t < n1 → q t / 2 ≠ b) → s.sa[n1 + b]? = some (-1)) := by
  have hrep : Rep sa (n + 1) (fun i => sa.getD i 0) := hsa ▸ Rep.self sa
  obtain ⟨sa1, e1, h1⟩ := fill_spec hrep (show n1 ≤ n + 1 by omega) (le_refl _) (-1 : Int)
  have h2 : ∀ t, t < n1 → sa1[t]? = some (q t : Int) := by
    intro t h
    have h3 := hget t h
    rw [hrep.get t (by omega)] at h3
    rw [h1.get t (by omega), if_neg (by omega), h3]
  have e2 : rd sa1 0 = some ((n : Nat) : Int) := by rw [← hq0]; exact h2 0 hn1
  rw [nameLms, e1, Option.bind_some, e2, Option.bind_some, Int.toNat_natCast, wr, if_pos (show n1 + n / 2 < sa1.length by rw [h1.len]; omega), Option.bind_some]
  obtain ⟨s, e, g1, g2, g3, g4, g5, g6⟩ := forUp_spec (body := nameStep str n types n1)
    (fun i s => s.cnt = nameAt c n ty q (i - 1) + 1 ∧ s.sa.length = n + 1 ∧ (∀ t, t < n1 → s.sa[t]? = some (q t : Int)) ∧
      (∀ t, t < i → s.sa[n1 + q t / 2]? = some (nameAt c n ty q t : Int)) ∧
      (∀ b, n1 + b ≤ n → (∀ t, t < i → q t / 2 ≠ b) → s.sa[n1 + b]? = some (-1)) ∧
      ((i = 1 ∧ s.prev = -1) ∨ (2 ≤ i ∧ ∃ r, 1 ≤ r ∧ r < i ∧ s.prev = (q r : Int) ∧ keyJ c n ty (q r) = keyJ c n ty (q (i - 1)))))
    hn1 (s := ⟨sa1.set (n1 + n / 2) 0, 1, -1⟩)
    ⟨rfl, by simp [h1.len], fun t h => by simp only; rw [List.getElem?_set_ne (by omega), h2 t h], fun t h => by
      obtain rfl : t = 0 := by omega
      simp only
      rw [hq0, List.getElem?_set_self (by rw [h1.len]; omega)]; rfl, fun b hb h => by
      simp only
      have := h 0 (by omega)
      rw [hq0] at this
      rw [List.getElem?_set_ne (by omega), h1.get _ (by omega), if_pos (by omega)], Or.inl ⟨rfl, rfl⟩⟩ (by
      rintro i ⟨sa, cnt, prev⟩ hi1 hi2 ⟨g1, g2, g3, g4, g5, g6⟩
      simp only at g1 g2 g3 g4 g5 g6 ⊢
      have hqi := hq i (by omega) hi2
      have e3 : rd sa i = some (q i : Int) := g3 i hi2
      rw [nameStep]
      simp only
      rw [e3, Option.bind_some, Int.toNat_natCast]
      obtain ⟨diff, e4, h4, h5⟩ : ∃ diff, (if prev = -1 then some true else diffLoop str types (q i) prev.toNat (n + 2) 0) = some diff ∧
          (if diff then cnt + 1 else cnt) = nameAt c n ty q i + 1 ∧
          ∃ r, 1 ≤ r ∧ r < i + 1 ∧ (if diff then (q i : Int) else prev) = (q r : Int) ∧ keyJ c n ty (q r) = keyJ c n ty (q i) := by
        rcases g6 with ⟨h6, h7⟩ | ⟨h6, r, h7, h8, h9, h10⟩
        · subst h6
          refine ⟨true, by rw [if_pos h7], ?_, 1, le_refl _, by omega, by simp, rfl⟩
          rw [if_pos rfl, g1]; rfl
        · refine ⟨decide (keyJ c n ty (q i) ≠ keyJ c n ty (q r)), ?_, ?_, ?_⟩
          · rw [if_neg (by omega), h9, Int.toNat_natCast, diffLoop_spec ht hs htt hqi (hq r (by omega) (by omega))]
          · obtain ⟨m, rfl⟩ : ∃ m, i = m + 2 := ⟨i - 2, by omega⟩
            rw [show m + 2 - 1 = m + 1 by omega] at g1 h10
            rw [nameAt, g1, h10]
            by_cases h11 : keyJ c n ty (q (m + 2)) = keyJ c n ty (q (m + 1))
            · simp [h11]
            · simp [h11]
          · by_cases h11 : keyJ c n ty (q i) = keyJ c n ty (q r)
            · exact ⟨r, h7, by omega, by simp [h11, h9], h11.symm⟩
            · exact ⟨i, by omega, by omega, by simp [h11], rfl⟩
      rw [e4, Option.bind_some, h4, wr, if_pos (show n1 + q i / 2 < sa.length by omega)]
      refine ⟨_, rfl, by simp only [Nat.add_sub_cancel], by simpa using g2, fun t h => ?_, fun t h => ?_, fun b hb h => ?_, Or.inr ⟨by omega, ?_⟩⟩
      · simp only; rw [List.getElem?_set_ne (by omega), g3 t h]
      · simp only
        by_cases h6 : t = i
        · subst h6
          rw [List.getElem?_set_self (by omega)]
          congr 1
          push_cast
          omega
        · have h7 : q t / 2 ≠ q i / 2 := fun h8 => h6 (hinj t i (by omega) hi2 h8)
          rw [List.getElem?_set_ne (by omega), g4 t (by omega)]
      · simp only
        have := h i (by omega)
        rw [List.getElem?_set_ne (by omega), g5 b hb (fun t h6 => h t (by omega))]
      · obtain ⟨r, h6, h7, h8, h9⟩ := h5
        exact ⟨r, h6, h7, h8, by simpa using h9⟩)
  exact ⟨s, e, g1, g2, g3, g4, g5⟩

theorem nameAt_step (q : Nat → Nat) (t : Nat) : nameAt c n ty q t ≤ nameAt c n ty q (t + 1) ∧ nameAt c n ty q (t + 1) ≤ nameAt c n ty q t + 1 := by
  cases t with
  | zero => simp [nameAt]
  | succ t => rw [nameAt]; split_ifs <;> omega

theorem nameAt_mono (q : Nat → Nat) {t t' : Nat} (h : t ≤ t') : nameAt c n ty q t ≤ nameAt c n ty q t' := by
  induction t', h using Nat.le_induction with
  | base => exact le_refl _
  | succ k _ ih => exact le_trans ih (nameAt_step q k).1

theorem nameAt_le (q : Nat → Nat) (t d : Nat) : nameAt c n ty q (t + d) ≤ nameAt c n ty q t + d := by
  induction d with
  | zero => exact le_refl _
  | succ d ih => have := (nameAt_step (c := c) (n := n) (ty := ty) q (t + d)).2; rw [← Nat.add_assoc]; omega

/-- Equal names: equal substrings. -/
theorem nameAt_eq (q : Nat → Nat) {t : Nat} (ht : 1 ≤ t) : ∀ d, nameAt c n ty q (t + d) = nameAt c n ty q t → keyJ c n ty (q (t + d)) = keyJ c n ty (q t) := by
  intro d
  induction d with
  | zero => intro _; rfl
  | succ d ih =>
    intro h
    have h1 := (nameAt_step (c := c) (n := n) (ty := ty) q (t + d)).1
    have h2 := nameAt_mono (c := c) (n := n) (ty := ty) q (show t ≤ t + d by omega)
    rw [← Nat.add_assoc] at h ⊢
    have h3 : nameAt c n ty q (t + d) = nameAt c n ty q t := by omega
    rw [← ih h3]
    obtain ⟨m, hm⟩ : ∃ m, t + d = m + 1 := ⟨t + d - 1, by omega⟩
    rw [hm] at h h3 ⊢
    rw [nameAt] at h
    by_contra h4
    rw [if_neg h4] at h
    omega

/-- Equal substrings have equal names. -/
theorem nameAt_const (q : Nat → Nat) {t : Nat} (ht : 1 ≤ t) : ∀ d, (∀ x, x < d → keyJ c n ty (q (t + x + 1)) = keyJ c n ty (q (t + x))) →
    nameAt c n ty q (t + d) = nameAt c n ty q t := by
  intro d
  induction d with
  | zero => intro _; rfl
  | succ d ih =>
    intro h
    rw [← ih fun x hx => h x (by omega)]
    have h1 := h d (by omega)
    rw [← Nat.add_assoc]
    obtain ⟨m, hm⟩ : ∃ m, t + d = m + 1 := ⟨t + d - 1, by omega⟩
    rw [hm] at h1 ⊢
    rw [nameAt, if_pos h1]
    rfl

end

end Altruct.SuffixArray
