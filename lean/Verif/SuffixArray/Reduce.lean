/-
The reduced string and its suffixes.
-/
import Verif.SuffixArray.Names

namespace Altruct.SuffixArray

theorem sorted_ext : ∀ {l m : List Nat}, l.Pairwise (· < ·) → m.Pairwise (· < ·) → (∀ x, x ∈ l ↔ x ∈ m) → l = m := by
  intro l
  induction l with
  | nil =>
    intro m _ _ h
    cases m with
    | nil => rfl
    | cons b m => exact absurd ((h b).mpr (List.mem_cons_self)) (by simp)
  | cons a l ih =>
    intro m hl hm h
    cases m with
    | nil => exact absurd ((h a).mp (List.mem_cons_self)) (by simp)
    | cons b m =>
      rw [List.pairwise_cons] at hl hm
      have e : a = b := by
        have h1 := (h a).mp List.mem_cons_self
        have h2 := (h b).mpr List.mem_cons_self
        rw [List.mem_cons] at h1 h2
        rcases h1 with h1 | h1
        · exact h1
        · rcases h2 with h2 | h2
          · exact h2.symm
          · have := hl.1 b h2
            have := hm.1 a h1
            omega
      subst e
      congr 1
      refine ih hl.2 hm.2 fun x => ?_
      have h3 := h x
      rw [List.mem_cons, List.mem_cons] at h3
      constructor
      · intro h4
        rcases h3.mp (Or.inr h4) with h5 | h5
        · have := hl.1 x h4; omega
        · exact h5
      · intro h4
        rcases h3.mpr (Or.inr h4) with h5 | h5
        · have := hm.1 x h4; omega
        · exact h5

section
variable {c : Nat → Nat} {n alpha : Nat} {ty : Nat → Bool} {str : List Nat} {types : List Bool} {W : Nat}

/-- The names in the order of the positions. -/
theorem gather_spec {n1 : Nat} (hn1 : n1 = (lmsList n ty).length) {nm : Nat → Nat} {sa : List Int} (hsa : sa.length = n + 1)
    (h1 : ∀ x, Lms n ty x → sa[n1 + x / 2]? = some (nm x : Int)) (h2 : ∀ b, n1 + b ≤ n → (∀ x, Lms n ty x → x / 2 ≠ b) → sa[n1 + b]? = some (-1)) :
    ∃ sa', gather n n1 sa = some sa' ∧ sa'.length = n + 1 ∧ (∀ t, t < n1 → sa'[t]? = sa[t]?) ∧
      sa'.drop (n + 1 - n1) = (lmsList n ty).map fun x => (nm x : Int) := by
  have hE := lmsList_length (n := n) (ty := ty)
  rw [← hn1] at hE
  let F : Nat → List Nat := fun k => (lmsList n ty).filter fun x => decide (k ≤ x / 2)
  have hF0 : F 0 = lmsList n ty := by
    show (lmsList n ty).filter _ = _
    rw [List.filter_eq_self]; intro x _; simp
  have hFm : ∀ k x, x ∈ F k ↔ Lms n ty x ∧ k ≤ x / 2 := by
    intro k x
    show x ∈ (lmsList n ty).filter _ ↔ _
    rw [List.mem_filter, mem_lmsList, decide_eq_true_iff]
  have hFs : ∀ k, (F k).Pairwise (· < ·) := fun k => List.Pairwise.filter _ lmsList_sorted
  rw [gather]
  obtain ⟨⟨s, sa'⟩, e, g1, g2, g3, g4, g5⟩ := forBack_spec (body := fun k (s : Nat × List Int) => (rd s.2 (n1 + k)).bind fun x =>
      if x ≥ 0 then (if s.1 = 0 then none else (wr s.2 (s.1 - 1) x).map fun sa => (s.1 - 1, sa)) else some s)
    (fun k s => s.2.length = n + 1 ∧ s.1 + (F k).length = n + 1 ∧ s.2.drop s.1 = (F k).map (fun x => (nm x : Int)) ∧
      (∀ t, t < n1 + k → s.2[t]? = sa[t]?) ∧ n1 + k ≤ s.1) (n + 1 - n1) (n + 1, sa) (by
      have h3 : F (n + 1 - n1) = [] := by
        rw [List.eq_nil_iff_forall_not_mem]
        intro x hx
        obtain ⟨h4, h5⟩ := (hFm _ _).mp hx
        have := h4.2.1
        omega
      rw [h3]
      refine ⟨hsa, rfl, ?_, fun t _ => rfl, by simp only; omega⟩
      simp only [List.map_nil]
      rw [List.drop_eq_nil_iff]; omega) (by
      rintro k ⟨s, sa'⟩ hk ⟨g1, g2, g3, g4, g5⟩
      simp only at g1 g2 g3 g4 g5 ⊢
      by_cases h3 : ∃ x, Lms n ty x ∧ x / 2 = k
      · obtain ⟨x, hx, hxk⟩ := h3
        have e1 : rd sa' (n1 + k) = some (nm x : Int) := by
          rw [rd, g4 _ (by omega), ← hxk]; exact h1 x hx
        have hFk : F k = x :: F (k + 1) := by
          refine sorted_ext (hFs k) ?_ fun y => ?_
          · rw [List.pairwise_cons]
            refine ⟨fun y hy => ?_, hFs _⟩
            have := ((hFm _ _).mp hy).2
            omega
          · rw [List.mem_cons, hFm, hFm]
            constructor
            · rintro ⟨h4, h5⟩
              rcases Nat.lt_or_ge k (y / 2) with h6 | h6
              · exact Or.inr ⟨h4, h6⟩
              · left
                by_contra h7
                rcases Nat.lt_or_gt_of_ne h7 with h8 | h8
                · exact lms_succ h4 ((show x = y + 1 by omega) ▸ hx)
                · exact lms_succ hx ((show y = x + 1 by omega) ▸ h4)
            · rintro (h4 | ⟨h4, h5⟩)
              · subst h4; exact ⟨hx, by omega⟩
              · exact ⟨h4, by omega⟩
        rw [e1, Option.bind_some, if_pos (by omega), if_neg (by omega), wr, if_pos (by omega)]
        refine ⟨_, rfl, by simpa using g1, ?_, ?_, fun t ht => ?_, by simp only; omega⟩
        · simp only; rw [hFk, List.length_cons]; omega
        · simp only
          rw [hFk, List.map_cons, List.drop_eq_getElem_cons (by simp; omega), List.getElem_set_self, show s - 1 + 1 = s by omega,
            List.drop_set_of_lt (by omega), g3]
        · simp only
          rw [List.getElem?_set_ne (by omega), g4 t (by omega)]
      · have e1 : rd sa' (n1 + k) = some (-1) := by
          rw [rd, g4 _ (by omega)]
          exact h2 k (by omega) fun x hx h4 => h3 ⟨x, hx, h4⟩
        rw [e1, Option.bind_some, if_neg (by decide)]
        have hFk : F k = F (k + 1) := by
          refine sorted_ext (hFs k) (hFs _) fun y => ?_
          rw [hFm, hFm]
          constructor
          · rintro ⟨h4, h5⟩
            have : y / 2 ≠ k := fun h6 => h3 ⟨y, h4, h6⟩
            exact ⟨h4, by omega⟩
          · rintro ⟨h4, h5⟩
            exact ⟨h4, by omega⟩
        exact ⟨_, rfl, g1, by rw [hFk]; exact g2, by rw [hFk]; exact g3, fun t ht => g4 t (by omega), by simp only; omega⟩)
  simp only at g1 g2 g3 g4 g5
  rw [hF0, ← hn1] at g2
  rw [hF0, show s = n + 1 - n1 by omega] at g3
  exact ⟨sa', by rw [e]; rfl, g1, fun t ht => g4 t (by omega), g3⟩

theorem invertNames_spec {n1 : Nat} (hn1 : 2 * n1 ≤ n + 1) {g : Nat → Nat} (hg : ∀ i, i < n1 → g i < n1) (hinj : ∀ i j, i < n1 → j < n1 → g i = g j → i = j)
    {sa : List Int} (hsa : sa.length = n + 1) (h1 : ∀ i, i < n1 → sa[n + 1 - n1 + i]? = some (g i : Int)) :
    ∃ sa', invertNames n n1 sa = some sa' ∧ sa'.length = n + 1 ∧ ∀ i, i < n1 → sa'[g i]? = some (i : Int) := by
  obtain ⟨sa', e, g1, g2, g3⟩ := forUp_spec (body := fun i sa => (rd sa (n + 1 - n1 + i)).bind fun x => if x < 0 then none else wr sa x.toNat (i : Int))
    (fun k (sa' : List Int) => sa'.length = n + 1 ∧ (∀ i, i < k → sa'[g i]? = some (i : Int)) ∧ ∀ i, i < n1 → sa'[n + 1 - n1 + i]? = some (g i : Int))
    (Nat.zero_le n1) (s := sa) ⟨hsa, fun i h => by omega, h1⟩ (by
      intro i sa' _ hi ⟨g1, g2, g3⟩
      have e1 : rd sa' (n + 1 - n1 + i) = some (g i : Int) := g3 i hi
      have := hg i hi
      rw [e1, Option.bind_some, if_neg (by omega), Int.toNat_natCast, wr, if_pos (by omega)]
      refine ⟨_, rfl, by simpa using g1, fun j hj => ?_, fun j hj => ?_⟩
      · by_cases h2 : j = i
        · subst h2; rw [List.getElem?_set_self (by omega)]
        · have h3 : g j ≠ g i := fun h4 => h2 (hinj j i (by omega) hi h4)
          rw [List.getElem?_set_ne (Ne.symm h3), g2 j (by omega)]
      · rw [List.getElem?_set_ne (by omega), g3 j hj])
  exact ⟨sa', e, g1, g2⟩

/-- The order of the suffixes of the reduced string is that of the leftmost S suffixes. -/
theorem reduced_lt (ht : Types c n ty) {nm s1 : Nat → Nat} {n1 : Nat} (hn1 : n1 = (lmsList n ty).length) (hs1 : ∀ (k x : Nat), (lmsList n ty)[k]? = some x → s1 k = nm x)
    (hlt : ∀ x y, Lms n ty x → Lms n ty y → nm x < nm y → Suf c n x < Suf c n y)
    (heq : ∀ x y, Lms n ty x → Lms n ty y → x < n → y < n → nm x = nm y → keyJ c n ty x = keyJ c n ty y) :
    ∀ (a b x y : Nat), (lmsList n ty)[a]? = some x → (lmsList n ty)[b]? = some y → Suf s1 (n1 - 1) a < Suf s1 (n1 - 1) b → Suf c n x < Suf c n y := by
  have hlms : ∀ (k x : Nat), (lmsList n ty)[k]? = some x → Lms n ty x := fun k x h => mem_lmsList.mp (List.mem_of_getElem? h)
  have hsort := List.pairwise_iff_getElem.mp (lmsList_sorted (n := n) (ty := ty))
  have hord : ∀ (k k' x x' : Nat), (lmsList n ty)[k]? = some x → (lmsList n ty)[k']? = some x' → k < k' → x < x' := by
    intro k k' x x' h1 h2 h3
    obtain ⟨h4, h5⟩ := List.getElem?_eq_some_iff.mp h1
    obtain ⟨h6, h7⟩ := List.getElem?_eq_some_iff.mp h2
    have := hsort k k' h4 h6 h3
    omega
  -- positions before `n` are at indices before the last one
  have hlast : ∀ (k x : Nat), (lmsList n ty)[k]? = some x → (x < n ↔ k < n1 - 1) := by
    intro k x h
    obtain ⟨m, hm⟩ := List.getElem?_of_mem (mem_lmsList.mpr ht.lms_n)
    have h1 := (List.getElem?_eq_some_iff.mp h).1
    have h2 := (List.getElem?_eq_some_iff.mp hm).1
    have h3 : m = n1 - 1 := by
      by_contra h4
      obtain ⟨y, hy⟩ : ∃ y, (lmsList n ty)[m + 1]? = some y := ⟨_, List.getElem?_eq_getElem (by omega)⟩
      have := hord m (m + 1) n y hm hy (by omega)
      have := (hlms _ _ hy).2.1
      omega
    constructor
    · intro h4
      by_contra h5
      obtain rfl : k = m := by omega
      rw [h] at hm
      have := Option.some.inj hm
      omega
    · intro h4
      exact hord k m x n h hm (by omega)
  have hnext : ∀ (a x y : Nat), (lmsList n ty)[a]? = some x → x < y → Lms n ty y → (∀ z, x < z → z < y → ¬ Lms n ty z) → (lmsList n ty)[a + 1]? = some y := by
    intro a x y h1 h2 h3 h4
    obtain ⟨m, hm⟩ := List.getElem?_of_mem (mem_lmsList.mpr h3)
    have h5 := (List.getElem?_eq_some_iff.mp hm).1
    have h6 : a < m := by
      by_contra h7
      rcases Nat.lt_or_ge m a with h8 | h8
      · have := hord m a y x hm h1 h8; omega
      · obtain rfl : m = a := by omega
        rw [h1] at hm
        have := Option.some.inj hm
        omega
    obtain ⟨z, hz⟩ : ∃ z, (lmsList n ty)[a + 1]? = some z := ⟨_, List.getElem?_eq_getElem (by omega)⟩
    rcases Nat.lt_or_ge (a + 1) m with h7 | h7
    · exact absurd (hlms _ _ hz) (h4 z (hord _ _ _ _ h1 hz (by omega)) (hord _ _ _ _ hz hm h7))
    · obtain rfl : m = a + 1 := by omega
      exact hm
  have main : ∀ k (a b x y : Nat), a + k = n1 → (lmsList n ty)[a]? = some x → (lmsList n ty)[b]? = some y → Suf s1 (n1 - 1) a < Suf s1 (n1 - 1) b → Suf c n x < Suf c n y := by
    intro k
    induction k with
    | zero =>
      intro a b x y h1 h2
      have := (List.getElem?_eq_some_iff.mp h2).1
      omega
    | succ k ih =>
      intro a b x y h1 h2 h3 h4
      have hb : b < n1 - 1 := by
        by_contra h5
        rw [Suf_end (show n1 - 1 ≤ b by omega)] at h4
        simp at h4
      have hy := (hlast b y h3).mpr hb
      rcases Nat.lt_or_ge a (n1 - 1) with h5 | h5
      · have hx := (hlast a x h2).mpr h5
        rw [Suf_cons h5, Suf_cons hb, List.cons_lt_cons_iff, hs1 a x h2, hs1 b y h3] at h4
        rcases h4 with h4 | ⟨h4, h6⟩
        · exact hlt x y (hlms _ _ h2) (hlms _ _ h3) h4
        · obtain ⟨d, g1, g2, g3, g4, g5⟩ := keyJ_next ht hx hy (heq x y (hlms _ _ h2) (hlms _ _ h3) hx hy h4)
          refine g5 (ih (a + 1) (b + 1) _ _ (by omega) (hnext a x _ h2 (by omega) g2 fun z h7 h8 => ?_) (hnext b y _ h3 (by omega) g3 fun z h7 h8 => ?_) h6)
          · have := (g4 (z - x) (by omega) (by omega)).1
            rwa [show x + (z - x) = z by omega] at this
          · have := (g4 (z - y) (by omega) (by omega)).2
            rwa [show y + (z - y) = z by omega] at this
      · have hx : ¬ x < n := fun h6 => by have := (hlast a x h2).mp h6; omega
        rw [Suf_end (show n ≤ x by omega), Suf_cons hy]
        exact List.nil_lt_cons _ _
  intro a b x y h1 h2 h3
  exact main (n1 - a) a b x y (by have := (List.getElem?_eq_some_iff.mp h1).1; omega) h1 h2 h3

/-- The second sort. -/
theorem secondSort_spec (ht : Types c n ty) (hs : Str str c n alpha) (htt : Rep types (n + 1) ty) {n1 : Nat} (hn1 : n1 = (lmsList n ty).length) {R q : Nat → Nat}
    (hR : ∀ t, t < n1 → R t < n1) (hq : ∀ t, t < n1 → (lmsList n ty)[R t]? = some (q t)) (hq0 : q 0 = n)
    (hsort : ∀ t t', t < t' → t' < n1 → Suf c n (q t) < Suf c n (q t')) {sa : List Int} (hsa : sa.length = n + 1) (hget : ∀ t, t < n1 → sa[t]? = some (R t : Int))
    {bo : List Nat} (hb : bo.length = W) (hW : alpha ≤ W) :
    ∃ sa' bo', ∃ p : Nat → Nat, secondSort str n alpha types n1 sa bo = some (sa', bo') ∧ bo'.length = W ∧ Rep sa' (n + 1) (fun t => ((p t : Nat) : Int)) ∧ p 0 = n ∧ (∀ t, t ≤ n → p t ≤ n) ∧
      ∀ t t', t < t' → t' ≤ n → Suf c n (p t) < Suf c n (p t') := by
  have hE := lmsList_length (n := n) (ty := ty)
  rw [← hn1] at hE
  have hpos : 0 < n1 := by
    rw [hn1]; exact List.length_pos_of_mem (mem_lmsList.mpr ht.lms_n)
  have hqL : ∀ t, t < n1 → Lms n ty (q t) := fun t h => mem_lmsList.mp (List.mem_of_getElem? (hq t h))
  have hqi : ∀ t t', t < n1 → t' < n1 → q t = q t' → t = t' := by
    intro t t' h1 h2 h3
    rcases lt_trichotomy t t' with h | h | h
    · have := hsort t t' h h2; rw [h3] at this; exact absurd this (lt_irrefl _)
    · exact h
    · have := hsort t' t h h1; rw [h3] at this; exact absurd this (lt_irrefl _)
  have hRi : ∀ t t', t < n1 → t' < n1 → R t = R t' → t = t' := by
    intro t t' h1 h2 h3
    have h4 := hq t h1
    rw [h3, hq t' h2] at h4
    exact hqi t t' h1 h2 (Option.some.inj h4).symm
  have hqs : ∀ x, Lms n ty x → ∃ t, t < n1 ∧ q t = x := by
    intro x hx
    obtain ⟨m, hm⟩ := List.getElem?_of_mem (mem_lmsList.mpr hx)
    obtain ⟨t, h1, h2⟩ := inj_surj hR hRi m (by rw [hn1]; exact (List.getElem?_eq_some_iff.mp hm).1)
    refine ⟨t, h1, ?_⟩
    have h3 := hq t h1
    rw [h2, hm] at h3
    exact (Option.some.inj h3).symm
  have hqn : ∀ t, 0 < t → t < n1 → q t < n := by
    intro t h1 h2
    have h3 := (hqL t h2).2.1
    rcases Nat.lt_or_ge (q t) n with h4 | h4
    · exact h4
    · have := hqi t 0 h2 hpos (by rw [hq0]; omega); omega
  obtain ⟨bo1, e1, hb1⟩ := countFirst_spec hs hb
  obtain ⟨bo2, e2, hb2⟩ := getOffsets_spec hs hb1 hW true
  rw [secondSort, e1, Option.bind_some, e2, Option.bind_some]
  -- the positions in order
  let E : Nat → List Nat := fun i => (List.range i).filter fun x => decide (Lms n ty x)
  have hEs : ∀ i, E (i + 1) = E i ++ (if Lms n ty i then [i] else []) := by
    intro i
    show (List.range (i + 1)).filter _ = (List.range i).filter _ ++ _
    rw [List.range_succ, List.filter_append]
    congr 1
    by_cases h : Lms n ty i <;> simp [h]
  obtain ⟨⟨m3, sa3⟩, e3, h31, h32, h33, h34⟩ := forUp_spec (body := fun i (s : Nat × List Int) => (isLms types i).bind fun b =>
      if b then (wr s.2 (n + 1 - n1 + s.1) (i : Int)).map fun sa => (s.1 + 1, sa) else some s)
    (fun i s => s.1 = (E i).length ∧ s.2.length = n + 1 ∧ (∀ t, t < n1 → s.2[t]? = some (R t : Int)) ∧
      ∀ (k x : Nat), (E i)[k]? = some x → s.2[n + 1 - n1 + k]? = some (x : Int)) (show 1 ≤ n + 1 by omega) (s := (0, sa))
    ⟨by
      show 0 = (E 1).length
      have : E 1 = [] := by
        show (List.range 1).filter _ = []
        simp [Lms]
      rw [this]; rfl, hsa, hget, fun k x h => by
      have : E 1 = [] := by
        show (List.range 1).filter _ = []
        simp [Lms]
      rw [this] at h; simp at h⟩ (by
      rintro i ⟨m, sa⟩ hi1 hi2 ⟨g1, g2, g3, g4⟩
      simp only at g1 g2 g3 g4 ⊢
      rw [isLms_spec htt hi1 (by omega), Option.bind_some]
      by_cases h : Lms n ty i
      · have h5 : m < n1 := by
          have h6 : (E (i + 1)).length ≤ n1 := by
            rw [hn1]
            refine List.Sublist.length_le ?_
            exact List.Sublist.filter _ (List.range_sublist.mpr (by omega))
          rw [hEs, if_pos h, List.length_append, ← g1, List.length_singleton] at h6
          omega
        rw [if_pos (by simpa using h), wr, if_pos (by omega)]
        refine ⟨_, rfl, ?_, by simpa using g2, fun t h6 => ?_, fun k x h6 => ?_⟩
        · simp only; rw [hEs, if_pos h, List.length_append, ← g1]; rfl
        · simp only; rw [List.getElem?_set_ne (by omega), g3 t h6]
        · simp only
          rw [hEs, if_pos h] at h6
          by_cases h7 : k = m
          · rw [h7, g1, List.getElem?_append_right (le_refl _), Nat.sub_self] at h6
            simp only [List.getElem?_cons_zero, Option.some.injEq] at h6
            subst h6
            rw [h7, List.getElem?_set_self (by omega)]
          · have h10 := (List.getElem?_eq_some_iff.mp h6).1
            rw [List.length_append, List.length_singleton, ← g1] at h10
            rw [List.getElem?_append_left (by omega)] at h6
            rw [List.getElem?_set_ne (by omega)]
            exact g4 k x h6
      · have h5 : E (i + 1) = E i := by rw [hEs, if_neg h, List.append_nil]
        rw [if_neg (by simpa using h)]
        exact ⟨_, rfl, by rw [h5]; exact g1, g2, g3, by rw [h5]; exact g4⟩)
  rw [e3, Option.bind_some]
  simp only at h31 h32 h33 h34 ⊢
  obtain ⟨sa4, e4, h41, h42, _, _⟩ := forUp_spec (body := fun i sa => (rd sa i).bind fun x => if x < 0 then none else (rd sa (n + 1 - n1 + x.toNat)).bind fun y => wr sa i y)
    (fun i (sa : List Int) => sa.length = n + 1 ∧ (∀ t, t < i → sa[t]? = some (q t : Int)) ∧ (∀ t, i ≤ t → t < n1 → sa[t]? = some (R t : Int)) ∧
      ∀ (k x : Nat), (lmsList n ty)[k]? = some x → sa[n + 1 - n1 + k]? = some (x : Int)) (Nat.zero_le n1) (s := sa3)
    ⟨h32, fun t h => by omega, fun t _ h => h33 t h, h34⟩ (by
      intro i sa _ hi ⟨g1, g2, g3, g4⟩
      have e5 : rd sa i = some (R i : Int) := g3 i (le_refl _) hi
      have e6 : rd sa (n + 1 - n1 + R i) = some (q i : Int) := g4 _ _ (hq i hi)
      rw [e5, Option.bind_some, if_neg (by omega), Int.toNat_natCast, e6, Option.bind_some, wr, if_pos (by omega)]
      refine ⟨_, rfl, by simpa using g1, fun t h => ?_, fun t h h' => ?_, fun k x h => ?_⟩
      · by_cases h5 : t = i
        · rw [h5, List.getElem?_set_self (by omega)]
        · rw [List.getElem?_set_ne (by omega), g2 t (by omega)]
      · rw [List.getElem?_set_ne (by omega), g3 t (by omega) h']
      · rw [List.getElem?_set_ne (by omega), g4 k x h])
  rw [e4, Option.bind_some]
  have hrep : Rep sa4 (n + 1) (fun i => sa4.getD i 0) := h41 ▸ Rep.self sa4
  obtain ⟨sa5, e5, h5⟩ := fill_spec hrep (show n1 ≤ n + 1 by omega) (le_refl _) (-1 : Int)
  rw [e5, Option.bind_some]
  have h5q : ∀ t, t < n1 → (fun i => if n1 ≤ i ∧ i < n + 1 then (-1 : Int) else sa4.getD i 0) t = q t := by
    intro t h
    have h6 := h42 t h
    rw [hrep.get t (by omega)] at h6
    simp only
    rw [if_neg (by omega)]
    exact Option.some.inj h6
  let ρ : Nat → Nat := fun x => ((List.range n1).map q).idxOf x
  have hρ : ∀ t, t < n1 → ρ (q t) = t := by
    intro t h
    have hnd : ((List.range n1).map q).Nodup := by
      rw [List.nodup_map_iff_inj_on List.nodup_range]
      intro x hx y hy e
      exact hqi x y (List.mem_range.mp hx) (List.mem_range.mp hy) e
    have h6 := List.Nodup.idxOf_getElem hnd t (by simpa using h)
    simpa using h6
  obtain ⟨⟨sa6, bo6⟩, e6, A, f, hA, hf, hA0, hP⟩ := forBack_spec (body := fun k (s : List Int × List Nat) => (rd s.1 (k + 1)).bind fun j => (wr s.1 (k + 1) (-1)).bind fun sa =>
              if j < 0 then none else pushBack str j.toNat (sa, s.2))
    (fun k s => ∃ A f, Rep s.1 (n + 1) A ∧ Bkt c n alpha W s.2 f ∧ (∀ t, t ≤ k → A t = q t) ∧
      PInv c n alpha ty ρ k (fun x => ∃ t, k < t ∧ t < n1 ∧ q t = x) A f) (n1 - 1) (sa5, bo2)
    ⟨_, _, h5, hb2, fun t h => h5q t (by omega), by
      simp only [if_pos]
      exact (PInv.init (n1 - 1) (fun t h h' => by rw [if_pos (by omega)])).congr fun j _ _ => ⟨fun h => h.elim, fun ⟨t, h, h', _⟩ => by omega⟩⟩ (by
      rintro k ⟨sa, bo⟩ hk ⟨A, f, hA, hf, hq', hP⟩
      simp only at hA hf ⊢
      rw [hA.rd (show k + 1 < n + 1 by omega), Option.bind_some, hA.wr (by omega), Option.bind_some, hq' (k + 1) (le_refl _), if_neg (by omega), Int.toNat_natCast]
      have hj := hqn (k + 1) (by omega) (by omega)
      have hl := hqL (k + 1) (by omega)
      have ha := hs.lt _ hj
      have hP' := hP.lower
      have hfk : k + 1 < f (c (q (k + 1))) := by
        have r := hP.rng _ ha
        have m5 := start_le (c := c) (n := n) (c (q (k + 1)) + 1)
        rcases Nat.lt_or_ge (f (c (q (k + 1)))) (start c n (c (q (k + 1)) + 1)) with h6 | h6
        · exact (hP.full _ ha _ (le_refl _) h6).1
        · -- the first `k + 1` positions have letters that are not larger
          have h7 : (Finset.Ico 1 (k + 2)).image q ⊆ (Finset.range n).filter (fun i => c i < c (q (k + 1)) + 1) := by
            intro x hx
            obtain ⟨t, ht', e⟩ := Finset.mem_image.mp hx
            rw [Finset.mem_Ico] at ht'
            have h8 := hqn t (by omega) (by omega)
            simp only [Finset.mem_filter, Finset.mem_range]
            rw [← e]
            refine ⟨h8, ?_⟩
            rcases Nat.lt_or_ge t (k + 1) with h9 | h9
            · have h10 := hsort t (k + 1) h9 (by omega)
              rw [Suf_cons h8, Suf_cons hj, List.cons_lt_cons_iff] at h10
              rcases h10 with h10 | ⟨h10, _⟩ <;> omega
            · obtain rfl : t = k + 1 := by omega
              omega
          have h8 := Finset.card_le_card h7
          rw [Finset.card_image_of_injOn, Nat.card_Ico] at h8
          · have h9 : start c n (c (q (k + 1)) + 1) = 1 + ((Finset.range n).filter fun i => c i < c (q (k + 1)) + 1).card := rfl
            omega
          · intro t ht1 t' ht2 e
            simp only [Finset.coe_Ico, Set.mem_Ico] at ht1 ht2
            exact hqi t t' (by omega) (by omega) e
      obtain ⟨h6, h7, h8⟩ := hP'.push hs.lt hj hl (by
        rintro ⟨t, h6, h7, h8⟩
        have := hqi t (k + 1) h7 (by omega) h8
        omega) (by omega) (by
        rintro j' _ ⟨t, h6, h7, h8⟩ _
        rw [← h8, hρ t h7, hρ (k + 1) (by omega)]
        omega)
      obtain ⟨bo', e', hf'⟩ := hf.wr ha (f (c (q (k + 1))) - 1)
      have e7 : rd str (q (k + 1)) = some (c (q (k + 1))) := hs.get _ hj
      rw [pushBack, e7, Option.bind_some, hf.rd ha, Option.bind_some, if_neg (by omega), e', Option.bind_some, (hA.set (k + 1) (-1)).wr (by omega)]
      refine ⟨_, rfl, _, _, (hA.set _ _).set _ _, hf', fun t h9 => ?_, h8.congr fun j _ _ => ?_⟩
      · rw [Function.update_of_ne (by omega), Function.update_of_ne (by omega), hq' t (by omega)]
      · constructor
        · rintro (⟨t, h9, h10, h11⟩ | h9)
          · exact ⟨t, by omega, h10, h11⟩
          · exact ⟨k + 1, by omega, by omega, h9.symm⟩
        · rintro ⟨t, h9, h10, h11⟩
          rcases Nat.lt_or_ge (k + 1) t with h12 | h12
          · exact Or.inl ⟨t, h12, h10, h11⟩
          · obtain rfl : t = k + 1 := by omega
            exact Or.inr h11.symm)
  rw [e6, Option.bind_some]
  simp only at hA hf ⊢
  have hplace := hP.place hs.lt (fun j hj hl => by
    obtain ⟨t, h6, h7⟩ := hqs j hl
    refine ⟨t, ?_, h6, h7⟩
    rcases Nat.eq_zero_or_pos t with h8 | h8
    · rw [h8, hq0] at h7; omega
    · exact h8) (by rw [hA0 0 (le_refl _), hq0])
  obtain ⟨sa', bo', p, e7, h7, h8, h9⟩ := inducedSort_spec ht hs htt hplace hA hf.counted hW
  refine ⟨sa', bo', p, e7, h7, h8, h9.zero, h9.le, fun t t' h10 h11 => ?_⟩
  have h12 := h9.sorted t t' h10 h11
  have h13 : key c n ty ρ (p t) ≠ key c n ty ρ (p t') := by
    intro h14
    have h15 := key_inj (c := c) (n := n) (ty := ty) (ρ := ρ) (fun i j hi hj e => by
      obtain ⟨t1, g1, g2⟩ := hqs i hi
      obtain ⟨t2, g3, g4⟩ := hqs j hj
      rw [← g2, ← g4, hρ t1 g1, hρ t2 g3] at e
      rw [← g2, ← g4, e]) (h9.le t (by omega)) (h9.le t' h11) h14
    have := h9.inj t t' (by omega) h11 h15
    omega
  refine ht.lt_of_key (ρ := ρ) (fun i j hi hj _ e => ?_) (h9.le t (by omega)) (h9.le t' h11) (lt_of_le_of_ne h12 h13)
  obtain ⟨t1, g1, g2⟩ := hqs i hi
  obtain ⟨t2, g3, g4⟩ := hqs j hj
  rw [← g2, ← g4, hρ t1 g1, hρ t2 g3] at e
  rw [← g2, ← g4]
  exact hsort t1 t2 e g3

end

end Altruct.SuffixArray
