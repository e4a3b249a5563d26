/-
Suffix arrays: the order of the suffixes, common prefixes and comparisons of substrings.
-/
import Verif.SuffixArray.SaIs
import Verif.Rmq.Props

namespace Altruct.SuffixArray

theorem lcp_self : ∀ x : List Nat, lcp x x = x.length
  | [] => rfl
  | a :: x => by rw [lcp, if_pos rfl, lcp_self x]; rfl

theorem lcp_comm : ∀ x y : List Nat, lcp x y = lcp y x
  | [], [] => rfl
  | [], _ :: _ => rfl
  | _ :: _, [] => rfl
  | a :: x, b :: y => by
    rw [lcp, lcp, lcp_comm x y]
    by_cases h : a = b
    · rw [if_pos h, if_pos h.symm]
    · rw [if_neg h, if_neg (Ne.symm h)]

theorem lcp_le_left : ∀ x y : List Nat, lcp x y ≤ x.length
  | [], _ => by rw [lcp]; exact Nat.le_refl _; simp
  | _ :: _, [] => by rw [lcp]; exact Nat.zero_le _; simp
  | a :: x, b :: y => by
    rw [lcp, List.length_cons]
    have := lcp_le_left x y
    split <;> omega

theorem lcp_le_right (x y : List Nat) : lcp x y ≤ y.length := by rw [lcp_comm]; exact lcp_le_left y x

theorem lcp_get : ∀ (x y : List Nat) (k : Nat), k < lcp x y → x[k]? = y[k]?
  | [], _, k, h => by have := lcp_le_left [] ‹_›; simp at this; omega
  | a :: x, [], k, h => by have := lcp_le_right (a :: x) []; simp at this; omega
  | a :: x, b :: y, k, h => by
    rw [lcp] at h
    split at h
    · next e =>
      subst e
      cases k with
      | zero => rfl
      | succ k => exact lcp_get x y k (by omega)
    · omega

theorem lcp_ne : ∀ (x y : List Nat), lcp x y < x.length → lcp x y < y.length → x[lcp x y]? ≠ y[lcp x y]?
  | [], _, h, _ => by simp at h
  | a :: x, [], _, h => by simp at h
  | a :: x, b :: y, h, h' => by
    rw [lcp] at h h' ⊢
    split at h
    · next e =>
      rw [if_pos e] at h' ⊢
      exact lcp_ne x y (by simpa using h) (by simpa using h')
    · next e =>
      rw [if_neg e]
      simpa using e

/-- Between two strings the common prefix is kept. -/
theorem lcp_min : ∀ x y z : List Nat, x < y → y < z → lcp x z = min (lcp x y) (lcp y z)
  | [], _, _, _, _ => by
    have h1 := lcp_le_left [] ‹_›
    rename_i a b _ _
    have h2 := lcp_le_left [] b
    have h3 := lcp_le_left [] a
    simp at h2 h3
    omega
  | _ :: _, [], _, h, _ => absurd h (List.not_lt_nil _)
  | _ :: _, _ :: _, [], _, h => absurd h (List.not_lt_nil _)
  | a :: x, b :: y, c :: z, h1, h2 => by
    rw [List.cons_lt_cons_iff] at h1 h2
    rw [lcp, lcp, lcp]
    rcases h1 with h1 | ⟨rfl, h1⟩
    · rcases h2 with h2 | ⟨rfl, h2⟩
      · rw [if_neg (show a ≠ c by omega), if_neg (show a ≠ b by omega)]; omega
      · rw [if_neg (show a ≠ b by omega), if_neg (show a ≠ b by omega), Nat.zero_min]
    · rcases h2 with h2 | ⟨rfl, h2⟩
      · rw [if_neg (show a ≠ c by omega), if_neg (show a ≠ c by omega), Nat.min_zero]
      · rw [if_pos rfl, if_pos rfl, if_pos rfl, lcp_min x y z h1 h2]; omega

theorem lcp_mono {x y z : List Nat} (h1 : x ≤ y) (h2 : y < z) : lcp x z ≤ lcp y z := by
  rcases lt_or_eq_of_le h1 with h | h
  · rw [lcp_min x y z h h2]; exact min_le_right _ _
  · rw [h]

/-- The comparison of two prefixes. -/
theorem order_take : ∀ (x y : List Nat) (a b : Nat), a ≤ x.length → b ≤ y.length →
    order (x.take a) (y.take b) = if lcp x y < a ∧ lcp x y < b then cmp3 ((x.getD (lcp x y) 0 : Nat) : Int) ((y.getD (lcp x y) 0 : Nat) : Int)
      else cmp3 (a : Int) (b : Int) := by
  have hz : ∀ (y : List Nat) (b : Nat), b ≤ y.length → order [] (y.take b) = cmp3 ((0 : Nat) : Int) (b : Int) := by
    intro y b hb
    rcases Nat.eq_zero_or_pos b with rfl | h
    · simp [order, cmp3]
    · obtain ⟨c, z, e⟩ : ∃ c z, y.take b = c :: z := by
        cases e : y.take b with
        | nil => have := congrArg List.length e; rw [List.length_take, List.length_nil] at this; omega
        | cons c z => exact ⟨c, z, rfl⟩
      rw [e, order, if_pos (List.nil_lt_cons _ _), cmp3, if_pos (by omega)]
  have hz' : ∀ (y : List Nat) (b : Nat), b ≤ y.length → order (y.take b) [] = cmp3 (b : Int) ((0 : Nat) : Int) := by
    intro y b hb
    rcases Nat.eq_zero_or_pos b with rfl | h
    · simp [order, cmp3]
    · obtain ⟨c, z, e⟩ : ∃ c z, y.take b = c :: z := by
        cases e : y.take b with
        | nil => have := congrArg List.length e; rw [List.length_take, List.length_nil] at this; omega
        | cons c z => exact ⟨c, z, rfl⟩
      rw [e, order, if_neg (List.not_lt_nil _), if_pos (List.nil_lt_cons _ _), cmp3, if_neg (by omega), if_pos (by omega)]
  intro x
  induction x with
  | nil =>
    intro y a b ha hb
    obtain rfl : a = 0 := by simpa using ha
    rw [if_neg (by omega), List.take_nil]
    exact hz y b hb
  | cons u x ih =>
    intro y a b ha hb
    cases y with
    | nil =>
      obtain rfl : b = 0 := by simpa using hb
      rw [if_neg (by omega), List.take_nil]
      exact hz' _ a ha
    | cons v y =>
      rcases Nat.eq_zero_or_pos a with rfl | ha0
      · rw [if_neg (by omega), List.take_zero]; exact hz _ b hb
      rcases Nat.eq_zero_or_pos b with rfl | hb0
      · rw [if_neg (by omega), List.take_zero]; exact hz' _ a ha
      obtain ⟨a, rfl⟩ : ∃ a', a = a' + 1 := ⟨a - 1, by omega⟩
      obtain ⟨b, rfl⟩ : ∃ b', b = b' + 1 := ⟨b - 1, by omega⟩
      rw [List.take_succ_cons, List.take_succ_cons, lcp, order]
      simp only [List.cons_lt_cons_iff]
      by_cases huv : u = v
      · subst huv
        have h := ih y a b (by simpa using ha) (by simpa using hb)
        simp only [lt_irrefl, true_and, false_or, if_true, Nat.add_lt_add_iff_right, List.getD_cons_succ]
        rw [order] at h
        rw [h]
        refine if_congr Iff.rfl rfl ?_
        simp only [cmp3, Nat.cast_add, Nat.cast_one, Int.add_lt_add_iff_right]
      · rw [if_neg huv, if_pos (show 0 < a + 1 ∧ 0 < b + 1 by omega)]
        simp only [huv, Ne.symm huv, false_and, or_false, List.getD_cons_zero, cmp3, Nat.cast_lt]

theorem Suf_drop (s : List Nat) (i : Nat) : Suf (fun k => s.getD k 0) s.length i = s.drop i := by
  refine List.ext_getElem? fun k => ?_
  rw [Suf, List.getElem?_map, List.getElem?_drop]
  rcases Nat.lt_or_ge k (s.length - i) with h | h
  · rw [List.getElem?_range' h, Option.map_some, Nat.one_mul, List.getD_eq_getElem _ _ (by omega), List.getElem?_eq_getElem (by omega)]
  · rw [List.getElem?_eq_none (by simp; omega), List.getElem?_eq_none (by omega)]; rfl

theorem maxLetter_spec (s : List Nat) : ∀ x ∈ s, x ≤ maxLetter s := by
  have h : ∀ (s : List Nat) (a : Nat), a ≤ s.foldl max a ∧ ∀ x ∈ s, x ≤ s.foldl max a := by
    intro s
    induction s with
    | nil => intro a; exact ⟨le_refl _, fun x hx => by simp at hx⟩
    | cons b s ih =>
      intro a
      obtain ⟨h1, h2⟩ := ih (max a b)
      rw [List.foldl_cons]
      refine ⟨by omega, fun x hx => ?_⟩
      rcases List.mem_cons.mp hx with rfl | hx
      · omega
      · exact h2 x hx
  exact (h s 0).2

/-- The order of the suffixes. -/
structure Order (s : List Nat) (p : Nat → Nat) : Prop where
  zero : p 0 = s.length
  le : ∀ t, t ≤ s.length → p t ≤ s.length
  lt : ∀ t t', t < t' → t' ≤ s.length → s.drop (p t) < s.drop (p t')

theorem buildSa_spec {s junk : List Nat} (hs : s ≠ []) (hj : junk ≠ []) :
    ∃ sa, ∃ p : Nat → Nat, buildSa s junk = some sa ∧ Rep sa (s.length + 1) (fun t => ((p t : Nat) : Int)) ∧ Order s p := by
  have hn : 0 < s.length := List.length_pos_iff.mpr hs
  obtain ⟨j, rest, rfl⟩ := List.exists_cons_of_ne_nil hj
  let c : Nat → Nat := fun k => (s ++ j :: rest).getD k 0
  have hg : ∀ i, i ≤ s.length → (s ++ j :: rest)[i]? = some (c i) := by
    intro i hi
    show _ = some ((s ++ j :: rest).getD i 0)
    rw [List.getD_eq_getElem _ _ (by simp; omega), List.getElem?_eq_getElem]
  obtain ⟨sa, bo, p, e, _, h1, h2, h3, h4⟩ := saIs_spec (W := max (maxLetter s + 1) ((s.length + 1) / 2) + 1) (s.length + 1) s.length (maxLetter s + 1) c (s ++ j :: rest)
    (List.replicate (s.length + 1) 0) (List.replicate (max (maxLetter s + 1) ((s.length + 1) / 2) + 1) 0) (by omega) hn
    ⟨fun i hi => hg i (by omega), fun i hi => by
      have h1 := hg i (by omega)
      rw [List.getElem?_append_left hi] at h1
      have := maxLetter_spec s _ (List.mem_of_getElem? h1)
      omega⟩ (hg _ (le_refl _)) (by omega) (by omega) (by simp) (by simp)
  refine ⟨sa, p, by rw [buildSa, if_neg hs, e]; rfl, h1, h2, h3, fun t t' h h' => ?_⟩
  have h5 : ∀ i, Suf c s.length i = s.drop i := by
    intro i
    rw [← Suf_drop, Suf, Suf]
    refine List.map_congr_left fun k hk => ?_
    have := List.mem_range'_1.mp hk
    show (s ++ j :: rest).getD k 0 = s.getD k 0
    rw [List.getD_append _ _ _ _ (by omega)]
  rw [← h5, ← h5]
  exact h4 t t' h h'

theorem Order.inj {s : List Nat} {p : Nat → Nat} (h : Order s p) {t t' : Nat} (ht : t ≤ s.length) (ht' : t' ≤ s.length) (e : p t = p t') : t = t' := by
  rcases Nat.lt_trichotomy t t' with h1 | h1 | h1
  · have := h.lt t t' h1 ht'; rw [e] at this; exact absurd this (lt_irrefl _)
  · exact h1
  · have := h.lt t' t h1 ht; rw [e] at this; exact absurd this (lt_irrefl _)

/-- The inverse. -/
theorem Order.inv {s : List Nat} {p : Nat → Nat} (h : Order s p) :
    ∃ o : Nat → Nat, (∀ t, t ≤ s.length → o (p t) = t) ∧ (∀ i, i ≤ s.length → p (o i) = i) ∧ (∀ i, i ≤ s.length → o i ≤ s.length) := by
  have h1 := inj_surj (m := s.length + 1) (p := p) (fun t ht => by have := h.le t (by omega); omega) (fun t t' ht ht' => h.inj (by omega) (by omega))
  have h2 : ∀ i, ∃ t, i ≤ s.length → t ≤ s.length ∧ p t = i := by
    intro i
    by_cases hi : i ≤ s.length
    · obtain ⟨t, ht, e⟩ := h1 i (by omega)
      exact ⟨t, fun _ => ⟨by omega, e⟩⟩
    · exact ⟨0, fun hc => absurd hc hi⟩
  choose o ho using h2
  refine ⟨o, fun t ht => ?_, fun i hi => (ho i hi).2, fun i hi => (ho i hi).1⟩
  have h3 := ho _ (h.le t ht)
  exact h.inj h3.1 ht h3.2

theorem buildOrd_spec {s : List Nat} {p : Nat → Nat} (h : Order s p) {o : Nat → Nat} (hp : ∀ i, i ≤ s.length → p (o i) = i)
    (hl : ∀ i, i ≤ s.length → o i ≤ s.length)
    {sa : List Int} (hsa : Rep sa (s.length + 1) (fun t => ((p t : Nat) : Int))) :
    ∃ ord, buildOrd s.length sa = some ord ∧ Rep ord (s.length + 1) (fun i => ((o i : Nat) : Int)) := by
  obtain ⟨ord, e, g, h1, h2⟩ := forUp_spec (body := fun i (o : List Int) => (rd sa i).bind fun x => if x < 0 then none else wr o x.toNat (i : Int))
    (fun k (o' : List Int) => ∃ g, Rep o' (s.length + 1) g ∧ ∀ t, t < k → g (p t) = (t : Int)) (a := 0) (n := s.length + 1) (s := List.replicate (s.length + 1) 0)
    (Nat.zero_le _) ⟨_, Rep.replicate _ _, fun t ht => by omega⟩ (by
      rintro i o' _ hi ⟨g, hg, h3⟩
      have h4 := h.le i (by omega)
      refine ⟨o'.set (p i) (i : Int), ?_, _, hg.set (p i) (i : Int), fun t ht => ?_⟩
      · rw [hsa.rd hi, Option.bind_some, if_neg (by omega), Int.toNat_natCast, hg.wr (by omega)]
      · by_cases hc : t = i
        · subst hc; simp
        · have : p t ≠ p i := fun hc' => hc (h.inj (by omega) (by omega) hc')
          rw [Function.update_of_ne this]
          exact h3 t (by omega))
  refine ⟨ord, e, h1.congr fun i hi => ?_⟩
  have := h2 (o i) (by have := hl i (by omega); omega)
  rw [hp i (by omega)] at this
  exact this

theorem matchLoop_spec {s : List Nat} {i j : Nat} : ∀ (fuel h : Nat), h ≤ lcp (s.drop i) (s.drop j) → lcp (s.drop i) (s.drop j) - h < fuel →
    matchLoop s i j (min (s.length - j) (s.length - i)) fuel h = some (lcp (s.drop i) (s.drop j)) := by
  have h1 := lcp_le_left (s.drop i) (s.drop j)
  have h2 := lcp_le_right (s.drop i) (s.drop j)
  rw [List.length_drop] at h1 h2
  intro fuel
  induction fuel with
  | zero => intro h _ hf; omega
  | succ fuel ih =>
    intro h hh hf
    rw [matchLoop]
    by_cases hc : h < min (s.length - j) (s.length - i)
    · rw [if_pos hc, rd, rd, List.getElem?_eq_getElem (show i + h < s.length by omega), List.getElem?_eq_getElem (show j + h < s.length by omega), Option.bind_some, Option.bind_some]
      rcases Nat.lt_or_ge h (lcp (s.drop i) (s.drop j)) with h3 | h3
      · have h4 := lcp_get _ _ h h3
        rw [List.getElem?_drop, List.getElem?_drop, List.getElem?_eq_getElem (show i + h < s.length by omega), List.getElem?_eq_getElem (show j + h < s.length by omega)] at h4
        rw [if_pos (Option.some.inj h4)]
        exact ih (h + 1) (by omega) (by omega)
      · obtain rfl : h = lcp (s.drop i) (s.drop j) := by omega
        have h4 := lcp_ne (s.drop i) (s.drop j) (by rw [List.length_drop]; omega) (by rw [List.length_drop]; omega)
        rw [List.getElem?_drop, List.getElem?_drop, List.getElem?_eq_getElem (show i + _ < s.length by omega), List.getElem?_eq_getElem (show j + _ < s.length by omega)] at h4
        rw [if_neg (fun h5 => h4 (congrArg some h5))]
    · rw [if_neg hc]
      exact congrArg some (by omega)

/-- The lcp array. -/
theorem lcpArray_spec {s : List Nat} {p : Nat → Nat} (h : Order s p) {o : Nat → Nat} (ho : ∀ t, t ≤ s.length → o (p t) = t) (hp : ∀ i, i ≤ s.length → p (o i) = i)
    (hl : ∀ i, i ≤ s.length → o i ≤ s.length) {sa ord : List Int} (hsa : Rep sa (s.length + 1) (fun t => ((p t : Nat) : Int)))
    (hord : Rep ord (s.length + 1) (fun i => ((o i : Nat) : Int))) :
    ∃ l, lcpArray s sa ord = some l ∧ l.length = s.length + 2 ∧ ∀ t, t < s.length → l[t]? = some ((lcp (s.drop (p t)) (s.drop (p (t + 1))) : Nat) : Int) := by
  have hpos : ∀ i, i < s.length → 0 < o i := by
    intro i hi
    rcases Nat.eq_zero_or_pos (o i) with h1 | h1
    · have := hp i (by omega); rw [h1, h.zero] at this; omega
    · exact h1
  -- the predecessor of the next suffix has almost as long a common prefix
  have hstep : ∀ i, i + 1 < s.length → lcp (s.drop i) (s.drop (p (o i - 1))) - 1 ≤ lcp (s.drop (i + 1)) (s.drop (p (o (i + 1) - 1))) := by
    intro i hi
    have h1 := hpos i (by omega)
    have h2 := hl i (by omega)
    have h3 := h.lt (o i - 1) (o i) (by omega) h2
    rw [hp i (by omega)] at h3
    have hj := h.le (o i - 1) (by omega)
    generalize p (o i - 1) = j at *
    rw [List.drop_eq_getElem_cons (show i < s.length by omega)] at h3 ⊢
    rcases Nat.lt_or_ge j s.length with hjn | hjn
    · rw [List.drop_eq_getElem_cons hjn] at h3 ⊢
      rw [lcp]
      by_cases he : s[i] = s[j]
      · rw [if_pos he, Nat.add_sub_cancel]
        rw [List.cons_lt_cons_iff, he] at h3
        have h4 : s.drop (j + 1) < s.drop (i + 1) := by
          rcases h3 with h3 | h3
          · exact absurd h3 (lt_irrefl _)
          · exact h3.2
        have h5 := hpos (i + 1) hi
        have h6 := hl (i + 1) (by omega)
        have h7 := h.lt (o (i + 1) - 1) (o (i + 1)) (by omega) h6
        rw [hp (i + 1) (by omega)] at h7
        rw [lcp_comm (s.drop (i + 1)), lcp_comm (s.drop (i + 1))]
        refine lcp_mono ?_ h7
        by_contra h8
        rw [not_le] at h8
        have h9 := hp (j + 1) (by omega)
        have h10 := hl (j + 1) (by omega)
        rw [← h9] at h8 h4
        -- the rank of `j + 1` lies strictly between two consecutive ranks
        rcases Nat.lt_or_ge (o (i + 1) - 1) (o (j + 1)) with h11 | h11
        · rcases Nat.lt_or_ge (o (i + 1)) (o (j + 1)) with h12 | h12
          · have h13 := h.lt _ _ h12 h10
            rw [hp (i + 1) (by omega)] at h13
            exact absurd (lt_trans h4 h13) (lt_irrefl _)
          · rw [show o (j + 1) = o (i + 1) by omega, hp (i + 1) (by omega)] at h4
            exact absurd h4 (lt_irrefl _)
        · rcases Nat.eq_or_lt_of_le h11 with h12 | h12
          · rw [h12] at h8; exact absurd h8 (lt_irrefl _)
          · have h13 := h.lt _ _ h12 (by omega)
            exact absurd (lt_trans h8 h13) (lt_irrefl _)
      · rw [if_neg he]; omega
    · rw [List.drop_eq_nil_of_le hjn, lcp]
      · omega
      · simp
  obtain ⟨⟨hh, l⟩, e, hx, h1, g, h2, h3⟩ := forUp_spec (body := fun i (st : Nat × List Int) => (rd ord i).bind fun o => (Rmq.rdI sa (o - 1)).bind fun j => if j < 0 then none else
    (matchLoop s i j.toNat (min (s.length - j.toNat) (s.length - i)) (s.length + 1) st.1).bind fun h =>
      (wr st.2 (o - 1).toNat (h : Int)).map fun l => (h - 1, l))
    (fun k (st : Nat × List Int) => st.1 ≤ s.length ∧ (k < s.length → st.1 ≤ lcp (s.drop k) (s.drop (p (o k - 1)))) ∧ ∃ g, Rep st.2 (s.length + 2) g ∧
      ∀ i, i < k → g (o i - 1) = ((lcp (s.drop i) (s.drop (p (o i - 1))) : Nat) : Int)) (a := 0) (n := s.length) (s := (0, List.replicate (s.length + 2) 0))
    (Nat.zero_le _) ⟨Nat.zero_le _, fun _ => Nat.zero_le _, _, Rep.replicate _ _, fun t ht => by omega⟩ (by
      rintro i ⟨hh, l⟩ _ hi ⟨hx, h1, g, h2, h3⟩
      have h4 := hpos i hi
      have h5 := hl i (by omega)
      have h6 := matchLoop_spec (s := s) (i := i) (j := p (o i - 1)) (s.length + 1) hh (h1 hi) (by
        have := lcp_le_left (s.drop i) (s.drop (p (o i - 1)))
        rw [List.length_drop] at this
        omega)
      have h7 := lcp_le_left (s.drop i) (s.drop (p (o i - 1)))
      rw [List.length_drop] at h7
      refine ⟨(lcp (s.drop i) (s.drop (p (o i - 1))) - 1, l.set (o i - 1) ((lcp (s.drop i) (s.drop (p (o i - 1))) : Nat) : Int)), ?_, ?_, fun hk => hstep i hk, _, h2.set _ _, fun k hk => ?_⟩
      · rw [hord.rd (by omega), Option.bind_some, Rmq.rdI, if_neg (by omega), show (((o i : Nat) : Int) - 1).toNat = o i - 1 by omega, hsa.rd (by omega), Option.bind_some, if_neg (by omega),
          Int.toNat_natCast, h6, Option.bind_some, h2.wr (by omega)]
        rfl
      · simp only; omega
      · by_cases hc : k = i
        · subst hc; simp
        · have : o k - 1 ≠ o i - 1 := by
            intro hc'
            have h8 := hpos k (by omega)
            have h9 := hp k (by omega)
            rw [show o k = o i by omega, hp i (by omega)] at h9
            omega
          rw [Function.update_of_ne this]
          exact h3 k (by omega))
  refine ⟨l, by rw [lcpArray]; exact congrArg (Option.map Prod.snd) e, h2.len, fun t ht => ?_⟩
  have h4 : p (t + 1) < s.length := by
    have h5 := h.le (t + 1) (by omega)
    rcases Nat.lt_or_ge (p (t + 1)) s.length with h6 | h6
    · exact h6
    · have := h.inj (t := t + 1) (t' := 0) (by omega) (by omega) (by rw [h.zero]; omega)
      omega
  have h5 := h3 _ h4
  rw [ho (t + 1) (by omega), Nat.add_sub_cancel, lcp_comm] at h5
  rw [h2.get t (by omega), h5]

/-- The smallest entry of the lcp array between two ranks. -/
theorem Order.lcp_range {s : List Nat} {p : Nat → Nat} (h : Order s p) {x : Nat} : ∀ d, x + d + 1 ≤ s.length →
    (∀ t, x ≤ t → t ≤ x + d → lcp (s.drop (p x)) (s.drop (p (x + d + 1))) ≤ lcp (s.drop (p t)) (s.drop (p (t + 1)))) ∧
      ∃ t, x ≤ t ∧ t ≤ x + d ∧ lcp (s.drop (p x)) (s.drop (p (x + d + 1))) = lcp (s.drop (p t)) (s.drop (p (t + 1))) := by
  intro d
  induction d with
  | zero =>
    intro hd
    refine ⟨fun t h1 h2 => ?_, x, le_refl _, le_refl _, rfl⟩
    rw [show t = x by omega]
  | succ d ih =>
    intro hd
    obtain ⟨h1, t0, h2, h3, h4⟩ := ih (by omega)
    have h5 := lcp_min _ _ _ (h.lt x (x + d + 1) (by omega) (by omega)) (h.lt (x + d + 1) (x + (d + 1) + 1) (by omega) hd)
    rw [show x + (d + 1) = x + d + 1 by omega] at h5 ⊢
    refine ⟨fun t ht1 ht2 => ?_, ?_⟩
    · rcases Nat.lt_or_ge t (x + d + 1) with h6 | h6
      · have := h1 t ht1 (by omega); omega
      · rw [show t = x + d + 1 by omega]; omega
    · rcases Nat.le_total (lcp (s.drop (p x)) (s.drop (p (x + d + 1)))) (lcp (s.drop (p (x + d + 1))) (s.drop (p (x + d + 1 + 1)))) with h6 | h6
      · exact ⟨t0, h2, by omega, by omega⟩
      · exact ⟨x + d + 1, by omega, le_refl _, by omega⟩

theorem ltI_weak : Rmq.WeakOrder ltI :=
  ⟨fun x y h => by simp [ltI] at h ⊢; omega, fun x y z h1 h2 => by simp [ltI] at h1 h2 ⊢; omega⟩

/-- What the constructor builds. -/
theorem build_spec {s junk : List Nat} (hs : s ≠ []) (hj : junk ≠ []) (hlen : s.length + 2 < 2 ^ 32) {B : Nat} (hB0 : 0 < B) (hB : B ≤ 128) (junkN : Nat) (junkI : Int) :
    ∃ d, ∃ p o : Nat → Nat, build B junkN junkI junk s = some d ∧ d.str = s ∧ Order s p ∧ (∀ t, t ≤ s.length → o (p t) = t) ∧ (∀ i, i ≤ s.length → p (o i) = i) ∧
      (∀ i, i ≤ s.length → o i ≤ s.length) ∧ Rep d.sa (s.length + 1) (fun t => ((p t : Nat) : Int)) ∧ Rep d.ord (s.length + 1) (fun i => ((o i : Nat) : Int)) ∧
      ∀ x y, x < y → y ≤ s.length → Rmq.getValue ltI B d.rmq x y = some ((lcp (s.drop (p x)) (s.drop (p y)) : Nat) : Int) := by
  obtain ⟨sa, p, e1, hsa, hp⟩ := buildSa_spec hs hj
  obtain ⟨o, ho1, ho2, ho3⟩ := hp.inv
  obtain ⟨ord, e2, hord⟩ := buildOrd_spec hp ho2 ho3 hsa
  obtain ⟨l, e3, hl, hl2⟩ := lcpArray_spec hp ho1 ho2 ho3 hsa hord
  obtain ⟨r, e4, hr⟩ := Rmq.C105_leftmost_minimum ltI_weak hB0 hB junkN junkI 0 l (by omega)
  refine ⟨⟨s, sa, ord, r⟩, p, o, by rw [build, e1, Option.bind_some, e2, Option.bind_some, e3, Option.bind_some, e4]; rfl, rfl, hp, ho1, ho2, ho3, hsa, hord, fun x y hxy hy => ?_⟩
  obtain ⟨i, _, ⟨h1, h2, v, h3, h4⟩, h5⟩ := hr x y hxy (by omega)
  show Rmq.getValue ltI B r x y = _
  rw [h5, hl2 i (by omega)]
  rw [hl2 i (by omega)] at h3
  obtain rfl := Option.some.inj h3
  obtain ⟨h6, t, h7, h8, h9⟩ := hp.lcp_range (x := x) (y - x - 1) (by omega)
  rw [show x + (y - x - 1) + 1 = y by omega] at h6 h9
  have h10 := h6 i (by omega) (by omega)
  have h11 := (h4 t _ h7 (by omega) (hl2 t (by omega))).1
  simp only [ltI, decide_eq_false_iff_not, not_lt, Nat.cast_le] at h11
  exact congrArg some (by omega)

theorem getLcp_spec {B : Nat} {d : Data} {s : List Nat} {p o : Nat → Nat} (hd : d.str = s) (hp : ∀ i, i ≤ s.length → p (o i) = i)
    (hl : ∀ i, i ≤ s.length → o i ≤ s.length) (hord : Rep d.ord (s.length + 1) (fun i => ((o i : Nat) : Int)))
    (hr : ∀ x y, x < y → y ≤ s.length → Rmq.getValue ltI B d.rmq x y = some ((lcp (s.drop (p x)) (s.drop (p y)) : Nat) : Int)) {i j : Nat}
    (hi : i ≤ s.length) (hj : j ≤ s.length) : getLcp B d i j = some ((lcp (s.drop i) (s.drop j) : Nat) : Int) := by
  rw [getLcp, hd]
  by_cases hij : i = j
  · subst hij
    rw [if_pos rfl, lcp_self, List.length_drop]
    exact congrArg some (by omega)
  · have hne : o i ≠ o j := fun hc => hij (by rw [← hp i hi, ← hp j hj, hc])
    rw [if_neg hij, hord.rd (by omega), Option.bind_some, hord.rd (by omega), Option.bind_some, Int.toNat_natCast, Int.toNat_natCast]
    have h1 := hl i hi
    have h2 := hl j hj
    rcases Nat.lt_or_gt_of_ne hne with h | h
    · rw [if_neg (by omega), hr _ _ h h2, hp i hi, hp j hj]
    · rw [if_pos (by omega), hr _ _ h h1, hp i hi, hp j hj, lcp_comm]

/-- **C106.** The constructor sorts all the suffixes, the empty one included; `get_kth_suffix` and `get_suffix_order` are inverse to each other. -/
theorem C106_sorted_suffixes {s junk : List Nat} (hs : s ≠ []) (hj : junk ≠ []) (hlen : s.length + 2 < 2 ^ 32) {B : Nat} (hB0 : 0 < B) (hB : B ≤ 128) (junkN : Nat) (junkI : Int) :
    ∃ d, build B junkN junkI junk s = some d ∧ ∃ q, SortedSuffixes s q ∧ ∀ k x : Nat, q[k]? = some x → kthSuffix d k = some (x : Int) ∧ suffixOrder d x = some (k : Int) := by
  obtain ⟨d, p, o, e, _, hp, ho, _, _, hsa, hord, _⟩ := build_spec hs hj hlen hB0 hB junkN junkI
  refine ⟨d, e, (List.range (s.length + 1)).map p, ⟨?_, ?_⟩, fun k x hk => ?_⟩
  · refine (List.perm_ext_iff_of_nodup ?_ List.nodup_range).mpr fun x => ?_
    · rw [List.nodup_map_iff_inj_on List.nodup_range]
      intro x hx y hy e
      exact hp.inj (by have := List.mem_range.mp hx; omega) (by have := List.mem_range.mp hy; omega) e
    · rw [List.mem_map, List.mem_range]
      constructor
      · rintro ⟨t, ht, rfl⟩
        have := List.mem_range.mp ht
        have := hp.le t (by omega)
        omega
      · intro hx
        obtain ⟨t, h1, h2⟩ := inj_surj (m := s.length + 1) (p := p) (fun t ht => by have := hp.le t (by omega); omega)
          (fun t t' ht ht' => hp.inj (by omega) (by omega)) x hx
        exact ⟨t, List.mem_range.mpr h1, h2⟩
  · rw [List.map_map, List.pairwise_map]
    refine List.Pairwise.imp_of_mem ?_ List.pairwise_lt_range
    intro a b _ hb hab
    have := List.mem_range.mp hb
    exact hp.lt a b hab (by omega)
  · have h1 := (List.getElem?_eq_some_iff.mp hk).1
    rw [List.length_map, List.length_range] at h1
    rw [List.getElem?_map, List.getElem?_range h1] at hk
    obtain rfl := Option.some.inj hk
    refine ⟨hsa.rd h1, ?_⟩
    have h2 := hp.le k (by omega)
    rw [suffixOrder, hord.rd (by omega), ho k (by omega)]

/-- **C106.** `get_lcp` returns the length of the longest common prefix of two suffixes. -/
theorem C106_longest_common_prefix {s junk : List Nat} (hs : s ≠ []) (hj : junk ≠ []) (hlen : s.length + 2 < 2 ^ 32) {B : Nat} (hB0 : 0 < B) (hB : B ≤ 128) (junkN : Nat) (junkI : Int) :
    ∃ d, build B junkN junkI junk s = some d ∧ ∀ i j, i ≤ s.length → j ≤ s.length → getLcp B d i j = some ((lcp (s.drop i) (s.drop j) : Nat) : Int) := by
  obtain ⟨d, p, o, e, hd, _, _, hp, hl, _, hord, hr⟩ := build_spec hs hj hlen hB0 hB junkN junkI
  exact ⟨d, e, fun i j hi hj => getLcp_spec hd hp hl hord hr hi hj⟩

/-- **C106.** `compare_substrings` compares two substrings lexicographically. -/
theorem C106_compare_substrings {s junk : List Nat} (hs : s ≠ []) (hj : junk ≠ []) (hlen : s.length + 2 < 2 ^ 32) {B : Nat} (hB0 : 0 < B) (hB : B ≤ 128) (junkN : Nat) (junkI : Int) :
    ∃ d, build B junkN junkI junk s = some d ∧ ∀ b1 e1 b2 e2, b1 ≤ e1 → e1 ≤ s.length → b2 ≤ e2 → e2 ≤ s.length →
      compareSubstrings B d b1 e1 b2 e2 = some (order (substr s b1 e1) (substr s b2 e2)) := by
  obtain ⟨d, p, o, e, hd, _, _, hp, hl, _, hord, hr⟩ := build_spec hs hj hlen hB0 hB junkN junkI
  refine ⟨d, e, fun b1 e1 b2 e2 h1 h2 h3 h4 => ?_⟩
  have h5 := order_take (s.drop b1) (s.drop b2) (e1 - b1) (e2 - b2) (by rw [List.length_drop]; omega) (by rw [List.length_drop]; omega)
  rw [substr, substr, List.drop_take, List.drop_take, h5, compareSubstrings]
  by_cases hb : b1 = b2
  · subst hb
    rw [if_pos rfl, lcp_self, List.length_drop, if_neg (show ¬ (s.length - b1 < e1 - b1 ∧ s.length - b1 < e2 - b1) by omega)]
    refine congrArg some ?_
    simp only [cmp3]
    split <;> split <;> first | (split <;> first | rfl | omega) | rfl
  · rw [if_neg hb, getLcp_spec hd hp hl hord hr (by omega) (by omega), Option.bind_some, hd]
    generalize hL : lcp (s.drop b1) (s.drop b2) = L
    by_cases hc : L < e1 - b1 ∧ L < e2 - b2
    · rw [if_pos hc, if_pos (by omega), Rmq.rdI, if_neg (by omega), Rmq.rdI, if_neg (by omega), rd, rd, show ((b1 : Int) + (L : Int)).toNat = b1 + L by omega,
        show ((b2 : Int) + (L : Int)).toNat = b2 + L by omega, List.getElem?_eq_getElem (show b1 + L < s.length by omega), List.getElem?_eq_getElem (show b2 + L < s.length by omega),
        List.getD_eq_getElem _ _ (show L < (s.drop b1).length by rw [List.length_drop]; omega), List.getD_eq_getElem _ _ (show L < (s.drop b2).length by rw [List.length_drop]; omega),
        List.getElem_drop, List.getElem_drop]
      rfl
    · rw [if_neg hc, if_neg (by omega), show ((e1 - b1 : Nat) : Int) = (e1 : Int) - b1 by omega, show ((e2 - b2 : Nat) : Int) = (e2 : Int) - b2 by omega]

/-- **C106.** The element after the last one of the copied string (a `std::vector`) is read: without readable memory there the result is undefined.
Whatever is there, the order is right (`junk` above). -/
theorem C106_reads_past_the_end : buildSa [2, 0, 1, 0, 2, 0, 1] [] = none := by decide +kernel

/-- **C106.** The constructor must not be given the empty string. -/
theorem C106_empty_string (B junkN : Nat) (junkI : Int) (junk : List Nat) : build B junkN junkI junk [] = none := rfl

/-- The suffixes of `cabacab` (as `2 0 1 0 2 0 1`). -/
example : buildSa [2, 0, 1, 0, 2, 0, 1] [5] = some [7, 5, 1, 3, 6, 2, 4, 0] := by decide +kernel

/-- A string that needs the recursion. -/
example : buildSa [1, 0, 1, 0, 1, 0, 1, 0, 1, 0, 2, 0, 1, 0, 0, 1] [0] = some [16, 13, 14, 11, 1, 3, 5, 7, 9, 15, 12, 0, 2, 4, 6, 8, 10] := by decide +kernel

/-- Common prefixes and comparisons in `banana`. -/
example : ((build 8 0 0 [0] [1, 0, 13, 0, 13, 0]).bind fun d => (getLcp 8 d 1 3).bind fun x => (compareSubstrings 8 d 1 4 3 6).bind fun y =>
    (compareSubstrings 8 d 0 3 2 5).map fun z => (x, y, z)) = some (3, 0, -1) := by decide +kernel

/-- The hypotheses are met. -/
example : ([1, 0, 13, 0, 13, 0] : List Nat) ≠ [] ∧ ([0] : List Nat) ≠ [] ∧ ([1, 0, 13, 0, 13, 0] : List Nat).length + 2 < 2 ^ 32 := by decide

end Altruct.SuffixArray
