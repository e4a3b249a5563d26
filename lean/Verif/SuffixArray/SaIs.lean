/-
The suffix array.
-/
import Verif.SuffixArray.Reduce

namespace Altruct.SuffixArray

section
variable {c : Nat → Nat} {n : Nat} {ty : Nat → Bool}

/-- The sorted leftmost S suffixes after the first sort. -/
theorem sortedLms_facts (ht : Types c n ty) {p : Nat → Nat} (hp : Sorted c n ty (fun _ => 0) p) :
    (sortedLms n ty p (n + 1)).Nodup ∧ (∀ x, x ∈ sortedLms n ty p (n + 1) ↔ Lms n ty x) ∧ (sortedLms n ty p (n + 1)).length = (lmsList n ty).length ∧
      (sortedLms n ty p (n + 1))[0]? = some n ∧
      (sortedLms n ty p (n + 1)).Pairwise (fun x y => key c n ty (fun _ => 0) x ≤ key c n ty (fun _ => 0) y) := by
  have h1 : (sortedLms n ty p (n + 1)).Nodup := by
    refine List.Nodup.filter _ ?_
    rw [List.nodup_map_iff_inj_on List.nodup_range]
    intro x hx y hy e
    exact hp.inj x y (by have := List.mem_range.mp hx; omega) (by have := List.mem_range.mp hy; omega) e
  have h2 : ∀ x, x ∈ sortedLms n ty p (n + 1) ↔ Lms n ty x := by
    intro x
    rw [sortedLms, List.mem_filter, decide_eq_true_iff]
    refine ⟨fun h => h.2, fun h => ⟨?_, h⟩⟩
    obtain ⟨t, h3, h4⟩ := inj_surj (m := n + 1) (p := p) (fun t h => by have := hp.le t (by omega); omega)
      (fun t t' h h' => hp.inj t t' (by omega) (by omega)) x (by have := h.2.1; omega)
    exact List.mem_map.mpr ⟨t, List.mem_range.mpr h3, h4⟩
  refine ⟨h1, h2, ?_, ?_, ?_⟩
  · refine List.Perm.length_eq ((List.perm_ext_iff_of_nodup h1 lmsList_nodup).mpr fun x => ?_)
    rw [h2, mem_lmsList]
  · rw [sortedLms, List.range_succ_eq_map, List.map_cons, hp.zero, List.filter_cons_of_pos (by simpa using ht.lms_n)]
    rfl
  · refine List.Pairwise.filter _ ?_
    rw [List.pairwise_map]
    refine List.Pairwise.imp_of_mem ?_ List.pairwise_lt_range
    intro a b ha hb hab
    have := List.mem_range.mp hb
    exact hp.sorted a b hab (by omega)

theorem saIs_spec {W : Nat} : ∀ (fuel n alpha : Nat) (c : Nat → Nat) (str : List Nat) (sa : List Int) (bo : List Nat), n < fuel → 0 < n → Str str c n alpha →
    str[n]? = some (c n) → alpha ≤ W → (n + 1) / 2 ≤ W → sa.length = n + 1 → bo.length = W →
    ∃ sa' bo', ∃ p : Nat → Nat, saIs fuel str n alpha sa bo = some (sa', bo') ∧ bo'.length = W ∧ Rep sa' (n + 1) (fun t => ((p t : Nat) : Int)) ∧ p 0 = n ∧
      (∀ t, t ≤ n → p t ≤ n) ∧ ∀ t t', t < t' → t' ≤ n → Suf c n (p t) < Suf c n (p t') := by
  intro fuel
  induction fuel with
  | zero => intro n alpha c str sa bo h; omega
  | succ fuel ih =>
    intro n alpha c str sa bo hfuel hn hs hsn hW hW2 hsa hb
    have hstr : ∀ i, i ≤ n → str[i]? = some (c i) := by
      intro i hi
      rcases Nat.lt_or_ge i n with h | h
      · exact hs.get i h
      · rw [show i = n by omega]; exact hsn
    obtain ⟨types, ty, e1, htt, ht⟩ := setTypes_spec hn hs
    obtain ⟨sa1, bo1, p, e2, hb1, hsa1, hp⟩ := firstSort_spec ht hs htt hsa hb hW
    obtain ⟨sa2, e3, hl2, hsa2⟩ := compact_spec htt hp.le hsa1
    obtain ⟨hQ1, hQ2, hQ3, hQ4, hQ5⟩ := sortedLms_facts ht hp
    rw [saIs, e1, Option.bind_some, e2, Option.bind_some]
    simp only
    rw [e3, Option.bind_some]
    simp only
    generalize sortedLms n ty p (n + 1) = Q at *
    obtain ⟨n1, hn1⟩ : ∃ n1, n1 = Q.length := ⟨_, rfl⟩
    rw [← hn1]
    have hE := lmsList_length (n := n) (ty := ty)
    rw [← hQ3, ← hn1] at hE
    have hpos : 0 < n1 := by rw [hn1]; exact (List.getElem?_eq_some_iff.mp hQ4).1
    let q : Nat → Nat := fun t => Q.getD t 0
    have hq : ∀ t, t < n1 → Q[t]? = some (q t) := by
      intro t h
      show _ = some (Q.getD t 0)
      rw [List.getD_eq_getElem _ _ (by omega), List.getElem?_eq_getElem (by omega)]
    have hqL : ∀ t, t < n1 → Lms n ty (q t) := fun t h => (hQ2 _).mp (List.mem_of_getElem? (hq t h))
    have hidx : ∀ t, t < n1 → Q.idxOf (q t) = t := by
      intro t h
      have h1 := List.Nodup.idxOf_getElem hQ1 t (by omega)
      have h2 := hq t h
      rw [List.getElem?_eq_getElem (by omega)] at h2
      rwa [Option.some.inj h2] at h1
    have hsur : ∀ x, Lms n ty x → Q.idxOf x < n1 ∧ q (Q.idxOf x) = x := by
      intro x hx
      have h1 : Q.idxOf x < n1 := by rw [hn1]; exact List.idxOf_lt_length_of_mem ((hQ2 x).mpr hx)
      refine ⟨h1, ?_⟩
      have h2 := hq _ h1
      rw [List.getElem?_eq_getElem (by omega), List.getElem_idxOf] at h2
      exact (Option.some.inj h2).symm
    have hq0 : q 0 = n := by
      have := hq 0 hpos
      rw [hQ4] at this
      exact (Option.some.inj this).symm
    have hqi : ∀ t t', t < n1 → t' < n1 → q t = q t' → t = t' := by
      intro t t' h h' e
      rw [← hidx t h, ← hidx t' h', e]
    have hqn : ∀ t, 0 < t → t < n1 → q t < n := by
      intro t h1 h2
      have h3 := (hqL t h2).2.1
      rcases Nat.lt_or_ge (q t) n with h4 | h4
      · exact h4
      · have := hqi t 0 h2 hpos (by rw [hq0]; omega); omega
    have hle : ∀ t t', t ≤ t' → t' < n1 → key c n ty (fun _ => 0) (q t) ≤ key c n ty (fun _ => 0) (q t') := by
      intro t t' h h'
      rcases Nat.lt_or_ge t t' with h1 | h1
      · have h2 := List.pairwise_iff_getElem.mp hQ5 t t' (by omega) (by omega) h1
        have h3 := hq t (by omega)
        have h4 := hq t' h'
        rw [List.getElem?_eq_getElem (by omega)] at h3 h4
        rwa [Option.some.inj h3, Option.some.inj h4] at h2
      · rw [show t = t' by omega]
    obtain ⟨s, e4, hcnt, hl4, h41, h42, h43⟩ := nameLms_spec ht hstr htt hpos (show n1 + n / 2 ≤ n by omega) hq0 hqn
      (fun t t' h h' e => by
        by_contra h1
        have h2 : q t ≠ q t' := fun h3 => h1 (hqi t t' h h' h3)
        rcases Nat.lt_or_gt_of_ne h2 with h3 | h3
        · exact lms_succ (hqL t h) ((show q t' = q t + 1 by omega) ▸ hqL t' h')
        · exact lms_succ (hqL t' h') ((show q t = q t' + 1 by omega) ▸ hqL t h))
      hl2 (fun t h => hsa2 t _ (hq t h))
    rw [e4, Option.bind_some]
    let nm : Nat → Nat := fun x => nameAt c n ty q (Q.idxOf x)
    have hnm : ∀ t, t < n1 → nm (q t) = nameAt c n ty q t := fun t h => by
      show nameAt c n ty q (Q.idxOf (q t)) = _
      rw [hidx t h]
    have hlt : ∀ x y, Lms n ty x → Lms n ty y → nm x < nm y → Suf c n x < Suf c n y := by
      intro x y hx hy h
      obtain ⟨g1, g2⟩ := hsur x hx
      obtain ⟨g3, g4⟩ := hsur y hy
      generalize Q.idxOf x = t at g1 g2
      generalize Q.idxOf y = t' at g3 g4
      subst g2
      subst g4
      rw [hnm t g1, hnm t' g3] at h
      have htt' : t < t' := by
        by_contra h1
        have := nameAt_mono (c := c) (n := n) (ty := ty) q (show t' ≤ t by omega)
        omega
      rcases Nat.eq_zero_or_pos t with h1 | h1
      · subst h1
        rw [hq0, Suf_end (le_refl n), Suf_cons (hqn t' (by omega) g3)]
        exact List.nil_lt_cons _ _
      · refine ht.lt_of_key (ρ := fun _ => 0) (fun _ _ _ _ _ h2 => absurd h2 (lt_irrefl _)) (hqL t g1).2.1 (hqL t' g3).2.1 (lt_of_le_of_ne (hle t t' (by omega) g3) ?_)
        intro h2
        obtain ⟨d, rfl⟩ : ∃ d, t' = t + d := ⟨t' - t, by omega⟩
        have h3 := nameAt_const (c := c) (n := n) (ty := ty) q h1 d (fun x hx => by
          have h4 : ∀ z, t ≤ z → z ≤ t + d → key c n ty (fun _ => 0) (q z) = key c n ty (fun _ => 0) (q t) := by
            intro z hz1 hz2
            refine le_antisymm ?_ (hle t z hz1 (by omega))
            rw [h2]; exact hle z _ hz2 g3
          exact keyJ_of_key (ρ := fun _ => 0) (hqn _ (by omega) (by omega)) (hqn _ (by omega) (by omega)) ((h4 (t + x + 1) (by omega) (by omega)).trans (h4 (t + x) (by omega) (by omega)).symm))
        omega
    have heq : ∀ x y, Lms n ty x → Lms n ty y → x < n → y < n → nm x = nm y → keyJ c n ty x = keyJ c n ty y := by
      intro x y hx hy hxn hyn h
      obtain ⟨g1, g2⟩ := hsur x hx
      obtain ⟨g3, g4⟩ := hsur y hy
      generalize Q.idxOf x = t at g1 g2
      generalize Q.idxOf y = t' at g3 g4
      subst g2
      subst g4
      rw [hnm t g1, hnm t' g3] at h
      have h1 : 1 ≤ t := by
        rcases Nat.eq_zero_or_pos t with h1 | h1
        · rw [h1, hq0] at hxn; omega
        · exact h1
      have h2 : 1 ≤ t' := by
        rcases Nat.eq_zero_or_pos t' with h1 | h1
        · rw [h1, hq0] at hyn; omega
        · exact h1
      rcases Nat.le_total t t' with h3 | h3
      · obtain ⟨d, rfl⟩ : ∃ d, t' = t + d := ⟨t' - t, by omega⟩
        exact (nameAt_eq q h1 d h.symm).symm
      · obtain ⟨d, rfl⟩ : ∃ d, t = t' + d := ⟨t - t', by omega⟩
        exact nameAt_eq q h2 d h
    have hnmlt : ∀ x, Lms n ty x → nm x < s.cnt := by
      intro x hx
      obtain ⟨g1, _⟩ := hsur x hx
      have := nameAt_mono (c := c) (n := n) (ty := ty) q (show Q.idxOf x ≤ n1 - 1 by omega)
      show nameAt c n ty q (Q.idxOf x) < _
      omega
    have hcnt1 : s.cnt ≤ n1 := by
      have := nameAt_le (c := c) (n := n) (ty := ty) q 0 (n1 - 1)
      rw [Nat.zero_add, nameAt] at this
      omega
    obtain ⟨sa5, e5, hl5, h51, h52⟩ := gather_spec (n := n) (ty := ty) (n1 := n1) (by rw [hn1, hQ3]) (nm := nm) hl4
      (fun x hx => by
        obtain ⟨g1, g2⟩ := hsur x hx
        have := h42 _ g1
        rwa [g2] at this)
      (fun b hb h => h43 b hb fun t ht' => h _ (hqL t ht'))
    rw [e5, Option.bind_some]
    have hn1E : n1 = (lmsList n ty).length := by rw [hn1, hQ3]
    let E : Nat → Nat := fun k => (lmsList n ty).getD k 0
    have hEg : ∀ k, k < n1 → (lmsList n ty)[k]? = some (E k) := by
      intro k h
      show _ = some ((lmsList n ty).getD k 0)
      rw [List.getD_eq_getElem _ _ (by omega), List.getElem?_eq_getElem (by omega)]
    have hEL : ∀ k, k < n1 → Lms n ty (E k) := fun k h => mem_lmsList.mp (List.mem_of_getElem? (hEg k h))
    have h53 : ∀ k, k < n1 → sa5[n + 1 - n1 + k]? = some (nm (E k) : Int) := by
      intro k h
      rw [← List.getElem?_drop, h52, List.getElem?_map, hEg k h]
      rfl
    have hEi : ∀ k k', k < n1 → k' < n1 → E k = E k' → k = k' := by
      intro k k' h h' e
      have h1 := hEg k h
      have h2 := hEg k' h'
      rw [e, ← h2] at h1
      rw [List.getElem?_eq_getElem (by omega), List.getElem?_eq_getElem (by omega)] at h1
      exact (List.Nodup.getElem_inj_iff lmsList_nodup).mp (Option.some.inj h1)
    obtain ⟨⟨sa6, bo6⟩, e6, hb6, hl6, R, r, g1, g2, g3, g4, g5⟩ : ∃ s4, (if s.cnt = n1 then (invertNames n n1 sa5).map fun sa => (sa, bo1)
        else (saIs fuel ((sa5.drop (n + 1 - n1)).map Int.toNat) (n1 - 1) s.cnt (sa5.take n1) bo1).map fun r => (r.1 ++ sa5.drop n1, r.2)) = some s4 ∧
        s4.2.length = W ∧ s4.1.length = n + 1 ∧ ∃ R r : Nat → Nat, (∀ t, t < n1 → s4.1[t]? = some (R t : Int)) ∧ (∀ t, t < n1 → R t < n1) ∧
          (∀ t, t < n1 → (lmsList n ty)[R t]? = some (r t)) ∧ r 0 = n ∧ ∀ t t', t < t' → t' < n1 → Suf c n (r t) < Suf c n (r t') := by
      by_cases hc : s.cnt = n1
      · rw [if_pos hc]
        have hid : ∀ t, t < n1 → nm (q t) = t := by
          intro t h
          rw [hnm t h]
          have h1 := nameAt_le (c := c) (n := n) (ty := ty) q 0 t
          have h2 := nameAt_le (c := c) (n := n) (ty := ty) q t (n1 - 1 - t)
          rw [show t + (n1 - 1 - t) = n1 - 1 by omega] at h2
          rw [Nat.zero_add, nameAt] at h1
          omega
        have hnmi : ∀ x y, Lms n ty x → Lms n ty y → nm x = nm y → x = y := by
          intro x y hx hy e
          obtain ⟨g1, g2⟩ := hsur x hx
          obtain ⟨g3, g4⟩ := hsur y hy
          rw [← g2, ← g4, hid _ g1, hid _ g3] at e
          rw [← g2, ← g4, e]
        obtain ⟨sa6, e6, h61, h62⟩ := invertNames_spec (n := n) (n1 := n1) (by omega) (g := fun k => nm (E k)) (fun k h => by
            have := hnmlt _ (hEL k h); omega) (fun i j hi hj e => hEi i j hi hj (hnmi _ _ (hEL i hi) (hEL j hj) e)) hl5 h53
        have hmem : ∀ t, t < n1 → (lmsList n ty).idxOf (q t) < n1 ∧ E ((lmsList n ty).idxOf (q t)) = q t := by
          intro t h
          have h1 : (lmsList n ty).idxOf (q t) < n1 := by rw [hn1E]; exact List.idxOf_lt_length_of_mem (mem_lmsList.mpr (hqL t h))
          refine ⟨h1, ?_⟩
          have h2 := hEg _ h1
          rw [List.getElem?_eq_getElem (by omega), List.getElem_idxOf] at h2
          exact (Option.some.inj h2).symm
        refine ⟨(sa6, bo1), by rw [e6]; rfl, hb1, h61, fun t => (lmsList n ty).idxOf (q t), q, fun t h => ?_, fun t h => (hmem t h).1, fun t h => ?_, hq0, fun t t' h h' => ?_⟩
        · have h1 := h62 _ (hmem t h).1
          simp only [(hmem t h).2, hid t h] at h1
          exact h1
        · rw [hEg _ (hmem t h).1, (hmem t h).2]
        · exact hlt _ _ (hqL t (by omega)) (hqL t' h') (by rw [hid t (by omega), hid t' h']; exact h)
      · rw [if_neg hc]
        have hn2 : 0 < n1 - 1 := by
          rcases Nat.eq_zero_or_pos (n1 - 1) with h | h
          · rw [h, nameAt] at hcnt; omega
          · exact h
        have hstr1 : ∀ k, k < n1 → ((sa5.drop (n + 1 - n1)).map Int.toNat)[k]? = some (nm (E k)) := by
          intro k h
          rw [List.getElem?_map, List.getElem?_drop, h53 k h]
          rfl
        obtain ⟨sa6, bo6, p6, e6, h61, h62, h63, h64, h65⟩ := ih (n1 - 1) s.cnt (fun k => nm (E k)) ((sa5.drop (n + 1 - n1)).map Int.toNat) (sa5.take n1) bo1
          (by omega) hn2 ⟨fun i hi => hstr1 i (by omega), fun i hi => hnmlt _ (hEL i (by omega))⟩ (hstr1 _ (by omega)) (by omega) (by omega)
          (by rw [List.length_take]; omega) hb1
        rw [e6]
        have h66 : sa6.length = n1 := by rw [h62.len]; omega
        refine ⟨_, rfl, h61, by simp only; rw [List.length_append, List.length_drop]; omega, p6, fun t => E (p6 t), fun t h => ?_, fun t h => ?_, fun t h => ?_, ?_, fun t t' h h' => ?_⟩
        · simp only
          rw [List.getElem?_append_left (by omega), h62.get t (by omega)]
        · have := h64 t (by omega); omega
        · have := h64 t (by omega); exact hEg _ (by omega)
        · simp only
          rw [h63]
          -- the last leftmost S suffix is the empty one
          obtain ⟨m, hm⟩ := List.getElem?_of_mem (mem_lmsList.mpr ht.lms_n)
          have h3 := (List.getElem?_eq_some_iff.mp hm).1
          have h4 := List.pairwise_iff_getElem.mp (lmsList_sorted (n := n) (ty := ty))
          rcases Nat.lt_or_ge m (n1 - 1) with h5 | h5
          · have h6 := h4 m (n1 - 1) (by omega) (by omega) h5
            have h7 := hEg (n1 - 1) (by omega)
            rw [List.getElem?_eq_getElem (by omega)] at h7 hm
            rw [Option.some.inj h7, Option.some.inj hm] at h6
            have := (hEL (n1 - 1) (by omega)).2.1
            omega
          · obtain rfl : m = n1 - 1 := by omega
            rw [hEg _ (by omega)] at hm
            exact Option.some.inj hm
        · have h1 := h64 t (by omega)
          have h2 := h64 t' (by omega)
          exact reduced_lt ht hn1E (fun k x hk => by
            have h3 := (List.getElem?_eq_some_iff.mp hk).1
            rw [hEg k (by omega)] at hk
            rw [← Option.some.inj hk]) hlt heq _ _ _ _ (hEg _ (by omega)) (hEg _ (by omega)) (h65 t t' h (by omega))
    rw [e6, Option.bind_some]
    exact secondSort_spec ht hs htt hn1E g2 g3 g4 g5 hl6 g1 hb6 hW

end

end Altruct.SuffixArray
