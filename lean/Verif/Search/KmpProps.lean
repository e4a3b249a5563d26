/-
C15: `kmp_search` reports every occurrence.
-/
import Verif.Search.Model
import Mathlib.Order.Basic
import Mathlib.Tactic.Ring

namespace Altruct.Search

variable {α : Type*} [DecidableEq α]

/-! ### Specification -/

/-- All positions at which `p` occurs in `t`, in increasing order. -/
def occurrences (t p : List α) : List Nat :=
  (List.range (t.length + 1)).filter fun i => p.isPrefixOf (t.drop i)

/-- Report the given positions one by one until the callback, which sees everything
reported so far, declines to continue. -/
def reportUntil (cb : List Nat → Bool) (seen : List Nat) : List Nat → List Nat
  | [] => seen
  | x :: xs => if cb (seen ++ [x]) then reportUntil cb (seen ++ [x]) xs else seen ++ [x]

/-! ### Proof -/

/-- The prefix of `p` of length `j` is a suffix of `x.take i`. -/
def Match (p x : List α) (i j : Nat) : Prop :=
  j ≤ i ∧ i ≤ x.length ∧ j ≤ p.length ∧ ∀ k, k < j → x[i - j + k]? = p[k]?

omit [DecidableEq α] in
theorem Match.step {p x : List α} {i j : Nat} (hi : i < x.length) (hj : j < p.length) :
    Match p x (i + 1) (j + 1) ↔ Match p x i j ∧ x[i] = p[j] := by
  constructor
  · rintro ⟨h1, h2, h3, h4⟩
    refine ⟨⟨by omega, by omega, by omega, ?_⟩, ?_⟩
    · intro k hk
      have := h4 k (by omega)
      rwa [show i + 1 - (j + 1) + k = i - j + k by omega] at this
    · have := h4 j (by omega)
      rw [show i + 1 - (j + 1) + j = i by omega, List.getElem?_eq_getElem hi,
        List.getElem?_eq_getElem hj] at this
      exact Option.some.inj this
  · rintro ⟨⟨h1, h2, h3, h4⟩, h5⟩
    refine ⟨by omega, by omega, by omega, ?_⟩
    intro k hk
    rw [show i + 1 - (j + 1) + k = i - j + k by omega]
    by_cases hkj : k = j
    · subst hkj
      rw [show i - k + k = i by omega, List.getElem?_eq_getElem hi,
        List.getElem?_eq_getElem hj, h5]
    · exact h4 k (by omega)

omit [DecidableEq α] in
/-- Borders of a matched prefix are the shorter matches. -/
theorem Match.border {p x : List α} {i j k : Nat} (h : Match p x i j) (hkj : k ≤ j) :
    Match p p j k ↔ Match p x i k := by
  obtain ⟨h1, h2, h3, h4⟩ := h
  have key : ∀ l, l < k → x[i - k + l]? = p[j - k + l]? := by
    intro l hl
    have := h4 (j - k + l) (by omega)
    rwa [show i - j + (j - k + l) = i - k + l by omega] at this
  constructor
  · rintro ⟨a1, a2, a3, a4⟩
    exact ⟨by omega, h2, a3, fun l hl => by rw [key l hl, a4 l hl]⟩
  · rintro ⟨a1, a2, a3, a4⟩
    exact ⟨hkj, h3, a3, fun l hl => by rw [← key l hl, a4 l hl]⟩

/-- `b` holds the correct border lengths at the indices up to `J`. -/
def Table (p : List α) (b : List Int) (J : Nat) : Prop :=
  b.length = p.length + 1 ∧ b[0]? = some (-1) ∧
  ∀ j, 0 < j → j ≤ J → ∃ v : Nat, b[j]? = some (v : Int) ∧ v < j ∧ Match p p j v ∧
    ∀ k, k < j → Match p p j k → k ≤ v

theorem fall_spec (p x : List α) (b : List Int) (i : Nat) (hi : i < x.length) (J : Nat) (hJ : J ≤ p.length)
    (hb : Table p b J) (j : Int) (hj : -1 ≤ j) (hjJ : j ≤ J) (hjp : j < p.length)
    (hm : 0 ≤ j → Match p x i j.toNat) :
    ∃ r : Int, fall p b x[i] j = some r ∧ -1 ≤ r ∧ r ≤ j ∧
      (0 ≤ r → Match p x (i + 1) (r + 1).toNat) ∧
      ∀ k : Nat, (k : Int) ≤ j → Match p x (i + 1) (k + 1) → (k : Int) ≤ r := by
  induction hn : (j + 1).toNat using Nat.strong_induction_on generalizing j with
  | _ n ih =>
    rw [fall]
    by_cases h1 : j = -1
    · subst h1
      exact ⟨-1, by simp, by omega, by omega, by omega, by omega⟩
    · obtain ⟨m, rfl⟩ := Int.eq_ofNat_of_zero_le (by omega : 0 ≤ j)
      have hmp : m < p.length := by omega
      simp only [h1, if_false, Int.toNat_natCast, List.getElem?_eq_getElem hmp]
      by_cases hc : x[i] = p[m]
      · refine ⟨m, by simp [hc], by omega, by omega, ?_, fun k hk _ => hk⟩
        intro _
        have := (Match.step hi hmp).mpr ⟨by simpa using hm (by omega), hc⟩
        rwa [show ((m : Int) + 1).toNat = m + 1 by omega]
      · have hmm : Match p x i m := by simpa using hm (by omega)
        rw [if_pos (by simpa using hc)]
        by_cases hm0 : m = 0
        · subst hm0
          refine ⟨-1, ?_, by omega, by omega, by omega, ?_⟩
          · rw [hb.2.1]; simp [fall]
          · intro k hk hk2
            have : k = 0 := by omega
            subst this
            exact absurd ((Match.step hi hmp).mp hk2).2 hc
        · obtain ⟨v, hv1, hv2, hv3, hv4⟩ := hb.2.2 m (by omega) (by omega)
          simp only [hv1]
          rw [if_pos (by omega)]
          obtain ⟨r, e, r1, r2, r3, r4⟩ := ih ((v : Int) + 1).toNat (by omega) v (by omega) (by omega)
            (by omega) (fun _ => by simpa using (hmm.border (by omega)).mp hv3) rfl
          refine ⟨r, e, r1, by omega, r3, ?_⟩
          intro k hk hk2
          have hkm : k ≠ m := by
            rintro rfl
            exact hc ((Match.step hi hmp).mp hk2).2
          have hkl : k < m := by omega
          have hk3 := ((Match.step hi (by omega)).mp hk2).1
          have := hv4 k hkl ((hmm.border (by omega)).mpr hk3)
          exact r4 k (by omega) hk2

theorem build_spec (p : List α) (i : Nat) (hi : i ≤ p.length) (j : Int) (b : List Int)
    (hj1 : -1 ≤ j) (hji : j < i) (hb : Table p b i)
    (hm : 0 ≤ j → Match p p i j.toNat) (hmax : ∀ k : Nat, k < i → Match p p i k → (k : Int) ≤ j) :
    ∃ b', build p i j b = some b' ∧ Table p b' p.length := by
  induction hn : p.length - i generalizing i j b with
  | zero =>
    have : i = p.length := by omega
    subst this
    rw [build, dif_neg (by omega)]
    exact ⟨b, rfl, hb⟩
  | succ n ih =>
    have hlt : i < p.length := by omega
    rw [build, dif_pos hlt]
    obtain ⟨r, e, r1, r2, r3, r4⟩ := fall_spec p p b i hlt i hi hb j hj1 (by omega) (by omega) hm
    simp only [e]
    rw [if_pos (by rw [hb.1]; omega)]
    obtain ⟨s, hs⟩ := Int.eq_ofNat_of_zero_le (by omega : 0 ≤ r + 1)
    have m0 : Match p p (i + 1) s := by
      by_cases h0 : 0 ≤ r
      · have := r3 h0
        rwa [hs, Int.toNat_natCast] at this
      · have : s = 0 := by omega
        subst this
        exact ⟨by omega, by omega, by omega, by omega⟩
    have mx : ∀ k : Nat, k < i + 1 → Match p p (i + 1) k → (k : Int) ≤ s := by
      intro k hk hk2
      cases k with
      | zero => omega
      | succ k =>
        have hk3 := ((Match.step hlt (by omega)).mp hk2).1
        have := hmax k (by omega) hk3
        have := r4 k this hk2
        omega
    apply ih (i + 1) (by omega) (r + 1) _ (by omega) (by omega) _ _ _ (by omega)
    · refine ⟨by rw [List.length_set, hb.1], by rw [List.getElem?_set_ne (by omega), hb.2.1], ?_⟩
      intro k hk0 hki
      by_cases hk : k = i + 1
      · subst hk
        refine ⟨s, ?_, by omega, m0, fun k hk hk2 => by have := mx k hk hk2; omega⟩
        rw [List.getElem?_set_self (by rw [hb.1]; omega), hs]
      · rw [List.getElem?_set_ne (by omega)]
        exact hb.2.2 k hk0 (by omega)
    · intro _; rw [hs, Int.toNat_natCast]; exact m0
    · intro k hk hk2; rw [hs]; exact mx k hk hk2

/-- The positions of the occurrences that end after index `i`. -/
def occFrom (t p : List α) (i : Nat) : List Nat :=
  ((List.range' (i + 1) (t.length - i)).filter
    fun e => decide (p.length ≤ e) && p.isPrefixOf (t.drop (e - p.length))).map (· - p.length)

theorem match_iff_prefix (t p : List α) (e : Nat) (he : e ≤ t.length) :
    Match p t e p.length ↔ p.length ≤ e ∧ p.isPrefixOf (t.drop (e - p.length)) = true := by
  rw [List.isPrefixOf_iff_prefix, List.prefix_iff_getElem?]
  constructor
  · rintro ⟨h1, h2, h3, h4⟩
    refine ⟨h1, fun k hk => ?_⟩
    rw [List.getElem?_drop, h4 k hk, List.getElem?_eq_getElem hk]
  · rintro ⟨h1, h2⟩
    refine ⟨h1, he, le_refl _, fun k hk => ?_⟩
    rw [List.getElem?_eq_getElem hk, ← h2 k hk, List.getElem?_drop]

open Classical in
theorem occFrom_succ (t p : List α) (i : Nat) (hi : i < t.length) :
    occFrom t p i = if Match p t (i + 1) p.length then (i + 1 - p.length) :: occFrom t p (i + 1)
      else occFrom t p (i + 1) := by
  unfold occFrom
  rw [show t.length - i = (t.length - (i + 1)) + 1 by omega, List.range'_succ, List.filter_cons]
  have := match_iff_prefix t p (i + 1) (by omega)
  by_cases h : Match p t (i + 1) p.length
  · have h' := this.mp h
    rw [if_pos h]
    simp [h'.1, h'.2]
  · rw [if_neg h]
    have h' : (decide (p.length ≤ i + 1) && p.isPrefixOf (t.drop (i + 1 - p.length))) = false := by
      rw [Bool.eq_false_iff]; intro hc
      simp only [Bool.and_eq_true, decide_eq_true_eq] at hc
      exact h (this.mpr hc)
    rw [h']; rfl

theorem searchLoop_spec (t p : List α) (b : List Int) (cb : List Nat → Bool) (hp : 0 < p.length)
    (hb : Table p b p.length) (i : Nat) (hi : i ≤ t.length) (j : Int) (r : Nat) (calls : List Nat)
    (hj1 : 0 ≤ j) (hjp : j < p.length) (hm : Match p t i j.toNat)
    (hmax : ∀ k : Nat, k < p.length → Match p t i k → (k : Int) ≤ j)
    (hr : r = calls.getLast?.getD t.length) :
    searchLoop t p b cb i j r calls =
      some (reportUntil cb calls (occFrom t p i),
        (reportUntil cb calls (occFrom t p i)).getLast?.getD t.length) := by
  induction hn : t.length - i generalizing i j r calls with
  | zero =>
    have : i = t.length := by omega
    subst this
    rw [searchLoop, dif_neg (by omega)]
    simp [occFrom, reportUntil, hr]
  | succ n ih =>
    have hlt : i < t.length := by omega
    rw [searchLoop, dif_pos hlt]
    obtain ⟨q, e, r1, r2, r3, r4⟩ :=
      fall_spec p t b i hlt p.length le_rfl hb j (by omega) (by omega) (by omega) (fun _ => hm)
    simp only [e]
    obtain ⟨s, hs⟩ := Int.eq_ofNat_of_zero_le (by omega : 0 ≤ q + 1)
    have m0 : Match p t (i + 1) s := by
      by_cases h0 : 0 ≤ q
      · have := r3 h0
        rwa [hs, Int.toNat_natCast] at this
      · have : s = 0 := by omega
        subst this
        exact ⟨by omega, by omega, by omega, by omega⟩
    have mx : ∀ k : Nat, k ≤ p.length → Match p t (i + 1) k → (k : Int) ≤ s := by
      intro k hk hk2
      cases k with
      | zero => omega
      | succ k =>
        have hk3 := ((Match.step hlt (by omega)).mp hk2).1
        have := hmax k (by omega) hk3
        have := r4 k this hk2
        omega
    rw [occFrom_succ t p i hlt, hs]
    by_cases hsp : s = p.length
    · subst hsp
      rw [if_pos rfl, if_pos m0]
      simp only [Int.toNat_natCast, reportUntil]
      by_cases hcb : cb (calls ++ [i + 1 - p.length]) = true
      · simp only [hcb, Bool.not_true, if_true]
        obtain ⟨v, hv1, hv2, hv3, hv4⟩ := hb.2.2 p.length hp le_rfl
        simp only [hv1]
        apply ih (i + 1) (by omega) v _ _ (by omega) (by omega) _ _ _ (by omega)
        · rw [Int.toNat_natCast]; exact (m0.border (by omega)).mp hv3
        · intro k hk hk2
          have := hv4 k hk ((m0.border (by omega)).mpr hk2)
          omega
        · simp
      · simp [hcb]
    · rw [if_neg (by omega)]
      have hnm : ¬ Match p t (i + 1) p.length := by
        intro hc
        have := mx p.length le_rfl hc
        have := m0.2.2.1
        omega
      rw [if_neg hnm]
      apply ih (i + 1) (by omega) s r calls (by omega) (by have := m0.2.2.1; omega) _ _ hr (by omega)
      · rw [Int.toNat_natCast]; exact m0
      · intro k hk hk2; exact mx k (by omega) hk2

theorem occFrom_zero (t p : List α) (hp : 0 < p.length) (hpt : p.length ≤ t.length) :
    occFrom t p 0 = occurrences t p := by
  unfold occFrom occurrences
  have e1 : List.range' (0 + 1) (t.length - 0) =
      List.range' 1 (p.length - 1) ++ List.range' p.length (t.length + 1 - p.length) := by
    have := @List.range'_append_1 1 (p.length - 1) (t.length + 1 - p.length)
    rw [show 1 + (p.length - 1) = p.length by omega,
      show (p.length - 1) + (t.length + 1 - p.length) = t.length - 0 by omega] at this
    exact this.symm
  have e2 : List.range (t.length + 1) =
      List.range (t.length + 1 - p.length) ++ List.range' (t.length + 1 - p.length) p.length := by
    have := @List.range'_append_1 0 (t.length + 1 - p.length) p.length
    rw [List.range_eq_range', List.range_eq_range']
    rw [Nat.zero_add, show (t.length + 1 - p.length) + p.length = t.length + 1 by omega] at this
    exact this.symm
  rw [e1, e2, List.filter_append, List.filter_append]
  have z1 : (List.range' 1 (p.length - 1)).filter
      (fun e => decide (p.length ≤ e) && p.isPrefixOf (t.drop (e - p.length))) = [] := by
    rw [List.filter_eq_nil_iff]
    intro a ha
    rw [List.mem_range'_1] at ha
    simp only [Bool.and_eq_true, decide_eq_true_eq, not_and]
    omega
  have z2 : (List.range' (t.length + 1 - p.length) p.length).filter
      (fun i => p.isPrefixOf (t.drop i)) = [] := by
    rw [List.filter_eq_nil_iff]
    intro a ha
    rw [List.mem_range'_1] at ha
    rw [List.isPrefixOf_iff_prefix]
    intro hc
    have := hc.length_le
    rw [List.length_drop] at this
    omega
  rw [z1, z2, List.nil_append, List.append_nil]
  have e3 : List.range' p.length (t.length + 1 - p.length) =
      (List.range (t.length + 1 - p.length)).map (· + p.length) := by
    have := @List.map_add_range' p.length 0 (t.length + 1 - p.length) 1
    rw [List.range_eq_range']
    refine Eq.trans (by simp) (this.symm.trans ?_)
    apply List.map_congr_left
    intro a _; exact Nat.add_comm _ _
  rw [e3, List.filter_map, List.map_map]
  have : ((fun x => x - p.length) ∘ fun x => x + p.length) = id := by
    funext x; simp
  rw [this, List.map_id]
  apply List.filter_congr
  intro a _
  simp

/-- C15: for every non-empty pattern, every text and every (possibly stateful) callback,
`kmp_search` performs no out-of-bounds access, terminates, calls the callback with
exactly the occurrences of the pattern in increasing order, until the callback declines,
and returns the last reported position (or the length of the text). -/
theorem C15_kmp_search (t p : List α) (cb : List Nat → Bool) (hp : p ≠ []) :
    kmpSearch t p cb = some (reportUntil cb [] (occurrences t p),
      (reportUntil cb [] (occurrences t p)).getLast?.getD t.length) := by
  have hp0 : 0 < p.length := List.length_pos_iff.mpr hp
  rw [kmpSearch, if_neg (by omega)]
  by_cases hpt : p.length > t.length
  · rw [if_pos hpt]
    have : occurrences t p = [] := by
      unfold occurrences
      rw [List.filter_eq_nil_iff]
      intro a _
      rw [List.isPrefixOf_iff_prefix]
      intro hc
      have := hc.length_le
      rw [List.length_drop] at this
      omega
    simp [this, reportUntil]
  · rw [if_neg hpt]
    obtain ⟨b, e, hb⟩ := build_spec p 0 (by omega) (-1) (List.replicate (p.length + 1) (-1))
      (by omega) (by omega) ⟨by simp, by simp, by omega⟩ (by omega) (by omega)
    simp only [e]
    rw [searchLoop_spec t p b cb hp0 hb 0 (by omega) 0 _ _ le_rfl (by omega)
      ⟨by simp, by omega, by simp, fun k hk => by simp at hk⟩ ?_ (by simp), occFrom_zero t p hp0 (by omega)]
    rintro k hk ⟨h1, -⟩
    omega

/-- C15: with a callback that never stops, all occurrences are reported, each once. -/
theorem C15_kmp_search_all (t p : List α) (hp : p ≠ []) :
    ∃ r, kmpSearch t p (fun _ => true) = some (occurrences t p, r) := by
  have aux : ∀ l seen, reportUntil (fun _ => true) seen l = seen ++ l := by
    intro l
    induction l with
    | nil => intro seen; simp [reportUntil]
    | cons x xs ih => intro seen; simp [reportUntil, ih]
  rw [C15_kmp_search t p _ hp, aux]
  exact ⟨_, rfl⟩

/-- The specification says what one expects. -/
theorem mem_occurrences (t p : List α) (i : Nat) :
    i ∈ occurrences t p ↔ i ≤ t.length ∧ p <+: t.drop i := by
  simp [occurrences, Nat.lt_succ_iff]

theorem occurrences_sorted (t p : List α) : (occurrences t p).Pairwise (· < ·) :=
  List.Pairwise.filter _ List.pairwise_lt_range

example : kmpSearch [0, 1, 0, 1, 0, 0, 1, 0] [0, 1, 0] (fun _ => true) = some ([0, 2, 5], 5) := by
  decide +kernel

example : kmpSearch [0, 1, 0, 1, 0, 0, 1, 0] [0, 1, 0] (fun l => l.length < 2) =
    some ([0, 2], 2) := by
  decide +kernel

/-- The empty pattern is not searched for: no position is reported (kmp_search.h:27). -/
theorem C15_empty_pattern (t : List α) (cb : List Nat → Bool) :
    kmpSearch t [] cb = some ([], 0) := by
  simp [kmpSearch]

end Altruct.Search
