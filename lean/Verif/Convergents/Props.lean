/-
C45: continued fractions of rationals and their convergents.
-/
import Verif.Convergents.Model
import Mathlib.Data.Int.GCD
import Mathlib.Data.Rat.Defs
import Mathlib.Algebra.Order.Field.Rat
import Mathlib.Tactic.Ring
import Mathlib.Tactic.LinearCombination
import Mathlib.Tactic.FieldSimp
import Mathlib.Tactic.Positivity
import Mathlib.Tactic.Linarith
import Mathlib.RingTheory.Coprime.Lemmas

namespace Altruct.Convergents

/-! ### Specification -/

/-- The value of the continued fraction `[a0, a1, ...]`; the empty tail contributes nothing. -/
def cfVal : List Int → ℚ
  | [] => 0
  | [a] => a
  | a :: b :: l => a + 1 / cfVal (b :: l)

theorem cfVal_cons (a : Int) (l : List Int) : cfVal (a :: l) = a + (cfVal l)⁻¹ := by
  cases l with
  | nil => simp [cfVal]
  | cons b l => rw [cfVal, one_div]

/-! ### `continued_fraction` -/

theorem cfLoop_zero (fuel : Nat) (p : Int) : cfLoop fuel p 0 = some [] := by
  cases fuel <;> rfl

theorem cfLoop_value : ∀ (fuel : Nat) (p q : Int), q.natAbs ≤ fuel →
    ∃ va, cfLoop fuel p q = some va ∧ (q ≠ 0 → cfVal va = p / q) ∧ (q = 0 → va = []) := by
  intro fuel
  induction fuel with
  | zero =>
    intro p q hq
    have : q = 0 := by omega
    exact ⟨[], by rw [cfLoop, if_pos this], fun h => absurd this h, fun _ => rfl⟩
  | succ fuel ih =>
    intro p q hq
    rw [cfLoop]
    by_cases h0 : q = 0
    · exact ⟨[], by rw [if_pos h0], fun h => absurd h0 h, fun _ => rfl⟩
    · rw [if_neg h0]
      have hlt : (p.tmod q).natAbs < q.natAbs := by
        rw [Int.natAbs_tmod]
        exact Nat.mod_lt _ (by omega)
      obtain ⟨va, h1, h2, h3⟩ := ih q (p.tmod q) (by omega)
      refine ⟨p.tdiv q :: va, by rw [h1]; rfl, fun _ => ?_, fun h => absurd h h0⟩
      rw [cfVal_cons]
      have hd := Int.mul_tdiv_add_tmod p q
      have hq' : (q : ℚ) ≠ 0 := by exact_mod_cast h0
      by_cases hr : p.tmod q = 0
      · rw [h3 hr, cfVal, inv_zero, add_zero, eq_div_iff hq']
        rw [hr] at hd
        have : ((q * p.tdiv q + 0 : Int) : ℚ) = p := by rw [hd]
        push_cast at this
        linarith
      · have hr' : ((p.tmod q : Int) : ℚ) ≠ 0 := by exact_mod_cast hr
        rw [h2 hr, inv_div, eq_div_iff hq']
        have : ((q * p.tdiv q + p.tmod q : Int) : ℚ) = p := by rw [hd]
        push_cast at this
        field_simp
        linarith

/-- `continued_fraction` terminates and its terms have the value `p / q`, for every sign. -/
theorem C45_cf_value (p q : Int) (hq : q ≠ 0) : ∃ va, continuedFraction p q = some va ∧ cfVal va = p / q := by
  obtain ⟨va, h1, h2, _⟩ := cfLoop_value q.natAbs p q le_rfl
  exact ⟨va, h1, h2 hq⟩

theorem cfLoop_terms : ∀ (fuel : Nat) (p q : Int) (va : List Int), 0 ≤ p → 0 < q →
    cfLoop fuel p q = some va → ∃ a l, va = a :: l ∧ 0 ≤ a ∧ (∀ x ∈ l, 1 ≤ x) ∧ (q ≤ p → 1 ≤ a) ∧
      (∀ x, l.getLast? = some x → 2 ≤ x) ∧ (l = [] → q < p → 2 ≤ a) := by
  intro fuel
  induction fuel with
  | zero => intro p q va _ hq h; rw [cfLoop, if_neg (by omega)] at h; simp at h
  | succ fuel ih =>
    intro p q va hp hq h
    rw [cfLoop, if_neg (by omega)] at h
    simp only [Option.map_eq_some_iff] at h
    obtain ⟨l, h1, rfl⟩ := h
    have hr0 : 0 ≤ p.tmod q := Int.tmod_nonneg _ hp
    have hr1 : p.tmod q < q := Int.tmod_lt_of_pos _ hq
    have hd : 0 ≤ p.tdiv q := Int.tdiv_nonneg hp hq.le
    have hdm := Int.mul_tdiv_add_tmod p q
    have h1' : q ≤ p → 1 ≤ p.tdiv q := by
      intro h
      by_contra h2
      have : p.tdiv q = 0 := by omega
      rw [this] at hdm
      omega
    refine ⟨_, l, rfl, hd, ?_, h1', ?_, ?_⟩
    · rcases lt_or_eq_of_le hr0 with h | h
      · obtain ⟨b, l', rfl, h3, h4, h5, _⟩ := ih q (p.tmod q) l hq.le h h1
        intro x hx
        rcases List.mem_cons.mp hx with rfl | hx
        · exact h5 hr1.le
        · exact h4 x hx
      · rw [← h, cfLoop_zero] at h1
        have h1 := (Option.some.inj h1)
        simp [← h1]
    · rcases lt_or_eq_of_le hr0 with h | h
      · obtain ⟨b, l', rfl, h3, h4, h5, h6, h7⟩ := ih q (p.tmod q) l hq.le h h1
        intro x hx
        cases l' with
        | nil =>
          simp at hx
          rw [← hx]
          exact h7 rfl hr1
        | cons y l' =>
          rw [List.getLast?_cons_cons] at hx
          exact h6 x hx
      · rw [← h, cfLoop_zero] at h1
        have h1 := (Option.some.inj h1)
        simp [← h1]
    · intro hl hlt
      have hr : p.tmod q = 0 := by
        rcases lt_or_eq_of_le hr0 with h | h
        · obtain ⟨b, l', e, _⟩ := ih q (p.tmod q) l hq.le h h1
          rw [hl] at e
          simp at e
        · exact h.symm
      rw [hr, add_zero] at hdm
      by_contra h2
      have : p.tdiv q ≤ 1 := by omega
      nlinarith

/-- For `p >= 0`, `q > 0` the terms after the first are positive and the last of them is at least `2`
(the canonical expansion). -/
theorem C45_cf_terms {p q : Int} (hp : 0 ≤ p) (hq : 0 < q) {va : List Int}
    (h : continuedFraction p q = some va) : ∃ a l, va = a :: l ∧ 0 ≤ a ∧ (∀ x ∈ l, 1 ≤ x) ∧
      ∀ x, l.getLast? = some x → 2 ≤ x := by
  obtain ⟨a, l, h1, h2, h3, _, h5, _⟩ := cfLoop_terms _ p q va hp hq h
  exact ⟨a, l, h1, h2, h3, h5⟩

/-! ### `convergents` -/

/-- The convergents from a given state. -/
def conv (p1 p2 q1 q2 : Int) : List Int → List (Int × Int)
  | [] => []
  | a :: va => (a * p1 + p2, a * q1 + q2) :: conv (a * p1 + p2) p1 (a * q1 + q2) q1 va

theorem semiLoop_spec (p1 p2 q1 q2 : Int) : ∀ (count : Nat) (a : Int) (pq : Int × Int)
    (out : List (Int × Int)), semiLoop p1 p2 q1 q2 (count + 1) a pq out =
      (((a + count) * p1 + p2, (a + count) * q1 + q2),
        out ++ (List.range (count + 1)).map (fun i : Nat => ((a + i) * p1 + p2, (a + i) * q1 + q2))) := by
  intro count
  induction count with
  | zero => intro a pq out; simp [semiLoop]
  | succ count ih =>
    intro a pq out
    rw [semiLoop, ih]
    have hr : (List.range (count + 1 + 1)).map (fun i : Nat => ((a + i) * p1 + p2, (a + i) * q1 + q2)) =
        (a * p1 + p2, a * q1 + q2) ::
          (List.range (count + 1)).map (fun i : Nat => ((a + 1 + i) * p1 + p2, (a + 1 + i) * q1 + q2)) := by
      rw [List.range_succ_eq_map, List.map_cons, List.map_map]
      congr 1
      · simp
      · apply List.map_congr_left
        intro i _
        simp only [Function.comp, Nat.succ_eq_add_one]
        push_cast
        rw [show a + 1 + (i : Int) = a + (i + 1) by ring]
    rw [hr]
    push_cast
    rw [show a + 1 + (count : Int) = a + (count + 1) by ring]
    simp

/-- With `semi >= 0` and non-negative terms: the proper convergents occur in order, the last pair is the last
convergent, and all pairs are reduced. -/
theorem convLoop_spec (semi : Int) (hsemi : 0 ≤ semi) : ∀ (va : List Int) (p1 p2 q1 q2 : Int) (pq : Int × Int)
    (out : List (Int × Int)), (∀ a ∈ va, 0 ≤ a) →
    ∃ X, convLoop semi va p1 p2 q1 q2 pq out = out ++ X ∧ (conv p1 p2 q1 q2 va).Sublist X ∧
      X.getLast? = (conv p1 p2 q1 q2 va).getLast? ∧ (semi = 0 → X = conv p1 p2 q1 q2 va) ∧
      ((p1 * q2 - p2 * q1) ^ 2 = 1 → ∀ x ∈ X, IsCoprime x.1 x.2) := by
  intro va
  induction va with
  | nil => intro p1 p2 q1 q2 pq out _; exact ⟨[], by simp [convLoop], by simp [conv], by simp [conv],
      fun _ => by simp [conv], fun _ => by simp⟩
  | cons a va ih =>
    intro p1 p2 q1 q2 pq out hva
    have ha : 0 ≤ a := hva a (by simp)
    have hmin : 0 ≤ min semi (a.tdiv 2) := le_min hsemi (Int.tdiv_nonneg ha (by omega))
    obtain ⟨k, hk⟩ := Int.eq_ofNat_of_zero_le hmin
    rw [convLoop, hk]
    rw [show (a - (a - (k : Int)) + 1).toNat = k + 1 by omega, semiLoop_spec]
    simp only [sub_add_cancel]
    obtain ⟨X, h1, h2, h3, h4, h5⟩ := ih (a * p1 + p2) p1 (a * q1 + q2) q1 (a * p1 + p2, a * q1 + q2)
      (out ++ (List.range (k + 1)).map (fun i : Nat => ((a - k + i) * p1 + p2, (a - k + i) * q1 + q2)))
      (fun x hx => hva x (by simp [hx]))
    have hlast : (List.range (k + 1)).map (fun i : Nat => ((a - k + i) * p1 + p2, (a - k + i) * q1 + q2)) =
        (List.range k).map (fun i : Nat => ((a - k + i) * p1 + p2, (a - k + i) * q1 + q2)) ++
          [(a * p1 + p2, a * q1 + q2)] := by
      rw [List.range_succ, List.map_append]
      simp
    refine ⟨_, by rw [h1, List.append_assoc], ?_, ?_, ?_, ?_⟩
    · rw [hlast, conv, List.append_assoc, List.singleton_append]
      exact (h2.cons_cons _).trans (List.sublist_append_right _ _)
    · rw [hlast, conv, List.append_assoc, List.singleton_append, List.getLast?_append, List.getLast?_cons,
        List.getLast?_cons, h3]
      rfl
    · intro hs0
      rw [hs0] at hk
      have : k = 0 := by
        have : min (0 : Int) (a.tdiv 2) ≤ 0 := min_le_left _ _
        omega
      subst this
      rw [h4 hs0, conv]
      simp
    · intro hdet x hx
      rcases List.mem_append.mp hx with hx | hx
      · obtain ⟨i, _, rfl⟩ := List.mem_map.mp hx
        set b := a - (k : Int) + i
        refine ⟨(p1 * q2 - p2 * q1) * (-q1), (p1 * q2 - p2 * q1) * p1, ?_⟩
        simp only
        linear_combination hdet
      · exact h5 (by linear_combination hdet) x hx

theorem conv_linear : ∀ (va : List Int) (p1 p2 q1 q2 : Int), conv p1 p2 q1 q2 va =
    (conv 1 0 0 1 va).map (fun x => (p1 * x.1 + p2 * x.2, q1 * x.1 + q2 * x.2)) := by
  intro va
  induction va with
  | nil => intro p1 p2 q1 q2; simp [conv]
  | cons a va ih =>
    intro p1 p2 q1 q2
    rw [conv, ih, conv, ih (a * 1 + 0) 1, List.map_cons, List.map_map]
    congr 1
    · simp only [Prod.mk.injEq]
      constructor <;> ring
    · apply List.map_congr_left
      intro x _
      simp only [Function.comp, Prod.mk.injEq]
      constructor <;> ring

theorem conv_cons (a : Int) (va : List Int) : conv 1 0 0 1 (a :: va) =
    (a, 1) :: (conv 1 0 0 1 va).map (fun x => (a * x.1 + x.2, x.1)) := by
  rw [conv, conv_linear]
  simp

theorem conv_length : ∀ (va : List Int) (p1 p2 q1 q2 : Int), (conv p1 p2 q1 q2 va).length = va.length := by
  intro va
  induction va with
  | nil => intro p1 p2 q1 q2; rfl
  | cons a va ih => intro p1 p2 q1 q2; rw [conv, List.length_cons, ih, List.length_cons]

theorem convergents_zero {va : List Int} (h : ∀ a ∈ va, 0 ≤ a) : convergents va 0 = conv 1 0 0 1 va := by
  obtain ⟨X, h1, _, _, h4, _⟩ := convLoop_spec 0 le_rfl va 1 0 0 1 (0, 1) [] h
  rw [convergents, h1, h4 rfl, List.nil_append]

theorem conv_value : ∀ (va : List Int), (∀ a ∈ va.tail, 1 ≤ a) → (∀ a, va.head? = some a → 0 ≤ a) →
    ∀ (k : Nat) (x : Int × Int), (conv 1 0 0 1 va)[k]? = some x →
      0 < x.2 ∧ 0 ≤ x.1 ∧ ((∀ a ∈ va, 1 ≤ a) → 0 < x.1) ∧ (x.1 : ℚ) / x.2 = cfVal (va.take (k + 1)) := by
  intro va
  induction va with
  | nil => intro _ _ k x h; simp [conv] at h
  | cons a va ih =>
    intro ht hh k x hx
    have ha : 0 ≤ a := hh a rfl
    simp only [List.tail_cons] at ht
    rw [conv_cons] at hx
    cases k with
    | zero =>
      simp at hx
      subst hx
      refine ⟨by simp, ha, fun h => by have := h a (by simp); simp; omega, ?_⟩
      rw [List.take_succ_cons, List.take_zero, cfVal]
      simp
    | succ k =>
      rw [List.getElem?_cons_succ, List.getElem?_map, Option.map_eq_some_iff] at hx
      obtain ⟨y, hy, rfl⟩ := hx
      obtain ⟨h1, h2, h3, h4⟩ := ih (fun b hb => ht b (List.mem_of_mem_tail hb))
        (fun b hb => by have := ht b (List.mem_of_mem_head? hb); omega) k y hy
      have h3 := h3 ht
      have h6 := mul_nonneg ha h3.le
      refine ⟨h3, by simp only; omega, fun _ => by simp only; omega, ?_⟩
      rw [List.take_succ_cons, cfVal_cons, ← h4, inv_div]
      have : (y.1 : ℚ) ≠ 0 := by exact_mod_cast (ne_of_gt h3)
      push_cast
      field_simp

/-- The `k`-th convergent is the value of the first `k + 1` terms, with a positive denominator
(first term non-negative, the others positive). -/
theorem C45_convergent_value {va : List Int} (h0 : ∀ a, va.head? = some a → 0 ≤ a)
    (h1 : ∀ a ∈ va.tail, 1 ≤ a) :
    (convergents va).length = va.length ∧
    ∀ (k : Nat) (p q : Int), (convergents va)[k]? = some (p, q) →
      0 < q ∧ IsCoprime p q ∧ (p : ℚ) / q = cfVal (va.take (k + 1)) := by
  have hall : ∀ a ∈ va, 0 ≤ a := by
    intro a ha
    cases va with
    | nil => simp at ha
    | cons b va =>
      rcases List.mem_cons.mp ha with rfl | ha
      · exact h0 a rfl
      · have := h1 a ha; omega
  have hcop : ∀ x ∈ convergents va, IsCoprime x.1 x.2 := by
    obtain ⟨X, e, _, _, _, h5⟩ := convLoop_spec 0 le_rfl va 1 0 0 1 (0, 1) [] hall
    rw [convergents, e, List.nil_append]
    exact h5 (by norm_num)
  refine ⟨by rw [convergents_zero hall, conv_length], fun k p q hk => ?_⟩
  have hm := hcop _ (List.mem_of_getElem? hk)
  rw [convergents_zero hall] at hk
  obtain ⟨a, _, _, d⟩ := conv_value va h1 h0 k _ hk
  exact ⟨a, hm, d⟩

theorem conv_det : ∀ (va : List Int) (p1 p2 q1 q2 : Int) (k : Nat) (x y : Int × Int),
    (conv p1 p2 q1 q2 va)[k]? = some x → (conv p1 p2 q1 q2 va)[k + 1]? = some y →
    y.1 * x.2 - x.1 * y.2 = (-1) ^ k * (p1 * q2 - p2 * q1) := by
  intro va
  induction va with
  | nil => intro p1 p2 q1 q2 k x y h; simp [conv] at h
  | cons a va ih =>
    intro p1 p2 q1 q2 k x y hx hy
    rw [conv] at hx hy
    cases k with
    | zero =>
      simp only [List.getElem?_cons_zero, Option.some.injEq, List.getElem?_cons_succ] at hx hy
      subst hx
      cases va with
      | nil => simp [conv] at hy
      | cons b va =>
        rw [conv] at hy
        simp only [List.getElem?_cons_zero, Option.some.injEq] at hy
        subst hy
        simp only
        ring
    | succ k =>
      rw [List.getElem?_cons_succ] at hx hy
      rw [ih _ _ _ _ k x y hx hy]
      ring

/-- Consecutive convergents: `p_{k+1} q_k - p_k q_{k+1} = (-1)^k`. -/
theorem C45_det {va : List Int} (h : ∀ a ∈ va, 0 ≤ a) {k : Nat} {p q p' q' : Int}
    (h1 : (convergents va)[k]? = some (p, q)) (h2 : (convergents va)[k + 1]? = some (p', q')) :
    p' * q - p * q' = (-1) ^ k := by
  rw [convergents_zero h] at h1 h2
  have := conv_det va 1 0 0 1 k _ _ h1 h2
  simpa using this

/-- Asking for semi-convergents adds reduced fractions, keeps the convergents in order and ends with the
same one. -/
theorem C45_semi {va : List Int} (h : ∀ a ∈ va, 0 ≤ a) {s : Int} (hs : 0 ≤ s) :
    (convergents va 0).Sublist (convergents va s) ∧
    (convergents va s).getLast? = (convergents va 0).getLast? ∧
    ∀ x ∈ convergents va s, IsCoprime x.1 x.2 := by
  obtain ⟨X, h1, h2, h3, _, h5⟩ := convLoop_spec s hs va 1 0 0 1 (0, 1) [] h
  rw [convergents_zero h, convergents, h1, List.nil_append]
  exact ⟨h2, h3, h5 (by norm_num)⟩

theorem cf_last : ∀ (fuel : Nat) (p q : Int) (va : List Int), 0 ≤ p → 0 < q → cfLoop fuel p q = some va →
    ∃ x, (conv 1 0 0 1 va).getLast? = some x ∧ x.1 * Int.gcd p q = p ∧ x.2 * Int.gcd p q = q := by
  intro fuel
  induction fuel with
  | zero => intro p q va _ hq h; rw [cfLoop, if_neg (by omega)] at h; simp at h
  | succ fuel ih =>
    intro p q va hp hq h
    rw [cfLoop, if_neg (by omega)] at h
    simp only [Option.map_eq_some_iff] at h
    obtain ⟨l, h1, rfl⟩ := h
    have hr0 : 0 ≤ p.tmod q := Int.tmod_nonneg _ hp
    have hdm := Int.mul_tdiv_add_tmod p q
    have hg : Int.gcd p q = Int.gcd q (p.tmod q) := by
      conv_lhs => rw [← hdm]
      rw [Int.gcd_comm, add_comm, mul_comm, Int.gcd_add_mul_right_right]
    rw [conv_cons]
    rcases lt_or_eq_of_le hr0 with h | h
    · obtain ⟨x, h2, h3, h4⟩ := ih q (p.tmod q) l hq.le h h1
      refine ⟨(p.tdiv q * x.1 + x.2, x.1), ?_, ?_, ?_⟩
      · rw [List.getLast?_cons, List.getLast?_map, h2]
        rfl
      · rw [hg]
        simp only
        rw [add_mul, h4, mul_assoc, h3, mul_comm]
        exact hdm
      · rw [hg]
        exact h3
    · rw [← h, cfLoop_zero] at h1
      simp at h1
      subst h1
      refine ⟨(p.tdiv q, 1), by simp [conv], ?_, ?_⟩
      · rw [hg, ← h, Int.gcd_zero_right]
        rw [← h, add_zero, mul_comm] at hdm
        simp only
        rw [Int.natAbs_of_nonneg hq.le]
        exact hdm
      · rw [hg, ← h, Int.gcd_zero_right]
        simp only
        rw [Int.natAbs_of_nonneg hq.le, one_mul]

/-- The round trip: for `p >= 0` and `q > 0` the last convergent of the continued fraction is `p / q` in lowest
terms, with any number of semi-convergents. -/
theorem C45_roundtrip {p q : Int} (hp : 0 ≤ p) (hq : 0 < q) {s : Int} (hs : 0 ≤ s) :
    ∃ va, continuedFraction p q = some va ∧
      (convergents va s).getLast? = some (p / Int.gcd p q, q / Int.gcd p q) := by
  obtain ⟨va, h1, _⟩ := cfLoop_value q.natAbs p q le_rfl
  refine ⟨va, h1, ?_⟩
  obtain ⟨a, l, rfl, ha, hl, _⟩ := C45_cf_terms hp hq h1
  have hall : ∀ x ∈ a :: l, 0 ≤ x := by
    intro x hx
    rcases List.mem_cons.mp hx with rfl | hx
    · exact ha
    · have := hl x hx; omega
  rw [(C45_semi hall hs).2.1, convergents_zero hall]
  obtain ⟨x, h2, h3, h4⟩ := cf_last _ p q _ hp hq h1
  have hg : (Int.gcd p q : Int) ≠ 0 := by
    intro h
    rw [h, mul_zero] at h4
    omega
  have e1 : p / Int.gcd p q = x.1 := by
    exact Int.ediv_eq_of_eq_mul_left hg h3.symm
  have e2 : q / Int.gcd p q = x.2 := by
    exact Int.ediv_eq_of_eq_mul_left hg h4.symm
  rw [h2, e1, e2]

example : continuedFraction 43 19 = some [2, 3, 1, 4] := by decide +kernel
example : convergents [2, 3, 1, 4] = [(2, 1), (7, 3), (9, 4), (43, 19)] := by decide +kernel
example : convergents [2, 3, 1, 4] 1 = [(1, 1), (2, 1), (5, 2), (7, 3), (9, 4), (34, 15), (43, 19)] := by
  decide +kernel

/-- A negative first term of magnitude at least 2 is skipped: the result for `-7/2` is not `-7/2`. -/
example : continuedFraction (-7) 2 = some [-3, -2] ∧ convergents [-3, -2] = [] := by decide +kernel

end Altruct.Convergents
