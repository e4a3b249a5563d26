/-
C61: the look-up table builders and element-wise operations of `ranges.h`.
-/
import Verif.Ranges.Model
import Verif.Base.Props
import Verif.Polynom.DivProps
import Mathlib.Data.Nat.Factorial.Basic
import Mathlib.Data.Nat.Cast.Basic
import Mathlib.Algebra.BigOperators.Group.Finset.Basic
import Mathlib.Tactic.Ring
import Mathlib.Tactic.FieldSimp

set_option linter.unusedSectionVars false

namespace Altruct.Ranges

open Altruct.Polynom (Quo cdiv)
open scoped Nat

section Ring
variable {α : Type} [CommRing α]

theorem rangeLoop_spec (step : α) : ∀ (l : List α) (v : α), Rep (rangeLoop step v l) l.length (fun i => v + (i : α) * step) := by
  intro l
  induction l with
  | nil => intro v; exact ⟨rfl, fun i hi => by simp at hi⟩
  | cons x l ih =>
    intro v
    refine ⟨by rw [rangeLoop, List.length_cons, (ih _).len, List.length_cons], fun i hi => ?_⟩
    cases i with
    | zero => simp [rangeLoop]
    | succ i =>
      rw [rangeLoop, List.getElem?_cons_succ, (ih _).get i (by simpa using hi)]
      congr 1; push_cast; ring

/-- **C61**: `range` fills a table with the multiples of `step`. -/
theorem C61_range (step : α) (l : List α) : Rep (range step l) l.length (fun i => (i : α) * step) :=
  (rangeLoop_spec step l 0).congr (fun i _ => by ring)

example : range (3 : Int) [0, 0, 0, 0] = [0, 3, 6, 9] := by decide +kernel

theorem powersLoop_spec (base : α) : ∀ (l : List α) (v : α), Rep (powersLoop base v l) l.length (fun i => v * base ^ i) := by
  intro l
  induction l with
  | nil => intro v; exact ⟨rfl, fun i hi => by simp at hi⟩
  | cons x l ih =>
    intro v
    refine ⟨by rw [powersLoop, List.length_cons, (ih _).len, List.length_cons], fun i hi => ?_⟩
    cases i with
    | zero => simp [powersLoop]
    | succ i =>
      rw [powersLoop, List.getElem?_cons_succ, (ih _).get i (by simpa using hi)]
      congr 1; ring

/-- **C61**: `powers` fills a table with the powers of `base`. -/
theorem C61_powers (base : α) (l : List α) : Rep (powers base l) l.length (fun i => base ^ i) :=
  (powersLoop_spec base l 1).congr (fun i _ => by ring)

example : powers (3 : Int) [0, 0, 0, 0] = [1, 3, 9, 27] := by decide +kernel

theorem factLoop_spec : ∀ (l : List α) (j : Nat),
    Rep (factLoop ((j ! : Nat) : α) ((j + 1 : Nat) : α) l) l.length (fun i => (((j + i)! : Nat) : α)) := by
  intro l
  induction l with
  | nil => intro v; exact ⟨rfl, fun i hi => by simp at hi⟩
  | cons x l ih =>
    intro j
    have e : ((j ! : Nat) : α) * ((j + 1 : Nat) : α) = (((j + 1)! : Nat) : α) := by
      rw [Nat.factorial_succ]; push_cast; ring
    have e2 : ((j + 1 : Nat) : α) + 1 = ((j + 1 + 1 : Nat) : α) := by push_cast; ring
    rw [factLoop, e, e2]
    refine ⟨by rw [List.length_cons, (ih _).len, List.length_cons], fun i hi => ?_⟩
    cases i with
    | zero => simp
    | succ i =>
      rw [List.getElem?_cons_succ, (ih _).get i (by simpa using hi)]
      rw [show j + 1 + i = j + (i + 1) by omega]

/-- **C61**: `factorials` fills a table with the factorials. -/
theorem C61_factorials (l : List α) : Rep (factorials l) l.length (fun i => ((i ! : Nat) : α)) := by
  have := factLoop_spec (α := α) l 0
  simp only [Nat.factorial_zero, Nat.cast_one, zero_add] at this
  exact this

example : factorials [(0 : Int), 0, 0, 0, 0] = [1, 1, 2, 6, 24] := by decide +kernel

/-- **C61**: `power` raises every element to a non-negative power, `negate` negates every element. -/
theorem C61_power (n : Nat) (l : List α) : power (n : Int) l = l.map (fun x => x ^ n) := by
  rw [power]
  exact List.map_congr_left (fun x _ => Base.C04_powT x n)

theorem C61_negate (l : List α) : negate l = l.map (fun x => -x) := rfl

theorem alternateLoop_spec : ∀ (l : List α) (s : Int) (i : Nat), (s = 1 ∨ s = -1) →
    (alternateLoop s l)[i]? = (l[i]?).map (fun x => (s : α) * (-1) ^ i * x) := by
  intro l
  induction l with
  | nil => intro s i _; simp [alternateLoop]
  | cons x l ih =>
    intro s i hs
    cases i with
    | zero =>
      rcases hs with rfl | rfl <;> simp [alternateLoop]
    | succ i =>
      rw [alternateLoop, List.getElem?_cons_succ, List.getElem?_cons_succ, ih _ i (by omega)]
      cases l[i]? with
      | none => rfl
      | some y => simp only [Option.map_some]; congr 1; push_cast; ring

/-- **C61**: `alternate` multiplies the element at position `i` by `(-1)^i`. -/
theorem C61_alternate (l : List α) (i : Nat) : (alternate l)[i]? = (l[i]?).map (fun x => (-1) ^ i * x) := by
  rw [alternate, alternateLoop_spec l 1 i (Or.inl rfl)]
  simp

theorem alternateLoop_length : ∀ (l : List α) (s : Int), (alternateLoop s l).length = l.length := by
  intro l
  induction l with
  | nil => intro s; rfl
  | cons x l ih => intro s; rw [alternateLoop, List.length_cons, List.length_cons, ih]

example : alternate [(5 : Int), 7, 8, 9] = [5, -7, 8, -9] := by decide +kernel

/-! ### accumulate, differentiate -/

theorem accLoop_spec : ∀ (l : List α) (p : α),
    Rep (accLoop p l) l.length (fun i => p + ((l.take (i + 1)).sum)) := by
  intro l
  induction l with
  | nil => intro v; exact ⟨rfl, fun i hi => by simp at hi⟩
  | cons x l ih =>
    intro p
    rw [accLoop]
    refine ⟨by rw [List.length_cons, (ih _).len, List.length_cons], fun i hi => ?_⟩
    cases i with
    | zero => simp [add_comm]
    | succ i =>
      rw [List.getElem?_cons_succ, (ih _).get i (by simpa using hi)]
      congr 1
      rw [List.take_succ_cons, List.sum_cons]; ring

/-- **C61**: `accumulate` replaces every element by the sum of the elements up to it. -/
theorem C61_accumulate (l : List α) : Rep (accumulate l) l.length (fun i => (l.take (i + 1)).sum) := by
  cases l with
  | nil => exact ⟨rfl, fun i hi => by simp at hi⟩
  | cons x l =>
    rw [accumulate]
    refine ⟨by rw [List.length_cons, (accLoop_spec l x).len, List.length_cons], fun i hi => ?_⟩
    cases i with
    | zero => simp
    | succ i =>
      rw [List.getElem?_cons_succ, (accLoop_spec l x).get i (by simpa using hi)]
      rw [List.take_succ_cons, List.sum_cons]

example : accumulate [(5 : Int), 7, 8, 9] = [5, 12, 20, 29] := by decide +kernel

theorem diffLoop_spec : ∀ (i : Nat) (v : List α) (g : Nat → α) (n : Nat), Rep v n g → i + 1 ≤ n →
    ∃ w, diffLoop i v = some w ∧ Rep w n (fun j => if 1 ≤ j ∧ j ≤ i then g j - g (j - 1) else g j) := by
  intro i
  induction i with
  | zero =>
    intro v g n h _
    exact ⟨v, rfl, h.congr (fun j _ => by rw [if_neg (by omega)])⟩
  | succ i ih =>
    intro v g n h hi
    rw [diffLoop, h.rd (by omega), h.rd (by omega), Option.bind_eq_bind, Option.bind_some, Option.bind_eq_bind,
      Option.bind_some, h.wr (by omega), Option.bind_some]
    obtain ⟨w, e, hw⟩ := ih _ _ n (h.set (i + 1) (g (i + 1) - g i)) (by omega)
    refine ⟨w, e, hw.congr (fun j _ => ?_)⟩
    by_cases h1 : 1 ≤ j ∧ j ≤ i
    · rw [if_pos h1, if_pos (by omega), Function.update_of_ne (by omega), Function.update_of_ne (by omega)]
    · rw [if_neg h1]
      by_cases h2 : j = i + 1
      · subst h2
        rw [Function.update_self, if_pos (by omega)]; rfl
      · rw [Function.update_of_ne h2, if_neg (by omega)]

/-- **C61**: `differentiate` leaves the first element and replaces every other one by its difference
with the element before it. -/
theorem C61_differentiate (v : List α) (g : Nat → α) (n : Nat) (h : Rep v n g) :
    ∃ w, differentiate v = some w ∧ Rep w n (fun j => if j = 0 then g 0 else g j - g (j - 1)) := by
  rw [differentiate]
  by_cases h0 : v.length = 0
  · rw [if_pos h0]
    have : n = 0 := by rw [← h.len]; exact h0
    subst this
    exact ⟨v, rfl, h.len, fun i hi => by omega⟩
  · rw [if_neg h0]
    have hl := h.len
    obtain ⟨w, e, hw⟩ := diffLoop_spec (v.length - 1) v g n h (by omega)
    refine ⟨w, e, hw.congr (fun j hj => ?_)⟩
    by_cases hj0 : j = 0
    · subst hj0; rw [if_neg (by omega), if_pos rfl]
    · rw [if_pos (by omega), if_neg hj0]

example : differentiate [(5 : Int), 12, 20, 29] = some [5, 7, 8, 9] := by decide +kernel

/-- **C61**: `differentiate` undoes `accumulate`. -/
theorem C61_accumulate_differentiate (l : List α) : differentiate (accumulate l) = some l := by
  obtain ⟨w, e, hw⟩ := C61_differentiate _ _ _ (C61_accumulate l)
  rw [e]
  congr 1
  apply List.ext_getElem?
  intro i
  by_cases hi : i < l.length
  · rw [hw.get i hi, List.getElem?_eq_getElem hi]
    congr 1
    cases i with
    | zero =>
      cases l with
      | nil => simp at hi
      | cons x l => simp
    | succ i =>
      rw [if_neg (by omega), show i + 1 - 1 = i by omega, List.take_add_one (i := i + 1), List.sum_append,
        List.getElem?_eq_getElem hi]
      simp
  · rw [List.getElem?_eq_none (by rw [hw.len]; omega), List.getElem?_eq_none (by omega)]

/-! ### inverse factorials and inverses -/

end Ring

section Field
variable {α : Type} [Field α] [DecidableEq α]

theorem ifUp_spec (n : Nat) : ∀ (m k : Nat), n - k = m →
    ifUp n k (k : α) ((k ! : Nat) : α) = (((max k (n - 1) : Nat) : α), (((max k (n - 1))! : Nat) : α)) := by
  intro m
  induction m with
  | zero =>
    intro k h
    rw [ifUp, if_neg (by omega), max_eq_left (by omega)]
  | succ m ih =>
    intro k h
    rw [ifUp]
    by_cases hk : k + 1 < n
    · rw [if_pos hk]
      have e1 : (k : α) + 1 = ((k + 1 : Nat) : α) := by push_cast; rfl
      have e2 : ((k ! : Nat) : α) * ((k + 1 : Nat) : α) = (((k + 1)! : Nat) : α) := by
        rw [Nat.factorial_succ]; push_cast; ring
      rw [e1, e2, ih (k + 1) (by omega), show max (k + 1) (n - 1) = max k (n - 1) by omega]
    · rw [if_neg hk, max_eq_left (by omega)]

theorem ifDown_spec (c : Nat → α) : ∀ (i : Nat) (f val : α) (v : List α) (g : Nat → α) (n : Nat), Rep v n g → i ≤ n →
    (∀ j, j < i → c j = f * ∏ t ∈ Finset.range (i - 1 - j), (val - (t : α))) →
    ∃ w, ifDown i f val v = some w ∧ Rep w n (fun j => if j < i then c j else g j) := by
  intro i
  induction i with
  | zero =>
    intro f val v g n h _ _
    exact ⟨v, rfl, h.congr (fun j _ => by rw [if_neg (by omega)])⟩
  | succ i ih =>
    intro f val v g n h hi hc
    rw [ifDown, h.wr (by omega), Option.bind_eq_bind, Option.bind_some]
    obtain ⟨w, e, hw⟩ := ih (f * val) (val - 1) _ _ n (h.set i f) (by omega) (by
      intro j hj
      rw [hc j (by omega), show i + 1 - 1 - j = (i - 1 - j) + 1 by omega, Finset.prod_range_succ']
      have : ∀ t ∈ Finset.range (i - 1 - j), val - ((t + 1 : Nat) : α) = val - 1 - (t : α) := by
        intro t _; push_cast; ring
      rw [Finset.prod_congr rfl this]
      push_cast; ring)
    refine ⟨w, e, hw.congr (fun j _ => ?_)⟩
    by_cases h1 : j < i
    · rw [if_pos h1, if_pos (by omega)]
    · rw [if_neg h1]
      by_cases h2 : j = i
      · subst h2
        rw [Function.update_self, if_pos (by omega), hc j (by omega)]
        simp
      · rw [Function.update_of_ne h2, if_neg (by omega)]

/-- The falling product down to `j`. -/
theorem prod_down (m : Nat) : ∀ d, d ≤ m → (((m - d)! : Nat) : α) * ∏ t ∈ Finset.range d, ((m : α) - (t : α)) = ((m ! : Nat) : α) := by
  intro d
  induction d with
  | zero => intro _; simp
  | succ d ih =>
    intro h
    rw [Finset.prod_range_succ, ← ih (by omega), show m - d = (m - (d + 1)) + 1 by omega, Nat.factorial_succ]
    have : ((m - (d + 1) + 1 : Nat) : α) = (m : α) - (d : α) := by
      rw [show m - (d + 1) + 1 = m - d by omega, Nat.cast_sub (by omega)]
    push_cast at this ⊢
    rw [← this]; ring

/-- **C61**: `inv_factorials` fills a table of `n` elements with the inverses of the factorials,
starting from any `k` for which `k!` is given, provided `k` does not lie beyond the table (`k = 1` is
also fine for a table of one element) and the factorials are not zero. -/
theorem C61_inv_factorials (v : List α) (k : Nat) (hk : k ≤ max 1 (v.length - 1))
    (h0 : (((max 1 (v.length - 1))! : Nat) : α) ≠ 0) :
    ∃ w, invFactorials v ((k ! : Nat) : α) k = some w ∧ Rep w v.length (fun i => ((i ! : Nat) : α)⁻¹) := by
  rw [invFactorials]
  have e1 : ((k ! : Nat) : α) = (((if k = 0 then 1 else k)! : Nat) : α) := by
    by_cases h : k = 0
    · subst h; simp
    · rw [if_neg h]
  rw [e1]
  simp only
  rw [ifUp_spec v.length _ _ rfl]
  simp only
  have e2 : max (if k = 0 then 1 else k) (v.length - 1) = max 1 (v.length - 1) := by
    by_cases h : k = 0
    · rw [if_pos h]
    · rw [if_neg h]; omega
  rw [e2, cdiv, if_neg h0, Option.bind_eq_bind, Option.bind_some]
  obtain ⟨w, e, hw⟩ := ifDown_spec (α := α) (fun i => ((i ! : Nat) : α)⁻¹) v.length
    (Quo.quo 1 (((max 1 (v.length - 1))! : Nat) : α)) ((max 1 (v.length - 1) : Nat) : α) v _ _ ((⟨rfl, fun i hi => by
      rw [List.getD_eq_getElem?_getD, List.getElem?_eq_getElem hi, Option.getD_some]⟩ :
      Rep v v.length (fun i => v.getD i 0))) (le_refl _) (by
      intro j hj
      show _ = (1 : α) / _ * _
      by_cases hl : v.length = 1
      · have : j = 0 := by omega
        subst this
        simp [hl]
      · have hm : max 1 (v.length - 1) = v.length - 1 := by omega
        rw [hm] at h0 ⊢
        have := prod_down (α := α) (v.length - 1) (v.length - 1 - j) (by omega)
        rw [show v.length - 1 - (v.length - 1 - j) = j by omega] at this
        have hj0 : ((j ! : Nat) : α) ≠ 0 := by
          intro h
          rw [h, zero_mul] at this
          exact h0 this.symm
        rw [← this] at h0 ⊢
        have hp : ∏ t ∈ Finset.range (v.length - 1 - j), (((v.length - 1 : Nat) : α) - (t : α)) ≠ 0 := fun h => h0 (by rw [h, mul_zero])
        field_simp)
  exact ⟨w, e, hw.congr (fun j hj => by rw [if_pos hj])⟩

example : invFactorials [(0 : ℚ), 0, 0, 0] 2 2 = some [1, 1, 1/2, 1/6] := by decide +kernel
example : max 1 ([(0 : ℚ), 0, 0, 0].length - 1) = 3 := by decide

/-- **C61** (negative): a `k` beyond the table gives wrong elements. -/
theorem C61_inv_factorials_beyond : invFactorials [(0 : ℚ), 0] 6 3 = some [1/2, 1/6] := by decide +kernel

theorem fromIfactLoop_spec : ∀ (l : List α) (j : Nat) (g : Nat → α), Rep l l.length g →
    Rep (fromIfactLoop ((j ! : Nat) : α) ((j + 1 : Nat) : α) l) l.length (fun i => g i * (((j + i)! : Nat) : α)) := by
  intro l
  induction l with
  | nil => intro j g _; exact ⟨rfl, fun i hi => by simp at hi⟩
  | cons x l ih =>
    intro j g hg
    have e : ((j ! : Nat) : α) * ((j + 1 : Nat) : α) = (((j + 1)! : Nat) : α) := by
      rw [Nat.factorial_succ]; push_cast; ring
    have e2 : ((j + 1 : Nat) : α) + 1 = ((j + 1 + 1 : Nat) : α) := by push_cast; ring
    have hg2 : Rep l l.length (fun i => g (i + 1)) :=
      ⟨rfl, fun i hi => by have := hg.get (i + 1) (by simpa using hi); rwa [List.getElem?_cons_succ] at this⟩
    have ih2 := ih (j + 1) _ hg2
    rw [fromIfactLoop, e, e2]
    refine ⟨by rw [List.length_cons, ih2.len, List.length_cons], fun i hi => ?_⟩
    cases i with
    | zero =>
      have := hg.get 0 (by simp)
      simp only [List.getElem?_cons_zero, Option.some.injEq] at this
      simp [this]
    | succ i =>
      rw [List.getElem?_cons_succ, ih2.get i (by simpa using hi)]
      rw [show j + 1 + i = j + (i + 1) by omega]

/-- **C61**: `inverses` fills a non-empty table with zero and the inverses of `1, 2, ...`. -/
theorem C61_inverses (v : List α) (hv : v ≠ []) (h0 : (((max 1 (v.length - 1))! : Nat) : α) ≠ 0) :
    ∃ w, inverses v = some w ∧ Rep w v.length (fun i => ((i : Nat) : α)⁻¹) := by
  obtain ⟨w, e, hw⟩ := C61_inv_factorials v 1 (by omega) h0
  rw [Nat.factorial_one, Nat.cast_one] at e
  rw [inverses, e, Option.bind_eq_bind, Option.bind_some]
  have hl : v.length ≠ 0 := fun h => hv (List.length_eq_zero_iff.mp h)
  cases w with
  | nil => have := hw.len; simp at this; exact absurd this.symm hl
  | cons x w =>
    rw [inversesFromIfact]
    have hwl := hw.len
    rw [List.length_cons] at hwl
    have hg2 : Rep w w.length (fun i => (((i + 1)! : Nat) : α)⁻¹) :=
      ⟨rfl, fun i hi => by have := hw.get (i + 1) (by omega); rwa [List.getElem?_cons_succ] at this⟩
    have := fromIfactLoop_spec w 0 _ hg2
    simp only [Nat.factorial_zero, Nat.cast_one, zero_add] at this
    refine ⟨_, rfl, by rw [List.length_cons, this.len, hwl], fun i hi => ?_⟩
    cases i with
    | zero => simp
    | succ i =>
      rw [List.getElem?_cons_succ, this.get i (by omega)]
      congr 1
      have hfac : ((i ! : Nat) : α) ≠ 0 := by
        intro h
        apply h0
        obtain ⟨q, hq⟩ := Nat.factorial_dvd_factorial (show i ≤ max 1 (v.length - 1) by omega)
        rw [hq, Nat.cast_mul, h, zero_mul]
      rw [Nat.factorial_succ, Nat.cast_mul, mul_inv]
      rw [mul_assoc, inv_mul_cancel₀ hfac, mul_one]

example : inverses [(7 : ℚ), 7, 7, 7] = some [0, 1, 1/2, 1/3] := by decide +kernel

/-- **C61** (negative): `inverses` of an empty range writes through its end. -/
theorem C61_inverses_empty : inverses ([] : List ℚ) = none := by decide +kernel

/-! ### inversion -/

/-- **C61**: `invert` inverts the non-zero elements and leaves zeros. -/
theorem C61_invert (l : List α) : invert l = l.map (fun x => x⁻¹) := by
  induction l with
  | nil => rfl
  | cons x l ih =>
    rw [invert, ih, List.map_cons]
    congr 1
    by_cases h : x = 0
    · rw [if_neg (by simpa using h), h, inv_zero]
    · rw [if_pos h]; exact one_div x

theorem cumProd_spec : ∀ (l : List α) (a : α), Rep (cumProd a l) l.length (fun i => a * (l.take (i + 1)).prod) := by
  intro l
  induction l with
  | nil => intro v; exact ⟨rfl, fun i hi => by simp at hi⟩
  | cons x l ih =>
    intro p
    rw [cumProd]
    refine ⟨by rw [List.length_cons, (ih _).len, List.length_cons], fun i hi => ?_⟩
    cases i with
    | zero => simp [mul_comm]
    | succ i =>
      rw [List.getElem?_cons_succ, (ih _).get i (by simpa using hi)]
      congr 1
      rw [List.take_succ_cons, List.prod_cons]; ring

theorem vp_spec (x : α) (l : List α) : Rep (x :: cumProd x l) (l.length + 1) (fun i => ((x :: l).take (i + 1)).prod) := by
  refine ⟨by rw [List.length_cons, (cumProd_spec l x).len], fun i hi => ?_⟩
  cases i with
  | zero => simp
  | succ i =>
    rw [List.getElem?_cons_succ, (cumProd_spec l x).get i (by omega), List.take_succ_cons, List.prod_cons]

theorem invFieldLoop_spec (vp : List α) (g : Nat → α) (Q : Nat → α) (m : Nat) (hvp : Rep vp m Q)
    (hQ : ∀ i, i + 1 < m → Q (i + 1) = Q i * g (i + 1)) (hg : ∀ i, i < m → g i ≠ 0) (hQ0 : ∀ i, i < m → Q i ≠ 0) :
    ∀ (n : Nat) (v : List α) (h : Nat → α), Rep v m h → (∀ j, j ≤ n → h j = g j) → n < m →
      ∃ w, invFieldLoop vp n (Q n)⁻¹ v = some (w, (Q 0)⁻¹) ∧
        Rep w m (fun j => if 1 ≤ j ∧ j ≤ n then (g j)⁻¹ else h j) := by
  intro n
  induction n with
  | zero =>
    intro v h hv _ _
    exact ⟨v, rfl, hv.congr (fun j _ => by rw [if_neg (by omega)])⟩
  | succ n ih =>
    intro v h hv hh hn
    rw [invFieldLoop, hv.rd hn, hvp.rd (by omega), Option.bind_eq_bind, Option.bind_some, Option.bind_eq_bind,
      Option.bind_some, hv.wr hn, Option.bind_some]
    have e1 : (Q (n + 1))⁻¹ * h (n + 1) = (Q n)⁻¹ := by
      rw [hQ n hn, hh (n + 1) (le_refl _), mul_inv, mul_assoc, inv_mul_cancel₀ (hg _ hn), mul_one]
    have e2 : (Q (n + 1))⁻¹ * Q n = (g (n + 1))⁻¹ := by
      rw [hQ n hn, mul_inv, mul_comm, ← mul_assoc, mul_inv_cancel₀ (hQ0 n (by omega)), one_mul]
    rw [e1, e2]
    obtain ⟨w, e, hw⟩ := ih _ _ (hv.set (n + 1) (g (n + 1))⁻¹) (by
      intro j hj
      rw [Function.update_of_ne (by omega), hh j (by omega)]) (by omega)
    refine ⟨w, e, hw.congr (fun j _ => ?_)⟩
    by_cases h1 : 1 ≤ j ∧ j ≤ n
    · rw [if_pos h1, if_pos (by omega)]
    · rw [if_neg h1]
      by_cases h2 : j = n + 1
      · subst h2; rw [Function.update_self, if_pos (by omega)]
      · rw [Function.update_of_ne h2, if_neg (by omega)]

/-- **C61**: `invert_field` inverts all elements with a single division, if none is zero. -/
theorem C61_invert_field (l : List α) (h : ∀ x ∈ l, x ≠ 0) : invertField l = some (l.map (fun x => x⁻¹)) := by
  cases l with
  | nil => rfl
  | cons x l =>
    have hg : ∀ i, i < l.length + 1 → (x :: l).getD i 0 ≠ 0 := by
      intro i hi
      rw [List.getD_eq_getElem?_getD, List.getElem?_eq_getElem (by simpa using hi), Option.getD_some]
      exact h _ (List.getElem_mem _)
    have hQ0 : ∀ i, i < l.length + 1 → ((x :: l).take (i + 1)).prod ≠ 0 := by
      intro i _
      rw [Ne, List.prod_eq_zero_iff]
      intro hm
      exact h 0 (List.mem_of_mem_take hm) rfl
    have hQ : ∀ i, i + 1 < l.length + 1 → ((x :: l).take (i + 1 + 1)).prod = ((x :: l).take (i + 1)).prod * (x :: l).getD (i + 1) 0 := by
      intro i hi
      rw [List.take_add_one (i := i + 1), List.prod_append, List.getD_eq_getElem?_getD,
        List.getElem?_eq_getElem (by simpa using hi)]
      simp
    have hrep : Rep (x :: l) (l.length + 1) (fun i => (x :: l).getD i 0) :=
      ⟨rfl, fun i hi => by
        rw [List.getD_eq_getElem?_getD, List.getElem?_eq_getElem (by simpa using hi), Option.getD_some]⟩
    rw [invertField]
    simp only
    rw [(vp_spec x l).rd (by omega), Option.bind_eq_bind, Option.bind_some, cdiv, if_neg (hQ0 _ (by omega)),
      Option.bind_eq_bind, Option.bind_some]
    have e1 : Quo.quo 1 ((x :: l).take (l.length + 1)).prod = (((x :: l).take (l.length + 1)).prod)⁻¹ := one_div _
    rw [e1]
    obtain ⟨w, e, hw⟩ := invFieldLoop_spec _ _ _ _ (vp_spec x l) hQ hg hQ0 l.length _ _ hrep (fun _ _ => rfl) (by omega)
    rw [e, Option.bind_some]
    simp only
    rw [hw.wr (by omega)]
    congr 1
    have hw2 := hw.set 0 (((x :: l).take (0 + 1)).prod)⁻¹
    apply List.ext_getElem?
    intro i
    by_cases hi : i < l.length + 1
    · rw [hw2.get i hi, List.getElem?_map, hrep.get i hi, Option.map_some]
      congr 1
      cases i with
      | zero => simp
      | succ i => rw [Function.update_of_ne (by omega), if_pos (by omega)]
    · rw [List.getElem?_eq_none (by rw [hw2.len]; omega), List.getElem?_eq_none (by simp; omega)]

example : invertField [(2 : ℚ), 3, 5] = some [1/2, 1/3, 1/5] := by decide +kernel
/-- **C61** (negative): a zero element spoils the whole table (the product is zero). -/
theorem C61_invert_field_zero : invertField [(2 : ℚ), 0, 5] = none := by decide +kernel

end Field

end Altruct.Ranges
