/-
C74: Stirling numbers of the first and the second kind.
-/
import Verif.Counting.Model
import Verif.Sums.PowProps
import Verif.Series.Props
import Mathlib.Combinatorics.Enumerative.Stirling
import Mathlib.RingTheory.Polynomial.Pochhammer

set_option linter.unusedSectionVars false

namespace Altruct.Counting

open Altruct.Polynom (Quo cdiv at' poly poly_coeff at'_ge at'_resize length_resize)
open Altruct.Sums (Exact cdiv_exact exact_int exact_field)
open Altruct.Series (Agree)
open scoped Nat

/-! ### what Stirling numbers are -/

/-- The (signed) Stirling number of the first kind: the coefficient of `x^k` in `x (x-1) ... (x-n+1)`. -/
noncomputable def s1 (n k : Nat) : Int := (descPochhammer ℤ n).coeff k

theorem s1_zero_left (k : Nat) : s1 0 k = if k = 0 then 1 else 0 := by
  rw [s1, descPochhammer_zero, Polynomial.coeff_one]

theorem s1_succ_succ (n k : Nat) : s1 (n + 1) (k + 1) = s1 n k - n * s1 n (k + 1) := by
  rw [s1, descPochhammer_succ_right, mul_sub, Polynomial.coeff_sub, Polynomial.coeff_mul_X, ← Polynomial.C_eq_natCast,
    Polynomial.coeff_mul_C, s1, s1]
  ring

theorem s1_succ_zero (n : Nat) : s1 (n + 1) 0 = 0 := by
  rw [s1, descPochhammer_succ_left, Polynomial.coeff_X_mul_zero]

theorem s1_gt : ∀ (n k : Nat), n < k → s1 n k = 0 := by
  intro n
  induction n with
  | zero => intro k h; rw [s1_zero_left, if_neg (by omega)]
  | succ n ih =>
    intro k h
    obtain ⟨k, rfl⟩ : ∃ j, k = j + 1 := ⟨k - 1, by omega⟩
    rw [s1_succ_succ, ih k (by omega), ih (k + 1) (by omega)]; simp

theorem s1_self (n : Nat) : s1 n n = 1 := by
  induction n with
  | zero => rw [s1_zero_left, if_pos rfl]
  | succ n ih => rw [s1_succ_succ, ih, s1_gt n (n + 1) (by omega)]; simp

/-- **C74**: the same numbers with signs made explicit; `Nat.stirlingFirst n k` counts the permutations of `n` elements with
`k` cycles. -/
theorem C74_first_kind : ∀ (n k : Nat), s1 n k = (-1) ^ (n + k) * (Nat.stirlingFirst n k : Int) := by
  intro n
  induction n with
  | zero =>
    intro k
    cases k with
    | zero => simp [s1_zero_left]
    | succ k => simp [s1_zero_left]
  | succ n ih =>
    intro k
    cases k with
    | zero => simp [s1_succ_zero]
    | succ k =>
      rw [s1_succ_succ, ih, ih, Nat.stirlingFirst_succ_succ]
      push_cast
      rw [show n + 1 + (k + 1) = n + k + 2 by ring, show n + (k + 1) = n + k + 1 by ring, pow_succ, pow_succ, pow_succ]
      ring

/-- **C74**: the Stirling numbers of the second kind express the powers by the falling factorials. -/
theorem C74_second_kind (n : Nat) :
    (Polynomial.X ^ n : Polynomial ℤ) = ∑ k ∈ Finset.range (n + 1), (Nat.stirlingSecond n k : Polynomial ℤ) * descPochhammer ℤ k := by
  induction n with
  | zero => simp
  | succ n ih =>
    have e : ∀ k, (Nat.stirlingSecond n k : Polynomial ℤ) * descPochhammer ℤ k * Polynomial.X =
        (Nat.stirlingSecond n k : Polynomial ℤ) * descPochhammer ℤ (k + 1) + (k * Nat.stirlingSecond n k : Polynomial ℤ) * descPochhammer ℤ k := by
      intro k
      rw [descPochhammer_succ_right]; ring
    have e2 : ∑ k ∈ Finset.range (n + 1), ((k : Polynomial ℤ) * Nat.stirlingSecond n k) * descPochhammer ℤ k =
        ∑ k ∈ Finset.range (n + 1), (((k + 1 : Nat) : Polynomial ℤ) * Nat.stirlingSecond n (k + 1)) * descPochhammer ℤ (k + 1) := by
      have h1 := Finset.sum_range_succ (fun k => ((k : Polynomial ℤ) * Nat.stirlingSecond n k) * descPochhammer ℤ k) (n + 1)
      have h2 := Finset.sum_range_succ' (fun k => ((k : Polynomial ℤ) * Nat.stirlingSecond n k) * descPochhammer ℤ k) (n + 1)
      rw [Nat.stirlingSecond_eq_zero_of_lt (show n < n + 1 by omega)] at h1
      rw [h1] at h2
      simpa using h2
    rw [pow_succ, ih, Finset.sum_mul]
    simp only [e, Finset.sum_add_distrib]
    rw [e2, Finset.sum_range_succ' _ (n + 1), Nat.stirlingSecond_succ_zero, ← Finset.sum_add_distrib]
    simp only [Nat.cast_zero, zero_mul, add_zero]
    refine Finset.sum_congr rfl (fun k _ => ?_)
    rw [Nat.stirlingSecond_succ_succ]
    push_cast
    ring

/-- The surjections formula: `k! S(n, k) = sum (-1)^(k-j) C(k, j) j^n`. -/
theorem second_explicit : ∀ (n k : Nat), ((k ! * Nat.stirlingSecond n k : Nat) : Int) =
    ∑ j ∈ Finset.range (k + 1), (-1) ^ (k + j) * (k.choose j : Int) * (j : Int) ^ n := by
  intro n
  induction n with
  | zero =>
    intro k
    have h := add_pow (1 : Int) (-1) k
    cases k with
    | zero => simp
    | succ k =>
      simp only [pow_zero, mul_one, Nat.stirlingSecond_zero_succ, mul_zero, Nat.cast_zero]
      have h := Int.alternating_sum_range_choose (n := k + 1)
      rw [if_neg (by omega)] at h
      simp only [pow_add _ (k + 1), mul_assoc, ← Finset.mul_sum, h, mul_zero]
  | succ n ih =>
    intro k
    cases k with
    | zero => simp
    | succ k =>
      have hk1 := ih (k + 1)
      have hk := ih k
      rw [Nat.stirlingSecond_succ_succ, show ((k + 1) ! * ((k + 1) * Nat.stirlingSecond n (k + 1) + Nat.stirlingSecond n k) : Nat) =
        (k + 1) * ((k + 1) ! * Nat.stirlingSecond n (k + 1) + k ! * Nat.stirlingSecond n k) by rw [Nat.factorial_succ]; ring,
        Nat.cast_mul, Nat.cast_add (R := Int) ((k + 1) ! * _), hk1, hk, Finset.sum_range_succ' _ (k + 1), Finset.sum_range_succ' _ (k + 1)]
      have h3 : ∑ j ∈ Finset.range (k + 1), (-1 : Int) ^ (k + j) * (k.choose j : Int) * (j : Int) ^ n =
          ∑ j ∈ Finset.range (k + 1), (-1 : Int) ^ (k + (j + 1)) * (k.choose (j + 1) : Int) * ((j + 1 : Nat) : Int) ^ n +
            (-1 : Int) ^ (k + 0) * (k.choose 0 : Int) * ((0 : Nat) : Int) ^ n := by
        rw [← Finset.sum_range_succ' (fun j => (-1 : Int) ^ (k + j) * (k.choose j : Int) * (j : Int) ^ n), Finset.sum_range_succ _ (k + 1),
          Nat.choose_succ_self]
        simp
      rw [h3]
      have e0 : (-1 : Int) ^ (k + 1 + 0) * ((k + 1).choose 0 : Int) * ((0 : Nat) : Int) ^ n +
        (-1 : Int) ^ (k + 0) * (k.choose 0 : Int) * ((0 : Nat) : Int) ^ n = 0 := by
        simp only [Nat.choose_zero_right, add_zero, pow_succ]; ring
      have e1 : (-1 : Int) ^ (k + 1 + 0) * ((k + 1).choose 0 : Int) * ((0 : Nat) : Int) ^ (n + 1) = 0 := by simp
      rw [e1, add_zero]
      have e2 : ∀ j, (-1 : Int) ^ (k + 1 + (j + 1)) * ((k + 1).choose (j + 1) : Int) * ((j + 1 : Nat) : Int) ^ (n + 1) =
          ((k + 1 : Nat) : Int) * ((-1 : Int) ^ (k + 1 + (j + 1)) * ((k + 1).choose (j + 1) : Int) * ((j + 1 : Nat) : Int) ^ n +
            (-1 : Int) ^ (k + (j + 1)) * (k.choose (j + 1) : Int) * ((j + 1 : Nat) : Int) ^ n) := by
        intro j
        have h4 := congrArg (Nat.cast (R := Int)) (Nat.add_one_mul_choose_eq k j)
        have h5 := congrArg (Nat.cast (R := Int)) (Nat.choose_succ_succ' k j)
        push_cast at h4 h5 ⊢
        rw [show k + 1 + (j + 1) = k + (j + 1) + 1 by ring, pow_succ (-1 : Int) (k + (j + 1)), pow_succ _ n]
        have h6 : ((k + 1).choose (j + 1) : Int) * ((j : Int) + 1) = ((k : Int) + 1) * ((k + 1).choose (j + 1) - k.choose (j + 1)) := by
          rw [h5]; rw [h5] at h4; linear_combination -h4
        linear_combination (-(-1 : Int) ^ (k + (j + 1)) * ((j : Int) + 1) ^ n) * h6
      simp only [e2]
      rw [← Finset.mul_sum, Finset.sum_add_distrib]
      linear_combination ((k + 1 : Nat) : Int) * e0

/-! ### tables -/

section
variable {α : Type} [CommRing α] [DecidableEq α]

theorem tabStep_spec (upd : Nat → Nat → α → α → α) (g : Nat → Nat → α) (k n i : Nat) (s : List (List α)) (hi : i < n)
    (h0 : ∀ i, 0 < i → g i 0 = 0) (h1 : ∀ i, g i i = 1)
    (hu : ∀ i j, 1 ≤ j → j < i → g i j = upd i j (g (i - 1) (j - 1)) (g (i - 1) j))
    (hs : Rep s n (fun r => if r < i then (List.range (min (r + 1) k)).map (g r) else [])) :
    ∃ s', tabStep upd k i s = some s' ∧ Rep s' n (fun r => if r < i + 1 then (List.range (min (r + 1) k)).map (g r) else []) := by
  rw [tabStep]
  obtain ⟨row, er, hr⟩ : ∃ row, forUp (fun j row => do
      let prev ← rd s (i - 1)
      rowStep upd i prev j row) 1 (min i k) (List.replicate (min (i + 1) k) (0 : α)) = some row ∧
      Rep row (min (i + 1) k) (fun j => if j < max 1 (min i k) ∧ 0 < j then g i j else 0) := by
    by_cases hm : 1 ≤ min i k
    · obtain ⟨row, er, hr⟩ := forUp_spec (body := fun j row => do
          let prev ← rd s (i - 1)
          rowStep upd i prev j row) (fun j row => Rep row (min (i + 1) k) (fun c => if c < j ∧ 0 < c then g i c else 0))
        (s := List.replicate (min (i + 1) k) (0 : α)) hm ((Rep.replicate _ _).congr (fun c _ => by rw [if_neg (by omega)])) (by
          intro j row hj1 hj2 hrow
          have ep : rd s (i - 1) = some ((List.range (min (i - 1 + 1) k)).map (g (i - 1))) := by
            rw [hs.rd (by omega), if_pos (by omega)]
          have hp := Rep.of_map (min (i - 1 + 1) k) (g (i - 1))
          refine ⟨_, ?_, (hrow.set j (upd i j (g (i - 1) (j - 1)) (g (i - 1) j))).congr ?_⟩
          · simp only [ep, Option.bind_eq_bind, Option.bind_some, rowStep]
            rw [hp.rd (by omega), hp.rd (by omega), Option.bind_some, Option.bind_some, hrow.wr (by omega)]
          · intro c hc
            by_cases e : c = j
            · subst e
              rw [Function.update_self, if_pos (by omega), hu i c hj1 (by omega)]
            · rw [Function.update_of_ne e]
              by_cases h : c < j ∧ 0 < c
              · rw [if_pos h, if_pos (by omega)]
              · rw [if_neg h, if_neg (by omega)])
      refine ⟨row, er, hr.congr (fun c _ => ?_)⟩
      rw [max_eq_right hm]
    · refine ⟨_, ?_, (Rep.replicate _ (0 : α)).congr (fun c hc => ?_)⟩
      · rw [forUp, show min i k - 1 = 0 by omega]; rfl
      · rw [if_neg (by omega)]
  rw [er, Option.bind_eq_bind, Option.bind_some]
  obtain ⟨row', er', hr'⟩ : ∃ row', (if i < k then wr row i 1 else some row) = some row' ∧
      row' = (List.range (min (i + 1) k)).map (g i) := by
    by_cases hk : i < k
    · refine ⟨_, by rw [if_pos hk, hr.wr (by omega)], ((hr.set i 1).congr (fun c hc => ?_)).eq_map⟩
      by_cases e : c = i
      · subst e; rw [Function.update_self, h1]
      · rw [Function.update_of_ne e]
        by_cases hc0 : c = 0
        · subst hc0; rw [if_neg (by omega), h0 i (by omega)]
        · rw [if_pos (by omega)]
    · refine ⟨_, by rw [if_neg hk], (hr.congr (fun c hc => ?_)).eq_map⟩
      by_cases hc0 : c = 0
      · subst hc0; rw [if_neg (by omega), h0 i (by omega)]
      · rw [if_pos (by omega)]
  rw [er', Option.bind_some]
  refine ⟨_, hs.wr hi _, (hs.set i row').congr (fun r hr => ?_)⟩
  by_cases e : r = i
  · subst e; rw [Function.update_self, if_pos (by omega), hr']
  · rw [Function.update_of_ne e]
    by_cases h : r < i
    · rw [if_pos h, if_pos (by omega)]
    · rw [if_neg h, if_neg (by omega)]

theorem table_spec (upd : Nat → Nat → α → α → α) (g : Nat → Nat → α) (k n : Nat)
    (h0 : ∀ i, 0 < i → g i 0 = 0) (h1 : ∀ i, g i i = 1)
    (hu : ∀ i j, 1 ≤ j → j < i → g i j = upd i j (g (i - 1) (j - 1)) (g (i - 1) j)) :
    forUp (tabStep upd k) 0 n (List.replicate n []) = some ((List.range n).map (fun i => (List.range (min (i + 1) k)).map (g i))) := by
  obtain ⟨t, e, ht⟩ := forUp_spec (body := tabStep upd k)
    (fun i s => Rep s n (fun r => if r < i then (List.range (min (r + 1) k)).map (g r) else [])) (s := List.replicate n [])
    (Nat.zero_le n) ((Rep.replicate n _).congr (fun _ _ => by rw [if_neg (by omega)]))
    (fun i s _ hi hs => tabStep_spec upd g k n i s hi h0 h1 hu hs)
  rw [e, (ht.congr (fun i hi => by rw [if_pos hi])).eq_map]

/-- **C74**: `stirling_s1_all(n, k)` is the table of the Stirling numbers of the first kind: row `i < n` holds columns
`j <= i`, `j < k`. -/
theorem C74_s1_all (n k : Nat) : stirlingS1All n k =
    some ((List.range n).map (fun i => (List.range (min (i + 1) k)).map (fun j => ((s1 i j : Int) : α)))) := by
  refine table_spec _ (fun i j => ((s1 i j : Int) : α)) k n (fun i hi => ?_) (fun i => ?_) (fun i j h1 h2 => ?_)
  · obtain ⟨i, rfl⟩ : ∃ m, i = m + 1 := ⟨i - 1, by omega⟩
    simp only [s1_succ_zero, Int.cast_zero]
  · simp only [s1_self, Int.cast_one]
  · obtain ⟨i, rfl⟩ : ∃ m, i = m + 1 := ⟨i - 1, by omega⟩
    obtain ⟨j, rfl⟩ : ∃ m, j = m + 1 := ⟨j - 1, by omega⟩
    simp only [s1_succ_succ, Nat.add_sub_cancel]
    push_cast; ring

example : stirlingS1All 5 4 = some [[1], [0, 1], [0, -1, 1], [0, 2, -3, (1 : Int)], [0, -6, 11, -6]] := by decide +kernel

/-- **C74**: `stirling_s2_all(n, k)` is the table of the Stirling numbers of the second kind. -/
theorem C74_s2_all (n k : Nat) : stirlingS2All n k =
    some ((List.range n).map (fun i => (List.range (min (i + 1) k)).map (fun j => ((Nat.stirlingSecond i j : Nat) : α)))) := by
  refine table_spec _ (fun i j => ((Nat.stirlingSecond i j : Nat) : α)) k n (fun i hi => ?_) (fun i => ?_) (fun i j h1 h2 => ?_)
  · obtain ⟨i, rfl⟩ : ∃ m, i = m + 1 := ⟨i - 1, by omega⟩
    simp only [Nat.stirlingSecond_succ_zero, Nat.cast_zero]
  · simp only [Nat.stirlingSecond_self, Nat.cast_one]
  · obtain ⟨i, rfl⟩ : ∃ m, i = m + 1 := ⟨i - 1, by omega⟩
    obtain ⟨j, rfl⟩ : ∃ m, j = m + 1 := ⟨j - 1, by omega⟩
    simp only [Nat.stirlingSecond_succ_succ, Nat.add_sub_cancel]
    push_cast; ring

example : stirlingS2All 5 4 = some [[1], [0, 1], [0, 1, 1], [0, 1, 3, (1 : Int)], [0, 1, 7, 6]] := by decide +kernel

theorem facLoop_spec : ∀ (c i : Nat), facLoop c (i + 1) ((i ! : Nat) : α) = (((i + c) ! : Nat) : α) := by
  intro c
  induction c with
  | zero => intro i; rfl
  | succ c ih =>
    intro i
    rw [facLoop, ← Nat.cast_mul, mul_comm, ← Nat.factorial_succ, ih (i + 1), show i + 1 + c = i + (c + 1) by omega]

/-- **C74**: `factorial(n)`. -/
theorem C74_factorial (n : Nat) : factorial n = ((n ! : Nat) : α) := by
  have := facLoop_spec (α := α) (n - 1) 1
  rw [Nat.factorial_one, Nat.cast_one] at this
  rw [factorial, this]
  rcases Nat.eq_zero_or_pos n with rfl | h
  · rfl
  · rw [show 1 + (n - 1) = n by omega]

end

/-! ### the row of the first kind by a product tree -/

section tree
variable {α : Type} [CommRing α] [DecidableEq α] [Nontrivial α]

/-- The polynomial with coefficients `c` is `(x - a) ... (x - (b - 1))`, without superfluous coefficients. -/
def Falls (c : List α) (a b : Nat) : Prop :=
  poly c = ∏ j ∈ Finset.Ico a b, (Polynomial.X - Polynomial.C ((j : Nat) : α)) ∧ c.length = b - a + 1

theorem Falls.deg {c : List α} {a b : Nat} (h : Falls c a b) : Polynom.deg c = b - a := by
  rw [Polynom.C37_deg, h.1, Polynomial.natDegree_prod_of_monic _ _ (fun j _ => Polynomial.monic_X_sub_C _)]
  simp only [Polynomial.natDegree_X_sub_C, Finset.sum_const, Nat.card_Ico, smul_eq_mul, mul_one]

theorem falls_times (thr : Nat) {c d : List α} {x y z : Nat} (hc : Falls c x y) (hd : Falls d y z) (h1 : x ≤ y) (h2 : y ≤ z) :
    ∃ r, Polynom.times thr c d = some r ∧ Falls r x z := by
  obtain ⟨r, e, hp⟩ := Polynom.C37_times thr c none (some d)
  obtain ⟨r', e', hl, _⟩ := Polynom.C37_mul thr c none (some d) none
  rw [e] at e'
  cases e'
  refine ⟨r, e, ?_, ?_⟩
  · have hp' : poly r = poly c * poly d := hp
    rw [hp', hc.1, hd.1, Finset.prod_Ico_consecutive _ h1 h2]
  · have hl' : r.length = Polynom.deg c + Polynom.deg d + 1 := hl
    rw [hl', hc.deg, hd.deg]; omega

theorem treeInner_spec (thr n l : Nat) (hl : 0 < l) : ∀ (fuel q : Nat) (vp : List (List α)), 0 < fuel → n < fuel + 2 * l * q → vp.length = n →
    (∀ r, 2 * l * r < n → r < q → ∃ c, vp[2 * l * r]? = some c ∧ Falls c (2 * l * r) (min (2 * l * r + 2 * l) n)) →
    (∀ r, l * r < n → 2 * q ≤ r → ∃ c, vp[l * r]? = some c ∧ Falls c (l * r) (min (l * r + l) n)) →
    ∃ vp', treeInner thr n l fuel (2 * l * q) vp = some vp' ∧ vp'.length = n ∧
      ∀ r, 2 * l * r < n → ∃ c, vp'[2 * l * r]? = some c ∧ Falls c (2 * l * r) (min (2 * l * r + 2 * l) n) := by
  intro fuel
  induction fuel with
  | zero =>
    intro q vp h
    omega
  | succ fuel ih =>
    intro q vp _ hf hlen hA hB
    rw [treeInner]
    by_cases hi : 2 * l * q + l < n
    · rw [if_pos hi]
      have e1 : 2 * l * q = l * (2 * q) := by ring
      have e2 : 2 * l * q + l = l * (2 * q + 1) := by ring
      obtain ⟨c, hc, fc⟩ := hB (2 * q) (by omega) (le_refl _)
      obtain ⟨d, hd, fd⟩ := hB (2 * q + 1) (by omega) (by omega)
      rw [← e1] at hc fc
      rw [← e2] at hd fd
      rw [min_eq_left (by omega)] at fc
      obtain ⟨r, er, fr⟩ := falls_times thr fc fd (by omega) (by omega)
      have w1 : wr vp (2 * l * q) r = some (vp.set (2 * l * q) r) := by rw [wr, if_pos (by omega)]
      have w2 : wr (vp.set (2 * l * q) r) (2 * l * q + l) [] = some ((vp.set (2 * l * q) r).set (2 * l * q + l) []) := by
        rw [wr, if_pos (by rw [List.length_set]; omega)]
      rw [rd, rd, hc, hd]
      simp only [Option.bind_eq_bind, Option.bind_some, er, w1, w2]
      have key : ∀ m, m ≠ 2 * l * q → m ≠ 2 * l * q + l → ((vp.set (2 * l * q) r).set (2 * l * q + l) [])[m]? = vp[m]? := by
        intro m h1 h2
        rw [List.getElem?_set_ne (Ne.symm h2), List.getElem?_set_ne (Ne.symm h1)]
      have := ih (q + 1) ((vp.set (2 * l * q) r).set (2 * l * q + l) []) (by omega) (by
          rw [show 2 * l * (q + 1) = 2 * l * q + 2 * l by ring]; omega) (by simp [hlen]) (by
          intro t ht htq
          by_cases e : t = q
          · subst e
            refine ⟨r, ?_, ?_⟩
            · rw [List.getElem?_set_ne (by omega), List.getElem?_set_self (by omega)]
            · rwa [show 2 * l * t + 2 * l = 2 * l * t + l + l by ring]
          · obtain ⟨c', h1, h2⟩ := hA t ht (by omega)
            have hlt : 2 * l * t < 2 * l * q := Nat.mul_lt_mul_of_pos_left (by omega) (by omega)
            exact ⟨c', by rw [key _ (by omega) (by omega)]; exact h1, h2⟩) (by
          intro t ht htq
          obtain ⟨c', h1, h2⟩ := hB t ht (by omega)
          have hlt : l * (2 * q + 1) < l * t := Nat.mul_lt_mul_of_pos_left (by omega) hl
          rw [← e2] at hlt
          exact ⟨c', by rw [key _ (by omega) (by omega)]; exact h1, h2⟩)
      rw [show 2 * l * (q + 1) = 2 * l * q + l * 2 by ring] at this
      exact this
    · rw [if_neg hi]
      refine ⟨vp, rfl, hlen, fun r hr => ?_⟩
      by_cases hrq : r < q
      · exact hA r hr hrq
      · have hrq' : r = q := by
          by_contra h
          have : 2 * l * (q + 1) ≤ 2 * l * r := Nat.mul_le_mul_left _ (by omega)
          rw [show 2 * l * (q + 1) = 2 * l * q + 2 * l by ring] at this
          omega
        subst hrq'
        obtain ⟨c, h1, h2⟩ := hB (2 * r) (by rw [show l * (2 * r) = 2 * l * r by ring]; exact hr) (le_refl _)
        rw [show l * (2 * r) = 2 * l * r by ring] at h1 h2
        refine ⟨c, h1, ?_⟩
        rw [min_eq_right (by omega)] at h2 ⊢
        exact h2

theorem treeOuter_spec (thr n : Nat) (hn : 0 < n) : ∀ (fuel l : Nat) (vp : List (List α)), 0 < fuel → 0 < l → n < fuel + l → vp.length = n →
    (∀ r, l * r < n → ∃ c, vp[l * r]? = some c ∧ Falls c (l * r) (min (l * r + l) n)) →
    ∃ vp' c, treeOuter thr n fuel l vp = some vp' ∧ vp'[0]? = some c ∧ Falls c 0 n := by
  intro fuel
  induction fuel with
  | zero => intro l vp h; omega
  | succ fuel ih =>
    intro l vp _ hl hf hlen h
    rw [treeOuter]
    by_cases hln : l < n
    · rw [if_pos hln]
      obtain ⟨vp', e, hlen', h'⟩ := treeInner_spec thr n l hl (n + 1) 0 vp (by omega) (by omega) hlen (fun r _ hr => by omega)
        (fun r hr _ => h r hr)
      rw [Nat.mul_zero] at e
      rw [e, Option.bind_eq_bind, Option.bind_some]
      refine ih (l * 2) vp' (by omega) (by omega) (by omega) hlen' (fun r hr => ?_)
      rw [show l * 2 = 2 * l by ring] at *
      exact h' r hr
    · rw [if_neg hln]
      obtain ⟨c, h1, h2⟩ := h 0 (by omega)
      rw [Nat.mul_zero] at h1 h2
      rw [Nat.zero_add, min_eq_right (by omega)] at h2
      exact ⟨vp, c, rfl, h1, h2⟩

theorem falling_prod (n : Nat) : ∏ j ∈ Finset.Ico 0 n, (Polynomial.X - Polynomial.C ((j : Nat) : α)) = descPochhammer α n := by
  induction n with
  | zero => simp
  | succ n ih => rw [Finset.prod_Ico_succ_top (Nat.zero_le n), ih, descPochhammer_succ_right, Polynomial.C_eq_natCast]

theorem coeff_falling (n k : Nat) : (descPochhammer α n).coeff k = ((s1 n k : Int) : α) := by
  rw [← descPochhammer_map (Int.castRingHom α), Polynomial.coeff_map]; rfl

/-- **C74**: `stirling_s1_all_k_for_n(n)` is the `n`-th row, in any ring. -/
theorem C74_s1_row (thr n : Nat) : stirlingS1AllKForN thr n = some ((List.range (n + 1)).map (fun k => ((s1 n k : Int) : α))) := by
  rw [stirlingS1AllKForN]
  by_cases h0 : n = 0
  · subst h0
    rw [if_pos rfl]
    simp [s1_zero_left]
  · rw [if_neg h0]
    obtain ⟨vp, c, e, hc, hf⟩ := treeOuter_spec (α := α) thr n (by omega) (n + 1) 1
      ((List.range n).map (fun i => [-1 * ((i : Nat) : α), 1])) (by omega) (by omega) (by omega) (by simp) (by
        intro r hr
        rw [one_mul] at hr ⊢
        refine ⟨_, (Rep.of_map n _).get r hr, ?_, ?_⟩
        · rw [min_eq_left (by omega), Nat.Ico_succ_singleton, Finset.prod_singleton]
          ext i
          rw [poly_coeff, Polynomial.coeff_sub, Polynomial.coeff_X, Polynomial.coeff_C]
          rcases i with _ | _ | i
          · simp [at']
          · simp [at']
          · simp [at']
        · rw [min_eq_left (by omega)]; simp)
    simp only [Option.bind_eq_bind, e, Option.bind_some, rd, hc]
    congr 1
    have : Rep c (n + 1) (fun k => ((s1 n k : Int) : α)) := by
      refine ⟨by rw [hf.2]; omega, fun i hi => ?_⟩
      have hi' : i < c.length := by rw [hf.2]; omega
      have : rd c i = some (at' c i) := Polynom.rd_at hi'
      rw [rd] at this
      rw [this, ← poly_coeff, hf.1, falling_prod, coeff_falling]
    exact this.eq_map

example : stirlingS1AllKForN 2 5 = some [0, 24, -50, 35, -10, (1 : Int)] := by decide +kernel

end tree

/-! ### columns and rows by power series -/

section series
variable {α : Type} [Field α] [DecidableEq α]

/-- Powers of a logarithm of `1 + x`. -/
theorem log_pow (L : Polynomial α) (N : Nat) (h0 : L.coeff 0 = 0)
    (hL : Agree (N - 1) (Polynomial.derivative L * (1 + Polynomial.X)) 1) : ∀ (k i : Nat), i < N →
    ((i ! : Nat) : α) * (L ^ k).coeff i = ((k ! : Nat) : α) * ((s1 i k : Int) : α) := by
  intro k
  induction k with
  | zero =>
    intro i _
    rw [pow_zero, Polynomial.coeff_one]
    cases i with
    | zero => simp [s1_zero_left]
    | succ i => rw [if_neg (by omega), s1_succ_zero]; simp
  | succ k ihk =>
    intro i
    induction i with
    | zero =>
      intro _
      rw [Polynomial.coeff_zero_eq_eval_zero, Polynomial.eval_pow, ← Polynomial.coeff_zero_eq_eval_zero, h0, s1_zero_left,
        if_neg (by omega)]
      simp
    | succ i ihi =>
      intro hi
      have hc := ihi (by omega)
      have hd := ihk i (by omega)
      have key : Agree (N - 1) (Polynomial.derivative (L ^ (k + 1)) * (1 + Polynomial.X))
          (Polynomial.C ((k + 1 : Nat) : α) * L ^ k) := by
        have := hL.mul_left (Polynomial.C ((k + 1 : Nat) : α) * L ^ k)
        rw [mul_one] at this
        refine (Agree.of_eq ?_).trans this
        rw [Polynomial.derivative_pow]
        simp only [Nat.add_sub_cancel]
        ring
      have hk := key i (by omega)
      rw [mul_add, mul_one, Polynomial.coeff_add, Polynomial.coeff_C_mul, Polynomial.coeff_derivative] at hk
      have h2 : (Polynomial.derivative (L ^ (k + 1)) * Polynomial.X).coeff i = (i : α) * (L ^ (k + 1)).coeff i := by
        cases i with
        | zero => simp
        | succ i => rw [Polynomial.coeff_mul_X, Polynomial.coeff_derivative]; push_cast; ring
      rw [h2] at hk
      rw [s1_succ_succ, Nat.factorial_succ, Nat.factorial_succ]
      rw [Nat.factorial_succ] at hc
      push_cast at hk hc ⊢
      linear_combination ((i ! : Nat) : α) * hk - (i : α) * hc + ((k : α) + 1) * hd

/-- Powers of `exp(x) - 1`. -/
theorem exp_pow (E : Polynomial α) (N : Nat) (h0 : E.coeff 0 = 0)
    (hE : Agree (N - 1) (Polynomial.derivative E) (E + 1)) : ∀ (k i : Nat), i < N →
    ((i ! : Nat) : α) * (E ^ k).coeff i = ((k ! : Nat) : α) * ((Nat.stirlingSecond i k : Nat) : α) := by
  intro k
  induction k with
  | zero =>
    intro i _
    rw [pow_zero, Polynomial.coeff_one]
    cases i with
    | zero => simp
    | succ i => rw [if_neg (by omega), Nat.stirlingSecond_succ_zero]; simp
  | succ k ihk =>
    intro i
    induction i with
    | zero =>
      intro _
      rw [Polynomial.coeff_zero_eq_eval_zero, Polynomial.eval_pow, ← Polynomial.coeff_zero_eq_eval_zero, h0,
        Nat.stirlingSecond_zero_succ]
      simp
    | succ i ihi =>
      intro hi
      have hc := ihi (by omega)
      have hd := ihk i (by omega)
      have key : Agree (N - 1) (Polynomial.derivative (E ^ (k + 1)))
          (Polynomial.C ((k + 1 : Nat) : α) * (E ^ (k + 1) + E ^ k)) := by
        have := hE.mul_left (Polynomial.C ((k + 1 : Nat) : α) * E ^ k)
        refine (Agree.of_eq ?_).trans (this.trans (Agree.of_eq ?_))
        · rw [Polynomial.derivative_pow]
          simp only [Nat.add_sub_cancel]
        · ring
      have hk := key i (by omega)
      rw [Polynomial.coeff_C_mul, Polynomial.coeff_add, Polynomial.coeff_derivative] at hk
      rw [Nat.stirlingSecond_succ_succ, Nat.factorial_succ, Nat.factorial_succ]
      rw [Nat.factorial_succ] at hc
      push_cast at hk hc ⊢
      linear_combination ((i ! : Nat) : α) * hk + ((k : α) + 1) * hc + ((k : α) + 1) * hd

/-- The end of both column functions: the power, the division by `k!`, the conversion. -/
theorem column_end (thr n k : Nat) (s : Series.Ser α) (P : Polynomial α) (hs : Series.Is s n P) (hn : 0 < n) (f : Nat → α)
    (hchar : ∀ j : Nat, 1 ≤ j → j ≤ n → (j : α) ≠ 0) (hk : ((k ! : Nat) : α) ≠ 0)
    (h0 : P.coeff 0 = 0) (h1 : 1 < n → P.coeff 1 = 1) (hbig : k < 200 ∨ k ≤ n)
    (hf : ∀ i, i < n → ((i ! : Nat) : α) * (P ^ k).coeff i = ((k ! : Nat) : α) * f i) :
    (do
      let w ← Series.pow thr 3 s (k : Int) 200
      let e ← Series.divScalar w (factorial k)
      some (Polynom.resize (Series.makeOrdinary e).p n)) = some ((List.range n).map f) := by
  obtain ⟨w, ew, hw⟩ := Series.C60_pow thr s hs.wf (by rw [hs.1]; exact hn) k 200 (fun j h1 h2 => hchar j h1 (by rw [← hs.1]; exact h2)) (by
    by_cases h : k < 200
    · left; exact_mod_cast h
    · right
      have hkn : k ≤ n := by omega
      have hne : ∃ i, at' s.p i ≠ 0 := ⟨1, by rw [hs.2.2 1 (by omega), h1 (by omega)]; exact one_ne_zero⟩
      refine ⟨hne, ?_, by omega⟩
      have hlow : Polynom.lowest s.p ≤ 1 := by
        by_contra hc
        have := (Series.lowest_spec s.p hne).2 1 (by omega)
        rw [hs.2.2 1 (by omega), h1 (by omega)] at this
        exact one_ne_zero this
      rw [hs.1]
      calc Polynom.lowest s.p * k ≤ 1 * k := Nat.mul_le_mul_right _ hlow
        _ ≤ n := by omega) 3 (le_refl 3)
  rw [hs.1] at hw
  replace hw := hw.of_agree (hs.agree.pow k)
  obtain ⟨e, ee, he⟩ := Series.C60_div_scalar w (factorial k) (by rw [C74_factorial]; exact hk)
  rw [hw.1] at he
  obtain ⟨o1, o2, o3⟩ := Series.C60_make_ordinary e he.wf
  rw [ew, Option.bind_eq_bind, Option.bind_some, ee, Option.bind_some]
  refine congrArg some ?_
  have : Rep (Polynom.resize (Series.makeOrdinary e).p n) n f := by
    refine ⟨length_resize _ _, fun i hi => ?_⟩
    have hr : rd (Polynom.resize (Series.makeOrdinary e).p n) i = some (at' (Polynom.resize (Series.makeOrdinary e).p n) i) :=
      Polynom.rd_at (by rw [length_resize]; exact hi)
    rw [rd] at hr
    rw [hr, at'_resize, if_pos hi, o3 i (by rw [he.1]; exact hi), he.2.2 i hi, Polynomial.coeff_C_mul, poly_coeff, hw.2.2 i hi,
      C74_factorial]
    refine congrArg some ?_
    have := hf i hi
    field_simp
    linear_combination this
  exact this.eq_map

/-- **C74**: `stirling_s1_all_n_for_k(n, k)` is the `k`-th column of the numbers of the first kind, when `1, ..., n` and `k!`
are invertible; from `k = 200` on it also needs `k <= n`. -/
theorem C74_s1_column (thr n k : Nat) (hn : 0 < n) (hchar : ∀ j : Nat, 1 ≤ j → j ≤ n → (j : α) ≠ 0)
    (hk : ((k ! : Nat) : α) ≠ 0) (hbig : k < 200 ∨ k ≤ n) :
    stirlingS1AllNForK thr n k = some ((List.range n).map (fun i => ((s1 i k : Int) : α))) := by
  rw [stirlingS1AllNForK]
  simp only [Option.bind_eq_bind]
  have hpoly : poly (Series.mk [(1 : α), 1] 2).p = 1 + Polynomial.X := by
    ext i
    rw [poly_coeff, Series.mk, at'_resize, Polynomial.coeff_add, Polynomial.coeff_one, Polynomial.coeff_X]
    rcases i with _ | _ | i
    · simp [at']
    · simp [at']
    · simp
  have hs : Series.Is ((Series.mk [(1 : α), 1] 2).resize n) n (1 + Polynomial.X) := by
    rw [← hpoly]
    exact Series.mk_is _ _
  obtain ⟨L, eL, hLN, hLl, hL0, hL⟩ := Series.ln_spec thr _ n _ hs hn (by simp) 0 hchar
  rw [eL, Option.bind_some]
  have hd : Polynomial.derivative (1 + Polynomial.X : Polynomial α) = 1 := by simp
  rw [hd] at hL
  have hc0 : (poly L.p).coeff 0 = 0 := by rw [poly_coeff, hL0]
  refine column_end thr n k L (poly L.p) ⟨hLN, hLl, fun i _ => (poly_coeff _ _).symm⟩ hn _ hchar hk hc0 (fun h => ?_) hbig
    (log_pow _ n hc0 hL k)
  have := hL 0 (by omega)
  rw [mul_add, mul_one, Polynomial.coeff_add, Polynomial.coeff_mul_X_zero, Polynomial.coeff_derivative] at this
  simpa using this

example : stirlingS1AllNForK 2 6 2 = some [0, 0, 1, -3, 11, (-50 : ℚ)] := by decide +kernel

/-- **C74**: `stirling_s2_all_n_for_k(n, k)` is the `k`-th column of the numbers of the second kind. -/
theorem C74_s2_column (thr n k : Nat) (hn : 0 < n) (hchar : ∀ j : Nat, 1 ≤ j → j ≤ n → (j : α) ≠ 0)
    (hk : ((k ! : Nat) : α) ≠ 0) (hbig : k < 200 ∨ k ≤ n) :
    stirlingS2AllNForK thr n k = some ((List.range n).map (fun i => ((Nat.stirlingSecond i k : Nat) : α))) := by
  have hfac : ∀ m, m ≤ n → ((m ! : Nat) : α) ≠ 0 := by
    intro m
    induction m with
    | zero => intro _; simp
    | succ m ih => intro h; rw [Nat.factorial_succ, Nat.cast_mul]; exact mul_ne_zero (hchar _ (by omega) h) (ih (by omega))
  rw [stirlingS2AllNForK]
  obtain ⟨x, ex, hxN, hxw, hx⟩ := Series.C60_exp_of (1 : α) n hn (hfac _ (by omega))
  rw [ex, Option.bind_eq_bind, Option.bind_some]
  have hone : poly (Series.mk [(1 : α)] 1).p = 1 := by
    ext i
    rw [poly_coeff, Series.mk, at'_resize, Polynomial.coeff_one]
    rcases i with _ | i
    · simp [at']
    · simp
  have hs := (Series.C60_add x (Series.mk [(1 : α)] 1)).2.1
  rw [hxN, hone] at hs
  have hco : ∀ i, i < n → (poly x.p).coeff i = (((i ! : Nat) : α))⁻¹ := by
    intro i hi
    rw [poly_coeff, hx i hi, one_pow, one_div]
  have hc0 : (poly x.p - 1).coeff 0 = 0 := by
    rw [Polynomial.coeff_sub, hco 0 hn]; simp
  refine column_end thr n k _ _ hs hn _ hchar hk hc0 (fun h => ?_) hbig (exp_pow _ n hc0 ?_ k)
  · rw [Polynomial.coeff_sub, hco 1 h]; simp [Polynomial.coeff_one]
  · intro i hi
    rw [sub_add_cancel, Polynomial.derivative_sub, Polynomial.derivative_one, sub_zero, Polynomial.coeff_derivative,
      hco _ (by omega), hco _ (by omega), Nat.factorial_succ]
    have h1 := hchar (i + 1) (by omega) (by omega)
    have h2 := hfac i (by omega)
    push_cast at h1 ⊢
    field_simp

example : stirlingS2AllNForK 2 6 2 = some [0, 0, 1, 3, 7, (15 : ℚ)] := by decide +kernel

/-- **C74** (negative): with `k >= 200` and more than `n` the columns are undefined (an iterator out of range). -/
theorem C74_column_beyond : stirlingS1AllNForK 2 2 200 = (none : Option (List ℚ)) := by decide +kernel

/-- **C74**: `stirling_s2_all_k_for_n(n)` is the `n`-th row of the numbers of the second kind, when `n!` is invertible. -/
theorem C74_s2_row (thr n : Nat) (hfac : ((n ! : Nat) : α) ≠ 0) :
    stirlingS2AllKForN thr n = some ((List.range (n + 1)).map (fun k => ((Nat.stirlingSecond n k : Nat) : α))) := by
  have hfac' : ∀ m, m ≤ n → ((m ! : Nat) : α) ≠ 0 := by
    intro m hm h
    obtain ⟨q, hq⟩ := Nat.factorial_dvd_factorial hm
    rw [hq, Nat.cast_mul, h, zero_mul] at hfac
    exact hfac rfl
  rw [stirlingS2AllKForN]
  obtain ⟨x, ex, hxN, hxw, hx⟩ := Series.C60_exp_of (-1 : α) (n + 1) (by omega) (hfac' _ (by omega))
  rw [Ranges.C61_power]
  have hr := Ranges.C61_range (1 : α) (List.replicate (n + 1) 1)
  rw [List.length_replicate] at hr
  have hm := Series.mk_is ((Ranges.range (1 : α) (List.replicate (n + 1) 1)).map (fun x => x ^ n)) (n + 1)
  obtain ⟨y, ey, hyN, hyw, hy⟩ := Series.C60_make_exponential _ hm.wf (by rw [hm.1]; omega) (by rw [hm.1]; exact hfac' _ (by omega))
  rw [hm.1] at hyN hy
  simp only [Option.bind_eq_bind, ex, ey, Option.bind_some]
  obtain ⟨r, er, hrs⟩ := (Series.C60_mul thr x y (by rw [hxN]; omega)).1
  rw [er, Option.bind_some]
  congr 1
  rw [hxN] at hrs
  have : Rep (Polynom.resize r.p (n + 1)) (n + 1) (fun k => ((Nat.stirlingSecond n k : Nat) : α)) := by
    refine ⟨length_resize _ _, fun k hk => ?_⟩
    have hrd : rd (Polynom.resize r.p (n + 1)) k = some (at' (Polynom.resize r.p (n + 1)) k) :=
      Polynom.rd_at (by rw [length_resize]; exact hk)
    rw [rd] at hrd
    rw [hrd, at'_resize, if_pos hk, hrs.2.2 k hk, Polynomial.coeff_mul, Finset.Nat.sum_antidiagonal_eq_sum_range_succ_mk,
      ← Finset.sum_range_reflect]
    congr 1
    have h1 := congrArg (Int.cast (R := α)) (second_explicit n k)
    push_cast at h1
    have hk0 := hfac' k (by omega)
    apply mul_left_cancel₀ hk0
    rw [h1, Finset.mul_sum]
    refine Finset.sum_congr rfl (fun j hj => ?_)
    have hj' : j ≤ k := by rw [Finset.mem_range] at hj; omega
    simp only [show k.succ - 1 - j = k - j by omega, show k - (k - j) = j by omega]
    have hv : at' (Series.mk ((Ranges.range (1 : α) (List.replicate (n + 1) 1)).map (fun x => x ^ n)) (n + 1)).p j = (j : α) ^ n := by
      rw [hm.2.2 j (by omega), poly_coeff, at', List.getD_eq_getElem?_getD, List.getElem?_map, hr.get j (by omega)]
      simp
    rw [poly_coeff, poly_coeff, hx _ (by omega), hy _ (by omega), hv]
    have e1 : (-1 : α) ^ (k - j) = (-1) ^ (k + j) := by
      rw [show k + j = (k - j) + 2 * j by omega, pow_add, pow_mul]; simp
    have e2 := congrArg (Nat.cast (R := α)) (Nat.choose_mul_factorial_mul_factorial hj')
    push_cast at e2
    have h2 := hfac' j (by omega)
    have h3 := hfac' (k - j) (by omega)
    rw [e1, ← e2]
    field_simp
  exact this.eq_map

example : stirlingS2AllKForN 2 4 = some [0, 1, 7, 6, (1 : ℚ)] := by decide +kernel

/-- **C74**: `stirling_s1(n, k)` for all `n`, `k`, when `1, ..., n + 1` are invertible. -/
theorem C74_s1 (thr n k : Nat) (hchar : ∀ j : Nat, 1 ≤ j → j ≤ n + 1 → (j : α) ≠ 0) :
    stirlingS1 thr n k = some ((s1 n k : Int) : α) := by
  rw [stirlingS1]
  by_cases h1 : k = n
  · rw [if_pos h1, h1, s1_self, Int.cast_one]
  rw [if_neg h1]
  by_cases h2 : k = 0 ∨ n < k
  · rw [if_pos h2]
    rcases h2 with rfl | h
    · obtain ⟨n, rfl⟩ : ∃ m, n = m + 1 := ⟨n - 1, by omega⟩
      rw [s1_succ_zero, Int.cast_zero]
    · rw [s1_gt n k h, Int.cast_zero]
  · rw [if_neg h2]
    have hfac : ∀ m, m ≤ n → ((m ! : Nat) : α) ≠ 0 := by
      intro m
      induction m with
      | zero => intro _; simp
      | succ m ih => intro h; rw [Nat.factorial_succ, Nat.cast_mul]; exact mul_ne_zero (hchar _ (by omega) (by omega)) (ih (by omega))
    rw [C74_s1_column thr (n + 1) k (by omega) hchar (hfac k (by omega)) (by omega), Option.bind_eq_bind, Option.bind_some]
    exact (Rep.of_map (n + 1) _).rd (by omega)

example : stirlingS1 2 5 2 = some (-50 : ℚ) := by decide +kernel

end series

/-! ### the single term of the second kind -/

section single
variable {α : Type} [CommRing α] [DecidableEq α] [Quo α]

theorem s2Loop_spec (n k : Nat) (hex : ∀ j : Nat, 1 ≤ j → j ≤ k → Exact (j : α)) : ∀ (c j : Nat), j + c = k →
    s2Loop n k c (j + 1) ((k.choose j : Nat) : α) ((j ! : Nat) : α)
      (∑ t ∈ Finset.range (j + 1), if t = 0 then 0 else (-1) ^ (k + t) * ((k.choose t : Nat) : α) * (t : α) ^ n) =
    some (((k ! : Nat) : α), ∑ t ∈ Finset.range (k + 1), if t = 0 then 0 else (-1) ^ (k + t) * ((k.choose t : Nat) : α) * (t : α) ^ n) := by
  intro c
  induction c with
  | zero => intro j h; rw [s2Loop, show j = k by omega]
  | succ c ih =>
    intro j h
    rw [s2Loop]
    have e1 : cdiv (((k.choose j : Nat) : α) * (((k : Int) + 1 - ((j + 1 : Nat) : Int) : Int) : α)) (((j + 1 : Nat) : Nat) : α) =
        some ((k.choose (j + 1) : Nat) : α) := by
      apply cdiv_exact (hex (j + 1) (by omega) (by omega))
      have := congrArg (Nat.cast (R := α)) (Nat.choose_succ_right_eq k j)
      rw [Nat.cast_mul, Nat.cast_mul, Nat.cast_sub (by omega)] at this
      push_cast at this ⊢
      linear_combination -this
    rw [e1, Option.bind_eq_bind, Option.bind_some, Base.C04_powT]
    rw [← ih (j + 1) (by omega)]
    simp only []
    congr 1
    · rw [← Nat.cast_mul, mul_comm, ← Nat.factorial_succ]
    · rw [Finset.sum_range_succ _ (j + 1), if_neg (Nat.succ_ne_zero j), one_mul]
      congr 1
      have hsgn : ((k : Int) - ((j + 1 : Nat) : Int)).tmod 2 = ((k - (j + 1) : Nat) : Int) % 2 := by
        rw [show (k : Int) - ((j + 1 : Nat) : Int) = ((k - (j + 1) : Nat) : Int) by omega, Int.tmod_eq_emod_of_nonneg (by omega)]
      rw [hsgn]
      rcases Nat.even_or_odd' (k - (j + 1)) with ⟨m, hm | hm⟩
      · rw [if_neg (by omega), show k + (j + 1) = 2 * (m + (j + 1)) by omega, pow_mul]; simp
      · rw [if_pos (by omega), show k + (j + 1) = 2 * (m + (j + 1)) + 1 by omega, pow_succ, pow_mul]; simp

/-- **C74**: `stirling_s2(n, k)` for all `n`, `k`, in any ring where `1, ..., k` and `k!` can be divided by. -/
theorem C74_s2 (n k : Nat) (hex : ∀ j : Nat, 1 ≤ j → j ≤ k → Exact (j : α)) (hf : Exact ((k ! : Nat) : α)) :
    stirlingS2 n k = some ((Nat.stirlingSecond n k : Nat) : α) := by
  rw [stirlingS2]
  by_cases h1 : k = n
  · rw [if_pos h1, h1, Nat.stirlingSecond_self, Nat.cast_one]
  rw [if_neg h1]
  by_cases h2 : k = 0 ∨ n < k
  · rw [if_pos h2]
    rcases h2 with rfl | h
    · obtain ⟨n, rfl⟩ : ∃ m, n = m + 1 := ⟨n - 1, by omega⟩
      rw [Nat.stirlingSecond_succ_zero, Nat.cast_zero]
    · rw [Nat.stirlingSecond_eq_zero_of_lt h, Nat.cast_zero]
  · rw [if_neg h2]
    have := s2Loop_spec (α := α) n k hex k 0 (by omega)
    simp only [Nat.choose_zero_right, Nat.cast_one, Nat.factorial_zero, zero_add, Finset.range_one, Finset.sum_singleton, if_true] at this
    rw [this, Option.bind_eq_bind, Option.bind_some]
    apply cdiv_exact hf
    have h3 := congrArg (Int.cast (R := α)) (second_explicit n k)
    push_cast at h3
    rw [h3]
    refine Finset.sum_congr rfl (fun t _ => ?_)
    by_cases ht : t = 0
    · rw [if_pos ht, ht, Nat.cast_zero, zero_pow (by omega), mul_zero]
    · rw [if_neg ht]

/-- **C74**: over the integers nothing else is needed. -/
theorem C74_s2_int (n k : Nat) : stirlingS2 n k = some ((Nat.stirlingSecond n k : Nat) : Int) :=
  C74_s2 n k (fun j h _ => exact_int _ (by omega)) (exact_int _ (by have := Nat.factorial_ne_zero k; exact_mod_cast this))

example : stirlingS2 7 3 = some (301 : Int) := by decide +kernel

end single

end Altruct.Counting
