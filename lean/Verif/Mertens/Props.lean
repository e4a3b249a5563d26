/-
C111: the Mertens functions.
-/
import Verif.Mertens.Model
import Verif.Dirichlet.SumProps
import Mathlib.NumberTheory.ArithmeticFunction.Moebius

namespace Altruct.Mertens

open Altruct.Dirichlet
open Altruct.Polynom (Quo)
open ArithmeticFunction (moebius)

/-! ### Specification -/

/-- `Sum[MoebiusMu[k], {k, 1, n}]`. -/
def M (n : Nat) : Int := ∑ k ∈ Finset.Icc 1 n, moebius k

/-- `Sum[MoebiusMu[k], {k, 1, n, 2}]`. -/
def Modd (n : Nat) : Int := ∑ k ∈ (Finset.Icc 1 n).filter Odd, moebius k

/-- `Sum[MoebiusMu[k], {k, 2, n, 2}]`. -/
def Meven (n : Nat) : Int := ∑ k ∈ (Finset.Icc 1 n).filter Even, moebius k

/-! ### Identities -/

variable {α : Type} [CommRing α]

def mu (k : Nat) : α := ((moebius k : Int) : α)
def muOdd (k : Nat) : α := if k % 2 = 1 then mu k else 0
def muEven (k : Nat) : α := if k % 2 = 1 then 0 else mu k

theorem M_eq (n : Nat) : prefixSum (mu (α := α)) n = ((M n : Int) : α) := by
  rw [prefixSum, M, Int.cast_sum]; rfl

theorem Modd_eq (n : Nat) : prefixSum (muOdd (α := α)) n = ((Modd n : Int) : α) := by
  rw [prefixSum, Modd, Int.cast_sum, Finset.sum_filter]
  apply Finset.sum_congr rfl
  intro k _
  rw [muOdd]
  by_cases h : k % 2 = 1
  · rw [if_pos h, if_pos (Nat.odd_iff.mpr h)]; rfl
  · rw [if_neg h, if_neg (fun hh => h (Nat.odd_iff.mp hh))]

theorem Meven_eq (n : Nat) : prefixSum (muEven (α := α)) n = ((Meven n : Int) : α) := by
  rw [prefixSum, Meven, Int.cast_sum, Finset.sum_filter]
  apply Finset.sum_congr rfl
  intro k _
  rw [muEven]
  by_cases h : k % 2 = 1
  · rw [if_pos h, if_neg (fun hh => by rw [Nat.even_iff] at hh; omega)]
  · rw [if_neg h, if_pos (Nat.even_iff.mpr (by omega))]; rfl

theorem even_add_odd (n : Nat) : Meven n = M n - Modd n := by
  have h1 := Meven_eq (α := Int) n
  have h2 := Modd_eq (α := Int) n
  have h3 := M_eq (α := Int) n
  simp only [Int.cast_id] at h1 h2 h3
  rw [← h1, ← h2, ← h3, eq_sub_iff_add_eq, prefixSum, prefixSum, prefixSum, ← Finset.sum_add_distrib]
  apply Finset.sum_congr rfl
  intro k _
  rw [muEven, muOdd]
  split_ifs <;> simp

/-- The sum of the Möbius function over the divisors. -/
theorem conv_one_mu (j : Nat) (hj : 1 ≤ j) : conv (fun _ => (1 : α)) mu j = if j = 1 then 1 else 0 := by
  rw [conv_comm _ _ j hj, conv]
  have h := congrArg (fun f : ArithmeticFunction Int => f j) (ArithmeticFunction.moebius_mul_coe_zeta)
  simp only [ArithmeticFunction.mul_apply, ArithmeticFunction.one_apply] at h
  rw [Nat.sum_divisorsAntidiagonal (fun d e => moebius d * ((ArithmeticFunction.zeta : ArithmeticFunction Nat) : ArithmeticFunction Int) e)] at h
  have h2 : ∑ d ∈ j.divisors, moebius d = if j = 1 then 1 else 0 := by
    rw [← h]
    apply Finset.sum_congr rfl
    intro d hd
    have h3 := Nat.div_pos (Nat.divisor_le hd) (Nat.pos_of_mem_divisors hd)
    rw [ArithmeticFunction.natCoe_apply, ArithmeticFunction.zeta_apply_ne (by omega)]
    simp
  have h4 := congrArg (fun x : Int => (x : α)) h2
  simp only [Int.cast_sum] at h4
  simp only [mul_one]
  refine h4.trans ?_
  split_ifs <;> simp

theorem conv_odd_muOdd (j : Nat) (hj : 1 ≤ j) : conv (odd (α := α)) muOdd j = if j = 1 then 1 else 0 := by
  by_cases ho : j % 2 = 1
  · rw [← conv_one_mu j hj, conv, conv]
    apply Finset.sum_congr rfl
    intro d hd
    have hdj := Nat.dvd_of_mem_divisors hd
    have e := Nat.mul_div_cancel' hdj
    have hoj : Odd (d * (j / d)) := by rw [e]; exact Nat.odd_iff.mpr ho
    rw [Nat.odd_mul, Nat.odd_iff, Nat.odd_iff] at hoj
    rw [odd, if_pos hoj.1, muOdd, if_pos hoj.2]
  · rw [if_neg (by omega), conv]
    apply Finset.sum_eq_zero
    intro d hd
    have hdj := Nat.dvd_of_mem_divisors hd
    have e := Nat.mul_div_cancel' hdj
    by_cases h1 : d % 2 = 1
    · have : ¬ (j / d) % 2 = 1 := fun h2 => by
        have : Odd (d * (j / d)) := Nat.odd_mul.mpr ⟨Nat.odd_iff.mpr h1, Nat.odd_iff.mpr h2⟩
        rw [e, Nat.odd_iff] at this
        exact ho this
      rw [muOdd, if_neg this, mul_zero]
    · rw [odd, if_neg h1, zero_mul]

theorem conv_odd_mu (j : Nat) (hj : 1 ≤ j) :
    conv (odd (α := α)) mu j = (if j = 1 then 1 else 0) - (if j = 2 then 1 else 0) := by
  have hs : conv (odd (α := α)) mu j = conv (fun _ => 1) mu j - ∑ d ∈ j.divisors, (if d % 2 = 1 then 0 else (mu (j / d) : α)) := by
    rw [conv, conv, ← Finset.sum_sub_distrib]
    apply Finset.sum_congr rfl
    intro d _
    rw [odd]
    split_ifs <;> simp
  rw [hs, conv_one_mu j hj]
  congr 1
  by_cases he : j % 2 = 1
  · rw [if_neg (by omega)]
    apply Finset.sum_eq_zero
    intro d hd
    have hdj := Nat.dvd_of_mem_divisors hd
    rw [if_pos]
    have : Odd j := Nat.odd_iff.mpr he
    exact Nat.odd_iff.mp (Odd.of_dvd_nat this hdj)
  · obtain ⟨i, rfl⟩ : ∃ i, j = 2 * i := ⟨j / 2, by omega⟩
    have h := conv_one_mu (α := α) i (by omega)
    rw [conv] at h
    rw [show (if 2 * i = 2 then (1 : α) else 0) = if i = 1 then 1 else 0 from by
      by_cases h1 : i = 1
      · rw [if_pos h1, if_pos (by omega)]
      · rw [if_neg h1, if_neg (by omega)], ← h]
    symm
    have : (2 * i).divisors.filter (fun d => d % 2 ≠ 1) = i.divisors.image (2 * ·) := by
      ext d
      simp only [Finset.mem_filter, Nat.mem_divisors, Finset.mem_image]
      constructor
      · rintro ⟨⟨h1, h2⟩, h3⟩
        obtain ⟨e, rfl⟩ : ∃ e, d = 2 * e := ⟨d / 2, by omega⟩
        exact ⟨e, ⟨Nat.dvd_of_mul_dvd_mul_left (by omega) h1, by omega⟩, rfl⟩
      · rintro ⟨e, ⟨h1, h2⟩, rfl⟩
        exact ⟨⟨Nat.mul_dvd_mul_left 2 h1, by omega⟩, by omega⟩
    have h2 : ∑ d ∈ (2 * i).divisors, (if d % 2 = 1 then 0 else (mu (2 * i / d) : α)) = ∑ d ∈ (2 * i).divisors.filter (fun d => d % 2 ≠ 1), mu (2 * i / d) := by
      rw [Finset.sum_filter]
      apply Finset.sum_congr rfl
      intro d _
      by_cases h1 : d % 2 = 1
      · rw [if_pos h1, if_neg (by omega)]
      · rw [if_neg h1, if_pos h1]
    rw [h2, this, Finset.sum_image (fun a _ b _ h => by simpa using h)]
    apply Finset.sum_congr rfl
    intro d _
    rw [one_mul, Nat.mul_div_mul_left _ _ (by omega)]

theorem conv_odd_muEven (j : Nat) (hj : 1 ≤ j) : conv (odd (α := α)) muEven j = if j = 2 then -1 else 0 := by
  have : conv (odd (α := α)) muEven j = conv odd mu j - conv odd muOdd j := by
    rw [conv, conv, conv, ← Finset.sum_sub_distrib]
    apply Finset.sum_congr rfl
    intro d _
    rw [muEven, muOdd]
    split_ifs <;> simp
  rw [this, conv_odd_mu j hj, conv_odd_muOdd j hj]
  split_ifs <;> simp

theorem sum_one {i : Nat} (hi : 1 ≤ i) : ∑ j ∈ Finset.Icc 1 i, (if j = 1 then (1 : α) else 0) = 1 := by
  rw [Finset.sum_ite_eq' (Finset.Icc 1 i) 1, if_pos (by simp [hi])]

theorem eq_all {i : Nat} (hi : 1 ≤ i) : ∑ k ∈ Finset.Icc 1 i, (1 : α) * prefixSum mu (i / k) = 1 := by
  rw [hyperbola (fun _ => 1) mu]
  refine Eq.trans ?_ (sum_one hi)
  exact Finset.sum_congr rfl (fun j hj => conv_one_mu j (Finset.mem_Icc.mp hj).1)

theorem eq_odd {i : Nat} (hi : 1 ≤ i) : ∑ k ∈ Finset.Icc 1 i, odd k * prefixSum muOdd (i / k) = (1 : α) := by
  rw [hyperbola, ← sum_one hi]
  exact Finset.sum_congr rfl (fun j hj => conv_odd_muOdd j (Finset.mem_Icc.mp hj).1)

theorem eq_even {i : Nat} : ∑ k ∈ Finset.Icc 1 i, odd k * prefixSum muEven (i / k) = if 1 < i then (-1 : α) else 0 := by
  rw [hyperbola, Finset.sum_congr rfl (fun j hj => conv_odd_muEven j (Finset.mem_Icc.mp hj).1), Finset.sum_ite_eq' (Finset.Icc 1 i) 2]
  by_cases h : 1 < i
  · rw [if_pos h, if_pos (by simp; omega)]
  · rw [if_neg h, if_neg (by simp; omega)]

theorem mult_one (n : Nat) : MultBelow n (fun _ => (1 : α)) := ⟨rfl, fun _ _ _ _ _ _ => by rw [mul_one]⟩

theorem mult_odd (n : Nat) : MultBelow n (odd (α := α)) := ⟨rfl, fun a b _ _ _ _ => by
  have h : (a * b) % 2 = 1 ↔ a % 2 = 1 ∧ b % 2 = 1 := by rw [← Nat.odd_iff, Nat.odd_mul, Nat.odd_iff, Nat.odd_iff]
  rw [odd, odd, odd]
  by_cases h1 : a % 2 = 1 <;> by_cases h2 : b % 2 = 1 <;> simp [h, h1, h2]⟩

theorem mult_mu (n : Nat) : MultBelow n (mu (α := α)) := ⟨by simp [mu], fun a b _ _ _ hc => by
  rw [mu, ArithmeticFunction.isMultiplicative_moebius.map_mul_of_coprime hc, Int.cast_mul]; rfl⟩

theorem mult_muOdd (n : Nat) : MultBelow n (muOdd (α := α)) := by
  have h : ∀ k, muOdd (α := α) k = odd k * mu k := fun k => by rw [muOdd, odd]; split_ifs <;> simp
  refine ⟨by rw [h, (mult_odd n).1, (mult_mu n).1, one_mul], fun a b ha hb hab hc => ?_⟩
  rw [h, h, h, (mult_odd n).2 a b ha hb hab hc, (mult_mu n).2 a b ha hb hab hc]
  ring

/-! ### The sieves -/

/-- **C111**: `sieve_mertens` fills a table whose first element is zero with the Mertens function below `n`. -/
theorem C111_sieve (lim n N : Nat) (T : List α) (g0 : Nat → α) (pa : List Nat) (m : Nat) (P : PrimeTable pa m n)
    (r : Rep T N g0) (hN : n ≤ N) (h1n : 2 ≤ n) (hlim : 2 * n ≤ lim + 1) (hn : n ≤ 2 ^ 31) (h0 : g0 0 = 0) :
    ∃ T', sieve lim T n pa m = some T' ∧ Rep T' N (fun i => if i < n then ((M i : Int) : α) else g0 i) := by
  obtain ⟨T', e, r'⟩ := C52_sieve_m_multiplicative lim n N T g0 (fun _ => 1) (fun _ => 1) mu pa m P r hN h1n hlim hn h0
    (mult_one n) (mult_mu n) (fun i hi _ => eq_all hi)
  exact ⟨T', e, r'.congr (fun i _ => by rw [M_eq])⟩

/-- **C111**: `sieve_mertens_odd` sums the odd terms. -/
theorem C111_sieve_odd (lim n N : Nat) (T : List α) (g0 : Nat → α) (pa : List Nat) (m : Nat) (P : PrimeTable pa m n)
    (r : Rep T N g0) (hN : n ≤ N) (h1n : 2 ≤ n) (hlim : 2 * n ≤ lim + 1) (hn : n ≤ 2 ^ 31) (h0 : g0 0 = 0) :
    ∃ T', sieveOdd lim T n pa m = some T' ∧ Rep T' N (fun i => if i < n then ((Modd i : Int) : α) else g0 i) := by
  obtain ⟨T', e, r'⟩ := C52_sieve_m_multiplicative lim n N T g0 (fun _ => 1) odd muOdd pa m P r hN h1n hlim hn h0
    (mult_odd n) (mult_muOdd n) (fun i hi _ => eq_odd hi)
  exact ⟨T', e, r'.congr (fun i _ => by rw [Modd_eq])⟩

/-- The equation of `sieve_m` has one solution. -/
theorem unique {n : Nat} {p t G H : Nat → α} (hp : p 1 = 1)
    (hG : ∀ i, 1 ≤ i → i < n → ∑ k ∈ Finset.Icc 1 i, p k * G (i / k) = t i)
    (hH : ∀ i, 1 ≤ i → i < n → ∑ k ∈ Finset.Icc 1 i, p k * H (i / k) = t i) :
    ∀ i, 1 ≤ i → i < n → G i = H i := by
  intro i
  induction i using Nat.strong_induction_on with
  | _ i ih =>
    intro hi hin
    have h := (hG i hi hin).trans (hH i hi hin).symm
    rw [← Finset.add_sum_Ioc_eq_sum_Icc hi, ← Finset.add_sum_Ioc_eq_sum_Icc hi, hp, one_mul, one_mul, Nat.div_one] at h
    have h2 : ∑ k ∈ Finset.Ioc 1 i, p k * G (i / k) = ∑ k ∈ Finset.Ioc 1 i, p k * H (i / k) := Finset.sum_congr rfl (fun k hk => by
      rw [Finset.mem_Ioc] at hk
      rw [ih (i / k) (Nat.div_lt_self hi hk.1) (Nat.div_pos hk.2 (by omega)) (by have := Nat.div_le_self i k; omega)])
    rw [h2] at h
    exact add_right_cancel h

/-- **C111**: `sieve_mertens_even` sums the even terms; the first element of the table is not changed. -/
theorem C111_sieve_even [DecidableEq α] [Nontrivial α] [Quo α] (hquo : Quo.quo (1 : α) 1 = 1) (lim n N : Nat) (T : List α) (g0 : Nat → α)
    (r : Rep T N g0) (hN : n ≤ N) (h1n : 2 ≤ n) (hlim : 2 * n ≤ lim + 1) :
    ∃ T', sieveEven lim T n = some T' ∧ Rep T' N (fun i => if 1 ≤ i ∧ i < n then ((Meven i : Int) : α) else g0 i) := by
  obtain ⟨T', G, e, r', h1, h2⟩ := C52_sieve_m lim n N T g0 (fun k => if 1 < k then -1 else 0) (odd (α := α)) r h1n hN hlim
    (by rw [(mult_odd n).1]; exact one_ne_zero) (by rw [(mult_odd n).1, hquo, one_mul])
  refine ⟨T', e, r'.congr (fun i _ => ?_)⟩
  by_cases hi : 1 ≤ i ∧ i < n
  · rw [if_pos hi, ← Meven_eq]
    exact unique (mult_odd n).1 h1 (fun i _ _ => eq_even) i hi.1 hi.2
  · rw [if_neg hi, h2 i (by omega)]

/-- **C111**: `sieve_mertens_even_odd` does both. -/
theorem C111_sieve_even_odd (lim n N N1 : Nat) (T0 T1 : List α) (g0 g1 : Nat → α) (pa : List Nat) (m : Nat) (P : PrimeTable pa m n)
    (r0 : Rep T0 N g0) (r1 : Rep T1 N1 g1) (hN : n ≤ N) (hN1 : n ≤ N1) (h1n : 2 ≤ n) (hlim : 2 * n ≤ lim + 1) (hn : n ≤ 2 ^ 31)
    (h0 : g0 0 = 0) (h1 : g1 0 = 0) :
    ∃ T0' T1', sieveEvenOdd lim T0 T1 n pa m = some (T0', T1') ∧
      Rep T0' N (fun i => if i < n then ((Meven i : Int) : α) else g0 i) ∧ Rep T1' N1 (fun i => if i < n then ((Modd i : Int) : α) else g1 i) := by
  obtain ⟨T1', e1, s1⟩ := C111_sieve_odd lim n N1 T1 g1 pa m P r1 hN1 h1n hlim hn h1
  obtain ⟨S, e2, s2⟩ := C111_sieve lim n N T0 g0 pa m P r0 hN h1n hlim hn h0
  obtain ⟨T0', e3, s3⟩ := forUp_spec (body := fun k (M0 : List α) => do
      let x ← rd M0 k
      let y ← rd T1' k
      wr M0 k (x - y))
    (fun k M0 => Rep M0 N (fun i => if i < k then ((Meven i : Int) : α) else if i < n then ((M i : Int) : α) else g0 i)) (a := 0) (n := n) (s := S)
    (by omega) (s2.congr (fun i _ => by rw [if_neg (show ¬ i < 0 by omega)]))
    (fun k s _ hk rs => by
      refine ⟨_, ?_, (rs.set k (((Meven k : Int) : α))).congr (fun i _ => ?_)⟩
      · rw [rs.rd (by omega), s1.rd (by omega)]
        simp only [Option.bind_eq_bind, Option.bind_some]
        rw [if_neg (show ¬ k < k by omega), if_pos hk, if_pos hk, rs.wr (by omega)]
        congr 2
        rw [even_add_odd]; push_cast; rfl
      · by_cases hik : i = k
        · subst hik
          rw [Function.update_self, if_pos (by omega)]
        · rw [Function.update_of_ne hik]
          by_cases h : i < k
          · rw [if_pos h, if_pos (by omega)]
          · rw [if_neg h, if_neg (show ¬ i < k + 1 by omega)])
  refine ⟨T0', T1', ?_, s3.congr (fun i _ => ?_), s1⟩
  · rw [sieveEvenOdd, e1]
    simp only [Option.bind_eq_bind, Option.bind_some]
    rw [e2]
    simp only [Option.bind_eq_bind, Option.bind_some] at e3 ⊢
    rw [e3]
    rfl
  · by_cases h : i < n
    · rw [if_pos h, if_pos h]
    · rw [if_neg h, if_neg h, if_neg h]

example : sieve 100 (List.replicate 11 (0 : Int)) 11 [2, 3, 5, 7] 4 = some [0, 1, 0, -1, -1, -2, -1, -2, -2, -2, -1] ∧
    sieveOdd 100 (List.replicate 11 (0 : Int)) 11 [2, 3, 5, 7] 4 = some [0, 1, 1, 0, 0, -1, -1, -2, -2, -2, -2] ∧
    sieveEven 100 (List.replicate 11 (0 : Int)) 11 = some [0, 0, -1, -1, -1, -1, 0, 0, 0, 0, 1] ∧
    sieveEvenOdd 100 (List.replicate 4 (0 : Int)) (List.replicate 4 (0 : Int)) 4 [2, 3] 2 = some ([0, 0, -1, -1], [0, 1, 1, 0]) := by
  decide +kernel

/-- The table must start with zero. -/
theorem C111_first : sieve 100 [5, 0, 0, 0] 4 [2, 3] 2 = some [5, 6, 5, (4 : Int)] := by decide +kernel

/-! ### With a table of known values -/

/-- **C111**: `mertens` with a table, possibly with known values in it. -/
theorem C111_mertens (sq : Nat → Nat) (fuel n : Nat) (hsq : ∀ k, 1 ≤ k → k ≤ n → 1 ≤ sq k ∧ sq k ≤ k) (tbl : Nat → Option α) (hf : n ≤ fuel)
    (htbl : ∀ k v, tbl k = some v → v = ((M k : Int) : α)) :
    ∃ tbl', mertens sq fuel n tbl = some (((M n : Int) : α), tbl') ∧ (∀ k v, tbl' k = some v → v = ((M k : Int) : α)) ∧
      (∀ k v, tbl k = some v → tbl' k = some v) ∧ (1 ≤ n → tbl' n = some ((M n : Int) : α)) := by
  obtain ⟨tbl', e, h⟩ := C57_sum_m1 n sq (fun _ => 1) (fun k => ((M k : Int) : α)) hsq
    (fun i hi _ => by
      have := eq_all (α := α) hi
      simp only [one_mul, M_eq] at this
      exact this) fuel n tbl hf (le_refl _) htbl
  refine ⟨tbl', e.trans ?_, h⟩
  by_cases h0 : n = 0
  · subst h0
    simp [M]
  · rw [if_neg h0]

theorem odds_diff (k : Nat) (hk : 1 ≤ k) : odds (α := α) k - odds (k - 1) = odd k := by
  rw [odds, odds, odd]
  obtain ⟨j, rfl⟩ : ∃ j, k = j + 1 := ⟨k - 1, by omega⟩
  by_cases h : (j + 1) % 2 = 1
  · rw [if_pos h, show (j + 1 + 1) / 2 = (j + 1 - 1 + 1) / 2 + 1 by omega]; push_cast; ring
  · rw [if_neg h, show (j + 1 + 1) / 2 = (j + 1 - 1 + 1) / 2 by omega, sub_self]

theorem sum_odds {i : Nat} {F : Nat → α} : ∑ k ∈ Finset.Icc 1 i, (odds k - odds (k - 1)) * F (i / k) = ∑ k ∈ Finset.Icc 1 i, odd k * F (i / k) :=
  Finset.sum_congr rfl (fun k hk => by rw [odds_diff k (Finset.mem_Icc.mp hk).1])

/-- **C111**: `mertens_odd` with a table. -/
theorem C111_mertens_odd [DecidableEq α] [Nontrivial α] [Quo α] (hquo : ∀ a : α, Quo.quo a 1 = a) (sq : Nat → Nat) (fuel n : Nat)
    (hsq : ∀ k, 1 ≤ k → k ≤ n → 1 ≤ sq k ∧ sq k ≤ k) (tbl : Nat → Option α) (hf : n ≤ fuel)
    (htbl : ∀ k v, tbl k = some v → v = ((Modd k : Int) : α)) :
    ∃ tbl', mertensOdd sq fuel n tbl = some (((Modd n : Int) : α), tbl') ∧ (∀ k v, tbl' k = some v → v = ((Modd k : Int) : α)) ∧
      (∀ k v, tbl k = some v → tbl' k = some v) ∧ (1 ≤ n → tbl' n = some ((Modd n : Int) : α)) := by
  have h1 : odds (α := α) 1 - odds 0 = 1 := (odds_diff 1 (le_refl _)).trans rfl
  obtain ⟨tbl', e, h⟩ := C57_sum_m n sq (fun _ => 1) odds (fun k => ((Modd k : Int) : α)) hsq
    (fun i hi _ => by
      rw [sum_odds (F := fun k => ((Modd k : Int) : α)), ← eq_odd hi]
      exact Finset.sum_congr rfl (fun k _ => by rw [Modd_eq]))
    (by rw [h1]; exact one_ne_zero) (fun a => by rw [h1, one_mul, hquo]) fuel n tbl hf (le_refl _) htbl
  refine ⟨tbl', e.trans ?_, h⟩
  by_cases h0 : n = 0
  · subst h0
    simp [Modd]
  · rw [if_neg h0]

/-- The values of `mertens_even` with the table, up to `2 ^ 31`: the last of them is wrong. -/
theorem even_spec [DecidableEq α] [Nontrivial α] [Quo α] (hquo : ∀ a : α, Quo.quo a 1 = a) (sq : Nat → Nat) (fuel n : Nat) (hn : n ≤ 2 ^ 31)
    (hsq : ∀ k, 1 ≤ k → k ≤ n → 1 ≤ sq k ∧ sq k ≤ k) (tbl : Nat → Option α) (hf : n ≤ fuel)
    (htbl : ∀ k v, tbl k = some v → k < 2 ^ 31 ∧ v = ((Meven k : Int) : α)) :
    ∃ tbl', mertensEven sq fuel n tbl = some (((Meven n : Int) : α) + (if n = 2 ^ 31 then 1 else 0), tbl') ∧
      (∀ k v, tbl' k = some v → v = ((Meven k : Int) : α) + if k = 2 ^ 31 then 1 else 0) ∧
      (∀ k v, tbl k = some v → tbl' k = some v) ∧ (1 ≤ n → tbl' n = some (((Meven n : Int) : α) + if n = 2 ^ 31 then 1 else 0)) := by
  have h1 : odds (α := α) 1 - odds 0 = 1 := (odds_diff 1 (le_refl _)).trans rfl
  obtain ⟨tbl', e, h⟩ := C57_sum_m n sq (fun k => if 1 < toInt32 k then (-1 : α) else 0) odds
    (fun k => ((Meven k : Int) : α) + if k = 2 ^ 31 then 1 else 0) hsq
    (fun i hi hin => by
      have he := eq_even (α := α) (i := i)
      rw [sum_odds (F := fun k => ((Meven k : Int) : α) + if k = 2 ^ 31 then 1 else 0)]
      simp only [mul_add, Finset.sum_add_distrib]
      simp only [Meven_eq] at he
      rw [he]
      have hs : ∑ k ∈ Finset.Icc 1 i, odd (α := α) k * (if i / k = 2 ^ 31 then 1 else 0) = if i = 2 ^ 31 then 1 else 0 := by
        rw [← Finset.add_sum_Ioc_eq_sum_Icc hi, Nat.div_one, Finset.sum_eq_zero, add_zero, odd, if_pos rfl, one_mul]
        intro k hk
        rw [Finset.mem_Ioc] at hk
        have := Nat.div_lt_self hi hk.1
        rw [if_neg (by omega), mul_zero]
      rw [hs, toInt32]
      by_cases hb : i = 2 ^ 31
      · subst hb; norm_num
      · have h3 : i % 2 ^ 32 = i := Nat.mod_eq_of_lt (by omega)
        rw [h3, if_neg hb, add_zero, if_pos (show i < 2 ^ 31 by omega)]
        by_cases h4 : 1 < i
        · rw [if_pos h4, if_pos (by omega)]
        · rw [if_neg h4, if_neg (by omega)])
    (by rw [h1]; exact one_ne_zero) (fun a => by rw [h1, one_mul, hquo]) fuel n tbl hf (le_refl _)
    (fun k v hk => by
      obtain ⟨h2, h3⟩ := htbl k v hk
      rw [if_neg (by omega), add_zero, h3])
  refine ⟨tbl', e.trans ?_, h⟩
  by_cases h0 : n = 0
  · subst h0
    simp [Meven]
  · rw [if_neg h0]

/-- **C111**: `mertens_even` with a table, for arguments that fit in an `int`. -/
theorem C111_mertens_even [DecidableEq α] [Nontrivial α] [Quo α] (hquo : ∀ a : α, Quo.quo a 1 = a) (sq : Nat → Nat) (fuel n : Nat) (hn : n < 2 ^ 31)
    (hsq : ∀ k, 1 ≤ k → k ≤ n → 1 ≤ sq k ∧ sq k ≤ k) (tbl : Nat → Option α) (hf : n ≤ fuel)
    (htbl : ∀ k v, tbl k = some v → k < 2 ^ 31 ∧ v = ((Meven k : Int) : α)) :
    ∃ tbl', mertensEven sq fuel n tbl = some (((Meven n : Int) : α), tbl') ∧
      (∀ k v, tbl k = some v → tbl' k = some v) ∧ (1 ≤ n → tbl' n = some ((Meven n : Int) : α)) := by
  obtain ⟨tbl', e, _, h2, h3⟩ := even_spec hquo sq fuel n (by omega) hsq tbl hf htbl
  rw [if_neg (by omega), add_zero] at e
  rw [if_neg (by omega), add_zero] at h3
  exact ⟨tbl', e, h2, h3⟩

/-- **C111**: with the argument `2 ^ 31`, which fits in the type of `n` but not in an `int`, the result is one too
large, whatever correct values the table holds. -/
theorem C111_even_overflow [DecidableEq α] [Nontrivial α] [Quo α] (hquo : ∀ a : α, Quo.quo a 1 = a) (sq : Nat → Nat) (fuel : Nat)
    (hsq : ∀ k, 1 ≤ k → k ≤ 2 ^ 31 → 1 ≤ sq k ∧ sq k ≤ k) (tbl : Nat → Option α) (hf : 2 ^ 31 ≤ fuel)
    (htbl : ∀ k v, tbl k = some v → k < 2 ^ 31 ∧ v = ((Meven k : Int) : α)) :
    ∃ tbl', mertensEven sq fuel (2 ^ 31) tbl = some (((Meven (2 ^ 31) : Int) : α) + 1, tbl') := by
  obtain ⟨tbl', e, _⟩ := even_spec hquo sq fuel (2 ^ 31) (le_refl _) hsq tbl hf htbl
  rw [if_pos rfl] at e
  exact ⟨tbl', e⟩

example : (mertens Nat.sqrt 10 10 (fun _ => (none : Option Int))).map Prod.fst = some (-1) ∧
    (mertensOdd Nat.sqrt 10 10 (fun _ => (none : Option Int))).map Prod.fst = some (-2) ∧
    (mertensEven Nat.sqrt 10 10 (fun _ => (none : Option Int))).map Prod.fst = some 1 := by decide +kernel

/-- The hypotheses are met: the integers, the integer square root and the table of primes below 4. -/
example : (∀ a : Int, Quo.quo a 1 = a) ∧ (∀ k, 1 ≤ k → k ≤ 1000 → 1 ≤ Nat.sqrt k ∧ Nat.sqrt k ≤ k) ∧ PrimeTable [2, 3] 2 4 :=
  ⟨fun a => Int.tdiv_one a, fun k hk _ => ⟨Nat.sqrt_pos.mpr hk, Nat.sqrt_le_self k⟩,
    ⟨by simp, fun i j x y hij hj hx hy => by
      have : i = 0 ∧ j = 1 := by omega
      obtain ⟨rfl, rfl⟩ := this
      simp at hx hy; omega,
     fun i p hi hp => by
      have : i = 0 ∨ i = 1 := by omega
      rcases this with rfl | rfl <;> simp at hp <;> subst hp <;> decide,
     fun p hp hlt => by
      have := hp.two_le
      have : p = 2 ∨ p = 3 := by omega
      rcases this with rfl | rfl
      · exact ⟨0, by omega, rfl⟩
      · exact ⟨1, by omega, rfl⟩⟩⟩

end Altruct.Mertens
