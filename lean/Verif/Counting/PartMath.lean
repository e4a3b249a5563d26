/-
Generating functions of partitions as finite products (from Mathlib's pentagonal number theorem and partition generating
functions).
-/
import Verif.Series.Cong
import Mathlib.Combinatorics.Enumerative.Partition.Glaisher
import Mathlib.Combinatorics.Enumerative.Pentagonal.PowerSeries
import Mathlib.Algebra.Polynomial.Expand

namespace Altruct.Counting

open Polynomial (X C)
open Altruct.Series (Agree)

variable (α : Type) [CommRing α]

/-- The Euler function truncated to a product of `M` factors: `(1 - x) (1 - x^2) ... (1 - x^M)`. -/
noncomputable def eulerPoly (M : Nat) : Polynomial α := ∏ j ∈ Finset.range M, (1 - X ^ (j + 1))

/-- The coefficients of the infinite product, by the pentagonal number theorem. -/
noncomputable def pent (i : Nat) : α := (PowerSeries.pentagonalSeries α).coeff i

variable {α}

theorem pent_pos (t : Nat) : pent α (pentagonal (t : ℤ)) = (-1) ^ t := by
  rw [pent, PowerSeries.coeff_pentagonalSeries_pentagonal]; simp

theorem pent_neg (t : Nat) : pent α (pentagonal (-(t : ℤ))) = (-1) ^ t := by
  rw [pent, PowerSeries.coeff_pentagonalSeries_pentagonal, Int.negOnePow_neg]; simp

theorem pent_other {i : Nat} (h : ∀ k, pentagonal k ≠ i) : pent α i = 0 := by
  rw [pent, PowerSeries.coeff_pentagonalSeries_eq_zero]
  rintro ⟨k, hk⟩; exact h k hk

section top
open scoped PowerSeries.WithPiTopology
variable [TopologicalSpace α] [DiscreteTopology α]

/-- Finite products reach the coefficients of an infinite product. -/
theorem hasProd_coeff (f : Nat → Polynomial α) (F : PowerSeries α) (h : HasProd (fun i => (f i : PowerSeries α)) F) (n : Nat) :
    ∃ M0, ∀ M, M0 ≤ M → ∀ i, i < n → (∏ j ∈ Finset.range M, f j).coeff i = PowerSeries.coeff i F := by
  rw [HasProd, PowerSeries.WithPiTopology.tendsto_iff_coeff_tendsto] at h
  have key : ∀ i, ∃ M0, ∀ M, M0 ≤ M → (∏ j ∈ Finset.range M, f j).coeff i = PowerSeries.coeff i F := by
    intro i
    have hi := h i
    simp only [SummationFilter.unconditional_filter] at hi
    rw [nhds_discrete, Filter.tendsto_pure] at hi
    obtain ⟨s, hs⟩ := Filter.eventually_atTop.mp hi
    refine ⟨s.sup id + 1, fun M hM => ?_⟩
    have := hs (Finset.range M) (fun x hx => Finset.mem_range.mpr (by
      have : x ≤ s.sup id := Finset.le_sup (f := id) hx
      omega))
    rw [← this, ← Polynomial.coeff_coe]
    congr 1
    exact map_prod (Polynomial.coeToPowerSeries.ringHom (R := α)) f (Finset.range M)
  induction n with
  | zero => exact ⟨0, fun _ _ _ h => by omega⟩
  | succ n ih =>
    obtain ⟨A, hA⟩ := ih
    obtain ⟨B, hB⟩ := key n
    refine ⟨max A B, fun M hM i hi => ?_⟩
    rcases Nat.lt_succ_iff_lt_or_eq.mp hi with h1 | h1
    · exact hA M (by omega) i h1
    · rw [h1]; exact hB M (by omega)

theorem euler_coeff_top (n : Nat) : ∃ M0, ∀ M, M0 ≤ M → ∀ i, i < n → (eulerPoly α M).coeff i = pent α i := by
  refine hasProd_coeff (fun j => 1 - X ^ (j + 1)) (PowerSeries.pentagonalSeries α) ?_ n
  simpa using PowerSeries.WithPiTopology.hasProd_one_sub_X_pow α

/-- The number of partitions times the Euler function is one. -/
theorem part_mul_top : PowerSeries.mk (fun n => ((Fintype.card (Nat.Partition n) : Nat) : α)) * PowerSeries.pentagonalSeries α = 1 := by
  have h1 := Nat.Partition.hasProd_powerSeriesMk_card_restricted α (fun _ => True)
  have h2 := h1.mul (PowerSeries.WithPiTopology.hasProd_one_sub_X_pow α)
  have e : (fun i : Nat => (if True then ∑' j : Nat, (PowerSeries.X : PowerSeries α) ^ ((i + 1) * j) else 1) * (1 - PowerSeries.X ^ (i + 1))) =
      fun _ => 1 := by
    funext i
    rw [if_pos trivial]
    simp only [pow_mul]
    exact PowerSeries.WithPiTopology.tsum_pow_mul_one_sub_of_constantCoeff_eq_zero (by simp)
  rw [e] at h2
  have h3 := h2.unique hasProd_one
  have h4 : (fun n => ((Fintype.card (Nat.Partition n) : Nat) : α)) = fun n => ((Nat.Partition.restricted n (fun _ => True)).card : α) := by
    funext n
    simp [Nat.Partition.restricted]
  rw [h4]; exact h3

theorem distinct_coeff_top (n : Nat) : ∃ M0, ∀ M, M0 ≤ M → ∀ i, i < n →
    (∏ j ∈ Finset.range M, (1 + X ^ (j + 1) : Polynomial α)).coeff i = (((Nat.Partition.distincts i).card : Nat) : α) := by
  have h1 := Nat.Partition.hasProd_powerSeriesMk_card_countRestricted α (m := 2) (by omega)
  obtain ⟨M0, h⟩ := hasProd_coeff (fun j => (1 + X ^ (j + 1) : Polynomial α)) _ (by
    refine Eq.mp ?_ h1
    congr 1
    funext i
    rw [Finset.sum_range_succ, Finset.sum_range_one]
    simp) n
  refine ⟨M0, fun M hM i hi => ?_⟩
  rw [h M hM i hi, PowerSeries.coeff_mk, Nat.Partition.countRestricted_two]

theorem odd_coeff_top (n : Nat) : ∃ M0, ∀ M, M0 ≤ M → ∀ i, i < n →
    (∏ j ∈ Finset.range M, (if Even j then 1 + X ^ (j + 1) else 1 : Polynomial α)).coeff i =
      (((Nat.Partition.oddDistincts i).card : Nat) : α) := by
  have h1 := Nat.Partition.hasProd_genFun (fun i c => if Odd i ∧ c = 1 then (1 : α) else 0)
  obtain ⟨M0, h⟩ := hasProd_coeff (fun j => (if Even j then 1 + X ^ (j + 1) else 1 : Polynomial α)) _ (by
    refine Eq.mp ?_ h1
    congr 1
    funext i
    rw [tsum_eq_single 0 (fun j hj => by rw [if_neg (by omega), zero_smul])]
    by_cases he : Even i
    · rw [if_pos he, if_pos ⟨by rw [Nat.odd_add_one, Nat.not_odd_iff_even]; exact he, rfl⟩]
      simp
    · rw [if_neg he, if_neg (by rw [Nat.odd_add_one, Nat.not_odd_iff_even]; tauto)]
      simp) n
  refine ⟨M0, fun M hM i hi => ?_⟩
  rw [h M hM i hi, Nat.Partition.coeff_genFun]
  simp_rw [Finsupp.prod, Finset.prod_boole]
  rw [Nat.Partition.oddDistincts, Nat.Partition.odds, Nat.Partition.restricted, Nat.Partition.distincts, ← Finset.filter_and, Finset.card_filter,
    Nat.cast_sum]
  refine Finset.sum_congr rfl (fun p _ => ?_)
  have : (∀ i ∈ (Multiset.toFinsupp p.parts).support, Odd i ∧ (Multiset.toFinsupp p.parts) i = 1) ↔
      ((∀ i ∈ p.parts, ¬ Even i) ∧ p.parts.Nodup) := by
    rw [Multiset.nodup_iff_count_le_one]
    simp only [Multiset.toFinsupp_support, Multiset.mem_toFinset, Multiset.toFinsupp_apply, Nat.not_even_iff_odd]
    constructor
    · intro h
      refine ⟨fun i hi => (h i hi).1, fun i => ?_⟩
      by_cases hi : i ∈ p.parts
      · exact (h i hi).2.le
      · rw [Multiset.count_eq_zero_of_notMem hi]; omega
    · rintro ⟨h1, h2⟩ i hi
      have := Multiset.one_le_count_iff_mem.mpr hi
      exact ⟨h1 i hi, by have := h2 i; omega⟩
  by_cases hh : (∀ i ∈ p.parts, ¬ Even i) ∧ p.parts.Nodup
  · rw [if_pos hh, if_pos (this.mpr hh), Nat.cast_one]
  · rw [if_neg hh, if_neg (fun h => hh (this.mp h)), Nat.cast_zero]

end top

theorem prod_agree (f : Nat → Polynomial α) (hf : ∀ j, Agree (j + 1) (f j) 1) (n M M' : Nat) (h : n ≤ M) (h' : M ≤ M') :
    Agree n (∏ j ∈ Finset.range M', f j) (∏ j ∈ Finset.range M, f j) := by
  induction M', h' using Nat.le_induction with
  | base => exact Agree.refl _
  | succ M' hM ih =>
    rw [Finset.prod_range_succ]
    have := ih.mul ((hf M').mono (show n ≤ M' + 1 by omega))
    rwa [mul_one] at this

theorem agree_one_sub (j : Nat) : Agree (j + 1) (1 - X ^ (j + 1) : Polynomial α) 1 := by
  intro i hi
  rw [Polynomial.coeff_sub, Polynomial.coeff_X_pow, if_neg (by omega), sub_zero]

theorem agree_one_add (j : Nat) : Agree (j + 1) (1 + X ^ (j + 1) : Polynomial α) 1 := by
  intro i hi
  rw [Polynomial.coeff_add, Polynomial.coeff_X_pow, if_neg (by omega), add_zero]

/-- The pentagonal number theorem: coefficient `i` of a product of more than `i` factors. -/
theorem euler_coeff (M i : Nat) (hi : i < M) : (eulerPoly α M).coeff i = pent α i := by
  let _ : TopologicalSpace α := ⊥
  have : DiscreteTopology α := ⟨rfl⟩
  obtain ⟨M0, h⟩ := euler_coeff_top (α := α) M
  rw [← h (max M M0) (by omega) i hi]
  exact (prod_agree _ agree_one_sub M M (max M M0) (le_refl _) (by omega) i hi).symm

theorem part_mul : PowerSeries.mk (fun n => ((Fintype.card (Nat.Partition n) : Nat) : α)) * PowerSeries.pentagonalSeries α = 1 := by
  let _ : TopologicalSpace α := ⊥
  have : DiscreteTopology α := ⟨rfl⟩
  exact part_mul_top

theorem distinct_coeff (M i : Nat) (hi : i < M) :
    (∏ j ∈ Finset.range M, (1 + X ^ (j + 1) : Polynomial α)).coeff i = (((Nat.Partition.distincts i).card : Nat) : α) := by
  let _ : TopologicalSpace α := ⊥
  have : DiscreteTopology α := ⟨rfl⟩
  obtain ⟨M0, h⟩ := distinct_coeff_top (α := α) M
  rw [← h (max M M0) (by omega) i hi]
  exact (prod_agree _ agree_one_add M M (max M M0) (le_refl _) (by omega) i hi).symm

theorem odd_coeff (M i : Nat) (hi : i < M) :
    (∏ j ∈ Finset.range M, (if Even j then 1 + X ^ (j + 1) else 1 : Polynomial α)).coeff i =
      (((Nat.Partition.oddDistincts i).card : Nat) : α) := by
  let _ : TopologicalSpace α := ⊥
  have : DiscreteTopology α := ⟨rfl⟩
  obtain ⟨M0, h⟩ := odd_coeff_top (α := α) M
  rw [← h (max M M0) (by omega) i hi]
  refine (prod_agree _ (fun j => ?_) M M (max M M0) (le_refl _) (by omega) i hi).symm
  by_cases h : Even j
  · simp only [if_pos h]; exact agree_one_add j
  · simp only [if_neg h]; exact Agree.refl _

theorem part_sum (n : Nat) : ∑ m ∈ Finset.range (n + 1), pent α m * ((Fintype.card (Nat.Partition (n - m)) : Nat) : α) = if n = 0 then 1 else 0 := by
  have := congrArg (PowerSeries.coeff n) (part_mul (α := α))
  rw [PowerSeries.coeff_one, mul_comm, PowerSeries.coeff_mul, Finset.Nat.sum_antidiagonal_eq_sum_range_succ_mk] at this
  simpa [PowerSeries.coeff_mk, pent] using this

/-- The product of partitions into distinct parts. -/
theorem distinct_prod (M : Nat) : eulerPoly α M * ∏ j ∈ Finset.range M, (1 + X ^ (j + 1) : Polynomial α) =
    Polynomial.expand α 2 (eulerPoly α M) := by
  rw [eulerPoly, ← Finset.prod_mul_distrib, map_prod]
  refine Finset.prod_congr rfl (fun j _ => ?_)
  rw [map_sub, map_one, map_pow, Polynomial.expand_X]
  ring

/-- The product of partitions into distinct odd parts. -/
theorem odd_prod (K : Nat) : (eulerPoly α (2 * K)).comp (C (-1) * X) =
    Polynomial.expand α 2 (eulerPoly α K) * ∏ j ∈ Finset.range (2 * K), (if Even j then 1 + X ^ (j + 1) else 1 : Polynomial α) := by
  rw [eulerPoly, eulerPoly, Polynomial.prod_comp, map_prod]
  induction K with
  | zero => simp
  | succ K ih =>
    rw [show 2 * (K + 1) = 2 * K + 1 + 1 by ring, Finset.prod_range_succ, Finset.prod_range_succ, ih, Finset.prod_range_succ _ K,
      Finset.prod_range_succ _ (2 * K + 1), Finset.prod_range_succ _ (2 * K), if_pos (by simp), if_neg (by simp)]
    simp only [Polynomial.sub_comp, Polynomial.one_comp, Polynomial.pow_comp, Polynomial.X_comp, map_sub, map_one, map_pow,
      Polynomial.expand_X, mul_pow, ← pow_mul]
    rw [show 2 * K + 1 + 1 = 2 * (K + 1) by ring, pow_succ (C (-1 : α)) (2 * K), pow_mul (C (-1 : α)), pow_mul (C (-1 : α))]
    simp only [Polynomial.C_neg, Polynomial.C_1]
    ring

end Altruct.Counting
