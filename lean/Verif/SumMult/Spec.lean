/-
Specification for `sum_multiplicative_34` and `sum_multiplicative`: multiplicative functions given on prime powers, and
sums over the numbers with prime factors from a set.
-/
import Verif.Dirichlet.MultProps
import Verif.Maps.Props
import Mathlib.Algebra.BigOperators.Intervals
import Mathlib.NumberTheory.ArithmeticFunction.Defs

namespace Altruct.SumMult

open Finset
open scoped Classical

variable {α : Type} [CommRing α]

/-- `F` is the multiplicative function with `F(p^e) = f(F(p^(e-1)), p, e)`. -/
structure Mult (F : Nat → α) (f : α → Nat → Nat → α) : Prop where
  one : F 1 = 1
  mul : ∀ a b, 1 ≤ a → 1 ≤ b → Nat.Coprime a b → F (a * b) = F a * F b
  pow : ∀ p e, p.Prime → f (F (p ^ e)) p (e + 1) = F (p ^ (e + 1))

/-- `Sum[F(p), {prime p <= x}]`. -/
def primeSum (F : Nat → α) (x : Nat) : α := ∑ p ∈ (Icc 1 x).filter Nat.Prime, F p

/-- `Sum[F(k), {k, 1, x}]`. -/
def total (F : Nat → α) (x : Nat) : α := ∑ k ∈ Icc 1 x, F k

/-- All prime factors of `t` are in `A`. -/
def Smooth (A : Nat → Prop) (t : Nat) : Prop := ∀ p : Nat, p.Prime → p ∣ t → A p

/-- The sum of `W` over the numbers up to `x` with prime factors in `A`. -/
noncomputable def sumS (A : Nat → Prop) (x : Nat) (W : Nat → α) : α := ∑ t ∈ (Icc 1 x).filter (Smooth A), W t

theorem sumS_congr {A : Nat → Prop} {x : Nat} {W W' : Nat → α} (h : ∀ t, 1 ≤ t → t ≤ x → Smooth A t → W t = W' t) : sumS A x W = sumS A x W' :=
  Finset.sum_congr rfl (fun t ht => by
    rw [mem_filter, mem_Icc] at ht
    exact h t ht.1.1 ht.1.2 ht.2)

theorem sumS_zero {A : Nat → Prop} {x : Nat} {W : Nat → α} (h : ∀ t, 1 ≤ t → t ≤ x → Smooth A t → W t = 0) : sumS A x W = 0 := by
  rw [sumS_congr h, sumS, Finset.sum_const_zero]

theorem sumS_mul (A : Nat → Prop) (x : Nat) (c : α) (W : Nat → α) : c * sumS A x W = sumS A x (fun t => c * W t) := by
  rw [sumS, sumS, Finset.mul_sum]

theorem sumS_iff {A A' : Nat → Prop} {x : Nat} {W : Nat → α} (h : ∀ p : Nat, p.Prime → p ≤ x → (A p ↔ A' p)) : sumS A x W = sumS A' x W := by
  rw [sumS, sumS]
  congr 1
  ext t
  simp only [mem_filter, mem_Icc]
  refine and_congr_right (fun ht => ?_)
  constructor
  · intro hs p hp hd
    exact (h p hp (le_trans (Nat.le_of_dvd ht.1 hd) ht.2)).mp (hs p hp hd)
  · intro hs p hp hd
    exact (h p hp (le_trans (Nat.le_of_dvd ht.1 hd) ht.2)).mpr (hs p hp hd)

/-- Only the number one has no prime factors. -/
theorem sumS_none {A : Nat → Prop} {x : Nat} {W : Nat → α} (hx : 1 ≤ x) (h : ∀ p : Nat, p.Prime → p ≤ x → ¬ A p) : sumS A x W = W 1 := by
  rw [sumS, show (Icc 1 x).filter (Smooth A) = {1} from ?_, sum_singleton]
  ext t
  simp only [mem_filter, mem_Icc, mem_singleton]
  constructor
  · rintro ⟨⟨h1, h2⟩, hs⟩
    by_contra hne
    obtain ⟨p, hp, hd⟩ := Nat.exists_prime_and_dvd hne
    exact h p hp (le_trans (Nat.le_of_dvd h1 hd) h2) (hs p hp hd)
  · rintro rfl
    exact ⟨⟨le_refl _, hx⟩, fun p hp hd => absurd (Nat.dvd_one.mp hd) hp.one_lt.ne'⟩

/-- Taking out one prime. -/
theorem sumS_split {A B : Nat → Prop} {p : Nat} (hp : p.Prime) (hA : ¬ A p) (hB : ∀ r : Nat, r.Prime → (B r ↔ A r ∨ r = p)) (x : Nat) (W : Nat → α) :
    sumS B x W = sumS A x W + sumS B (x / p) (fun u => W (p * u)) := by
  rw [sumS, ← Finset.sum_filter_add_sum_filter_not _ (fun t => ¬ p ∣ t)]
  congr 1
  · rw [sumS, filter_filter]
    congr 1
    ext t
    simp only [mem_filter, mem_Icc]
    refine and_congr_right (fun ht => ?_)
    constructor
    · rintro ⟨hs, hd⟩ r hr hrt
      rcases (hB r hr).mp (hs r hr hrt) with h | rfl
      · exact h
      · exact absurd hrt hd
    · intro hs
      exact ⟨fun r hr hrt => (hB r hr).mpr (Or.inl (hs r hr hrt)), fun hd => hA (hs p hp hd)⟩
  · rw [sumS]
    symm
    apply Finset.sum_nbij (fun u => p * u)
    · intro u hu
      simp only [mem_filter, mem_Icc, not_not] at hu ⊢
      refine ⟨⟨⟨Nat.mul_pos hp.pos hu.1.1, ?_⟩, fun r hr hrt => ?_⟩, dvd_mul_right p u⟩
      · rw [mul_comm]; exact (Nat.le_div_iff_mul_le hp.pos).mp hu.1.2
      · rcases (Nat.Prime.dvd_mul hr).mp hrt with h | h
        · exact (hB r hr).mpr (Or.inr ((Nat.prime_dvd_prime_iff_eq hr hp).mp h))
        · exact hu.2 r hr h
    · intro a _ b _ h
      exact Nat.eq_of_mul_eq_mul_left hp.pos h
    · intro t ht
      simp only [coe_filter, mem_filter, mem_Icc, not_not, Set.mem_ofPred_eq] at ht
      obtain ⟨⟨⟨h1, h2⟩, hs⟩, u, rfl⟩ := ht
      refine ⟨u, ?_, rfl⟩
      simp only [coe_filter, mem_Icc, Set.mem_ofPred_eq]
      exact ⟨⟨Nat.pos_of_mul_pos_left h1, (Nat.le_div_iff_mul_le hp.pos).mpr (by rw [mul_comm]; exact h2)⟩, fun r hr hd => hs r hr (Dvd.dvd.mul_left hd p)⟩
    · intro u _
      rfl

end Altruct.SumMult
