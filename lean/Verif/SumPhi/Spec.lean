/-
The generalised totient.
-/
import Mathlib.Data.Finset.Sym
import Mathlib.Data.Sym.Card
import Mathlib.Data.Nat.Choose.Basic
import Mathlib.NumberTheory.Divisors
import Mathlib.Data.Nat.Totient
import Mathlib.Order.Interval.Finset.Nat
import Mathlib.Data.Multiset.Fold
import Mathlib.Algebra.Order.BigOperators.Group.Finset
import Mathlib.Tactic.Ring

namespace Altruct.SumPhi

/-- The number of choices `a_1 ≤ a_2 ≤ ... ≤ a_D` from `1, ..., n` with `gcd(a_1, ..., a_D, n) = 1`. -/
def eulerPhi (D n : Nat) : Nat := (((Finset.Icc 1 n).sym D).filter fun s : Sym Nat D => (s : Multiset Nat).fold Nat.gcd n = 1).card

example : (List.range 7).map (eulerPhi 0) = [0, 1, 0, 0, 0, 0, 0] := by decide +kernel
example : (List.range 7).map (eulerPhi 1) = [0, 1, 1, 2, 2, 4, 2] := by decide +kernel
example : (List.range 7).map (eulerPhi 2) = [0, 1, 2, 5, 7, 14, 13] := by decide +kernel

theorem dvd_fold (d n : Nat) (s : Multiset Nat) : d ∣ s.fold Nat.gcd n ↔ d ∣ n ∧ ∀ a ∈ s, d ∣ a := by
  induction s using Multiset.induction_on with
  | empty => simp
  | cons a s ih =>
    rw [Multiset.fold_cons_left, Nat.dvd_gcd_iff, ih]
    simp only [Multiset.mem_cons, forall_eq_or_imp]
    tauto

theorem fold_mul (g n : Nat) (s : Multiset Nat) : (s.map (g * ·)).fold Nat.gcd (g * n) = g * s.fold Nat.gcd n := by
  induction s using Multiset.induction_on with
  | empty => simp
  | cons a s ih => rw [Multiset.map_cons, Multiset.fold_cons_left, ih, Multiset.fold_cons_left, Nat.gcd_mul_left]

theorem card_choices (D n : Nat) : ((Finset.Icc 1 n).sym D).card = Nat.multichoose n D := by
  have h : (Finset.Icc 1 n).sym D = (Finset.univ : Finset (Sym (Fin n) D)).image (Sym.map fun i => i.1 + 1) := by
    ext s
    rw [Finset.mem_sym_iff, Finset.mem_image]
    constructor
    · intro hs
      refine ⟨s.attach.map (fun x => ⟨x.1 - 1, by have := Finset.mem_Icc.mp (hs x.1 x.2); omega⟩), Finset.mem_univ _, ?_⟩
      rw [Sym.map_map]
      conv_rhs => rw [← s.attach_map_coe]
      apply Sym.map_congr
      intro x _
      have := Finset.mem_Icc.mp (hs x.1 x.2)
      simp only [Function.comp_apply]
      omega
    · rintro ⟨t, _, rfl⟩ a ha
      rw [Sym.mem_map] at ha
      obtain ⟨i, _, rfl⟩ := ha
      rw [Finset.mem_Icc]
      omega
  rw [h, Finset.card_image_of_injective _ (Sym.map_injective (fun a b hab => Fin.ext (by simpa using hab)) D), Finset.card_univ, Sym.card_sym_eq_multichoose, Fintype.card_fin]

/-- The choices with greatest common divisor `g`. -/
theorem card_fiber (D n d : Nat) (hn : 1 ≤ n) (hd : d ∣ n) :
    (((Finset.Icc 1 n).sym D).filter fun s : Sym Nat D => n / (s : Multiset Nat).fold Nat.gcd n = d).card = eulerPhi D d := by
  obtain ⟨g, rfl⟩ := hd
  have hd0 : 1 ≤ d := Nat.pos_of_ne_zero fun h => by simp [h] at hn
  have hg0 : 1 ≤ g := Nat.pos_of_ne_zero fun h => by simp [h] at hn
  rw [eulerPhi]
  symm
  apply Finset.card_bij (fun (s : Sym Nat D) _ => s.map (g * ·))
  · intro s hs
    rw [Finset.mem_filter, Finset.mem_sym_iff] at hs ⊢
    refine ⟨fun a ha => ?_, ?_⟩
    · rw [Sym.mem_map] at ha
      obtain ⟨b, hb, rfl⟩ := ha
      have := Finset.mem_Icc.mp (hs.1 b hb)
      rw [Finset.mem_Icc]
      exact ⟨Nat.mul_pos hg0 this.1, by rw [mul_comm d]; exact Nat.mul_le_mul_left g this.2⟩
    · rw [Sym.coe_map, mul_comm d, fold_mul, hs.2, mul_one, Nat.mul_div_cancel_left _ hg0]
  · intro s _ t _ h
    exact Sym.map_injective (fun a b hab => Nat.eq_of_mul_eq_mul_left hg0 hab) D h
  · intro s hs
    rw [Finset.mem_filter, Finset.mem_sym_iff] at hs
    have hf : (s : Multiset Nat).fold Nat.gcd (d * g) = g := by
      have h1 := ((dvd_fold _ (d * g) (s : Multiset Nat)).mp dvd_rfl).1
      have h2 := hs.2
      obtain ⟨c, hc⟩ := h1
      have hpos : 0 < (s : Multiset Nat).fold Nat.gcd (d * g) := Nat.pos_of_ne_zero fun h => by rw [h, zero_mul] at hc; omega
      generalize (s : Multiset Nat).fold Nat.gcd (d * g) = x at hc hpos h2
      rw [hc, Nat.mul_div_cancel_left _ hpos] at h2
      rw [h2, mul_comm] at hc
      exact (Nat.eq_of_mul_eq_mul_right hd0 hc).symm
    have hdv : ∀ a ∈ s, g ∣ a := fun a ha => ((dvd_fold g (d * g) (s : Multiset Nat)).mp (by rw [hf])).2 a ha
    have hmap : (s.map (· / g)).map (g * ·) = s := by
      rw [Sym.map_map]
      conv_rhs => rw [← s.map_id]
      apply Sym.map_congr
      intro x hx
      exact Nat.mul_div_cancel' (hdv x hx)
    refine ⟨s.map (· / g), ?_, hmap⟩
    rw [Finset.mem_filter, Finset.mem_sym_iff]
    refine ⟨fun a ha => ?_, ?_⟩
    · rw [Sym.mem_map] at ha
      obtain ⟨b, hb, rfl⟩ := ha
      have := Finset.mem_Icc.mp (hs.1 b hb)
      rw [Finset.mem_Icc]
      exact ⟨Nat.div_pos (Nat.le_of_dvd this.1 (hdv b hb)) hg0, Nat.div_le_of_le_mul (by rw [mul_comm]; exact this.2)⟩
    · have h3 := fold_mul g d (s.map (· / g) : Sym Nat D)
      rw [← Sym.coe_map, hmap, mul_comm g d, hf] at h3
      exact Nat.eq_of_mul_eq_mul_left hg0 (by rw [mul_one]; exact h3.symm)

/-- Every choice has one greatest common divisor. -/
theorem sum_eulerPhi (D n : Nat) (hn : 1 ≤ n) : ∑ d ∈ n.divisors, eulerPhi D d = Nat.multichoose n D := by
  rw [← card_choices, Finset.card_eq_sum_card_fiberwise (f := fun s : Sym Nat D => n / (s : Multiset Nat).fold Nat.gcd n) (t := n.divisors)]
  · exact Finset.sum_congr rfl fun d hd => (card_fiber D n d hn (Nat.dvd_of_mem_divisors hd)).symm
  · intro s _
    rw [Finset.mem_coe, Nat.mem_divisors]
    exact ⟨Nat.div_dvd_of_dvd ((dvd_fold _ n (s : Multiset Nat)).mp dvd_rfl).1, by omega⟩

/-- Sums over divisors determine a function. -/
theorem divisors_unique {β : Type} [AddCommGroup β] {U : Nat} {F G : Nat → β} (h : ∀ k, 1 ≤ k → k < U → ∑ d ∈ k.divisors, F d = ∑ d ∈ k.divisors, G d) :
    ∀ k, 1 ≤ k → k < U → F k = G k := by
  intro k
  induction k using Nat.strong_induction_on with
  | _ k ih =>
    intro h1 h2
    have h3 := h k h1 h2
    have h4 : ∑ d ∈ k.properDivisors, F d = ∑ d ∈ k.properDivisors, G d := Finset.sum_congr rfl (fun d hd => by
      rw [Nat.mem_properDivisors] at hd
      exact ih d hd.2 (Nat.pos_of_dvd_of_pos hd.1 (by omega)) (by omega))
    rw [← Nat.cons_self_properDivisors (by omega), Finset.sum_cons, Finset.sum_cons, h4] at h3
    exact add_right_cancel h3

end Altruct.SumPhi
