/-
Representations as a sum of two squares: composition with a prime.
-/
import Mathlib.NumberTheory.SumTwoSquares
import Mathlib.Algebra.Order.Ring.Int
import Mathlib.Data.Int.Interval
import Mathlib.Tactic.LinearCombination
import Mathlib.Tactic.Ring
import Mathlib.Tactic.Linarith

namespace Altruct.Squares

/-- The pairs of integers whose squares add up to `n`. -/
def reps (n : Nat) : Finset (Int × Int) :=
  ((Finset.Icc (-(n : Int)) n) ×ˢ (Finset.Icc (-(n : Int)) n)).filter (fun x => x.1 * x.1 + x.2 * x.2 = n)

theorem abs_le_sq (x : Int) : |x| ≤ x * x := by
  rw [← abs_mul_abs_self]
  rcases Int.lt_or_le 0 |x| with h | h
  · nlinarith
  · have := abs_nonneg x
    have : |x| = 0 := by omega
    rw [this]; norm_num

theorem mem_reps {n : Nat} {x : Int × Int} : x ∈ reps n ↔ x.1 * x.1 + x.2 * x.2 = n := by
  rw [reps, Finset.mem_filter, and_iff_right_iff_imp, Finset.mem_product, Finset.mem_Icc, Finset.mem_Icc]
  intro h
  have h1 := abs_le_sq x.1
  have h2 := abs_le_sq x.2
  have h3 := abs_nonneg x.1
  have h4 := abs_nonneg x.2
  have h5 := abs_le.mp (show |x.1| ≤ (n : Int) by omega)
  have h6 := abs_le.mp (show |x.2| ≤ (n : Int) by omega)
  exact ⟨h5, h6⟩

/-- The product of the Gaussian integers `x` and `c + d i`. -/
def mulG (c d : Int) (x : Int × Int) : Int × Int := (x.1 * c - x.2 * d, x.1 * d + x.2 * c)

theorem norm_mulG (c d : Int) (x : Int × Int) :
    (mulG c d x).1 * (mulG c d x).1 + (mulG c d x).2 * (mulG c d x).2 = (x.1 * x.1 + x.2 * x.2) * (c * c + d * d) := by
  rw [mulG]; ring

/-- A representation of a multiple of `p = c^2 + d^2` is a product with `c + d i` or with `c - d i`. -/
theorem split_prime (p : Nat) (hp : p.Prime) (c d : Int) (h : c * c + d * d = p) (m : Int) (x : Int × Int)
    (hx : x.1 * x.1 + x.2 * x.2 = m * p) : ∃ w : Int × Int, w.1 * w.1 + w.2 * w.2 = m ∧ (x = mulG c d w ∨ x = mulG c (-d) w) := by
  have hpp : Prime (p : Int) := Nat.prime_iff_prime_int.mp hp
  have hp0 : (p : Int) ≠ 0 := hpp.ne_zero
  have hs : (p : Int) ∣ (x.1 * c + x.2 * d) * (x.1 * c - x.2 * d) := by
    have : (x.1 * c + x.2 * d) * (x.1 * c - x.2 * d) = x.1 * x.1 * (c * c + d * d) - d * d * (x.1 * x.1 + x.2 * x.2) := by ring
    rw [this, h, hx]
    exact dvd_sub (Dvd.intro_left _ rfl) (Dvd.intro_left (d * d * m) (by ring))
  have key : ∀ e : Int, e * e = d * d → (p : Int) ∣ x.1 * c + x.2 * e → ∃ w : Int × Int, w.1 * w.1 + w.2 * w.2 = m ∧ x = mulG c e w := by
    rintro e he ⟨a, ha⟩
    have h2 : (p : Int) ∣ (x.2 * c - x.1 * e) * (x.2 * c - x.1 * e) := by
      have : (x.2 * c - x.1 * e) * (x.2 * c - x.1 * e) = (x.1 * x.1 + x.2 * x.2) * (c * c + e * e) - (x.1 * c + x.2 * e) * (x.1 * c + x.2 * e) := by ring
      rw [this, hx, ha]
      exact dvd_sub (Dvd.intro_left (m * (c * c + e * e)) (by ring)) (Dvd.intro_left (a * (p * a)) (by ring))
    obtain ⟨b, hb⟩ : (p : Int) ∣ x.2 * c - x.1 * e := by rcases hpp.dvd_or_dvd h2 with h | h <;> exact h
    have hcd : c * c + e * e = p := by rw [he]; exact h
    refine ⟨(a, b), ?_, ?_⟩
    · have : (p : Int) * p * (a * a + b * b) = p * p * m := by
        linear_combination (-(p * a) - (x.1 * c + x.2 * e)) * ha + (-(p * b) - (x.2 * c - x.1 * e)) * hb + (c * c + e * e) * hx + m * p * hcd
      exact mul_left_cancel₀ (mul_ne_zero hp0 hp0) this
    · have e1 : (p : Int) * x.1 = p * (a * c - b * e) := by linear_combination c * ha - e * hb - x.1 * hcd
      have e2 : (p : Int) * x.2 = p * (a * e + b * c) := by linear_combination e * ha + c * hb - x.2 * hcd
      exact Prod.ext (mul_left_cancel₀ hp0 e1) (mul_left_cancel₀ hp0 e2)
  rcases hpp.dvd_or_dvd hs with h1 | h1
  · obtain ⟨w, hw, e⟩ := key d rfl h1
    exact ⟨w, hw, Or.inl e⟩
  · obtain ⟨w, hw, e⟩ := key (-d) (by ring) (by rw [mul_neg, ← sub_eq_add_neg]; exact h1)
    exact ⟨w, hw, Or.inr e⟩

/-- A product with `c + d i` that is also a product with `c - d i` is a multiple of `p`. -/
theorem both_prime (p : Nat) (hp : p.Prime) (hodd : p ≠ 2) (c d : Int) (h : c * c + d * d = p) (w w' : Int × Int)
    (e : mulG c d w = mulG c (-d) w') : ∃ z : Int × Int, mulG c d w = (p * z.1, p * z.2) := by
  have hpp : Prime (p : Int) := Nat.prime_iff_prime_int.mp hp
  have e1 := congrArg Prod.fst e
  have e2 := congrArg Prod.snd e
  simp only [mulG] at e1 e2 ⊢
  have hc : ¬ (p : Int) ∣ c := by
    rintro ⟨k, rfl⟩
    have h1 : (p : Int) ∣ d * d := ⟨1 - p * (k * k), by linear_combination h⟩
    obtain ⟨l, rfl⟩ : (p : Int) ∣ d := by rcases hpp.dvd_or_dvd h1 with h | h <;> exact h
    have : (p : Int) * (p * (k * k + l * l)) = p * 1 := by linear_combination h
    exact hpp.not_dvd_one ⟨_, (mul_left_cancel₀ hpp.ne_zero this).symm⟩
  have h2 : ¬ (p : Int) ∣ 2 := by
    intro h
    have : p ∣ 2 := by exact_mod_cast h
    exact hodd ((Nat.prime_dvd_prime_iff_eq hp Nat.prime_two).mp this)
  have key : ∀ t : Int, (p : Int) ∣ 2 * c * t → (p : Int) ∣ t := by
    intro t ht
    rcases hpp.dvd_or_dvd ht with h3 | h3
    · rcases hpp.dvd_or_dvd h3 with h4 | h4
      · exact absurd h4 h2
      · exact absurd h4 hc
    · exact h3
  obtain ⟨z1, hz1⟩ := key (w.1 * c - w.2 * d) ⟨w'.1 + w.1, by linear_combination c * e1 - d * e2 + (w'.1 + w.1) * h⟩
  obtain ⟨z2, hz2⟩ := key (w.1 * d + w.2 * c) ⟨w'.2 + w.2, by linear_combination d * e1 + c * e2 + (w'.2 + w.2) * h⟩
  exact ⟨(z1, z2), by rw [hz1, hz2]⟩

theorem mulG_injective (p : Nat) (hp : 0 < p) (c d : Int) (h : c * c + d * d = p) : Function.Injective (mulG c d) := by
  intro x y e
  have e1 := congrArg Prod.fst e
  have e2 := congrArg Prod.snd e
  simp only [mulG] at e1 e2
  have hp0 : (p : Int) ≠ 0 := by exact_mod_cast hp.ne'
  refine Prod.ext (mul_left_cancel₀ hp0 ?_) (mul_left_cancel₀ hp0 ?_)
  · linear_combination c * e1 + d * e2 - (x.1 - y.1) * h
  · linear_combination c * e2 - d * e1 - (x.2 - y.2) * h

/-- Multiplication by an integer. -/
def scale (k : Int) (x : Int × Int) : Int × Int := (k * x.1, k * x.2)

theorem scale_injective (k : Int) (hk : k ≠ 0) : Function.Injective (scale k) := by
  intro x y e
  have e1 := congrArg Prod.fst e
  have e2 := congrArg Prod.snd e
  exact Prod.ext (mul_left_cancel₀ hk e1) (mul_left_cancel₀ hk e2)

section prime1
variable (p : Nat) (hp : p.Prime) (hodd : p ≠ 2) (c d : Int) (h : c * c + d * d = p)
include hp h

theorem reps_union (m : Nat) : reps (m * p) = (reps m).image (mulG c d) ∪ (reps m).image (mulG c (-d)) := by
  have h' : c * c + -d * -d = p := by rw [neg_mul_neg]; exact h
  ext x
  rw [Finset.mem_union, Finset.mem_image, Finset.mem_image, mem_reps]
  constructor
  · intro hx
    obtain ⟨w, hw, e | e⟩ := split_prime p hp c d h m x (by rw [hx]; push_cast; ring)
    · exact Or.inl ⟨w, mem_reps.mpr hw, e.symm⟩
    · exact Or.inr ⟨w, mem_reps.mpr hw, e.symm⟩
  · rintro (⟨w, hw, rfl⟩ | ⟨w, hw, rfl⟩)
    · rw [norm_mulG, mem_reps.mp hw, h]; push_cast; ring
    · rw [norm_mulG, mem_reps.mp hw, h']; push_cast; ring

include hodd

theorem reps_inter_none (m : Nat) (hm : ¬ p ∣ m) : (reps m).image (mulG c d) ∩ (reps m).image (mulG c (-d)) = ∅ := by
  rw [Finset.eq_empty_iff_forall_notMem]
  intro x hx
  rw [Finset.mem_inter, Finset.mem_image, Finset.mem_image] at hx
  obtain ⟨⟨w, hw, e⟩, w', hw', e'⟩ := hx
  obtain ⟨z, hz⟩ := both_prime p hp hodd c d h w w' (e.trans e'.symm)
  have hn := norm_mulG c d w
  rw [hz, mem_reps.mp hw, h] at hn
  have hp0 : (p : Int) ≠ 0 := by exact_mod_cast hp.ne_zero
  have : (p : Int) * (p * (z.1 * z.1 + z.2 * z.2)) = p * m := by linear_combination hn
  have := mul_left_cancel₀ hp0 this
  exact hm (by exact_mod_cast (Dvd.intro _ this : (p : Int) ∣ m))

theorem reps_inter_some (m : Nat) : (reps (m * p)).image (mulG c d) ∩ (reps (m * p)).image (mulG c (-d)) = (reps m).image (scale p) := by
  have h' : c * c + -d * -d = p := by rw [neg_mul_neg]; exact h
  have hp0 : (p : Int) ≠ 0 := by exact_mod_cast hp.ne_zero
  ext x
  rw [Finset.mem_inter, Finset.mem_image, Finset.mem_image, Finset.mem_image]
  constructor
  · rintro ⟨⟨w, hw, e⟩, w', hw', e'⟩
    obtain ⟨z, hz⟩ := both_prime p hp hodd c d h w w' (e.trans e'.symm)
    refine ⟨z, ?_, by rw [← e, hz]; rfl⟩
    have hn := norm_mulG c d w
    rw [hz, mem_reps.mp hw, h] at hn
    push_cast at hn
    have : (p : Int) * p * (z.1 * z.1 + z.2 * z.2) = p * p * m := by linear_combination hn
    exact mem_reps.mpr (mul_left_cancel₀ (mul_ne_zero hp0 hp0) this)
  · rintro ⟨z, hz, rfl⟩
    refine ⟨⟨mulG c (-d) z, ?_, ?_⟩, mulG c d z, ?_, ?_⟩
    · rw [mem_reps, norm_mulG, mem_reps.mp hz, h']; push_cast; ring
    · refine Prod.ext ?_ ?_
      · simp only [mulG, scale]; linear_combination z.1 * h
      · simp only [mulG, scale]; linear_combination z.2 * h
    · rw [mem_reps, norm_mulG, mem_reps.mp hz, h]; push_cast; ring
    · refine Prod.ext ?_ ?_
      · simp only [mulG, scale]; linear_combination z.1 * h
      · simp only [mulG, scale]; linear_combination z.2 * h

theorem card_prime1 (m : Nat) (hm : ¬ p ∣ m) : ∀ e : Nat, (reps (m * p ^ e)).card = (e + 1) * (reps m).card ∧ (reps (m * p ^ (e + 1))).card = (e + 2) * (reps m).card := by
  have h' : c * c + -d * -d = p := by rw [neg_mul_neg]; exact h
  have hp0 : (p : Int) ≠ 0 := by exact_mod_cast hp.ne_zero
  have i1 := mulG_injective p hp.pos c d h
  have i2 := mulG_injective p hp.pos c (-d) h'
  intro e
  induction e with
  | zero =>
    refine ⟨by simp, ?_⟩
    rw [zero_add, pow_one, reps_union p hp c d h m]
    have := Finset.card_union_add_card_inter ((reps m).image (mulG c d)) ((reps m).image (mulG c (-d)))
    rw [reps_inter_none p hp hodd c d h m hm, Finset.card_empty, Finset.card_image_of_injective _ i1, Finset.card_image_of_injective _ i2] at this
    omega
  | succ e ih =>
    refine ⟨ih.2, ?_⟩
    rw [show m * p ^ (e + 1 + 1) = m * p ^ (e + 1) * p by ring, reps_union p hp c d h]
    have := Finset.card_union_add_card_inter ((reps (m * p ^ (e + 1))).image (mulG c d)) ((reps (m * p ^ (e + 1))).image (mulG c (-d)))
    rw [Finset.card_image_of_injective _ i1, Finset.card_image_of_injective _ i2, show m * p ^ (e + 1) = m * p ^ e * p by ring,
      reps_inter_some p hp hodd c d h, Finset.card_image_of_injective _ (scale_injective _ hp0), show m * p ^ e * p = m * p ^ (e + 1) by ring, ih.1, ih.2] at this
    have e1 : (e + 1 + 2) * (reps m).card + (e + 1) * (reps m).card = (e + 2) * (reps m).card + (e + 2) * (reps m).card := by ring
    omega

end prime1

/-- A prime that is 3 modulo 4 divides both numbers when it divides the sum of their squares. -/
theorem dvd_both (p : Nat) (hp : p.Prime) (h3 : p % 4 = 3) (x : Int × Int) (hx : (p : Int) ∣ x.1 * x.1 + x.2 * x.2) : (p : Int) ∣ x.1 ∧ (p : Int) ∣ x.2 := by
  have : Fact p.Prime := ⟨hp⟩
  have hpp : Prime (p : Int) := Nat.prime_iff_prime_int.mp hp
  have h1 : ¬ IsSquare (-1 : ZMod p) := by
    rw [ZMod.exists_sq_eq_neg_one_iff]; simpa using h3
  have h2 : (x.2 : ZMod p) = 0 := by
    by_contra h
    apply h1
    refine ⟨(x.1 : ZMod p) * (x.2 : ZMod p)⁻¹, ?_⟩
    have h3 : (x.1 : ZMod p) * x.1 + x.2 * x.2 = 0 := by
      have := (ZMod.intCast_zmod_eq_zero_iff_dvd (x.1 * x.1 + x.2 * x.2) p).mpr hx
      push_cast at this; exact this
    field_simp
    linear_combination -h3
  have h3 : (p : Int) ∣ x.2 := (ZMod.intCast_zmod_eq_zero_iff_dvd _ p).mp h2
  have h4 : (p : Int) ∣ x.1 * x.1 := (dvd_add_left (h3.mul_right x.2)).mp hx
  exact ⟨by rcases hpp.dvd_or_dvd h4 with h | h <;> exact h, h3⟩

theorem reps_prime3 (p : Nat) (hp : p.Prime) (h3 : p % 4 = 3) (m : Nat) : reps (m * (p * p)) = (reps m).image (scale p) := by
  have hp0 : (p : Int) ≠ 0 := by exact_mod_cast hp.ne_zero
  ext x
  rw [Finset.mem_image, mem_reps]
  constructor
  · intro hx
    obtain ⟨⟨a, ha⟩, b, hb⟩ := dvd_both p hp h3 x (by rw [hx]; push_cast; exact Dvd.intro_left (m * p : Int) (by ring))
    refine ⟨(a, b), ?_, Prod.ext ha.symm hb.symm⟩
    rw [mem_reps]
    rw [ha, hb] at hx
    push_cast at hx
    have : (p : Int) * p * (a * a + b * b) = p * p * m := by linear_combination hx
    exact mul_left_cancel₀ (mul_ne_zero hp0 hp0) this
  · rintro ⟨z, hz, rfl⟩
    rw [mem_reps] at hz
    simp only [scale]; push_cast; linear_combination (p : Int) * p * hz

theorem card_prime3 (p : Nat) (hp : p.Prime) (h3 : p % 4 = 3) (m : Nat) (hm : ¬ p ∣ m) (e : Nat) :
    (reps (m * p ^ e)).card = if e % 2 = 1 then 0 else (reps m).card := by
  have hp0 : (p : Int) ≠ 0 := by exact_mod_cast hp.ne_zero
  have step : ∀ e, (reps (m * p ^ (e + 2))).card = (reps (m * p ^ e)).card := by
    intro e
    rw [show m * p ^ (e + 2) = m * p ^ e * (p * p) by ring, reps_prime3 p hp h3, Finset.card_image_of_injective _ (scale_injective _ hp0)]
  induction e using Nat.twoStepInduction with
  | zero => simp
  | one =>
    rw [if_pos (by omega), Finset.card_eq_zero, Finset.eq_empty_iff_forall_notMem]
    intro x hx
    rw [mem_reps, pow_one] at hx
    obtain ⟨⟨a, ha⟩, b, hb⟩ := dvd_both p hp h3 x (by rw [hx]; push_cast; exact Dvd.intro_left (m : Int) (by ring))
    rw [ha, hb] at hx
    push_cast at hx
    have : (p : Int) * (p * (a * a + b * b)) = p * m := by linear_combination hx
    have := mul_left_cancel₀ hp0 this
    exact hm (by exact_mod_cast (Dvd.intro _ this : (p : Int) ∣ m))
  | more e ih _ =>
    rw [step, ih]
    simp

theorem reps_two (m : Nat) : reps (m * 2) = (reps m).image (mulG 1 1) := by
  ext x
  rw [Finset.mem_image, mem_reps]
  constructor
  · intro hx
    have hpar : (x.1 + x.2) % 2 = 0 := by
      have h1 : (x.1 + x.2) * (x.1 + x.2) = 2 * (m + x.1 * x.2) := by push_cast at hx; linear_combination hx
      have h2 : Even ((x.1 + x.2) * (x.1 + x.2)) := ⟨m + x.1 * x.2, by rw [h1]; ring⟩
      have h3 : Even (x.1 + x.2) := by
        rcases Int.even_mul.mp h2 with h | h <;> exact h
      exact Int.even_iff.mp h3
    obtain ⟨k, hk⟩ : ∃ k, x.1 + x.2 = 2 * k := ⟨(x.1 + x.2) / 2, by omega⟩
    refine ⟨(k, x.2 - k), ?_, ?_⟩
    · rw [mem_reps]
      have e : x.1 = 2 * k - x.2 := by omega
      rw [e] at hx
      push_cast at hx
      have : (2 : Int) * (k * k + (x.2 - k) * (x.2 - k)) = 2 * m := by linear_combination hx
      exact mul_left_cancel₀ (by omega) this
    · refine Prod.ext ?_ ?_
      · simp only [mulG]; omega
      · simp only [mulG]; omega
  · rintro ⟨z, hz, rfl⟩
    rw [mem_reps] at hz
    rw [norm_mulG, hz]; push_cast; ring

theorem card_two (m e : Nat) : (reps (m * 2 ^ e)).card = (reps m).card := by
  induction e with
  | zero => simp
  | succ e ih =>
    rw [show m * 2 ^ (e + 1) = m * 2 ^ e * 2 by ring, reps_two, Finset.card_image_of_injective _ (mulG_injective 2 (by omega) 1 1 (by norm_num)), ih]

theorem card_one : (reps 1).card = 4 := by decide

end Altruct.Squares
