/-
Property C66: `quadratic.h`, numbers `a + b sqrt(D)`.

The specification is the meaning `a + b r` of a number, for every element `r` with `r * r = D` of every
commutative ring into which the coefficients map; all the operations have to respect it.
-/
import Verif.Quadratic.Model
import Verif.Base.Props
import Mathlib.Algebra.Ring.Hom.Defs
import Mathlib.Algebra.Field.Basic
import Mathlib.Tactic.FieldSimp
import Mathlib.Tactic.LinearCombination
import Mathlib.Data.Real.Sqrt

namespace Altruct.Quadratic

variable {T : Type} [CommRing T] {D : T}

/-- The number `a + b r` that a quadratic number denotes. -/
def value {R : Type} [CommRing R] (f : T →+* R) (r : R) (x : Quad T D) : R := f x.a + f x.b * r

section
variable {R : Type} [CommRing R] (f : T →+* R) (r : R) (hr : r * r = f D)
include hr

/-- **C66**: sum, difference, negation, product, scalar product and the constants denote what they say, for every root
`r` of `D`. -/
theorem C66_ring (x y : Quad T D) (v : T) :
    value f r (x + y) = value f r x + value f r y ∧ value f r (x - y) = value f r x - value f r y ∧
    value f r (-x) = -value f r x ∧ value f r (x * y) = value f r x * value f r y ∧
    value f r (mulScalar x v) = value f r x * f v ∧
    value f r (0 : Quad T D) = 0 ∧ value f r (1 : Quad T D) = 1 := by
  refine ⟨?_, ?_, ?_, ?_, ?_, ?_, ?_⟩
  · simp [value]; ring
  · simp [value]; ring
  · simp [value]; ring
  · simp only [value, mul_a, mul_b, map_add, map_mul]; linear_combination -(f x.b * f y.b) * hr
  · simp [value, mulScalar]; ring
  · simp [value]
  · simp [value]

/-- **C66**: the conjugate denotes `a - b r`, and the norm is the product with the conjugate. -/
theorem C66_conjugate (x : Quad T D) :
    value f r (conjugate x) = f x.a - f x.b * r ∧ f (norm x) = value f r x * value f r (conjugate x) ∧
    value f r (conjugate x) = value f (-r) x := by
  refine ⟨?_, ?_, ?_⟩
  · simp [value, conjugate]; ring
  · simp only [value, norm, conjugate, map_sub, map_mul, map_neg]; linear_combination (f x.b * f x.b) * hr
  · simp [value, conjugate]

/-- **C66**: powers by the generic repeated squaring of base.h. -/
theorem C66_pow (x : Quad T D) (n : Nat) : value f r (Base.powT x (n : Int)) = value f r x ^ n := by
  rw [Base.C04_powT]
  induction n with
  | zero => simpa using (C66_ring f r hr x x 0).2.2.2.2.2.2
  | succ n ih => rw [pow_succ, (C66_ring f r hr (x ^ n) x 0).2.2.2.1, ih, pow_succ]

end

/-- **C66**: conjugation is an involution and respects sums and products; the norm is multiplicative. -/
theorem C66_norm_mul (x y : Quad T D) :
    norm (x * y) = norm x * norm y ∧ conjugate (conjugate x) = x ∧ conjugate (x * y) = conjugate x * conjugate y ∧
    conjugate (x + y) = conjugate x + conjugate y ∧ x * conjugate x = ⟨norm x, 0⟩ := by
  refine ⟨?_, ?_, ?_, ?_, ?_⟩
  · simp only [norm, mul_a, mul_b]; ring
  · ext <;> simp [conjugate]
  · ext <;> simp [conjugate]; ring
  · ext <;> simp [conjugate]; ring
  · ext
    · simp only [mul_a, conjugate, norm]; ring
    · simp only [mul_b, conjugate]; ring

section field
variable {K : Type} [Field K] {D : K}

/-- **C66**: over a field, division by a number of non-zero norm is exact and the remainder is zero. -/
theorem C66_div (x y : Quad K D) (hy : norm y ≠ 0) :
    div (· / ·) x y * y = x ∧ mod (· / ·) x y = 0 ∧ ∀ z : Quad K D, z * y = x → z = div (· / ·) x y := by
  have h1 : div (· / ·) x y * y = x := by
    have hi := mul_inv_cancel₀ hy
    generalize hi' : (norm y)⁻¹ = i at hi
    rw [norm] at hi
    ext
    · simp only [mul_a, div, divScalar, conjugate, mul_b, div_eq_mul_inv, hi']
      linear_combination x.a * hi
    · simp only [mul_a, div, divScalar, conjugate, mul_b, div_eq_mul_inv, hi']
      linear_combination x.b * hi
  refine ⟨h1, ?_, ?_⟩
  · rw [mod, mul_comm, h1, sub_self]
  · intro z hz
    have e : ∀ u : Quad K D, u * y = 0 → u = 0 := by
      intro u hu
      have h2 : u * (y * conjugate y) = 0 := by rw [← mul_assoc, hu, zero_mul]
      rw [(C66_norm_mul y y).2.2.2.2] at h2
      have ha := congrArg Quad.a h2
      have hb := congrArg Quad.b h2
      simp only [mul_a, mul_b, zero_a, zero_b, mul_zero, zero_mul, add_zero, zero_add] at ha hb
      ext
      · exact (mul_eq_zero.mp ha).resolve_right hy
      · exact (mul_eq_zero.mp hb).resolve_right hy
    have : (z - div (· / ·) x y) * y = 0 := by rw [sub_mul, hz, h1, sub_self]
    exact sub_eq_zero.mp (e _ this)

/-- **C66**: the norm of a non-zero number is non-zero whenever `D` is not a square in the field, so that every non-zero
number can be divided by. -/
theorem C66_norm_ne_zero (hD : ¬ ∃ r : K, r * r = D) (y : Quad K D) (hy : y ≠ 0) : norm y ≠ 0 := by
  intro hn
  rw [norm] at hn
  by_cases hb : y.b = 0
  · rw [hb] at hn
    have ha : y.a = 0 := by simpa using hn
    exact hy (by ext <;> assumption)
  · exact hD ⟨y.a / y.b, by field_simp; linear_combination hn⟩

end field

/-! ### the gcd of Gaussian integers

The generic `gcd` of base.h runs `a % b` until the remainder is zero.  `%` truncates both coefficients of the quotient
towards zero, and then the norm of the remainder need not be smaller than the norm of the divisor. -/

/-- base.h:175-179 `gcd(a, b)`: `while (a != e0) { T r = b % a; b = a; a = r; }`, the state `(a, b)` after at most `n`
iterations on `complex<int>`. -/
def gcdSteps : Nat → Quad Int (-1) × Quad Int (-1) → Quad Int (-1) × Quad Int (-1)
  | 0, s => s
  | n + 1, s => if s.1 = 0 then s else gcdSteps n (mod Int.tdiv s.2 s.1, s.1)

/-- **C66**: on the Gaussian integers `9 + 9i` and `10` Euclid's loop never ends: the remainders repeat for ever. -/
theorem C66_gaussian_gcd_diverges : ∀ n, (gcdSteps n (⟨9, 9⟩, ⟨10, 0⟩)).1 ≠ 0 := by
  have h1 : mod Int.tdiv (⟨10, 0⟩ : Quad Int (-1)) ⟨9, 9⟩ = ⟨10, 0⟩ := by decide +kernel
  have h2 : mod Int.tdiv (⟨9, 9⟩ : Quad Int (-1)) ⟨10, 0⟩ = ⟨9, 9⟩ := by decide +kernel
  have n1 : (⟨9, 9⟩ : Quad Int (-1)) ≠ 0 := by decide +kernel
  have n2 : (⟨10, 0⟩ : Quad Int (-1)) ≠ 0 := by decide +kernel
  have key : ∀ n, (gcdSteps n (⟨9, 9⟩, ⟨10, 0⟩)).1 ≠ 0 ∧ (gcdSteps n (⟨10, 0⟩, ⟨9, 9⟩)).1 ≠ 0 := by
    intro n
    induction n with
    | zero => exact ⟨n1, n2⟩
    | succ n ih =>
      constructor
      · rw [gcdSteps, if_neg n1, h1]; exact ih.2
      · rw [gcdSteps, if_neg n2, h2]; exact ih.1
  exact fun n => (key n).1

/-- **C66**: `%` on integer coefficients always satisfies `x = y * (x / y) + x % y`. -/
theorem C66_mod_int (D : Int) (x y : Quad Int D) : y * div Int.tdiv x y + mod Int.tdiv x y = x := by
  rw [mod]; ring

/-- **C66**: for an exactly divisible Gaussian (or other quadratic) integer the quotient is exact. -/
theorem C66_div_exact (D : Int) (x y q : Quad Int D) (hq : x = q * y) (hy : norm y ≠ 0) :
    div Int.tdiv x y = q ∧ mod Int.tdiv x y = 0 := by
  have h : div Int.tdiv x y = q := by
    have e : x * conjugate y = mulScalar q (norm y) := by
      rw [hq, mul_assoc, (C66_norm_mul y y).2.2.2.2]
      ext <;> simp [mulScalar]
    rw [div, e]
    ext
    · simp only [divScalar, mulScalar]; exact Int.mul_tdiv_cancel _ hy
    · simp only [divScalar, mulScalar]; exact Int.mul_tdiv_cancel _ hy
  refine ⟨h, ?_⟩
  rw [mod, h, hq]; ring

/-- **C66**: `==` is equality of both parts, and `<` is the lexicographic order: exactly one of `x < y`, `x == y`, `y < x` holds,
and `<` is transitive. -/
theorem C66_order {T : Type} {D : T} [LinearOrder T] (x y z : Quad T D) :
    (eq x y = true ↔ x = y) ∧ (lt x y = true ↔ x.a < y.a ∨ (x.a = y.a ∧ x.b < y.b)) ∧
    (lt x y = true ∨ eq x y = true ∨ lt y x = true) ∧ ¬ (lt x y = true ∧ lt y x = true) ∧ ¬ (lt x y = true ∧ eq x y = true) ∧
    (lt x y = true → lt y z = true → lt x z = true) := by
  have e : ∀ x y : Quad T D, eq x y = true ↔ x = y := fun x y => by rw [Quad.ext_iff]; simp [eq]
  have l : ∀ x y : Quad T D, lt x y = true ↔ x.a < y.a ∨ (x.a = y.a ∧ x.b < y.b) := fun x y => by simp [lt]
  simp only [e, l]
  refine ⟨trivial, trivial, ?_, ?_, ?_, ?_⟩
  · rcases lt_trichotomy x.a y.a with h | h | h
    · exact Or.inl (Or.inl h)
    · rcases lt_trichotomy x.b y.b with h' | h' | h'
      · exact Or.inl (Or.inr ⟨h, h'⟩)
      · exact Or.inr (Or.inl (Quad.ext h h'))
      · exact Or.inr (Or.inr (Or.inr ⟨h.symm, h'⟩))
    · exact Or.inr (Or.inr (Or.inl h))
  · rintro ⟨h | h, h' | h'⟩
    · exact lt_asymm h h'
    · exact h.ne h'.1.symm
    · exact h'.ne h.1.symm
    · exact lt_asymm h.2 h'.2
  · rintro ⟨h | h, rfl⟩
    · exact lt_irrefl _ h
    · exact lt_irrefl _ h.2
  · rintro (h | h) (h' | h')
    · exact Or.inl (h.trans h')
    · exact Or.inl (h'.1 ▸ h)
    · exact Or.inl (h.1 ▸ h')
    · exact Or.inr ⟨h.1.trans h'.1, h.2.trans h'.2⟩

example : (⟨1, 2⟩ : Quad Int (-1)) * ⟨3, 4⟩ = ⟨-5, 10⟩ ∧ div Int.tdiv (⟨-5, 10⟩ : Quad Int (-1)) ⟨3, 4⟩ = ⟨1, 2⟩ := by decide +kernel
example : norm (⟨2, 1⟩ : Quad Int 3) = 1 ∧ norm (⟨3, 1⟩ : Quad Rat 5) ≠ 0 := by decide +kernel
/-- The hypothesis of `C66_ring` is met by the real square root of 5. -/
example : Real.sqrt 5 * Real.sqrt 5 = Int.castRingHom Real 5 := by simp

end Altruct.Quadratic
