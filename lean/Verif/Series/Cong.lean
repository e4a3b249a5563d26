/-
Agreement of polynomials up to `x^n`, and the algebra behind the Newton iterations of `series.h`.
-/
import Mathlib.Algebra.Polynomial.Derivative
import Mathlib.Algebra.Polynomial.Div
import Mathlib.Algebra.Polynomial.Eval.Degree
import Mathlib.Algebra.Polynomial.Identities
import Mathlib.Algebra.Polynomial.Coeff
import Mathlib.Data.Nat.Factorial.Basic
import Mathlib.Algebra.Ring.GeomSum
import Mathlib.Tactic.Ring
import Mathlib.Tactic.LinearCombination

namespace Altruct.Series

open Polynomial

/-- `A = B + O(x^n)`. -/
def Agree {α : Type} [CommRing α] (n : Nat) (A B : Polynomial α) : Prop := ∀ i, i < n → A.coeff i = B.coeff i

section Ring
variable {α : Type} [CommRing α] {n m : Nat} {A B A' B' D : Polynomial α}

theorem agree_iff : Agree n A B ↔ X ^ n ∣ A - B := by
  rw [X_pow_dvd_iff]
  constructor
  · intro h d hd; rw [coeff_sub, h d hd, sub_self]
  · intro h d hd; have := h d hd; rwa [coeff_sub, sub_eq_zero] at this

theorem agree_zero : Agree n A 0 ↔ X ^ n ∣ A := by rw [agree_iff, sub_zero]

@[refl] theorem Agree.refl (A : Polynomial α) : Agree n A A := fun _ _ => rfl
theorem Agree.symm (h : Agree n A B) : Agree n B A := fun i hi => (h i hi).symm
theorem Agree.trans (h : Agree n A B) (h2 : Agree n B D) : Agree n A D := fun i hi => (h i hi).trans (h2 i hi)
theorem Agree.mono (h : Agree n A B) (hm : m ≤ n) : Agree m A B := fun i hi => h i (by omega)
theorem Agree.of_eq (h : A = B) : Agree n A B := fun _ _ => by rw [h]

theorem Agree.add (h : Agree n A B) (h' : Agree n A' B') : Agree n (A + A') (B + B') := fun i hi => by
  rw [coeff_add, coeff_add, h i hi, h' i hi]
theorem Agree.sub (h : Agree n A B) (h' : Agree n A' B') : Agree n (A - A') (B - B') := fun i hi => by
  rw [coeff_sub, coeff_sub, h i hi, h' i hi]
theorem Agree.neg (h : Agree n A B) : Agree n (-A) (-B) := fun i hi => by rw [coeff_neg, coeff_neg, h i hi]

theorem Agree.mul (h : Agree n A B) (h' : Agree n A' B') : Agree n (A * A') (B * B') := by
  rw [agree_iff] at *
  have : A * A' - B * B' = (A - B) * A' + B * (A' - B') := by ring
  rw [this]
  exact dvd_add (h.mul_right _) (h'.mul_left _)

theorem Agree.mul_left (h : Agree n A B) (P : Polynomial α) : Agree n (P * A) (P * B) := (Agree.refl P).mul h
theorem Agree.mul_right (h : Agree n A B) (P : Polynomial α) : Agree n (A * P) (B * P) := h.mul (Agree.refl P)

theorem Agree.pow (h : Agree n A B) (k : Nat) : Agree n (A ^ k) (B ^ k) := by
  induction k with
  | zero => rw [pow_zero, pow_zero]
  | succ k ih => rw [pow_succ, pow_succ]; exact ih.mul h

theorem Agree.sum {ι : Type} (s : Finset ι) {f g : ι → Polynomial α} (h : ∀ i ∈ s, Agree n (f i) (g i)) :
    Agree n (∑ i ∈ s, f i) (∑ i ∈ s, g i) := by
  intro i hi
  rw [finsetSum_coeff, finsetSum_coeff]
  exact Finset.sum_congr rfl (fun j hj => h j hj i hi)

/-- Orders of vanishing add up. -/
theorem Agree.mul_zero' (h : Agree n A 0) (h' : Agree m B 0) : Agree (n + m) (A * B) 0 := by
  rw [agree_zero] at *
  rw [pow_add]
  exact mul_dvd_mul h h'

theorem Agree.pow_zero' (h : Agree 1 A 0) (k : Nat) : Agree k (A ^ k) 0 := by
  rw [agree_zero] at *
  rw [pow_one] at h
  exact pow_dvd_pow_of_dvd h k

theorem Agree.derivative (h : Agree n A B) : Agree (n - 1) (derivative A) (derivative B) := by
  intro i hi
  rw [coeff_derivative, coeff_derivative, h (i + 1) (by omega)]

theorem Agree.coeff_zero (h : Agree n A B) (hn : 0 < n) : A.coeff 0 = B.coeff 0 := h 0 hn

/-- A factor with an invertible constant coefficient can be cancelled. -/
theorem Agree.cancel {u v : Polynomial α} (huv : Agree n (u * v) 1) (h : Agree n (A * u) (B * u)) : Agree n A B := by
  have h1 : Agree n (A * u * v) (B * u * v) := h.mul_right v
  have e1 : Agree n (A * u * v) A := by
    rw [mul_assoc]; exact (huv.mul_left A).trans (Agree.of_eq (mul_one A))
  have e2 : Agree n (B * u * v) B := by
    rw [mul_assoc]; exact (huv.mul_left B).trans (Agree.of_eq (mul_one B))
  exact e1.symm.trans (h1.trans e2)

/-! ### composition -/

theorem comp_eq_eval_map (A B : Polynomial α) : A.comp B = (A.map C).eval B := by
  rw [comp, eval_map]

/-- Composition respects agreement of the inner polynomial. -/
theorem Agree.comp_right (P : Polynomial α) (h : Agree n A B) : Agree n (P.comp A) (P.comp B) := by
  rw [agree_iff] at *
  rw [comp_eq_eval_map, comp_eq_eval_map]
  exact h.trans (sub_dvd_eval_sub A B (P.map C))

/-- Composition respects agreement of the outer polynomial if the inner one vanishes at zero. -/
theorem Agree.comp_left (h : Agree n A B) (hD : D.coeff 0 = 0) : Agree n (A.comp D) (B.comp D) := by
  rw [agree_iff] at *
  obtain ⟨q, hq⟩ := h
  rw [← sub_comp, hq, mul_comp, X_pow_comp]
  refine Dvd.dvd.mul_right ?_ _
  exact pow_dvd_pow_of_dvd (X_dvd_iff.mpr hD) n

/-- One step of Newton's method for a root of a polynomial over `α[x]`. -/
theorem newton_step (F : Polynomial (Polynomial α)) (R y v : Polynomial α) (k m : Nat) (hm : m ≤ 2 * k)
    (h0 : Agree k (F.eval R) 0) (hk : k ≤ m)
    (hv : Agree k (F.derivative.eval R * v) 1)
    (hy : Agree m (y * F.derivative.eval R) (F.eval R)) :
    Agree m (F.eval (R - y)) 0 ∧ Agree k y 0 := by
  have hy0 : Agree k y 0 := by
    have h1 : Agree k (y * F.derivative.eval R) (0 * F.derivative.eval R) := by
      rw [zero_mul]
      exact (hy.mono hk).trans h0
    exact Agree.cancel hv h1
  refine ⟨?_, hy0⟩
  obtain ⟨z, hz⟩ := F.binomExpansion R (-y)
  have e : F.eval (R - y) = F.eval R - y * F.derivative.eval R + z * (y * y) := by
    rw [sub_eq_add_neg, hz]; ring
  rw [e]
  have h2 : Agree m (y * y) 0 := (hy0.mul_zero' hy0).mono (by omega)
  have h3 : Agree m (z * (y * y)) 0 := by
    have := h2.mul_left z; rwa [mul_zero] at this
  have h4 := ((Agree.refl (F.eval R)).sub hy).add h3
  rw [sub_self, add_zero] at h4
  exact h4

/-- One step of Newton's method for the compositional inverse. -/
theorem reversion_step (S R Q y v : Polynomial α) (k m : Nat) (hk : 1 ≤ k) (hkm : k ≤ m) (hm : m ≤ 2 * k)
    (h0 : Agree k (S.comp R) X)
    (hQ : Agree m Q (S.comp R))
    (hv : Agree m (derivative Q * v) 1)
    (hy : Agree m y ((Q - X) * derivative R * v)) :
    Agree m (S.comp (R - y)) X ∧ Agree k y 0 := by
  have hQX : Agree k (Q - X) 0 := by
    have := ((hQ.mono hkm).trans h0).sub (Agree.refl X)
    rwa [sub_self] at this
  have hy0 : Agree k y 0 := by
    refine (hy.mono hkm).trans ?_
    have := (hQX.mul_right (derivative R * v))
    rw [zero_mul] at this
    rw [mul_assoc]; exact this
  refine ⟨?_, hy0⟩
  obtain ⟨z, hz⟩ := (S.map C).binomExpansion R (-y)
  have e : S.comp (R - y) = S.comp R - y * (derivative S).comp R + z * (y * y) := by
    rw [comp_eq_eval_map, comp_eq_eval_map, comp_eq_eval_map, ← derivative_map, sub_eq_add_neg, hz]; ring
  rw [e]
  have h3 : Agree m (z * (y * y)) 0 := by
    have := ((hy0.mul_zero' hy0).mono (show m ≤ k + k by omega)).mul_left z; rwa [mul_zero] at this
  -- the linear term
  have hd : Agree (m - 1) (derivative Q) (derivative (S.comp R)) := hQ.derivative
  have hd0 : Agree (m - 1) (derivative (S.comp R) - derivative Q) 0 := by
    have := hd.symm.sub (Agree.refl (derivative Q)); rwa [sub_self] at this
  have h5 : Agree m ((derivative (S.comp R) - derivative Q) * (Q - X)) 0 := (hd0.mul_zero' hQX).mono (by omega)
  have h6 : Agree m (y * (derivative S).comp R) (Q - X) := by
    refine (hy.mul_right _).trans ?_
    have e2 : (Q - X) * derivative R * v * (derivative S).comp R =
        (derivative (S.comp R) - derivative Q) * (Q - X) * v + (derivative Q * v) * (Q - X) := by
      rw [derivative_comp]; ring
    rw [e2]
    have := (h5.mul_right v).add (hv.mul_right (Q - X))
    rwa [zero_mul, zero_add, one_mul] at this
  have h7 := ((Agree.refl (S.comp R)).sub h6).add h3
  rw [add_zero] at h7
  refine h7.trans ?_
  have := (Agree.refl (n := m) (S.comp R)).sub (hQ.sub (Agree.refl X))
  refine this.trans (Agree.of_eq (by ring))

end Ring

section Field
variable {α : Type} [Field α]

/-- Every polynomial with a non-zero constant coefficient is invertible up to `x^n`. -/
theorem exists_inv (U : Polynomial α) (h : U.coeff 0 ≠ 0) (n : Nat) : ∃ V, Agree n (U * V) 1 := by
  refine ⟨C (U.coeff 0)⁻¹ * ∑ i ∈ Finset.range n, (1 - C (U.coeff 0)⁻¹ * U) ^ i, ?_⟩
  have hz : Agree 1 (1 - C (U.coeff 0)⁻¹ * U) 0 := by
    intro i hi
    have : i = 0 := by omega
    subst this
    rw [coeff_sub, coeff_C_mul, inv_mul_cancel₀ h]; simp
  have e : U * (C (U.coeff 0)⁻¹ * ∑ i ∈ Finset.range n, (1 - C (U.coeff 0)⁻¹ * U) ^ i) =
      1 - (1 - C (U.coeff 0)⁻¹ * U) ^ n := by
    have := mul_neg_geom_sum (1 - C (U.coeff 0)⁻¹ * U) n
    rw [← this]; ring
  rw [e]
  have := (Agree.refl (n := n) (1 : Polynomial α)).sub (hz.pow_zero' n)
  rwa [sub_zero] at this

/-- A linear differential equation has at most one solution. -/
theorem ode_zero (H D : Polynomial α) (n : Nat) (hchar : ∀ k : Nat, 1 ≤ k → k < n → (k : α) ≠ 0)
    (h0 : D.coeff 0 = 0) (h : Agree (n - 1) (derivative D) (H * D)) : Agree n D 0 := by
  intro i
  induction i using Nat.strongRecOn with
  | ind i ih =>
    intro hi
    cases i with
    | zero => rw [h0, coeff_zero]
    | succ i =>
      have h1 := h i (by omega)
      rw [coeff_derivative, coeff_mul] at h1
      rw [Finset.sum_eq_zero] at h1
      · rcases mul_eq_zero.mp h1 with h2 | h2
        · rw [h2, coeff_zero]
        · exfalso
          refine hchar (i + 1) (by omega) hi ?_
          push_cast; exact h2
      · rintro ⟨a, b⟩ hab
        rw [Finset.mem_antidiagonal] at hab
        simp only at hab ⊢
        rw [ih b (by omega) (by omega), coeff_zero, mul_zero]

theorem ode_unique (H A B : Polynomial α) (n : Nat) (hchar : ∀ k : Nat, 1 ≤ k → k < n → (k : α) ≠ 0)
    (h0 : A.coeff 0 = B.coeff 0) (hA : Agree (n - 1) (derivative A) (H * A)) (hB : Agree (n - 1) (derivative B) (H * B)) :
    Agree n A B := by
  have := ode_zero H (A - B) n hchar (by rw [coeff_sub, h0, sub_self]) (by
    have := hA.sub hB
    rw [← mul_sub, ← derivative_sub] at this
    exact this)
  have h := this.add (Agree.refl B)
  rwa [sub_add_cancel, zero_add] at h

/-- Polynomials with the same derivative and constant coefficient. -/
theorem integral_unique (A B : Polynomial α) (n : Nat) (hchar : ∀ k : Nat, 1 ≤ k → k < n → (k : α) ≠ 0)
    (h0 : A.coeff 0 = B.coeff 0) (h : Agree (n - 1) (derivative A) (derivative B)) : Agree n A B := by
  have := ode_zero 0 (A - B) n hchar (by rw [coeff_sub, h0, sub_self]) (by
    rw [zero_mul, derivative_sub]
    have := h.sub (Agree.refl (derivative B))
    rwa [sub_self] at this)
  have h2 := this.add (Agree.refl B)
  rwa [sub_add_cancel, zero_add] at h2

/-- The exponential of a polynomial without constant term, up to `x^N`. -/
noncomputable def expSum (S : Polynomial α) (N : Nat) : Polynomial α :=
  ∑ k ∈ Finset.range N, C ((Nat.factorial k : α)⁻¹) * S ^ k

/-- The logarithm of a polynomial with constant term 1, up to `x^N`. -/
noncomputable def lnSum (S : Polynomial α) (N : Nat) : Polynomial α :=
  ∑ k ∈ Finset.range (N - 1), C ((-1) ^ k * ((k + 1 : Nat) : α)⁻¹) * (S - 1) ^ (k + 1)

theorem expSum_coeff_zero (S : Polynomial α) (N : Nat) (hN : 0 < N) (h0 : S.coeff 0 = 0) : (expSum S N).coeff 0 = 1 := by
  rw [expSum, finsetSum_coeff, Finset.sum_eq_single 0]
  · simp
  · intro k _ hk
    rw [coeff_C_mul, coeff_zero_eq_eval_zero, eval_pow, ← coeff_zero_eq_eval_zero, h0, zero_pow hk, mul_zero]
  · intro h; simp at h; omega

theorem fact_ne_zero {n : Nat} (hchar : ∀ k : Nat, 1 ≤ k → k < n → (k : α) ≠ 0) : ∀ k, k < n → ((Nat.factorial k : Nat) : α) ≠ 0 := by
  intro k
  induction k with
  | zero => intro _; simp
  | succ k ih =>
    intro h
    rw [Nat.factorial_succ, Nat.cast_mul]
    exact mul_ne_zero (hchar (k + 1) (by omega) h) (ih (by omega))

/-- The exponential solves `E' = S' E`. -/
theorem expSum_ode (S : Polynomial α) (N : Nat) (h0 : S.coeff 0 = 0)
    (hchar : ∀ k : Nat, 1 ≤ k → k < N → (k : α) ≠ 0) :
    Agree (N - 1) (derivative (expSum S N)) (derivative S * expSum S N) := by
  cases N with
  | zero => intro i hi; omega
  | succ N =>
    have e : derivative (expSum S (N + 1)) = derivative S * expSum S N := by
      rw [expSum, derivative_sum, Finset.sum_range_succ', expSum, Finset.mul_sum]
      simp only [pow_zero, mul_one, derivative_C, add_zero]
      apply Finset.sum_congr rfl
      intro k hk
      rw [Finset.mem_range] at hk
      rw [derivative_C_mul, derivative_pow_succ]
      have h1 : ((Nat.factorial (k + 1) : Nat) : α)⁻¹ * ((k : α) + 1) = ((Nat.factorial k : Nat) : α)⁻¹ := by
        have h2 : ((k : α) + 1) ≠ 0 := by
          have := hchar (k + 1) (by omega) (by omega); push_cast at this; exact this
        rw [Nat.factorial_succ, Nat.cast_mul, mul_inv]
        push_cast
        rw [mul_comm, ← mul_assoc, mul_inv_cancel₀ h2, one_mul]
      rw [← h1, C_mul]; ring
    rw [e]
    have e2 : expSum S (N + 1) = expSum S N + C ((Nat.factorial N : α)⁻¹) * S ^ N := by
      rw [expSum, Finset.sum_range_succ]; rfl
    rw [e2, mul_add]
    have hz : Agree N (S ^ N) 0 := Agree.pow_zero' (by
      intro i hi
      have : i = 0 := by omega
      subst this; rw [h0, coeff_zero]) N
    have := (hz.mul_left (derivative S * C ((Nat.factorial N : α)⁻¹)))
    rw [mul_zero] at this
    have h3 := (Agree.refl (derivative S * expSum S N)).add this
    rw [add_zero] at h3
    rw [show N + 1 - 1 = N by omega]
    refine h3.symm.trans (Agree.of_eq (by ring))

theorem lnSum_coeff_zero (S : Polynomial α) (N : Nat) (h0 : S.coeff 0 = 1) : (lnSum S N).coeff 0 = 0 := by
  rw [lnSum, finsetSum_coeff]
  apply Finset.sum_eq_zero
  intro k _
  rw [coeff_C_mul, coeff_zero_eq_eval_zero, eval_pow, ← coeff_zero_eq_eval_zero, coeff_sub, h0, coeff_one_zero, sub_self,
    zero_pow (by omega), mul_zero]

/-- The logarithm solves `L' S = S'`. -/
theorem lnSum_ode (S : Polynomial α) (N : Nat) (h0 : S.coeff 0 = 1)
    (hchar : ∀ k : Nat, 1 ≤ k → k < N → (k : α) ≠ 0) :
    Agree (N - 1) (derivative (lnSum S N) * S) (derivative S) := by
  have e : derivative (lnSum S N) = derivative S * ∑ k ∈ Finset.range (N - 1), (1 - S) ^ k := by
    rw [lnSum, derivative_sum, Finset.mul_sum]
    apply Finset.sum_congr rfl
    intro k hk
    rw [Finset.mem_range] at hk
    rw [derivative_C_mul, derivative_pow_succ, derivative_sub, derivative_one, sub_zero]
    have h2 : ((k : α) + 1) ≠ 0 := by
      have := hchar (k + 1) (by omega) (by omega); push_cast at this; exact this
    have h3 : (C ((-1) ^ k * ((k + 1 : Nat) : α)⁻¹) * C ((k : α) + 1) : Polynomial α) = (-1) ^ k := by
      rw [← C_mul, mul_assoc]
      push_cast
      rw [inv_mul_cancel₀ h2, mul_one]; simp
    calc C ((-1) ^ k * ((k + 1 : Nat) : α)⁻¹) * (C ((k : α) + 1) * (S - 1) ^ k * derivative S)
        = (C ((-1) ^ k * ((k + 1 : Nat) : α)⁻¹) * C ((k : α) + 1)) * (S - 1) ^ k * derivative S := by ring
      _ = derivative S * (1 - S) ^ k := by
        rw [h3, ← mul_pow, show (-1 : Polynomial α) * (S - 1) = 1 - S by ring]; ring
  rw [e]
  have g := mul_neg_geom_sum (1 - S) (N - 1)
  have e2 : derivative S * (∑ k ∈ Finset.range (N - 1), (1 - S) ^ k) * S = derivative S - derivative S * (1 - S) ^ (N - 1) := by
    linear_combination (derivative S) * g
  rw [e2]
  have hz : Agree (N - 1) ((1 - S) ^ (N - 1)) 0 := Agree.pow_zero' (by
    intro i hi
    have : i = 0 := by omega
    subst this; rw [coeff_sub, h0, coeff_one_zero, sub_self, coeff_zero]) (N - 1)
  have h3 := (Agree.refl (derivative S)).sub (hz.mul_left (derivative S))
  rwa [mul_zero, sub_zero] at h3

/-- One step of Newton's method for the exponential. -/
theorem exp_step (S R L : Polynomial α) (l m : Nat) (hl : 1 ≤ l) (hlm : l ≤ m) (hm : m ≤ 2 * l)
    (hchar : ∀ k : Nat, 1 ≤ k → k < m → (k : α) ≠ 0)
    (hS : S.coeff 0 = 0) (hR : R.coeff 0 = 1) (hL : L.coeff 0 = 0)
    (h0 : Agree (l - 1) (derivative R) (derivative S * R))
    (hln : Agree (m - 1) (derivative L * R) (derivative R)) :
    Agree (m - 1) (derivative (R * (S - L + 1))) (derivative S * (R * (S - L + 1))) := by
  obtain ⟨V, hV⟩ := exists_inv R (by rw [hR]; exact one_ne_zero) (l - 1)
  have hD : Agree l (S - L) 0 := by
    have := integral_unique (S - L) 0 l (fun k h1 h2 => hchar k h1 (by omega)) (by
      rw [coeff_sub, hS, hL, sub_self, coeff_zero]) (by
        refine Agree.cancel hV ?_
        have h1 : Agree (l - 1) (derivative S * R - derivative L * R) 0 := by
          have := h0.symm.sub (hln.mono (show l - 1 ≤ m - 1 by omega))
          rwa [sub_self] at this
        rw [derivative_sub, sub_mul, derivative_zero, zero_mul]
        exact h1)
    exact this
  have h2 : Agree (m - 1) ((S - L) * (derivative R - derivative S * R)) 0 := by
    have h3 : Agree (l - 1) (derivative R - derivative S * R) 0 := by
      have := h0.sub (Agree.refl (derivative S * R)); rwa [sub_self] at this
    exact (hD.mul_zero' h3).mono (by omega)
  have e : derivative (R * (S - L + 1)) = derivative S * (R * (S - L + 1)) +
      (S - L) * (derivative R - derivative S * R) - (derivative L * R - derivative R) := by
    rw [derivative_mul, derivative_add, derivative_sub, derivative_one]; ring
  rw [e]
  have h4 : Agree (m - 1) (derivative L * R - derivative R) 0 := by
    have := hln.sub (Agree.refl (derivative R)); rwa [sub_self] at this
  have h5 := ((Agree.refl (derivative S * (R * (S - L + 1)))).add h2).sub h4
  rwa [add_zero, sub_zero] at h5

end Field

end Altruct.Series
