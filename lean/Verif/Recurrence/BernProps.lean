/-
C55: `bernoulli_b` gives the Bernoulli numbers (Akiyama-Tanigawa).
-/
import Verif.Recurrence.Props
import Mathlib.NumberTheory.Bernoulli
import Mathlib.Algebra.Polynomial.Derivative
import Mathlib.Tactic.LinearCombination

namespace Altruct.Recurrence

open Altruct.Polynom hiding derivative eval
open Polynomial (X C derivative eval)

variable {α : Type} [Field α]

/-- The table behind the algorithm: row 0 is `1/(j+1)`. -/
def T : Nat → Nat → α
  | 0, j => 1 / ((j + 1 : Nat) : α)
  | k + 1, j => (T k j - T k (j + 1)) * ((j + 1 : Nat) : α)

/-! ### the table and polynomials -/

/-- `p ↦ (1 - x) (x p)'`. -/
noncomputable def theta (p : Polynomial α) : Polynomial α := (1 - X) * derivative (X * p)

noncomputable def G : Nat → Polynomial α
  | 0 => 1
  | k + 1 => theta (G k)

/-- Integration from 0 to 1. -/
noncomputable def L : Polynomial α →ₗ[α] α := phi (fun j => 1 / ((j + 1 : Nat) : α))

theorem theta_add (p q : Polynomial α) : theta (p + q) = theta p + theta q := by
  rw [theta, theta, theta, mul_add, Polynomial.derivative_add, mul_add]

theorem theta_smul (c : α) (p : Polynomial α) : theta (C c * p) = C c * theta p := by
  rw [theta, theta, mul_left_comm, Polynomial.derivative_C_mul]; ring

theorem theta_sum (s : Finset Nat) (c : Nat → α) (p : Nat → Polynomial α) :
    theta (∑ i ∈ s, C (c i) * p i) = ∑ i ∈ s, C (c i) * theta (p i) := by
  induction s using Finset.cons_induction with
  | empty => simp [theta]
  | cons a s ha ih => rw [Finset.sum_cons, Finset.sum_cons, theta_add, theta_smul, ih]

/-- Iterating `theta` from the outside. -/
noncomputable def thetaIt : Nat → Polynomial α → Polynomial α
  | 0, p => p
  | k + 1, p => thetaIt k (theta p)

theorem thetaIt_succ (k : Nat) : ∀ p : Polynomial α, thetaIt (k + 1) p = theta (thetaIt k p) := by
  induction k with
  | zero => intro p; rfl
  | succ k ih => intro p; rw [thetaIt, ih, thetaIt]

theorem thetaIt_lin (k : Nat) (c : α) (p q : Polynomial α) : thetaIt k (C c * (p - q)) = C c * (thetaIt k p - thetaIt k q) := by
  induction k with
  | zero => rfl
  | succ k ih =>
    have hs : ∀ p q : Polynomial α, theta (p - q) = theta p - theta q := by
      intro p q; rw [theta, theta, theta, mul_sub, Polynomial.derivative_sub, mul_sub]
    rw [thetaIt_succ, thetaIt_succ, thetaIt_succ, ih, theta_smul, hs]

theorem thetaIt_one (k : Nat) : thetaIt k (1 : Polynomial α) = G k := by
  induction k with
  | zero => rfl
  | succ k ih => rw [thetaIt_succ, ih, G]

theorem T_eq (k : Nat) : ∀ j, (T k j : α) = L (thetaIt k (X ^ j)) := by
  induction k with
  | zero => intro j; rw [T, thetaIt, L, phi_X]
  | succ k ih =>
    intro j
    have e : theta (X ^ j : Polynomial α) = C ((j + 1 : Nat) : α) * (X ^ j - X ^ (j + 1)) := by
      rw [theta, ← pow_succ', Polynomial.derivative_X_pow, Nat.add_sub_cancel]; ring
    rw [T, ih, ih, thetaIt, e, thetaIt_lin, ← Polynomial.smul_eq_C_mul, map_smul, map_sub, smul_eq_mul, mul_comm]

theorem G_deg (k : Nat) : (G k : Polynomial α).natDegree ≤ k := by
  induction k with
  | zero => simp [G]
  | succ k ih =>
    rw [G, theta]
    have h1 : (1 - X : Polynomial α).natDegree ≤ 1 := by
      apply le_trans (Polynomial.natDegree_sub_le _ _)
      simp
    have h2 : (X * G k : Polynomial α).natDegree ≤ k + 1 := by
      apply le_trans Polynomial.natDegree_mul_le
      rw [Polynomial.natDegree_X]; omega
    have h3 := Polynomial.natDegree_derivative_le (X * G k : Polynomial α)
    apply le_trans Polynomial.natDegree_mul_le
    omega

/-- The integral of a derivative, as far as the exponents are invertible. -/
theorem L_derivative (p : Polynomial α) (n : Nat) (hp : p.natDegree ≤ n) (hn : ∀ i, i < n → ((i + 1 : Nat) : α) ≠ 0) :
    L (derivative p) = eval 1 p - eval 0 p := by
  rw [Polynomial.as_sum_range_C_mul_X_pow' p (Nat.lt_succ_of_le hp)]
  rw [Polynomial.derivative_sum, map_sum, Polynomial.eval_finsetSum, Polynomial.eval_finsetSum, ← Finset.sum_sub_distrib]
  apply Finset.sum_congr rfl
  intro i hi
  rw [Finset.mem_range] at hi
  rcases i with _ | i
  · simp
  · rw [Polynomial.derivative_C_mul_X_pow, L, phi_mono]
    simp only [Nat.add_sub_cancel, smul_eq_mul, Polynomial.eval_mul, Polynomial.eval_C, Polynomial.eval_pow, Polynomial.eval_X,
      one_pow, mul_one, zero_pow (Nat.succ_ne_zero i), mul_zero, sub_zero]
    rw [mul_assoc, mul_one_div_cancel (hn i (by omega)), mul_one]

noncomputable def P (n : Nat) : Polynomial α := ∑ k ∈ Finset.range n, C ((n.choose k : Nat) : α) * G k

theorem P_succ (n : Nat) : (P (n + 1) : Polynomial α) = P n + G n + theta (P n) := by
  have h1 : theta (P n : Polynomial α) = ∑ k ∈ Finset.range n, C ((n.choose k : Nat) : α) * G (k + 1) := by
    rw [P, theta_sum]; rfl
  rw [h1, P, Finset.sum_range_succ']
  have : ∀ k ∈ Finset.range n, C (((n + 1).choose (k + 1) : Nat) : α) * G (k + 1) =
      C ((n.choose k : Nat) : α) * G (k + 1) + C ((n.choose (k + 1) : Nat) : α) * G (k + 1) := by
    intro k _
    rw [Nat.choose_succ_succ, Nat.cast_add, Polynomial.C_add, add_mul]
  rw [Finset.sum_congr rfl this, Finset.sum_add_distrib]
  have h2 : (P n : Polynomial α) + G n = ∑ k ∈ Finset.range (n + 1), C ((n.choose k : Nat) : α) * G k := by
    rw [Finset.sum_range_succ, Nat.choose_self, P]; simp
  rw [h2, Finset.sum_range_succ' _ n]
  simp only [Nat.choose_zero_right]
  ring

theorem X_P (n : Nat) : (X * P n : Polynomial α) = 1 - G n := by
  induction n with
  | zero => simp [P, G]
  | succ n ih =>
    have h1 : derivative (X * P n : Polynomial α) = - derivative (G n) := by
      rw [ih, Polynomial.derivative_sub, Polynomial.derivative_one, zero_sub]
    rw [P_succ, G, theta, theta, h1, Polynomial.derivative_mul, Polynomial.derivative_X]
    linear_combination ih

theorem P_eq (n : Nat) : (P n : Polynomial α) = ∑ k ∈ Finset.range n, C ((n.choose (k + 1) : Nat) : α) * derivative (X * G k) := by
  have hne : (1 - X : Polynomial α) ≠ 0 := by
    intro h
    have := congrArg (fun p => Polynomial.coeff p 1) h
    simp [Polynomial.coeff_one] at this
  apply mul_left_cancel₀ hne
  rw [Finset.mul_sum]
  have : ∀ k ∈ Finset.range n, (1 - X) * (C ((n.choose (k + 1) : Nat) : α) * derivative (X * G k)) =
      C ((n.choose (k + 1) : Nat) : α) * G (k + 1) := by
    intro k _
    rw [G, theta]; ring
  rw [Finset.sum_congr rfl this]
  have h2 : (P n : Polynomial α) + G n = ∑ k ∈ Finset.range (n + 1), C ((n.choose k : Nat) : α) * G k := by
    rw [Finset.sum_range_succ, Nat.choose_self, P]; simp
  rw [Finset.sum_range_succ'] at h2
  have hG0 : (G 0 : Polynomial α) = 1 := rfl
  rw [Nat.choose_zero_right, hG0, Nat.cast_one, Polynomial.C_1, mul_one] at h2
  have h3 := X_P (α := α) n
  linear_combination h2 - h3

theorem eval_G (k : Nat) : eval 1 (G k : Polynomial α) = if k = 0 then 1 else 0 := by
  rcases k with _ | k
  · simp [G]
  · rw [G, theta]; simp

/-- The defining recurrence of the Bernoulli numbers. -/
theorem T_sum (n : Nat) (hn : ∀ i, i < n → ((i + 1 : Nat) : α) ≠ 0) :
    ∑ k ∈ Finset.range n, ((n.choose k : Nat) : α) * T k 0 = (n : α) := by
  have h1 : L (P n : Polynomial α) = ∑ k ∈ Finset.range n, ((n.choose k : Nat) : α) * T k 0 := by
    rw [P, map_sum]
    apply Finset.sum_congr rfl
    intro k _
    rw [← Polynomial.smul_eq_C_mul, map_smul, smul_eq_mul, T_eq, pow_zero, thetaIt_one]
  rw [← h1, P_eq, map_sum]
  rcases n with _ | n
  · simp
  · rw [Finset.sum_range_succ', Finset.sum_eq_zero, zero_add]
    · rw [← Polynomial.smul_eq_C_mul, map_smul, L_derivative _ (n + 1) _ hn]
      · simp [G]
      · simp [G]
    · intro k hk
      rw [Finset.mem_range] at hk
      rw [← Polynomial.smul_eq_C_mul, map_smul, L_derivative _ (n + 1) _ hn]
      · rw [Polynomial.eval_mul, Polynomial.eval_mul, eval_G, if_neg (by omega)]; simp
      · apply le_trans Polynomial.natDegree_mul_le
        have := G_deg (α := α) (k + 1)
        rw [Polynomial.natDegree_X]; omega

/-! ### the program -/

theorem bernInner_spec (m : Nat) : ∀ (j : Nat) (a : List α), j ≤ m → m < a.length →
    (∀ i, i < j → a[i]? = some (T (m - 1 - i) i)) → (∀ i, j ≤ i → i ≤ m → a[i]? = some (T (m - i) i)) →
    ∃ a', bernInner j a = some a' ∧ a'.length = a.length ∧ ∀ i, i ≤ m → a'[i]? = some (T (m - i) i) := by
  intro j
  induction j with
  | zero => intro a _ _ _ h; exact ⟨a, rfl, rfl, fun i hi => h i (by omega) hi⟩
  | succ j ih =>
    intro a hj hl h1 h2
    rw [bernInner, rd, rd, h1 j (by omega), h2 (j + 1) (by omega) (by omega)]
    simp only [Option.bind_eq_bind, Option.bind_some]
    rw [wr, if_pos (by omega)]
    simp only [Option.bind_some]
    obtain ⟨a', e, hl', ha⟩ := ih (a.set j ((T (m - 1 - j) j - T (m - (j + 1)) (j + 1)) * ((j + 1 : Nat) : α))) (by omega)
      (by rw [List.length_set]; omega)
      (fun i hi => by rw [List.getElem?_set_ne (by omega)]; exact h1 i (by omega))
      (fun i h3 h4 => by
        by_cases h5 : i = j
        · subst h5
          rw [List.getElem?_set_self (by omega), show m - i = m - 1 - i + 1 by omega, T,
            show m - (i + 1) = m - 1 - i by omega]
        · rw [List.getElem?_set_ne (by omega)]; exact h2 i (by omega) h4)
    exact ⟨a', e, by rw [hl', List.length_set], ha⟩

variable [DecidableEq α]

theorem bernOuter_spec (N : Nat) (hN : ∀ i, i < N → ((i + 1 : Nat) : α) ≠ 0) : ∀ (k m : Nat) (a b : List α), m + k = N →
    a.length = N → b.length = N → (∀ i, i < m → a[i]? = some (T (m - 1 - i) i)) → (∀ i, i < m → b[i]? = some (T i 0)) →
    ∃ b', bernOuter k m a b = some b' ∧ b'.length = N ∧ ∀ i, i < N → b'[i]? = some (T i 0) := by
  intro k
  induction k with
  | zero => intro m a b h _ hb _ h2; exact ⟨b, rfl, hb, fun i hi => h2 i (by omega)⟩
  | succ k ih =>
    intro m a b h ha hb h1 h2
    obtain ⟨a', e, hl, ha'⟩ := bernInner_spec m m (a.set m (1 / ((m + 1 : Nat) : α))) (le_refl _) (by rw [List.length_set]; omega)
      (fun i hi => by rw [List.getElem?_set_ne (by omega)]; exact h1 i hi)
      (fun i h3 h4 => by
        obtain rfl : i = m := by omega
        rw [List.getElem?_set_self (by omega), Nat.sub_self, T])
    rw [List.length_set] at hl
    rw [bernOuter]
    simp only [cdiv, if_neg (hN m (by omega)), Option.bind_eq_bind, Option.bind_some]
    rw [wr, if_pos (by omega)]
    simp only [Option.bind_some]
    rw [show Quo.quo (1 : α) ((m + 1 : Nat) : α) = 1 / ((m + 1 : Nat) : α) from rfl, e]
    simp only [Option.bind_some]
    rw [rd, ha' 0 (by omega)]
    simp only [Option.bind_some]
    rw [wr, if_pos (by omega)]
    simp only [Option.bind_some]
    apply ih (m + 1) a' _ (by omega) (by omega) (by rw [List.length_set]; omega)
    · intro i hi
      rw [ha' i (by omega), show m + 1 - 1 - i = m - i by omega]
    · intro i hi
      by_cases h5 : i = m
      · subst h5
        rw [List.getElem?_set_self (by omega), Nat.sub_zero]
      · rw [List.getElem?_set_ne (by omega)]; exact h2 i (by omega)

/-- **C55**: in every field where `1, ..., n + 1` are invertible (for example modulo a prime greater than
`n + 1`) `bernoulli_b(n)` gives the `n + 1` numbers with `Σ_{k<m} C(m,k) B_k = m` for `1 ≤ m ≤ n + 1`. -/
theorem C55_bernoulli_recurrence (n : Nat) (hn : ∀ i, i < n + 1 → ((i + 1 : Nat) : α) ≠ 0) :
    ∃ b : List α, bernoulliB n = some b ∧ b.length = n + 1 ∧
      ∀ m, m ≤ n + 1 → ∑ k ∈ Finset.range m, ((m.choose k : Nat) : α) * b.getD k 0 = (m : α) := by
  obtain ⟨b, e, hl, hb⟩ := bernOuter_spec (n + 1) hn (n + 1) 0 (List.replicate (n + 1) 0) (List.replicate (n + 1) 0) (by omega)
    (by simp) (by simp) (fun i hi => by omega) (fun i hi => by omega)
  refine ⟨b, e, hl, fun m hm => ?_⟩
  rw [← T_sum m (fun i hi => hn i (by omega))]
  apply Finset.sum_congr rfl
  intro k hk
  rw [Finset.mem_range] at hk
  rw [List.getD_eq_getElem?_getD, hb k (by omega)]; rfl

/-- **C55**: over the rationals `bernoulli_b(n)` is the list of the Bernoulli numbers `B_0, ..., B_n` (with
`B_1 = 1/2`). -/
theorem C55_bernoulli (n : Nat) : bernoulliB n = some ((List.range (n + 1)).map bernoulli') := by
  obtain ⟨b, e, hl, hb⟩ := C55_bernoulli_recurrence (α := Rat) n (fun i _ => Nat.cast_ne_zero.mpr (Nat.succ_ne_zero i))
  rw [e]
  congr 1
  have key : ∀ k, k < n + 1 → b.getD k 0 = bernoulli' k := by
    intro k
    induction k using Nat.strong_induction_on with
    | _ k ih =>
      intro hk
      have h1 := hb (k + 1) (by omega)
      have h2 := sum_bernoulli' (k + 1)
      rw [Finset.sum_range_succ] at h1 h2
      have h3 : ∑ i ∈ Finset.range k, (((k + 1).choose i : Nat) : Rat) * b.getD i 0 =
          ∑ i ∈ Finset.range k, (((k + 1).choose i : Nat) : Rat) * bernoulli' i :=
        Finset.sum_congr rfl fun i hi => by
          rw [Finset.mem_range] at hi
          rw [ih i hi (by omega)]
      rw [h3] at h1
      have h4 : (((k + 1).choose k : Nat) : Rat) ≠ 0 := by
        rw [Nat.choose_succ_self_right]
        exact Nat.cast_ne_zero.mpr (Nat.succ_ne_zero k)
      exact mul_left_cancel₀ h4 (by linarith)
  apply List.ext_getElem (by simp [hl])
  intro i h1 h2
  rw [List.getElem_map, List.getElem_range, ← key i (by omega)]
  simp [List.getD_eq_getElem?_getD, h1]

example : bernoulliB 6 = some [(1 : Rat), 1 / 2, 1 / 6, 0, -1 / 30, 0, 1 / 42] := by decide +kernel

end Altruct.Recurrence
