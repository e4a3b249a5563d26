/-
C54: `berlekamp_massey` finds the shortest linear recurrence.
-/
import Verif.Recurrence.Props
import Mathlib.RingTheory.Polynomial.Basic

namespace Altruct.Recurrence

open Altruct.Polynom
open Polynomial (X C)

variable {α : Type} [Field α]

/-! ### specification -/

/-- The polynomial `P` annihilates the sequence `f`: `P_0 f(s) + P_1 f(s+1) + ... + P_d f(s+d) = 0` for
all `s`.  For a monic `P` this is a linear recurrence with characteristic polynomial `P`. -/
def Annihilates (P : Polynomial α) (f : Nat → α) : Prop :=
  ∀ s, ∑ j ∈ Finset.range (P.natDegree + 1), P.coeff j * f (s + j) = 0

/-! ### the action of polynomials on sequences -/

/-- The sequence `f` from index `s` on. -/
def sh (f : Nat → α) (s k : Nat) : α := f (s + k)

theorem phi_sh (f : Nat → α) (s : Nat) (P : Polynomial α) :
    phi (sh f s) P = ∑ j ∈ Finset.range (P.natDegree + 1), P.coeff j * f (s + j) := by
  rw [phi_sum _ P (P.natDegree + 1) (by omega)]
  · rfl
  · exact lt_of_le_of_lt Polynomial.degree_le_natDegree (by exact_mod_cast Nat.lt_succ_self _)

theorem ann_iff (P : Polynomial α) (f : Nat → α) : Annihilates P f ↔ ∀ s, phi (sh f s) P = 0 := by
  rw [Annihilates]
  exact forall_congr' fun s => by rw [phi_sh]

theorem phi_monomial_mul (f : Nat → α) (s k : Nat) (a : α) (P : Polynomial α) :
    phi (sh f s) (C a * X ^ k * P) = a * phi (sh f (s + k)) P := by
  induction P using Polynomial.induction_on' with
  | add p q hp hq => rw [mul_add, map_add, hp, hq, map_add, mul_add]
  | monomial j b =>
    rw [← Polynomial.C_mul_X_pow_eq_monomial, phi_mono,
      show C a * X ^ k * (C b * X ^ j) = C (a * b) * X ^ (k + j) by rw [Polynomial.C_mul, pow_add]; ring, phi_mono]
    simp only [sh, smul_eq_mul, Nat.add_assoc]
    ring

theorem ann_mul (P Q : Polynomial α) (f : Nat → α) (h : Annihilates P f) : Annihilates (Q * P) f := by
  rw [ann_iff] at h ⊢
  intro s
  induction Q using Polynomial.induction_on' with
  | add p q hp hq => rw [add_mul, map_add, hp, hq, add_zero]
  | monomial j b => rw [← Polynomial.C_mul_X_pow_eq_monomial, phi_monomial_mul, h, mul_zero]

theorem ann_add (P Q : Polynomial α) (f : Nat → α) (hp : Annihilates P f) (hq : Annihilates Q f) : Annihilates (P + Q) f := by
  rw [ann_iff] at *
  intro s
  rw [map_add, hp, hq, add_zero]

theorem ann_dvd (P Q : Polynomial α) (f : Nat → α) (h : Annihilates P f) (hd : P ∣ Q) : Annihilates Q f := by
  obtain ⟨k, rfl⟩ := hd
  rw [mul_comm]
  exact ann_mul P k f h

theorem phi_mul_eq (f : Nat → α) (s : Nat) (P Q : Polynomial α) :
    phi (sh f s) (P * Q) = ∑ j ∈ Finset.range (P.natDegree + 1), P.coeff j * phi (sh f (s + j)) Q := by
  conv_lhs => rw [Polynomial.as_sum_range_C_mul_X_pow P, Finset.sum_mul, map_sum]
  exact Finset.sum_congr rfl fun j _ => phi_monomial_mul f s j _ Q

/-- A polynomial that annihilates the first `n` windows of a sequence annihilates it all, if some
polynomial of degree at most `n` does. -/
theorem ann_extend (P V : Polynomial α) (f : Nat → α) (n : Nat) (hP0 : P ≠ 0) (hP : Annihilates P f)
    (hd : P.natDegree ≤ n) (hV : ∀ s, s < n → phi (sh f s) V = 0) : Annihilates V f := by
  rw [ann_iff]
  intro s
  induction s using Nat.strong_induction_on with
  | _ s ih =>
    by_cases hs : s < n
    · exact hV s hs
    · have h1 := (ann_iff _ _).mp (ann_mul P V f hP) (s - P.natDegree)
      rw [mul_comm, phi_mul_eq, Finset.sum_range_succ, Finset.sum_eq_zero, zero_add] at h1
      · rw [show s - P.natDegree + P.natDegree = s by omega] at h1
        rcases mul_eq_zero.mp h1 with h2 | h2
        · exact absurd (Polynomial.leadingCoeff_eq_zero.mp h2) hP0
        · exact h2
      · intro j hj
        rw [Finset.mem_range] at hj
        rw [ih _ (by omega), mul_zero]

/-! ### the reversed initial segment -/

/-- `A` is the polynomial with coefficients `f (m - 1), ..., f 0`. -/
def IsRev (A : Polynomial α) (f : Nat → α) (m : Nat) : Prop := ∀ i, A.coeff i = if i < m then f (m - 1 - i) else 0

theorem rev_coeff (A P : Polynomial α) (f : Nat → α) (m k : Nat) (hA : IsRev A f m) (h1 : P.natDegree ≤ k) (h2 : k < m) :
    (P * A).coeff k = phi (sh f (m - 1 - k)) P := by
  rw [phi_sh, Polynomial.coeff_mul, Finset.Nat.sum_antidiagonal_eq_sum_range_succ (fun i j => P.coeff i * A.coeff j)]
  have : ∀ j, j ∈ Finset.range (P.natDegree + 1) → P.coeff j * f (m - 1 - k + j) = P.coeff j * A.coeff (k - j) := by
    intro j hj
    rw [Finset.mem_range] at hj
    rw [hA, if_pos (by omega)]
    congr 2; omega
  rw [Finset.sum_congr rfl this]
  symm
  apply Finset.sum_subset
  · intro j hj; rw [Finset.mem_range] at *; omega
  · intro j _ hj
    rw [Finset.mem_range] at hj
    rw [Polynomial.coeff_eq_zero_of_natDegree_lt (by omega), zero_mul]

/-- The key equation of an annihilating polynomial. -/
theorem ann_key (A P : Polynomial α) (f : Nat → α) (m : Nat) (hA : IsRev A f m) (hP0 : P ≠ 0) (hP : Annihilates P f) :
    ∃ S W, P * A = S + X ^ m * W ∧ S.degree < P.degree := by
  rw [ann_iff] at hP
  refine ⟨P * A %ₘ X ^ m, P * A /ₘ X ^ m, (Polynomial.modByMonic_add_div _ _).symm, ?_⟩
  rw [Polynomial.degree_eq_natDegree hP0, Polynomial.degree_lt_iff_coeff_zero]
  intro k hk
  have hdeg : (P * A %ₘ X ^ m).degree < (m : Nat) := by
    have := Polynomial.degree_modByMonic_lt (P * A) (Polynomial.monic_X_pow (R := α) m)
    rwa [Polynomial.degree_X_pow] at this
  by_cases hkm : k < m
  · have e := congrArg (fun p => Polynomial.coeff p k) (Polynomial.modByMonic_add_div (P * A) (X ^ m))
    simp only [Polynomial.coeff_add, Polynomial.coeff_X_pow_mul', if_neg (show ¬ m ≤ k by omega), add_zero] at e
    rw [e, rev_coeff A P f m k hA hk hkm, hP]
  · rw [Polynomial.degree_lt_iff_coeff_zero] at hdeg
    exact hdeg k (by omega)

/-! ### the invariant -/

structure Inv (A : Polynomial α) (n : Nat) (R0 R1 U0 U1 V0 V1 : Polynomial α) : Prop where
  e0 : R0 = U0 * X ^ (2 * n) + V0 * A
  e1 : R1 = U1 * X ^ (2 * n) + V1 * A
  det : U0 * V1 - U1 * V0 = 1 ∨ U0 * V1 - U1 * V0 = -1
  hR : R1.degree < R0.degree
  hV : V0.degree < V1.degree
  sum : V1.natDegree + R0.natDegree = 2 * n
  big : n ≤ R0.natDegree

theorem Inv.step {A : Polynomial α} {n : Nat} {R0 R1 U0 U1 V0 V1 Q R : Polynomial α} (h : Inv A n R0 R1 U0 U1 V0 V1)
    (hn : 1 ≤ n) (hR1 : n ≤ R1.natDegree) (hQ : R0 = Q * R1 + R) (hlt : R.degree < R1.degree) :
    Inv A n R1 (R0 - Q * R1) U1 (U0 - Q * U1) V1 (V0 - Q * V1) := by
  have hR10 : R1 ≠ 0 := by rintro rfl; simp at hR1; omega
  have hR00 : R0 ≠ 0 := by
    rintro rfl
    have := h.big; simp at this; omega
  have hV10 : V1 ≠ 0 := by
    rintro rfl
    have := h.hV; simp at this
  have eR : R0 - Q * R1 = R := by rw [hQ]; ring
  have hQdeg : Q.degree + R1.degree = R0.degree := by
    rw [← Polynomial.degree_mul]
    have e : Q * R1 = R0 - R := by rw [hQ]; ring
    rw [e, Polynomial.degree_sub_eq_left_of_degree_lt (lt_trans hlt h.hR)]
  have hQ0 : Q ≠ 0 := by
    rintro rfl
    rw [Polynomial.degree_zero, WithBot.bot_add] at hQdeg
    exact hR00 (Polynomial.degree_eq_bot.mp hQdeg.symm)
  have hQn : Q.natDegree + R1.natDegree = R0.natDegree := by
    rw [Polynomial.degree_eq_natDegree hQ0, Polynomial.degree_eq_natDegree hR10, Polynomial.degree_eq_natDegree hR00] at hQdeg
    exact_mod_cast hQdeg
  have hRn : R1.natDegree < R0.natDegree := by
    have := h.hR
    rw [Polynomial.degree_eq_natDegree hR10, Polynomial.degree_eq_natDegree hR00] at this
    exact_mod_cast this
  have hQV : V1.degree < (Q * V1).degree := by
    rw [Polynomial.degree_eq_natDegree hV10, Polynomial.degree_eq_natDegree (mul_ne_zero hQ0 hV10),
      Polynomial.natDegree_mul hQ0 hV10]
    exact_mod_cast (by omega : V1.natDegree < Q.natDegree + V1.natDegree)
  have hV0 : V0.degree < (Q * V1).degree := lt_trans h.hV hQV
  have hVd : (V0 - Q * V1).degree = (Q * V1).degree := Polynomial.degree_sub_eq_right_of_degree_lt hV0
  refine ⟨h.e1, ?_, ?_, ?_, ?_, ?_, hR1⟩
  · rw [h.e0, h.e1]; ring
  · have e : U1 * (V0 - Q * V1) - (U0 - Q * U1) * V1 = -(U0 * V1 - U1 * V0) := by ring
    rw [e]
    rcases h.det with h1 | h1
    · right; rw [h1]
    · left; rw [h1, neg_neg]
  · rw [eR]; exact hlt
  · rw [hVd]; exact hQV
  · rw [Polynomial.natDegree_eq_of_degree_eq hVd, Polynomial.natDegree_mul hQ0 hV10]
    have := h.sum
    omega

variable [DecidableEq α]

theorem bmLoop_spec (thr : Nat) (useLong : Nat → Nat → Bool) (A : Polynomial α) (n : Nat) (hn : 1 ≤ n) :
    ∀ (fuel : Nat) (R0 R1 V0 V1 : List α) (U0 U1 : Polynomial α), deg R1 < fuel →
    Inv A n (poly R0) (poly R1) U0 U1 (poly V0) (poly V1) →
    ∃ V R U R' U' V', bmLoop thr useLong n fuel R0 R1 V0 V1 = some V ∧ Inv A n R' R U' U V' (poly V) ∧ R.natDegree < n := by
  intro fuel
  induction fuel with
  | zero => intro R0 R1 V0 V1 U0 U1 h; omega
  | succ fuel ih =>
    intro R0 R1 V0 V1 U0 U1 hf hi
    rw [bmLoop]
    by_cases h : n ≤ deg R1
    · rw [if_pos h]
      have hR1 : poly R1 ≠ 0 := by
        intro h0
        rw [C37_deg, h0] at h
        simp at h; omega
      obtain ⟨q, r, e1, _, he, hlt⟩ := C38_div_mod thr useLong R0 R1 hR1
      obtain ⟨qr, e2, hqr⟩ := C37_times thr q none (some R1)
      obtain ⟨qv, e3, hqv⟩ := C37_times thr q none (some V1)
      simp only [Option.getD_none, Option.getD_some] at hqr hqv
      have hm1 : poly (minus R0 qr) = poly R0 - poly q * poly R1 := by
        rw [minus, (C37_add _ _ _).2.2, Option.getD_none, Option.getD_some, hqr]
      have hm2 : poly (minus V0 qv) = poly V0 - poly q * poly V1 := by
        rw [minus, (C37_add _ _ _).2.2, Option.getD_none, Option.getD_some, hqv]
      have hstep := hi.step hn (by rwa [← C37_deg]) he hlt
      rw [← hm1, ← hm2] at hstep
      simp only [Option.bind_eq_bind]
      rw [e1]
      simp only [Option.bind_some, times]
      rw [e2]
      simp only [Option.bind_some]
      rw [e3]
      simp only [Option.bind_some]
      apply ih _ _ _ _ _ _ _ hstep
      have hlt2 := hstep.hR
      rw [C37_deg] at hf h ⊢
      have := Polynomial.natDegree_lt_natDegree_iff (p := poly (minus R0 qr)) (q := poly R1)
      by_cases hz : poly (minus R0 qr) = 0
      · rw [hz, Polynomial.natDegree_zero]; omega
      · have := (Polynomial.natDegree_lt_natDegree_iff hz).mpr hlt2
        omega
    · rw [if_neg h]
      exact ⟨V1, poly R1, U1, poly R0, U0, poly V0, rfl, hi, by rw [← C37_deg]; omega⟩

omit [DecidableEq α] in
theorem bmFill_spec (a : List α) (f : Nat → α) (m : Nat) : ∀ (k i : Nat) (R : List α), i + k = m →
    (∀ j, j < m → a[j]? = some (f j)) →
    ∃ R', bmFill a (m - 1) k i R = some R' ∧ ∀ j, at' R' j = if i ≤ j ∧ j < m then f (m - 1 - j) else at' R j := by
  intro k
  induction k with
  | zero => intro i R h _; exact ⟨R, rfl, fun j => by rw [if_neg (by omega)]⟩
  | succ k ih =>
    intro i R h ha
    rw [bmFill, rd, ha _ (by omega)]
    obtain ⟨R', e, hR⟩ := ih (i + 1) (put R i (f (m - 1 - i))) (by omega) ha
    refine ⟨R', e, fun j => ?_⟩
    rw [hR, at'_put]
    by_cases h1 : i + 1 ≤ j ∧ j < m
    · rw [if_pos h1, if_pos (by omega)]
    · rw [if_neg h1]
      by_cases h2 : j = i
      · rw [if_pos h2, if_pos (by omega), h2]
      · rw [if_neg h2, if_neg (by omega)]

/-- What the loop delivers: a polynomial satisfying the key equation. -/
theorem bm_run (thr : Nat) (useLong : Nat → Nat → Bool) (a : List α) (f : Nat → α) (hn : 1 ≤ a.length / 2)
    (ha : ∀ j, j < 2 * (a.length / 2) → a[j]? = some (f j)) :
    ∃ (A R U R' U' V' : Polynomial α) (V p : List α), berlekampMasseyPoly thr useLong a = some p ∧ IsRev A f (2 * (a.length / 2)) ∧
      Inv A (a.length / 2) R' R U' U V' (poly V) ∧ R.natDegree < a.length / 2 ∧
      C (poly V).leadingCoeff * poly p = poly V := by
  rw [berlekampMasseyPoly]
  generalize hnn : a.length / 2 = n at *
  obtain ⟨R1, e1, hR1⟩ := bmFill_spec a f (2 * n) (2 * n) 0 [0] (by omega) ha
  have hz : ∀ j, at' [(0 : α)] j = 0 := by
    intro j
    rcases j with _ | j
    · rfl
    · exact at'_ge (by simp)
  have hrev : IsRev (poly R1) f (2 * n) := by
    intro i
    rw [poly_coeff, hR1, hz]
    by_cases h : i < 2 * n
    · rw [if_pos (by omega), if_pos h]
    · rw [if_neg (by omega), if_neg h]
  have hR0 : poly (put [(0 : α)] (2 * n) 1) = X ^ (2 * n) := by
    ext j
    rw [poly_coeff, at'_put, hz, Polynomial.coeff_X_pow]
  have h0 : poly [(0 : α)] = 0 := by ext j; rw [poly_coeff, hz, Polynomial.coeff_zero]
  have h1 : poly [(1 : α)] = 1 := by simp [poly, at']
  have hdeg1 : (poly R1).degree < (2 * n : Nat) := by
    rw [Polynomial.degree_lt_iff_coeff_zero]
    intro j hj
    rw [hrev, if_neg (by omega)]
  have hinv : Inv (poly R1) n (poly (put [(0 : α)] (2 * n) 1)) (poly R1) 1 0 (poly [0]) (poly [1]) := by
    rw [hR0, h0, h1]
    refine ⟨by ring, by ring, Or.inl (by ring), ?_, ?_, ?_, ?_⟩
    · rw [Polynomial.degree_X_pow]; exact hdeg1
    · rw [Polynomial.degree_zero, Polynomial.degree_one]; exact WithBot.bot_lt_coe 0
    · rw [Polynomial.natDegree_one, Polynomial.natDegree_X_pow, zero_add]
    · rw [Polynomial.natDegree_X_pow]; omega
  obtain ⟨V, R, U, R', U', V', e2, hi, hlt⟩ := bmLoop_spec thr useLong (poly R1) n hn (2 * n + 1) _ R1 _ _ 1 0 (by
    have : deg R1 ≤ 2 * n := by
      rw [C37_deg]
      apply Polynomial.natDegree_le_of_degree_le
      exact le_of_lt hdeg1
    omega) hinv
  have hV0 : poly V ≠ 0 := by
    intro h
    have := hi.hV
    rw [h] at this; simp at this
  have hl := lead_ne V hV0
  obtain ⟨p, e3, hp⟩ := C38_div_scalar V none (at' V (deg V)) hl
  refine ⟨poly R1, R, U, R', U', V', V, p, ?_, hrev, hi, hlt, ?_⟩
  · have hne := ha 0 (by omega)
    simp only [rd]
    rw [hne]
    simp only [Option.bind_eq_bind, Option.bind_some]
    rw [e1]
    simp only [Option.bind_some]
    rw [e2]
    exact e3
  · rw [Option.getD_none] at hp
    rw [Polynomial.leadingCoeff, poly_coeff, ← C37_deg]
    exact hp

/-- **C54**: from the first `N ≥ 2` elements of a sequence that is annihilated by some polynomial of
degree at most `N / 2`, `berlekamp_massey_poly` finds the minimal polynomial: the result is monic, it
annihilates the whole sequence, and it divides every polynomial that does. -/
theorem C54_berlekamp_massey_poly (thr : Nat) (useLong : Nat → Nat → Bool) (f : Nat → α) (N : Nat) (hN : 2 ≤ N)
    (P : Polynomial α) (hP0 : P ≠ 0) (hP : Annihilates P f) (hd : P.natDegree ≤ N / 2) :
    ∃ p, berlekampMasseyPoly thr useLong ((List.range N).map f) = some p ∧ (poly p).Monic ∧ Annihilates (poly p) f ∧
      ∀ P' : Polynomial α, Annihilates P' f → poly p ∣ P' := by
  have hlen : ((List.range N).map f).length = N := by simp
  obtain ⟨A, R, U, R', U', V', V, p, e, hA, hi, hR, hp⟩ := bm_run thr useLong ((List.range N).map f) f
    (by rw [hlen]; omega) (fun j hj => by
      rw [hlen] at hj
      rw [List.getElem?_map, List.getElem?_range (by omega)]; rfl)
  rw [hlen] at hA hi hR
  generalize hn : N / 2 = n at *
  have hV0 : poly V ≠ 0 := by
    intro h
    have := hi.hV
    rw [h] at this; simp at this
  have hl : (poly V).leadingCoeff ≠ 0 := fun h => hV0 (Polynomial.leadingCoeff_eq_zero.mp h)
  have hVn : (poly V).natDegree ≤ n := by have := hi.sum; have := hi.big; omega
  have hVA : poly V * A = R - U * X ^ (2 * n) := by rw [hi.e1]; ring
  have hRn : R.degree < (n : Nat) := by
    by_cases h : R = 0
    · rw [h, Polynomial.degree_zero]; exact WithBot.bot_lt_coe n
    · rwa [← Polynomial.natDegree_lt_iff_degree_lt h]
  have hVann : Annihilates (poly V) f := by
    apply ann_extend P (poly V) f n hP0 hP hd
    intro s hs
    have := rev_coeff A (poly V) f (2 * n) (2 * n - 1 - s) hA (by omega) (by omega)
    rw [show 2 * n - 1 - (2 * n - 1 - s) = s by omega] at this
    rw [← this, hVA, Polynomial.coeff_sub, Polynomial.coeff_mul_X_pow', if_neg (by omega), sub_zero]
    rw [Polynomial.degree_lt_iff_coeff_zero] at hRn
    exact hRn _ (by omega)
  have hpV : poly p = C (poly V).leadingCoeff⁻¹ * poly V := by
    rw [← hp, ← mul_assoc, Polynomial.leadingCoeff_mul, Polynomial.leadingCoeff_C, ← Polynomial.C_mul]
    have hlp : (poly p).leadingCoeff = 1 := by
      have := congrArg Polynomial.leadingCoeff hp
      rw [Polynomial.leadingCoeff_mul, Polynomial.leadingCoeff_C] at this
      exact mul_left_cancel₀ hl (by rw [this, mul_one])
    rw [hlp, mul_one, inv_mul_cancel₀ hl, Polynomial.C_1, one_mul]
  have hmonic : (poly p).Monic := by
    have := congrArg Polynomial.leadingCoeff hp
    rw [Polynomial.leadingCoeff_mul, Polynomial.leadingCoeff_C] at this
    exact mul_left_cancel₀ hl (by rw [this, mul_one])
  refine ⟨p, e, hmonic, ?_, fun P' hP' => ?_⟩
  · rw [hpV]
    exact ann_mul _ _ f hVann
  · -- the greatest common divisor of V and P'
    have hVP : poly V ∣ P' := by
      have hD : Annihilates (EuclideanDomain.gcd (poly V) P') f := by
        rw [EuclideanDomain.gcd_eq_gcd_ab, mul_comm, mul_comm P']
        exact ann_add _ _ f (ann_mul _ _ f hVann) (ann_mul _ _ f hP')
      obtain ⟨w, hw⟩ := EuclideanDomain.gcd_dvd_left (poly V) P'
      have hDP := EuclideanDomain.gcd_dvd_right (poly V) P'
      generalize EuclideanDomain.gcd (poly V) P' = D at *
      have hD0 : D ≠ 0 := by rintro rfl; rw [zero_mul] at hw; exact hV0 hw
      have hw0 : w ≠ 0 := by rintro rfl; rw [mul_zero] at hw; exact hV0 hw
      obtain ⟨S, W, hSW, hS⟩ := ann_key A D f (2 * n) hA hD0 hD
      have hwS : (w * S).degree < (poly V).degree := by
        rw [hw, Polynomial.degree_mul, Polynomial.degree_mul, add_comm]
        rw [Polynomial.degree_eq_natDegree hw0]
        exact WithBot.add_lt_add_right (WithBot.coe_ne_bot) hS
      have hdiff : R - w * S = X ^ (2 * n) * (U + w * W) := by
        have : w * (D * A) = R - U * X ^ (2 * n) := by rw [← hVA, hw]; ring
        rw [hSW] at this
        linear_combination -this
      have hdn : (R - w * S).degree < (2 * n : Nat) := by
        apply lt_of_le_of_lt (Polynomial.degree_sub_le _ _)
        apply max_lt
        · exact lt_of_lt_of_le hRn (by exact_mod_cast (by omega : n ≤ 2 * n))
        · apply lt_trans hwS
          rw [Polynomial.degree_eq_natDegree hV0]
          exact_mod_cast (by omega : (poly V).natDegree < 2 * n)
      have hU : U + w * W = 0 := by
        by_contra hne
        rw [hdiff, Polynomial.degree_mul, Polynomial.degree_X_pow] at hdn
        have : (0 : WithBot Nat) ≤ (U + w * W).degree := Polynomial.zero_le_degree_iff.mpr hne
        have h3 : ((2 * n : Nat) : WithBot Nat) ≤ (2 * n : Nat) + (U + w * W).degree := le_add_of_nonneg_right this
        exact absurd hdn (not_lt.mpr h3)
      have hunit : IsUnit w := by
        have hd1 : w ∣ U' * poly V - U * V' := by
          have hUw : U = w * (-W) := by linear_combination hU
          rw [hw, hUw]
          exact dvd_sub ⟨U' * D, by ring⟩ ⟨-W * V', by ring⟩
        rcases hi.det with h | h
        · rw [h] at hd1; exact isUnit_of_dvd_one hd1
        · rw [h, dvd_neg] at hd1; exact isUnit_of_dvd_one hd1
      rw [hw]
      exact (IsUnit.mul_right_dvd hunit).mpr hDP
    rw [hpV]
    exact (IsUnit.mul_left_dvd (Polynomial.isUnit_C.mpr (isUnit_iff_ne_zero.mpr (inv_ne_zero hl)))).mpr hVP

omit [DecidableEq α] in
theorem ann_charPoly (coeff : List α) (f : Nat → α) :
    Annihilates (charPoly coeff) f ↔
      ∀ m, coeff.length ≤ m → f m = ∑ i ∈ Finset.range coeff.length, coeff.getD i 0 • f (m - 1 - i) := by
  have key : ∀ s, phi (sh f s) (charPoly coeff) =
      f (s + coeff.length) - ∑ i ∈ Finset.range coeff.length, coeff.getD i 0 • f (s + coeff.length - 1 - i) := by
    intro s
    rw [charPoly, map_sub, phi_X, map_sum]
    congr 1
    apply Finset.sum_congr rfl
    intro i hi
    rw [Finset.mem_range] at hi
    rw [phi_mono, sh]
    congr 2; omega
  rw [ann_iff]
  constructor
  · intro h m hm
    have := h (m - coeff.length)
    rw [key, show m - coeff.length + coeff.length = m by omega, sub_eq_zero] at this
    exact this
  · intro h s
    rw [key, sub_eq_zero]
    exact h _ (by omega)

/-- **C54**: `berlekamp_massey` finds the shortest linear recurrence of a sequence from its first `N`
elements, when there is one of order at most `N / 2`. -/
theorem C54_berlekamp_massey (thr : Nat) (useLong : Nat → Nat → Bool) (f : Nat → α) (N : Nat) (hN : 2 ≤ N)
    (coeff0 : List α) (h0 : IsRec coeff0 ((List.range N).map f) f) (hd : coeff0.length ≤ N / 2) :
    ∃ coeff, berlekampMassey thr useLong ((List.range N).map f) = some coeff ∧ IsRec coeff ((List.range N).map f) f ∧
      ∀ (coeff' init' : List α), IsRec coeff' init' f → coeff.length ≤ coeff'.length := by
  have hnd : ∀ c : List α, (charPoly c).natDegree = c.length ∧ charPoly c ≠ 0 := by
    intro c
    have hc : (charPoly c).coeff c.length = 1 := by rw [charPoly_coeff, if_neg (by omega), if_pos rfl]
    refine ⟨le_antisymm ?_ ?_, ?_⟩
    · rw [Polynomial.natDegree_le_iff_coeff_eq_zero]
      intro j hj
      rw [charPoly_coeff, if_neg (by omega), if_neg (by omega)]
    · exact Polynomial.le_natDegree_of_ne_zero (by rw [hc]; exact one_ne_zero)
    · intro h
      rw [h, Polynomial.coeff_zero] at hc
      exact zero_ne_one hc
  obtain ⟨p, e, hm, hann, hmin⟩ := C54_berlekamp_massey_poly thr useLong f N hN (charPoly coeff0) (hnd _).2
    ((ann_charPoly _ _).mpr h0.next) (by rw [(hnd _).1]; exact hd)
  obtain ⟨c, e2, hl, hc⟩ := C49_poly_to_coeff p (by
    have : (poly p).leadingCoeff = 1 := hm
    rw [Polynomial.leadingCoeff, poly_coeff, ← C37_deg] at this
    exact this)
  have hle : ∀ (coeff' init' : List α), IsRec coeff' init' f → c.length ≤ coeff'.length := by
    intro c' i' hc'
    have := Polynomial.natDegree_le_of_dvd (hmin _ ((ann_charPoly _ _).mpr hc'.next)) (hnd c').2
    rw [(hnd c').1, ← C37_deg, ← hl] at this
    exact this
  refine ⟨c, ?_, ⟨fun i hi => ?_, ?_⟩, hle⟩
  · rw [berlekampMassey, e]; exact e2
  · have := hle _ _ h0
    rw [List.getElem?_map, List.getElem?_range (by omega)]; rfl
  · rw [← ann_charPoly, hc]; exact hann

/-- **C54**: with fewer than two elements the first division is by zero. -/
theorem C54_too_short (thr : Nat) (useLong : Nat → Nat → Bool) (x : α) :
    berlekampMasseyPoly thr useLong [x] = none := by
  have hz := C38_div_zero thr useLong (put [(0 : α)] 0 1) [0] (by ext j; rw [poly_coeff]; rcases j with _ | j <;> simp [at'])
  have hd : div thr useLong (put [(0 : α)] 0 1) [0] = none := by
    rw [div, if_neg (by simp [deg, degLoop]), hz]; rfl
  rw [berlekampMasseyPoly, rd, List.getElem?_cons_zero]
  simp only [List.length_singleton, Nat.reduceDiv, Nat.mul_zero, bmFill, Option.bind_eq_bind, Option.bind_some]
  rw [bmLoop, if_pos (Nat.zero_le _)]
  simp only [Option.bind_eq_bind]
  rw [hd]
  rfl

/-! ### examples -/

example : berlekampMassey 2 (fun _ _ => true) [(0 : Rat), 1, 1, 2, 3, 5] = some [1, 1] := by decide +kernel
example : berlekampMassey 2 (fun _ _ => false) [(1 : Rat), 2, 3, 5, 9, 15, 25] = some [1, 0, 2] := by decide +kernel
example : berlekampMassey 2 (fun _ _ => true) [(5 : Rat), 0, 0, 0] = some [0] := by decide +kernel

end Altruct.Recurrence
