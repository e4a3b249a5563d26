/-
C49: `linear_recurrence` and its special cases give the terms of the recurrence.
-/
import Verif.Recurrence.Model
import Verif.Polynom.DivProps
import Mathlib.Algebra.Polynomial.Module.Basic
import Mathlib.Data.Nat.Fib.Basic
import Mathlib.Data.ZMod.Basic

namespace Altruct.Recurrence

open Altruct.Polynom
open Polynomial (X C)

/-! ### specification -/

/-- The sequence `f` starts with the values `init` and satisfies
`f (m + 1) = coeff[0] * f m + coeff[1] * f (m - 1) + ...` from then on. -/
structure IsRec {α A : Type} [CommRing α] [AddCommGroup A] [Module α A] (coeff : List α) (init : List A)
    (f : Nat → A) : Prop where
  start : ∀ i, i < coeff.length → init[i]? = some (f i)
  next : ∀ m, coeff.length ≤ m → f m = ∑ i ∈ Finset.range coeff.length, coeff.getD i 0 • f (m - 1 - i)

/-- The characteristic polynomial of a recurrence. -/
noncomputable def charPoly {α : Type} [CommRing α] (coeff : List α) : Polynomial α :=
  X ^ coeff.length - ∑ i ∈ Finset.range coeff.length, C (coeff.getD i 0) * X ^ (coeff.length - 1 - i)

/-! ### conversions -/

section Ring
variable {α : Type} [CommRing α]

theorem coeffToPolyLoop_spec (f : List α) : ∀ (n i : Nat) (p : List α), i + n = f.length →
    ∃ p', coeffToPolyLoop f f.length n i p = some p' ∧
      ∀ j, at' p' j = if j < n then - at' f (f.length - 1 - j) else at' p j := by
  intro n
  induction n with
  | zero => intro i p _; exact ⟨p, rfl, fun j => by rw [if_neg (by omega)]⟩
  | succ n ih =>
    intro i p h
    rw [coeffToPolyLoop, rd_at (by omega)]
    obtain ⟨p', e, hp⟩ := ih (i + 1) (put p (f.length - 1 - i) (-(at' f i))) (by omega)
    refine ⟨p', e, fun j => ?_⟩
    rw [hp, at'_put]
    by_cases h1 : j < n
    · rw [if_pos h1, if_pos (by omega)]
    · rw [if_neg h1]
      by_cases h2 : j = n
      · rw [if_pos (by omega), if_pos (by omega)]
        congr 2; omega
      · rw [if_neg (by omega), if_neg (by omega)]

theorem coeffToPoly_spec (f : List α) (h : 0 < f.length) :
    ∃ p, coeffToPoly f = some p ∧
      ∀ j, at' p j = if j < f.length then - at' f (f.length - 1 - j) else if j = f.length then 1 else 0 := by
  obtain ⟨p, e, hp⟩ := coeffToPolyLoop_spec f f.length 0 (put (List.replicate (f.length + 1) 0) f.length 1) (by omega)
  refine ⟨p, ?_, fun j => ?_⟩
  · rw [coeffToPoly, rd_at h]; exact e
  · rw [hp, at'_put, at'_replicate_zero]

theorem charPoly_coeff (f : List α) (j : Nat) :
    (charPoly f).coeff j = if j < f.length then - at' f (f.length - 1 - j) else if j = f.length then 1 else 0 := by
  rw [charPoly, Polynomial.coeff_sub, Polynomial.coeff_X_pow, Polynomial.finsetSum_coeff]
  by_cases h : j < f.length
  · rw [if_pos h, if_neg (by omega), Finset.sum_eq_single (f.length - 1 - j)]
    · rw [Polynomial.coeff_C_mul, Polynomial.coeff_X_pow, if_pos (by omega), mul_one, zero_sub]; rfl
    · intro i hi hne
      rw [Finset.mem_range] at hi
      rw [Polynomial.coeff_C_mul, Polynomial.coeff_X_pow, if_neg (by omega), mul_zero]
    · intro hi
      rw [Finset.mem_range] at hi; omega
  · rw [if_neg h, Finset.sum_eq_zero, sub_zero]
    intro i hi
    rw [Finset.mem_range] at hi
    rw [Polynomial.coeff_C_mul, Polynomial.coeff_X_pow, if_neg (by omega), mul_zero]

/-- **C49**: `linear_recurrence_coeff_to_poly` gives the characteristic polynomial. -/
theorem C49_coeff_to_poly (coeff : List α) (h : 0 < coeff.length) :
    ∃ p, coeffToPoly coeff = some p ∧ poly p = charPoly coeff := by
  obtain ⟨p, e, hp⟩ := coeffToPoly_spec coeff h
  refine ⟨p, e, ?_⟩
  ext j
  rw [poly_coeff, hp, charPoly_coeff]

theorem polyToCoeffLoop_spec (p : List α) (L : Nat) : ∀ (n i : Nat) (f : List α), i + n = L → f.length = L →
    ∃ f', polyToCoeffLoop p L n i f = some f' ∧ f'.length = L ∧
      ∀ j, j < L → at' f' j = if i ≤ j then - at' p (L - 1 - j) else at' f j := by
  intro n
  induction n with
  | zero => intro i f h1 h2; exact ⟨f, rfl, h2, fun j hj => by rw [if_neg (by omega)]⟩
  | succ n ih =>
    intro i f h1 h2
    rw [polyToCoeffLoop, wr, if_pos (by omega)]
    obtain ⟨f', e, hl, ha⟩ := ih (i + 1) (f.set i (-(at' p (L - 1 - i)))) (by omega) (by rw [List.length_set, h2])
    refine ⟨f', e, hl, fun j hj => ?_⟩
    rw [ha j hj]
    by_cases h3 : i + 1 ≤ j
    · rw [if_pos h3, if_pos (by omega)]
    · rw [if_neg h3]
      by_cases h4 : i = j
      · subst h4
        rw [if_pos (le_refl _), at', List.getD_eq_getElem?_getD, List.getElem?_set_self (by omega)]; rfl
      · rw [if_neg (by omega), at', at', List.getD_eq_getElem?_getD, List.getElem?_set_ne h4, ← List.getD_eq_getElem?_getD, at']

variable [DecidableEq α]

/-- **C49**: `linear_recurrence_poly_to_coeff` of a monic polynomial gives the coefficients of the
recurrence with that characteristic polynomial. -/
theorem C49_poly_to_coeff (p : List α) (h : leadingCoeff p = 1) :
    ∃ f, polyToCoeff p = some f ∧ f.length = deg p ∧ charPoly f = poly p := by
  obtain ⟨f, e, hl, ha⟩ := polyToCoeffLoop_spec p (deg p) (deg p) 0 (List.replicate (deg p) 0) (by omega) (by simp)
  refine ⟨f, e, hl, ?_⟩
  ext j
  rw [charPoly_coeff, poly_coeff, hl]
  by_cases h1 : j < deg p
  · rw [if_pos h1, ha _ (by omega), if_pos (by omega), neg_neg]
    congr 1; omega
  · rw [if_neg h1]
    by_cases h2 : j = deg p
    · rw [if_pos h2, h2, ← h]; rfl
    · rw [if_neg h2, (deg_spec p).1 j (by omega)]

/-- **C49**: the conversions undo each other. -/
theorem C49_round_trip [Nontrivial α] (coeff : List α) (h : 0 < coeff.length) :
    ∃ p, coeffToPoly coeff = some p ∧ polyToCoeff p = some coeff := by
  obtain ⟨p, e, hp⟩ := coeffToPoly_spec coeff h
  have hd : deg p = coeff.length := by
    apply deg_unique
    · intro j hj; rw [hp, if_neg (by omega), if_neg (by omega)]
    · right; rw [hp, if_neg (by omega), if_pos rfl]; exact one_ne_zero
  obtain ⟨f, e2, hl, ha⟩ := polyToCoeffLoop_spec p (deg p) (deg p) 0 (List.replicate (deg p) 0) (by omega) (by simp)
  refine ⟨p, e, ?_⟩
  rw [polyToCoeff, e2]
  congr 1
  apply List.ext_getElem (by omega)
  intro i h1 h2
  have := ha i (by omega)
  rw [if_pos (by omega), hp, if_pos (by omega), neg_neg, hd, show coeff.length - 1 - (coeff.length - 1 - i) = i by omega] at this
  simpa [at', List.getD_eq_getElem?_getD, h1, h2] using this

end Ring

/-! ### the functional that sends `x^k` to the `k`-th term -/

section functional
variable {α : Type} [CommRing α] {A : Type} [AddCommGroup A] [Module α A]

/-- The linear functional with `x^k ↦ f k`. -/
noncomputable def phi (f : Nat → A) : Polynomial α →ₗ[α] A := Polynomial.lsum (fun k => LinearMap.toSpanSingleton α A (f k))

theorem phi_mono (f : Nat → A) (k : Nat) (a : α) : phi f (C a * X ^ k) = a • f k := by
  rw [phi, Polynomial.lsum_apply, Polynomial.C_mul_X_pow_eq_monomial, Polynomial.sum_monomial_index]
  · rfl
  · simp

theorem phi_X (f : Nat → A) (k : Nat) : phi (α := α) f (X ^ k) = f k := by
  have := phi_mono f k (1 : α)
  rwa [Polynomial.C_1, one_mul, one_smul] at this

theorem phi_sum (f : Nat → A) (q : Polynomial α) (n : Nat) (h0 : 0 < n) (h : q.degree < n) :
    phi f q = ∑ i ∈ Finset.range n, q.coeff i • f i := by
  conv_lhs => rw [Polynomial.as_sum_range' q n (by
    by_cases hq : q = 0
    · subst hq; simpa using h0
    · rwa [Polynomial.natDegree_lt_iff_degree_lt hq])]
  rw [map_sum]
  apply Finset.sum_congr rfl
  intro i _
  rw [← Polynomial.C_mul_X_pow_eq_monomial, phi_mono]

theorem phi_mul (coeff : List α) (init : List A) (f : Nat → A) (h : IsRec coeff init f) (q : Polynomial α) :
    phi f (q * charPoly coeff) = 0 := by
  induction q using Polynomial.induction_on' with
  | add p q hp hq => rw [add_mul, map_add, hp, hq, add_zero]
  | monomial k a =>
    rw [← Polynomial.C_mul_X_pow_eq_monomial, charPoly, mul_sub, map_sub, Finset.mul_sum, map_sum, mul_assoc, ← pow_add,
      phi_mono, h.next _ (by omega), Finset.smul_sum, sub_eq_zero]
    apply Finset.sum_congr rfl
    intro i hi
    rw [Finset.mem_range] at hi
    rw [show C a * X ^ k * (C (coeff.getD i 0) * X ^ (coeff.length - 1 - i)) =
      C (a * coeff.getD i 0) * X ^ (k + (coeff.length - 1 - i)) by rw [Polynomial.C_mul, pow_add]; ring, phi_mono, mul_smul]
    congr 3; omega

end functional

/-! ### powers modulo the characteristic polynomial -/

section Quo
variable {α : Type} [CommRing α] [DecidableEq α] [Quo α] [Nontrivial α]

/-- `x` is reduced modulo `M` and is congruent to `P`. -/
def Red (M x : List α) (P : Polynomial α) : Prop := (poly x).degree < (poly M).degree ∧ poly M ∣ poly x - P

theorem polymodMul_spec (thr : Nat) (useLong : Nat → Nat → Bool) (M x y : List α) (P Q : Polynomial α)
    (hM : DivBy (leadingCoeff M)) (hx : Red M x P) (hy : Red M y Q) :
    ∃ z, polymodMul thr useLong M x y = some z ∧ Red M z (P * Q) := by
  obtain ⟨t, e1, ht⟩ := C37_times thr x none (some y)
  obtain ⟨q, z, _, e2, h1, h2⟩ := C38_div_mod_ring thr useLong t M hM
  refine ⟨z, ?_, h2, ?_⟩
  · rw [polymodMul, times, e1]; exact e2
  · simp only [Option.getD_none, Option.getD_some] at ht
    have : poly z - P * Q = poly x * (poly y - Q) + (poly x - P) * Q - poly q * poly M := by
      rw [mul_sub, sub_mul, ← ht, h1]; ring
    rw [this]
    exact dvd_sub (dvd_add (Dvd.dvd.mul_left hy.2 _) (Dvd.dvd.mul_right hx.2 _)) (dvd_mul_left _ _)

theorem powLoop_spec (thr : Nat) (useLong : Nat → Nat → Bool) (M : List α) (hM : DivBy (leadingCoeff M)) :
    ∀ (fuel y : Nat) (x r : List α) (P R : Polynomial α), y ≤ fuel → Red M x P → Red M r R →
    ∃ z, powLoop thr useLong M fuel (y : Int) x r = some z ∧ Red M z (R * P ^ y) := by
  intro fuel
  induction fuel with
  | zero =>
    intro y x r P R hy hx hr
    have : y = 0 := by omega
    subst this
    refine ⟨r, rfl, ?_⟩
    rwa [pow_zero, mul_one]
  | succ fuel ih =>
    intro y x r P R hy hx hr
    rw [powLoop]
    by_cases h0 : 0 < y
    · rw [if_pos (by omega)]
      have hdiv : (y : Int).tdiv 2 = ((y / 2 : Nat) : Int) := rfl
      have hmod : (y : Int).tmod 2 = ((y % 2 : Nat) : Int) := rfl
      obtain ⟨x2, ex, hx2⟩ := polymodMul_spec thr useLong M x x P P hM hx hx
      by_cases hodd : y % 2 = 0
      · obtain ⟨z, ez, hz⟩ := ih (y / 2) x2 r (P * P) R (by omega) hx2 hr
        refine ⟨z, ?_, ?_⟩
        · simp only [hmod, hodd, hdiv, Nat.cast_zero, ne_eq, not_true_eq_false, if_false, Option.bind_eq_bind, Option.bind_some, ex]
          exact ez
        · rw [← pow_two, ← pow_mul, show 2 * (y / 2) = y by omega] at hz
          exact hz
      · obtain ⟨r2, er, hr2⟩ := polymodMul_spec thr useLong M r x R P hM hr hx
        obtain ⟨z, ez, hz⟩ := ih (y / 2) x2 r2 (P * P) (R * P) (by omega) hx2 hr2
        have h1 : y % 2 = 1 := by omega
        refine ⟨z, ?_, ?_⟩
        · simp only [hmod, h1, hdiv, Nat.cast_one, ne_eq, one_ne_zero, not_false_eq_true, if_true, Option.bind_eq_bind,
            Option.bind_some, ex, er]
          exact ez
        · rw [← pow_two, ← pow_mul, mul_assoc, ← pow_succ', show 2 * (y / 2) + 1 = y by omega] at hz
          exact hz
    · have : y = 0 := by omega
      subst this
      refine ⟨r, by rw [if_neg (by simp)], ?_⟩
      rwa [pow_zero, mul_one]

/-- **C49**: the power of a polynomial modulo `M` is the remainder of the power, for every modulus
whose leading coefficient can be divided by exactly. -/
theorem C49_polymod_pow (thr : Nat) (useLong : Nat → Nat → Bool) (M x : List α) (hM : DivBy (leadingCoeff M)) (n : Nat) :
    ∃ z, polymodPow thr useLong M x (n : Int) = some z ∧ (poly z).degree < (poly M).degree ∧
      poly M ∣ poly z - poly x ^ n := by
  obtain ⟨q, x', _, e1, h1, h2⟩ := C38_div_mod_ring thr useLong x M hM
  obtain ⟨q2, o', _, e2, h3, h4⟩ := C38_div_mod_ring thr useLong [1] M hM
  have hone : poly [(1 : α)] = 1 := by simp [poly, at']
  obtain ⟨z, e, hz⟩ := powLoop_spec thr useLong M hM n n x' o' (poly x) 1 (le_refl _)
    ⟨h2, ⟨-poly q, by rw [h1]; ring⟩⟩ ⟨h4, ⟨-poly q2, by rw [← hone, h3]; ring⟩⟩
  refine ⟨z, ?_, hz.1, ?_⟩
  · rw [polymodPow, e1, e2]; exact e
  · have := hz.2; rwa [one_mul] at this

/-! ### the theorems -/

variable {A : Type} [AddCommGroup A] [Module α A]

omit [DecidableEq α] [Quo α] [Nontrivial α] in
theorem dotLoop_spec (xn : List α) (init : List A) (f : Nat → A) : ∀ (n i : Nat) (r : A),
    (∀ j, i ≤ j → j < i + n → init[j]? = some (f j)) →
    dotLoop xn init n i r = some (r + ∑ j ∈ Finset.range n, at' xn (i + j) • f (i + j)) := by
  intro n
  induction n with
  | zero => intro i r _; simp [dotLoop]
  | succ n ih =>
    intro i r h
    rw [dotLoop, rd, h i (le_refl _) (by omega)]
    simp only [Option.bind_eq_bind, Option.bind_some]
    rw [ih (i + 1) _ (fun j h1 h2 => h j (by omega) (by omega)), Finset.sum_range_succ', add_assoc]
    congr 2
    rw [add_comm]
    congr 1
    apply Finset.sum_congr rfl
    intro j _
    rw [show i + 1 + j = i + (j + 1) by omega]

/-- Division by `1` is the identity: true of every coefficient type. -/
def QuoOne (α : Type) [CommRing α] [Quo α] : Prop := ∀ a : α, Quo.quo a 1 = a

omit [DecidableEq α] [Quo α] [Nontrivial α] in
theorem quoOne_field {F : Type} [Field F] : QuoOne F := fun a => div_one a
theorem quoOne_int : QuoOne Int := fun a => Int.tdiv_one a

/-- **C49**: `linear_recurrence(coeff, init, n)` is the `n`-th term of the sequence with these initial
values and this recurrence, for every commutative ring of coefficients, every order and every `n`. -/
theorem C49_linear_recurrence (hq : QuoOne α) (thr : Nat) (useLong : Nat → Nat → Bool) (coeff : List α) (init : List A)
    (h : 0 < coeff.length) (f : Nat → A) (hf : IsRec coeff init f) (n : Nat) :
    linearRecurrence thr useLong coeff init (n : Int) = some (f n) := by
  obtain ⟨p, e1, hp⟩ := C49_coeff_to_poly coeff h
  obtain ⟨p', e1', hpa⟩ := coeffToPoly_spec coeff h
  rw [e1] at e1'
  obtain rfl := Option.some.inj e1'
  have hd : deg p = coeff.length := by
    apply deg_unique
    · intro j hj; rw [hpa, if_neg (by omega), if_neg (by omega)]
    · right; rw [hpa, if_neg (by omega), if_pos rfl]; exact one_ne_zero
  have hlead : leadingCoeff p = 1 := by rw [leadingCoeff, hd, hpa, if_neg (by omega), if_pos rfl]
  have hM : DivBy (leadingCoeff p) := by
    rw [hlead]; intro a; rw [hq, mul_one]
  have hdeg : (poly p).degree = (coeff.length : Nat) := by
    rw [Polynomial.degree_eq_natDegree, ← C37_deg, hd]
    intro h0
    have := poly_coeff p (deg p)
    rw [h0, Polynomial.coeff_zero] at this
    exact one_ne_zero (hlead.symm.trans this.symm)
  have hx : poly [(0 : α), 1] = X := by simp [poly, at', Finset.sum_range_succ]
  obtain ⟨z, e2, hz1, k, hk⟩ := C49_polymod_pow thr useLong p [0, 1] hM n
  have hinit := hf.start 0 h
  rw [linearRecurrence, e1]
  simp only [Option.bind_eq_bind, Option.bind_some]
  rw [e2]
  simp only [Option.bind_some]
  rw [rd, hinit]
  simp only [Option.bind_some]
  rw [dotLoop_spec z init f coeff.length 0 0 (fun j _ hj => hf.start j (by omega)), zero_add]
  congr 1
  rw [hdeg] at hz1
  have h1 := phi_sum f (poly z) coeff.length h hz1
  have h2 : poly z = X ^ n + k * charPoly coeff := by
    rw [← hp, mul_comm, ← hk, hx]; ring
  rw [h2, map_add, phi_X, phi_mul coeff init f hf, add_zero] at h1
  rw [h1]
  apply Finset.sum_congr rfl
  intro j _
  rw [← h2, poly_coeff, Nat.zero_add]

/-- The sequence given by a recurrence. -/
def recSeq {α A : Type} [CommRing α] [AddCommGroup A] [Module α A] (coeff : List α) (init : List A) (m : Nat) : A :=
  if m < coeff.length then init.getD m 0
  else ∑ i : Fin coeff.length, coeff.getD i 0 • recSeq coeff init (m - 1 - i)
termination_by m
decreasing_by have := i.2; omega

omit [DecidableEq α] [Quo α] [Nontrivial α] in
/-- **C49**: there is exactly one such sequence, so the theorem is about every recurrence. -/
theorem C49_exists_unique (coeff : List α) (init : List A) (hl : coeff.length ≤ init.length) :
    ∃! f : Nat → A, IsRec coeff init f := by
  refine ⟨recSeq coeff init, ⟨fun i hi => ?_, fun m hm => ?_⟩, fun g hg => funext fun m => ?_⟩
  · rw [recSeq, if_pos hi, List.getD_eq_getElem?_getD, List.getElem?_eq_getElem (by omega)]; rfl
  · rw [recSeq, if_neg (by omega), Finset.sum_range]
  · induction m using Nat.strong_induction_on with
    | _ m ih =>
      rw [recSeq]
      by_cases h : m < coeff.length
      · rw [if_pos h, List.getD_eq_getElem?_getD, hg.start m h]; rfl
      · rw [if_neg h, hg.next m (by omega), Finset.sum_range]
        apply Finset.sum_congr rfl
        intro i _
        rw [ih _ (by have := i.2; omega)]

omit [DecidableEq α] [Quo α] [Nontrivial α] in
theorem nextLoop_spec (coeff : List α) (init : List A) : ∀ (n i : Nat) (r : A), i + n = coeff.length →
    coeff.length ≤ init.length →
    nextLoop coeff init n i r = some (r + ∑ j ∈ Finset.range n, at' coeff (i + j) • init.getD (init.length - 1 - (i + j)) 0) := by
  intro n
  induction n with
  | zero => intro i r _ _; simp [nextLoop]
  | succ n ih =>
    intro i r h1 h2
    rw [nextLoop, rd_at (by omega)]
    simp only [Option.bind_eq_bind, Option.bind_some]
    rw [if_pos (by omega), rd, List.getElem?_eq_getElem (by omega)]
    simp only [Option.bind_some]
    rw [ih (i + 1) _ (by omega) h2, Finset.sum_range_succ', add_assoc]
    congr 2
    rw [add_comm]
    congr 1
    · apply Finset.sum_congr rfl
      intro j _
      rw [show i + 1 + j = i + (j + 1) by omega]
    · rw [Nat.add_zero, List.getD_eq_getElem?_getD, List.getElem?_eq_getElem (by omega)]; rfl

omit [DecidableEq α] [Quo α] [Nontrivial α] in
/-- **C49**: `linear_recurrence_next` of the first `m` terms is the next term. -/
theorem C49_next (coeff : List α) (init : List A) (f : Nat → A) (hf : IsRec coeff init f) (m : Nat) (h : coeff.length ≤ m)
    (hm : 0 < m) : linearRecurrenceNext coeff ((List.range m).map f) = some (f m) := by
  rw [linearRecurrenceNext, rd, List.getElem?_eq_getElem (by simpa using hm)]
  simp only [Option.bind_eq_bind, Option.bind_some]
  rw [nextLoop_spec _ _ _ 0 _ (by omega) (by simpa using h), hf.next m h, zero_add]
  congr 1
  apply Finset.sum_congr rfl
  intro i hi
  rw [Finset.mem_range] at hi
  rw [Nat.zero_add, List.length_map, List.length_range, List.getD_eq_getElem?_getD, List.getElem?_eq_getElem (by simp; omega)]
  simp [at', List.getD_eq_getElem?_getD]

/-- **C49**: `fibonacci(n)` is the `n`-th Fibonacci number, in every ring. -/
theorem C49_fibonacci (hq : QuoOne α) (thr : Nat) (useLong : Nat → Nat → Bool) (n : Nat) :
    fibonacci thr useLong (n : Int) = some (Nat.fib n : α) := by
  apply C49_linear_recurrence hq thr useLong _ _ (by simp)
  constructor
  · intro i hi
    have : i = 0 ∨ i = 1 := by simp at hi; omega
    rcases this with rfl | rfl <;> simp
  · intro m hm
    obtain ⟨k, rfl⟩ : ∃ k, m = k + 2 := ⟨m - 2, by simp at hm; omega⟩
    simp only [List.length_cons, List.length_nil, Finset.sum_range_succ, Finset.sum_range_zero]
    rw [Nat.fib_add_two]
    simp [add_comm]

/-- **C49**: a sequence of order two. -/
theorem C49_order_two (hq : QuoOne α) (thr : Nat) (useLong : Nat → Nat → Bool) (c0 c1 : α) (f : Nat → α)
    (h : ∀ k, f (k + 2) = c0 * f (k + 1) + c1 * f k) (n : Nat) :
    linearRecurrence thr useLong [c0, c1] [f 0, f 1] (n : Int) = some (f n) := by
  apply C49_linear_recurrence hq thr useLong _ _ (by simp)
  constructor
  · intro i hi
    have : i = 0 ∨ i = 1 := by simp at hi; omega
    rcases this with rfl | rfl <;> simp
  · intro m hm
    obtain ⟨k, rfl⟩ : ∃ k, m = k + 2 := ⟨m - 2, by simp at hm; omega⟩
    simp only [List.length_cons, List.length_nil, Finset.sum_range_succ, Finset.sum_range_zero]
    rw [h]
    simp

/-- **C49**: `lucas_l(n)` is the `n`-th Lucas number: `L 0 = 2`, `L 1 = 1`, `L (k+2) = L (k+1) + L k`. -/
theorem C49_lucas_l (hq : QuoOne α) (thr : Nat) (useLong : Nat → Nat → Bool) (L : Nat → α) (h0 : L 0 = 2) (h1 : L 1 = 1)
    (h : ∀ k, L (k + 2) = L (k + 1) + L k) (n : Nat) : lucasL thr useLong (n : Int) = some (L n) := by
  have := C49_order_two hq thr useLong 1 1 L (fun k => by rw [h, one_mul, one_mul]) n
  rwa [h0, h1, ← one_add_one_eq_two] at this

/-- **C49**: `lucas_u(p, q, n)`: `U 0 = 0`, `U 1 = 1`, `U (k+2) = p U (k+1) - q U k`. -/
theorem C49_lucas_u (hq : QuoOne α) (thr : Nat) (useLong : Nat → Nat → Bool) (p q : α) (U : Nat → α) (h0 : U 0 = 0)
    (h1 : U 1 = 1) (h : ∀ k, U (k + 2) = p * U (k + 1) - q * U k) (n : Nat) :
    lucasU thr useLong p q (n : Int) = some (U n) := by
  have := C49_order_two hq thr useLong p (-q) U (fun k => by rw [h]; ring) n
  rwa [h0, h1, ← sub_self (1 : α)] at this

/-- **C49**: `lucas_v(p, q, n)`: `V 0 = 2`, `V 1 = p`, `V (k+2) = p V (k+1) - q V k`. -/
theorem C49_lucas_v (hq : QuoOne α) (thr : Nat) (useLong : Nat → Nat → Bool) (p q : α) (V : Nat → α) (h0 : V 0 = 2)
    (h1 : V 1 = p) (h : ∀ k, V (k + 2) = p * V (k + 1) - q * V k) (n : Nat) :
    lucasV thr useLong p q (n : Int) = some (V n) := by
  have := C49_order_two hq thr useLong p (-q) V (fun k => by rw [h]; ring) n
  rwa [h0, h1, ← one_add_one_eq_two] at this

end Quo

/-! ### examples -/

example : linearRecurrence 2 (fun _ _ => true) [(1 : Int), 0, 2] [(1 : Int), 2, 3] 6 = some 25 := by decide +kernel
example : linearRecurrence 2 (fun _ _ => false) [(1 : Int), 0, 2] [(1 : Int), 2, 3] 6 = some 25 := by decide +kernel
example : fibonacci 2 (fun _ _ => true) 100 = some (354224848179261915075 : Int) := by decide +kernel
example : lucasV 2 (fun _ _ => true) 3 2 10 = some (1025 : Int) := by decide +kernel

end Altruct.Recurrence
