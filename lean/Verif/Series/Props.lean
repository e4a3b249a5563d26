/-
C60: division, integration, logarithm, exponential, powers, reversion and root finding of truncated
power series (`series.h`).
-/
import Verif.Series.Arith
import Verif.Ranges.Props
import Mathlib.Data.Rat.Init
import Mathlib.Algebra.Field.Rat
import Mathlib.Data.ZMod.Basic

set_option linter.unusedSectionVars false

namespace Altruct.Series

open Altruct.Polynom (at' put poly poly_coeff at'_ge at'_resize at'_put length_resize length_put rd_at wr_eq Quo cdiv DivBy)

section Quo
variable {α : Type} [CommRing α] [DecidableEq α] [Quo α] [Nontrivial α]

/-- **C60**: `inverse` over any ring in which the constant coefficient divides everything. -/
theorem C60_inverse_ring (thr : Nat) (s : Ser α) (hs : Wf s) (hN : 0 < s.N) (hd : DivBy (at' s.p 0)) :
    ∃ r, inverse thr s = some r ∧ r.N = s.N ∧ Wf r ∧ Agree s.N (poly s.p * poly r.p) 1 := by
  have hs' : s.p.length = s.N := hs
  obtain ⟨r, e, h⟩ := Polynom.C38_inverse_ring thr s.p s.N (by omega) hd
  have hm := mk_is r s.N
  refine ⟨mk r s.N, by rw [inverse, e]; rfl, rfl, hm.wf, ?_⟩
  refine (hm.agree.mul_left (poly s.p)).trans (fun i hi => ?_)
  rw [h i hi, Polynomial.coeff_one]

example : inverse 2 (⟨5, [1, 1, 0, 0, 0]⟩ : Ser Int) = some ⟨5, [1, -1, 1, -1, 1]⟩ := by decide +kernel

/-- **C60**: the quotient `t` of `s` by `u` is determined by `t u = s` up to `x^N`. -/
theorem C60_div_ring (thr : Nat) (s u : Ser α) (hu : Wf u) (hN : 0 < s.N) (h : u.N = s.N) (hd : DivBy (at' u.p 0)) :
    ∃ t, div thr s u = some t ∧ t.N = s.N ∧ Wf t ∧ Agree s.N (poly t.p * poly u.p) (poly s.p) := by
  obtain ⟨i, ei, hiN, hiw, hi⟩ := C60_inverse_ring thr u hu (by omega) hd
  obtain ⟨t, et, ht⟩ := (C60_mul thr s i hN).1
  refine ⟨t, by rw [div, ei]; exact et, ht.1, ht.wf, ?_⟩
  refine (ht.agree.mul_right _).trans ?_
  rw [h] at hi
  have := hi.mul_left (poly s.p)
  rw [mul_one] at this
  refine (Agree.of_eq ?_).trans this
  ring

end Quo

section Field
variable {α : Type} [Field α] [DecidableEq α]

theorem div_is (thr : Nat) {s u : Ser α} {N : Nat} {A B : Polynomial α} (hN : 0 < N) (hs : Is s N A) (hu : Is u N B)
    (h0 : B.coeff 0 ≠ 0) : ∃ t V, div thr s u = some t ∧ Agree N (B * V) 1 ∧ Is t N (A * V) := by
  have h1 : at' u.p 0 ≠ 0 := by rw [hu.2.2 0 hN]; exact h0
  obtain ⟨i, ei, hiN, hiw, hi⟩ := C60_inverse_ring thr u hu.wf (by rw [hu.1]; exact hN) (Polynom.divBy_field _ h1)
  obtain ⟨t, et, ht⟩ := mul_is thr hN hs (Agree.refl (poly i.p))
  rw [hu.1] at hi
  exact ⟨t, poly i.p, by rw [div, ei]; exact et, (hu.agree.symm.mul_right _).trans hi, ht⟩

/-- **C60**: division by a non-zero scalar. -/
theorem C60_div_scalar (s : Ser α) (v : α) (hv : v ≠ 0) :
    ∃ r, divScalar s v = some r ∧ Is r s.N (Polynomial.C v⁻¹ * poly s.p) := by
  obtain ⟨r, e, h⟩ := Polynom.C38_div_scalar s.p none v hv
  refine ⟨mk r s.N, by rw [divScalar, e]; rfl, mk_is' (Agree.of_eq ?_)⟩
  have h' : Polynomial.C v * poly r = poly s.p := h
  rw [← h', ← mul_assoc, ← Polynomial.C_mul, inv_mul_cancel₀ hv, Polynomial.C_1, one_mul]

/-- **C60**: `integral(c0)` is the antiderivative with constant coefficient `c0`, when `1, ..., N` are
invertible (the code divides by `N` as well, although that coefficient is dropped). -/
theorem C60_integral (s : Ser α) (hs : Wf s) (c0 : α) (hN : 0 < s.N) (hchar : ∀ k : Nat, 1 ≤ k → k ≤ s.N → (k : α) ≠ 0) :
    ∃ r, integral s c0 = some r ∧ r.N = s.N ∧ Wf r ∧ at' r.p 0 = c0 ∧
      Agree (s.N - 1) (Polynomial.derivative (poly r.p)) (poly s.p) := by
  have hs' : s.p.length = s.N := hs
  have hdl := Polynom.deg_lt s.p (by omega)
  obtain ⟨r, e, hd, h0⟩ := Polynom.C38_integral s.p c0 (fun i hi => hchar (i + 1) (by omega) (by omega))
  have hm : Is (mk (Polynom.resize r s.N) s.N) s.N (poly r) := mk_is' (fun i hi => by
    rw [poly_coeff, at'_resize, if_pos hi, poly_coeff])
  refine ⟨mk (Polynom.resize r s.N) s.N, by rw [integral, e]; rfl, rfl, hm.wf, ?_, ?_⟩
  · rw [hm.2.2 0 hN, h0]
  · refine hm.agree.derivative.trans (Agree.of_eq hd)

example : integral (⟨4, [1, 2, 3, 4]⟩ : Ser ℚ) 7 = some ⟨4, [7, 1, 1, 1]⟩ := by decide +kernel

/-- **C60** (negative): in characteristic 5 a series with 5 coefficients cannot be integrated: the
code divides by 5, although only the coefficients up to `x^4` are wanted. -/
theorem C60_integral_char :
    @integral (ZMod 5) _ _ ⟨fun a b => a * b ^ 3⟩ ⟨5, [1, 0, 0, 0, 1]⟩ 0 = none := by decide +kernel

/-! ### logarithm and exponential -/

/-- The logarithm as the solution of `L' s = s'`. -/
theorem ln_spec (thr : Nat) (s : Ser α) (N : Nat) (S : Polynomial α) (hs : Is s N S) (hN : 0 < N) (h0 : S.coeff 0 ≠ 0) (c0 : α)
    (hchar : ∀ k : Nat, 1 ≤ k → k ≤ N → (k : α) ≠ 0) :
    ∃ L, ln thr s c0 = some L ∧ L.N = N ∧ L.p.length = N ∧ at' L.p 0 = c0 ∧
      Agree (N - 1) (Polynomial.derivative (poly L.p) * S) (Polynomial.derivative S) := by
  have hd := C60_derivative s
  rw [hs.1] at hd
  obtain ⟨t, V, et, hV, ht⟩ := div_is thr hN hd hs h0
  obtain ⟨L, eL, hLN, hLw, hL0, hL⟩ := C60_integral t ht.wf c0 (by rw [ht.1]; exact hN) (fun k h1 h2 => hchar k h1 (by rw [← ht.1]; exact h2))
  rw [ht.1] at hL hLN
  refine ⟨L, by rw [ln, et]; exact eL, hLN, by rw [← hLN]; exact hLw, hL0, ?_⟩
  refine (hL.mul_right S).trans ?_
  refine ((ht.agree.mono (show N - 1 ≤ N by omega)).mul_right S).trans ?_
  have h1 : Agree (N - 1) (Polynomial.derivative (poly s.p) * V * S) (Polynomial.derivative (poly s.p)) := by
    have := (hV.mono (show N - 1 ≤ N by omega)).mul_left (Polynomial.derivative (poly s.p))
    rw [mul_one] at this
    refine (Agree.of_eq ?_).trans this
    ring
  exact h1.trans hs.agree.derivative

/-- **C60**: the logarithm of a series with constant coefficient 1 is
`c0 + (s-1) - (s-1)^2/2 + (s-1)^3/3 - ...` up to `x^N`. -/
theorem C60_ln (thr : Nat) (s : Ser α) (hs : Wf s) (hN : 0 < s.N) (h0 : at' s.p 0 = 1) (c0 : α)
    (hchar : ∀ k : Nat, 1 ≤ k → k ≤ s.N → (k : α) ≠ 0) :
    ∃ L, ln thr s c0 = some L ∧ Is L s.N (Polynomial.C c0 + lnSum (poly s.p) s.N) := by
  have h0' : (poly s.p).coeff 0 = 1 := by rw [poly_coeff]; exact h0
  obtain ⟨L, eL, hLN, hLl, hL0, hL⟩ := ln_spec thr s s.N (poly s.p) hs.is hN (by rw [h0']; exact one_ne_zero) c0 hchar
  refine ⟨L, eL, hLN, hLl, fun i hi => ?_⟩
  rw [← poly_coeff]
  obtain ⟨V, hV⟩ := exists_inv (poly s.p) (by rw [h0']; exact one_ne_zero) (s.N - 1)
  refine integral_unique (poly L.p) (Polynomial.C c0 + lnSum (poly s.p) s.N) s.N (fun k h1 h2 => hchar k h1 (by omega)) ?_ ?_ i hi
  · rw [poly_coeff, hL0, Polynomial.coeff_add, lnSum_coeff_zero _ _ h0', Polynomial.coeff_C_zero, add_zero]
  · refine Agree.cancel hV (hL.trans ?_)
    rw [Polynomial.derivative_add, Polynomial.derivative_C, zero_add]
    exact (lnSum_ode _ _ h0' (fun k h1 h2 => hchar k h1 (by omega))).symm

example : ln 2 (⟨4, [1, 1, 0, 0]⟩ : Ser ℚ) 0 = some ⟨4, [0, 1, -1/2, 1/3]⟩ := by decide +kernel

theorem expLoop_spec (thr : Nat) (p : List α) (N : Nat) (hp : p.length = N) (h0 : at' p 0 = 0)
    (hchar : ∀ k : Nat, 1 ≤ k → k ≤ N → (k : α) ≠ 0) : ∀ (fuel l : Nat) (r : List α), 1 ≤ l → N - l < fuel →
    r.length = min l N → (poly r).coeff 0 = 1 →
    Agree (min l N - 1) (Polynomial.derivative (poly r)) (Polynomial.derivative (poly p) * poly r) → 0 < N →
    ∃ r', expLoop thr p N fuel l r = some r' ∧ (poly r').coeff 0 = 1 ∧
      Agree (N - 1) (Polynomial.derivative (poly r')) (Polynomial.derivative (poly p) * poly r') := by
  intro fuel
  induction fuel with
  | zero => intro l r _ h; omega
  | succ fuel ih =>
    intro l r hl hf hrl hr0 hode hN
    rw [expLoop]
    by_cases hlN : l < N
    · rw [if_pos hlN]
      simp only
      generalize hm : min N (l * 2) = m
      have hm1 : l ≤ m := by omega
      have hm2 : m ≤ 2 * l := by omega
      have hm3 : m ≤ N := by omega
      have hm0 : 0 < m := by omega
      rw [Polynom.range, if_pos (by omega), Option.bind_eq_bind, Option.bind_some]
      obtain ⟨L, eL, hLN, hLl, hL0, hL⟩ := ln_spec thr (mk r m) m (poly r) (mk_is r m) hm0
        (by rw [hr0]; exact one_ne_zero) 0 (fun k h1 h2 => hchar k h1 (by omega))
      rw [eL, Option.bind_eq_bind, Option.bind_some]
      -- the factor
      have ht : Agree m (poly (put (Polynom.minus (p.take m) L.p) 0 (at' (Polynom.minus (p.take m) L.p) 0 + 1)))
          (poly p - poly L.p + 1) := by
        intro i hi
        have e1 : ∀ j, at' (Polynom.minus (p.take m) L.p) j = at' (p.take m) j - at' L.p j := by
          intro j
          have := congrArg (fun q => Polynomial.coeff q j) (Polynom.C37_add (p.take m) none (some L.p)).2.2
          simp only [Polynomial.coeff_sub, poly_coeff] at this
          exact this
        rw [poly_coeff, at'_put, Polynomial.coeff_add, Polynomial.coeff_sub, poly_coeff, poly_coeff, Polynomial.coeff_one,
          e1, e1, Polynom.at'_take, Polynom.at'_take]
        by_cases hi0 : i = 0
        · subst hi0; rw [if_pos rfl, if_pos rfl, if_pos hm0]
        · rw [if_neg hi0, if_neg hi0, if_pos hi, add_zero]
      obtain ⟨r2, er, hrl2, hr2⟩ := Polynom.C37_mul thr r none
        (some (put (Polynom.minus (p.take m) L.p) 0 (at' (Polynom.minus (p.take m) L.p) 0 + 1))) (some (m - 1))
      rw [Option.getD_some] at hrl2
      simp only [Option.getD_some, Option.getD_none] at hr2
      rw [er, Option.bind_some]
      have hprod : Agree m (poly r2) (poly r * (poly p - poly L.p + 1)) := by
        refine Agree.trans (fun i hi => ?_) (ht.mul_left (poly r))
        rw [poly_coeff]
        exact hr2 i (by omega)
      have hp0 : (poly p).coeff 0 = 0 := by rw [poly_coeff]; exact h0
      have hl0' : (poly L.p).coeff 0 = 0 := by rw [poly_coeff]; exact hL0
      rw [show min l N = l by omega] at hode
      have hstep := exp_step (poly p) (poly r) (poly L.p) l m hl hm1 hm2 (fun k h1 h2 => hchar k h1 (by omega)) hp0 hr0 hl0' hode hL
      refine ih (l * 2) r2 (by omega) (by omega) (by omega) ?_ ?_ hN
      · rw [hprod.coeff_zero hm0, Polynomial.mul_coeff_zero, hr0, one_mul, Polynomial.coeff_add, Polynomial.coeff_sub,
          hp0, hl0', Polynomial.coeff_one_zero]; ring
      · rw [show min (l * 2) N = m by omega]
        exact hprod.derivative.trans (hstep.trans ((hprod.symm.mono (by omega)).mul_left _))
    · rw [if_neg hlN]
      rw [show min l N = N by omega] at hode
      exact ⟨r, rfl, hr0, hode⟩

/-- The exponential as the solution of `E' = s' E`. -/
theorem exp_spec (thr : Nat) (s : Ser α) (N : Nat) (S : Polynomial α) (hs : Is s N S) (hN : 0 < N) (h0 : S.coeff 0 = 0)
    (hchar : ∀ k : Nat, 1 ≤ k → k ≤ N → (k : α) ≠ 0) :
    ∃ E, exp thr s = some E ∧ E.N = N ∧ E.p.length = N ∧ at' E.p 0 = 1 ∧
      Agree (N - 1) (Polynomial.derivative (poly E.p)) (Polynomial.derivative S * poly E.p) := by
  have hsN := hs.1
  obtain ⟨r, er, hr0, hr⟩ := expLoop_spec thr s.p N hs.2.1 (by rw [hs.2.2 0 hN]; exact h0) hchar (N + 1) 1 [1] (le_refl 1)
    (by omega) (by simp; omega) (by rw [poly_one, Polynomial.coeff_one_zero]) (by
      intro i hi; omega) hN
  have hm := mk_is r N
  refine ⟨mk r N, by rw [exp, hsN, er]; rfl, rfl, hm.2.1, by rw [hm.2.2 0 hN, hr0], ?_⟩
  refine hm.agree.derivative.trans (hr.trans ?_)
  exact hs.agree.derivative.mul (hm.agree.symm.mono (by omega))

/-- **C60**: the exponential of a series with constant coefficient 0 is `1 + s + s^2/2! + s^3/3! + ...`
up to `x^N`. -/
theorem C60_exp (thr : Nat) (s : Ser α) (hs : Wf s) (hN : 0 < s.N) (h0 : at' s.p 0 = 0)
    (hchar : ∀ k : Nat, 1 ≤ k → k ≤ s.N → (k : α) ≠ 0) :
    ∃ E, exp thr s = some E ∧ Is E s.N (expSum (poly s.p) s.N) := by
  have h0' : (poly s.p).coeff 0 = 0 := by rw [poly_coeff]; exact h0
  obtain ⟨E, eE, hEN, hEl, hE0, hE⟩ := exp_spec thr s s.N (poly s.p) hs.is hN h0' hchar
  refine ⟨E, eE, hEN, hEl, fun i hi => ?_⟩
  rw [← poly_coeff]
  have hc : ∀ k : Nat, 1 ≤ k → k < s.N → (k : α) ≠ 0 := fun k h1 h2 => hchar k h1 (by omega)
  refine ode_unique (Polynomial.derivative (poly s.p)) _ _ s.N hc ?_ hE (expSum_ode _ _ h0' hc) i hi
  rw [poly_coeff, hE0, expSum_coeff_zero _ _ hN h0']

example : exp 2 (⟨5, [0, 1, 0, 0, 0]⟩ : Ser ℚ) = some ⟨5, [1, 1, 1/2, 1/6, 1/24]⟩ := by decide +kernel

/-- **C60**: `exp` and `ln` are inverse to each other. -/
theorem C60_exp_ln (thr : Nat) (s : Ser α) (hs : Wf s) (hN : 0 < s.N)
    (hchar : ∀ k : Nat, 1 ≤ k → k ≤ s.N → (k : α) ≠ 0) :
    (at' s.p 0 = 1 → (ln thr s 0).bind (exp thr) = some s) ∧
    (at' s.p 0 = 0 → (exp thr s).bind (fun e => ln thr e 0) = some s) := by
  have hc : ∀ k : Nat, 1 ≤ k → k < s.N → (k : α) ≠ 0 := fun k h1 h2 => hchar k h1 (by omega)
  constructor
  · intro h0
    have h0' : (poly s.p).coeff 0 = 1 := by rw [poly_coeff]; exact h0
    obtain ⟨L, eL, hLN, hLl, hL0, hL⟩ := ln_spec thr s s.N (poly s.p) hs.is hN (by rw [h0']; exact one_ne_zero) 0 hchar
    have hLis : Is L s.N (poly L.p) := ⟨hLN, hLl, fun i _ => (poly_coeff _ _).symm⟩
    obtain ⟨E, eE, hEN, hEl, hE0, hE⟩ := exp_spec thr L s.N (poly L.p) hLis hN (by rw [poly_coeff]; exact hL0) hchar
    rw [eL, Option.bind_some, eE]
    congr 1
    refine Is.unique (N := s.N) (A := poly s.p) ⟨hEN, hEl, fun i hi => ?_⟩ hs.is
    rw [← poly_coeff]
    exact ode_unique (Polynomial.derivative (poly L.p)) _ _ s.N hc (by rw [poly_coeff, hE0, h0']) hE hL.symm i hi
  · intro h0
    have h0' : (poly s.p).coeff 0 = 0 := by rw [poly_coeff]; exact h0
    obtain ⟨E, eE, hEN, hEl, hE0, hE⟩ := exp_spec thr s s.N (poly s.p) hs.is hN h0' hchar
    have hEis : Is E s.N (poly E.p) := ⟨hEN, hEl, fun i _ => (poly_coeff _ _).symm⟩
    have hE1 : (poly E.p).coeff 0 ≠ 0 := by rw [poly_coeff, hE0]; exact one_ne_zero
    obtain ⟨L, eL, hLN, hLl, hL0, hL⟩ := ln_spec thr E s.N (poly E.p) hEis hN hE1 0 hchar
    rw [eE, Option.bind_some, eL]
    congr 1
    refine Is.unique (N := s.N) (A := poly s.p) ⟨hLN, hLl, fun i hi => ?_⟩ hs.is
    rw [← poly_coeff]
    obtain ⟨V, hV⟩ := exists_inv (poly E.p) hE1 (s.N - 1)
    refine integral_unique _ _ s.N hc (by rw [poly_coeff, hL0, h0']) ?_ i hi
    exact Agree.cancel hV (hL.trans hE)

/-! ### powers -/

theorem lowest_spec (c : List α) (h : ∃ i, at' c i ≠ 0) :
    at' c (Polynom.lowest c) ≠ 0 ∧ ∀ j, j < Polynom.lowest c → at' c j = 0 := by
  refine ⟨?_, fun j hj => Polynom.lowestLoop_spec c c.length 0 j (Nat.zero_le _) hj⟩
  have key : ∀ (k i : Nat), (∃ j, i ≤ j ∧ j < i + k ∧ at' c j ≠ 0) → at' c (Polynom.lowestLoop c k i) ≠ 0 := by
    intro k
    induction k with
    | zero => rintro i ⟨j, h1, h2, _⟩; omega
    | succ k ih =>
      rintro i ⟨j, h1, h2, h3⟩
      rw [Polynom.lowestLoop]
      by_cases hi : at' c i = 0
      · rw [if_neg (by simpa using hi)]
        refine ih (i + 1) ⟨j, ?_, by omega, h3⟩
        by_contra hlt
        exact h3 (by rw [show j = i by omega]; exact hi)
      · rw [if_pos hi]; exact hi
  obtain ⟨i, hi⟩ := h
  refine key c.length 0 ⟨i, Nat.zero_le _, ?_, hi⟩
  by_contra hlt
  exact hi (at'_ge (by omega))

/-- The power of a series with constant coefficient 1, by logarithm and exponential. -/
theorem pow_one_spec (thr : Nat) (s : Ser α) (hs : Wf s) (hN : 0 < s.N) (h0 : at' s.p 0 = 1) (a : Nat)
    (hchar : ∀ k : Nat, 1 ≤ k → k ≤ s.N → (k : α) ≠ 0) :
    ∃ r, (do let l ← ln thr s 0; exp thr (mulScalar l ((a : Int) : α))) = some r ∧ Is r s.N (poly s.p ^ a) := by
  have hc : ∀ k : Nat, 1 ≤ k → k < s.N → (k : α) ≠ 0 := fun k h1 h2 => hchar k h1 (by omega)
  have h0' : (poly s.p).coeff 0 = 1 := by rw [poly_coeff]; exact h0
  obtain ⟨L, eL, hLN, hLl, hL0, hL⟩ := ln_spec thr s s.N (poly s.p) hs.is hN (by rw [h0']; exact one_ne_zero) 0 hchar
  have hm := (C60_add L L).2.2.2 ((a : Int) : α)
  rw [hLN] at hm
  obtain ⟨E, eE, hEN, hEl, hE0, hE⟩ := exp_spec thr _ s.N _ hm hN (by
    rw [Polynomial.coeff_C_mul, poly_coeff, hL0, mul_zero]) hchar
  rw [eL, Option.bind_eq_bind, Option.bind_some]
  refine ⟨E, eE, hEN, hEl, fun i hi => ?_⟩
  rw [← poly_coeff]
  refine ode_unique _ _ _ s.N hc ?_ hE ?_ i hi
  · rw [poly_coeff, hE0, Polynomial.coeff_zero_eq_eval_zero, Polynomial.eval_pow, ← Polynomial.coeff_zero_eq_eval_zero, h0', one_pow]
  · rw [Polynomial.derivative_C_mul]
    cases a with
    | zero => simp; exact Agree.refl _
    | succ a =>
      rw [Polynomial.derivative_pow_succ]
      have e1 : Polynomial.C (((a + 1 : Nat) : Int) : α) = Polynomial.C ((a : α) + 1) := by congr 1; push_cast; ring
      rw [e1]
      have := (hL.symm.mul_left (Polynomial.C ((a : α) + 1) * poly s.p ^ a))
      refine this.trans (Agree.of_eq ?_)
      ring

theorem pow_unit (thr : Nat) (s : Ser α) (hs : Wf s) (hN : 0 < s.N) (h0 : at' s.p 0 ≠ 0) (a : Nat) (t : Int)
    (hchar : ∀ k : Nat, 1 ≤ k → k ≤ s.N → (k : α) ≠ 0) (fuel : Nat) (hf : 2 ≤ fuel) :
    ∃ r, pow thr fuel s a t = some r ∧ Is r s.N (poly s.p ^ a) := by
  obtain ⟨f, rfl⟩ : ∃ f, fuel = f + 1 + 1 := ⟨fuel - 2, by omega⟩
  rw [pow]
  by_cases ht : (a : Int) < t
  · rw [if_pos ht]; exact C60_powT thr s hs hN a
  · rw [if_neg ht, if_neg h0]
    by_cases h1 : at' s.p 0 = 1
    · rw [if_pos h1]; exact pow_one_spec thr s hs hN h1 a hchar
    · rw [if_neg h1]
      obtain ⟨u, eu, hu⟩ := C60_div_scalar s _ h0
      have hu0 : at' u.p 0 = 1 := by
        rw [hu.2.2 0 hN, Polynomial.coeff_C_mul, poly_coeff, inv_mul_cancel₀ h0]
      rw [eu, Option.bind_eq_bind, Option.bind_some]
      have hrec : ∃ v, pow thr (f + 1) u a 200 = some v ∧ Is v s.N (poly u.p ^ a) := by
        rw [pow]
        by_cases h2 : (a : Int) < 200
        · rw [if_pos h2]
          have := C60_powT thr u hu.wf (by rw [hu.1]; exact hN) a
          rw [hu.1] at this; exact this
        · rw [if_neg h2, if_neg (by rw [hu0]; exact one_ne_zero), if_pos hu0]
          have := pow_one_spec thr u hu.wf (by rw [hu.1]; exact hN) hu0 a (by rw [hu.1]; exact hchar)
          rw [hu.1] at this; exact this
      obtain ⟨v, ev, hv⟩ := hrec
      rw [ev, Option.bind_some]
      have hm := (C60_add v v).2.2.2 (Base.powT (at' s.p 0) (a : Int))
      rw [hv.1] at hm
      refine ⟨_, rfl, hm.of_agree ?_⟩
      rw [Base.C04_powT]
      refine ((hv.agree.trans (hu.agree.pow a)).mul_left _).trans (Agree.of_eq ?_)
      rw [mul_pow, ← mul_assoc, Polynomial.C_pow, ← mul_pow, ← Polynomial.C_mul, mul_inv_cancel₀ h0, Polynomial.C_1, one_pow, one_mul]

/-- **C60**: `pow(a, threshold)` is the `a`-th power up to `x^N` for every `a >= 0` and every threshold,
on both sides of it, when `1, ..., N` are invertible and the series is not zero.  A series without
constant coefficient needs room for its lowest term: `lowest * a <= N`. -/
theorem C60_pow (thr : Nat) (s : Ser α) (hs : Wf s) (hN : 0 < s.N) (a : Nat) (t : Int)
    (hchar : ∀ k : Nat, 1 ≤ k → k ≤ s.N → (k : α) ≠ 0)
    (hne : (a : Int) < t ∨ ((∃ i, at' s.p i ≠ 0) ∧ Polynom.lowest s.p * a ≤ s.N ∧ 0 < a)) (fuel : Nat) (hf : 3 ≤ fuel) :
    ∃ r, pow thr fuel s a t = some r ∧ Is r s.N (poly s.p ^ a) := by
  by_cases ht : (a : Int) < t
  · obtain ⟨f, rfl⟩ : ∃ f, fuel = f + 1 := ⟨fuel - 1, by omega⟩
    rw [pow, if_pos ht]; exact C60_powT thr s hs hN a
  by_cases h0 : at' s.p 0 = 0
  · obtain ⟨f, rfl⟩ : ∃ f, fuel = f + 1 := ⟨fuel - 1, by omega⟩
    rcases hne with hne | ⟨hne, hla, ha⟩
    · exact absurd hne ht
    obtain ⟨hl1, hl2⟩ := lowest_spec s.p hne
    rw [pow, if_neg ht, if_pos h0]
    generalize Polynom.lowest s.p = l at *
    have hs' : s.p.length = s.N := hs
    have hlN : l < s.N := by
      by_contra hc
      exact hl1 (at'_ge (by omega))
    obtain ⟨u, eu, huN, huw, hu⟩ := (C60_shift s hs l (by omega)).2
    rw [eu, Option.bind_eq_bind, Option.bind_some]
    obtain ⟨v, ev, hv⟩ := pow_unit thr u huw (by rw [huN]; exact hN) (by rw [hu, zero_add]; exact hl1) a 200
      (by rw [huN]; exact hchar) f (by omega)
    rw [huN] at hv
    rw [ev, Option.bind_some]
    have hvw : Wf v := hv.wf
    obtain ⟨w, ew, hw⟩ := (C60_shift v hvw (l * a) (by rw [hv.1]; exact hla)).1
    rw [hv.1] at hw
    push_cast at ew
    refine ⟨w, ew, hw.of_agree ?_⟩
    have e1 : poly s.p = Polynomial.X ^ l * poly u.p := by
      ext i
      rw [Polynomial.coeff_X_pow_mul', poly_coeff]
      by_cases hi : i < l
      · rw [if_neg (by omega), hl2 i hi]
      · rw [if_pos (by omega), poly_coeff, hu, show i - l + l = i by omega]
    rw [e1, mul_pow, ← pow_mul]
    exact hv.agree.mul_left _
  · exact pow_unit thr s hs hN h0 a t hchar fuel (by omega)

example : pow 2 3 (⟨6, [0, 2, 1, 0, 0, 0]⟩ : Ser ℚ) 3 1 = some ⟨6, [0, 0, 0, 8, 12, 6]⟩ := by decide +kernel
example : (∃ i, at' [(0 : ℚ), 2, 1, 0, 0, 0] i ≠ 0) ∧ Polynom.lowest [(0 : ℚ), 2, 1, 0, 0, 0] * 3 ≤ 6 := ⟨⟨1, by decide⟩, by decide⟩
example : pow 2 3 (⟨4, [2, 3, 0, 0]⟩ : Ser ℚ) 5 2 = some ⟨4, [32, 240, 720, 1080]⟩ := by decide +kernel

/-- **C60** (negative): the zero series makes `pow` recurse forever above the threshold. -/
theorem C60_pow_zero_series (thr N : Nat) (a t : Int) (h1 : t ≤ a) (h2 : 200 ≤ a) :
    ∀ fuel, pow thr fuel (mk [0] N : Ser α) a t = none := by
  have hz : ∀ i, at' (mk [(0 : α)] N).p i = 0 := by
    intro i
    rw [mk, at'_resize]
    cases i with
    | zero => split_ifs <;> rfl
    | succ i => split_ifs with h
                · exact at'_ge (by simp)
                · rfl
  have hlow : Polynom.lowest (mk [(0 : α)] N).p = 0 := by
    rw [Polynom.lowest]
    have : ∀ (k i : Nat), Polynom.lowestLoop (mk [(0 : α)] N).p k i = 0 := by
      intro k
      induction k with
      | zero => intro i; rfl
      | succ k ih => intro i; rw [Polynom.lowestLoop, if_neg (by rw [hz]; simp), ih]
    exact this _ _
  have hm := mk_is [(0 : α)] N
  have hsh : shift (mk [(0 : α)] N) (-((0 : Nat) : Int)) = some (mk [0] N) := by
    obtain ⟨r, er, hrN, hrw, hr⟩ := (C60_shift (mk [(0 : α)] N) hm.wf 0 (Nat.zero_le _)).2
    rw [er]
    congr 1
    refine Is.unique (N := N) (A := poly [0]) ⟨hrN, by rw [hrw, hrN]; rfl, fun i hi => ?_⟩ hm
    rw [hr, add_zero, hm.2.2 i hi]
  intro fuel
  induction fuel generalizing t with
  | zero => rfl
  | succ fuel ih =>
    rw [pow, if_neg (by omega), if_pos (hz 0), hlow, hsh, Option.bind_eq_bind, Option.bind_some, ih 200 h2]
    rfl

/-- **C60** (negative): the power of a series without constant coefficient is undefined above the
threshold when its lowest term leaves the precision. -/
theorem C60_pow_overflow : pow 2 3 (⟨3, [0, 1, 0]⟩ : Ser ℚ) 4 1 = none := by decide +kernel

/-! ### reversion -/

theorem revLoop_spec (thr : Nat) (p : List α) (N : Nat) (hp : p.length = N) : ∀ (fuel k : Nat) (r : Ser α), 2 ≤ k → N - k < fuel →
    r.p.length = min k N → at' r.p 0 = 0 → Agree (min k N) ((poly p).comp (poly r.p)) Polynomial.X → 2 ≤ N →
    ∃ r', revLoop thr p N fuel k r = some r' ∧ r'.p.length = N ∧ at' r'.p 0 = 0 ∧
      Agree N ((poly p).comp (poly r'.p)) Polynomial.X := by
  intro fuel
  induction fuel with
  | zero => intro k r _ h; omega
  | succ fuel ih =>
    intro k r hk hf hrl hr0 hcomp hN
    rw [revLoop]
    by_cases hkN : k < N
    · rw [if_pos hkN]
      simp only
      generalize hm : min N (k * 2) = m
      have hm1 : k ≤ m := by omega
      have hm0 : 0 < m := by omega
      rw [show min k N = k by omega] at hcomp hrl
      have hrk : Is (mk r.p m) m (poly r.p) := mk_is _ _
      have hrkp : poly (mk r.p m).p = poly r.p := by
        ext i
        rw [poly_coeff, poly_coeff, mk, at'_resize]
        split_ifs with h
        · rfl
        · rw [at'_ge (by omega)]
      rw [Polynom.range, if_pos (by omega), Option.bind_eq_bind, Option.bind_some]
      have hpk : Is (mk (p.take m) m) m (poly p) := mk_is' (fun i hi => by
        rw [poly_coeff, Polynom.at'_take, if_pos hi, poly_coeff])
      obtain ⟨Q, eQ, hQ⟩ := C60_composition thr (mk (p.take m) m) (mk r.p m) hpk.wf hrk.wf hm0 rfl
      rw [eQ, Option.bind_eq_bind, Option.bind_some]
      have hQ1 : Is Q m ((poly p).comp (poly r.p)) := by
        refine Is.of_agree hQ ?_
        rw [hrkp]
        exact hpk.agree.comp_left (by rw [poly_coeff]; exact hr0)
      have hQX : Agree k (poly Q.p) Polynomial.X := (hQ1.agree.mono hm1).trans hcomp
      -- the correction
      have hQl : Q.p.length = m := hQ1.2.1
      have h1 : Is (⟨Q.N, put Q.p 1 (at' Q.p 1 - 1)⟩ : Ser α) m (poly Q.p - Polynomial.X) := by
        refine ⟨hQ1.1, by show (put Q.p 1 _).length = m; rw [length_put]; omega, fun i hi => ?_⟩
        show at' (put Q.p 1 _) i = _
        rw [at'_put, Polynomial.coeff_sub, poly_coeff, Polynomial.coeff_X]
        by_cases h : i = 1
        · subst h; rw [if_pos rfl, if_pos rfl]
        · rw [if_neg h, if_neg (by omega), sub_zero]
      have hdr := C60_derivative (mk r.p m)
      rw [hrkp] at hdr
      obtain ⟨x, ex, hx⟩ := mul_is thr hm0 h1 hdr.agree
      have hdQ := C60_derivative Q
      rw [hQ1.1] at hdQ
      obtain ⟨y, V, ey, hV, hy⟩ := div_is thr hm0 hx hdQ (by
        rw [Polynomial.coeff_derivative, hQX 1 (by omega)]; simp)
      rw [ex, Option.bind_some, ey, Option.bind_some]
      obtain ⟨hnew, hy0⟩ := reversion_step (poly p) (poly r.p) (poly Q.p) (poly y.p) V k m (by omega) hm1 (by omega) hcomp
        hQ1.agree hV hy.agree
      have hsub := (C60_add (mk r.p m) y).2.1
      rw [hrkp] at hsub
      have hsub' : Is (sub (mk r.p m) y) m (poly r.p - poly y.p) := hsub
      refine ih (k * 2) (sub (mk r.p m) y) (by omega) (by omega) ?_ ?_ ?_ hN
      · rw [hsub'.2.1]; omega
      · rw [hsub'.2.2 0 hm0, Polynomial.coeff_sub, poly_coeff, hr0, hy0 0 (by omega), Polynomial.coeff_zero, sub_zero]
      · rw [show min (k * 2) N = m by omega]
        exact (hsub'.agree.comp_right (poly p)).trans hnew
    · rw [if_neg hkN]
      rw [show min k N = N by omega] at hcomp hrl
      exact ⟨r, rfl, hrl, hr0, hcomp⟩

/-- **C60**: `reversion` is the compositional inverse: `s(r(x)) = x` up to `x^N`, for a series
`s = s1 x + ...` with `s1` non-zero. -/
theorem C60_reversion (thr : Nat) (s : Ser α) (hs : Wf s) (h0 : at' s.p 0 = 0) (h1 : at' s.p 1 ≠ 0) :
    ∃ r, reversion thr s = some r ∧ r.N = s.N ∧ Wf r ∧ at' r.p 0 = 0 ∧
      Agree s.N ((poly s.p).comp (poly r.p)) Polynomial.X := by
  have hs' : s.p.length = s.N := hs
  have hN : 2 ≤ s.N := by
    by_contra hc
    exact h1 (at'_ge (by omega))
  rw [reversion, if_neg (by simpa using h0), if_neg h1, cdiv, if_neg h1, Option.bind_eq_bind, Option.bind_some]
  have hq : (Quo.quo 1 (at' s.p 1) : α) = (at' s.p 1)⁻¹ := one_div _
  rw [hq]
  have hpoly : poly (mk [0, (at' s.p 1)⁻¹] 2).p = Polynomial.C (at' s.p 1)⁻¹ * Polynomial.X := by
    ext i
    rw [poly_coeff, Polynomial.coeff_C_mul, Polynomial.coeff_X]
    rcases i with _ | _ | i
    · simp [mk, Polynom.resize, at']
    · simp [mk, Polynom.resize, at']
    · rw [at'_ge (by simp [mk, length_resize]), if_neg (by omega), mul_zero]
  obtain ⟨r, er, hrl, hr0, hr⟩ := revLoop_spec thr s.p s.N hs (s.N + 1) 2 (mk [0, (at' s.p 1)⁻¹] 2) (le_refl 2) (by omega)
    (by simp [mk, length_resize]; omega) (by simp [mk, Polynom.resize, at']) (by
      rw [show min 2 s.N = 2 by omega, hpoly]
      intro i hi
      rw [Polynomial.comp_C_mul_X_coeff, poly_coeff, Polynomial.coeff_X]
      rcases i with _ | _ | i
      · rw [h0]; simp
      · rw [zero_add, pow_one, mul_inv_cancel₀ h1, if_pos rfl]
      · omega) hN
  rw [er, Option.bind_eq_bind, Option.bind_some]
  have hm := mk_is r.p s.N
  refine ⟨_, rfl, rfl, hm.wf, ?_, ?_⟩
  · rw [hm.2.2 0 (by omega), poly_coeff, hr0]
  · exact (hm.agree.comp_right _).trans hr

/-- **C60**: the compositional inverse is two-sided: also `r(s(x)) = x` up to `x^N`. -/
theorem C60_reversion_left (thr : Nat) (s : Ser α) (hs : Wf s) (h0 : at' s.p 0 = 0) (h1 : at' s.p 1 ≠ 0) :
    ∃ r, reversion thr s = some r ∧ Agree s.N ((poly r.p).comp (poly s.p)) Polynomial.X := by
  have hs' : s.p.length = s.N := hs
  have hN : 2 ≤ s.N := by
    by_contra hc
    exact h1 (at'_ge (by omega))
  obtain ⟨r, er, hrN, hrw, hr0, hr⟩ := C60_reversion thr s hs h0 h1
  refine ⟨r, er, ?_⟩
  have hr1 : at' r.p 1 ≠ 0 := by
    intro h
    have hd := (hr.mono hN).derivative.coeff_zero (by omega)
    rw [Polynomial.derivative_comp, Polynomial.mul_coeff_zero, Polynomial.derivative_X, Polynomial.coeff_one_zero,
      Polynomial.coeff_derivative, zero_add, poly_coeff, h, zero_mul, zero_mul] at hd
    exact zero_ne_one hd
  obtain ⟨t, _, htN, htw, ht0, ht⟩ := C60_reversion thr r hrw hr0 hr1
  rw [hrN] at ht
  -- `s = s(r(t)) = t`
  have hst : Agree s.N (poly s.p) (poly t.p) := by
    have a1 := ht.comp_right (poly s.p)
    rw [Polynomial.comp_X] at a1
    have a2 := hr.comp_left (D := poly t.p) (by rw [poly_coeff]; exact ht0)
    rw [Polynomial.X_comp, Polynomial.comp_assoc] at a2
    exact a1.symm.trans a2
  exact (hst.comp_right (poly r.p)).trans ht

/-- **C60**: a series that has no compositional inverse gives zero. -/
theorem C60_reversion_none (thr : Nat) (s : Ser α) (h : at' s.p 0 ≠ 0 ∨ at' s.p 1 = 0) :
    reversion thr s = some (mk [0] s.N) := by
  rw [reversion]
  by_cases h0 : at' s.p 0 = 0
  · rw [if_neg (by simpa using h0), if_pos (by tauto)]
  · rw [if_pos h0]

example : reversion 2 (⟨5, [0, 1, -1, 0, 0]⟩ : Ser ℚ) = some ⟨5, [0, 1, 1, 2, 5]⟩ := by decide +kernel

/-! ### exponential generating functions -/

theorem factLoop_spec : ∀ (n i : Nat), 1 ≤ i → factLoop n i (((i - 1).factorial : Nat) : α) = (((i - 1 + n).factorial : Nat) : α) := by
  intro n
  induction n with
  | zero => intro i _; rfl
  | succ n ih =>
    intro i hi
    have e : (((i - 1).factorial : Nat) : α) * (i : α) = ((i.factorial : Nat) : α) := by
      rw [← Nat.cast_mul, mul_comm, Nat.mul_factorial_pred (by omega)]
    have := ih (i + 1) (by omega)
    rw [show i + 1 - 1 = i by omega] at this
    rw [factLoop, e, this, show i + n = i - 1 + (n + 1) by omega]

theorem egfLoop_spec : ∀ (n : Nat) (s : List α), n < s.length → ((n.factorial : Nat) : α) ≠ 0 →
    (egfLoop n (((n.factorial : Nat) : α)⁻¹) s).length = s.length ∧
    ∀ j, at' (egfLoop n (((n.factorial : Nat) : α)⁻¹) s) j =
      if 1 ≤ j ∧ j ≤ n then at' s j * (((j.factorial : Nat) : α)⁻¹) else at' s j := by
  intro n
  induction n with
  | zero => intro s _ _; exact ⟨rfl, fun j => by rw [if_neg (by omega)]; rfl⟩
  | succ n ih =>
    intro s h hne
    rw [Nat.factorial_succ, Nat.cast_mul] at hne
    have h1 : ((n + 1 : Nat) : α) ≠ 0 := left_ne_zero_of_mul hne
    have h2 : ((n.factorial : Nat) : α) ≠ 0 := right_ne_zero_of_mul hne
    have e : (((n + 1).factorial : Nat) : α)⁻¹ * ((n + 1 : Nat) : α) = ((n.factorial : Nat) : α)⁻¹ := by
      rw [Nat.factorial_succ, Nat.cast_mul, mul_inv, mul_comm, ← mul_assoc, mul_inv_cancel₀ h1, one_mul]
    obtain ⟨g1, g2⟩ := ih (put s (n + 1) (at' s (n + 1) * (((n + 1).factorial : Nat) : α)⁻¹)) (by rw [length_put]; omega) h2
    rw [egfLoop, e]
    refine ⟨by rw [g1, length_put]; omega, fun j => ?_⟩
    rw [g2, at'_put]
    by_cases hj : j = n + 1
    · subst hj; rw [if_neg (by omega), if_pos rfl, if_pos (by omega)]
    · rw [if_neg hj]
      by_cases h3 : 1 ≤ j ∧ j ≤ n
      · rw [if_pos h3, if_pos (by omega)]
      · rw [if_neg h3, if_neg (by omega)]

/-- **C60**: `make_exponential` divides the coefficient of `x^n` by `n!`. -/
theorem C60_make_exponential (s : Ser α) (hs : Wf s) (hN : 0 < s.N) (hfac : (((s.N - 1).factorial : Nat) : α) ≠ 0) :
    ∃ r, makeExponential s = some r ∧ r.N = s.N ∧ Wf r ∧
      ∀ i, i < s.N → at' r.p i = at' s.p i / ((i.factorial : Nat) : α) := by
  have hs' : s.p.length = s.N := hs
  have hf := factLoop_spec (α := α) (s.N - 1) 1 (le_refl 1)
  simp only [le_refl, tsub_eq_zero_of_le, Nat.factorial_zero, Nat.cast_one, zero_add] at hf
  rw [makeExponential]
  simp only [hf]
  rw [cdiv, if_neg hfac, Option.bind_eq_bind, Option.bind_some]
  have hq : (Quo.quo 1 (((s.N - 1).factorial : Nat) : α) : α) = (((s.N - 1).factorial : Nat) : α)⁻¹ := one_div _
  rw [hq]
  obtain ⟨g1, g2⟩ := egfLoop_spec (s.N - 1) s.p (by omega) hfac
  refine ⟨_, rfl, rfl, g1.trans hs, fun i hi => ?_⟩
  show at' (egfLoop _ _ _) i = _
  rw [g2]
  by_cases h : i = 0
  · subst h; rw [if_neg (by omega)]; simp
  · rw [if_pos (by omega), div_eq_mul_inv]

/-- **C60**: `make_ordinary` undoes `make_exponential`. -/
theorem C60_egf_round_trip (s : Ser α) (hs : Wf s) (hN : 0 < s.N) (hfac : (((s.N - 1).factorial : Nat) : α) ≠ 0) :
    (makeExponential s).map makeOrdinary = some s := by
  obtain ⟨r, e, hrN, hrw, hr⟩ := C60_make_exponential s hs hN hfac
  obtain ⟨h1, h2, h3⟩ := C60_make_ordinary r hrw
  rw [e, Option.map_some]
  congr 1
  refine Is.unique (N := s.N) (A := poly s.p) ⟨h1.trans hrN, by rw [h2, h1, hrN], fun i hi => ?_⟩ hs.is
  have hi0 : ((i.factorial : Nat) : α) ≠ 0 := by
    intro h
    apply hfac
    obtain ⟨q, hq⟩ := Nat.factorial_dvd_factorial (show i ≤ s.N - 1 by omega)
    rw [hq, Nat.cast_mul, h, zero_mul]
  rw [h3 i (by omega), hr i hi, div_mul_cancel₀ _ hi0, poly_coeff]

theorem geoLoop_spec (a : α) : ∀ (n i : Nat) (s : List α), i + n ≤ s.length → 1 ≤ i → at' s (i - 1) = a ^ (i - 1) →
    (geoLoop a n i s).length = s.length ∧
    ∀ j, at' (geoLoop a n i s) j = if i ≤ j ∧ j < i + n then a ^ j else at' s j := by
  intro n
  induction n with
  | zero => intro i s _ _ _; exact ⟨rfl, fun j => by rw [if_neg (by omega)]; rfl⟩
  | succ n ih =>
    intro i s h hi hprev
    have e : at' s (i - 1) * a = a ^ i := by rw [hprev, ← pow_succ, show i - 1 + 1 = i by omega]
    obtain ⟨h1, h2⟩ := ih (i + 1) (put s i (a ^ i)) (by rw [length_put]; omega) (by omega) (by
      rw [at'_put, if_pos (by omega), show i + 1 - 1 = i by omega])
    rw [geoLoop, e]
    refine ⟨by rw [h1, length_put]; omega, fun j => ?_⟩
    rw [h2, at'_put]
    by_cases hj : j = i
    · subst hj; rw [if_neg (by omega), if_pos rfl, if_pos (by omega)]
    · rw [if_neg hj]
      by_cases h3 : i + 1 ≤ j ∧ j < i + 1 + n
      · rw [if_pos h3, if_pos (by omega)]
      · rw [if_neg h3, if_neg (by omega)]

/-- **C60**: the static `exp(a, N)` is `exp(a x)`. -/
theorem C60_exp_of (a : α) (N : Nat) (hN : 0 < N) (hfac : (((N - 1).factorial : Nat) : α) ≠ 0) :
    ∃ r, expOf a N = some r ∧ r.N = N ∧ Wf r ∧ ∀ i, i < N → at' r.p i = a ^ i / ((i.factorial : Nat) : α) := by
  have hm := mk_is [(1 : α)] N
  obtain ⟨h1, h2⟩ := geoLoop_spec a (N - 1) 1 (mk [1] N).p (by rw [hm.2.1]; omega) (le_refl 1) (by
    rw [hm.2.2 _ (by omega), poly_coeff]; simp [at'])
  obtain ⟨r, e, hrN, hrw, hr⟩ := C60_make_exponential (⟨N, geoLoop a (N - 1) 1 (mk [1] N).p⟩ : Ser α)
    (h1.trans hm.2.1) hN hfac
  refine ⟨r, e, hrN, hrw, fun i hi => ?_⟩
  rw [hr i hi]
  congr 1
  show at' (geoLoop _ _ _ _) i = _
  rw [h2]
  by_cases h : i = 0
  · subst h; rw [if_neg (by omega), hm.2.2 0 hN, poly_coeff, pow_zero]; rfl
  · rw [if_pos (by omega)]

example : expOf (2 : ℚ) 4 = some ⟨4, [1, 2, 2, 4/3]⟩ := by decide +kernel

/-! ### pointwise inverse and quotient -/

/-- **C60**: `pointwise_inv` and `pointwise_div` invert and divide coefficient by coefficient; with
`IS_FIELD` no coefficient may be zero. -/
theorem C60_pointwise_div (isField : Bool) (s t : Ser α) (hs : Wf s) (ht : Wf t) (h : t.N = s.N)
    (hne : isField = true → ∀ x ∈ t.p, x ≠ 0) :
    ∃ i r, pointwiseInv isField t = some i ∧ i.N = t.N ∧ Wf i ∧ (∀ j, at' i.p j = (at' t.p j)⁻¹) ∧
      pointwiseDiv isField s t = some r ∧ r.N = s.N ∧ Wf r ∧ ∀ j, j < s.N → at' r.p j = at' s.p j / at' t.p j := by
  have hinv : pointwiseInv isField t = some ⟨t.N, t.p.map (fun x => x⁻¹)⟩ := by
    rw [pointwiseInv]
    cases isField with
    | true => rw [if_pos rfl, Ranges.C61_invert_field _ (hne rfl)]; rfl
    | false => rw [if_neg (by simp), Ranges.C61_invert]
  have hat : ∀ j, at' (t.p.map (fun x => x⁻¹)) j = (at' t.p j)⁻¹ := by
    intro j
    rw [at', at', List.getD_eq_getElem?_getD, List.getD_eq_getElem?_getD, List.getElem?_map]
    cases t.p[j]? with
    | none => simp
    | some x => simp
  obtain ⟨h1, h2, h3⟩ := C60_pointwise_mul s ⟨t.N, t.p.map (fun x => x⁻¹)⟩ hs
  refine ⟨_, _, hinv, rfl, ?_, hat, by rw [pointwiseDiv, hinv]; rfl, h1, h2, fun j hj => ?_⟩
  · show (t.p.map _).length = t.N; rw [List.length_map]; exact ht
  · rw [h3 j hj, hat, div_eq_mul_inv]

/-! ### roots of power series equations -/

theorem rootLoop_spec (F : Polynomial (Polynomial α)) (div : Ser α → Option (Ser α)) (R0 : α) (N : Nat)
    (hd0 : (F.derivative.eval (Polynomial.C R0)).coeff 0 ≠ 0)
    (hF : ∀ R : Ser α, Wf R → 0 < R.N → at' R.p 0 = R0 →
      ∃ d, div R = some d ∧ Agree R.N (poly d.p * F.derivative.eval (poly R.p)) (F.eval (poly R.p))) :
    ∀ (fuel : Nat) (R : Ser α), Wf R → 0 < R.N → R.N ≤ N → at' R.p 0 = R0 → N - R.N < fuel → Agree R.N (F.eval (poly R.p)) 0 →
      ∃ R', rootLoop div N fuel R = some R' ∧ R'.N = N ∧ Wf R' ∧ at' R'.p 0 = R0 ∧ Agree N (F.eval (poly R'.p)) 0 := by
  intro fuel
  induction fuel with
  | zero => intro R _ _ _ _ h; omega
  | succ fuel ih =>
    intro R hw hpos hle h0 hf hroot
    rw [rootLoop]
    by_cases hlt : R.N < N
    · rw [if_pos hlt]
      simp only
      generalize hm : min (R.N * 2) N = m
      have hw' : R.p.length = R.N := hw
      have hres : Is (R.resize m) m (poly R.p) := mk_is R.p m
      have hresp : poly (R.resize m).p = poly R.p := by
        ext i
        rw [poly_coeff, poly_coeff, Ser.resize, at'_resize]
        split_ifs with h
        · rfl
        · rw [at'_ge (by omega)]
      have hres0 : at' (R.resize m).p 0 = R0 := by rw [hres.2.2 0 (by omega), poly_coeff, h0]
      obtain ⟨d, ed, hd⟩ := hF (R.resize m) hres.wf (by rw [hres.1]; omega) hres0
      rw [ed, Option.bind_eq_bind, Option.bind_some]
      rw [hresp, hres.1] at hd
      have hR0 : Agree 1 (poly R.p) (Polynomial.C R0) := by
        intro i hi
        have : i = 0 := by omega
        subst this
        rw [poly_coeff, h0, Polynomial.coeff_C_zero]
      have hdc : (F.derivative.eval (poly R.p)).coeff 0 ≠ 0 := by
        have : Agree 1 (F.derivative.eval (poly R.p)) (F.derivative.eval (Polynomial.C R0)) := by
          rw [agree_iff] at hR0 ⊢
          exact hR0.trans (Polynomial.sub_dvd_eval_sub _ _ _)
        rw [this.coeff_zero (by omega)]
        exact hd0
      obtain ⟨V, hV⟩ := exists_inv _ hdc R.N
      obtain ⟨hnew, hy0⟩ := newton_step F (poly R.p) (poly d.p) V R.N m (by omega) hroot (by omega) hV hd
      have hsub : Is (sub (R.resize m) d) m (poly R.p - poly d.p) := by
        have := (C60_add (R.resize m) d).2.1
        rw [hresp, hres.1] at this
        exact this
      refine ih _ hsub.wf (by rw [hsub.1]; omega) (by rw [hsub.1]; omega) ?_ (by rw [hsub.1]; omega) ?_
      · rw [hsub.2.2 0 (by omega), Polynomial.coeff_sub, poly_coeff, h0, hy0 0 hpos, Polynomial.coeff_zero, sub_zero]
      · rw [hsub.1]
        refine Agree.trans ?_ hnew
        have := hsub.agree
        rw [agree_iff] at this ⊢
        exact this.trans (Polynomial.sub_dvd_eval_sub _ _ _)
    · rw [if_neg hlt]
      have : R.N = N := by omega
      rw [this] at hroot
      exact ⟨R, rfl, this, hw, h0, hroot⟩

/-- **C60**: `find_root` solves `F(R) = 0` up to `x^N` for any polynomial `F` over the series, from a
simple root `R0` modulo `x`, if the callback computes `F(R) / F'(R)` up to the precision of `R`. -/
theorem C60_find_root (F : Polynomial (Polynomial α)) (div : Ser α → Option (Ser α)) (R0 : α) (N : Nat) (hN : 0 < N)
    (h0 : (F.eval (Polynomial.C R0)).coeff 0 = 0)
    (hd0 : (F.derivative.eval (Polynomial.C R0)).coeff 0 ≠ 0)
    (hF : ∀ R : Ser α, Wf R → 0 < R.N → at' R.p 0 = R0 →
      ∃ d, div R = some d ∧ Agree R.N (poly d.p * F.derivative.eval (poly R.p)) (F.eval (poly R.p))) :
    ∃ R, findRoot div R0 N = some R ∧ R.N = N ∧ Wf R ∧ at' R.p 0 = R0 ∧ Agree N (F.eval (poly R.p)) 0 := by
  have hm := mk_is [R0] 1
  have hmp : poly (mk [R0] 1).p = Polynomial.C R0 := by
    ext i
    rw [poly_coeff, Polynomial.coeff_C]
    cases i with
    | zero => simp [mk, Polynom.resize, at']
    | succ i => rw [at'_ge (by rw [hm.2.1]; omega), if_neg (by omega)]
  obtain ⟨R, eR, hRN, hRw, hR0, hR⟩ := rootLoop_spec F div R0 N hd0 hF (N + 1) (mk [R0] 1) hm.wf Nat.one_pos hN
    (by rw [hm.2.2 0 (by omega), poly_coeff]; rfl) (by have : (mk [R0] 1).N = 1 := rfl; omega) (by
      rw [hmp]
      intro i hi
      have : i = 0 := by have : (mk [R0] 1).N = 1 := rfl; omega
      subst this
      rw [h0, Polynomial.coeff_zero])
  rw [findRoot, eR, Option.bind_eq_bind, Option.bind_some]
  have hm2 : Is (mk R.p N) N (poly R.p) := mk_is R.p N
  refine ⟨_, rfl, rfl, hm2.wf, ?_, ?_⟩
  · rw [hm2.2.2 0 hN, poly_coeff, hR0]
  · refine Agree.trans ?_ hR
    have := hm2.agree
    rw [agree_iff] at this ⊢
    exact this.trans (Polynomial.sub_dvd_eval_sub _ _ _)

/-- A case of `find_root`: the square root, with the callback `(R^2 - s) / (2 R)` written with the
operations of the class. -/
def sqrtStep (thr : Nat) (s R : Ser α) : Option (Ser α) := do
  let q ← mul thr R R
  div thr (sub q s) (mulScalar R 2)

/-- **C60**: `find_root` with that callback computes square roots of series (so its hypotheses can be
met by code that uses the class itself). -/
theorem C60_find_root_sqrt (thr : Nat) (s : Ser α) (R0 : α) (hN : 0 < s.N) (h2 : (2 : α) ≠ 0)
    (h0 : R0 ≠ 0) (hR : R0 * R0 = at' s.p 0) :
    ∃ R, findRoot (sqrtStep thr s) R0 s.N = some R ∧ R.N = s.N ∧ Wf R ∧ at' R.p 0 = R0 ∧
      Agree s.N (poly R.p * poly R.p) (poly s.p) := by
  have hev : ∀ A : Polynomial α, (Polynomial.X ^ 2 - Polynomial.C (poly s.p) : Polynomial (Polynomial α)).eval A = A * A - poly s.p := by
    intro A; simp [pow_two]
  have hevd : ∀ A : Polynomial α, (Polynomial.X ^ 2 - Polynomial.C (poly s.p) : Polynomial (Polynomial α)).derivative.eval A =
      Polynomial.C 2 * A := by
    intro A
    rw [Polynomial.derivative_sub, Polynomial.derivative_C, sub_zero, Polynomial.derivative_X_pow]
    simp
    left; exact (map_ofNat Polynomial.C 2).symm
  obtain ⟨R, e, hRN, hRw, hR0, hroot⟩ := C60_find_root (Polynomial.X ^ 2 - Polynomial.C (poly s.p)) (sqrtStep thr s) R0 s.N hN
    (by rw [hev, Polynomial.coeff_sub, Polynomial.mul_coeff_zero, Polynomial.coeff_C_zero, poly_coeff, hR, sub_self])
    (by rw [hevd, Polynomial.coeff_C_mul, Polynomial.coeff_C_zero]; exact mul_ne_zero h2 h0)
    (by
      intro R hw hpos hR0
      obtain ⟨q, eq, hq⟩ := (C60_mul thr R R hpos).1
      have hsub := (C60_add q s).2.1
      have hsc := (C60_add R R).2.2.2 2
      rw [hq.1] at hsub
      obtain ⟨t, V, et, hV, ht⟩ := div_is thr hpos hsub hsc (by
        rw [Polynomial.coeff_C_mul, poly_coeff, hR0]; exact mul_ne_zero h2 h0)
      refine ⟨t, by rw [sqrtStep, eq]; exact et, ?_⟩
      rw [hev, hevd]
      refine (ht.agree.mul_right _).trans ?_
      have h1 := hV.mul_left (poly q.p - poly s.p)
      rw [mul_one] at h1
      refine (Agree.of_eq ?_).trans (h1.trans (hq.agree.sub (Agree.refl _)))
      ring)
  refine ⟨R, e, hRN, hRw, hR0, ?_⟩
  rw [hev] at hroot
  have := hroot.add (Agree.refl (poly s.p))
  rwa [sub_add_cancel, zero_add] at this

example : findRoot (sqrtStep 2 ⟨5, [1, 2, 3, 4, 5]⟩) (1 : ℚ) 5 = some ⟨5, [1, 1, 1, 1, 1]⟩ := by decide +kernel

end Field

end Altruct.Series
