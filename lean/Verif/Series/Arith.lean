/-
C60: arithmetic of truncated power series (`series.h`): ring operations, shifts, substitutions,
powers and composition.
-/
import Verif.Series.Model
import Verif.Series.Cong
import Verif.Polynom.DivProps
import Verif.Base.Props
import Mathlib.Algebra.BigOperators.Intervals
import Mathlib.Algebra.Polynomial.Expand

set_option linter.unusedSectionVars false

namespace Altruct.Series

open Altruct.Polynom (at' put poly poly_coeff at'_ge at'_resize at'_put length_resize length_put rd_at wr_eq)

/-- `s` is `A` truncated to its first `N` coefficients. -/
def Is {α : Type} [CommRing α] (s : Ser α) (N : Nat) (A : Polynomial α) : Prop :=
  s.N = N ∧ s.p.length = N ∧ ∀ i, i < N → at' s.p i = A.coeff i

/-- A series holds exactly as many coefficients as its precision says. -/
def Wf {α : Type} (s : Ser α) : Prop := s.p.length = s.N

section Ring
variable {α : Type} [CommRing α] [DecidableEq α]

theorem Is.agree {s : Ser α} {N : Nat} {A : Polynomial α} (h : Is s N A) : Agree N (poly s.p) A :=
  fun i hi => by rw [poly_coeff]; exact h.2.2 i hi

theorem Is.of_agree {s : Ser α} {N : Nat} {A B : Polynomial α} (h : Is s N A) (hab : Agree N A B) : Is s N B :=
  ⟨h.1, h.2.1, fun i hi => (h.2.2 i hi).trans (hab i hi)⟩

theorem Is.wf {s : Ser α} {N : Nat} {A : Polynomial α} (h : Is s N A) : Wf s := by rw [Wf, h.1, h.2.1]

theorem Wf.is {s : Ser α} (h : Wf s) : Is s s.N (poly s.p) := ⟨rfl, h, fun i _ => (poly_coeff _ _).symm⟩

theorem mk_is (p : List α) (N : Nat) : Is (mk p N) N (poly p) :=
  ⟨rfl, length_resize _ _, fun i hi => by rw [mk, at'_resize, if_pos hi, poly_coeff]⟩

theorem mk_is' {p : List α} {N : Nat} {A : Polynomial α} (h : Agree N (poly p) A) : Is (mk p N) N A := (mk_is p N).of_agree h

/-- Two truncations of the same polynomial are the same series. -/
theorem Is.unique {s t : Ser α} {N : Nat} {A : Polynomial α} (h : Is s N A) (h' : Is t N A) : s = t := by
  obtain ⟨n, p⟩ := s
  obtain ⟨n', p'⟩ := t
  obtain ⟨h1, h2, h3⟩ := h
  obtain ⟨g1, g2, g3⟩ := h'
  simp only at *
  subst h1; subst g1
  congr 1
  apply List.ext_getElem?
  intro i
  by_cases hi : i < n'
  · have := (h3 i hi).trans (g3 i hi).symm
    rw [at', at', List.getD_eq_getElem?_getD, List.getD_eq_getElem?_getD, List.getElem?_eq_getElem (by omega),
      List.getElem?_eq_getElem (by omega), Option.getD_some, Option.getD_some] at this
    rw [List.getElem?_eq_getElem (by omega), List.getElem?_eq_getElem (by omega), this]
  · rw [List.getElem?_eq_none (by omega), List.getElem?_eq_none (by omega)]

/-! ### ring operations -/

/-- **C60**: sums, differences, negation and scalar multiples are those of power series up to
`x^N`, `N` being the precision of the left operand. -/
theorem C60_add (s t : Ser α) : Is (add s t) s.N (poly s.p + poly t.p) ∧ Is (sub s t) s.N (poly s.p - poly t.p) ∧
    Is (neg s) s.N (- poly s.p) ∧ ∀ v, Is (mulScalar s v) s.N (Polynomial.C v * poly s.p) := by
  refine ⟨mk_is' (Agree.of_eq ?_), mk_is' (Agree.of_eq ?_), mk_is' (Agree.of_eq ?_), fun v => mk_is' (Agree.of_eq ?_)⟩
  · exact (Polynom.C37_add s.p none (some t.p)).2.1
  · exact (Polynom.C37_add s.p none (some t.p)).2.2
  · exact (Polynom.C37_add s.p none none).1
  · exact Polynom.C37_mul_scalar s.p none v

/-- **C60**: the product is that of power series up to `x^N`. -/
theorem C60_mul (thr : Nat) (s t : Ser α) (hN : 0 < s.N) :
    (∃ r, mul thr s t = some r ∧ Is r s.N (poly s.p * poly t.p)) ∧
    (∃ r, sqr thr s = some r ∧ Is r s.N (poly s.p * poly s.p)) := by
  constructor
  · obtain ⟨r, e, hl, ha⟩ := Polynom.C37_mul thr s.p none (some t.p) (last s.N)
    rw [last, if_neg (by omega), Option.getD_some] at hl
    refine ⟨⟨s.N, r⟩, by rw [mul, e]; rfl, rfl, by show r.length = _; omega, fun i hi => ha i (by omega)⟩
  · obtain ⟨r, e, hl, ha⟩ := Polynom.C37_mul thr s.p none none (last s.N)
    rw [last, if_neg (by omega), Option.getD_some] at hl
    refine ⟨⟨s.N, r⟩, by rw [sqr, e]; rfl, rfl, by show r.length = _; omega, fun i hi => ha i (by omega)⟩

theorem mul_is (thr : Nat) {s t : Ser α} {N : Nat} {A B : Polynomial α} (hN : 0 < N) (hs : Is s N A)
    (ht : Agree N (poly t.p) B) : ∃ r, mul thr s t = some r ∧ Is r N (A * B) := by
  obtain ⟨r, e, h⟩ := (C60_mul thr s t (by rw [hs.1]; exact hN)).1
  rw [hs.1] at h
  exact ⟨r, e, h.of_agree (hs.agree.mul ht)⟩

theorem sqr_is (thr : Nat) {s : Ser α} {N : Nat} {A : Polynomial α} (hN : 0 < N) (hs : Is s N A) :
    ∃ r, sqr thr s = some r ∧ Is r N (A * A) := by
  obtain ⟨r, e, h⟩ := (C60_mul thr s s (by rw [hs.1]; exact hN)).2
  rw [hs.1] at h
  exact ⟨r, e, h.of_agree (hs.agree.mul hs.agree)⟩

example : mul 2 (⟨4, [1, 2, 3, 4]⟩ : Ser Int) ⟨4, [1, 1, 1, 1]⟩ = some ⟨4, [1, 3, 6, 10]⟩ := by decide +kernel

/-- **C60** (negative): with precision 0 the product keeps a coefficient. -/
theorem C60_mul_zero_precision : mul 2 (⟨0, []⟩ : Ser Int) ⟨0, []⟩ = some ⟨0, [0]⟩ := by decide +kernel

/-! ### coefficient-wise operations -/

theorem pwLoop_spec (r : List α) : ∀ (n i : Nat) (s : List α), i + n ≤ s.length →
    (pwLoop r n i s).length = s.length ∧
    ∀ j, at' (pwLoop r n i s) j = if i ≤ j ∧ j < i + n then at' s j * at' r j else at' s j := by
  intro n
  induction n with
  | zero => intro i s _; exact ⟨rfl, fun j => by rw [if_neg (by omega)]; rfl⟩
  | succ n ih =>
    intro i s h
    obtain ⟨h1, h2⟩ := ih (i + 1) (put s i (at' s i * at' r i)) (by rw [length_put]; omega)
    refine ⟨by rw [pwLoop, h1, length_put]; omega, fun j => ?_⟩
    rw [pwLoop, h2, at'_put]
    by_cases hj : j = i
    · subst hj; rw [if_neg (by omega), if_pos rfl, if_pos (by omega)]
    · rw [if_neg hj]
      by_cases h3 : i + 1 ≤ j ∧ j < i + 1 + n
      · rw [if_pos h3, if_pos (by omega)]
      · rw [if_neg h3, if_neg (by omega)]

/-- **C60**: `pointwise_mul` multiplies coefficient by coefficient. -/
theorem C60_pointwise_mul (s t : Ser α) (hs : Wf s) :
    (pointwiseMul s t).N = s.N ∧ Wf (pointwiseMul s t) ∧
    ∀ i, i < s.N → at' (pointwiseMul s t).p i = at' s.p i * at' t.p i := by
  obtain ⟨h1, h2⟩ := pwLoop_spec t.p s.N 0 s.p (by rw [hs]; omega)
  exact ⟨rfl, h1.trans hs, fun i hi => by rw [pointwiseMul, h2, if_pos (by omega)]⟩

theorem subMulLoop_spec (a : α) : ∀ (n i : Nat) (s : List α), i + n ≤ s.length → 1 ≤ i →
    (subMulLoop a n i (a ^ (i - 1)) s).length = s.length ∧
    ∀ j, at' (subMulLoop a n i (a ^ (i - 1)) s) j = if i ≤ j ∧ j < i + n then at' s j * a ^ j else at' s j := by
  intro n
  induction n with
  | zero => intro i s _ _; exact ⟨rfl, fun j => by rw [if_neg (by omega)]; rfl⟩
  | succ n ih =>
    intro i s h hi
    have e : a ^ (i - 1) * a = a ^ i := by rw [← pow_succ, show i - 1 + 1 = i by omega]
    obtain ⟨h1, h2⟩ := ih (i + 1) (put s i (at' s i * a ^ i)) (by rw [length_put]; omega) (by omega)
    rw [show i + 1 - 1 = i by omega] at h1 h2
    refine ⟨by rw [subMulLoop, e, h1, length_put]; omega, fun j => ?_⟩
    rw [subMulLoop, e, h2, at'_put]
    by_cases hj : j = i
    · subst hj; rw [if_neg (by omega), if_pos rfl, if_pos (by omega)]
    · rw [if_neg hj]
      by_cases h3 : i + 1 ≤ j ∧ j < i + 1 + n
      · rw [if_pos h3, if_pos (by omega)]
      · rw [if_neg h3, if_neg (by omega)]

/-- **C60**: `sub_mul(a)` is `s(a x)`. -/
theorem C60_sub_mul (s : Ser α) (hs : Wf s) (a : α) :
    Is (subMul s a) s.N ((poly s.p).comp (Polynomial.C a * Polynomial.X)) := by
  rw [subMul]
  have e0 : (1 : α) = a ^ (1 - 1) := by simp
  by_cases hN : s.N = 0
  · refine ⟨rfl, ?_, fun i hi => by omega⟩
    rw [hN]
    have := hs; rw [Wf, hN] at this
    exact this
  have := subMulLoop_spec a (s.N - 1) 1 s.p (by rw [hs]; omega) (le_refl 1)
  rw [← e0] at this
  refine ⟨rfl, this.1.trans hs, fun i hi => ?_⟩
  rw [this.2, Polynomial.comp_C_mul_X_coeff, poly_coeff]
  by_cases h : i = 0
  · subst h; rw [if_neg (by omega), pow_zero, mul_one]
  · rw [if_pos (by omega)]

theorem subPowLoop_spec (p : List α) (a N : Nat) (ha : 0 < a) : ∀ (fuel j : Nat) (s : List α),
    N - j * a < fuel → s.length = N → (∀ i, i < N → at' s i = if a ∣ i ∧ i / a < j then at' p (i / a) else 0) →
    ∃ r, subPowLoop p a N fuel (j * a) j s = some r ∧ r.length = N ∧
      ∀ i, i < N → at' r i = if a ∣ i then at' p (i / a) else 0 := by
  intro fuel
  induction fuel with
  | zero =>
    intro j s h hl hs
    omega
  | succ fuel ih =>
    intro j s h hl hs
    rw [subPowLoop]
    by_cases hj : j * a < N
    · rw [if_pos hj]
      have hnext := ih (j + 1) (put s (j * a) (at' p j)) (by
        have : (j + 1) * a = j * a + a := by ring
        omega) (by rw [length_put]; omega) (by
        intro i hi
        rw [at'_put]
        by_cases h1 : i = j * a
        · rw [if_pos h1, h1, Nat.mul_div_cancel _ ha, if_pos ⟨Dvd.intro_left j rfl, by omega⟩]
        · rw [if_neg h1, hs i hi]
          by_cases h2 : a ∣ i
          · have h3 : i / a ≠ j := fun h3 => h1 (by rw [← h3, Nat.div_mul_cancel h2])
            by_cases h4 : i / a < j
            · rw [if_pos ⟨h2, h4⟩, if_pos ⟨h2, by omega⟩]
            · rw [if_neg (by tauto), if_neg (by rintro ⟨_, h5⟩; omega)]
          · rw [if_neg (by tauto), if_neg (by tauto)])
      rw [show (j + 1) * a = j * a + a by ring] at hnext
      exact hnext
    · rw [if_neg hj]
      refine ⟨s, rfl, hl, fun i hi => ?_⟩
      rw [hs i hi]
      by_cases h2 : a ∣ i
      · have h3 : i / a < j := by rw [Nat.div_lt_iff_lt_mul ha]; omega
        rw [if_pos h2, if_pos ⟨h2, h3⟩]
      · rw [if_neg (by tauto), if_neg h2]

/-- **C60**: `sub_pow(a)` is `s(x^a)` for `a > 0`. -/
theorem C60_sub_pow (s : Ser α) (a : Nat) (ha : 0 < a) :
    ∃ r, subPow s (a : Int) = some r ∧ Is r s.N (Polynomial.expand α a (poly s.p)) := by
  rw [subPow]
  rw [if_pos (by omega), Int.toNat_natCast]
  have hz := mk_is ([0] : List α) s.N
  obtain ⟨r, e, hl, hr⟩ := subPowLoop_spec s.p a s.N ha (s.N + 1) 0 (mk [0] s.N).p (by omega) hz.2.1 (by
    intro i hi
    rw [hz.2.2 i hi, if_neg (by rintro ⟨_, h⟩; exact absurd h (Nat.not_lt_zero _)), poly_coeff]
    cases i with
    | zero => rfl
    | succ i => exact at'_ge (by simp))
  rw [zero_mul] at e
  rw [e]
  refine ⟨⟨s.N, r⟩, rfl, rfl, hl, fun i hi => ?_⟩
  rw [hr i hi, Polynomial.coeff_expand ha, poly_coeff]

example : subPow (⟨5, [1, 2, 3, 4, 5]⟩ : Ser Int) 2 = some ⟨5, [1, 0, 2, 0, 3]⟩ := by decide +kernel

/-- **C60**: `shift(l)` multiplies by `x^l`; a negative shift drops the lowest coefficients and fills
with zeros.  The amount may not exceed the number of coefficients. -/
theorem C60_shift (s : Ser α) (hs : Wf s) (l : Nat) (hl : l ≤ s.N) :
    (∃ r, shift s (l : Int) = some r ∧ Is r s.N (Polynomial.X ^ l * poly s.p)) ∧
    (∃ r, shift s (-(l : Int)) = some r ∧ r.N = s.N ∧ Wf r ∧ ∀ i, at' r.p i = at' s.p (i + l)) := by
  have hs' : s.p.length = s.N := hs
  constructor
  · rw [shift, if_neg (by omega)]
    simp only [Int.toNat_natCast]
    rw [if_pos (by omega)]
    refine ⟨_, rfl, mk_is' (fun i hi => ?_)⟩
    rw [poly_coeff, Polynom.at'_append, List.length_replicate, Polynomial.coeff_X_pow_mul', poly_coeff,
      Polynom.at'_replicate_zero, Polynom.at'_take]
    by_cases h : i < l
    · rw [if_pos h, if_neg (by omega)]
    · rw [if_neg h, if_pos (by omega), if_pos (by omega)]
  · by_cases h0 : l = 0
    · subst h0
      have e : shift s (-((0 : Nat) : Int)) = some (mk ([] ++ s.p.take (s.p.length - 0)) s.N) := by
        rw [shift]; simp
      refine ⟨_, e, rfl, length_resize _ _, fun i => ?_⟩
      rw [mk, at'_resize]
      simp only [List.nil_append, add_zero, tsub_zero, List.take_length]
      split_ifs with h
      · rfl
      · rw [at'_ge (by omega)]
    · rw [shift, if_pos (by omega)]
      simp only [neg_neg, Int.toNat_natCast]
      rw [if_pos (by omega)]
      refine ⟨_, rfl, rfl, length_resize _ _, fun i => ?_⟩
      rw [mk, at'_resize, Polynom.at'_append, Polynom.at'_replicate_zero, Polynom.at'_drop, List.length_drop]
      by_cases h : i + l < s.N
      · rw [if_pos (by omega), if_pos (by omega), add_comm l i]
      · rw [at'_ge (i := i + l) (by omega)]
        split_ifs with h1 h2
        · omega
        · rfl
        · rfl

/-- **C60** (negative): a shift by more than the number of coefficients is undefined. -/
theorem C60_shift_beyond (s : Ser α) (hs : Wf s) (l : Nat) (hl : s.N < l) :
    shift s (l : Int) = none ∧ shift s (-(l : Int)) = none := by
  have hs' : s.p.length = s.N := hs
  constructor
  · rw [shift, if_neg (by omega)]
    simp only [Int.toNat_natCast]
    rw [if_neg (by omega)]
  · rw [shift, if_pos (by omega)]
    simp only [neg_neg, Int.toNat_natCast]
    rw [if_neg (by omega)]

example : shift (⟨4, [1, 2, 3, 4]⟩ : Ser Int) 1 = some ⟨4, [0, 1, 2, 3]⟩ ∧
    shift (⟨4, [1, 2, 3, 4]⟩ : Ser Int) (-1) = some ⟨4, [2, 3, 4, 0]⟩ := by decide +kernel

theorem ordLoop_spec : ∀ (n i : Nat) (s : List α), i + n ≤ s.length → 1 ≤ i →
    (ordLoop n i (((i - 1).factorial : Nat) : α) s).length = s.length ∧
    ∀ j, at' (ordLoop n i (((i - 1).factorial : Nat) : α) s) j =
      if i ≤ j ∧ j < i + n then at' s j * ((j.factorial : Nat) : α) else at' s j := by
  intro n
  induction n with
  | zero => intro i s _ _; exact ⟨rfl, fun j => by rw [if_neg (by omega)]; rfl⟩
  | succ n ih =>
    intro i s h hi
    have e : (((i - 1).factorial : Nat) : α) * (i : α) = ((i.factorial : Nat) : α) := by
      rw [← Nat.cast_mul, mul_comm, Nat.mul_factorial_pred (by omega)]
    obtain ⟨h1, h2⟩ := ih (i + 1) (put s i (at' s i * ((i.factorial : Nat) : α))) (by rw [length_put]; omega) (by omega)
    rw [show i + 1 - 1 = i by omega] at h1 h2
    refine ⟨by rw [ordLoop, e, h1, length_put]; omega, fun j => ?_⟩
    rw [ordLoop, e, h2, at'_put]
    by_cases hj : j = i
    · subst hj; rw [if_neg (by omega), if_pos rfl, if_pos (by omega)]
    · rw [if_neg hj]
      by_cases h3 : i + 1 ≤ j ∧ j < i + 1 + n
      · rw [if_pos h3, if_pos (by omega)]
      · rw [if_neg h3, if_neg (by omega)]

/-- **C60**: `make_ordinary` multiplies the coefficient of `x^n` by `n!`. -/
theorem C60_make_ordinary (s : Ser α) (hs : Wf s) :
    (makeOrdinary s).N = s.N ∧ Wf (makeOrdinary s) ∧
    ∀ i, i < s.N → at' (makeOrdinary s).p i = at' s.p i * ((i.factorial : Nat) : α) := by
  rw [makeOrdinary]
  by_cases hN : s.N = 0
  · rw [hN]
    refine ⟨rfl, ?_, fun i hi => by omega⟩
    have := hs; rw [Wf, hN] at this
    exact this
  have := ordLoop_spec (α := α) (s.N - 1) 1 s.p (by rw [hs]; omega) (le_refl 1)
  simp only [le_refl, tsub_eq_zero_of_le, Nat.factorial_zero, Nat.cast_one] at this
  refine ⟨rfl, this.1.trans hs, fun i hi => ?_⟩
  rw [this.2]
  by_cases h : i = 0
  · subst h; simp
  · rw [if_pos (by omega)]

theorem ofLoop_spec (f : Nat → α) : ∀ (n i : Nat) (s : List α), i + n ≤ s.length →
    (ofLoop f n i s).length = s.length ∧
    ∀ j, at' (ofLoop f n i s) j = if i ≤ j ∧ j < i + n then f j else at' s j := by
  intro n
  induction n with
  | zero => intro i s _; exact ⟨rfl, fun j => by rw [if_neg (by omega)]; rfl⟩
  | succ n ih =>
    intro i s h
    obtain ⟨h1, h2⟩ := ih (i + 1) (put s i (f i)) (by rw [length_put]; omega)
    refine ⟨by rw [ofLoop, h1, length_put]; omega, fun j => ?_⟩
    rw [ofLoop, h2, at'_put]
    by_cases hj : j = i
    · subst hj; rw [if_neg (by omega), if_pos rfl, if_pos (by omega)]
    · rw [if_neg hj]
      by_cases h3 : i + 1 ≤ j ∧ j < i + 1 + n
      · rw [if_pos h3, if_pos (by omega)]
      · rw [if_neg h3, if_neg (by omega)]

/-- **C60**: `of(f, N)` has the coefficients `f(0), ..., f(N-1)`. -/
theorem C60_of (f : Nat → α) (N : Nat) :
    (ofFun f N).N = N ∧ Wf (ofFun f N) ∧ ∀ i, i < N → at' (ofFun f N).p i = f i := by
  have hm := mk_is [f 0] N
  by_cases hN : N = 0
  · subst hN
    exact ⟨rfl, hm.2.1, fun i hi => by omega⟩
  obtain ⟨h1, h2⟩ := ofLoop_spec f (N - 1) 1 (mk [f 0] N).p (by rw [hm.2.1]; omega)
  refine ⟨rfl, h1.trans hm.2.1, fun i hi => ?_⟩
  rw [ofFun, h2]
  by_cases h : i = 0
  · subst h; rw [if_neg (by omega), hm.2.2 0 hi, poly_coeff]; rfl
  · rw [if_pos (by omega)]

/-- **C60**: `derivative` is the formal derivative; the top coefficient is not known and is zero. -/
theorem C60_derivative (s : Ser α) : Is (derivative s) s.N (Polynomial.derivative (poly s.p)) := by
  refine mk_is' (Agree.of_eq (Polynom.C37_derivative s.p))

/-! ### powers -/

theorem powLoop_spec (thr : Nat) : ∀ (n : Nat) (r x : Ser α) (N : Nat) (R X : Polynomial α), 0 < N → Is r N R → Is x N X →
    ∃ y, powLoop thr r x n = some y ∧ Is y N (R * X ^ n) := by
  intro n
  induction n using Nat.strongRecOn with
  | ind n ih =>
    intro r x N R X hN hr hx
    rw [powLoop]
    by_cases h0 : n = 0
    · rw [if_pos h0, h0, pow_zero, mul_one]
      exact ⟨r, rfl, hr⟩
    · rw [if_neg h0]
      obtain ⟨x2, ex, hx2⟩ := sqr_is thr hN hx
      by_cases h2 : n % 2 ≠ 0
      · rw [if_pos h2]
        obtain ⟨r2, er, hr2⟩ := mul_is thr hN hr hx.agree
        rw [er, Option.bind_eq_bind, Option.bind_some, ex, Option.bind_some]
        obtain ⟨y, ey, hy⟩ := ih (n / 2) (by omega) r2 x2 N _ _ hN hr2 hx2
        refine ⟨y, ey, hy.of_agree (Agree.of_eq ?_)⟩
        rw [← pow_two, ← pow_mul, mul_assoc, ← pow_succ', show 2 * (n / 2) + 1 = n by omega]
      · rw [if_neg h2, Option.bind_eq_bind, Option.bind_some, ex, Option.bind_some]
        obtain ⟨y, ey, hy⟩ := ih (n / 2) (by omega) r x2 N _ _ hN hr hx2
        refine ⟨y, ey, hy.of_agree (Agree.of_eq ?_)⟩
        rw [← pow_two, ← pow_mul, show 2 * (n / 2) = n by omega]

theorem poly_one : poly [(1 : α)] = 1 := by
  ext i
  rw [poly_coeff, Polynomial.coeff_one]
  cases i with
  | zero => rfl
  | succ i => rw [at'_ge (by simp), if_neg (by omega)]

theorem poly_zero : poly [(0 : α)] = 0 := by
  ext i
  rw [poly_coeff, Polynomial.coeff_zero]
  cases i with
  | zero => rfl
  | succ i => rw [at'_ge (by simp)]

/-- **C60**: repeated squaring raises a series to a non-negative power. -/
theorem C60_powT (thr : Nat) (s : Ser α) (hs : Wf s) (hN : 0 < s.N) (a : Nat) :
    ∃ r, powT thr s (a : Int) = some r ∧ Is r s.N (poly s.p ^ a) := by
  rw [powT, Int.toNat_natCast]
  obtain ⟨r, e, h⟩ := powLoop_spec thr a (mk [1] s.N) s s.N _ _ hN (mk_is _ _) hs.is
  refine ⟨r, e, h.of_agree (Agree.of_eq ?_)⟩
  rw [poly_one, one_mul]

/-! ### composition -/

theorem isqrtc_spec (x : Nat) : x ≤ isqrtc x * isqrtc x ∧ ∀ k, x ≤ k * k → isqrtc x ≤ k := by
  rw [isqrtc]
  by_cases h : x = 0
  · rw [if_pos h]; exact ⟨by omega, fun _ _ => by omega⟩
  · rw [if_neg h]
    refine ⟨?_, fun k hk => ?_⟩
    · have := Nat.lt_succ_sqrt (x - 1)
      simp only [Nat.succ_eq_add_one] at this
      omega
    · have h1 : Nat.sqrt (x - 1) < k := by
        rw [Nat.sqrt_lt]; omega
      omega

theorem tableLoop_spec (thr N : Nat) (B : Polynomial α) (hN : 0 < N) : ∀ (n i : Nat) (v : List (Ser α)),
    2 ≤ i → i + n = v.length → (∀ j, j < i → ∃ x, v[j]? = some x ∧ Is x N (B ^ j)) →
    ∃ w, tableLoop thr n i v = some w ∧ w.length = v.length ∧ ∀ j, j < v.length → ∃ x, w[j]? = some x ∧ Is x N (B ^ j) := by
  intro n
  induction n with
  | zero => intro i v _ hl h; exact ⟨v, rfl, rfl, fun j hj => h j (by omega)⟩
  | succ n ih =>
    intro i v hi hl h
    obtain ⟨a, ea, ha⟩ := h (i - 1) (by omega)
    obtain ⟨b, eb, hb⟩ := h 1 (by omega)
    rw [tableLoop, rd, ea, Option.bind_eq_bind, Option.bind_some, rd, eb, Option.bind_eq_bind, Option.bind_some]
    rw [pow_one] at hb
    obtain ⟨x, ex, hx⟩ := mul_is thr hN ha hb.agree
    rw [ex, Option.bind_some, wr, if_pos (by omega), Option.bind_some]
    obtain ⟨w, e, hw, hw2⟩ := ih (i + 1) (v.set i x) (by omega) (by rw [List.length_set]; omega) (by
      intro j hj
      by_cases hji : j = i
      · subst hji
        refine ⟨x, List.getElem?_set_self (by omega), hx.of_agree (Agree.of_eq ?_)⟩
        rw [← pow_succ, show j - 1 + 1 = j by omega]
      · rw [List.getElem?_set_ne (Ne.symm hji)]
        exact h j (by omega))
    rw [List.length_set] at hw hw2
    exact ⟨w, e, hw, hw2⟩

theorem table_spec (thr sz N : Nat) (b : Ser α) (B : Polynomial α) (hN : 0 < N) (hsz : 2 ≤ sz) (hb : Is b N B) :
    ∃ w, table thr sz N b = some w ∧ w.length = sz ∧ ∀ j, j < sz → ∃ x, w[j]? = some x ∧ Is x N (B ^ j) := by
  rw [table]
  rw [wr, if_pos (by simp; omega), Option.bind_eq_bind, Option.bind_some, wr, if_pos (by simp; omega),
    Option.bind_some]
  obtain ⟨w, e, hw, hw2⟩ := tableLoop_spec thr N B hN (sz - 2) 2
    (((List.replicate sz (mk [(0 : α)] 1)).set 0 (mk [1] N)).set 1 b) (le_refl 2) (by simp; omega) (by
      intro j hj
      have hj' : j = 0 ∨ j = 1 := by omega
      rcases hj' with rfl | rfl
      · refine ⟨mk [1] N, ?_, ?_⟩
        · rw [List.getElem?_set_ne (by omega), List.getElem?_set_self (by simp; omega)]
        · rw [pow_zero, ← poly_one]; exact mk_is _ _
      · refine ⟨b, List.getElem?_set_self (by simp; omega), ?_⟩
        rw [pow_one]; exact hb)
  simp only [List.length_set, List.length_replicate] at hw hw2
  exact ⟨w, e, hw, hw2⟩

theorem accLoop_spec (pj : List α) (ck : α) : ∀ (n k : Nat) (q : List α), k + n ≤ q.length →
    (accLoop pj ck n k q).length = q.length ∧
    ∀ j, at' (accLoop pj ck n k q) j = if k ≤ j ∧ j < k + n then at' q j + at' pj j * ck else at' q j := by
  intro n
  induction n with
  | zero => intro i s _; exact ⟨rfl, fun j => by rw [if_neg (by omega)]; rfl⟩
  | succ n ih =>
    intro i s h
    obtain ⟨h1, h2⟩ := ih (i + 1) (put s i (at' s i + at' pj i * ck)) (by rw [length_put]; omega)
    refine ⟨by rw [accLoop, h1, length_put]; omega, fun j => ?_⟩
    rw [accLoop, h2, at'_put]
    by_cases hj : j = i
    · subst hj; rw [if_neg (by omega), if_pos rfl, if_pos (by omega)]
    · rw [if_neg hj]
      by_cases h3 : i + 1 ≤ j ∧ j < i + 1 + n
      · rw [if_pos h3, if_pos (by omega)]
      · rw [if_neg h3, if_neg (by omega)]

theorem rowLoop_spec (p : List α) (N iK : Nat) (pm : List (Ser α)) (R : Polynomial α) : ∀ (n j : Nat) (q : List α) (Q : Polynomial α),
    (∀ t, t < j + n → ∃ x, pm[t]? = some x ∧ Is x N (R ^ t)) → Is ⟨N, q⟩ N Q →
    ∃ q', rowLoop p N iK pm n j q = some q' ∧
      Is ⟨N, q'⟩ N (Q + ∑ t ∈ Finset.Ico j (j + n), Polynomial.C (at' p (iK + t)) * R ^ t) := by
  intro n
  induction n with
  | zero => intro j q Q _ hq; exact ⟨q, rfl, by simpa using hq⟩
  | succ n ih =>
    intro j q Q hpm hq
    obtain ⟨x, ex, hx⟩ := hpm j (by omega)
    rw [rowLoop, rd, ex, Option.bind_eq_bind, Option.bind_some]
    have hql : q.length = N := hq.2.1
    obtain ⟨h1, h2⟩ := accLoop_spec x.p (at' p (iK + j)) N 0 q (by omega)
    obtain ⟨q', e, hq'⟩ := ih (j + 1) (accLoop x.p (at' p (iK + j)) N 0 q) (Q + Polynomial.C (at' p (iK + j)) * R ^ j)
      (fun t ht => hpm t (by omega)) ⟨rfl, h1.trans hql, fun i hi => by
        rw [h2, if_pos (by omega), Polynomial.coeff_add, Polynomial.coeff_C_mul, hx.2.2 i hi, mul_comm]
        have := hq.2.2 i hi
        simp only at this
        rw [this]⟩
    refine ⟨q', e, hq'.of_agree (Agree.of_eq ?_)⟩
    rw [show j + (n + 1) = j + 1 + n by omega, Finset.sum_eq_sum_Ico_succ_bot (show j < j + 1 + n by omega)]
    ring

theorem qmLoop_spec (p : List α) (N K : Nat) (pm : List (Ser α)) (R : Polynomial α)
    (hpm : ∀ t, t < K → ∃ x, pm[t]? = some x ∧ Is x N (R ^ t)) : ∀ (n i : Nat),
    ∃ w, qmLoop p N K pm n i = some w ∧ w.length = n ∧
      ∀ j, j < n → ∃ x, w[j]? = some x ∧ Is x N (∑ t ∈ Finset.range K, Polynomial.C (at' p ((i + j) * K + t)) * R ^ t) := by
  intro n
  induction n with
  | zero => intro i; exact ⟨[], rfl, rfl, fun j hj => by omega⟩
  | succ n ih =>
    intro i
    obtain ⟨q, e, hq⟩ := rowLoop_spec p N (i * K) pm R K 0 (mk [(0 : α)] N).p 0 (fun t ht => hpm t (by omega))
      (by rw [← poly_zero]; exact mk_is _ _)
    obtain ⟨w, ew, hl, hw⟩ := ih (i + 1)
    rw [qmLoop, e, Option.bind_eq_bind, Option.bind_some, ew, Option.bind_eq_bind, Option.bind_some]
    refine ⟨_, rfl, by rw [List.length_cons, hl], fun j hj => ?_⟩
    cases j with
    | zero =>
      refine ⟨⟨N, q⟩, List.getElem?_cons_zero, ?_⟩
      rw [zero_add, zero_add] at hq
      rw [Finset.range_eq_Ico, add_zero]
      exact hq
    | succ j =>
      rw [List.getElem?_cons_succ]
      obtain ⟨x, ex, hx⟩ := hw j (by omega)
      refine ⟨x, ex, ?_⟩
      rw [show i + (j + 1) = i + 1 + j by omega]
      exact hx

theorem sumLoop_spec (thr N K : Nat) (hN : 0 < N) (qm tm : List (Ser α)) (Q : Nat → Polynomial α) (T : Polynomial α)
    (hq : ∀ j, j < K → ∃ x, qm[j]? = some x ∧ Is x N (Q j)) (ht : ∀ j, j < K → ∃ x, tm[j]? = some x ∧ Is x N (T ^ j)) :
    ∀ (n i : Nat) (s : Ser α) (S : Polynomial α), i + n ≤ K → Is s N S →
      ∃ r, sumLoop thr qm tm n i s = some r ∧ Is r N (S + ∑ j ∈ Finset.Ico i (i + n), Q j * T ^ j) := by
  intro n
  induction n with
  | zero => intro i s S _ hs; exact ⟨s, rfl, by simpa using hs⟩
  | succ n ih =>
    intro i s S hK hs
    obtain ⟨q, eq, hq'⟩ := hq i (by omega)
    obtain ⟨t, et, ht'⟩ := ht i (by omega)
    obtain ⟨x, ex, hx⟩ := mul_is thr hN hq' ht'.agree
    rw [sumLoop, rd, eq, Option.bind_eq_bind, Option.bind_some, rd, et, Option.bind_some, ex,
      Option.bind_some]
    have ha := (C60_add s x).1
    rw [hs.1] at ha
    obtain ⟨r, e, hr⟩ := ih (i + 1) (add s x) (S + Q i * T ^ i) (by omega) (ha.of_agree (hs.agree.add hx.agree))
    refine ⟨r, e, hr.of_agree (Agree.of_eq ?_)⟩
    rw [show i + (n + 1) = i + 1 + n by omega, Finset.sum_eq_sum_Ico_succ_bot (show i < i + 1 + n by omega)]
    ring

theorem sum_blocks (f : Nat → Polynomial α) (K : Nat) : ∀ n, ∑ i ∈ Finset.range n, ∑ j ∈ Finset.range K, f (i * K + j) =
    ∑ m ∈ Finset.range (n * K), f m := by
  intro n
  induction n with
  | zero => simp
  | succ n ih => rw [Finset.sum_range_succ, ih, show (n + 1) * K = n * K + K by ring, Finset.sum_range_add]

theorem poly_comp (p : List α) (R : Polynomial α) (M : Nat) (h : p.length ≤ M) :
    (poly p).comp R = ∑ m ∈ Finset.range M, Polynomial.C (at' p m) * R ^ m := by
  rw [poly, Polynomial.sum_comp]
  simp only [Polynomial.mul_comp, Polynomial.C_comp, Polynomial.X_pow_comp]
  apply Finset.sum_subset
  · intro x hx; rw [Finset.mem_range] at *; omega
  · intro x _ hx
    rw [Finset.mem_range] at hx
    rw [at'_ge (by omega), Polynomial.C_0, zero_mul]

/-- **C60**: `composition` is the composition of the two polynomials up to `x^N`.  (If the constant
coefficient of `r` is zero this is the composition of the power series.) -/
theorem C60_composition (thr : Nat) (s r : Ser α) (hs : Wf s) (hr : Wf r) (hN : 0 < s.N) (h : r.N = s.N) :
    ∃ t, composition thr s r = some t ∧ Is t s.N ((poly s.p).comp (poly r.p)) := by
  rw [composition]
  obtain ⟨k1, k2⟩ := isqrtc_spec (s.N + 1)
  generalize isqrtc (s.N + 1) = K at *
  have hK : 2 ≤ K := by
    by_contra hc
    have : K * K ≤ 1 := by
      have : K ≤ 1 := by omega
      calc K * K ≤ 1 * 1 := Nat.mul_le_mul this this
        _ = 1 := rfl
    omega
  have hris : Is r s.N (poly r.p) := by rw [← h]; exact hr.is
  obtain ⟨pm, epm, hpl, hpm⟩ := table_spec thr (K + 1) s.N r _ hN (by omega) hris
  obtain ⟨b, eb, hb⟩ := hpm K (by omega)
  obtain ⟨tm, etm, htl, htm⟩ := table_spec thr K s.N b _ hN hK hb
  obtain ⟨qm, eqm, hql, hqm⟩ := qmLoop_spec s.p s.N K pm (poly r.p) (fun t ht => hpm t (by omega)) K 0
  obtain ⟨q0, eq0, hq0⟩ := hqm 0 (by omega)
  rw [epm, Option.bind_eq_bind, Option.bind_some, rd, eb, Option.bind_eq_bind, Option.bind_some, etm,
    Option.bind_some, eqm, Option.bind_some, rd, eq0, Option.bind_some]
  obtain ⟨t, et, ht⟩ := sumLoop_spec thr s.N K hN qm tm
    (fun j => ∑ t ∈ Finset.range K, Polynomial.C (at' s.p (j * K + t)) * (poly r.p) ^ t) (poly r.p ^ K)
    (fun j hj => by have := hqm j hj; rwa [zero_add] at this) htm (K - 1) 1 q0 _ (by omega) hq0
  refine ⟨t, et, ht.of_agree (Agree.of_eq ?_)⟩
  have hs' : s.p.length = s.N := hs
  rw [poly_comp s.p (poly r.p) (K * K) (by omega), ← sum_blocks, show 1 + (K - 1) = K by omega]
  have hsplit : ∀ f : Nat → Polynomial α, ∑ i ∈ Finset.range K, f i = f 0 + ∑ i ∈ Finset.Ico 1 K, f i := by
    intro f
    rw [Finset.range_eq_Ico, Finset.sum_eq_sum_Ico_succ_bot (show 0 < K by omega)]
  rw [hsplit (fun i => ∑ j ∈ Finset.range K, _)]
  congr 1
  · simp
  · apply Finset.sum_congr rfl
    intro i _
    rw [Finset.sum_mul]
    apply Finset.sum_congr rfl
    intro j _
    rw [← pow_mul, mul_assoc, ← pow_add, show j + K * i = i * K + j by ring]

example : composition 2 (⟨5, [1, 2, 3, 4, 5]⟩ : Ser Int) ⟨5, [0, 1, 1, 0, 2]⟩ = some ⟨5, [1, 2, 5, 10, 24]⟩ := by decide +kernel

/-- **C60** (negative): with precision 0, `composition` writes past the end of a table. -/
theorem C60_composition_zero_precision : composition 2 (⟨0, []⟩ : Ser Int) ⟨0, []⟩ = none := by decide +kernel

end Ring

end Altruct.Series
