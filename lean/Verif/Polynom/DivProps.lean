/-
C38: power series inverse, and division with remainder by both algorithms.
-/
import Verif.Polynom.MulProps
import Mathlib.Algebra.Polynomial.Reverse
import Mathlib.Algebra.Polynomial.FieldDivision
import Mathlib.Algebra.Field.Rat
import Mathlib.Tactic.LinearCombination

set_option linter.unusedSectionVars false

namespace Altruct.Polynom

open Polynomial (X C)

/-- `operator /` divides exactly by `b`: so does every non-zero `b` of a field, and so do the
integers `1` and `-1`.  In particular this is so for the leading coefficient of a monic divisor. -/
def DivBy {α : Type} [CommRing α] [Quo α] (b : α) : Prop := ∀ a : α, Quo.quo a b * b = a

theorem divBy_field {α : Type} [Field α] (b : α) (h : b ≠ 0) : DivBy b := fun a => div_mul_cancel₀ a h

theorem divBy_int : DivBy (1 : Int) ∧ DivBy (-1 : Int) := by
  constructor
  · intro a; show Int.tdiv a 1 * 1 = a; rw [Int.tdiv_one, mul_one]
  · intro a; show Int.tdiv a (-1) * -1 = a; rw [Int.tdiv_neg, Int.tdiv_one]; ring

variable {α : Type} [CommRing α] [DecidableEq α] [Quo α]

theorem DivBy.cancel {b : α} (h : DivBy b) {x y : α} (e : x * b = y * b) : x = y := by
  have h1 := h 1
  calc x = x * b * Quo.quo 1 b := by rw [mul_assoc, mul_comm b, h1, mul_one]
    _ = y * b * Quo.quo 1 b := by rw [e]
    _ = y := by rw [mul_assoc, mul_comm b, h1, mul_one]

theorem DivBy.ne_zero [Nontrivial α] {b : α} (h : DivBy b) : b ≠ 0 := by
  rintro rfl
  have := h 1
  rw [mul_zero] at this
  exact zero_ne_one this

/-! ### division by a scalar -/

theorem divScalar_spec (pr : List α) (s1 : Option (List α)) (x : α) (hx : x ≠ 0) (hd : DivBy x) :
    ∃ r, divScalar pr s1 x = some r ∧ r.length = deg (s1.getD pr) + 1 ∧ C x * poly r = poly (s1.getD pr) := by
  rw [divScalar, if_neg hx]
  refine ⟨_, rfl, ?_, ?_⟩
  · rw [(scalarLoop_spec _ _ _ _ _ _ (by rw [length_resize]; omega)).1, length_resize]
  · ext j
    rw [Polynomial.coeff_C_mul, poly_coeff, poly_coeff, (scalarLoop_spec _ _ _ _ _ _ (by rw [length_resize]; omega)).2]
    by_cases h : j ≤ deg (s1.getD pr)
    · rw [if_pos (by omega), src_resize _ _ _ _ (by omega), mul_comm, hd]
    · rw [if_neg (by omega), at'_resize, if_neg (by omega), (deg_spec _).1 j (by omega), mul_zero]

/-- **C38**: division by a non-zero scalar, with the destination aliased or not. -/
theorem C38_div_scalar {α : Type} [Field α] [DecidableEq α] (pr : List α) (s1 : Option (List α)) (x : α) (hx : x ≠ 0) :
    ∃ r, divScalar pr s1 x = some r ∧ C x * poly r = poly (s1.getD pr) := by
  obtain ⟨r, e, _, h⟩ := divScalar_spec pr s1 x hx (divBy_field x hx)
  exact ⟨r, e, h⟩

/-! ### power series inverse -/

theorem invPut_spec (t : List α) (k : Nat) : ∀ (n : Nat) (r : List α) (j : Nat),
    at' (invPut t k n r) j = if k ≤ j ∧ j < k + n then - at' t (j - k) else at' r j := by
  intro n
  induction n with
  | zero => intro r j; rw [if_neg (by omega)]; rfl
  | succ n ih =>
    intro r j
    rw [invPut, ih, at'_put]
    by_cases h1 : k ≤ j ∧ j < k + n
    · rw [if_pos h1, if_pos (by omega)]
    · rw [if_neg h1]
      by_cases h2 : j = k + n
      · rw [if_pos h2, if_pos (by omega)]
        congr 2; omega
      · rw [if_neg h2, if_neg (by omega)]

theorem invLoop_spec (thr : Nat) (c : List α) (L : Nat) : ∀ (fuel l : Nat) (r : List α),
    1 ≤ l → L * 2 < fuel + l → 0 < fuel →
    (∀ j, l / 2 + 1 ≤ j → at' r j = 0) →
    X ^ (min L (l / 2 + 1)) ∣ poly c * poly r - 1 →
    (l < L * 2 → X ^ (l / 2 + 1) ∣ poly c * poly r - 1) →
    ∃ r', invLoop thr c L fuel l r = some r' ∧ X ^ L ∣ poly c * poly r' - 1 := by
  intro fuel
  induction fuel with
  | zero => intro l r _ _ h; omega
  | succ fuel ih =>
    intro l r hl hf _ hz hmin hdiv
    rw [invLoop]
    by_cases hlt : l < L * 2
    · rw [if_pos hlt]
      simp only
      have hA := hdiv hlt
      generalize hk : l / 2 + 1 = k at *
      generalize hm : min (L - 1) l = m at *
      obtain ⟨t1, e1, hl1, ha1⟩ := C37_mul thr (c.take (min (m + 1) c.length)) none (some r) (some (l + 1))
      obtain ⟨t2, e2, hl2, ha2⟩ := C37_mul thr (t1.drop k) none (some r) (some (l - k))
      simp only [Option.getD_some, Option.getD_none] at hl1 ha1 hl2 ha2
      rw [e1]
      simp only [Option.bind_eq_bind, Option.bind_some]
      rw [e2]
      simp only [Option.bind_some]
      have hT : ∀ d, d ≤ m → (poly (c.take (min (m + 1) c.length)) * poly r).coeff d = (poly c * poly r).coeff d := by
        intro d hd
        rw [Polynomial.coeff_mul, Polynomial.coeff_mul]
        apply Finset.sum_congr rfl
        rintro ⟨a, b⟩ hab
        rw [Finset.mem_antidiagonal] at hab
        simp only at hab ⊢
        rw [poly_coeff, poly_coeff c, at'_take]
        congr 1
        by_cases hac : a < c.length
        · rw [if_pos (by omega)]
        · rw [if_neg (by omega), at'_ge (by omega)]
      have hE : ∀ d, k + d ≤ m → (poly (t1.drop k)).coeff d = (poly c * poly r).coeff (k + d) := by
        intro d hd
        rw [poly_coeff, at'_drop, ha1 _ (by omega), hT _ hd]
      have hA0 : ∀ d, d < k → (poly c * poly r - 1).coeff d = 0 := Polynomial.X_pow_dvd_iff.mp hA
      have u : X ^ (m + 1) ∣ poly c * poly r - 1 - X ^ k * poly (t1.drop k) := by
        rw [Polynomial.X_pow_dvd_iff]
        intro d hd
        rw [Polynomial.coeff_sub, Polynomial.coeff_X_pow_mul']
        by_cases hdk : k ≤ d
        · rw [if_pos hdk, hE (d - k) (by omega), Polynomial.coeff_sub, Polynomial.coeff_one, if_neg (by omega),
            show k + (d - k) = d by omega, sub_zero, sub_self]
        · rw [if_neg hdk, hA0 d (by omega), sub_zero]
      have w : X ^ (m + 1) ∣ poly (invPut t2 k (m + 1 - k) r) - poly r + X ^ k * (poly (t1.drop k) * poly r) := by
        rw [Polynomial.X_pow_dvd_iff]
        intro d hd
        rw [Polynomial.coeff_add, Polynomial.coeff_sub, Polynomial.coeff_X_pow_mul', poly_coeff, poly_coeff, invPut_spec]
        by_cases hdk : k ≤ d
        · rw [if_pos hdk, if_pos (by omega), hz d (by omega), ha2 (d - k) (by omega)]
          ring
        · rw [if_neg hdk, if_neg (by omega)]; ring
      have key : X ^ (m + 1) ∣ poly c * poly (invPut t2 k (m + 1 - k) r) - 1 := by
        have e : poly c * poly (invPut t2 k (m + 1 - k) r) - 1 =
            poly c * (poly (invPut t2 k (m + 1 - k) r) - poly r + X ^ k * (poly (t1.drop k) * poly r))
            + (1 - X ^ k * poly (t1.drop k)) * (poly c * poly r - 1 - X ^ k * poly (t1.drop k))
            - X ^ (k + k) * poly (t1.drop k) ^ 2 := by
          rw [pow_add]; ring
        rw [e]
        refine dvd_sub (dvd_add (Dvd.dvd.mul_left w _) (Dvd.dvd.mul_left u _)) (Dvd.dvd.mul_right (pow_dvd_pow _ (by omega)) _)
      apply ih (l * 2) _ (by omega) (by omega) (by omega)
      · intro j hj
        rw [invPut_spec, if_neg (by omega), hz j (by omega)]
      · exact dvd_trans (pow_dvd_pow _ (by omega)) key
      · intro h
        exact dvd_trans (pow_dvd_pow _ (by omega)) key
    · rw [if_neg hlt]
      exact ⟨r, rfl, dvd_trans (pow_dvd_pow _ (by omega)) hmin⟩

theorem inverse1_spec (thr : Nat) (c : List α) (L : Nat) (h : at' c 0 = 1) :
    ∃ r, inverse1 thr c L = some r ∧ X ^ L ∣ poly c * poly r - 1 := by
  have hd : X ^ 1 ∣ poly c * poly [(1 : α)] - 1 := by
    rw [Polynomial.X_pow_dvd_iff]
    intro d hd
    have : d = 0 := by omega
    subst this
    rw [Polynomial.coeff_sub, Polynomial.mul_coeff_zero, poly_coeff, poly_coeff, h]
    simp [at']
  apply invLoop_spec thr c L _ 1 [1] (by omega) (by omega) (by omega)
  · intro j hj
    exact at'_ge (by simp; omega)
  · exact dvd_trans (pow_dvd_pow _ (by omega)) hd
  · intro _; exact hd

/-- **C38**: `inverse(L)` of a polynomial whose constant coefficient can be divided by exactly is its
inverse as a power series, correct in the first `L` coefficients, over every commutative ring. -/
theorem C38_inverse_ring [Nontrivial α] (thr : Nat) (c : List α) (L : Nat) (hc : 0 < c.length) (hdv : DivBy (at' c 0)) :
    ∃ r, inverse thr c L = some r ∧ ∀ i, i < L → (poly c * poly r).coeff i = if i = 0 then 1 else 0 := by
  suffices ∃ r, inverse thr c L = some r ∧ X ^ L ∣ poly c * poly r - 1 by
    obtain ⟨r, e, hd⟩ := this
    refine ⟨r, e, fun i hi => ?_⟩
    have := Polynomial.X_pow_dvd_iff.mp hd i hi
    rw [Polynomial.coeff_sub, Polynomial.coeff_one, sub_eq_zero] at this
    exact this
  have h0 := hdv.ne_zero
  rw [inverse, rd_at hc]
  simp only [Option.bind_eq_bind, Option.bind_some]
  rw [if_neg h0]
  by_cases h1 : at' c 0 = 1
  · rw [if_neg (by simpa using h1)]
    exact inverse1_spec thr c L h1
  · rw [if_pos h1]
    obtain ⟨d, e, hl, hp⟩ := divScalar_spec c none (at' c 0) h0 hdv
    have hd0 : at' d 0 = 1 := by
      apply hdv.cancel
      have := congrArg (fun p => Polynomial.coeff p 0) hp
      simp only [Polynomial.coeff_C_mul, poly_coeff, Option.getD_none] at this
      rw [one_mul, mul_comm, this]
    obtain ⟨r, e2, hd⟩ := inverse1_spec thr d L hd0
    obtain ⟨r', e3, _, hp'⟩ := divScalar_spec r none (at' c 0) h0 hdv
    refine ⟨r', ?_, ?_⟩
    · rw [e]
      simp only [Option.bind_some]
      rw [rd_at (by omega), hd0]
      simp only [Option.bind_some]
      rw [if_neg one_ne_zero, if_neg (by simp), e2]
      exact e3
    · rw [Option.getD_none] at hp hp'
      rw [← hp, mul_right_comm, hp', mul_comm]
      exact hd

/-- **C38**: `inverse(L)` of a polynomial with non-zero constant coefficient is its inverse as a
power series, correct in the first `L` coefficients, over every field. -/
theorem C38_inverse {α : Type} [Field α] [DecidableEq α] (thr : Nat) (c : List α) (L : Nat) (hc : 0 < c.length)
    (h0 : at' c 0 ≠ 0) :
    ∃ r, inverse thr c L = some r ∧ ∀ i, i < L → (poly c * poly r).coeff i = if i = 0 then 1 else 0 :=
  C38_inverse_ring thr c L hc (divBy_field _ h0)

/-! ### schoolbook division -/

/-- What `quot_rem` leaves in `pr`: the remainder in the `l2` low coefficients, the quotient above. -/
def Layout (pr p1 p2 : List α) : Prop :=
  ∃ q r : Polynomial α, poly p1 = q * poly p2 + r ∧ (∀ i, deg p2 ≤ i → r.coeff i = 0) ∧
    (∀ i, i < deg p2 → at' pr i = r.coeff i) ∧ ∀ i, at' pr (deg p2 + i) = q.coeff i

theorem qrInner_spec (p2 : List α) (l2 i : Nat) (s : α) (hi : l2 ≤ i) : ∀ (n j : Nat) (pr : List α), j + n = l2 + 1 →
    ∀ m, at' (qrInner p2 l2 i s n j pr) m =
      if m + j ≤ i ∧ i < m + j + n then at' pr m - s * at' p2 (l2 + m - i) else at' pr m := by
  intro n
  induction n with
  | zero => intro j pr _ m; rw [if_neg (by omega)]; rfl
  | succ n ih =>
    intro j pr hj m
    rw [qrInner, ih (j + 1) _ (by omega), at'_put]
    by_cases h : m = i - j
    · rw [if_neg (by omega), if_pos h, if_pos (by omega), h]
      congr 3; omega
    · rw [if_neg h]
      by_cases h2 : m + (j + 1) ≤ i ∧ i < m + (j + 1) + n
      · rw [if_pos h2, if_pos (by omega)]
      · rw [if_neg h2, if_neg (by omega)]

theorem qrLoop_spec (p2 : List α) (P : Polynomial α) (hlead : at' p2 (deg p2) ≠ 0) (hdv : DivBy (at' p2 (deg p2))) : ∀ (n : Nat) (pr : List α),
    P = poly (pr.take (deg p2 + n)) + X ^ n * poly (pr.drop (deg p2 + n)) * poly p2 →
    ∃ pr', qrLoop p2 (deg p2) n pr = some pr' ∧
      P = poly (pr'.take (deg p2)) + poly (pr'.drop (deg p2)) * poly p2 := by
  have hp2 : ∀ j, deg p2 < j → at' p2 j = 0 := (deg_spec p2).1
  generalize deg p2 = l2 at *
  intro n
  induction n with
  | zero => intro pr h; exact ⟨pr, rfl, by simpa using h⟩
  | succ n ih =>
    intro pr h
    rw [qrLoop]
    simp only [cdiv, if_neg hlead, Option.bind_eq_bind, Option.bind_some]
    -- both branches give the same update
    have hstep : ∀ pr' : List α, (∀ m, at' pr' m = if m = l2 + n then Quo.quo (at' pr (l2 + n)) (at' p2 l2) else
          if n ≤ m ∧ m < l2 + n then at' pr m - Quo.quo (at' pr (l2 + n)) (at' p2 l2) * at' p2 (m - n) else at' pr m) →
        P = poly (pr'.take (l2 + n)) + X ^ n * poly (pr'.drop (l2 + n)) * poly p2 := by
      intro pr' hpr'
      rw [h]
      have e1 : X ^ n * poly (pr'.drop (l2 + n)) =
          C (Quo.quo (at' pr (l2 + n)) (at' p2 l2)) * X ^ n + X ^ (n + 1) * poly (pr.drop (l2 + (n + 1))) := by
        ext m
        rw [Polynomial.coeff_add, Polynomial.coeff_C_mul_X_pow, Polynomial.coeff_X_pow_mul', Polynomial.coeff_X_pow_mul',
          poly_coeff, poly_coeff, at'_drop, at'_drop, hpr']
        by_cases h1 : m = n
        · subst h1
          rw [if_pos (le_refl _), if_pos (by omega), if_pos rfl, if_neg (by omega), add_zero]
        · by_cases h2 : n ≤ m
          · rw [if_pos h2, if_neg (by omega), if_neg (by omega), if_neg h1, if_pos (by omega), zero_add]
            congr 1; omega
          · rw [if_neg h2, if_neg h1, if_neg (by omega), add_zero]
      rw [e1]
      suffices key : poly (pr.take (l2 + (n + 1))) =
          poly (pr'.take (l2 + n)) + C (Quo.quo (at' pr (l2 + n)) (at' p2 l2)) * X ^ n * poly p2 by rw [key]; ring
      ext m
      rw [Polynomial.coeff_add, mul_assoc, Polynomial.coeff_C_mul, Polynomial.coeff_X_pow_mul', poly_coeff, poly_coeff,
        poly_coeff, at'_take, at'_take, hpr']
      by_cases h1 : m = l2 + n
      · rw [if_pos (by omega), if_neg (by omega), if_pos (by omega), show m - n = l2 by omega, zero_add, h1, hdv]
      · by_cases h2 : m < l2 + n
        · rw [if_pos (by omega), if_pos h2, if_neg h1]
          by_cases h3 : n ≤ m
          · rw [if_pos ⟨h3, h2⟩, if_pos h3]; ring
          · rw [if_neg (by omega), if_neg h3]; ring
        · rw [if_neg (by omega), if_neg h2, if_pos (by omega), hp2 (m - n) (by omega)]; ring
    by_cases hs : Quo.quo (at' pr (l2 + n)) (at' p2 l2) = 0
    · rw [if_pos hs]
      apply ih
      apply hstep
      intro m
      rw [at'_put, hs]
      by_cases h1 : m = l2 + n
      · rw [if_pos h1, if_pos h1]
      · rw [if_neg h1, if_neg h1, zero_mul, sub_zero, ite_self]
    · rw [if_neg hs]
      apply ih
      apply hstep
      intro m
      rw [qrInner_spec p2 l2 (l2 + n) _ (by omega) l2 1 _ (by omega), at'_put]
      by_cases h1 : m = l2 + n
      · rw [if_neg (by omega), if_pos h1, if_pos h1]
      · rw [if_neg h1, if_neg h1]
        by_cases h2 : n ≤ m ∧ m < l2 + n
        · rw [if_pos (by omega), if_pos h2]
          congr 3; omega
        · rw [if_neg (by omega), if_neg h2]

theorem lowestLoop_spec (c : List α) : ∀ (k i j : Nat), i ≤ j → j < lowestLoop c k i → at' c j = 0 := by
  intro k
  induction k with
  | zero => intro i j _ h; simp [lowestLoop] at h
  | succ k ih =>
    intro i j h1 h2
    rw [lowestLoop] at h2
    by_cases h : at' c i = 0
    · rw [if_neg (by simpa using h)] at h2
      by_cases hij : j = i
      · rw [hij, h]
      · exact ih (i + 1) j (by omega) h2
    · rw [if_pos h] at h2; omega

theorem isPower_spec (c : List α) (h : isPower c = true) : poly c = X ^ deg c := by
  rw [isPower, Bool.and_eq_true, decide_eq_true_eq, decide_eq_true_eq] at h
  ext m
  rw [poly_coeff, Polynomial.coeff_X_pow]
  rcases lt_trichotomy m (deg c) with h1 | h1 | h1
  · rw [if_neg (by omega)]
    exact lowestLoop_spec c c.length 0 m (by omega) (by rw [← h.1] at h1; exact h1)
  · rw [if_pos h1, h1]; exact h.2
  · rw [if_neg (by omega), (deg_spec c).1 m h1]

theorem layout_short (p1 p2 : List α) (h : deg p1 < deg p2 ∨ isPower p2 = true) : Layout p1 p1 p2 := by
  rcases h with h | h
  · refine ⟨0, poly p1, by simp, fun i hi => ?_, fun i _ => (poly_coeff _ _).symm, fun i => ?_⟩
    · rw [poly_coeff, (deg_spec p1).1 i (by omega)]
    · rw [(deg_spec p1).1 _ (by omega)]; simp
  · refine ⟨poly (p1.drop (deg p2)), poly (p1.take (deg p2)), ?_, fun i hi => ?_, fun i hi => ?_, fun i => ?_⟩
    · rw [isPower_spec p2 h]
      ext m
      rw [Polynomial.coeff_add, Polynomial.coeff_mul_X_pow', poly_coeff, poly_coeff, poly_coeff, at'_drop, at'_take]
      by_cases hm : deg p2 ≤ m
      · rw [if_pos hm, if_neg (by omega), add_zero]; congr 1; omega
      · rw [if_neg hm, if_pos (by omega), zero_add]
    · rw [poly_coeff, at'_take, if_neg (by omega)]
    · rw [poly_coeff, at'_take, if_pos hi]
    · rw [poly_coeff, at'_drop]

theorem quotRemLong_spec (p1 p2 : List α) (hlead : at' p2 (deg p2) ≠ 0) (hdv : DivBy (at' p2 (deg p2))) :
    ∃ pr, quotRemLong p1 p2 = some pr ∧ Layout pr p1 p2 := by
  rw [quotRemLong]
  by_cases h : deg p1 < deg p2 ∨ isPower p2 = true
  · rw [if_pos h]
    exact ⟨p1, rfl, layout_short p1 p2 h⟩
  · rw [if_neg h]
    push Not at h
    obtain ⟨pr, e, hp⟩ := qrLoop_spec p2 (poly p1) hlead hdv (deg p1 - deg p2 + 1) p1 (by
      have z : poly (p1.drop (deg p2 + (deg p1 - deg p2 + 1))) = 0 := by
        ext m
        rw [poly_coeff, at'_drop, (deg_spec p1).1 _ (by omega), Polynomial.coeff_zero]
      rw [z, mul_zero, zero_mul, add_zero]
      ext m
      rw [poly_coeff, poly_coeff, at'_take]
      by_cases hm : m < deg p2 + (deg p1 - deg p2 + 1)
      · rw [if_pos hm]
      · rw [if_neg hm, (deg_spec p1).1 m (by omega)])
    refine ⟨pr, e, poly (pr.drop (deg p2)), poly (pr.take (deg p2)), by rw [hp]; ring, fun i hi => ?_, fun i hi => ?_, fun i => ?_⟩
    · rw [poly_coeff, at'_take, if_neg (by omega)]
    · rw [poly_coeff, at'_take, if_pos hi]
    · rw [poly_coeff, at'_drop]

/-! ### division by a power series inverse -/

theorem at'_reverse (c : List α) (i : Nat) (h : i < c.length) : at' c.reverse i = at' c (c.length - 1 - i) := by
  rw [at', at', List.getD_eq_getElem?_getD, List.getD_eq_getElem?_getD, List.getElem?_reverse h]

theorem poly_rev (c : List α) (N : Nat) (h : N < c.length) :
    poly ((c.take (N + 1)).reverse ++ c.drop (N + 1)) = Polynomial.reflect N (poly c) := by
  have hl : (c.take (N + 1)).length = N + 1 := by rw [List.length_take]; omega
  ext m
  rw [Polynomial.coeff_reflect, poly_coeff, poly_coeff, at'_append, List.length_reverse, hl]
  by_cases hm : m ≤ N
  · rw [if_pos (by omega), Polynomial.revAt_le hm, at'_reverse _ _ (by omega), at'_take, if_pos (by omega), hl]
    rfl
  · rw [if_neg (by omega), at'_drop, Polynomial.revAt_eq_self_of_lt (by omega)]
    congr 1; omega

theorem poly_reverse (c : List α) : poly (reverse c) = Polynomial.reflect (deg c) (poly c) := by
  rw [reverse]
  by_cases h : 0 < c.length
  · rw [if_pos h]
    exact poly_rev c (deg c) (deg_lt c h)
  · have hc : c = [] := List.length_eq_zero_iff.mp (by omega)
    rw [if_neg h, hc]
    simp [poly]

theorem quotRemHensel_spec [Nontrivial α] (thr : Nat) (p1 p2 : List α) (hlead : at' p2 (deg p2) ≠ 0)
    (hdv : DivBy (at' p2 (deg p2))) :
    ∃ pr, quotRemHensel thr p1 p2 = some pr ∧ Layout pr p1 p2 := by
  rw [quotRemHensel]
  by_cases h : deg p1 < deg p2 ∨ isPower p2 = true
  · rw [if_pos h]
    exact ⟨p1, rfl, layout_short p1 p2 h⟩
  · rw [if_neg h]
    push Not at h
    simp only
    have hlen2 : 0 < p2.length := by
      by_contra hc
      rw [at'_ge (by omega)] at hlead
      exact hlead rfl
    have hrl : 0 < (reverse p2).length := by
      rw [reverse, if_pos hlen2]
      simp
      omega
    have hr0 : DivBy (at' (reverse p2) 0) := by
      rw [← poly_coeff, poly_reverse, Polynomial.coeff_reflect, Polynomial.revAt_le (by omega), poly_coeff]
      exact hdv
    obtain ⟨inv, e1, hinv⟩ := C38_inverse_ring thr (reverse p2) (deg p1 - deg p2 + 1) hrl hr0
    obtain ⟨q0, e2, hl2, ha2⟩ := C37_mul thr [0] (some inv) (some (reverse p1)) (some (deg p1 - deg p2))
    simp only [Option.getD_some] at hl2 ha2
    generalize hlq : deg p1 - deg p2 = lq at *
    have hN1 : (poly p1).natDegree ≤ deg p1 := (C37_deg p1).symm.le
    have hN2 : (poly p2).natDegree ≤ deg p2 := (C37_deg p2).symm.le
    have hq0 : (poly q0).natDegree ≤ lq := by
      rw [Polynomial.natDegree_le_iff_coeff_eq_zero]
      intro m hm
      rw [poly_coeff, at'_ge (by omega)]
    -- the quotient
    generalize hq : (q0.take (lq + 1)).reverse ++ q0.drop (lq + 1) = q
    have hpq : poly q = Polynomial.reflect lq (poly q0) := by
      rw [← hq]
      exact poly_rev q0 lq (by omega)
    obtain ⟨qp, e3, hqp⟩ := C37_times thr q none (some p2)
    simp only [Option.getD_some, Option.getD_none] at hqp
    have hr2 : Polynomial.reflect (deg p2) (poly (reverse p2)) = poly p2 := by
      rw [poly_reverse, Polynomial.reflect_reflect]
    have hNr2 : (poly (reverse p2)).natDegree ≤ deg p2 := by
      rw [Polynomial.natDegree_le_iff_coeff_eq_zero]
      intro m hm
      rw [poly_reverse, Polynomial.coeff_reflect, Polynomial.revAt_eq_self_of_lt hm, poly_coeff, (deg_spec p2).1 m hm]
    have hprod : poly q * poly p2 = Polynomial.reflect (lq + deg p2) (poly q0 * poly (reverse p2)) := by
      rw [Polynomial.reflect_mul _ _ hq0 hNr2, hpq, hr2]
    have htrunc : ∀ d, d ≤ lq → (poly q0 * poly (reverse p2)).coeff d = (poly (reverse p1)).coeff d := by
      have hdv1 : X ^ (lq + 1) ∣ poly q0 - poly inv * poly (reverse p1) := by
        rw [Polynomial.X_pow_dvd_iff]
        intro d hd
        rw [Polynomial.coeff_sub, poly_coeff, ha2 d (by omega), sub_self]
      have hdv2 : X ^ (lq + 1) ∣ poly (reverse p2) * poly inv - 1 := by
        rw [Polynomial.X_pow_dvd_iff]
        intro d hd
        rw [Polynomial.coeff_sub, hinv d hd, Polynomial.coeff_one, sub_self]
      have hdv : X ^ (lq + 1) ∣ poly q0 * poly (reverse p2) - poly (reverse p1) := by
        have e : poly q0 * poly (reverse p2) - poly (reverse p1) =
            poly (reverse p2) * (poly q0 - poly inv * poly (reverse p1)) +
            poly (reverse p1) * (poly (reverse p2) * poly inv - 1) := by ring
        rw [e]
        exact dvd_add (Dvd.dvd.mul_left hdv1 _) (Dvd.dvd.mul_left hdv2 _)
      intro d hd
      have := Polynomial.X_pow_dvd_iff.mp hdv d (by omega)
      rwa [Polynomial.coeff_sub, sub_eq_zero] at this
    rw [e1]
    simp only [Option.bind_eq_bind, Option.bind_some]
    rw [e2]
    simp only [Option.bind_some, times]
    rw [hq, e3]
    simp only [Option.bind_some]
    refine ⟨_, rfl, poly q, poly p1 - poly q * poly p2, by ring, ?_, ?_, ?_⟩
    · intro i hi
      rw [Polynomial.coeff_sub, hprod, Polynomial.coeff_reflect, sub_eq_zero]
      by_cases hi2 : i ≤ lq + deg p2
      · rw [Polynomial.revAt_le hi2, htrunc _ (by omega), poly_reverse, Polynomial.coeff_reflect,
          Polynomial.revAt_le (by omega)]
        congr 1; omega
      · rw [Polynomial.revAt_eq_self_of_lt (by omega), poly_coeff, (deg_spec p1).1 i (by omega)]
        rw [Polynomial.coeff_eq_zero_of_natDegree_lt]
        have := Polynomial.natDegree_mul_le (p := poly q0) (q := poly (reverse p2))
        omega
    · intro i hi
      rw [← poly_coeff, (C37_add _ _ _).2.1, Option.getD_none, (C37_add _ _ _).2.2, Option.getD_none, Option.getD_some,
        Option.getD_some, hqp, Polynomial.coeff_add, poly_coeff (List.replicate _ _ ++ q), at'_append, List.length_replicate,
        if_pos hi, at'_replicate_zero, add_zero]
    · intro i
      have hrz : (poly p1 - poly q * poly p2).coeff (deg p2 + i) = 0 := by
        rw [Polynomial.coeff_sub, hprod, Polynomial.coeff_reflect, sub_eq_zero]
        by_cases hi2 : deg p2 + i ≤ lq + deg p2
        · rw [Polynomial.revAt_le hi2, htrunc _ (by omega), poly_reverse, Polynomial.coeff_reflect,
            Polynomial.revAt_le (by omega)]
          congr 1; omega
        · rw [Polynomial.revAt_eq_self_of_lt (by omega), poly_coeff, (deg_spec p1).1 _ (by omega)]
          rw [Polynomial.coeff_eq_zero_of_natDegree_lt]
          have := Polynomial.natDegree_mul_le (p := poly q0) (q := poly (reverse p2))
          omega
      rw [← poly_coeff, (C37_add _ _ _).2.1, Option.getD_none, (C37_add _ _ _).2.2, Option.getD_none, Option.getD_some,
        Option.getD_some, hqp, Polynomial.coeff_add, hrz, zero_add, poly_coeff, poly_coeff, at'_append, List.length_replicate,
        if_neg (by omega)]
      congr 1; omega

/-! ### quotient and remainder -/

theorem lead_ne (p2 : List α) (h : poly p2 ≠ 0) : at' p2 (deg p2) ≠ 0 := by
  rw [← poly_coeff, C37_deg]
  intro h0
  exact h (Polynomial.leadingCoeff_eq_zero.mp h0)

theorem quotRem_eq (thr : Nat) (useLong : Nat → Nat → Bool) (p1 p2 : List α) (h : poly p2 ≠ 0)
    (hdv : DivBy (at' p2 (deg p2))) : quotRem thr useLong p1 p2 =
      if useLong (deg p1) (deg p2) = true then quotRemLong p1 p2 else quotRemHensel thr p1 p2 := by
  simp only [quotRem, cdiv, if_neg (lead_ne p2 h), Option.bind_eq_bind, Option.bind_some, hdv 1, ne_eq, not_true_eq_false,
    or_false]

/-- **C38**: `quot_rem` leaves the remainder in the low `deg p2` coefficients and the quotient above
them, whichever of the two algorithms is chosen, over every commutative ring and every divisor whose
leading coefficient can be divided by exactly. -/
theorem C38_quot_rem_ring [Nontrivial α] (thr : Nat) (useLong : Nat → Nat → Bool) (p1 p2 : List α)
    (hdv : DivBy (leadingCoeff p2)) :
    ∃ pr, quotRem thr useLong p1 p2 = some pr ∧ Layout pr p1 p2 := by
  have hl : at' p2 (deg p2) ≠ 0 := hdv.ne_zero
  have h : poly p2 ≠ 0 := by
    intro h
    rw [← poly_coeff, h, Polynomial.coeff_zero] at hl
    exact hl rfl
  rw [quotRem_eq thr useLong p1 p2 h hdv]
  by_cases hu : useLong (deg p1) (deg p2) = true
  · rw [if_pos hu]; exact quotRemLong_spec p1 p2 hl hdv
  · rw [if_neg hu]; exact quotRemHensel_spec thr p1 p2 hl hdv

/-- **C38**: the same over every field and for every non-zero divisor. -/
theorem C38_quot_rem {α : Type} [Field α] [DecidableEq α] (thr : Nat) (useLong : Nat → Nat → Bool) (p1 p2 : List α)
    (h : poly p2 ≠ 0) :
    ∃ pr, quotRem thr useLong p1 p2 = some pr ∧ Layout pr p1 p2 :=
  C38_quot_rem_ring thr useLong p1 p2 (divBy_field _ (lead_ne p2 h))

theorem shiftLoop_spec (l2 : Nat) : ∀ (n i : Nat) (pr : List α) (j : Nat),
    at' (shiftLoop l2 n i pr) j = if i ≤ j ∧ j < i + n then at' pr (j + l2) else at' pr j := by
  intro n
  induction n with
  | zero => intro i pr j; rw [if_neg (by omega)]; rfl
  | succ n ih =>
    intro i pr j
    rw [shiftLoop, ih, at'_put, at'_put, at'_reserve, at'_reserve]
    by_cases h : j = i
    · rw [if_neg (by omega), if_pos h, if_pos (by omega), h]
    · rw [if_neg h]
      by_cases h2 : i + 1 ≤ j ∧ j < i + 1 + n
      · rw [if_pos h2, if_neg (by omega), if_pos (by omega)]
      · rw [if_neg h2, if_neg (by omega)]

theorem Layout.q_deg {p1 p2 : List α} (q r : Polynomial α) (hdv : DivBy (leadingCoeff p2)) (he : poly p1 = q * poly p2 + r)
    (hr : ∀ i, deg p2 ≤ i → r.coeff i = 0) (hl : deg p2 ≤ deg p1) (i : Nat) (hi : deg p1 - deg p2 < i) : q.coeff i = 0 := by
  by_contra hq
  have hq0 : q ≠ 0 := by rintro rfl; simp at hq
  have hd : i ≤ q.natDegree := Polynomial.le_natDegree_of_ne_zero hq
  have hlc : (q * poly p2).coeff (q.natDegree + deg p2) ≠ 0 := by
    rw [C37_deg p2, Polynomial.coeff_mul_degree_add_degree]
    intro h0
    apply hq0
    rw [← Polynomial.leadingCoeff_eq_zero]
    apply hdv.cancel
    rw [zero_mul, ← h0, Polynomial.leadingCoeff, Polynomial.leadingCoeff, poly_coeff, ← C37_deg]
    rfl
  apply hlc
  have e : q * poly p2 = poly p1 - r := by rw [he]; ring
  rw [e, Polynomial.coeff_sub, hr _ (by omega), sub_zero, poly_coeff, (deg_spec p1).1 _ (by omega)]

/-- **C38**: `div` and `mod` are the quotient and the remainder: `p1 = (p1 / p2) * p2 + p1 % p2` with
`deg (p1 % p2) < deg p2`, over every commutative ring, for every divisor whose leading coefficient can
be divided by exactly and whichever of the two algorithms is chosen. -/
theorem C38_div_mod_ring [Nontrivial α] (thr : Nat) (useLong : Nat → Nat → Bool) (p1 p2 : List α)
    (hdv : DivBy (leadingCoeff p2)) :
    ∃ q r, div thr useLong p1 p2 = some q ∧ mod thr useLong p1 p2 = some r ∧
      poly p1 = poly q * poly p2 + poly r ∧ (poly r).degree < (poly p2).degree := by
  have h : poly p2 ≠ 0 := by
    intro h
    have hl := hdv.ne_zero
    rw [leadingCoeff, ← poly_coeff, h, Polynomial.coeff_zero] at hl
    exact hl rfl
  obtain ⟨pr, e, hlay⟩ := C38_quot_rem_ring thr useLong p1 p2 hdv
  have hdeg : (poly p2).degree = (deg p2 : Nat) := by rw [Polynomial.degree_eq_natDegree h, C37_deg]
  rw [div, mod, e, hdeg]
  simp only [Option.bind_eq_bind, Option.bind_some]
  by_cases hlt : deg p1 < deg p2
  · rw [if_pos hlt, if_neg (by omega)]
    have hpr : pr = p1 := by
      rw [quotRem_eq thr useLong p1 p2 h hdv] at e
      by_cases hu : useLong (deg p1) (deg p2) = true
      · rw [if_pos hu, quotRemLong] at e
        simp only [hlt, true_or, if_true, Option.some.injEq] at e
        exact e.symm
      · rw [if_neg hu, quotRemHensel] at e
        simp only [hlt, true_or, if_true, Option.some.injEq] at e
        exact e.symm
    subst hpr
    refine ⟨[], pr, rfl, rfl, by simp [poly], ?_⟩
    rw [Polynomial.degree_lt_iff_coeff_zero]
    intro m hm
    rw [poly_coeff, (deg_spec pr).1 m (by omega)]
  · rw [if_neg hlt, if_pos (by omega)]
    obtain ⟨q, r, he, hr, h1, h2⟩ := hlay
    have hqd := Layout.q_deg q r hdv he hr (by omega)
    refine ⟨_, _, rfl, rfl, ?_, ?_⟩
    · rw [he]
      congr 2
      · ext m
        rw [poly_coeff, at'_resize, shiftLoop_spec]
        by_cases hm : m < deg p1 - deg p2 + 1
        · rw [if_pos hm, if_pos (by omega), ← h2]; congr 1; omega
        · rw [if_neg hm, hqd m (by omega)]
      · ext m
        rw [poly_coeff, at'_resize]
        by_cases hm : m < deg p2
        · rw [if_pos hm, h1 m hm]
        · rw [if_neg hm, hr m (by omega)]
    · rw [Polynomial.degree_lt_iff_coeff_zero]
      intro m hm
      rw [poly_coeff, at'_resize, if_neg (by omega)]

/-- **C38**: the same over every field and for every non-zero divisor. -/
theorem C38_div_mod {α : Type} [Field α] [DecidableEq α] (thr : Nat) (useLong : Nat → Nat → Bool) (p1 p2 : List α)
    (h : poly p2 ≠ 0) :
    ∃ q r, div thr useLong p1 p2 = some q ∧ mod thr useLong p1 p2 = some r ∧
      poly p1 = poly q * poly p2 + poly r ∧ (poly r).degree < (poly p2).degree :=
  C38_div_mod_ring thr useLong p1 p2 (divBy_field _ (lead_ne p2 h))

/-- **C38**: so `div` and `mod` are Mathlib's division of polynomials over a field. -/
theorem C38_euclid {α : Type} [Field α] [DecidableEq α] (thr : Nat) (useLong : Nat → Nat → Bool) (p1 p2 : List α) (h : poly p2 ≠ 0) :
    ∃ q r, div thr useLong p1 p2 = some q ∧ mod thr useLong p1 p2 = some r ∧
      poly q = poly p1 / poly p2 ∧ poly r = poly p1 % poly p2 := by
  obtain ⟨q, r, e1, e2, h1, h2⟩ := C38_div_mod thr useLong p1 p2 h
  refine ⟨q, r, e1, e2, ?_⟩
  have hd := EuclideanDomain.div_add_mod (poly p1) (poly p2)
  have hm : (poly p1 % poly p2).degree < (poly p2).degree := EuclideanDomain.mod_lt _ h
  have key : poly p2 * (poly q - poly p1 / poly p2) = poly p1 % poly p2 - poly r := by
    linear_combination -hd - h1
  have hz : poly q - poly p1 / poly p2 = 0 := by
    by_contra hne
    have hdeg : (poly p1 % poly p2 - poly r).degree < (poly p2).degree :=
      lt_of_le_of_lt (Polynomial.degree_sub_le _ _) (max_lt hm h2)
    rw [← key, Polynomial.degree_mul] at hdeg
    have : (0 : WithBot Nat) ≤ (poly q - poly p1 / poly p2).degree := Polynomial.zero_le_degree_iff.mpr hne
    have h3 : (poly p2).degree ≤ (poly p2).degree + (poly q - poly p1 / poly p2).degree := le_add_of_nonneg_right this
    exact absurd hdeg (not_lt.mpr h3)
  rw [hz, mul_zero] at key
  exact ⟨sub_eq_zero.mp hz, (sub_eq_zero.mp key.symm).symm⟩

/-- **C38**: division by the zero polynomial divides by a zero coefficient. -/
theorem C38_div_zero (thr : Nat) (useLong : Nat → Nat → Bool) (p1 p2 : List α) (h : poly p2 = 0) :
    quotRem thr useLong p1 p2 = none := by
  have h0 : at' p2 (deg p2) = 0 := by rw [← poly_coeff, h, Polynomial.coeff_zero]
  simp only [quotRem, cdiv, if_pos h0, Option.bind_eq_bind, Option.bind_none]

section integral
variable {α : Type} [Field α] [DecidableEq α]

theorem integLoop_spec (c : List α) : ∀ (n : Nat) (r : List α), (∀ i, i < n → ((i + 1 : Nat) : α) ≠ 0) →
    ∃ r', integLoop c n r = some r' ∧
      ∀ j, at' r' j = if 1 ≤ j ∧ j ≤ n then Quo.quo (at' c (j - 1)) (j : α) else at' r j := by
  intro n
  induction n with
  | zero => intro r _; exact ⟨r, rfl, fun j => by rw [if_neg (by omega)]⟩
  | succ n ih =>
    intro r h
    rw [integLoop]
    simp only [cdiv, if_neg (h n (by omega)), Option.bind_eq_bind, Option.bind_some]
    obtain ⟨r', e, ha⟩ := ih (put r (n + 1) (Quo.quo (at' c n) ((n + 1 : Nat) : α))) (fun i hi => h i (by omega))
    refine ⟨r', e, fun j => ?_⟩
    rw [ha, at'_put]
    by_cases h1 : 1 ≤ j ∧ j ≤ n
    · rw [if_pos h1, if_pos (by omega)]
    · rw [if_neg h1]
      by_cases h2 : j = n + 1
      · subst h2; rw [if_pos rfl, if_pos (by omega)]; rfl
      · rw [if_neg h2, if_neg (by omega)]

/-- **C38**: `integral(c0)` is the antiderivative with constant coefficient `c0`, when the integers up
to the degree plus one are invertible. -/
theorem C38_integral (c : List α) (c0 : α) (h : ∀ i, i ≤ deg c → ((i + 1 : Nat) : α) ≠ 0) :
    ∃ r, integral c c0 = some r ∧ Polynomial.derivative (poly r) = poly c ∧ (poly r).coeff 0 = c0 := by
  have h1 : ∀ j, at' [c0] (j + 1) = 0 := fun j => at'_ge (by simp)
  rw [integral]
  by_cases hc : c.length = 0
  · rw [if_pos hc]
    refine ⟨[c0], rfl, ?_, by rw [poly_coeff]; rfl⟩
    ext m
    rw [Polynomial.coeff_derivative, poly_coeff, poly_coeff, h1, zero_mul, at'_ge (by omega)]
  · rw [if_neg hc]
    obtain ⟨r, e, ha⟩ := integLoop_spec c (deg c + 1) [c0] (fun i hi => h i (by omega))
    refine ⟨r, e, ?_, by rw [poly_coeff, ha, if_neg (by omega)]; rfl⟩
    ext m
    rw [Polynomial.coeff_derivative, poly_coeff, poly_coeff, ha]
    by_cases hm : m ≤ deg c
    · rw [if_pos (by omega), Nat.add_sub_cancel]
      have := h m hm
      push_cast at this ⊢
      exact div_mul_cancel₀ _ this
    · rw [if_neg (by omega), h1, zero_mul, (deg_spec c).1 m (by omega)]

end integral

/-! ### examples -/

example : div 2 (fun _ _ => true) [(1 : Rat), 2, 3, 4] [1, 2] = some [(3 : Rat) / 4, 1 / 2, 2] := by decide +kernel
example : mod 2 (fun _ _ => true) [(1 : Rat), 2, 3, 4] [1, 2] = some [(1 : Rat) / 4] := by decide +kernel
example : div 2 (fun _ _ => false) [(1 : Rat), 2, 3, 4] [1, 2] = some [(3 : Rat) / 4, 1 / 2, 2] := by decide +kernel
example : mod 2 (fun _ _ => false) [(1 : Rat), 2, 3, 4] [1, 2] = some [(1 : Rat) / 4] := by decide +kernel
example : inverse 2 [(2 : Rat), 1] 4 = some [(1 : Rat) / 2, -1 / 4, 1 / 8, -1 / 16] := by decide +kernel
example : div 2 (fun _ _ => true) [(1 : Int), 2, 3, 4] [5, -1] = some [-117, -23, -4] := by decide +kernel
example : mod 2 (fun _ _ => false) [(1 : Int), 2, 3, 4] [5, -1] = some [586] := by decide +kernel
example : DivBy (leadingCoeff [(5 : Int), -1]) := divBy_int.2
example : poly [(1 : Rat), 2] ≠ 0 := by
  intro h
  have : (poly [(1 : Rat), 2]).coeff 1 = 0 := by rw [h, Polynomial.coeff_zero]
  rw [poly_coeff] at this
  exact absurd this (by decide)

end Altruct.Polynom
