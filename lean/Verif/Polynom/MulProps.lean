/-
C37: polynomial addition, multiplication (schoolbook and Karatsuba, with truncation and aliasing),
evaluation and derivative.
-/
import Verif.Polynom.Model
import Mathlib.RingTheory.PowerSeries.Basic
import Mathlib.Algebra.Polynomial.Derivative
import Mathlib.Tactic.Ring
import Mathlib.Tactic.Linarith
import Mathlib.Tactic.Abel

set_option linter.unusedSectionVars false

namespace Altruct.Polynom

variable {α : Type} [CommRing α]

/-! ### specification -/

/-- The polynomial with the given coefficients. -/
noncomputable def poly (c : List α) : Polynomial α := ∑ i ∈ Finset.range c.length, Polynomial.C (at' c i) * Polynomial.X ^ i

theorem at'_ge {c : List α} {i : Nat} (h : c.length ≤ i) : at' c i = 0 := by
  rw [at', List.getD_eq_getElem?_getD, List.getElem?_eq_none h]; rfl

theorem poly_coeff (c : List α) (n : Nat) : (poly c).coeff n = at' c n := by
  rw [poly, Polynomial.finsetSum_coeff]
  simp only [Polynomial.coeff_C_mul, Polynomial.coeff_X_pow, mul_ite, mul_one, mul_zero]
  by_cases h : n < c.length
  · rw [Finset.sum_ite_eq, if_pos (Finset.mem_range.mpr h)]
  · rw [Finset.sum_ite_eq, if_neg (by simpa using h), at'_ge (by omega)]

/-! ### coefficients -/

theorem rd_at {v : List α} {i : Nat} (h : i < v.length) : rd v i = some (at' v i) := by
  rw [rd, at', List.getD_eq_getElem?_getD, List.getElem?_eq_getElem h]; rfl

theorem wr_eq {v : List α} {i : Nat} (h : i < v.length) (x : α) : wr v i x = some (v.set i x) := by
  rw [wr, if_pos h]

theorem at'_set (v : List α) (i : Nat) (x : α) (j : Nat) :
    at' (v.set i x) j = if j = i ∧ i < v.length then x else at' v j := by
  rw [at', at', List.getD_eq_getElem?_getD, List.getD_eq_getElem?_getD]
  by_cases h : j = i
  · subst h
    by_cases h2 : j < v.length
    · rw [List.getElem?_set_self h2, if_pos ⟨rfl, h2⟩]; rfl
    · rw [if_neg (by omega), List.getElem?_eq_none (by simp; omega), List.getElem?_eq_none (by omega)]
  · rw [List.getElem?_set_ne (Ne.symm h), if_neg (by tauto)]

theorem at'_set_self {v : List α} {i : Nat} (h : i < v.length) (x : α) : at' (v.set i x) i = x := by
  rw [at'_set, if_pos ⟨rfl, h⟩]

theorem at'_set_ne (v : List α) {i j : Nat} (h : j ≠ i) (x : α) : at' (v.set i x) j = at' v j := by
  rw [at'_set, if_neg (by tauto)]

theorem at'_drop (v : List α) (k i : Nat) : at' (v.drop k) i = at' v (k + i) := by
  simp [at', List.getD_eq_getElem?_getD]

theorem at'_take (v : List α) (k i : Nat) : at' (v.take k) i = if i < k then at' v i else 0 := by
  rw [at', at', List.getD_eq_getElem?_getD, List.getD_eq_getElem?_getD]
  split_ifs with h
  · rw [List.getElem?_take_of_lt h]
  · rw [List.getElem?_take, if_neg h]; rfl

theorem at'_append (u v : List α) (i : Nat) : at' (u ++ v) i = if i < u.length then at' u i else at' v (i - u.length) := by
  rw [at', List.getD_eq_getElem?_getD]
  split_ifs with h
  · rw [List.getElem?_append_left h, at', List.getD_eq_getElem?_getD]
  · rw [List.getElem?_append_right (by omega), at', List.getD_eq_getElem?_getD]

theorem at'_replicate_zero (n i : Nat) : at' (List.replicate n (0 : α)) i = 0 := by
  rw [at', List.getD_eq_getElem?_getD, List.getElem?_replicate]
  split_ifs <;> rfl

theorem length_resize (c : List α) (n : Nat) : (resize c n).length = n := by
  simp [resize]; omega

theorem at'_resize (c : List α) (n i : Nat) : at' (resize c n) i = if i < n then at' c i else 0 := by
  rw [resize, at'_append, at'_replicate_zero, at'_take]
  simp only [List.length_take]
  by_cases h1 : i < n
  · by_cases h2 : i < c.length
    · rw [if_pos (by omega), if_pos h1]
    · rw [if_neg (by omega), if_pos h1, at'_ge (by omega)]
  · rw [if_neg h1]; simp

theorem length_reserve (c : List α) (n : Nat) : (reserve c n).length = max c.length n := by
  rw [reserve]
  split_ifs with h
  · rw [length_resize]; omega
  · omega

theorem at'_reserve (c : List α) (n i : Nat) : at' (reserve c n) i = at' c i := by
  rw [reserve]
  split_ifs with h
  · rw [at'_resize]
    split_ifs with h2
    · rfl
    · rw [at'_ge (by omega)]
  · rfl

theorem length_put (c : List α) (i : Nat) (x : α) : (put c i x).length = max c.length (i + 1) := by
  rw [put, List.length_set, length_reserve]

theorem at'_put (c : List α) (i : Nat) (x : α) (j : Nat) : at' (put c i x) j = if j = i then x else at' c j := by
  rw [put, at'_set, at'_reserve, length_reserve]
  by_cases h : j = i
  · rw [if_pos ⟨h, by omega⟩, if_pos h]
  · rw [if_neg (by tauto), if_neg h]

section deg
variable [DecidableEq α]

theorem degLoop_spec (c : List α) (n : Nat) :
    degLoop c n ≤ n ∧ (∀ j, degLoop c n < j → j ≤ n → at' c j = 0) ∧ (degLoop c n = 0 ∨ at' c (degLoop c n) ≠ 0) := by
  induction n with
  | zero => exact ⟨le_refl _, fun j h1 h2 => by simp [degLoop] at h1; omega, Or.inl rfl⟩
  | succ n ih =>
    rw [degLoop]
    by_cases h : at' c (n + 1) = 0
    · rw [if_neg (by simpa using h)]
      refine ⟨by omega, fun j h1 h2 => ?_, ih.2.2⟩
      by_cases hj : j = n + 1
      · rw [hj, h]
      · exact ih.2.1 j h1 (by omega)
    · rw [if_pos h]
      exact ⟨le_refl _, fun j h1 h2 => by omega, Or.inr h⟩

/-- `deg` is the degree (0 for the zero polynomial). -/
theorem deg_spec (c : List α) : (∀ j, deg c < j → at' c j = 0) ∧ (deg c = 0 ∨ at' c (deg c) ≠ 0) := by
  obtain ⟨h1, h2, h3⟩ := degLoop_spec c (c.length - 1)
  refine ⟨fun j hj => ?_, h3⟩
  by_cases h : j < c.length
  · exact h2 j hj (by omega)
  · exact at'_ge (by omega)

theorem deg_lt (c : List α) (h : 0 < c.length) : deg c < c.length := by
  have := (degLoop_spec c (c.length - 1)).1
  rw [deg]; omega

theorem deg_le (c : List α) : deg c ≤ c.length - 1 := (degLoop_spec c (c.length - 1)).1

theorem deg_unique (c : List α) (d : Nat) (h : ∀ j, d < j → at' c j = 0) (h2 : d = 0 ∨ at' c d ≠ 0) : deg c = d := by
  obtain ⟨g1, g2⟩ := deg_spec c
  rcases lt_trichotomy (deg c) d with hlt | heq | hgt
  · rcases h2 with rfl | h2
    · omega
    · exact absurd (g1 d hlt) h2
  · exact heq
  · rcases g2 with g2 | g2
    · omega
    · exact absurd (h _ hgt) g2

/-- **C37**: `deg()` is the degree of the polynomial. -/
theorem C37_deg (c : List α) : deg c = (poly c).natDegree := by
  apply deg_unique
  · intro j hj
    rw [← poly_coeff, Polynomial.coeff_eq_zero_of_natDegree_lt hj]
  · by_cases h : (poly c).natDegree = 0
    · exact Or.inl h
    · right
      rw [← poly_coeff]
      intro h0
      have : (poly c).leadingCoeff = 0 := h0
      rw [Polynomial.leadingCoeff_eq_zero] at this
      rw [this] at h
      simp at h

end deg

/-! ### sources -/

theorem src_set (pr : List α) (s : Option (List α)) {x j : Nat} (v : α) (h : j ≠ x) :
    at' (s.getD (pr.set x v)) j = at' (s.getD pr) j := by
  cases s with
  | none => exact at'_set_ne _ h _
  | some u => rfl

theorem src_len_set (pr : List α) (s : Option (List α)) (x : Nat) (v : α) :
    (s.getD (pr.set x v)).length = (s.getD pr).length := by
  cases s with
  | none => exact List.length_set
  | some u => rfl

/-- Sources do not change where the destination does not. -/
theorem src_congr {pr pr' : List α} (s : Option (List α)) {j : Nat} (h : at' pr' j = at' pr j) :
    at' (s.getD pr') j = at' (s.getD pr) j := by
  cases s with
  | none => exact h
  | some u => rfl

theorem src_len {pr pr' : List α} (s : Option (List α)) (h : pr'.length = pr.length) :
    (s.getD pr').length = (s.getD pr).length := by
  cases s with
  | none => exact h
  | some u => rfl

/-! ### addition -/

section add
variable [DecidableEq α]

theorem mapLoop_spec (f : α → α → α) (s1 s2 : Option (List α)) : ∀ (k i : Nat) (pr : List α), pr.length = i + k →
    (mapLoop f s1 s2 k i pr).length = pr.length ∧
    ∀ j, at' (mapLoop f s1 s2 k i pr) j =
      if i ≤ j ∧ j < i + k then f (at' (s1.getD pr) j) (at' (s2.getD pr) j) else at' pr j := by
  intro k
  induction k with
  | zero => intro i pr h; exact ⟨rfl, fun j => by rw [if_neg (by omega)]; rfl⟩
  | succ k ih =>
    intro i pr h
    have hlen : (put pr i (f (at' (s1.getD pr) i) (at' (s2.getD pr) i))).length = pr.length := by
      rw [length_put]; omega
    obtain ⟨h1, h2⟩ := ih (i + 1) (put pr i (f (at' (s1.getD pr) i) (at' (s2.getD pr) i))) (by rw [hlen]; omega)
    rw [mapLoop]
    refine ⟨by rw [h1, hlen], fun j => ?_⟩
    rw [h2]
    have hp : ∀ j, j ≠ i → at' (put pr i (f (at' (s1.getD pr) i) (at' (s2.getD pr) i))) j = at' pr j :=
      fun j hj => by rw [at'_put, if_neg hj]
    by_cases hj : j = i
    · subst hj
      rw [if_neg (by omega), if_pos (by omega), at'_put, if_pos rfl]
    · rw [hp j hj, src_congr s1 (hp j hj), src_congr s2 (hp j hj)]
      by_cases hr : i + 1 ≤ j ∧ j < i + 1 + k
      · rw [if_pos hr, if_pos (by omega)]
      · rw [if_neg hr, if_neg (by omega)]

theorem src_resize (pr : List α) (s : Option (List α)) (n j : Nat) (h : j < n) :
    at' (s.getD (resize pr n)) j = at' (s.getD pr) j := by
  apply src_congr
  rw [at'_resize, if_pos h]

/-- **C37**: `neg`, `add` and `sub` are the operations on polynomials, whether or not the destination
is one of the operands (`none`). -/
theorem C37_add (pr : List α) (s1 s2 : Option (List α)) :
    poly (neg pr s1) = - poly (s1.getD pr) ∧
    poly (add pr s1 s2) = poly (s1.getD pr) + poly (s2.getD pr) ∧
    poly (sub pr s1 s2) = poly (s1.getD pr) - poly (s2.getD pr) := by
  refine ⟨?_, ?_, ?_⟩
  · ext j
    rw [Polynomial.coeff_neg, poly_coeff, poly_coeff, neg]
    rw [(mapLoop_spec _ _ _ _ _ _ (by rw [length_resize]; omega)).2]
    by_cases h : j ≤ deg (s1.getD pr)
    · rw [if_pos (by omega), src_resize _ _ _ _ (by omega)]
    · rw [if_neg (by omega), at'_resize, if_neg (by omega), (deg_spec _).1 j (by omega), neg_zero]
  · ext j
    rw [Polynomial.coeff_add, poly_coeff, poly_coeff, poly_coeff, add]
    rw [(mapLoop_spec _ _ _ _ _ _ (by rw [length_resize]; omega)).2]
    by_cases h : j ≤ max (deg (s1.getD pr)) (deg (s2.getD pr))
    · rw [if_pos (by omega), src_resize _ _ _ _ (by omega), src_resize _ _ _ _ (by omega)]
    · rw [if_neg (by omega), at'_resize, if_neg (by omega), (deg_spec _).1 j (by omega),
        (deg_spec _).1 j (by omega), add_zero]
  · ext j
    rw [Polynomial.coeff_sub, poly_coeff, poly_coeff, poly_coeff, sub]
    rw [(mapLoop_spec _ _ _ _ _ _ (by rw [length_resize]; omega)).2]
    by_cases h : j ≤ max (deg (s1.getD pr)) (deg (s2.getD pr))
    · rw [if_pos (by omega), src_resize _ _ _ _ (by omega), src_resize _ _ _ _ (by omega)]
    · rw [if_neg (by omega), at'_resize, if_neg (by omega), (deg_spec _).1 j (by omega),
        (deg_spec _).1 j (by omega), sub_zero]

end add

/-! ### array helpers -/

theorem zeroLoop_spec : ∀ (n s : Nat) (pr : List α), (n = 0 ∨ s + n ≤ pr.length) →
    ∃ pr', zeroLoop n s pr = some pr' ∧ pr'.length = pr.length ∧
      ∀ j, at' pr' j = if s ≤ j ∧ j < s + n then 0 else at' pr j := by
  intro n
  induction n with
  | zero => intro s pr _; exact ⟨pr, rfl, rfl, fun j => by rw [if_neg (by omega)]⟩
  | succ n ih =>
    intro s pr h
    obtain ⟨pr', e, hl, ha⟩ := ih (s + 1) (pr.set s 0) (by rw [List.length_set]; omega)
    refine ⟨pr', ?_, by rw [hl, List.length_set], fun j => ?_⟩
    · rw [zeroLoop, wr_eq (by omega)]; exact e
    · rw [ha]
      by_cases hj : j = s
      · subst hj
        rw [if_neg (by omega), if_pos (by omega), at'_set_self (by omega)]
      · rw [at'_set_ne _ hj]
        by_cases hr : s + 1 ≤ j ∧ j < s + 1 + n
        · rw [if_pos hr, if_pos (by omega)]
        · rw [if_neg hr, if_neg (by omega)]

theorem addToLoop_spec (off : Nat) (p2 : List α) : ∀ (n i : Nat) (pr : List α),
    (n = 0 ∨ off + i + n ≤ pr.length) → (n = 0 ∨ i + n ≤ p2.length) →
    ∃ pr', addToLoop off p2 n i pr = some pr' ∧ pr'.length = pr.length ∧
      ∀ j, at' pr' j = if off + i ≤ j ∧ j < off + i + n then at' pr j + at' p2 (j - off) else at' pr j := by
  intro n
  induction n with
  | zero => intro i pr _ _; exact ⟨pr, rfl, rfl, fun j => by rw [if_neg (by omega)]⟩
  | succ n ih =>
    intro i pr h h2
    obtain ⟨pr', e, hl, ha⟩ := ih (i + 1) (pr.set (off + i) (at' pr (off + i) + at' p2 i))
      (by rw [List.length_set]; omega) (by omega)
    refine ⟨pr', ?_, by rw [hl, List.length_set], fun j => ?_⟩
    · rw [addToLoop, rd_at (by omega), rd_at (by omega)]
      simp only [Option.bind_eq_bind, Option.bind_some]
      rw [wr_eq (by omega)]
      exact e
    · rw [ha]
      by_cases hj : j = off + i
      · subst hj
        rw [if_neg (by omega), if_pos (by omega), at'_set_self (by omega)]
        congr 2; omega
      · rw [at'_set_ne _ hj]
        by_cases hr : off + (i + 1) ≤ j ∧ j < off + (i + 1) + n
        · rw [if_pos hr, if_pos (by omega)]
        · rw [if_neg hr, if_neg (by omega)]

theorem subFromLoop_spec (p2 : List α) : ∀ (n i : Nat) (pr : List α),
    (n = 0 ∨ i + n ≤ pr.length) → (n = 0 ∨ i + n ≤ p2.length) →
    ∃ pr', subFromLoop p2 n i pr = some pr' ∧ pr'.length = pr.length ∧
      ∀ j, at' pr' j = if i ≤ j ∧ j < i + n then at' pr j - at' p2 j else at' pr j := by
  intro n
  induction n with
  | zero => intro i pr _ _; exact ⟨pr, rfl, rfl, fun j => by rw [if_neg (by omega)]⟩
  | succ n ih =>
    intro i pr h h2
    obtain ⟨pr', e, hl, ha⟩ := ih (i + 1) (pr.set i (at' pr i - at' p2 i))
      (by rw [List.length_set]; omega) (by omega)
    refine ⟨pr', ?_, by rw [hl, List.length_set], fun j => ?_⟩
    · rw [subFromLoop, rd_at (by omega), rd_at (by omega)]
      simp only [Option.bind_eq_bind, Option.bind_some]
      rw [wr_eq (by omega)]
      exact e
    · rw [ha]
      by_cases hj : j = i
      · subst hj
        rw [if_neg (by omega), if_pos (by omega), at'_set_self (by omega)]
      · rw [at'_set_ne _ hj]
        by_cases hr : i + 1 ≤ j ∧ j < i + 1 + n
        · rw [if_pos hr, if_pos (by omega)]
        · rw [if_neg hr, if_neg (by omega)]

/-! ### truncated power series -/

/-- The coefficients `f 0, ..., f l` as a power series. -/
noncomputable def S (l : Nat) (f : Nat → α) : PowerSeries α := PowerSeries.mk (fun i => if i ≤ l then f i else 0)

/-- Coefficient `i` of the product of `f 0, ..., f l1` and `g 0, ..., g l2`. -/
noncomputable def cv (l1 : Nat) (f : Nat → α) (l2 : Nat) (g : Nat → α) (i : Nat) : α :=
  PowerSeries.coeff i (S l1 f * S l2 g)

theorem coeff_S (l : Nat) (f : Nat → α) (i : Nat) : PowerSeries.coeff i (S l f) = if i ≤ l then f i else 0 := by
  rw [S, PowerSeries.coeff_mk]

theorem coeff_mul_congr {A A' B B' : PowerSeries α} {n : Nat}
    (hA : ∀ i, i ≤ n → PowerSeries.coeff i A = PowerSeries.coeff i A')
    (hB : ∀ i, i ≤ n → PowerSeries.coeff i B = PowerSeries.coeff i B') :
    PowerSeries.coeff n (A * B) = PowerSeries.coeff n (A' * B') := by
  rw [PowerSeries.coeff_mul, PowerSeries.coeff_mul]
  apply Finset.sum_congr rfl
  rintro ⟨a, b⟩ hab
  rw [Finset.mem_antidiagonal] at hab
  simp only at hab ⊢
  rw [hA a (by omega), hB b (by omega)]

theorem coeff_mul_zero {A B : PowerSeries α} {a b n : Nat} (hA : ∀ i, a < i → PowerSeries.coeff i A = 0)
    (hB : ∀ i, b < i → PowerSeries.coeff i B = 0) (h : a + b < n) : PowerSeries.coeff n (A * B) = 0 := by
  rw [PowerSeries.coeff_mul]
  apply Finset.sum_eq_zero
  rintro ⟨i, j⟩ hij
  rw [Finset.mem_antidiagonal] at hij
  simp only at hij ⊢
  by_cases hi : a < i
  · rw [hA i hi, zero_mul]
  · rw [hB j (by omega), mul_zero]

theorem cv_zero (l1 : Nat) (f : Nat → α) (l2 : Nat) (g : Nat → α) {i : Nat} (h : l1 + l2 < i) :
    cv l1 f l2 g i = 0 :=
  coeff_mul_zero (a := l1) (b := l2) (fun j hj => by rw [coeff_S, if_neg (by omega)])
    (fun j hj => by rw [coeff_S, if_neg (by omega)]) h

theorem cv_congr {l1 l1' l2 l2' : Nat} {f f' g g' : Nat → α} {i : Nat}
    (h1 : ∀ j, j ≤ i → (if j ≤ l1 then f j else 0) = (if j ≤ l1' then f' j else 0))
    (h2 : ∀ j, j ≤ i → (if j ≤ l2 then g j else 0) = (if j ≤ l2' then g' j else 0)) :
    cv l1 f l2 g i = cv l1' f' l2' g' i :=
  coeff_mul_congr (fun j hj => by rw [coeff_S, coeff_S, h1 j hj]) (fun j hj => by rw [coeff_S, coeff_S, h2 j hj])

theorem cv_comm (l1 : Nat) (f : Nat → α) (l2 : Nat) (g : Nat → α) (i : Nat) : cv l1 f l2 g i = cv l2 g l1 f i := by
  rw [cv, cv, mul_comm]

theorem cv_eq_sum (l1 : Nat) (f : Nat → α) (l2 : Nat) (g : Nat → α) (i : Nat) :
    cv l1 f l2 g i = ∑ j ∈ Finset.range (i + 1), (if j ≤ l1 then f j else 0) * (if i - j ≤ l2 then g (i - j) else 0) := by
  rw [cv, PowerSeries.coeff_mul, Finset.Nat.sum_antidiagonal_eq_sum_range_succ_mk]
  apply Finset.sum_congr rfl
  intro j _
  rw [coeff_S, coeff_S]

/-! ### schoolbook multiplication -/

theorem dotLoop_spec (p1 p2 : List α) (i jmin : Nat) : ∀ (n : Nat) (r : α),
    (n = 0 ∨ jmin + n ≤ p1.length) → (n = 0 ∨ i - jmin < p2.length) →
    dotLoop p1 p2 i jmin n r = some (r + ∑ j ∈ Finset.Ico jmin (jmin + n), at' p1 j * at' p2 (i - j)) := by
  intro n
  induction n with
  | zero => intro r _ _; simp [dotLoop]
  | succ n ih =>
    intro r h1 h2
    rw [dotLoop, rd_at (by omega), rd_at (by omega)]
    simp only [Option.bind_eq_bind, Option.bind_some]
    rw [ih _ (by omega) (by omega), ← Nat.add_assoc, Finset.sum_Ico_succ_top (by omega)]
    congr 1
    ring

theorem dot_cv (l1 : Nat) (f : Nat → α) (l2 : Nat) (g : Nat → α) (i : Nat) :
    ∑ j ∈ Finset.Ico (i - l2) (i - l2 + (min i l1 + 1 - (i - l2))), f j * g (i - j) = cv l1 f l2 g i := by
  rw [cv_eq_sum]
  have : ∀ j ∈ Finset.Ico (i - l2) (i - l2 + (min i l1 + 1 - (i - l2))), f j * g (i - j) =
      (if j ≤ l1 then f j else 0) * (if i - j ≤ l2 then g (i - j) else 0) := by
    intro j hj
    rw [Finset.mem_Ico] at hj
    rw [if_pos (by omega), if_pos (by omega)]
  rw [Finset.sum_congr rfl this]
  apply Finset.sum_subset
  · intro j hj
    rw [Finset.mem_Ico] at hj
    rw [Finset.mem_range]
    omega
  · intro j hj hn
    rw [Finset.mem_range] at hj
    rw [Finset.mem_Ico] at hn
    by_cases h1 : j ≤ l1
    · rw [if_neg (show ¬ i - j ≤ l2 by omega), mul_zero]
    · rw [if_neg h1, zero_mul]

theorem mulLongLoop_spec (s1 : Option (List α)) (l1 : Nat) (s2 : Option (List α)) (l2 : Nat) :
    ∀ (i : Nat) (pr : List α), i ≤ pr.length → (i = 0 ∨ min (i - 1) l1 < (s1.getD pr).length) →
    (i = 0 ∨ min (i - 1) l2 < (s2.getD pr).length) →
    ∃ pr', mulLongLoop s1 l1 s2 l2 i pr = some pr' ∧ pr'.length = pr.length ∧
      ∀ j, at' pr' j = if j < i then cv l1 (at' (s1.getD pr)) l2 (at' (s2.getD pr)) j else at' pr j := by
  intro i
  induction i with
  | zero => intro pr _ _ _; exact ⟨pr, rfl, rfl, fun j => by rw [if_neg (by omega)]⟩
  | succ i ih =>
    intro pr hlen h1 h2
    have hd := dotLoop_spec (s1.getD pr) (s2.getD pr) i (i - l2) (min i l1 + 1 - (i - l2)) 0
      (by omega) (by omega)
    rw [dot_cv, zero_add] at hd
    obtain ⟨pr', e, hl, ha⟩ := ih (pr.set i (cv l1 (at' (s1.getD pr)) l2 (at' (s2.getD pr)) i))
      (by rw [List.length_set]; omega) (by rw [src_len_set]; omega) (by rw [src_len_set]; omega)
    refine ⟨pr', ?_, by rw [hl, List.length_set], fun j => ?_⟩
    · rw [mulLongLoop]
      simp only [hd, Option.bind_eq_bind, Option.bind_some]
      rw [wr_eq (by omega)]
      exact e
    · rw [ha]
      by_cases hj : j < i
      · rw [if_pos hj, if_pos (by omega)]
        apply cv_congr
        · intro x hx
          rw [src_set _ _ _ (by omega)]
        · intro x hx
          rw [src_set _ _ _ (by omega)]
      · rw [if_neg hj]
        by_cases hji : j = i
        · subst hji
          rw [if_pos (by omega), at'_set_self (by omega)]
        · rw [if_neg (by omega), at'_set_ne _ hji]

/-- What `_mul` has to do, for factors of degrees `l1` and `l2`. -/
def MulOk (F : MulFn α) (l1 l2 : Nat) : Prop :=
  ∀ (pr : List α) (lr : Nat) (s1 s2 : Option (List α)), lr < pr.length →
    min l1 lr < (s1.getD pr).length → min l2 lr < (s2.getD pr).length →
    ∃ pr', F pr lr s1 l1 s2 l2 = some pr' ∧ pr'.length = pr.length ∧
      ∀ j, at' pr' j = if j ≤ lr then cv l1 (at' (s1.getD pr)) l2 (at' (s2.getD pr)) j else at' pr j

/-- What `polynom_mul<T>::impl` has to do. -/
def ImplOk (F : MulFn α) (l1 l2 : Nat) : Prop :=
  ∀ (pr : List α) (lr : Nat) (s1 s2 : Option (List α)), l2 ≤ l1 → l1 ≤ lr → lr ≤ l1 + l2 → lr < pr.length →
    l1 < (s1.getD pr).length → l2 < (s2.getD pr).length →
    ∃ pr', F pr lr s1 l1 s2 l2 = some pr' ∧ pr'.length = pr.length ∧
      ∀ j, at' pr' j = if j ≤ lr then cv l1 (at' (s1.getD pr)) l2 (at' (s2.getD pr)) j else at' pr j

/-- **C37**: `_mul_long`, for any degrees, truncation and aliasing. -/
theorem C37_mul_long (l1 l2 : Nat) : ImplOk (α := α) mulLong l1 l2 := by
  intro pr lr s1 s2 _ _ _ h3 h4 h5
  obtain ⟨pr', e, hl, ha⟩ := mulLongLoop_spec s1 l1 s2 l2 (lr + 1) pr (by omega) (by omega) (by omega)
  refine ⟨pr', e, hl, fun j => ?_⟩
  rw [ha]
  by_cases h : j ≤ lr
  · rw [if_pos (by omega), if_pos h]
  · rw [if_neg (by omega), if_neg h]

/-! ### Karatsuba -/

theorem scaleLoop_spec (s1 s2 : Option (List α)) : ∀ (i : Nat) (pr : List α), i ≤ pr.length →
    (i = 0 ∨ i ≤ (s1.getD pr).length) → (i = 0 ∨ 0 < (s2.getD pr).length) →
    ∃ pr', scaleLoop s1 s2 i pr = some pr' ∧ pr'.length = pr.length ∧
      ∀ j, at' pr' j = if j < i then at' (s1.getD pr) j * at' (s2.getD pr) 0 else at' pr j := by
  intro i
  induction i with
  | zero => intro pr _ _ _; exact ⟨pr, rfl, rfl, fun j => by rw [if_neg (by omega)]⟩
  | succ i ih =>
    intro pr h h1 h2
    obtain ⟨pr', e, hl, ha⟩ := ih (pr.set i (at' (s1.getD pr) i * at' (s2.getD pr) 0))
      (by rw [List.length_set]; omega) (by rw [src_len_set]; omega) (by rw [src_len_set]; omega)
    refine ⟨pr', ?_, by rw [hl, List.length_set], fun j => ?_⟩
    · rw [scaleLoop, rd_at (by omega), rd_at (by omega)]
      simp only [Option.bind_eq_bind, Option.bind_some]
      rw [wr_eq (by omega)]
      exact e
    · rw [ha]
      by_cases hj : j < i
      · rw [if_pos hj, if_pos (by omega), src_set _ _ _ (by omega), src_set _ _ _ (by omega)]
      · rw [if_neg hj]
        by_cases hji : j = i
        · subst hji; rw [if_pos (by omega), at'_set_self (by omega)]
        · rw [if_neg (by omega), at'_set_ne _ hji]

theorem cv_scale (l1 : Nat) (f g : Nat → α) (i : Nat) (h : i ≤ l1) : cv l1 f 0 g i = f i * g 0 := by
  rw [cv_eq_sum, Finset.sum_eq_single i]
  · simp [h]
  · intro j hj hne
    rw [Finset.mem_range] at hj
    rw [if_neg (show ¬ i - j ≤ 0 by omega), mul_zero]
  · intro h'
    simp at h'

/-- Splitting the first factor at `k`. -/
theorem S_split (l k : Nat) (f : Nat → α) (hk : 1 ≤ k) (hkl : k ≤ l) :
    S l f = S (k - 1) f + PowerSeries.X ^ k * S (l - k) (fun i => f (k + i)) := by
  ext i
  rw [map_add, PowerSeries.coeff_X_pow_mul', coeff_S, coeff_S, coeff_S]
  by_cases h1 : i < k
  · rw [if_pos (by omega), if_pos (by omega), if_neg (by omega), add_zero]
  · rw [if_neg (show ¬ i ≤ k - 1 by omega), if_pos (show k ≤ i by omega), zero_add]
    by_cases h2 : i ≤ l
    · rw [if_pos h2, if_pos (by omega)]
      congr 1; omega
    · rw [if_neg h2, if_neg (by omega)]

/-- Branch `l2 < k`. -/
theorem kara_mid (l1 l2 k : Nat) (f g : Nat → α) (hk : 1 ≤ k) (hkl : k ≤ l1) (i : Nat) :
    cv l1 f l2 g i = cv (k - 1) f l2 g i + if k ≤ i then cv (l1 - k) (fun x => f (k + x)) l2 g (i - k) else 0 := by
  rw [cv, S_split l1 k f hk hkl, add_mul, mul_assoc, map_add, PowerSeries.coeff_X_pow_mul', cv]
  rfl

/-- The last branch: Karatsuba's identity. -/
theorem kara_top (l1 l2 k : Nat) (f g : Nat → α) (hk : 1 ≤ k) (hk1 : k ≤ l1) (hk2 : k ≤ l2) (i : Nat) :
    cv l1 f l2 g i = cv (k - 1) f (k - 1) g i
      + (if k ≤ i then
          PowerSeries.coeff (i - k) ((S (k - 1) f + S (l1 - k) (fun x => f (k + x))) * (S (k - 1) g + S (l2 - k) (fun x => g (k + x))))
            - cv (k - 1) f (k - 1) g (i - k) - cv (l1 - k) (fun x => f (k + x)) (l2 - k) (fun x => g (k + x)) (i - k) else 0)
      + (if k + k ≤ i then cv (l1 - k) (fun x => f (k + x)) (l2 - k) (fun x => g (k + x)) (i - (k + k)) else 0) := by
  have e : S l1 f * S l2 g = S (k - 1) f * S (k - 1) g +
      PowerSeries.X ^ k * ((S (k - 1) f + S (l1 - k) (fun x => f (k + x))) * (S (k - 1) g + S (l2 - k) (fun x => g (k + x)))
        - S (k - 1) f * S (k - 1) g - S (l1 - k) (fun x => f (k + x)) * S (l2 - k) (fun x => g (k + x))) +
      PowerSeries.X ^ (k + k) * (S (l1 - k) (fun x => f (k + x)) * S (l2 - k) (fun x => g (k + x))) := by
    rw [S_split l1 k f hk hk1, S_split l2 k g hk hk2, pow_add]
    ring
  rw [cv, e, map_add, map_add, PowerSeries.coeff_X_pow_mul', PowerSeries.coeff_X_pow_mul', map_sub, map_sub]
  rfl

theorem karatsuba_spec (rec : MulFn α) (l1 l2 : Nat) (hrec : ∀ a b, a + b < l1 + l2 → MulOk rec a b) :
    ImplOk (karatsuba rec) l1 l2 := by
  intro pr lr s1 s2 h21 h1r hr12 hpr hs1 hs2
  rw [karatsuba]
  simp only
  have hk1 : 1 ≤ l1 / 2 + 1 := by omega
  generalize hk : l1 / 2 + 1 = k at hk1 ⊢
  by_cases h0 : l2 = 0
  · rw [if_pos h0]
    subst h0
    obtain ⟨pr', e, hl, ha⟩ := scaleLoop_spec s1 s2 (lr + 1) pr (by omega) (by omega) (by omega)
    refine ⟨pr', e, hl, fun j => ?_⟩
    rw [ha]
    by_cases h : j ≤ lr
    · rw [if_pos (by omega), if_pos h, cv_scale _ _ _ _ (by omega)]
    · rw [if_neg (by omega), if_neg h]
  · rw [if_neg h0]
    by_cases hlt : l2 < k
    · rw [if_pos hlt]
      have hkl : k ≤ l1 := by omega
      obtain ⟨mm, e1, hl1, ha1⟩ := hrec (l1 - k) l2 (by omega) (List.replicate (lr - k + 1) 0) (lr - k)
        (some ((s1.getD pr).drop k)) (some (s2.getD pr)) (by simp) (by simp; omega) (by simp; omega)
      obtain ⟨pr1, e2, hl2, ha2⟩ := hrec (k - 1) l2 (by omega) pr (l2 + k - 1) s1 s2 (by omega) (by omega) (by omega)
      obtain ⟨pr2, e3, hl3, ha3⟩ := zeroLoop_spec (lr - (l2 + k - 1)) (l2 + k - 1 + 1) pr1 (by omega)
      simp only [List.length_replicate] at hl1
      obtain ⟨pr3, e4, hl4, ha4⟩ := addToLoop_spec k mm (lr - k + 1) 0 pr2 (by omega) (by omega)
      refine ⟨pr3, ?_, by omega, fun j => ?_⟩
      · rw [e1]
        simp only [Option.bind_eq_bind, Option.bind_some]
        rw [e2]
        simp only [Option.bind_some]
        rw [e3]
        simp only [Option.bind_some]
        exact e4
      · rw [ha4, ha3, ha2]
        by_cases hj : j ≤ lr
        · rw [if_pos hj, kara_mid l1 l2 k _ _ hk1 hkl j]
          have b1 : (if l2 + k - 1 + 1 ≤ j ∧ j < l2 + k - 1 + 1 + (lr - (l2 + k - 1)) then (0 : α) else
              if j ≤ l2 + k - 1 then cv (k - 1) (at' (s1.getD pr)) l2 (at' (s2.getD pr)) j else at' pr j) =
              cv (k - 1) (at' (s1.getD pr)) l2 (at' (s2.getD pr)) j := by
            by_cases hz : j ≤ l2 + k - 1
            · rw [if_neg (by omega), if_pos hz]
            · rw [if_pos (by omega), cv_zero _ _ _ _ (by omega)]
          rw [b1]
          by_cases hkj : k ≤ j
          · rw [if_pos (by omega), if_pos hkj, ha1, if_pos (by omega)]
            congr 1
            apply cv_congr
            · intro x _
              simp only [Option.getD_some, at'_drop]
            · intro x _; rfl
          · rw [if_neg (by omega), if_neg hkj, add_zero]
        · rw [if_neg (by omega), if_neg (by omega), if_neg (by omega), if_neg hj]
    · rw [if_neg hlt]
      have hkl1 : k ≤ l1 := by omega
      have hkl2 : k ≤ l2 := by omega
      have ra1 : range (s1.getD pr) k = some ((s1.getD pr).take k) := by rw [range, if_pos (by omega)]
      have ra2 : range (s2.getD pr) k = some ((s2.getD pr).take k) := by rw [range, if_pos (by omega)]
      obtain ⟨a1, e1, hl1, ha1⟩ := addToLoop_spec 0 ((s1.getD pr).drop k) (l1 - k + 1) 0 ((s1.getD pr).take k)
        (by rw [List.length_take]; omega) (by rw [List.length_drop]; omega)
      obtain ⟨a2, e2, hl2, ha2⟩ := addToLoop_spec 0 ((s2.getD pr).drop k) (l2 - k + 1) 0 ((s2.getD pr).take k)
        (by rw [List.length_take]; omega) (by rw [List.length_drop]; omega)
      rw [List.length_take] at hl1 hl2
      generalize hmL : min (lr - k) (k - 1 + k - 1) = mmL
      generalize hhL' : min (lr - k) (l1 - k + l2 - k) = hhL
      obtain ⟨mm, e3, hl3, ha3⟩ := hrec (k - 1) (k - 1) (by omega) (List.replicate (mmL + 1) 0) mmL (some a1) (some a2)
        (by simp) (by simp only [Option.getD_some]; omega) (by simp only [Option.getD_some]; omega)
      obtain ⟨hh, e4, hl4, ha4⟩ := hrec (l1 - k) (l2 - k) (by omega) (List.replicate (hhL + 1) 0) hhL
        (some ((s1.getD pr).drop k)) (some ((s2.getD pr).drop k)) (by simp) (by simp; omega) (by simp; omega)
      obtain ⟨pr1, e5, hl5, ha5⟩ := hrec (k - 1) (k - 1) (by omega) pr (k - 1 + k - 1) s1 s2 (by omega) (by omega) (by omega)
      obtain ⟨pr2, e6, hl6, ha6⟩ := zeroLoop_spec (lr - (k - 1 + k - 1)) (k - 1 + k - 1 + 1) pr1 (by omega)
      simp only [List.length_replicate] at hl3 hl4
      obtain ⟨mm1, e7, hl7, ha7⟩ := subFromLoop_spec pr2 (mmL + 1) 0 mm (by omega) (by omega)
      obtain ⟨mm2, e8, hl8, ha8⟩ := subFromLoop_spec hh (hhL + 1) 0 mm1 (by omega) (by omega)
      obtain ⟨pr3, e9, hl9, ha9⟩ := addToLoop_spec k mm2 (mmL + 1) 0 pr2 (by omega) (by omega)
      obtain ⟨pr4, e10, hl10, ha10⟩ := addToLoop_spec (k + k) hh (lr + 1 - k - k) 0 pr3 (by omega) (by omega)
      refine ⟨pr4, ?_, by omega, fun j => ?_⟩
      · rw [ra1]
        simp only [Option.bind_eq_bind, Option.bind_some]
        rw [e1]
        simp only [Option.bind_some]
        rw [ra2]
        simp only [Option.bind_some]
        rw [e2]
        simp only [Option.bind_some]
        rw [e3]
        simp only [Option.bind_some]
        rw [e4]
        simp only [Option.bind_some]
        rw [e5]
        simp only [Option.bind_some]
        rw [e6]
        simp only [Option.bind_some]
        rw [e7]
        simp only [Option.bind_some]
        rw [e8]
        simp only [Option.bind_some]
        rw [e9]
        simp only [Option.bind_some]
        exact e10
      · -- values
        have v2 : ∀ x, x ≤ lr → at' pr2 x = cv (k - 1) (at' (s1.getD pr)) (k - 1) (at' (s2.getD pr)) x := by
          intro x hx
          rw [ha6, ha5]
          by_cases hz : x ≤ k - 1 + k - 1
          · rw [if_neg (by omega), if_pos hz]
          · rw [if_pos (by omega), cv_zero _ _ _ _ (by omega)]
        have vh : ∀ x, x ≤ hhL → at' hh x = cv (l1 - k) (fun i => at' (s1.getD pr) (k + i)) (l2 - k) (fun i => at' (s2.getD pr) (k + i)) x := by
          intro x hx
          rw [ha4, if_pos hx]
          apply cv_congr
          · intro y _
            simp only [Option.getD_some, at'_drop]
          · intro y _
            simp only [Option.getD_some, at'_drop]
        have sum1 : ∀ (s : Option (List α)) (l : Nat) (a : List α), l - k ≤ k - 1 →
            (∀ j, at' a j = if 0 + 0 ≤ j ∧ j < 0 + 0 + (l - k + 1) then at' ((s.getD pr).take k) j + at' ((s.getD pr).drop k) (j - 0) else at' ((s.getD pr).take k) j) →
            S (k - 1) (at' a) = S (k - 1) (at' (s.getD pr)) + S (l - k) (fun i => at' (s.getD pr) (k + i)) := by
          intro s l a hl ha
          ext x
          rw [map_add, coeff_S, coeff_S, coeff_S, ha, at'_take, Nat.sub_zero, at'_drop]
          by_cases h1 : x ≤ k - 1
          · rw [if_pos h1, if_pos h1, if_pos (show x < k by omega)]
            by_cases h2 : x ≤ l - k
            · rw [if_pos (by omega), if_pos h2]
            · rw [if_neg (by omega), if_neg h2, add_zero]
          · rw [if_neg h1, if_neg h1, if_neg (by omega), add_zero]
        have vm : ∀ x, x ≤ mmL → at' mm2 x =
            PowerSeries.coeff x ((S (k - 1) (at' (s1.getD pr)) + S (l1 - k) (fun i => at' (s1.getD pr) (k + i))) *
              (S (k - 1) (at' (s2.getD pr)) + S (l2 - k) (fun i => at' (s2.getD pr) (k + i))))
            - cv (k - 1) (at' (s1.getD pr)) (k - 1) (at' (s2.getD pr)) x
            - cv (l1 - k) (fun i => at' (s1.getD pr) (k + i)) (l2 - k) (fun i => at' (s2.getD pr) (k + i)) x := by
          intro x hx
          have w1 : at' mm1 x = PowerSeries.coeff x ((S (k - 1) (at' (s1.getD pr)) + S (l1 - k) (fun i => at' (s1.getD pr) (k + i))) *
              (S (k - 1) (at' (s2.getD pr)) + S (l2 - k) (fun i => at' (s2.getD pr) (k + i))))
            - cv (k - 1) (at' (s1.getD pr)) (k - 1) (at' (s2.getD pr)) x := by
            rw [ha7, if_pos (by omega), ha3, if_pos hx, v2 x (by omega), cv, Option.getD_some, Option.getD_some,
              sum1 s1 l1 a1 (by omega) ha1, sum1 s2 l2 a2 (by omega) ha2]
          rw [ha8]
          by_cases hz : x ≤ hhL
          · rw [if_pos (by omega), w1, vh x hz]
          · rw [if_neg (by omega), w1, cv_zero (l1 - k) _ (l2 - k) _ (by omega), sub_zero]
        rw [ha10, ha9]
        by_cases hj : j ≤ lr
        · rw [if_pos hj, kara_top l1 l2 k _ _ hk1 hkl1 hkl2 j]
          have hmid : (if k + 0 ≤ j ∧ j < k + 0 + (mmL + 1) then at' pr2 j + at' mm2 (j - k) else at' pr2 j) =
              cv (k - 1) (at' (s1.getD pr)) (k - 1) (at' (s2.getD pr)) j +
              (if k ≤ j then
                PowerSeries.coeff (j - k) ((S (k - 1) (at' (s1.getD pr)) + S (l1 - k) (fun i => at' (s1.getD pr) (k + i))) *
                  (S (k - 1) (at' (s2.getD pr)) + S (l2 - k) (fun i => at' (s2.getD pr) (k + i))))
                - cv (k - 1) (at' (s1.getD pr)) (k - 1) (at' (s2.getD pr)) (j - k)
                - cv (l1 - k) (fun i => at' (s1.getD pr) (k + i)) (l2 - k) (fun i => at' (s2.getD pr) (k + i)) (j - k) else 0) := by
            by_cases hkj : k ≤ j
            · rw [if_pos hkj]
              by_cases hm : j - k ≤ mmL
              · rw [if_pos (by omega), v2 j hj, vm (j - k) hm]
              · rw [if_neg (by omega), v2 j hj, cv_zero (k - 1) _ (k - 1) _ (show k - 1 + (k - 1) < j - k by omega),
                  cv_zero (l1 - k) _ (l2 - k) _ (show l1 - k + (l2 - k) < j - k by omega)]
                have hz : PowerSeries.coeff (j - k) ((S (k - 1) (at' (s1.getD pr)) + S (l1 - k) (fun i => at' (s1.getD pr) (k + i))) *
                    (S (k - 1) (at' (s2.getD pr)) + S (l2 - k) (fun i => at' (s2.getD pr) (k + i)))) = 0 := by
                  apply coeff_mul_zero (a := k - 1) (b := k - 1)
                  · intro x hx
                    rw [map_add, coeff_S, coeff_S, if_neg (by omega), if_neg (by omega), add_zero]
                  · intro x hx
                    rw [map_add, coeff_S, coeff_S, if_neg (by omega), if_neg (by omega), add_zero]
                  · omega
                rw [hz]; ring
            · rw [if_neg hkj, if_neg (by omega), v2 j hj, add_zero]
          rw [hmid]
          by_cases hkk : k + k ≤ j
          · rw [if_pos (by omega), if_pos hkk, vh _ (by omega)]
          · rw [if_neg (by omega), if_neg hkk, add_zero]
        · rw [if_neg hj, if_neg (by omega), if_neg (by omega), ha6, ha5, if_neg (by omega), if_neg (by omega)]

/-! ### `_mul` -/

theorem mulCore_spec (impl : MulFn α) (l1 l2 : Nat) (h21 : l2 ≤ l1)
    (himpl : ∀ a b, a ≤ l1 → b ≤ l2 → ImplOk impl a b) : MulOk (mulCore impl) l1 l2 := by
  intro pr lr s1 s2 hpr hs1 hs2
  rw [mulCore]
  simp only
  generalize ha : min l1 lr = a at *
  generalize hb : min l2 lr = b at *
  rw [rd_at (by omega)]
  simp only [Option.bind_eq_bind, Option.bind_some]
  obtain ⟨pr1, e1, hl1, ha1⟩ := zeroLoop_spec (lr - (a + b)) (a + b + 1) pr (by omega)
  obtain ⟨pr2, e2, hl2, ha2⟩ := himpl a b (by omega) (by omega) pr1 (min lr (a + b)) s1 s2 (by omega) (by omega) (by omega)
    (by omega) (by rw [src_len s1 hl1]; exact hs1) (by rw [src_len s2 hl1]; exact hs2)
  refine ⟨pr2, ?_, by omega, fun j => ?_⟩
  · rw [e1]; exact e2
  · have hsrc : ∀ (s : Option (List α)) x, x ≤ a + b → at' (s.getD pr1) x = at' (s.getD pr) x := by
      intro s x hx
      apply src_congr
      rw [ha1, if_neg (by omega)]
    rw [ha2]
    by_cases hj : j ≤ lr
    · rw [if_pos hj]
      have key : cv l1 (at' (s1.getD pr)) l2 (at' (s2.getD pr)) j = cv a (at' (s1.getD pr)) b (at' (s2.getD pr)) j := by
        apply cv_congr
        · intro x hx
          by_cases h : x ≤ l1
          · rw [if_pos h, if_pos (by omega)]
          · rw [if_neg h, if_neg (by omega)]
        · intro x hx
          by_cases h : x ≤ l2
          · rw [if_pos h, if_pos (by omega)]
          · rw [if_neg h, if_neg (by omega)]
      rw [key]
      by_cases hab : j ≤ a + b
      · rw [if_pos (by omega)]
        apply cv_congr
        · intro x hx
          rw [hsrc s1 x (by omega)]
        · intro x hx
          rw [hsrc s2 x (by omega)]
      · rw [if_neg (by omega), ha1, if_pos (by omega), cv_zero _ _ _ _ (by omega)]
    · rw [if_neg (by omega), if_neg hj, ha1, if_neg (by omega)]

theorem mulF_spec (thr : Nat) : ∀ (fuel l1 l2 : Nat), l1 + l2 < fuel → MulOk (α := α) (mulF thr fuel) l1 l2 := by
  intro fuel
  induction fuel with
  | zero => intro l1 l2 h; omega
  | succ fuel ih =>
    intro l1 l2 h pr lr s1 s2 hpr hs1 hs2
    have himpl : ∀ a b, a + b ≤ l1 + l2 → ImplOk (fun (pr : List α) lr s1 l1 s2 l2 =>
        if l2 < thr then mulLong pr lr s1 l1 s2 l2 else karatsuba (mulF thr fuel) pr lr s1 l1 s2 l2) a b := by
      intro a b hab
      by_cases ht : b < thr
      · intro pr lr s1 s2 g1 g2 g3 g4 g5 g6
        simp only [if_pos ht]
        exact C37_mul_long a b pr lr s1 s2 g1 g2 g3 g4 g5 g6
      · intro pr lr s1 s2 g1 g2 g3 g4 g5 g6
        simp only [if_neg ht]
        exact karatsuba_spec (mulF thr fuel) a b (fun x y hxy => ih x y (by omega)) pr lr s1 s2 g1 g2 g3 g4 g5 g6
    rw [mulF]
    simp only
    by_cases hgt : l2 > l1
    · rw [if_pos hgt]
      obtain ⟨pr', e, hl, ha⟩ := mulCore_spec _ l2 l1 (by omega) (fun a b ha hb => himpl a b (by omega)) pr lr s2 s1 hpr hs2 hs1
      refine ⟨pr', e, hl, fun j => ?_⟩
      rw [ha, cv_comm]
    · rw [if_neg hgt]
      exact mulCore_spec _ l1 l2 (by omega) (fun a b ha hb => himpl a b (by omega)) pr lr s1 s2 hpr hs1 hs2

/-- **C37**: `_mul_karatsuba`, for any degrees, truncation and aliasing. -/
theorem C37_karatsuba (thr fuel l1 l2 : Nat) (h : l1 + l2 ≤ fuel) :
    ImplOk (α := α) (karatsuba (mulF thr fuel)) l1 l2 :=
  karatsuba_spec _ l1 l2 (fun a b hab => mulF_spec thr fuel a b (by omega))

/-- **C37**: `_mul` for any degrees, truncation, aliasing and threshold. -/
theorem C37_mul_raw (thr fuel l1 l2 : Nat) (h : l1 + l2 < fuel) : MulOk (α := α) (mulF thr fuel) l1 l2 :=
  mulF_spec thr fuel l1 l2 h

section top
variable [DecidableEq α]

theorem cv_poly (a b : List α) (l1 l2 i : Nat) (h1 : ∀ j, l1 < j → j ≤ i → at' a j = 0) (h2 : ∀ j, l2 < j → j ≤ i → at' b j = 0) :
    cv l1 (at' a) l2 (at' b) i = (poly a * poly b).coeff i := by
  rw [cv_eq_sum, Polynomial.coeff_mul, Finset.Nat.sum_antidiagonal_eq_sum_range_succ_mk]
  apply Finset.sum_congr rfl
  intro j hj
  rw [Finset.mem_range] at hj
  rw [poly_coeff, poly_coeff]
  congr 1
  · split_ifs with h
    · rfl
    · rw [h1 j (by omega) (by omega)]
  · split_ifs with h
    · rfl
    · rw [h2 _ (by omega) (by omega)]

/-- **C37**: `mul` with the required degree `lr` gives the `lr + 1` lowest coefficients of the
product of the two polynomials, whether or not the destination is one of the operands (`none`);
with the default `lr` all of them. -/
theorem C37_mul (thr : Nat) (pr : List α) (s1 s2 : Option (List α)) (lr : Option Nat) :
    ∃ r, mul thr pr s1 s2 lr = some r ∧
      r.length = lr.getD (deg (s1.getD pr) + deg (s2.getD pr)) + 1 ∧
      ∀ i, i < r.length → at' r i = (poly (s1.getD pr) * poly (s2.getD pr)).coeff i := by
  rw [mul]
  generalize hlr : lr.getD (deg (s1.getD pr) + deg (s2.getD pr)) = n
  have hlen : ∀ s : Option (List α), (s.getD (resize pr (n + 1))).length = 0 → s.getD pr = [] := by
    intro s h
    cases s with
    | none => rw [Option.getD_none, length_resize] at h; omega
    | some u => exact List.length_eq_zero_iff.mp h
  have hmin : ∀ s : Option (List α), (s.getD (resize pr (n + 1))).length ≠ 0 →
      min (deg (s.getD pr)) n < (s.getD (resize pr (n + 1))).length := by
    intro s h
    cases s with
    | none => simp only [Option.getD_none, length_resize]; omega
    | some u =>
      have := deg_lt u (by simp only [Option.getD_some] at h; omega)
      simp only [Option.getD_some]
      omega
  by_cases he : (s1.getD (resize pr (n + 1))).length = 0 ∨ (s2.getD (resize pr (n + 1))).length = 0
  · rw [if_pos he]
    obtain ⟨r, e, hl, ha⟩ := zeroLoop_spec (n + 1) 0 (resize pr (n + 1)) (by rw [length_resize]; omega)
    refine ⟨r, e, by rw [hl, length_resize], fun i hi => ?_⟩
    rw [hl, length_resize] at hi
    rw [ha, if_pos (by omega)]
    rcases he with he | he
    · rw [hlen s1 he]; simp [poly]
    · rw [hlen s2 he]; simp [poly]
  · rw [if_neg he]
    push Not at he
    obtain ⟨r, e, hl, ha⟩ := mulF_spec thr (deg (s1.getD pr) + deg (s2.getD pr) + 1) (deg (s1.getD pr)) (deg (s2.getD pr)) (by omega)
      (resize pr (n + 1)) n s1 s2 (by rw [length_resize]; omega) (hmin s1 he.1) (hmin s2 he.2)
    refine ⟨r, e, by rw [hl, length_resize], fun i hi => ?_⟩
    rw [hl, length_resize] at hi
    rw [ha, if_pos (by omega), ← cv_poly (s1.getD pr) (s2.getD pr) (deg (s1.getD pr)) (deg (s2.getD pr)) i
      (fun j hj _ => (deg_spec _).1 j hj) (fun j hj _ => (deg_spec _).1 j hj)]
    apply cv_congr
    · intro x hx
      rw [src_resize _ _ _ _ (by omega)]
    · intro x hx
      rw [src_resize _ _ _ _ (by omega)]

/-- **C37**: `operator *` (and `*=`, also with itself) is the product of the polynomials. -/
theorem C37_times (thr : Nat) (pr : List α) (s1 s2 : Option (List α)) :
    ∃ r, mul thr pr s1 s2 none = some r ∧ poly r = poly (s1.getD pr) * poly (s2.getD pr) := by
  obtain ⟨r, e, hl, ha⟩ := C37_mul thr pr s1 s2 none
  refine ⟨r, e, ?_⟩
  ext i
  rw [poly_coeff]
  by_cases hi : i < r.length
  · exact ha i hi
  · rw [at'_ge (by omega)]
    rw [hl, Option.getD_none] at hi
    have h1 := C37_deg (s1.getD pr)
    have h2 := C37_deg (s2.getD pr)
    rw [Polynomial.coeff_eq_zero_of_natDegree_lt]
    have := Polynomial.natDegree_mul_le (p := poly (s1.getD pr)) (q := poly (s2.getD pr))
    omega

/-! ### scalars, evaluation, derivative, comparison -/

theorem scalarLoop_spec (f : α → α → α) (s1 : Option (List α)) (x : α) : ∀ (k i : Nat) (pr : List α), pr.length = i + k →
    (scalarLoop f s1 (.inl x) k i pr).length = pr.length ∧
    ∀ j, at' (scalarLoop f s1 (.inl x) k i pr) j =
      if i ≤ j ∧ j < i + k then f (at' (s1.getD pr) j) x else at' pr j := by
  intro k
  induction k with
  | zero => intro i pr h; exact ⟨rfl, fun j => by rw [if_neg (by omega)]; rfl⟩
  | succ k ih =>
    intro i pr h
    have hlen : (put pr i (f (at' (s1.getD pr) i) x)).length = pr.length := by rw [length_put]; omega
    obtain ⟨h1, h2⟩ := ih (i + 1) (put pr i (f (at' (s1.getD pr) i) x)) (by rw [hlen]; omega)
    rw [scalarLoop]
    simp only [scalar]
    refine ⟨by rw [h1, hlen], fun j => ?_⟩
    rw [h2]
    have hp : ∀ j, j ≠ i → at' (put pr i (f (at' (s1.getD pr) i) x)) j = at' pr j :=
      fun j hj => by rw [at'_put, if_neg hj]
    by_cases hj : j = i
    · subst hj
      rw [if_neg (by omega), if_pos (by omega), at'_put, if_pos rfl]
    · rw [hp j hj, src_congr s1 (hp j hj)]
      by_cases hr : i + 1 ≤ j ∧ j < i + 1 + k
      · rw [if_pos hr, if_pos (by omega)]
      · rw [if_neg hr, if_neg (by omega)]

/-- **C37**: multiplication by a scalar that is not stored in the destination. -/
theorem C37_mul_scalar (pr : List α) (s1 : Option (List α)) (x : α) :
    poly (mulScalar pr s1 (.inl x)) = Polynomial.C x * poly (s1.getD pr) := by
  ext j
  rw [Polynomial.coeff_C_mul, poly_coeff, poly_coeff, mulScalar]
  rw [(scalarLoop_spec _ _ _ _ _ _ (by rw [length_resize]; omega)).2]
  by_cases h : j ≤ deg (s1.getD pr)
  · rw [if_pos (by omega), src_resize _ _ _ _ (by omega), mul_comm]
  · rw [if_neg (by omega), at'_resize, if_neg (by omega), (deg_spec _).1 j (by omega), mul_zero]

/-- **C37** (negative): `p *= p[0]` scales the other coefficients by the *new* `p[0]`, as the scalar
is a reference to the coefficient that is overwritten first. -/
theorem C37_mul_scalar_alias : mulScalar [(3 : Int), 1] none (.inr 0) = [9, 9] := by decide

theorem evalLoop_spec (c : List α) (x : α) : ∀ (n : Nat) (r : α),
    evalLoop c x n r = r * x ^ n + ∑ i ∈ Finset.range n, at' c i * x ^ i := by
  intro n
  induction n with
  | zero => intro r; simp [evalLoop]
  | succ n ih =>
    intro r
    rw [evalLoop, ih, Finset.sum_range_succ, pow_succ]
    ring

/-- **C37**: `eval` is the value of the polynomial. -/
theorem C37_eval (c : List α) (x : α) : eval c x = (poly c).eval x := by
  rw [eval]
  by_cases h : c.length = 0
  · rw [if_pos h, List.length_eq_zero_iff.mp h]; simp [poly]
  · rw [if_neg h, evalLoop_spec, zero_mul, zero_add, Polynomial.eval_eq_sum_range, ← C37_deg]
    apply Finset.sum_congr rfl
    intro i _
    rw [poly_coeff]

theorem derivLoop_spec (c : List α) : ∀ (n : Nat) (r : List α),
    ∀ j, at' (derivLoop c n r) j = if j < n then at' c (j + 1) * ((j + 1 : Nat) : α) else at' r j := by
  intro n
  induction n with
  | zero => intro r j; rw [if_neg (by omega)]; rfl
  | succ n ih =>
    intro r j
    rw [derivLoop, ih, at'_put]
    by_cases h1 : j < n
    · rw [if_pos h1, if_pos (by omega)]
    · rw [if_neg h1]
      by_cases h2 : j = n
      · subst h2; rw [if_pos rfl, if_pos (by omega)]
      · rw [if_neg h2, if_neg (by omega)]

/-- **C37**: `derivative` is the derivative. -/
theorem C37_derivative (c : List α) : poly (derivative c) = Polynomial.derivative (poly c) := by
  have hz : ∀ j, at' [(0 : α)] j = 0 := by
    intro j
    cases j with
    | zero => rfl
    | succ j => exact at'_ge (by simp)
  ext j
  rw [poly_coeff, Polynomial.coeff_derivative, poly_coeff, derivative]
  by_cases h : c.length = 0
  · rw [if_pos h, hz, List.length_eq_zero_iff.mp h, at'_ge (by simp), zero_mul]
  · rw [if_neg h, derivLoop_spec]
    by_cases hj : j < deg c
    · rw [if_pos hj]; push_cast; rfl
    · rw [if_neg hj, hz, (deg_spec c).1 (j + 1) (by omega), zero_mul]

theorem cmpLoop_zero (lt : α → α → Bool) (hlt : ∀ a b, lt a b = false → lt b a = false → a = b) (hirr : ∀ a, lt a a = false)
    (p1 p2 : List α) : ∀ n, cmpLoop lt p1 p2 n = 0 ↔ ∀ i, i < n → at' p1 i = at' p2 i := by
  intro n
  induction n with
  | zero => simp [cmpLoop]
  | succ n ih =>
    rw [cmpLoop]
    by_cases h1 : lt (at' p1 n) (at' p2 n) = true
    · rw [if_pos h1]
      simp only [Int.reduceNeg, false_iff, neg_eq_zero, one_ne_zero]
      push Not
      exact ⟨n, by omega, fun he => by rw [he, hirr] at h1; exact absurd h1 (by simp)⟩
    · rw [if_neg h1]
      by_cases h2 : lt (at' p2 n) (at' p1 n) = true
      · rw [if_pos h2]
        simp only [one_ne_zero, false_iff]
        push Not
        exact ⟨n, by omega, fun he => by rw [he, hirr] at h2; exact absurd h2 (by simp)⟩
      · rw [if_neg h2, ih]
        have he := hlt _ _ (by simpa using h1) (by simpa using h2)
        constructor
        · intro h i hi
          by_cases hin : i = n
          · rw [hin, he]
          · exact h i (by omega)
        · intro h i hi
          exact h i (by omega)

/-- **C37**: two polynomials compare equal exactly when they are the same polynomial, whatever the
lengths of the two vectors (`lt` being the strict order of the coefficients). -/
theorem C37_cmp_eq (lt : α → α → Bool) (hlt : ∀ a b, lt a b = false → lt b a = false → a = b) (hirr : ∀ a, lt a a = false)
    (p1 p2 : List α) : cmp lt p1 p2 = 0 ↔ poly p1 = poly p2 := by
  rw [cmp, cmpLoop_zero lt hlt hirr]
  constructor
  · intro h
    ext i
    rw [poly_coeff, poly_coeff]
    by_cases hi : i < max (deg p1) (deg p2) + 1
    · exact h i hi
    · rw [(deg_spec p1).1 i (by omega), (deg_spec p2).1 i (by omega)]
  · intro h i _
    rw [← poly_coeff, ← poly_coeff, h]

end top

/-! ### examples -/

example : mul 48 [] (some [(1 : Int), 2, 3]) (some [4, 5]) none = some [4, 13, 22, 15] := by decide +kernel
/-- Karatsuba all the way down, destination aliasing both operands, truncated. -/
example : mul 0 [(1 : Int), 2, 3, 4, 5, 6] none none (some 7) = some [1, 4, 10, 20, 35, 56, 70, 76] := by decide +kernel
example : mul 2 [(1 : Int), 2, 3, 4, 5, 6] none (some [1, 1, 1, 1]) none = some [1, 3, 6, 10, 14, 18, 15, 11, 6] := by
  decide +kernel
example : ∃ (pr : List Int) (s1 s2 : Option (List Int)), (5 : Nat) < pr.length ∧ min 3 5 < (s1.getD pr).length ∧
    min 2 5 < (s2.getD pr).length := ⟨[1, 2, 3, 4, 5, 6, 7], none, some [1, 2, 3], by decide, by decide, by decide⟩

end Altruct.Polynom
