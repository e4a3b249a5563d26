/-
C85: `pell_PQa` computes the continued fraction of `(P0 + sqrt D) / Q0`.
-/
import Verif.Pell.Run
import Mathlib.Algebra.ContinuedFractions.Computation.Translations
import Mathlib.Algebra.ContinuedFractions.Computation.ApproximationCorollaries
import Mathlib.Analysis.Real.Sqrt
import Mathlib.Topology.Instances.Real.Lemmas

namespace Altruct.Pell

open Altruct

/-- The number whose continued fraction is expanded. -/
noncomputable def quo (D P Q : Int) : ℝ := ((P : ℝ) + √(D : ℝ)) / (Q : ℝ)

/-- Specification of the vectors after a call of `pell_PQa` that leaves `n` coefficients. -/
structure IsPQa (D P0 Q0 : Int) (n : ℕ) (t : Tab) : Prop where
  /-- The sizes. -/
  len : t.P.length = n + 1 ∧ t.Q.length = n + 1 ∧ t.a.length = n ∧ t.A.length = n ∧ t.B.length = n ∧ t.G.length = n
  /-- The given number. -/
  zero : t.P[0]? = some P0 ∧ t.Q[0]? = some Q0
  /-- No denominator vanishes. -/
  ne : ∀ (i : ℕ) (Q : Int), t.Q[i]? = some Q → Q ≠ 0
  /-- The `i`-th coefficient is the floor of the `i`-th complete quotient, ... -/
  floor : ∀ (i : ℕ) (P Q a : Int), t.P[i]? = some P → t.Q[i]? = some Q → t.a[i]? = some a → a = ⌊quo D P Q⌋
  /-- ... the next complete quotient is the reciprocal of the rest, ... -/
  next : ∀ (i : ℕ) (P Q a P' Q' : Int), t.P[i]? = some P → t.Q[i]? = some Q → t.a[i]? = some a →
    t.P[i + 1]? = some P' → t.Q[i + 1]? = some Q' → quo D P Q = a + 1 / quo D P' Q'
  /-- ... and the fractions `A / B` are the convergents of the number. -/
  convs : ∀ (i : ℕ) (A B : Int), t.A[i]? = some A → t.B[i]? = some B →
    (GenContFract.of (quo D P0 Q0)).nums i = A ∧ (GenContFract.of (quo D P0 Q0)).dens i = B ∧ IsCoprime A B
  /-- `G = Q0 A - P0 B` and `G^2 - D B^2 = (-1)^(i+1) Q[i+1] Q0`. -/
  norm : ∀ (i : ℕ) (A B G Q : Int), t.A[i]? = some A → t.B[i]? = some B → t.G[i]? = some G → t.Q[i + 1]? = some Q →
    G = Q0 * A - P0 * B ∧ G * G - D * (B * B) = (-1) ^ (i + 1) * Q * Q0

section real
variable {D s P Q a P' Q' : Int}

theorem Between.lt_sqrt (hD : Between D s) : (s : ℝ) < √(D : ℝ) := by
  apply Real.lt_sqrt_of_sq_lt
  have := hD.lo
  rw [sq]
  exact_mod_cast this

theorem Between.sqrt_lt (hD : Between D s) : √(D : ℝ) < s + 1 := by
  have h1 := hD.pos
  rw [Real.sqrt_lt' (by have : (1 : ℝ) ≤ s := by exact_mod_cast h1
                        linarith)]
  have := hD.hi
  rw [sq]
  exact_mod_cast this

theorem Between.mul_sqrt (hD : Between D s) : √(D : ℝ) * √(D : ℝ) = D := by
  apply Real.mul_self_sqrt
  have h1 := hD.pos
  have h2 := hD.lo
  have : 0 ≤ D := by nlinarith
  exact_mod_cast this

theorem Between.floor_eq (hD : Between D s) (h : Step D s P Q a P' Q') : a = ⌊quo D P Q⌋ := by
  symm
  rw [Int.floor_eq_iff, quo]
  have h1 := hD.lt_sqrt
  have h2 := hD.sqrt_lt
  rcases lt_or_gt_of_ne h.ne with hq | hq
  · obtain ⟨h3, h4⟩ := h.neg hq
    have hq' : (Q : ℝ) < 0 := by exact_mod_cast hq
    rw [le_div_iff_of_neg hq', div_lt_iff_of_neg hq']
    have h3' : (P : ℝ) + s + 1 ≤ a * Q := by exact_mod_cast h3
    have h4' : ((a : ℝ) + 1) * Q ≤ P + s := by exact_mod_cast h4
    constructor <;> linarith
  · obtain ⟨h3, h4⟩ := h.pos hq
    have hq' : (0 : ℝ) < Q := by exact_mod_cast hq
    rw [le_div_iff₀ hq', div_lt_iff₀ hq']
    have h3' : (a : ℝ) * Q ≤ P + s := by exact_mod_cast h3
    have h4' : (P : ℝ) + s + 1 ≤ ((a : ℝ) + 1) * Q := by exact_mod_cast h4
    constructor <;> linarith

theorem Between.next_eq (hD : Between D s) (h : Step D s P Q a P' Q') :
    quo D P Q = a + 1 / quo D P' Q' ∧ quo D P' Q' ≠ 0 := by
  have hm := hD.mul_sqrt
  have hq : (Q : ℝ) ≠ 0 := by exact_mod_cast h.ne
  have hq' : (Q' : ℝ) ≠ 0 := by exact_mod_cast h.ne' hD
  have e : (Q : ℝ) * Q' = (√(D : ℝ) - P') * (√(D : ℝ) + P') := by
    have : (Q : ℝ) * Q' = D - P' * P' := by exact_mod_cast h.hQ
    rw [this]; linear_combination (-1) * hm
  have hne : (P' : ℝ) + √(D : ℝ) ≠ 0 := by
    intro h0
    rw [add_comm √(D : ℝ), h0, mul_zero] at e
    exact (mul_ne_zero hq hq') e
  have eP : (P' : ℝ) = a * Q - P := by exact_mod_cast h.hP
  refine ⟨?_, by rw [quo]; exact div_ne_zero hne hq'⟩
  rw [quo, quo, one_div_div]
  field_simp
  linear_combination (-1) * e + (√(D : ℝ) + P') * eP

end real

section cf
variable {D s : Int} {p q a : ℕ → Int}

theorem floor_seq (hD : Between D s) (h : Expansion D s p q a) (n : ℕ) : ⌊quo D (p n) (q n)⌋ = a n :=
  (hD.floor_eq (h n)).symm

theorem fract_inv (hD : Between D s) (h : Expansion D s p q a) (n : ℕ) :
    (Int.fract (quo D (p n) (q n)))⁻¹ = quo D (p (n + 1)) (q (n + 1))
      ∧ Int.fract (quo D (p n) (q n)) ≠ 0 := by
  obtain ⟨h1, h2⟩ := hD.next_eq (h n)
  have e : Int.fract (quo D (p n) (q n)) = 1 / quo D (p (n + 1)) (q (n + 1)) := by
    rw [Int.fract, floor_seq hD h, h1]; ring
  rw [e]
  exact ⟨by rw [one_div, inv_inv], one_div_ne_zero h2⟩

theorem of_s_get (hD : Between D s) (h : Expansion D s p q a) (n : ℕ) : ∀ m,
    (GenContFract.of (quo D (p m) (q m))).s.get? n = some ⟨1, (a (m + n + 1) : ℝ)⟩ := by
  induction n with
  | zero =>
    intro m
    obtain ⟨h1, h2⟩ := fract_inv hD h m
    have := GenContFract.of_s_head (v := quo D (p m) (q m)) h2
    rw [h1, floor_seq hD h] at this
    exact this
  | succ n ih =>
    intro m
    rw [GenContFract.of_s_succ, (fract_inv hD h m).1, ih (m + 1)]
    rw [show m + 1 + n + 1 = m + (n + 1) + 1 by omega]

theorem contsAux_eq (hD : Between D s) (h : Expansion D s p q a) (n : ℕ) :
    (GenContFract.of (quo D (p 0) (q 0))).contsAux n
      = ⟨(lin a 0 1 (n + 1) : ℝ), (lin a 1 0 (n + 1) : ℝ)⟩
    ∧ (GenContFract.of (quo D (p 0) (q 0))).contsAux (n + 1)
      = ⟨(lin a 0 1 (n + 2) : ℝ), (lin a 1 0 (n + 2) : ℝ)⟩ := by
  induction n with
  | zero =>
    rw [GenContFract.zeroth_contAux_eq_one_zero, zero_add, GenContFract.first_contAux_eq_h_one,
      GenContFract.of_h_eq_floor, floor_seq hD h]
    simp [lin]
  | succ n ih =>
    refine ⟨ih.2, ?_⟩
    rw [GenContFract.contsAux_recurrence (of_s_get hD h n 0) ih.1 ih.2]
    have e1 := lin_rec a 0 1 (n + 1)
    have e2 := lin_rec a 1 0 (n + 1)
    rw [e1, e2]
    push_cast
    rw [show n + 1 + 1 = n + 2 from rfl, zero_add, one_mul, one_mul]

/-- Equal partial quotients from some point on: equal complete quotients there. -/
theorem quo_eq_of_tail (hD : Between D s) (h : Expansion D s p q a) {m n : ℕ}
    (e : ∀ i, a (m + i) = a (n + i)) : quo D (p m) (q m) = quo D (p n) (q n) := by
  have hof : GenContFract.of (quo D (p m) (q m)) = GenContFract.of (quo D (p n) (q n)) := by
    apply GenContFract.ext
    · rw [GenContFract.of_h_eq_floor, GenContFract.of_h_eq_floor, floor_seq hD h, floor_seq hD h]
      have := e 0
      simp only [Nat.add_zero] at this
      rw [this]
    · apply Stream'.Seq.ext
      intro i
      rw [of_s_get hD h, of_s_get hD h]
      have := e (i + 1)
      rw [← Nat.add_assoc, ← Nat.add_assoc] at this
      rw [this]
  have h1 := GenContFract.of_convergence (quo D (p m) (q m))
  have h2 := GenContFract.of_convergence (quo D (p n) (q n))
  rw [hof] at h1
  exact tendsto_nhds_unique h1 h2

/-- The complete quotient determines the pair. -/
theorem quo_inj (hD : Between D s) {P Q P' Q' : Int} (hQ : Q ≠ 0) (hQ' : Q' ≠ 0) (e : quo D P Q = quo D P' Q') :
    P = P' ∧ Q = Q' := by
  have h1 : (Q : ℝ) ≠ 0 := by exact_mod_cast hQ
  have h2 : (Q' : ℝ) ≠ 0 := by exact_mod_cast hQ'
  rw [quo, quo, div_eq_div_iff h1 h2] at e
  by_cases hc : Q = Q'
  · subst hc
    have := mul_right_cancel₀ h1 e
    exact ⟨by exact_mod_cast add_right_cancel this, rfl⟩
  · exfalso
    -- sqrt D would be rational
    have e2 : √(D : ℝ) * ((Q' : ℝ) - Q) = P' * Q - P * Q' := by linear_combination e
    have e3 : (D : ℝ) * (((Q' : ℝ) - Q) * (Q' - Q)) = (P' * Q - P * Q') * (P' * Q - P * Q') := by
      rw [← e2]; linear_combination (-1) * (((Q' : ℝ) - Q) * (Q' - Q)) * hD.mul_sqrt
    have e4 : D * ((Q' - Q) * (Q' - Q)) = (P' * Q - P * Q') * (P' * Q - P * Q') := by exact_mod_cast e3
    have hne : Q' - Q ≠ 0 := by omega
    have hd : (Q' - Q) * (Q' - Q) ∣ (P' * Q - P * Q') * (P' * Q - P * Q') := ⟨D, by rw [← e4]; ring⟩
    rw [← sq, ← sq, Int.pow_dvd_pow_iff two_ne_zero] at hd
    obtain ⟨c, hc'⟩ := hd
    apply hD.ne_sq c
    have : D * ((Q' - Q) * (Q' - Q)) = (c * c) * ((Q' - Q) * (Q' - Q)) := by rw [e4, hc']; ring
    exact (mul_right_cancel₀ (mul_ne_zero hne hne) this).symm

end cf

variable {D s P0 Q0 : Int}

theorem getElem?_map_range {f : ℕ → Int} {n i : ℕ} {x : Int} (h : ((List.range n).map f)[i]? = some x) :
    i < n ∧ x = f i := by
  have hi : i < n := by
    by_contra hc
    rw [List.getElem?_eq_none (by simp; omega)] at h
    exact absurd h (by simp)
  have := (Rep.of_map n f).get i hi
  rw [this] at h
  exact ⟨hi, (Option.some.inj h).symm⟩

theorem lin_det (a : ℕ → Int) (n : ℕ) :
    lin a 0 1 (n + 1) * lin a 1 0 n - lin a 0 1 n * lin a 1 0 (n + 1) = (-1) ^ n := by
  induction n with
  | zero => simp [lin]
  | succ n ih =>
    rw [show n + 1 + 1 = n + 2 from rfl, lin, lin, pow_succ]
    linear_combination (-1) * ih

theorem lin_combine (a : ℕ → Int) (x y : Int) (n : ℕ) :
    lin a x y n = y * lin a 0 1 n + x * lin a 1 0 n ∧
    lin a x y (n + 1) = y * lin a 0 1 (n + 1) + x * lin a 1 0 (n + 1) := by
  induction n with
  | zero => simp [lin]
  | succ n ih =>
    refine ⟨ih.2, ?_⟩
    rw [show n + 1 + 1 = n + 2 from rfl, lin, lin, lin, ih.1, ih.2]
    ring

theorem tab_isPQa (hD : Between D s) (hQ : Q0 ≠ 0) (hd : Q0 ∣ D - P0 * P0) (n : ℕ) :
    IsPQa D P0 Q0 n (tabAt D s P0 Q0 n) := by
  have hE := expansion hD hQ hd
  refine ⟨by simp [tabAt], ⟨rd_map_range (Nat.succ_pos n), rd_map_range (Nat.succ_pos n)⟩, ?_, ?_, ?_, ?_, ?_⟩
  · intro i Q h
    obtain ⟨h1, rfl⟩ := getElem?_map_range h
    exact (pq_ok hD hQ hd i).1
  · intro i P Q a h1 h2 h3
    obtain ⟨-, rfl⟩ := getElem?_map_range h1
    obtain ⟨-, rfl⟩ := getElem?_map_range h2
    obtain ⟨-, rfl⟩ := getElem?_map_range h3
    exact hD.floor_eq (hE i)
  · intro i P Q a P' Q' h1 h2 h3 h4 h5
    obtain ⟨-, rfl⟩ := getElem?_map_range h1
    obtain ⟨-, rfl⟩ := getElem?_map_range h2
    obtain ⟨-, rfl⟩ := getElem?_map_range h3
    obtain ⟨-, rfl⟩ := getElem?_map_range h4
    obtain ⟨-, rfl⟩ := getElem?_map_range h5
    exact (hD.next_eq (hE i)).1
  · intro i A B h1 h2
    obtain ⟨-, rfl⟩ := getElem?_map_range h1
    obtain ⟨-, rfl⟩ := getElem?_map_range h2
    have := (contsAux_eq hD hE i).2
    refine ⟨?_, ?_, ?_⟩
    · rw [GenContFract.num_eq_conts_a, GenContFract.nth_cont_eq_succ_nth_contAux]
      exact congrArg GenContFract.Pair.a this
    · rw [GenContFract.den_eq_conts_b, GenContFract.nth_cont_eq_succ_nth_contAux]
      exact congrArg GenContFract.Pair.b this
    · have hdet := lin_det (sa D s P0 Q0) (i + 1)
      refine ⟨(-1) ^ (i + 1) * lin (sa D s P0 Q0) 1 0 (i + 1), -((-1) ^ (i + 1) * lin (sa D s P0 Q0) 0 1 (i + 1)), ?_⟩
      have hsq : ((-1 : Int) ^ (i + 1)) * (-1) ^ (i + 1) = 1 := by rw [← mul_pow]; simp
      linear_combination (-1) ^ (i + 1) * hdet + hsq
  · intro i A B G Q h1 h2 h3 h4
    obtain ⟨-, rfl⟩ := getElem?_map_range h1
    obtain ⟨-, rfl⟩ := getElem?_map_range h2
    obtain ⟨-, rfl⟩ := getElem?_map_range h3
    obtain ⟨-, rfl⟩ := getElem?_map_range h4
    refine ⟨?_, ?_⟩
    · rw [(lin_combine _ (-P0) Q0 (i + 2)).1]; ring
    · exact (norms hD hE (lin_rec _ _ _) (lin_rec _ _ _) rfl rfl rfl rfl (i + 1)).1

/-- The vectors between the calls: before the first call, and after `k + 1` calls. -/
def tabSeq (D s P0 Q0 : Int) (r l : ℕ) : ℕ → Tab
  | 0 => start P0 Q0
  | k + 1 => tabAt D s P0 Q0 (r + (k + 1) * l)

/-- `l` is the length of the period of the continued fraction of `x`: the coefficients repeat with
period `l'` from some point on exactly when `l` divides `l'`. -/
def PeriodLength (x : ℝ) (l : ℕ) : Prop :=
  ∀ l', (∃ m, ∀ i, m ≤ i → (GenContFract.of x).s.get? (i + l') = (GenContFract.of x).s.get? i) ↔ l ∣ l'

theorem IsPeriod.cf (hB : Between D s) (hQ : Q0 ≠ 0) (hd : Q0 ∣ D - P0 * P0) {r l : ℕ}
    (hp : IsPeriod D s P0 Q0 r l) : PeriodLength (quo D P0 Q0) l ∧ ∀ i, r ≤ i + 1 →
      (GenContFract.of (quo D P0 Q0)).s.get? (i + l) = (GenContFract.of (quo D P0 Q0)).s.get? i := by
  have hE := expansion hB hQ hd
  have h1 := hp.r1
  have hget := fun n => of_s_get hB hE n 0
  have hper : ∀ i, r ≤ i + 1 →
      (GenContFract.of (quo D P0 Q0)).s.get? (i + l) = (GenContFract.of (quo D P0 Q0)).s.get? i := by
    intro i hi
    have e1 := hget (i + l)
    have e2 := hget i
    change (GenContFract.of (quo D P0 Q0)).s.get? (i + l) = _ at e1
    change (GenContFract.of (quo D P0 Q0)).s.get? i = _ at e2
    rw [e1, e2]
    have := (hp.periodic hB hQ hd 1 (i + 1) hi).2.2
    rw [one_mul] at this
    rw [show 0 + (i + l) + 1 = i + 1 + l by omega, show 0 + i + 1 = i + 1 by omega, this]
  refine ⟨fun l' => ?_, hper⟩
  constructor
  · rintro ⟨m, hm⟩
    have key : ∀ i, sa D s P0 Q0 (m + r + l' + 1 + i) = sa D s P0 Q0 (m + r + 1 + i) := by
      intro i
      have e1 := hget (m + r + i + l')
      have e2 := hget (m + r + i)
      have e3 := hm (m + r + i) (by omega)
      change (GenContFract.of (quo D P0 Q0)).s.get? (m + r + i + l') = _ at e1
      change (GenContFract.of (quo D P0 Q0)).s.get? (m + r + i) = _ at e2
      rw [e1, e2] at e3
      have := congrArg GenContFract.Pair.b (Option.some.inj e3)
      rw [show m + r + l' + 1 + i = 0 + (m + r + i + l') + 1 by omega,
        show m + r + 1 + i = 0 + (m + r + i) + 1 by omega]
      exact Int.cast_injective (α := ℝ) this
    have := quo_eq_of_tail hB hE key
    have := quo_inj hB (pq_ok hB hQ hd _).1 (pq_ok hB hQ hd _).1 this
    rw [show m + r + l' + 1 = m + r + 1 + l' by omega] at this
    exact hp.dvd hB hQ hd (m + r + 1) (by omega) l' this
  · rintro ⟨c, rfl⟩
    refine ⟨r, fun i hi => ?_⟩
    induction c with
    | zero => simp
    | succ c ih =>
      rw [show i + l * (c + 1) = (i + l * c) + l by ring, hper _ (by omega), ih]

/-- C85: for a positive non-square `D` and `P0^2 = D (mod Q0)`, `pell_PQa` terminates, and every call
on the vectors of the call before extends them by one more period.  After each call the vectors
hold the expansion of `(P0 + sqrt D) / Q0` (`IsPQa`), and the returned number `l` is the length of
the period of the continued fraction. -/
theorem C85_pqa (D P0 Q0 : Int) (hD : 0 < D) (hns : ¬ IsSquare D) (hl : D.natAbs.log2 < 2 ^ 63)
    (hQ : Q0 ≠ 0) (hd : Q0 ∣ D - P0 * P0) :
    ∃ (r l fuel0 : ℕ) (T : ℕ → Tab), 1 ≤ r ∧ 1 ≤ l ∧ T 0 = start P0 Q0
    ∧ (∀ k fuel, fuel0 ≤ fuel → pqa fuel D (T k) = some (T (k + 1), l))
    ∧ (∀ k, IsPQa D P0 Q0 (r + (k + 1) * l) (T (k + 1)))
    ∧ (∀ i, r ≤ i + 1 → (GenContFract.of (quo D P0 Q0)).s.get? (i + l) = (GenContFract.of (quo D P0 Q0)).s.get? i)
    ∧ PeriodLength (quo D P0 Q0) l := by
  have hB := between_sqrtT D hD hns hl
  obtain ⟨r, l, hp⟩ := exists_isPeriod hB hQ hd
  have h1 := hp.r1
  have h2 := hp.l1
  obtain ⟨h3, hper⟩ := hp.cf hB hQ hd
  refine ⟨r, l, r + l, tabSeq D (Base.sqrtT D) P0 Q0 r l, h1, h2, rfl, ?_, ?_, hper, h3⟩
  · intro k fuel hf
    cases k with
    | zero =>
      rw [tabSeq, tabSeq, zero_add, one_mul]
      exact pqa_first hB rfl hQ hd hp fuel hf
    | succ k =>
      rw [tabSeq, tabSeq, show r + (k + 1 + 1) * l = r + (k + 1) * l + l by ring]
      have : 1 ≤ (k + 1) * l := Nat.one_le_iff_ne_zero.mpr (by positivity)
      exact pqa_again hB rfl hQ hd hp _ (by omega) (by omega) fuel (by omega)
  · intro k
    exact tab_isPQa hB hQ hd _

set_option maxRecDepth 100000 in
/-- The first test of pell_test.cpp (`PQa_13`), third case. -/
example : pqa 20 13 (start 11 108) = some (⟨[11, -11, 4, 2, 1, 3, 3, 1, 2], [108, -1, 3, 3, 4, 1, 4, 3, 3],
    [0, 7, 2, 1, 1, 6, 1, 1], [0, 1, 2, 3, 5, 33, 38, 71], [1, 7, 15, 22, 37, 244, 281, 525],
    [-11, 31, 51, 82, 133, 880, 1013, 1893]⟩, 5) := by decide +kernel

example : (0 : Int) < 13 ∧ ¬ IsSquare (13 : Int) ∧ (108 : Int) ∣ 13 - 11 * 11 := by decide +kernel

end Altruct.Pell
