/-
The arithmetic of the continued fraction of `(P + sqrt D) / Q`, with `s = floor(sqrt D)`.

Every comparison with `sqrt D` is a comparison with `s` or `s + 1`: for an integer `x`,
`x < sqrt D` iff `x ≤ s`, and `x > sqrt D` iff `x ≥ s + 1`.
-/
import Mathlib.Tactic.Ring
import Mathlib.Tactic.Linarith
import Mathlib.Tactic.LinearCombination
import Mathlib.Data.Set.Finite.Basic
import Mathlib.Data.Finset.Prod
import Mathlib.Order.Interval.Finset.Basic
import Mathlib.Data.Int.Interval
import Mathlib.Algebra.Ring.Int.Parity
import Mathlib.RingTheory.Coprime.Basic
import Mathlib.RingTheory.Int.Basic

namespace Altruct.Pell

/-- `D` lies strictly between the squares of `s` and `s + 1`. -/
structure Between (D s : Int) : Prop where
  pos : 1 ≤ s
  lo : s * s < D
  hi : D < (s + 1) * (s + 1)

theorem Between.ne_sq {D s : Int} (h : Between D s) (x : Int) : x * x ≠ D := by
  intro e
  rcases le_total 0 x with hx | hx
  · rcases lt_or_ge s x with h1 | h1
    · nlinarith [h.hi, h.pos]
    · nlinarith [h.lo, h.pos]
  · rcases lt_or_ge s (-x) with h1 | h1
    · nlinarith [h.hi, h.pos]
    · nlinarith [h.lo, h.pos]

/-- One step of the expansion of `(P + sqrt D) / Q`: `a` is its floor and `(P' + sqrt D) / Q'` is the
reciprocal of the rest. -/
structure Step (D s P Q a P' Q' : Int) : Prop where
  ne : Q ≠ 0
  pos : 0 < Q → a * Q ≤ P + s ∧ P + s + 1 ≤ (a + 1) * Q
  neg : Q < 0 → P + s + 1 ≤ a * Q ∧ (a + 1) * Q ≤ P + s
  hP : P' = a * Q - P
  hQ : Q * Q' = D - P' * P'

/-- `(P + sqrt D) / Q` is reduced: greater than 1, with the conjugate between -1 and 0. -/
structure Red (s P Q : Int) : Prop where
  p1 : 1 ≤ P
  p2 : P ≤ s
  q1 : 1 ≤ Q
  q2 : Q - P ≤ s
  q3 : s + 1 ≤ P + Q

/-- `(P + sqrt D) / Q > 1`. -/
structure Gt1 (s P Q : Int) : Prop where
  pos : 0 < Q → Q ≤ P + s
  neg : Q < 0 → P + s + 1 ≤ Q

theorem Step.ne' {D s P Q a P' Q' : Int} (hD : Between D s) (h : Step D s P Q a P' Q') : Q' ≠ 0 := by
  intro e
  have := h.hQ
  rw [e, mul_zero] at this
  exact hD.ne_sq P' (by linarith)

theorem mul_lt_cancel {q x y : Int} (hq : 0 < q) (h : q * x < q * y) : x < y :=
  lt_of_mul_lt_mul_left h hq.le

theorem mul_le_cancel {q x y : Int} (hq : 0 < q) (h : q * x ≤ q * y) : x ≤ y :=
  le_of_mul_le_mul_left h hq

theorem Step.gt1 {D s P Q a P' Q' : Int} (hD : Between D s) (h : Step D s P Q a P' Q') : Gt1 s P' Q' := by
  have e := h.hQ
  have hs := hD.pos
  have lo := hD.lo
  have hi := hD.hi
  rcases lt_or_gt_of_ne h.ne with hq | hq
  · obtain ⟨h1, h2⟩ := h.neg hq
    have hp : s + 1 ≤ P' := by rw [h.hP]; linarith
    have hp2 : P' + Q ≤ s := by rw [h.hP]; linarith
    constructor
    · intro hq'
      -- (-Q) Q' = P'^2 - D < (P' - s)(P' + s), and P' - s ≤ -Q
      have : (-Q) * Q' < (-Q) * (P' + s + 1) := by
        have : (P' - s) * (P' + s) ≤ (-Q) * (P' + s) := by
          apply mul_le_mul_of_nonneg_right <;> linarith
        nlinarith
      have := mul_lt_cancel (by linarith : (0 : Int) < -Q) this
      linarith
    · intro hq'
      nlinarith [mul_pos (neg_pos.mpr hq) (neg_pos.mpr hq')]
  · obtain ⟨h1, h2⟩ := h.pos hq
    have hp : P' ≤ s := by rw [h.hP]; linarith
    have hp2 : s + 1 ≤ P' + Q := by rw [h.hP]; linarith
    constructor
    · intro hq'
      have hm : -s ≤ P' := by
        by_contra hc
        nlinarith [mul_pos hq hq']
      -- Q Q' = D - P'^2 < (s+1-P')(s+1+P') ≤ Q (s+1+P')
      have : Q * Q' < Q * (P' + s + 1) := by
        have : (s + 1 - P') * (s + 1 + P') ≤ Q * (s + 1 + P') := by
          apply mul_le_mul_of_nonneg_right <;> linarith
        nlinarith
      have := mul_lt_cancel hq this
      linarith
    · intro hq'
      have hm : P' ≤ -s - 1 := by
        by_contra hc
        push Not at hc
        nlinarith [mul_pos hq (neg_pos.mpr hq')]
      -- Q (-Q') = P'^2 - D < (−P' − s)(s − P'), and s - P' < Q
      have : Q * (-Q') < Q * (-P' - s) := by
        have : (-P' - s) * (s - P') ≤ (-P' - s) * Q := by
          apply mul_le_mul_of_nonneg_left <;> linarith
        nlinarith
      have := mul_lt_cancel hq this
      linarith

/-- Once the conjugate is negative, the next pair is reduced. -/
theorem Step.red_of_neg {D s P Q a P' Q' : Int} (hD : Between D s) (h : Step D s P Q a P' Q')
    (hg : Gt1 s P Q) (hq : 0 < Q) (hp : P ≤ s) : Red s P' Q' ∧ 1 ≤ a := by
  obtain ⟨h1, h2⟩ := h.pos hq
  have hg1 := hg.pos hq
  have e := h.hQ
  have hs := hD.pos
  have lo := hD.lo
  have hi := hD.hi
  have ha : 1 ≤ a := by
    by_contra hc
    have : (a + 1) * Q ≤ 1 * Q := by apply mul_le_mul_of_nonneg_right <;> linarith
    have : Q < (P + s + 1) := by linarith
    linarith
  have hQP : Q ≤ a * Q := by nlinarith
  have ha1 : P' ≤ s := by rw [h.hP]; linarith
  have ha2 : s + 1 ≤ P' + Q := by rw [h.hP]; linarith
  have ha3 : Q - s ≤ P' := by rw [h.hP]; linarith
  have hp1 : 1 ≤ P' := by linarith
  have hq1 : 0 < Q' := by
    by_contra hc
    have : Q * Q' ≤ 0 := mul_nonpos_of_nonneg_of_nonpos hq.le (by linarith)
    nlinarith
  have hg' := (h.gt1 hD).pos hq1
  refine ⟨⟨hp1, ha1, hq1, by linarith, ?_⟩, ha⟩
  have : Q * (s - P') < Q * Q' := by
    have : (s - P') * Q ≤ (s - P') * (s + P') := by
      apply mul_le_mul_of_nonneg_left <;> linarith
    nlinarith
  have := mul_lt_cancel hq this
  linarith

theorem Red.gt1 {s P Q : Int} (h : Red s P Q) : Gt1 s P Q :=
  ⟨fun _ => by linarith [h.q2], fun h' => by linarith [h.q1]⟩

theorem Red.step {D s P Q a P' Q' : Int} (hD : Between D s) (r : Red s P Q) (h : Step D s P Q a P' Q') :
    Red s P' Q' ∧ 1 ≤ a := h.red_of_neg hD r.gt1 (by linarith [r.q1]) r.p2

/-- Two different reduced pairs have different successors. -/
theorem Red.inj {D s P Q a P₂ Q₂ a₂ P' Q' : Int} (hD : Between D s) (r : Red s P Q) (h : Step D s P Q a P' Q')
    (r₂ : Red s P₂ Q₂) (h₂ : Step D s P₂ Q₂ a₂ P' Q') : P = P₂ ∧ Q = Q₂ := by
  have hq : Q = Q₂ := by
    have : Q * Q' = Q₂ * Q' := by rw [h.hQ, h₂.hQ]
    exact mul_right_cancel₀ (h.ne' hD) this
  refine ⟨?_, hq⟩
  subst hq
  have e : P + P' = a * Q := by rw [h.hP]; ring
  have e₂ : P₂ + P' = a₂ * Q := by rw [h₂.hP]; ring
  have e3 : P - P₂ = (a - a₂) * Q := by linear_combination e - e₂
  have hq := r.q1
  rcases lt_trichotomy a a₂ with hlt | heq | hgt
  · have : (a - a₂) * Q ≤ (-1) * Q := by apply mul_le_mul_of_nonneg_right <;> linarith
    linarith [r.p2, r.q3, r₂.p2]
  · rw [heq] at e3; linarith
  · have : 1 * Q ≤ (a - a₂) * Q := by apply mul_le_mul_of_nonneg_right <;> linarith
    linarith [r.p2, r₂.q3, r₂.p2]

/-- The floor is determined. -/
theorem Step.det {D s P Q a P' Q' a₂ P₂ Q₂ : Int} (h : Step D s P Q a P' Q') (h₂ : Step D s P Q a₂ P₂ Q₂) :
    a = a₂ ∧ P' = P₂ ∧ Q' = Q₂ := by
  have ha : a = a₂ := by
    rcases lt_or_gt_of_ne h.ne with hq | hq
    · obtain ⟨h1, h2⟩ := h.neg hq
      obtain ⟨h3, h4⟩ := h₂.neg hq
      rcases lt_trichotomy a a₂ with hlt | heq | hgt
      · nlinarith
      · exact heq
      · nlinarith
    · obtain ⟨h1, h2⟩ := h.pos hq
      obtain ⟨h3, h4⟩ := h₂.pos hq
      rcases lt_trichotomy a a₂ with hlt | heq | hgt
      · nlinarith
      · exact heq
      · nlinarith
  have hP : P' = P₂ := by rw [h.hP, h₂.hP, ha]
  refine ⟨ha, hP, ?_⟩
  have : Q * Q' = Q * Q₂ := by rw [h.hQ, h₂.hQ, hP]
  exact mul_left_cancel₀ h.ne this

/-- The expansion of `(p 0 + sqrt D) / q 0`. -/
def Expansion (D s : Int) (p q a : ℕ → Int) : Prop := ∀ n, Step D s (p n) (q n) (a n) (p (n + 1)) (q (n + 1))

variable {D s : Int} {p q a : ℕ → Int}

theorem Expansion.gt1 (hD : Between D s) (h : Expansion D s p q a) (n : ℕ) : Gt1 s (p (n + 1)) (q (n + 1)) :=
  (h n).gt1 hD

/-- While the conjugate stays positive the `|Q|` decrease. -/
theorem Expansion.desc (hD : Between D s) (h : Expansion D s p q a)
    (hpos : ∀ n, ¬ (0 < q (n + 1) ∧ p (n + 1) ≤ s)) (n : ℕ) : |q (n + 2)| < |q (n + 1)| := by
  have g1 := h.gt1 hD n
  have g2 := h.gt1 hD (n + 1)
  have g3 := h.gt1 hD (n + 2)
  have st := h (n + 1)
  have st2 := h (n + 2)
  have e := st.hQ
  have n2 := hpos (n + 1)
  have n3 := hpos (n + 2)
  simp only [show n + 1 + 1 = n + 2 from rfl, show n + 2 + 1 = n + 3 from rfl] at *
  have hs := hD.pos
  have lo := hD.lo
  have hi := hD.hi
  have hne2 := st2.ne
  generalize p (n + 1) = P at *
  generalize q (n + 1) = Q at *
  generalize p (n + 2) = P' at *
  generalize q (n + 2) = Q' at *
  rcases lt_or_gt_of_ne st.ne with hq | hq
  · -- Q < 0, so P' ≥ s + 1 and Q' > 0
    have hp : s + 1 ≤ P' := by rw [st.hP]; linarith [(st.neg hq).1]
    have hq' : 0 < Q' := by
      by_contra hc
      have : 0 ≤ Q * Q' := mul_nonneg_of_nonpos_of_nonpos hq.le (by linarith)
      nlinarith
    -- the conjugate of the next one is positive as well, so Q' < P' - sqrt D
    have hlt : Q' ≤ P' - s - 1 := by
      obtain ⟨h1, h2⟩ := st2.pos hq'
      have hp3 : p (n + 3) ≤ s := by rw [st2.hP]; linarith
      have hq3 : q (n + 3) < 0 := by
        have := st2.ne' hD
        by_contra hc
        exact n3 ⟨by omega, hp3⟩
      have g := g3.neg hq3
      -- P'' ≤ -s-1 as Q' Q'' < 0, and P'' = a Q' - P'
      have hneg : p (n + 3) ≤ -s - 1 := by
        by_contra hc
        push Not at hc
        have := st2.hQ
        nlinarith [mul_pos hq' (neg_pos.mpr hq3)]
      have ha : 1 ≤ a (n + 2) := by
        by_contra hc
        have hg := g2.pos hq'
        have : (a (n + 2) + 1) * Q' ≤ 1 * Q' := by apply mul_le_mul_of_nonneg_right <;> linarith
        linarith
      have : Q' ≤ a (n + 2) * Q' := by nlinarith
      have := st2.hP
      linarith
    rw [abs_of_pos hq', abs_of_neg hq]
    -- (-Q) Q' = P'^2 - D > (P' - s - 1)(P' + s + 1) ≥ Q' (P' + s + 1)
    have : Q' * (P' + s + 1) < Q' * (-Q) := by
      have : Q' * (P' + s + 1) ≤ (P' - s - 1) * (P' + s + 1) := by
        apply mul_le_mul_of_nonneg_right <;> linarith
      nlinarith
    have := mul_lt_cancel hq' this
    linarith
  · have hp : P' ≤ s := by rw [st.hP]; linarith [(st.pos hq).1]
    have hq' : Q' < 0 := by
      by_contra hc
      exact n2 ⟨by omega, hp⟩
    have g := g2.neg hq'
    have hneg : P' ≤ -s - 1 := by
      by_contra hc
      push Not at hc
      nlinarith [mul_pos hq (neg_pos.mpr hq')]
    rw [abs_of_neg hq', abs_of_pos hq]
    have : (-Q') * (-P' + s + 1) < (-Q') * Q := by
      have : (-Q') * (-P' + s + 1) ≤ (-P' - s - 1) * (-P' + s + 1) := by
        apply mul_le_mul_of_nonneg_right <;> linarith
      nlinarith
    have := mul_lt_cancel (by linarith : (0 : Int) < -Q') this
    linarith

/-- The expansion reaches a reduced pair. -/
theorem Expansion.exists_red (hD : Between D s) (h : Expansion D s p q a) : ∃ n, 1 ≤ n ∧ Red s (p n) (q n) := by
  by_cases hc : ∃ n, 0 < q (n + 1) ∧ p (n + 1) ≤ s
  · obtain ⟨n, h1, h2⟩ := hc
    exact ⟨n + 2, by omega, ((h (n + 1)).red_of_neg hD (h.gt1 hD n) h1 h2).1⟩
  · exfalso
    push Not at hc
    have hd := h.desc hD (fun n hn => absurd hn.2 (by have := hc n hn.1; omega))
    have : ∀ n : ℕ, |q (n + 1)| + n ≤ |q 1| := by
      intro n
      induction n with
      | zero => simp
      | succ n ih => have := hd n; push_cast; linarith
    have h1 := this (|q 1|.toNat + 1)
    have h2 := abs_nonneg (q 1)
    have h3 := abs_nonneg (q (|q 1|.toNat + 1 + 1))
    push_cast at h1
    rw [Int.toNat_of_nonneg h2] at h1
    linarith

theorem Expansion.red_from (hD : Between D s) (h : Expansion D s p q a) {i : ℕ} (hr : Red s (p i) (q i)) :
    ∀ k, Red s (p (i + k)) (q (i + k)) := by
  intro k
  induction k with
  | zero => exact hr
  | succ k ih => exact (Red.step hD ih (h (i + k))).1

theorem Expansion.eq_from (h : Expansion D s p q a) {i j : ℕ} (hp : p i = p j) (hq : q i = q j) :
    ∀ k, p (i + k) = p (j + k) ∧ q (i + k) = q (j + k) ∧ a (i + k) = a (j + k) := by
  have key : ∀ k, p (i + k) = p (j + k) ∧ q (i + k) = q (j + k) := by
    intro k
    induction k with
    | zero => exact ⟨hp, hq⟩
    | succ k ih =>
      have h1 := h (i + k)
      rw [ih.1, ih.2] at h1
      exact (h1.det (h (j + k))).2
  intro k
  refine ⟨(key k).1, (key k).2, ?_⟩
  have h1 := h (i + k)
  rw [(key k).1, (key k).2] at h1
  exact (h1.det (h (j + k))).1

/-- From a reduced pair on, equal states have equal predecessors. -/
theorem Expansion.back (hD : Between D s) (h : Expansion D s p q a) {i : ℕ} (hr : Red s (p i) (q i)) {m n : ℕ}
    (hm : i ≤ m) (hn : i ≤ n) (hp : p (m + 1) = p (n + 1)) (hq : q (m + 1) = q (n + 1)) :
    p m = p n ∧ q m = q n := by
  have r1 := h.red_from hD hr (m - i)
  have r2 := h.red_from hD hr (n - i)
  rw [Nat.add_sub_cancel' hm] at r1
  rw [Nat.add_sub_cancel' hn] at r2
  have h1 := h m
  rw [hp, hq] at h1
  exact r1.inj hD h1 r2 (h n)

/-- The expansion is purely periodic from a reduced pair on. -/
theorem Expansion.exists_period (hD : Between D s) (h : Expansion D s p q a) {i : ℕ} (hr : Red s (p i) (q i)) :
    ∃ l, 1 ≤ l ∧ p (i + l) = p i ∧ q (i + l) = q i := by
  have hf : (Set.range fun k => (p (i + k), q (i + k))).Finite := by
    apply Set.Finite.subset (Finset.finite_toSet (Finset.Icc 1 s ×ˢ Finset.Icc 1 (2 * s)))
    rintro x ⟨k, rfl⟩
    have r := h.red_from hD hr k
    simp only [Finset.coe_product, Finset.coe_Icc, Set.mem_prod, Set.mem_Icc]
    exact ⟨⟨r.p1, r.p2⟩, ⟨r.q1, by linarith [r.q2, r.p2]⟩⟩
  have : ∃ m n : ℕ, m < n ∧ p (i + m) = p (i + n) ∧ q (i + m) = q (i + n) := by
    by_contra hc
    push Not at hc
    apply Set.infinite_range_of_injective _ hf
    intro m n e
    simp only [Prod.mk.injEq] at e
    rcases lt_trichotomy m n with hlt | heq | hgt
    · exact absurd e.2 (hc m n hlt e.1)
    · exact heq
    · exact absurd e.2.symm (hc n m hgt e.1.symm)
  obtain ⟨m, n, hlt, h1, h2⟩ := this
  have key : ∀ d, d ≤ m → p (i + (m - d)) = p (i + (n - d)) ∧ q (i + (m - d)) = q (i + (n - d)) := by
    intro d
    induction d with
    | zero => intro _; exact ⟨h1, h2⟩
    | succ d ih =>
      intro hd
      obtain ⟨g1, g2⟩ := ih (by omega)
      apply h.back hD hr (by omega) (by omega)
      · rw [show i + (m - (d + 1)) + 1 = i + (m - d) by omega, show i + (n - (d + 1)) + 1 = i + (n - d) by omega]
        exact g1
      · rw [show i + (m - (d + 1)) + 1 = i + (m - d) by omega, show i + (n - (d + 1)) + 1 = i + (n - d) by omega]
        exact g2
  obtain ⟨g1, g2⟩ := key m le_rfl
  simp only [Nat.sub_self, Nat.add_zero] at g1 g2
  exact ⟨n - m, by omega, g1.symm, g2.symm⟩

/-- A sequence that obeys the recurrence of the convergents; `X 0`, `X 1` are the terms of index -2
and -1. -/
def Rec (a X : ℕ → Int) : Prop := ∀ k, X (k + 2) = a k * X (k + 1) + X k

/-- The norm form in the basis of two consecutive convergents. -/
theorem norms (hD : Between D s) (h : Expansion D s p q a) {G B : ℕ → Int} (hG : Rec a G) (hB : Rec a B)
    (g0 : G 0 = - p 0) (g1 : G 1 = q 0) (b0 : B 0 = 1) (b1 : B 1 = 0) (n : ℕ) :
    G (n + 1) * G (n + 1) - D * (B (n + 1) * B (n + 1)) = (-1) ^ n * q n * q 0
    ∧ G n * G (n + 1) - D * (B n * B (n + 1)) = - ((-1) ^ n * p n * q 0)
    ∧ q n * (G n * G n - D * (B n * B n)) = (-1) ^ n * (p n * p n - D) * q 0 := by
  induction n with
  | zero =>
    rw [zero_add, g0, g1, b0, b1]
    refine ⟨by ring, by ring, by ring⟩
  | succ n ih =>
    obtain ⟨h1, h2, h3⟩ := ih
    have st := h n
    have e := st.hQ
    have eP := st.hP
    have eG := hG n
    have eB := hB n
    simp only [show n + 1 + 1 = n + 2 from rfl]
    have n2 : G (n + 1) * G (n + 2) - D * (B (n + 1) * B (n + 2)) = - ((-1) ^ (n + 1) * p (n + 1) * q 0) := by
      rw [eG, eB, pow_succ, eP]
      linear_combination a n * h1 + h2
    refine ⟨?_, n2, ?_⟩
    · apply mul_left_cancel₀ st.ne
      have : q n * (G (n + 2) * G (n + 2) - D * (B (n + 2) * B (n + 2)))
          = (-1) ^ n * (p (n + 1) * p (n + 1) - D) * q 0 := by
        rw [eG, eB, eP]
        linear_combination (a n) ^ 2 * q n * h1 + 2 * a n * q n * h2 + h3
      rw [this, pow_succ]
      linear_combination (-1) ^ n * q 0 * e
    · rw [h1, pow_succ]
      linear_combination (-1) ^ n * q 0 * e

/-- The value of the norm form at `u` times a convergent plus `v` times the next one. -/
theorem norm_form (hD : Between D s) (h : Expansion D s p q a) {G B : ℕ → Int} (hG : Rec a G) (hB : Rec a B)
    (g0 : G 0 = - p 0) (g1 : G 1 = q 0) (b0 : B 0 = 1) (b1 : B 1 = 0) (n : ℕ) (u v : Int) :
    (u * G (n + 1) + v * G (n + 2)) ^ 2 - D * (u * B (n + 1) + v * B (n + 2)) ^ 2
      = (-1) ^ n * q 0 * (q n * u ^ 2 + 2 * p (n + 1) * u * v - q (n + 1) * v ^ 2) := by
  obtain ⟨h1, -, -⟩ := norms hD h hG hB g0 g1 b0 b1 n
  obtain ⟨h2, h3, -⟩ := norms hD h hG hB g0 g1 b0 b1 (n + 1)
  simp only [show n + 1 + 1 = n + 2 from rfl, pow_succ] at h2 h3
  linear_combination u ^ 2 * h1 + v ^ 2 * h2 + 2 * u * v * h3

/-- A combination with `0 < v < a u` has a large norm. -/
theorem form_large {P Q R a u v : Int} (hD : Between D s) (r : Red s P Q)
    (ha : a * Q ≤ P + s) (hR : R * Q = D - P * P) (hu : 1 ≤ u) (hv : 1 ≤ v) (hva : v ≤ a * u - 1) :
    s + 1 ≤ R * u ^ 2 + 2 * P * u * v - Q * v ^ 2 := by
  -- with `e = Q v - P u`: `Q g = D u^2 - e^2`, and `|e| ≤ s u - Q`
  have hq := r.q1
  have hs := hD.pos
  have e1 : Q * (R * u ^ 2 + 2 * P * u * v - Q * v ^ 2) = D * u ^ 2 - (Q * v - P * u) ^ 2 := by
    linear_combination u ^ 2 * hR
  set e := Q * v - P * u with he
  have b1 : e ≤ s * u - Q := by
    have : Q * v ≤ Q * (a * u - 1) := by apply mul_le_mul_of_nonneg_left <;> linarith
    have : a * Q * u ≤ (P + s) * u := by apply mul_le_mul_of_nonneg_right <;> linarith
    nlinarith
  have b2 : Q - s * u ≤ e := by
    have h1 : Q * 1 ≤ Q * v := by apply mul_le_mul_of_nonneg_left <;> linarith
    have h2 : P * u ≤ s * u := by apply mul_le_mul_of_nonneg_right <;> linarith [r.p2]
    linarith
  have b3 : e ^ 2 ≤ (s * u - Q) ^ 2 := by
    apply sq_le_sq'
    · linarith
    · linarith
  have hsz : Q ≤ s ∨ 2 ≤ u := by
    by_contra hc
    push Not at hc
    have hu1 : u = 1 := by omega
    have ha2 : 2 ≤ a := by rw [hu1] at hva; linarith
    have : 2 * Q ≤ a * Q := by apply mul_le_mul_of_nonneg_right <;> linarith
    linarith [r.p2]
  have hQ : Q ≤ (2 * u - 1) * s := by
    rcases hsz with h1 | h1
    · nlinarith
    · have : 3 * s ≤ (2 * u - 1) * s := by apply mul_le_mul_of_nonneg_right <;> linarith
      linarith [r.q2, r.p2]
  have : Q * s < Q * (R * u ^ 2 + 2 * P * u * v - Q * v ^ 2) := by
    rw [e1]
    have : s * s * u ^ 2 < D * u ^ 2 := by
      apply mul_lt_mul_of_pos_right hD.lo; nlinarith
    have : Q * Q ≤ Q * ((2 * u - 1) * s) := by apply mul_le_mul_of_nonneg_left <;> linarith
    nlinarith
  have := mul_lt_cancel (by linarith : (0 : Int) < Q) this
  linarith

/-- A primitive non-negative combination of two consecutive convergents whose norm is small is itself
a convergent. -/
theorem descend (hD : Between D s) (h : Expansion D s p q a) :
    ∀ (m : ℕ) (n : ℕ) (u v : Int), (u + v).toNat ≤ m → Red s (p (n + 1)) (q (n + 1)) → 0 ≤ u → 1 ≤ v →
      IsCoprime u v → |q n * u ^ 2 + 2 * p (n + 1) * u * v - q (n + 1) * v ^ 2| ≤ s →
      ∃ k, ∀ X, Rec a X → u * X (n + 1) + v * X (n + 2) = X (n + 2 + k) := by
  intro m
  induction m with
  | zero => intro n u v hm _ hu hv; omega
  | succ m ih =>
    intro n u v hm hr hu hv hc hs
    rcases eq_or_lt_of_le hu with h0 | h0
    · refine ⟨0, fun X _ => ?_⟩
      rw [← h0] at hc ⊢
      rw [isCoprime_zero_left, Int.isUnit_iff] at hc
      have : v = 1 := by omega
      rw [this]; ring_nf
    · have st := h (n + 1)
      have ha := (hr.step hD st).2
      by_cases hlt : v < a (n + 1) * u
      · exfalso
        have := form_large hD hr (st.pos (by linarith [hr.q1])).1 (h n).hQ (by omega) hv
          (by omega : v ≤ a (n + 1) * u - 1)
        rw [abs_le] at hs
        linarith [hs.2]
      · push Not at hlt
        have hau : u ≤ a (n + 1) * u := by nlinarith
        obtain ⟨k, hk⟩ := ih (n + 1) (v - a (n + 1) * u) u (by omega) (hr.step hD st).1 (by omega) (by omega)
          (by
            have : IsCoprime (v - a (n + 1) * u) u := by
              have := hc.symm.add_mul_right_left (-(a (n + 1)))
              rwa [show v + -a (n + 1) * u = v - a (n + 1) * u by ring] at this
            exact this)
          (by
            have e : q (n + 1) * (v - a (n + 1) * u) ^ 2 + 2 * p (n + 1 + 1) * (v - a (n + 1) * u) * u
                - q (n + 1 + 1) * u ^ 2
                = - (q n * u ^ 2 + 2 * p (n + 1) * u * v - q (n + 1) * v ^ 2) := by
              have e1 := st.hQ
              have e2 := (h n).hQ
              have e3 := st.hP
              have hne : q (n + 1) ≠ 0 := st.ne
              apply mul_left_cancel₀ hne
              have e4 : q (n + 1) * q (n + 1 + 1) = D - (a (n + 1) * q (n + 1) - p (n + 1)) ^ 2 := by
                rw [e1, e3]; ring
              rw [e3]
              linear_combination u ^ 2 * e2 - u ^ 2 * e4
            rw [e, abs_neg]; exact hs)
        refine ⟨k + 1, fun X hX => ?_⟩
        have e1 := hk X hX
        have e2 := hX (n + 1)
        simp only [show n + 1 + 1 = n + 2 from rfl, show n + 1 + 2 = n + 3 from rfl] at e1 e2
        rw [show n + 2 + (k + 1) = n + 3 + k by omega, ← e1, e2]
        ring

end Altruct.Pell
