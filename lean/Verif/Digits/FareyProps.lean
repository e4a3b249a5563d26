/-
C56: Farey neighbours.
-/
import Verif.Digits.Model
import Verif.Fraction.Props
import Verif.Modulo.GcdEx
import Mathlib.Tactic.LinearCombination
import Mathlib.Data.Rat.Floor
import Mathlib.RingTheory.Coprime.Lemmas
import Mathlib.Algebra.Order.Archimedean.Basic

namespace Altruct.Digits

open Altruct.Fraction

/-! ### Specification -/

/-- `g` is the right neighbour of `f` among the fractions with denominators up to `n`. -/
def NextRight (n : Int) (f g : Frac) : Prop :=
  Canon g ∧ g.q ≤ n ∧ val f < val g ∧ ∀ h, Canon h → h.q ≤ n → val f < val h → val g ≤ val h

/-- `g` is the left neighbour of `f` among the fractions with denominators up to `n`. -/
def NextLeft (n : Int) (f g : Frac) : Prop :=
  Canon g ∧ g.q ≤ n ∧ val g < val f ∧ ∀ h, Canon h → h.q ≤ n → val h < val f → val h ≤ val g

/-! ### Proofs -/

theorem val_lt {f g : Frac} (hf : 0 < f.q) (hg : 0 < g.q) : val f < val g ↔ f.p * g.q < g.p * f.q := by
  have := (C36_compare f g hf hg).1
  rw [← this, Fraction.lt, Fraction.cmp, decide_eq_true_eq]
  omega

theorem val_le {f g : Frac} (hf : 0 < f.q) (hg : 0 < g.q) : val f ≤ val g ↔ f.p * g.q ≤ g.p * f.q := by
  rw [← not_lt, val_lt hg hf, not_lt]

theorem canon_ext {f g : Frac} (hf : Canon f) (hg : Canon g) (h : val f = val g) : f = g := by
  have := (C36_eq f g hf hg).1.mpr h
  rw [Fraction.eq, Bool.and_eq_true, decide_eq_true_eq, decide_eq_true_eq] at this
  cases f; cases g; simp_all

theorem canon_of_det {P Q a b : Int} (hQ : 0 < Q) (h : P * a - b * Q = 1 ∨ P * a - b * Q = -1) : Canon ⟨P, Q⟩ := by
  refine ⟨hQ, ?_⟩
  show Int.gcd P Q = 1
  rw [← Int.isCoprime_iff_gcd_eq_one]
  rcases h with h | h
  · exact ⟨a, -b, by linear_combination h⟩
  · exact ⟨-a, b, by linear_combination -h⟩

theorem mk_of_det {P Q a b : Int} (hQ : 0 < Q) (h : P * a - b * Q = 1 ∨ P * a - b * Q = -1) : mk' P Q = some ⟨P, Q⟩ := by
  obtain ⟨f, e, hc, hv⟩ := C36_reduce P Q (by omega)
  rw [e, canon_ext hc (canon_of_det hQ h) hv]

/-- The unimodular fraction with the largest denominator up to `n` is the neighbour. -/
theorem right_of_det {n P Q : Int} {f : Frac} (hf : Canon f) (hQ0 : 0 < Q) (hQ : Q ≤ n) (hQn : n < Q + f.q)
    (h : P * f.q - f.p * Q = 1) : NextRight n f ⟨P, Q⟩ := by
  refine ⟨canon_of_det hQ0 (Or.inl h), hQ, ?_, ?_⟩
  · rw [val_lt hf.1 hQ0]; show f.p * Q < P * f.q; omega
  · intro g hg hgn hlt
    rw [val_lt hf.1 hg.1] at hlt
    rw [val_le hQ0 hg.1]
    show P * g.q ≤ g.p * Q
    by_contra hc
    have h1 : (P * g.q - g.p * Q) * f.q = g.q - Q * (g.p * f.q - f.p * g.q) := by linear_combination g.q * h
    have h2 : 1 ≤ P * g.q - g.p * Q := by omega
    have h3 : 1 ≤ g.p * f.q - f.p * g.q := by omega
    have := hf.1
    nlinarith

theorem left_of_det {n P Q : Int} {f : Frac} (hf : Canon f) (hQ0 : 0 < Q) (hQ : Q ≤ n) (hQn : n < Q + f.q)
    (h : P * f.q - f.p * Q = -1) : NextLeft n f ⟨P, Q⟩ := by
  refine ⟨canon_of_det hQ0 (Or.inr h), hQ, ?_, ?_⟩
  · rw [val_lt hQ0 hf.1]; show P * f.q < f.p * Q; omega
  · intro g hg hgn hlt
    rw [val_lt hg.1 hf.1] at hlt
    rw [val_le hg.1 hQ0]
    show g.p * Q ≤ P * g.q
    by_contra hc
    have h1 : (g.p * Q - P * g.q) * f.q = g.q - Q * (f.p * g.q - g.p * f.q) := by linear_combination -g.q * h
    have h2 : 1 ≤ g.p * Q - P * g.q := by omega
    have h3 : 1 ≤ f.p * g.q - g.p * f.q := by omega
    have := hf.1
    nlinarith

theorem exists_det (n : Int) (f : Frac) (hf : Canon f) (hfn : f.q ≤ n) (ε : Int) :
    ∃ P Q, 0 < Q ∧ Q ≤ n ∧ n < Q + f.q ∧ P * f.q - f.p * Q = ε := by
  obtain ⟨u, v, huv⟩ := Int.isCoprime_iff_gcd_eq_one.mpr hf.2
  have hq := hf.1
  have hm := Int.emod_nonneg (n + ε * u) (by omega : f.q ≠ 0)
  have hm2 := Int.emod_lt_of_pos (n + ε * u) hq
  have hd := Int.emod_add_mul_ediv (n + ε * u) f.q
  generalize (n + ε * u) % f.q = r at *
  generalize (n + ε * u) / f.q = k at *
  refine ⟨ε * v + k * f.p, -(ε * u) + k * f.q, ?_, ?_, ?_, ?_⟩
  · rw [mul_comm k]; omega
  · rw [mul_comm k]; omega
  · rw [mul_comm k]; omega
  · linear_combination ε * huv

theorem right_unique {n : Int} {f g g' : Frac} (h : NextRight n f g) (h' : NextRight n f g') : g = g' :=
  canon_ext h.1 h'.1 (le_antisymm (h.2.2.2 g' h'.1 h'.2.1 h'.2.2.1) (h'.2.2.2 g h.1 h.2.1 h.2.2.1))

theorem left_unique {n : Int} {f g g' : Frac} (h : NextLeft n f g) (h' : NextLeft n f g') : g = g' :=
  canon_ext h.1 h'.1 (le_antisymm (h'.2.2.2 g h.1 h.2.1 h.2.2.1) (h.2.2.2 g' h'.1 h'.2.1 h'.2.2.1))

/-- Neighbours are unimodular. -/
theorem det_right {n : Int} {f g : Frac} (hf : Canon f) (hfn : f.q ≤ n) (h : NextRight n f g) : g.p * f.q - f.p * g.q = 1 := by
  obtain ⟨P, Q, h1, h2, h3, h4⟩ := exists_det n f hf hfn 1
  rw [right_unique h (right_of_det hf h1 h2 h3 h4)]
  exact h4

theorem det_left {n : Int} {f g : Frac} (hf : Canon f) (hfn : f.q ≤ n) (h : NextLeft n f g) : g.p * f.q - f.p * g.q = -1 := by
  obtain ⟨P, Q, h1, h2, h3, h4⟩ := exists_det n f hf hfn (-1)
  rw [left_unique h (left_of_det hf h1 h2 h3 h4)]
  exact h4

/-- The common tail of `farey_neighbour`. -/
theorem tail_bounds (n p q : Int) (f : Frac) (hf : 0 < f.q) (hfn : f.q ≤ n) (hq : -f.q ≤ q) :
    let k := (n + q).tdiv f.q
    0 < k * f.q - q ∧ k * f.q - q ≤ n ∧ n < k * f.q - q + f.q ∧
      (k * f.p - p) * f.q - f.p * (k * f.q - q) = f.p * q - p * f.q := by
  have e : (n + q).tdiv f.q = (n + q) / f.q := Int.tdiv_eq_ediv_of_nonneg (by omega)
  simp only [e]
  have hm := Int.emod_nonneg (n + q) (by omega : f.q ≠ 0)
  have hm2 := Int.emod_lt_of_pos (n + q) hf
  have hd := Int.emod_add_mul_ediv (n + q) f.q
  generalize (n + q) % f.q = r at *
  generalize (n + q) / f.q = k at *
  rw [mul_comm k f.q]
  exact ⟨by omega, by omega, by omega, by ring⟩

/-- **C56**: from a fraction and its left neighbour, `farey_neighbour` gives the right neighbour. -/
theorem C56_farey_right (n : Int) (fp f : Frac) (hfp : Canon fp) (hfpn : fp.q ≤ n) (h : NextRight n fp f) :
    ∃ g, fareyNeighbour n fp f = some g ∧ NextRight n f g := by
  have hd := det_right hfp hfpn h
  have hf := h.1
  have hq := hfp.1
  have hfq := hf.1
  obtain ⟨b1, b2, b3, b4⟩ := tail_bounds n fp.p fp.q f hfq h.2.1 (by omega)
  rw [fareyNeighbour, if_neg (by omega)]
  simp only
  rw [if_neg (by omega)]
  generalize (n + fp.q).tdiv f.q = k at *
  have hdet : (k * f.p - fp.p) * f.q - f.p * (k * f.q - fp.q) = 1 := by rw [b4]; linear_combination hd
  exact ⟨_, mk_of_det b1 (Or.inl hdet), right_of_det hf b1 b2 b3 hdet⟩

/-- **C56**: and from a fraction and its right neighbour, the left neighbour. -/
theorem C56_farey_left (n : Int) (fp f : Frac) (hfp : Canon fp) (hfpn : fp.q ≤ n) (h : NextLeft n fp f) :
    ∃ g, fareyNeighbour n fp f = some g ∧ NextLeft n f g := by
  have hd := det_left hfp hfpn h
  have hf := h.1
  have hq := hfp.1
  have hfq := hf.1
  obtain ⟨b1, b2, b3, b4⟩ := tail_bounds n fp.p fp.q f hfq h.2.1 (by omega)
  rw [fareyNeighbour, if_neg (by omega)]
  simp only
  rw [if_neg (by omega)]
  generalize (n + fp.q).tdiv f.q = k at *
  have hdet : (k * f.p - fp.p) * f.q - f.p * (k * f.q - fp.q) = -1 := by rw [b4]; linear_combination hd
  exact ⟨_, mk_of_det b1 (Or.inr hdet), left_of_det hf b1 b2 b3 hdet⟩

/-- **C56**: started with `-inf` (`+inf`) at a fraction that is not negative, it gives the right (left)
neighbour. -/
theorem C56_farey_start (n : Int) (s : Int) (f : Frac) (hf : Canon f) (hfn : f.q ≤ n) (hp : 0 ≤ f.p) :
    (s < 0 → ∃ g, fareyNeighbour n ⟨s, 0⟩ f = some g ∧ NextRight n f g) ∧
    (0 < s → ∃ g, fareyNeighbour n ⟨s, 0⟩ f = some g ∧ NextLeft n f g) := by
  have hfq := hf.1
  have hg := Modulo.gcdEx_adj f.q f.p hfq hp
  have hbz := Base.C03_gcd_ex_bezout f.q f.p
  simp only at hg
  obtain ⟨_, hg1, _, _, _, _, _, hg7⟩ := hg
  rw [Int.gcd_comm, hf.2] at hg1
  rw [hg1] at hbz
  rw [fareyNeighbour, if_pos rfl]
  generalize Base.gcdEx f.q f.p = r at *
  obtain ⟨g, x, y, i⟩ := r
  simp only at *
  constructor
  · intro hs
    rw [if_pos hs]
    simp only
    obtain ⟨b1, b2, b3, b4⟩ := tail_bounds n (-x) y f hfq hfn (by omega)
    rw [if_neg (by omega)]
    generalize (n + y).tdiv f.q = k at *
    have hdet : (k * f.p - -x) * f.q - f.p * (k * f.q - y) = 1 := by rw [b4]; linear_combination -hbz
    exact ⟨_, mk_of_det b1 (Or.inl hdet), right_of_det hf b1 b2 b3 hdet⟩
  · intro hs
    rw [if_neg (show ¬ s < 0 by omega)]
    simp only
    obtain ⟨b1, b2, b3, b4⟩ := tail_bounds n x (-y) f hfq hfn (by omega)
    rw [if_neg (by omega)]
    generalize (n + -y).tdiv f.q = k at *
    have hdet : (k * f.p - x) * f.q - f.p * (k * f.q - -y) = -1 := by rw [b4]; linear_combination hbz
    exact ⟨_, mk_of_det b1 (Or.inr hdet), left_of_det hf b1 b2 b3 hdet⟩

/-- **C56**: started at a negative fraction it goes the wrong way: the right neighbour of -1/2 among the
denominators up to 5 is -2/5, the answer is the left neighbour. -/
theorem C56_farey_negative : fareyNeighbour 5 ⟨-1, 0⟩ ⟨-1, 2⟩ = some ⟨-3, 5⟩ := by decide +kernel

/-- The first `k + 1` fractions from `f` on, walking with `farey_neighbour`: the last two. -/
def walk (n : Int) (fp f : Frac) : Nat → Option (Frac × Frac)
  | 0 => some (fp, f)
  | k + 1 => do
    let (fp, f) ← walk n fp f k
    let g ← fareyNeighbour n fp f
    some (f, g)

/-- **C56**: walking from any fraction that is not negative, with `-inf` as its left neighbour, visits
in increasing order exactly the fractions with denominators up to `n` from it on. -/
theorem C56_farey_walk (n : Int) (f : Frac) (hf : Canon f) (hfn : f.q ≤ n) (hp : 0 ≤ f.p) :
    ∃ x : Nat → Frac, x 0 = f ∧ (∀ k, ∃ y, walk n ⟨-1, 0⟩ f k = some (y, x k)) ∧ (∀ k, Canon (x k) ∧ (x k).q ≤ n) ∧
      (∀ k, val (x k) < val (x (k + 1))) ∧
      ∀ h, Canon h → h.q ≤ n → val f ≤ val h → ∃ k, x k = h := by
  have step : ∀ k, ∃ y z, walk n ⟨-1, 0⟩ f k = some (y, z) ∧ Canon z ∧ z.q ≤ n ∧ val f ≤ val z ∧ (k = 0 → z = f) ∧
      ∃ g, fareyNeighbour n y z = some g ∧ NextRight n z g := by
    intro k
    induction k with
    | zero => exact ⟨_, _, rfl, hf, hfn, le_refl _, fun _ => rfl, (C56_farey_start n (-1) f hf hfn hp).1 (by omega)⟩
    | succ k ih =>
      obtain ⟨y, z, e, h1, h2, h3, _, g, e2, h4⟩ := ih
      refine ⟨z, g, ?_, h4.1, h4.2.1, h3.trans h4.2.2.1.le, by omega, C56_farey_right n z g h1 h2 h4⟩
      rw [walk, e]
      simp only [Option.bind_eq_bind, Option.bind_some]
      rw [e2]; rfl
  choose y x hx using step
  have hnext : ∀ k, NextRight n (x k) (x (k + 1)) := by
    intro k
    obtain ⟨e, _, _, _, _, g, e2, h⟩ := hx k
    have e3 := (hx (k + 1)).1
    rw [walk, e] at e3
    simp only [Option.bind_eq_bind, Option.bind_some] at e3
    rw [e2] at e3
    simp only [Option.bind_some, Option.some.injEq, Prod.mk.injEq] at e3
    rw [← e3.2]; exact h
  refine ⟨x, (hx 0).2.2.2.2.1 rfl, fun k => ⟨y k, (hx k).1⟩, fun k => ⟨(hx k).2.1, (hx k).2.2.1⟩, fun k => (hnext k).2.2.1, ?_⟩
  intro h hc hhn hle
  by_contra hno
  push Not at hno
  have hn0 : (0 : ℚ) < n := by
    have := hf.1
    exact_mod_cast (by omega : 0 < n)
  have hlt : ∀ k, val (x k) < val h := by
    intro k
    induction k with
    | zero =>
      rw [(hx 0).2.2.2.2.1 rfl]
      apply lt_of_le_of_ne hle
      intro he
      exact hno 0 (by rw [(hx 0).2.2.2.2.1 rfl]; exact canon_ext hf hc he)
    | succ k ih =>
      apply lt_of_le_of_ne ((hnext k).2.2.2 h hc hhn ih)
      intro he
      exact hno (k + 1) (canon_ext (hx (k + 1)).2.1 hc he)
  have hgap : ∀ k, val (x k) + 1 / ((n : ℚ) * n) ≤ val (x (k + 1)) := by
    intro k
    have hd := det_right (hx k).2.1 (hx k).2.2.1 (hnext k)
    have a1 := (hx k).2.1.1
    have a2 := (hx (k + 1)).2.1.1
    have a3 : ((x k).q : ℚ) ≤ n := by exact_mod_cast (hx k).2.2.1
    have a4 : ((x (k + 1)).q : ℚ) ≤ n := by exact_mod_cast (hx (k + 1)).2.2.1
    have a1' : (0 : ℚ) < (x k).q := by exact_mod_cast a1
    have a2' : (0 : ℚ) < (x (k + 1)).q := by exact_mod_cast a2
    have hdq : ((x (k + 1)).p : ℚ) * (x k).q - (x k).p * (x (k + 1)).q = 1 := by exact_mod_cast hd
    have : val (x (k + 1)) - val (x k) = 1 / ((x (k + 1)).q * (x k).q : ℚ) := by
      rw [val, val]
      field_simp
      linear_combination hdq
    have h2 : 1 / ((n : ℚ) * n) ≤ 1 / ((x (k + 1)).q * (x k).q : ℚ) := by
      apply one_div_le_one_div_of_le (mul_pos a2' a1')
      exact mul_le_mul a4 a3 a1'.le hn0.le
    linarith
  have hgrow : ∀ k : Nat, val f + k * (1 / ((n : ℚ) * n)) ≤ val (x k) := by
    intro k
    induction k with
    | zero => rw [(hx 0).2.2.2.2.1 rfl]; simp
    | succ k ih =>
      have := hgap k
      push_cast
      linarith
  obtain ⟨N, hN⟩ := exists_nat_gt ((val h - val f) * (n * n))
  have h1 := hgrow N
  have h2 := hlt N
  have h3 : (N : ℚ) * (1 / ((n : ℚ) * n)) < val h - val f := by linarith
  rw [mul_one_div, div_lt_iff₀ (mul_pos hn0 hn0)] at h3
  linarith

example : walk 3 ⟨-1, 0⟩ ⟨0, 1⟩ 4 = some (⟨2, 3⟩, ⟨1, 1⟩) := by decide +kernel
example : NextRight 5 ⟨1, 3⟩ ⟨2, 5⟩ := right_of_det ⟨by decide, by decide⟩ (by decide) (by decide) (by decide) (by decide)

end Altruct.Digits
