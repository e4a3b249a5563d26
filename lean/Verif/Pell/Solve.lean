/-
C86: `pell1`, the ordinary Pell equation.
-/
import Verif.Pell.Units

namespace Altruct.Pell

open Altruct

variable {D s : Int}

theorem G_eq (D s : Int) (n : ℕ) : lin (sa D s 0 1) (-0) 1 n = (conv D s n).re := by rw [neg_zero]; rfl
theorem B_eq (D s : Int) (n : ℕ) : lin (sa D s 0 1) 1 0 n = (conv D s n).im := rfl

theorem rd_G {n i : ℕ} (h : i < n) : rd (tabAt D s 0 1 n).G i = some (conv D s (i + 2)).re := by
  rw [tabAt, rd_map_range h, G_eq]

theorem rd_B {n i : ℕ} (h : i < n) : rd (tabAt D s 0 1 n).B i = some (conv D s (i + 2)).im := by
  rw [tabAt, rd_map_range h, B_eq]

/-- The unit that `pell1` returns, as a power of the unit of one period. -/
def unitExp (l : ℕ) (N : Int) : ℕ := if l % 2 = 1 ∧ N = 1 then 2 else 1

theorem pell1_run (hD : Between D s) (hs : s = Base.sqrtT D) {l : ℕ} (h : IsPeriod D s 0 1 1 l) {N : Int}
    (hN : N = 1 ∨ N = -1) (x0 y0 : Int) (fuel : ℕ) (hf : 1 + l ≤ fuel) :
    pell1 fuel D N x0 y0 =
      if l % 2 = 0 ∧ N = -1 then some (0, x0, y0)
      else some (l, (conv D s (l + 1) ^ unitExp l N).re, (conv D s (l + 1) ^ unitExp l N).im) := by
  have hl := h.l1
  rw [pell1, pqa_first hD hs one_ne_zero (dvd_one D) h fuel hf]
  simp only [Option.bind_eq_bind, Option.bind_some]
  have e1 : rd (tabAt D s 0 1 (1 + l)).G (l - 1) = some (conv D s (l + 1)).re := by
    rw [rd_G (by omega), show l - 1 + 2 = l + 1 by omega]
  have e2 : rd (tabAt D s 0 1 (1 + l)).B (l - 1) = some (conv D s (l + 1)).im := by
    rw [rd_B (by omega), show l - 1 + 2 = l + 1 by omega]
  have hc : conv D s (l + 1) ^ 2 = conv D s (2 * l + 1) := (conv_pow hD h 2).symm
  by_cases hodd : l % 2 = 1
  · rw [if_pos hodd, if_neg (show ¬ (l % 2 = 0 ∧ N = -1) by omega)]
    rcases hN with h1 | h1
    · rw [if_neg (show ¬ N = -1 by omega), if_pos h1,
        pqa_again hD hs one_ne_zero (dvd_one D) h (1 + l) (by omega) (by omega) fuel (by omega)]
      simp only [Option.bind_some]
      rw [rd_G (by omega), rd_B (by omega), show 2 * l - 1 + 2 = 2 * l + 1 by omega, unitExp, if_pos ⟨hodd, h1⟩, hc]
      rfl
    · rw [if_pos h1, e1, e2, unitExp, if_neg (by omega), pow_one]
      rfl
  · rw [if_neg hodd]
    rcases hN with h1 | h1
    · rw [if_pos h1, if_neg (show ¬ (l % 2 = 0 ∧ N = -1) by omega), e1, e2, unitExp, if_neg (by omega), pow_one]
      rfl
    · rw [if_neg (show ¬ N = 1 by omega), if_pos ⟨by omega, h1⟩]

/-- `u = x + y sqrt D` generates the positive solutions of `x^2 - D y^2 = N`: they are its powers (its
odd powers for `N = -1`). -/
def Generates (D N x y : Int) : Prop :=
  ∀ x' y', Sol D N x' y' ↔ ∃ k : ℕ, 1 ≤ k ∧ (N = -1 → k % 2 = 1) ∧ (⟨x', y'⟩ : ℤ√D) = ⟨x, y⟩ ^ k

theorem generates (hD : Between D s) {l : ℕ} (h : IsPeriod D s 0 1 1 l) {N : Int}
    (hN : N = 1 ∨ N = -1) (hne : ¬ (l % 2 = 0 ∧ N = -1)) :
    Generates D N (conv D s (l + 1) ^ unitExp l N).re (conv D s (l + 1) ^ unitExp l N).im := by
  intro x' y'
  rw [sol_iff hD h hN]
  have heta : (⟨(conv D s (l + 1) ^ unitExp l N).re, (conv D s (l + 1) ^ unitExp l N).im⟩ : ℤ√D)
      = conv D s (l + 1) ^ unitExp l N := rfl
  rw [heta]
  by_cases hodd : l % 2 = 1
  · have hpar : ∀ k, ((-1 : Int) ^ (k * l) = 1 ↔ k % 2 = 0) := by
      intro k
      rcases neg_one_pow_eq (k * l) with ⟨h1, h2⟩ | ⟨h1, h2⟩
      · rw [h1, Nat.mul_mod, hodd] at *
        constructor
        · intro _; omega
        · intro _; rfl
      · rw [h1, Nat.mul_mod, hodd] at *
        constructor
        · intro h3; exact absurd h3 (by decide)
        · intro h3; omega
    rcases hN with h1 | h1
    · rw [unitExp, if_pos ⟨hodd, h1⟩, h1]
      constructor
      · rintro ⟨k, hk, hsg, e⟩
        rw [hpar] at hsg
        refine ⟨k / 2, by omega, fun h2 => absurd h2 (by decide), ?_⟩
        rw [e, ← pow_mul, show 2 * (k / 2) = k by omega]
      · rintro ⟨k, hk, -, e⟩
        refine ⟨2 * k, by omega, ?_, ?_⟩
        · rw [hpar]; omega
        · rw [e, ← pow_mul]
    · rw [unitExp, if_neg (by omega), pow_one, h1]
      constructor
      · rintro ⟨k, hk, hsg, e⟩
        refine ⟨k, hk, fun _ => ?_, e⟩
        by_contra hc
        rw [(hpar k).mpr (by omega)] at hsg
        exact absurd hsg (by decide)
      · rintro ⟨k, hk, hsg, e⟩
        refine ⟨k, hk, ?_, e⟩
        rcases neg_one_pow_eq (k * l) with ⟨h2, -⟩ | ⟨h2, -⟩
        · have := hsg rfl
          rw [hpar] at h2
          omega
        · exact h2
  · have h1 : N = 1 := by rcases hN with h | h <;> omega
    have hpar : ∀ k, (-1 : Int) ^ (k * l) = 1 := by
      intro k
      apply Even.neg_one_pow
      exact Nat.even_mul.mpr (Or.inr (Nat.even_iff.mpr (by omega)))
    rw [unitExp, if_neg (by omega), pow_one, h1]
    constructor
    · rintro ⟨k, hk, -, e⟩
      exact ⟨k, hk, fun h2 => absurd h2 (by decide), e⟩
    · rintro ⟨k, hk, -, e⟩
      exact ⟨k, hk, hpar k, e⟩

/-- Multiplication by a positive number with positive coefficients increases both coefficients. -/
theorem mul_grows (hD : Between D s) {x y u v : Int} (hx : 0 < x) (hy : 0 < y) (hu : 0 < u) (hv : 0 < v) :
    x < ((⟨x, y⟩ : ℤ√D) * ⟨u, v⟩).re ∧ y < ((⟨x, y⟩ : ℤ√D) * ⟨u, v⟩).im := by
  rw [Zsqrtd.re_mul, Zsqrtd.im_mul]
  have hD0 : 0 < D := by have := hD.lo; have := hD.pos; nlinarith
  have h1 : 0 < D * y * v := by positivity
  have h2 : 0 < x * v := by positivity
  constructor <;> nlinarith

theorem pow_grows (hD : Between D s) {u v : Int} (hu : 0 < u) (hv : 0 < v) (k : ℕ) (hk : 1 ≤ k) :
    u + k - 1 ≤ ((⟨u, v⟩ : ℤ√D) ^ k).re ∧ v + k - 1 ≤ ((⟨u, v⟩ : ℤ√D) ^ k).im := by
  induction k with
  | zero => omega
  | succ k ih =>
    rcases Nat.eq_zero_or_pos k with h0 | h0
    · rw [h0]; simp
    · obtain ⟨h1, h2⟩ := ih h0
      have h3 : 0 < ((⟨u, v⟩ : ℤ√D) ^ k).re := by omega
      have h4 : 0 < ((⟨u, v⟩ : ℤ√D) ^ k).im := by omega
      have := mul_grows hD h3 h4 hu hv
      rw [pow_succ]
      have e : (⟨((⟨u, v⟩ : ℤ√D) ^ k).re, ((⟨u, v⟩ : ℤ√D) ^ k).im⟩ : ℤ√D) = (⟨u, v⟩ : ℤ√D) ^ k := rfl
      rw [e] at this
      push_cast
      omega

theorem Generates.sol {N x y : Int} (h : Generates D N x y) : Sol D N x y :=
  (h x y).mpr ⟨1, le_rfl, fun _ => rfl, (pow_one _).symm⟩

theorem Generates.least (hD : Between D s) {N x y : Int} (h : Generates D N x y) (x' y' : Int) (hs : Sol D N x' y') :
    x ≤ x' ∧ y ≤ y' := by
  obtain ⟨hx, hy, -⟩ := h.sol
  obtain ⟨k, hk, -, e⟩ := (h x' y').mp hs
  have := pow_grows hD hx hy k hk
  rw [← e] at this
  simp only at this
  omega

/-- C86: for a positive non-square `D`, `pell1(D, N, x0, y0)` with `N = 1` or `N = -1` terminates.  If it
returns a positive number, that is the length of the period of the continued fraction of `sqrt D`,
and `(x, y)` is the least positive solution of `x^2 - D y^2 = N`; the positive solutions are the
powers of `x + y sqrt D` (the odd powers for `N = -1`).  It returns zero only for `N = -1`, leaves `x0`
and `y0` alone, and then there is no integer solution at all. -/
theorem C86_pell1 (D N x0 y0 : Int) (hD : 0 < D) (hns : ¬ IsSquare D) (hl : D.natAbs.log2 < 2 ^ 63)
    (hN : N = 1 ∨ N = -1) :
    ∃ (fuel0 r : ℕ) (x y : Int), (∀ fuel, fuel0 ≤ fuel → pell1 fuel D N x0 y0 = some (r, x, y))
    ∧ ((r ≠ 0 ∧ PeriodLength √(D : ℝ) r ∧ Sol D N x y ∧ (∀ x' y', Sol D N x' y' → x ≤ x' ∧ y ≤ y') ∧ Generates D N x y)
      ∨ (r = 0 ∧ N = -1 ∧ x = x0 ∧ y = y0 ∧ ∀ x' y' : Int, x' * x' - D * (y' * y') ≠ -1)) := by
  have hB := between_sqrtT D hD hns hl
  obtain ⟨r, l, hp⟩ := exists_isPeriod hB one_ne_zero (dvd_one D)
  have hr := r_eq_one hB hp
  subst hr
  have h1 := hp.l1
  by_cases hc : l % 2 = 0 ∧ N = -1
  · refine ⟨1 + l, 0, x0, y0, fun fuel hf => ?_, Or.inr ⟨rfl, hc.2, rfl, rfl, ?_⟩⟩
    · rw [pell1_run hB rfl hp hN x0 y0 fuel hf, if_pos hc]
    · intro x' y' he
      have hx : x' ≠ 0 := by
        intro h0
        rw [h0] at he
        have : D * (y' * y') = 1 := by linarith
        rcases Int.eq_one_or_neg_one_of_mul_eq_one this with h2 | h2
        · exact hns ⟨1, by rw [h2]; rfl⟩
        · omega
      have hy : y' ≠ 0 := by
        intro h0
        rw [h0] at he
        nlinarith [mul_self_nonneg x']
      have : Sol D (-1) |x'| |y'| := by
        refine ⟨abs_pos.mpr hx, abs_pos.mpr hy, ?_⟩
        rw [abs_mul_abs_self, abs_mul_abs_self, he]
      rw [sol_iff hB hp (Or.inr rfl)] at this
      obtain ⟨k, -, hsg, -⟩ := this
      have : (-1 : Int) ^ (k * l) = 1 := by
        apply Even.neg_one_pow
        exact Nat.even_mul.mpr (Or.inr (Nat.even_iff.mpr hc.1))
      rw [this] at hsg
      exact absurd hsg (by decide)
  · have hg := generates hB hp hN hc
    refine ⟨1 + l, l, _, _, fun fuel hf => ?_, Or.inl ⟨by omega, ?_, hg.sol, hg.least hB, hg⟩⟩
    · rw [pell1_run hB rfl hp hN x0 y0 fuel hf, if_neg hc]
    · have := (hp.cf hB one_ne_zero (dvd_one D)).1
      rw [quo] at this
      simpa using this

set_option maxRecDepth 100000 in
example : pell1 20 13 1 0 0 = some (5, 649, 180) ∧ pell1 20 13 (-1) 0 0 = some (5, 18, 5)
    ∧ pell1 20 3 (-1) 7 8 = some (0, 7, 8) := by decide +kernel

example : ¬ IsSquare (13 : Int) ∧ ¬ IsSquare (3 : Int) := by decide +kernel

/-! ### Listing the solutions -/

/-- The `j`-th number of the listing. -/
def term (u s1 : ℤ√D) (j : ℕ) : ℤ√D := u * s1 ^ j

def toQuad (z : ℤ√D) : Quadratic.Quad Int D := ⟨z.re, z.im⟩

theorem toQuad_mul (z w : ℤ√D) : toQuad (z * w) = toQuad z * toQuad w := by
  apply Quadratic.Quad.ext
  · simp only [toQuad, Quadratic.mul_a, Zsqrtd.re_mul]; ring
  · simp only [toQuad, Quadratic.mul_b, Zsqrtd.im_mul]

/-- The listing stops before the number `v`, with `n` numbers listed. -/
def Stops (xMax yMax count : Int) (n : ℕ) (v : ℤ√D) : Prop :=
  (xMax > 0 ∧ v.re > xMax) ∨ (yMax > 0 ∧ v.im > yMax) ∨ (count > 0 ∧ (n : Int) ≥ count)

theorem pell1Loop_spec (u s1 : ℤ√D) (xMax yMax count : Int) (J : ℕ)
    (hJ : Stops xMax yMax count J (term u s1 J))
    (hmin : ∀ j, j < J → ¬ Stops xMax yMax count j (term u s1 j)) :
    ∀ (fuel j : ℕ), j ≤ J → J - j < fuel →
      pell1Loop (toQuad s1) xMax yMax count fuel (toQuad (term u s1 j))
          ((List.range j).map fun i => toQuad (term u s1 i))
        = some ((List.range J).map fun i => toQuad (term u s1 i)) := by
  intro fuel
  induction fuel with
  | zero => intro j _ h; omega
  | succ fuel ih =>
    intro j hj hf
    rw [pell1Loop]
    have hlen : (((List.range j).map fun i => toQuad (term u s1 i)).length : Int) = j := by simp
    rw [hlen]
    by_cases hc : j = J
    · subst hc
      rcases hJ with h | h | h
      · rw [if_pos (show xMax > 0 ∧ (toQuad (term u s1 j)).a > xMax from h)]
      · by_cases h2 : xMax > 0 ∧ (toQuad (term u s1 j)).a > xMax
        · rw [if_pos h2]
        · rw [if_neg h2, if_pos (show yMax > 0 ∧ (toQuad (term u s1 j)).b > yMax from h)]
      · by_cases h2 : xMax > 0 ∧ (toQuad (term u s1 j)).a > xMax
        · rw [if_pos h2]
        · rw [if_neg h2]
          by_cases h3 : yMax > 0 ∧ (toQuad (term u s1 j)).b > yMax
          · rw [if_pos h3]
          · rw [if_neg h3, if_pos h]
    · have := hmin j (by omega)
      rw [Stops] at this
      push Not at this
      rw [if_neg (show ¬ (xMax > 0 ∧ (toQuad (term u s1 j)).a > xMax) by
          rintro ⟨h1, h2⟩; exact absurd h2 (not_lt.mpr (this.1 h1))),
        if_neg (show ¬ (yMax > 0 ∧ (toQuad (term u s1 j)).b > yMax) by
          rintro ⟨h1, h2⟩; exact absurd h2 (not_lt.mpr (this.2.1 h1))),
        if_neg (by rintro ⟨h1, h2⟩; exact absurd h2 (not_le.mpr (this.2.2 h1)))]
      have := ih (j + 1) (by omega) (by omega)
      rw [← this, ← toQuad_mul, List.range_succ, List.map_append]
      have e : term u s1 j * s1 = term u s1 (j + 1) := by rw [term, term, pow_succ, mul_assoc]
      rw [e]
      rfl

theorem pell1Loop_none (u s1 : ℤ√D) (xMax yMax count : Int) (h1 : xMax ≤ 0) (h2 : yMax ≤ 0) (h3 : count ≤ 0) :
    ∀ (fuel : ℕ) (v : Quadratic.Quad Int D) (vs : List (Quadratic.Quad Int D)),
      pell1Loop (toQuad s1) xMax yMax count fuel v vs = none := by
  intro fuel
  induction fuel with
  | zero => intro v vs; rfl
  | succ fuel ih =>
    intro v vs
    rw [pell1Loop, if_neg (by omega), if_neg (by omega), if_neg (by omega)]
    exact ih _ _

theorem term_grows (hD : Between D s) {u s1 : ℤ√D} (h1 : 0 < u.re) (h2 : 0 < u.im) (h3 : 0 < s1.re) (h4 : 0 < s1.im)
    (j : ℕ) : u.re + j ≤ (term u s1 j).re ∧ u.im + j ≤ (term u s1 j).im
      ∧ (term u s1 j).re < (term u s1 (j + 1)).re ∧ (term u s1 j).im < (term u s1 (j + 1)).im := by
  have step : ∀ j, 0 < (term u s1 j).re → 0 < (term u s1 j).im →
      (term u s1 j).re < (term u s1 (j + 1)).re ∧ (term u s1 j).im < (term u s1 (j + 1)).im := by
    intro j h5 h6
    have e : term u s1 (j + 1) = term u s1 j * s1 := by rw [term, term, pow_succ, mul_assoc]
    have := mul_grows hD h5 h6 h3 h4
    rw [e]
    exact this
  have key : u.re + j ≤ (term u s1 j).re ∧ u.im + j ≤ (term u s1 j).im := by
    induction j with
    | zero => simp [term]
    | succ j ih =>
      have := step j (by omega) (by omega)
      push_cast
      omega
  refine ⟨key.1, key.2, step j (by omega) (by omega)⟩

theorem term_mono (hD : Between D s) {u s1 : ℤ√D} (h1 : 0 < u.re) (h2 : 0 < u.im) (h3 : 0 < s1.re) (h4 : 0 < s1.im)
    {i j : ℕ} (h : i < j) : (term u s1 i).re < (term u s1 j).re ∧ (term u s1 i).im < (term u s1 j).im := by
  induction j with
  | zero => omega
  | succ j ih =>
    obtain ⟨-, -, h5, h6⟩ := term_grows hD h1 h2 h3 h4 j
    rcases Nat.lt_or_ge i j with hlt | hge
    · have := ih hlt
      omega
    · have : i = j := by omega
      rw [this]; exact ⟨h5, h6⟩

/-- The listed numbers are the generated ones. -/
theorem terms_all {N x y : Int} (hN : N = 1 ∨ N = -1) (hg : Generates D N x y) :
    ∃ s1 : ℤ√D, (s1 = if N = -1 then (⟨x, y⟩ : ℤ√D) * ⟨x, y⟩ else ⟨x, y⟩)
      ∧ ∀ x' y', Sol D N x' y' ↔ ∃ j, (⟨x', y'⟩ : ℤ√D) = term ⟨x, y⟩ s1 j := by
  refine ⟨_, rfl, fun x' y' => ?_⟩
  rw [hg x' y']
  rcases hN with h | h
  · rw [if_neg (by omega)]
    constructor
    · rintro ⟨k, hk, -, e⟩
      refine ⟨k - 1, ?_⟩
      rw [e, term, ← pow_succ', Nat.sub_add_cancel hk]
    · rintro ⟨j, e⟩
      refine ⟨j + 1, by omega, fun h2 => by omega, ?_⟩
      rw [e, term, ← pow_succ']
  · rw [if_pos h]
    constructor
    · rintro ⟨k, hk, hodd, e⟩
      have := hodd h
      refine ⟨k / 2, ?_⟩
      rw [e, term, ← sq, ← pow_mul, ← pow_succ', show 2 * (k / 2) + 1 = k by omega]
    · rintro ⟨j, e⟩
      refine ⟨2 * j + 1, by omega, fun _ => by omega, ?_⟩
      rw [e, term, ← sq, ← pow_mul, ← pow_succ']

/-- C86: the listing `pell1(D, N, x_max, y_max, count)`, with at least one of the limits given, terminates.  It
lists positive solutions within the limits, in increasing order and at most `count` of them, and misses
none: a solution within the limits that is not listed comes after `count` listed ones. -/
theorem C86_pell1_list (D N xMax yMax count : Int) (hD : 0 < D) (hns : ¬ IsSquare D) (hl : D.natAbs.log2 < 2 ^ 63)
    (hN : N = 1 ∨ N = -1) (hb : xMax > 0 ∨ yMax > 0 ∨ count > 0) :
    ∃ (fuel0 : ℕ) (out : List (Quadratic.Quad Int D)),
      (∀ fuel, fuel0 ≤ fuel → pell1List fuel D N xMax yMax count = some out)
      ∧ out.Pairwise (fun v w => v.a < w.a ∧ v.b < w.b)
      ∧ (count > 0 → (out.length : Int) ≤ count)
      ∧ (∀ v ∈ out, Sol D N v.a v.b ∧ (xMax > 0 → v.a ≤ xMax) ∧ (yMax > 0 → v.b ≤ yMax))
      ∧ ∀ x y, Sol D N x y → (xMax > 0 → x ≤ xMax) → (yMax > 0 → y ≤ yMax) →
          (⟨x, y⟩ : Quadratic.Quad Int D) ∈ out
            ∨ (count > 0 ∧ (out.length : Int) = count ∧ ∀ v ∈ out, v.a < x ∧ v.b < y) := by
  classical
  have hB := between_sqrtT D hD hns hl
  obtain ⟨fuel1, r, x, y, hrun, hcase⟩ := C86_pell1 D N 0 0 hD hns hl hN
  rcases hcase with ⟨hr, -, hsol, -, hg⟩ | ⟨hr, hN1, -, -, hno⟩
  · obtain ⟨s1, hs1, hall⟩ := terms_all hN hg
    obtain ⟨hx, hy, -⟩ := hsol
    have hgr := mul_grows hB hx hy hx hy
    have hs3 : 0 < s1.re := by rw [hs1]; split
                               · linarith [hgr.1]
                               · exact hx
    have hs4 : 0 < s1.im := by rw [hs1]; split
                               · linarith [hgr.2]
                               · exact hy
    have hgrow := term_grows hB (u := ⟨x, y⟩) hx hy hs3 hs4
    have hmono := fun {i j} => term_mono hB (u := ⟨x, y⟩) hx hy hs3 hs4 (i := i) (j := j)
    have hex : ∃ J, Stops xMax yMax count J (term ⟨x, y⟩ s1 J) := by
      rcases hb with h | h | h
      · refine ⟨xMax.toNat, Or.inl ⟨h, ?_⟩⟩
        have := (hgrow xMax.toNat).1
        have hx' : (⟨x, y⟩ : ℤ√D).re = x := rfl
        omega
      · refine ⟨yMax.toNat, Or.inr (Or.inl ⟨h, ?_⟩)⟩
        have := (hgrow yMax.toNat).2.1
        have hy' : (⟨x, y⟩ : ℤ√D).im = y := rfl
        omega
      · exact ⟨count.toNat, Or.inr (Or.inr ⟨h, by omega⟩)⟩
    have hJ := Nat.find_spec hex
    have hJmin : ∀ j, j < Nat.find hex → ¬ Stops xMax yMax count j (term ⟨x, y⟩ s1 j) := fun j h => Nat.find_min hex h
    set J := Nat.find hex with hJdef
    refine ⟨max fuel1 (J + 1), (List.range J).map fun i => toQuad (term ⟨x, y⟩ s1 i), ?_, ?_, ?_, ?_, ?_⟩
    · intro fuel hf
      rw [pell1List, hrun fuel (by omega)]
      simp only [Option.bind_eq_bind, Option.bind_some]
      rw [if_pos hr]
      have := pell1Loop_spec ⟨x, y⟩ s1 xMax yMax count J hJ hJmin fuel 0 (by omega) (by omega)
      rw [← this]
      have e1 : (if N = -1 then (⟨x, y⟩ : Quadratic.Quad Int D) * ⟨x, y⟩ else ⟨x, y⟩) = toQuad s1 := by
        rw [hs1]
        split
        · rw [toQuad_mul]; rfl
        · rfl
      have e2 : toQuad (term ⟨x, y⟩ s1 0) = (⟨x, y⟩ : Quadratic.Quad Int D) := by simp [term, toQuad]
      rw [e1, e2]
      rfl
    · rw [List.pairwise_map]
      exact List.pairwise_lt_range.imp (fun h => hmono h)
    · intro hc
      rw [List.length_map, List.length_range]
      by_contra hlt
      push Not at hlt
      exact hJmin (J - 1) (by omega) (Or.inr (Or.inr ⟨hc, by omega⟩))
    · intro v hv
      rw [List.mem_map] at hv
      obtain ⟨i, hi, rfl⟩ := hv
      rw [List.mem_range] at hi
      have hns' := hJmin i hi
      rw [Stops] at hns'
      push Not at hns'
      refine ⟨(hall _ _).mpr ⟨i, rfl⟩, hns'.1, hns'.2.1⟩
    · intro x' y' hsol' hxm hym
      obtain ⟨j, hj⟩ := (hall x' y').mp hsol'
      by_cases hjJ : j < J
      · left
        rw [List.mem_map]
        refine ⟨j, List.mem_range.mpr hjJ, ?_⟩
        rw [← hj]; rfl
      · right
        have hle : (term ⟨x, y⟩ s1 J).re ≤ x' ∧ (term ⟨x, y⟩ s1 J).im ≤ y' := by
          have hx' : x' = (term ⟨x, y⟩ s1 j).re := congrArg Zsqrtd.re hj
          have hy' : y' = (term ⟨x, y⟩ s1 j).im := congrArg Zsqrtd.im hj
          rcases Nat.lt_or_ge J j with h1 | h1
          · have := hmono h1; omega
          · have : j = J := by omega
            rw [← this]; omega
        rcases hJ with h | h | h
        · have := hxm h.1; omega
        · have := hym h.1; omega
        · refine ⟨h.1, ?_, ?_⟩
          · rw [List.length_map, List.length_range]
            rcases Nat.eq_zero_or_pos J with h0 | h0
            · omega
            · have := hJmin (J - 1) (by omega)
              rw [Stops] at this
              push Not at this
              have := this.2.2 h.1
              omega
          · intro v hv
            rw [List.mem_map] at hv
            obtain ⟨i, hi, rfl⟩ := hv
            rw [List.mem_range] at hi
            have := hmono hi
            simp only [toQuad]
            omega
  · refine ⟨fuel1, [], ?_, List.Pairwise.nil, ?_, ?_, ?_⟩
    · intro fuel hf
      rw [pell1List, hrun fuel hf]
      simp only [Option.bind_eq_bind, Option.bind_some]
      rw [if_neg (by simpa using hr)]
    · intro h; simpa using h.le
    · intro v hv; simp at hv
    · rintro x' y' ⟨-, -, he⟩
      rw [hN1] at he
      exact absurd he (hno x' y')

/-- C86: with all limits zero the listing does not terminate when there is a solution ("0 means unbounded" for
all three). -/
theorem C86_pell1_unbounded (D N xMax yMax count : Int) (hD : 0 < D) (hns : ¬ IsSquare D) (hl : D.natAbs.log2 < 2 ^ 63)
    (hN : N = 1 ∨ N = -1) (h1 : xMax ≤ 0) (h2 : yMax ≤ 0) (h3 : count ≤ 0) (x y : Int) (hsol : Sol D N x y) :
    ∃ fuel0, ∀ fuel, fuel0 ≤ fuel → pell1List fuel D N xMax yMax count = none := by
  obtain ⟨fuel1, r, x0, y0, hrun, hcase⟩ := C86_pell1 D N 0 0 hD hns hl hN
  rcases hcase with ⟨hr, -, -, -, hg⟩ | ⟨hr, hN1, -, -, hno⟩
  · obtain ⟨s1, hs1, -⟩ := terms_all hN hg
    refine ⟨fuel1, fun fuel hf => ?_⟩
    rw [pell1List, hrun fuel hf]
    simp only [Option.bind_eq_bind, Option.bind_some]
    rw [if_pos hr]
    have e1 : (if N = -1 then (⟨x0, y0⟩ : Quadratic.Quad Int D) * ⟨x0, y0⟩ else ⟨x0, y0⟩) = toQuad s1 := by
      rw [hs1]
      split
      · rw [toQuad_mul]; rfl
      · rfl
    rw [e1]
    exact pell1Loop_none ⟨x0, y0⟩ s1 xMax yMax count h1 h2 h3 fuel _ _
  · obtain ⟨-, -, he⟩ := hsol
    rw [hN1] at he
    exact absurd he (hno x y)

set_option maxRecDepth 100000 in
example : pell1List 20 2 (-1) 1000 0 0 = some [⟨1, 1⟩, ⟨7, 5⟩, ⟨41, 29⟩, ⟨239, 169⟩]
    ∧ pell1List 20 3 1 0 100 3 = some [⟨2, 1⟩, ⟨7, 4⟩, ⟨26, 15⟩] := by decide +kernel

example : Sol 2 (-1) 7 5 := by refine ⟨?_, ?_, ?_⟩ <;> decide

end Altruct.Pell
