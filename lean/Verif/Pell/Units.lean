/-
The expansion of `sqrt D` and the positive solutions of `x^2 - D y^2 = N` for `|N| < sqrt D`.
-/
import Verif.Pell.PQa
import Mathlib.NumberTheory.Zsqrtd.Basic

namespace Altruct.Pell

open Altruct

/-- A positive solution of `x^2 - D y^2 = N`. -/
def Sol (D N x y : Int) : Prop := 0 < x ∧ 0 < y ∧ x * x - D * (y * y) = N

section
variable {D s : Int}

theorem dvd_one (D : Int) : (1 : Int) ∣ D - 0 * 0 := one_dvd _

theorem exp1 (hD : Between D s) : Expansion D s (sP D s 0 1) (sQ D s 0 1) (sa D s 0 1) :=
  expansion hD one_ne_zero (dvd_one D)

theorem first_terms (hD : Between D s) :
    sP D s 0 1 0 = 0 ∧ sQ D s 0 1 0 = 1 ∧ sa D s 0 1 0 = s ∧ sP D s 0 1 1 = s ∧ sQ D s 0 1 1 = D - s * s := by
  have st := exp1 hD 0
  have h0 : sP D s 0 1 0 = 0 := rfl
  have h1 : sQ D s 0 1 0 = 1 := rfl
  rw [h0, h1, zero_add] at st
  obtain ⟨h2, h3⟩ := st.pos one_pos
  have ha : sa D s 0 1 0 = s := by omega
  have hp : sP D s 0 1 1 = s := by rw [st.hP, ha]; ring
  refine ⟨rfl, rfl, ha, hp, ?_⟩
  have := st.hQ
  rw [hp] at this
  linarith

theorem red1 (hD : Between D s) : Red s (sP D s 0 1 1) (sQ D s 0 1 1) := by
  obtain ⟨-, -, -, h1, h2⟩ := first_terms hD
  have := hD.pos
  have := hD.lo
  have := hD.hi
  rw [h1, h2]
  refine ⟨by assumption, le_rfl, by linarith, by nlinarith, by linarith⟩

theorem red_ge1 (hD : Between D s) (n : ℕ) (hn : 1 ≤ n) : Red s (sP D s 0 1 n) (sQ D s 0 1 n) := by
  have := (exp1 hD).red_from hD (red1 hD) (n - 1)
  rwa [Nat.add_sub_cancel' hn] at this

theorem r_eq_one (hD : Between D s) {r l : ℕ} (h : IsPeriod D s 0 1 r l) : r = 1 := by
  by_contra hc
  have := h.r1
  exact h.first 1 le_rfl (by omega) (red1 hD)

/-- A denominator `1` closes a period. -/
theorem one_close (hD : Between D s) (n : ℕ) (hq : sQ D s 0 1 n = 1) (hn : 1 ≤ n) :
    sP D s 0 1 n = s ∧ sa D s 0 1 n = 2 * s ∧ sP D s 0 1 (n + 1) = sP D s 0 1 1
      ∧ sQ D s 0 1 (n + 1) = sQ D s 0 1 1 := by
  obtain ⟨-, -, -, h1, h2⟩ := first_terms hD
  have r := red_ge1 hD n hn
  have hp : sP D s 0 1 n = s := by
    have := r.q3; have := r.p2; rw [hq] at *; omega
  have st := exp1 hD n
  rw [hp, hq] at st
  obtain ⟨h3, h4⟩ := st.pos one_pos
  have ha : sa D s 0 1 n = 2 * s := by omega
  have hp' : sP D s 0 1 (n + 1) = s := by rw [st.hP, ha]; ring
  have hq' := st.hQ
  refine ⟨hp, ha, by rw [hp', h1], ?_⟩
  rw [h2]
  rw [hp'] at hq'
  linarith

theorem one_iff (hD : Between D s) {l : ℕ} (h : IsPeriod D s 0 1 1 l) (n : ℕ) : sQ D s 0 1 n = 1 ↔ l ∣ n := by
  constructor
  · intro hq
    rcases Nat.eq_zero_or_pos n with h0 | h0
    · rw [h0]; exact dvd_zero _
    · obtain ⟨-, -, h1, h2⟩ := one_close hD n hq h0
      have := h.dvd hD one_ne_zero (dvd_one D) 1 le_rfl n
      rw [Nat.add_comm 1 n] at this
      exact this ⟨h1, h2⟩
  · rintro ⟨k, rfl⟩
    obtain ⟨h1, h2, -⟩ := h.periodic hD one_ne_zero (dvd_one D) k 1 le_rfl
    rw [Nat.add_comm, mul_comm] at h1 h2
    obtain ⟨-, -, -, h3, h4⟩ := first_terms hD
    have e := (exp1 hD (l * k)).hQ
    have hne := (red1 hD).q1
    rw [h1, h2, h3, h4] at e
    rw [h4] at hne
    have : sQ D s 0 1 (l * k) * (D - s * s) = 1 * (D - s * s) := by linarith
    exact mul_right_cancel₀ (by omega) this

/-- The `n`-th convergent (of index `n - 2`) as a number of `Z[sqrt D]`. -/
def conv (D s : Int) (n : ℕ) : ℤ√D := ⟨lin (sa D s 0 1) 0 1 n, lin (sa D s 0 1) 1 0 n⟩

theorem conv_one (D s : Int) : conv D s 1 = 1 := rfl

theorem conv_two (hD : Between D s) : conv D s 2 = ⟨s, 1⟩ := by
  have h := (first_terms hD).2.2.1
  simp [conv, lin, h]

theorem conv_norms (hD : Between D s) (n : ℕ) :
    lin (sa D s 0 1) 0 1 (n + 1) * lin (sa D s 0 1) 0 1 (n + 1)
        - D * (lin (sa D s 0 1) 1 0 (n + 1) * lin (sa D s 0 1) 1 0 (n + 1)) = (-1) ^ n * sQ D s 0 1 n
    ∧ lin (sa D s 0 1) 0 1 n * lin (sa D s 0 1) 0 1 (n + 1)
        - D * (lin (sa D s 0 1) 1 0 n * lin (sa D s 0 1) 1 0 (n + 1)) = - ((-1) ^ n * sP D s 0 1 n) := by
  have h := norms hD (exp1 hD) (lin_rec (sa D s 0 1) 0 1) (lin_rec (sa D s 0 1) 1 0) rfl rfl rfl rfl n
  have e : sQ D s 0 1 0 = 1 := rfl
  rw [e, mul_one, mul_one] at h
  exact ⟨h.1, h.2.1⟩

theorem conv_rec (D s : Int) (n : ℕ) : conv D s (n + 2) = (sa D s 0 1 n : ℤ√D) * conv D s (n + 1) + conv D s n := by
  apply Zsqrtd.ext <;> simp [conv, lin]

/-- One period later the convergents are multiplied by the unit. -/
theorem conv_period (hD : Between D s) {l : ℕ} (h : IsPeriod D s 0 1 1 l) (n : ℕ) :
    conv D s (n + 1 + l) = conv D s (l + 1) * conv D s (n + 1)
    ∧ conv D s (n + 2 + l) = conv D s (l + 1) * conv D s (n + 2) := by
  induction n with
  | zero =>
    refine ⟨by rw [zero_add, conv_one, mul_one, Nat.add_comm], ?_⟩
    have hl := h.l1
    have hq := (one_iff hD h l).mpr dvd_rfl
    obtain ⟨hp, ha, -, -⟩ := one_close hD l hq hl
    obtain ⟨n1, n2⟩ := conv_norms hD l
    have hdet := lin_det (sa D s 0 1) l
    rw [hq, mul_one] at n1
    rw [hp] at n2
    have hsq : ((-1 : Int) ^ l) * (-1) ^ l = 1 := by rw [← mul_pow]; simp
    rw [zero_add, Nat.add_comm 2 l, conv_rec, conv_two hD, ha]
    have hx : lin (sa D s 0 1) 0 1 l = D * lin (sa D s 0 1) 1 0 (l + 1) - s * lin (sa D s 0 1) 0 1 (l + 1) := by
      have hne : ((-1 : Int) ^ l) ≠ 0 := by intro h0; rw [h0] at hsq; simp at hsq
      apply mul_left_cancel₀ hne
      linear_combination (-1) * lin (sa D s 0 1) 0 1 l * n1 + lin (sa D s 0 1) 0 1 (l + 1) * n2
        + D * lin (sa D s 0 1) 1 0 (l + 1) * hdet
    have hy : lin (sa D s 0 1) 1 0 l = lin (sa D s 0 1) 0 1 (l + 1) - s * lin (sa D s 0 1) 1 0 (l + 1) := by
      have hne : ((-1 : Int) ^ l) ≠ 0 := by intro h0; rw [h0] at hsq; simp at hsq
      apply mul_left_cancel₀ hne
      linear_combination (-1) * lin (sa D s 0 1) 1 0 l * n1 + lin (sa D s 0 1) 1 0 (l + 1) * n2
        + lin (sa D s 0 1) 0 1 (l + 1) * hdet
    apply Zsqrtd.ext
    · simp [conv]
      rw [hx]; ring
    · simp [conv]
      rw [hy]; ring
  | succ n ih =>
    refine ⟨ih.2, ?_⟩
    have hp := (h.periodic hD one_ne_zero (dvd_one D) 1 (n + 1) (by omega)).2.2
    rw [one_mul] at hp
    rw [show n + 1 + 2 + l = n + 1 + l + 2 by omega, conv_rec, conv_rec D s (n + 1), hp,
      show n + 1 + l + 1 = n + 2 + l by omega, ih.1, show n + 1 + 1 = n + 2 from rfl, ih.2]
    ring

theorem conv_mul (hD : Between D s) {l : ℕ} (h : IsPeriod D s 0 1 1 l) (k n : ℕ) :
    conv D s (k * l + n + 1) = conv D s (l + 1) ^ k * conv D s (n + 1) := by
  induction k with
  | zero => simp
  | succ k ih =>
    rw [show (k + 1) * l + n + 1 = (k * l + n) + 1 + l by ring, (conv_period hD h _).1, ih, pow_succ]
    ring

theorem conv_pow (hD : Between D s) {l : ℕ} (h : IsPeriod D s 0 1 1 l) (k : ℕ) :
    conv D s (k * l + 1) = conv D s (l + 1) ^ k := by
  have := conv_mul hD h k 0
  rwa [Nat.add_zero, zero_add, conv_one, mul_one] at this

theorem sa_pos (hD : Between D s) (n : ℕ) : 1 ≤ sa D s 0 1 n := by
  rcases Nat.eq_zero_or_pos n with h | h
  · rw [h, (first_terms hD).2.2.1]; exact hD.pos
  · exact ((red_ge1 hD n h).step hD (exp1 hD n)).2

theorem conv_pos (hD : Between D s) (n : ℕ) :
    1 ≤ (conv D s (n + 1)).re ∧ 0 ≤ (conv D s (n + 1)).im ∧ 1 ≤ (conv D s (n + 2)).re ∧ 1 ≤ (conv D s (n + 2)).im := by
  induction n with
  | zero =>
    rw [zero_add, zero_add, conv_two hD, conv_one]
    exact ⟨by simp, by simp, hD.pos, le_rfl⟩
  | succ n ih =>
    obtain ⟨h1, h2, h3, h4⟩ := ih
    have ha := sa_pos hD (n + 1)
    refine ⟨h3, by linarith, ?_, ?_⟩
    · have : (conv D s (n + 1 + 2)).re = sa D s 0 1 (n + 1) * (conv D s (n + 2)).re + (conv D s (n + 1)).re := by
        rw [conv_rec]; simp
      rw [this]; nlinarith
    · have : (conv D s (n + 1 + 2)).im = sa D s 0 1 (n + 1) * (conv D s (n + 2)).im + (conv D s (n + 1)).im := by
        rw [conv_rec]; simp
      rw [this]; nlinarith

/-- The convergents grow. -/
theorem conv_lt (hD : Between D s) (n : ℕ) :
    (conv D s (n + 2)).re < (conv D s (n + 3)).re ∧ (conv D s (n + 2)).im ≤ (conv D s (n + 3)).im := by
  obtain ⟨h1, h2, h3, h4⟩ := conv_pos hD n
  have ha := sa_pos hD (n + 1)
  have e : conv D s (n + 3) = (sa D s 0 1 (n + 1) : ℤ√D) * conv D s (n + 2) + conv D s (n + 1) := conv_rec D s (n + 1)
  have e1 : (conv D s (n + 3)).re = sa D s 0 1 (n + 1) * (conv D s (n + 2)).re + (conv D s (n + 1)).re := by
    rw [e]; simp
  have e2 : (conv D s (n + 3)).im = sa D s 0 1 (n + 1) * (conv D s (n + 2)).im + (conv D s (n + 1)).im := by
    rw [e]; simp
  rw [e1, e2]
  constructor <;> nlinarith

theorem conv_mono (hD : Between D s) {m n : ℕ} (h : m < n) :
    (conv D s (m + 2)).re < (conv D s (n + 2)).re ∧ (conv D s (m + 2)).im ≤ (conv D s (n + 2)).im := by
  induction n with
  | zero => omega
  | succ n ih =>
    obtain ⟨h1, h2⟩ := conv_lt hD n
    rcases Nat.lt_or_ge m n with hlt | hge
    · obtain ⟨h3, h4⟩ := ih hlt
      exact ⟨h3.trans h1, h4.trans h2⟩
    · have : m = n := by omega
      rw [this]; exact ⟨h1, h2⟩

/-- Every primitive positive pair of small norm is a convergent. -/
theorem exists_conv (hD : Between D s) (x y : Int) (hx : 0 < x) (hy : 0 < y) (hc : IsCoprime x y)
    (hn : |x * x - D * (y * y)| ≤ s) : ∃ n, conv D s (n + 2) = ⟨x, y⟩ := by
  obtain ⟨h0, h1, h2, h3, h4⟩ := first_terms hD
  have hu : 0 ≤ x - s * y := by
    by_contra hneg
    have hs := hD.pos
    have hlo := hD.lo
    rw [abs_le] at hn
    have h5 : x ≤ s * y - 1 := by omega
    have h6 : x * x ≤ (s * y - 1) * (s * y - 1) := by
      apply mul_le_mul h5 h5 hx.le (by omega)
    have h7 : s ≤ s * y := by nlinarith
    have h8 : s * s * (y * y) + 1 ≤ D * (y * y) := by
      have : 1 ≤ y * y := by nlinarith
      nlinarith
    nlinarith [hn.1]
  obtain ⟨k, hk⟩ := descend hD (exp1 hD) _ 0 (x - s * y) y le_rfl (red1 hD) hu (by omega)
    (by
      have := hc.add_mul_left_left (-s)
      rwa [show x + y * -s = x - s * y by ring] at this)
    (by
      rw [zero_add, h1, h3, h4]
      have : 1 * (x - s * y) ^ 2 + 2 * s * (x - s * y) * y - (D - s * s) * y ^ 2 = x * x - D * (y * y) := by ring
      rw [this]; exact hn)
  refine ⟨k, ?_⟩
  have hG := hk _ (lin_rec (sa D s 0 1) 0 1)
  have hB := hk _ (lin_rec (sa D s 0 1) 1 0)
  rw [zero_add, Nat.add_comm 2 k] at hG hB
  have h2' := conv_two hD
  rw [conv] at h2'
  have hre := congrArg Zsqrtd.re h2'
  have him := congrArg Zsqrtd.im h2'
  simp only at hre him
  rw [conv, Zsqrtd.ext_iff]
  simp only
  rw [← hG, ← hB, hre, him]
  refine ⟨?_, by simp [lin]⟩
  simp only [lin]; ring

theorem coprime_of_unit {N x y : Int} (hN : N = 1 ∨ N = -1) (h : x * x - D * (y * y) = N) : IsCoprime x y := by
  rcases hN with h1 | h1
  · exact ⟨x, -(D * y), by rw [h1] at h; linarith⟩
  · exact ⟨-x, D * y, by rw [h1] at h; linarith⟩

theorem neg_one_pow_eq (n : ℕ) : ((-1 : Int) ^ n = 1 ∧ n % 2 = 0) ∨ ((-1 : Int) ^ n = -1 ∧ n % 2 = 1) := by
  rcases Nat.even_or_odd n with h | h
  · exact Or.inl ⟨h.neg_one_pow, Nat.even_iff.mp h⟩
  · exact Or.inr ⟨h.neg_one_pow, Nat.odd_iff.mp h⟩

/-- The positive solutions of `x^2 - D y^2 = ±1` are the powers of the unit found after one period. -/
theorem sol_iff (hD : Between D s) {l : ℕ} (h : IsPeriod D s 0 1 1 l) {N : Int} (hN : N = 1 ∨ N = -1) (x y : Int) :
    Sol D N x y ↔ ∃ k, 1 ≤ k ∧ (-1) ^ (k * l) = N ∧ (⟨x, y⟩ : ℤ√D) = conv D s (l + 1) ^ k := by
  have hl := h.l1
  have hs := hD.pos
  constructor
  · rintro ⟨hx, hy, he⟩
    obtain ⟨n, hn⟩ := exists_conv hD x y hx hy (coprime_of_unit hN he) (by
      rw [he]; rcases hN with h1 | h1 <;> rw [h1] <;> simpa using hs)
    obtain ⟨n1, -⟩ := conv_norms hD (n + 1)
    have hx' : lin (sa D s 0 1) 0 1 (n + 1 + 1) = x := congrArg Zsqrtd.re hn
    have hy' : lin (sa D s 0 1) 1 0 (n + 1 + 1) = y := congrArg Zsqrtd.im hn
    rw [hx', hy', he] at n1
    have hq := (red_ge1 hD (n + 1) (by omega)).q1
    have hq1 : sQ D s 0 1 (n + 1) = 1 := by
      rcases neg_one_pow_eq (n + 1) with ⟨h1, -⟩ | ⟨h1, -⟩ <;> rw [h1] at n1 <;> rcases hN with h2 | h2 <;> omega
    obtain ⟨k, hk⟩ := (one_iff hD h (n + 1)).mp hq1
    rw [mul_comm] at hk
    refine ⟨k, ?_, ?_, ?_⟩
    · rcases Nat.eq_zero_or_pos k with h0 | h0
      · rw [h0] at hk; omega
      · exact h0
    · rw [hq1, mul_one, hk] at n1
      exact n1.symm
    · rw [← conv_pow hD h k, ← hk, hn]
  · rintro ⟨k, hk, hsg, e⟩
    rw [← conv_pow hD h k] at e
    obtain ⟨n, hn⟩ : ∃ n, k * l = n + 1 := ⟨k * l - 1, by have : 1 ≤ k * l := Nat.mul_pos hk hl; omega⟩
    rw [hn] at e
    have hx : x = (conv D s (n + 2)).re := congrArg Zsqrtd.re e
    have hy : y = (conv D s (n + 2)).im := congrArg Zsqrtd.im e
    obtain ⟨-, -, h3, h4⟩ := conv_pos hD n
    obtain ⟨n1, -⟩ := conv_norms hD (n + 1)
    have hq : sQ D s 0 1 (n + 1) = 1 := by rw [one_iff hD h, ← hn]; exact Dvd.intro_left k rfl
    refine ⟨by omega, by omega, ?_⟩
    rw [hx, hy, ← hsg, hn]
    rw [hq, mul_one] at n1
    exact n1

end

end Altruct.Pell
