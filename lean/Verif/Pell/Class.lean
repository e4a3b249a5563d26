/-
C88: `pell_mz`, one class of solutions of `x^2 - D y^2 = m`.
-/
import Verif.Pell.Solve
import Mathlib.NumberTheory.DiophantineApproximation.ContinuedFractions

namespace Altruct.Pell

open Altruct

variable {D s : Int}

/-! ## Classes -/

/-- The quotient of two members of a class whose norms are `m` and `e m` (`e = ±1`) is a unit. -/
theorem class_quot {m z x y X Y e : Int} (hm : m ≠ 0) (hz : m ∣ z * z - D) (h1 : m ∣ x + z * y) (h2 : m ∣ X + z * Y)
    (he : e = 1 ∨ e = -1) (n1 : x * x - D * (y * y) = m) (n2 : X * X - D * (Y * Y) = e * m) :
    ∃ u v, u * u - D * (v * v) = e ∧ (⟨x, y⟩ : ℤ√D) = ⟨X, Y⟩ * ⟨u, v⟩ := by
  have hee : e * e = 1 := by rcases he with h | h <;> rw [h] <;> norm_num
  obtain ⟨c, hc⟩ := hz
  obtain ⟨a, ha⟩ := h1
  obtain ⟨b, hb⟩ := h2
  have hx : x = m * a - z * y := by linarith
  have hX : X = m * b - z * Y := by linarith
  -- `x X - D y Y = m U`, `y X - x Y = m V`
  obtain ⟨U, hU⟩ : m ∣ x * X - D * (y * Y) := ⟨m * a * b - a * z * Y - b * z * y + c * y * Y, by
    rw [hx, hX]; linear_combination y * Y * hc⟩
  obtain ⟨V, hV⟩ : m ∣ y * X - x * Y := ⟨b * y - a * Y, by rw [hx, hX]; ring⟩
  refine ⟨e * U, e * V, ?_, ?_⟩
  · apply mul_left_cancel₀ (mul_ne_zero hm hm)
    have : (m * U) * (m * U) - D * ((m * V) * (m * V)) = m * (e * m) := by
      rw [← hU, ← hV, ← n2]
      conv_rhs => rw [← n1]
      rw [n2]
      linear_combination (x * x - D * (y * y)) * n2
    linear_combination this + m * m * (U * U - D * (V * V)) * hee
  · apply Zsqrtd.ext
    · rw [Zsqrtd.re_mul]
      apply mul_left_cancel₀ hm
      simp only
      linear_combination (e * X) * hU + (e * D * Y) * hV - e * x * n2 - m * x * hee
    · rw [Zsqrtd.im_mul]
      apply mul_left_cancel₀ hm
      simp only
      linear_combination (e * Y) * hU + (e * X) * hV - e * y * n2 - m * y * hee

/-- Multiplication by a unit stays in the class. -/
theorem class_mul {m z x y u v : Int} (hz : m ∣ z * z - D) (h1 : m ∣ x + z * y) :
    m ∣ ((⟨x, y⟩ : ℤ√D) * ⟨u, v⟩).re + z * ((⟨x, y⟩ : ℤ√D) * ⟨u, v⟩).im := by
  obtain ⟨c, hc⟩ := hz
  obtain ⟨a, ha⟩ := h1
  rw [Zsqrtd.re_mul, Zsqrtd.im_mul]
  refine ⟨a * u + a * z * v - c * y * v, ?_⟩
  simp only
  linear_combination (u + z * v) * ha - y * v * hc

theorem norm_mul' (x y u v : Int) :
    ((⟨x, y⟩ : ℤ√D) * ⟨u, v⟩).re * ((⟨x, y⟩ : ℤ√D) * ⟨u, v⟩).re
      - D * (((⟨x, y⟩ : ℤ√D) * ⟨u, v⟩).im * ((⟨x, y⟩ : ℤ√D) * ⟨u, v⟩).im)
      = (x * x - D * (y * y)) * (u * u - D * (v * v)) := by
  rw [Zsqrtd.re_mul, Zsqrtd.im_mul]
  ring

/-! ## Large members of a class -/

/-- The real value. -/
noncomputable def val (D x y : Int) : ℝ := x + y * √(D : ℝ)

theorem val_mul (hD : Between D s) (x y u v : Int) :
    val D ((⟨x, y⟩ : ℤ√D) * ⟨u, v⟩).re ((⟨x, y⟩ : ℤ√D) * ⟨u, v⟩).im = val D x y * val D u v
    ∧ val D ((⟨x, y⟩ : ℤ√D) * ⟨u, v⟩).re (-((⟨x, y⟩ : ℤ√D) * ⟨u, v⟩).im) = val D x (-y) * val D u (-v) := by
  have hm := hD.mul_sqrt
  rw [Zsqrtd.re_mul, Zsqrtd.im_mul]
  simp only [val]
  push_cast
  constructor
  · linear_combination (-(y : ℝ) * v) * hm
  · linear_combination (-(y : ℝ) * v) * hm

theorem val_conj (hD : Between D s) (x y : Int) : val D x y * val D x (-y) = ((x * x - D * (y * y) : Int) : ℝ) := by
  have hm := hD.mul_sqrt
  simp only [val]
  push_cast
  linear_combination (-(y : ℝ) * y) * hm

/-- In a class with a solution of norm `n ≠ 0` there are solutions with `x ≥ y` and arbitrarily large `y`. -/
theorem exists_large (hD : Between D s) {x1 y1 : Int} (hu : Sol D 1 x1 y1) {z q n x y : Int} (hz : q ∣ z * z - D)
    (h1 : q ∣ x + z * y) (hn : x * x - D * (y * y) = n) (hn0 : n ≠ 0) (Y0 : Int) :
    ∃ X Y, Y0 < Y ∧ 0 < Y ∧ Y ≤ X ∧ X * X - D * (Y * Y) = n ∧ q ∣ X + z * Y := by
  have hsD := hD.lt_sqrt
  have hs1 : (1 : ℝ) ≤ s := by exact_mod_cast hD.pos
  obtain ⟨hx1, hy1, hN1⟩ := hu
  have hx1' : (1 : ℝ) ≤ x1 := by exact_mod_cast hx1
  have hy1' : (1 : ℝ) ≤ y1 := by exact_mod_cast hy1
  -- the value is positive, up to the sign
  have hcon := val_conj hD x y
  rw [hn] at hcon
  have hvn : val D x y ≠ 0 := by
    intro h0
    rw [h0, zero_mul] at hcon
    exact hn0 (by exact_mod_cast hcon.symm)
  wlog hpos : 0 < val D x y generalizing x y
  · have hneg : val D (-x) (-y) = - val D x y := by simp only [val]; push_cast; ring
    refine this (x := -x) (y := -y) ?_ (by rw [← hn]; ring) ?_ (by rw [hneg]; exact neg_ne_zero.mpr hvn) ?_
    · rw [show -x + z * -y = -(x + z * y) by ring]; exact (dvd_neg).mpr h1
    · rw [← hcon]; simp only [val]; push_cast; ring
    · rw [hneg]
      rcases lt_or_gt_of_ne hvn with h | h
      · linarith
      · exact absurd h hpos
  have hu1 : (1 : ℝ) < val D x1 y1 := by
    simp only [val]; nlinarith
  have huc : val D x1 y1 * val D x1 (-y1) = 1 := by rw [val_conj hD, hN1]; norm_num
  have huc0 : 0 < val D x1 (-y1) := by
    by_contra hc
    push Not at hc
    nlinarith
  have huc1 : val D x1 (-y1) < 1 := by nlinarith
  -- the k-th multiple
  have key : ∀ k : ℕ, ∃ X Y, val D X Y = val D x y * val D x1 y1 ^ k ∧ |val D X (-Y)| ≤ |val D x (-y)|
      ∧ X * X - D * (Y * Y) = n ∧ q ∣ X + z * Y := by
    intro k
    induction k with
    | zero => exact ⟨x, y, by simp, le_rfl, hn, h1⟩
    | succ k ih =>
      obtain ⟨X, Y, e1, e2, e3, e4⟩ := ih
      obtain ⟨f1, f2⟩ := val_mul hD X Y x1 y1
      refine ⟨_, _, by rw [f1, e1, pow_succ]; ring, ?_, by rw [norm_mul', e3, hN1, mul_one], class_mul hz e4⟩
      rw [f2, abs_mul, abs_of_pos huc0]
      nlinarith [abs_nonneg (val D X (-Y))]
  obtain ⟨k, hk⟩ := pow_unbounded_of_one_lt
    ((2 * √(D : ℝ) * (|(Y0 : ℝ)| + |(n : ℝ)|) + |val D x (-y)|) / val D x y) hu1
  rw [div_lt_iff₀ hpos] at hk
  obtain ⟨X, Y, e1, e2, e3, e4⟩ := key k
  have hd : val D X Y - val D X (-Y) = 2 * √(D : ℝ) * Y := by simp only [val]; push_cast; ring
  have hsum : val D X Y + val D X (-Y) = 2 * X := by simp only [val]; push_cast; ring
  have h3 := abs_le.mp e2
  have hbig : 2 * √(D : ℝ) * (|(Y0 : ℝ)| + |(n : ℝ)|) < 2 * √(D : ℝ) * Y := by rw [← hd, e1]; nlinarith
  have hYr : |(Y0 : ℝ)| + |(n : ℝ)| < Y := lt_of_mul_lt_mul_left hbig (by linarith)
  have hYi : |Y0| + |n| < Y := by exact_mod_cast hYr
  have hXr : (0 : ℝ) < X := by
    have : 0 ≤ 2 * √(D : ℝ) * (|(Y0 : ℝ)| + |(n : ℝ)|) := by positivity
    nlinarith
  have hX0 : 0 < X := by exact_mod_cast hXr
  have hn1 := abs_nonneg n
  have hY0 := abs_nonneg Y0
  have hY1 := le_abs_self Y0
  have hn2 := neg_abs_le n
  refine ⟨X, Y, by omega, by omega, ?_, e3, e4⟩
  by_contra hc
  push Not at hc
  have hD2 : 2 ≤ D := by have := hD.lo; have := hD.pos; nlinarith
  have : X * X ≤ (Y - 1) * (Y - 1) := by nlinarith
  nlinarith [mul_nonneg (by omega : (0 : Int) ≤ D - 2) (mul_self_nonneg Y)]

/-- A solution in the class shows up in the expansion, arbitrarily late, as a denominator `±1`. -/
theorem exists_unit_index (hD : Between D s) {x1 y1 : Int} (hu : Sol D 1 x1 y1) {P0 Q0 x y : Int} (hQ : 0 < Q0)
    (hd : Q0 ∣ D - P0 * P0) (h1 : Q0 ∣ x + P0 * y) (hn : |x * x - D * (y * y)| = Q0) (r : ℕ) :
    ∃ i, r ≤ i ∧ |sQ D s P0 Q0 i| = 1 := by
  have hE := expansion hD hQ.ne' hd
  have hz : Q0 ∣ P0 * P0 - D := by rw [← neg_sub]; exact (dvd_neg).mpr hd
  obtain ⟨Y0, hY0⟩ : ∃ Y0 : Int, ∀ j, j ≤ r + 2 → lin (sa D s P0 Q0) 1 0 j ≤ Y0 ∧ - lin (sa D s P0 Q0) 1 0 j ≤ Y0 := by
    generalize r + 2 = m
    induction m with
    | zero => exact ⟨|lin (sa D s P0 Q0) 1 0 0|, fun j hj => by
        rw [Nat.le_zero.mp hj]; exact ⟨le_abs_self _, neg_le_abs _⟩⟩
    | succ m ih =>
      obtain ⟨Y, hY⟩ := ih
      refine ⟨max Y |lin (sa D s P0 Q0) 1 0 (m + 1)|, fun j hj => ?_⟩
      rcases Nat.lt_or_ge j (m + 1) with h | h
      · exact ⟨(hY j (by omega)).1.trans (le_max_left ..), (hY j (by omega)).2.trans (le_max_left ..)⟩
      · rw [show j = m + 1 by omega]
        exact ⟨(le_abs_self _).trans (le_max_right ..), (neg_le_abs _).trans (le_max_right ..)⟩
  obtain ⟨X, Y, hYY, hY, hXY, hN, hdv⟩ := exists_large hD hu hz h1 (n := x * x - D * (y * y)) rfl
    (by intro h; rw [h, abs_zero] at hn; omega) Y0
  rw [← hN] at hn
  obtain ⟨A, hA⟩ := hdv
  obtain ⟨R, hR⟩ := hd
  have hX : X = Q0 * A - P0 * Y := by linarith
  -- the norm, divided by `Q0`
  obtain ⟨e, he1, he⟩ : ∃ e : Int, (e = 1 ∨ e = -1) ∧ X * X - D * (Y * Y) = e * Q0 := by
    rcases abs_eq hQ.le |>.mp hn with h | h
    · exact ⟨1, Or.inl rfl, by rw [h]; ring⟩
    · exact ⟨-1, Or.inr rfl, by rw [h]; ring⟩
  have hee : e * e = 1 := by rcases he1 with h | h <;> rw [h] <;> norm_num
  have hform : Q0 * A * A - 2 * P0 * A * Y - R * Y * Y = e := by
    apply mul_left_cancel₀ hQ.ne'
    rw [mul_comm Q0 e, ← he, hX]
    linear_combination Y * Y * hR
  have hcop : IsCoprime A Y := ⟨e * (Q0 * A - 2 * P0 * Y), -(e * R * Y), by linear_combination e * hform + hee⟩
  -- a close rational
  have hYr : (0 : ℝ) < Y := by exact_mod_cast hY
  have hXr : (Y : ℝ) ≤ X := by exact_mod_cast hXY
  have hQr : (0 : ℝ) < Q0 := by exact_mod_cast hQ
  have hnat : ((Y.toNat : ℕ) : Int) = Y := Int.toNat_of_nonneg hY.le
  set q : ℚ := (A : ℚ) / (Y : ℚ) with hq
  have hnd : q.num = A ∧ (q.den : Int) = Y := by
    have := Rat.num_div_eq_of_coprime hY (Int.isCoprime_iff_gcd_eq_one.mp hcop)
    have h2 := Rat.den_div_eq_of_coprime hY (Int.isCoprime_iff_gcd_eq_one.mp hcop)
    exact ⟨this, h2⟩
  have hqr : (q : ℝ) = (A : ℝ) / Y := by rw [hq]; push_cast; rfl
  have hden : ((q.den : ℕ) : ℝ) = Y := by
    have := hnd.2
    exact_mod_cast this
  have hsD := hD.lt_sqrt
  have hs1 : (1 : ℝ) ≤ s := by exact_mod_cast hD.pos
  have hclose : |quo D P0 Q0 - q| < 1 / (2 * (q.den : ℝ) ^ 2) := by
    have hv : val D X Y * val D X (-Y) = (e : ℝ) * Q0 := by rw [val_conj hD, he]; push_cast; ring
    have hvp : 2 * (Y : ℝ) < val D X Y := by simp only [val]; nlinarith
    have hdiff : (quo D P0 Q0 - q) * (Q0 * Y) = - val D X (-Y) := by
      rw [quo, hqr]
      have hXc : (X : ℝ) = Q0 * A - P0 * Y := by exact_mod_cast hX
      simp only [val]
      push_cast
      field_simp
      rw [hXc]; ring
    have habs : |quo D P0 Q0 - q| * (Y * val D X Y) = 1 := by
      have h3 : |(quo D P0 Q0 - q) * (Q0 * Y)| * |val D X Y| = |(e : ℝ) * Q0| := by
        rw [hdiff, abs_neg, ← abs_mul, mul_comm, hv]
      have he' : |(e : ℝ)| = 1 := by rcases he1 with h | h <;> rw [h] <;> norm_num
      rw [abs_mul, abs_mul, abs_mul, he', abs_of_pos hQr, abs_of_pos hYr, abs_of_pos (by linarith : 0 < val D X Y)] at h3
      have : (Q0 : ℝ) * (|quo D P0 Q0 - q| * (Y * val D X Y)) = Q0 * 1 := by linarith
      exact mul_left_cancel₀ hQr.ne' this
    rw [hden, lt_div_iff₀ (by positivity)]
    have hpos : 0 < |quo D P0 Q0 - q| := by
      by_contra hc
      have : |quo D P0 Q0 - q| = 0 := le_antisymm (not_lt.mp hc) (abs_nonneg _)
      rw [this, zero_mul] at habs
      norm_num at habs
    nlinarith [mul_pos hpos (mul_pos hYr (sub_pos.mpr hvp))]
  obtain ⟨n, hn⟩ := Real.exists_convs_eq_rat hclose
  -- the convergent in lowest terms
  have hconts := (contsAux_eq hD hE n).2
  have hPQ : quo D (sP D s P0 Q0 0) (sQ D s P0 Q0 0) = quo D P0 Q0 := rfl
  rw [hPQ] at hconts
  have hfrac : (GenContFract.of (quo D P0 Q0)).convs n
      = (lin (sa D s P0 Q0) 0 1 (n + 2) : ℝ) / (lin (sa D s P0 Q0) 1 0 (n + 2) : ℝ) := by
    rw [GenContFract.conv_eq_num_div_den, GenContFract.num_eq_conts_a, GenContFract.den_eq_conts_b,
      GenContFract.nth_cont_eq_succ_nth_contAux, hconts]
  set An := lin (sa D s P0 Q0) 0 1 (n + 2) with hAn
  set Bn := lin (sa D s P0 Q0) 1 0 (n + 2) with hBn
  have hcopn : IsCoprime An Bn := by
    have hdet := lin_det (sa D s P0 Q0) (n + 1)
    refine ⟨(-1) ^ (n + 1) * lin (sa D s P0 Q0) 1 0 (n + 1), -((-1) ^ (n + 1) * lin (sa D s P0 Q0) 0 1 (n + 1)), ?_⟩
    have hsq : ((-1 : Int) ^ (n + 1)) * (-1) ^ (n + 1) = 1 := by rw [← mul_pow]; simp
    rw [hAn, hBn]
    linear_combination (-1) ^ (n + 1) * hdet + hsq
  have hB0 : Bn ≠ 0 := by
    intro h0
    rw [hn, h0, hqr] at hfrac
    simp only [Int.cast_zero, div_zero] at hfrac
    have hA0 : (A : ℝ) = 0 := by
      rcases div_eq_zero_iff.mp hfrac with h | h
      · exact h
      · exact absurd h hYr.ne'
    have hA0' : A = 0 := by exact_mod_cast hA0
    -- then `Y = 1` and the convergent is `1/0`, impossible for the form
    rw [h0, isCoprime_zero_right, Int.isUnit_iff] at hcopn
    have hrec : (GenContFract.of (quo D P0 Q0)).dens n = 0 := by
      rw [GenContFract.den_eq_conts_b, GenContFract.nth_cont_eq_succ_nth_contAux, hconts]
      simp [h0]
    have hpos : (1 : ℝ) ≤ (GenContFract.of (quo D P0 Q0)).dens n := by
      have hmono : ∀ k, (1 : ℝ) ≤ (GenContFract.of (quo D P0 Q0)).dens k := by
        intro k
        induction k with
        | zero => rw [GenContFract.zeroth_den_eq_one]
        | succ k ih => exact ih.trans GenContFract.of_den_mono
      exact hmono n
    rw [hrec] at hpos
    norm_num at hpos
  have hBr : (Bn : ℝ) ≠ 0 := by exact_mod_cast hB0
  have hcross : A * Bn = An * Y := by
    rw [hn, hqr, div_eq_div_iff hYr.ne' hBr] at hfrac
    exact_mod_cast hfrac
  have hdvd1 : Y ∣ Bn := hcop.symm.dvd_of_dvd_mul_left ⟨An, by rw [hcross]; ring⟩
  have hdvd2 : Bn ∣ Y := hcopn.symm.dvd_of_dvd_mul_left ⟨A, by rw [← hcross]; ring⟩
  obtain ⟨t, ht1, hBt⟩ : ∃ t : Int, (t = 1 ∨ t = -1) ∧ Bn = t * Y := by
    have := Int.natAbs_dvd_natAbs.mpr hdvd1
    have h2 := Int.natAbs_dvd_natAbs.mpr hdvd2
    rcases Int.natAbs_eq_natAbs_iff.mp (Nat.dvd_antisymm h2 this) with h | h
    · exact ⟨1, Or.inl rfl, by rw [h]; ring⟩
    · exact ⟨-1, Or.inr rfl, by rw [h]; ring⟩
  have hAt : An = t * A := by
    apply mul_right_cancel₀ hY.ne'
    rw [← hcross, hBt]; ring
  have htt : t * t = 1 := by rcases ht1 with h | h <;> rw [h] <;> norm_num
  refine ⟨n + 1, ?_, ?_⟩
  · by_contra hc
    push Not at hc
    obtain ⟨h3, h4⟩ := hY0 (n + 2) (by omega)
    rw [← hBn, hBt] at h3 h4
    rcases ht1 with h | h <;> rw [h] at h3 h4 <;> omega
  · have hnm := (norms hD hE (lin_rec (sa D s P0 Q0) (-P0) Q0) (lin_rec (sa D s P0 Q0) 1 0) rfl rfl rfl rfl (n + 1)).1
    have hG : lin (sa D s P0 Q0) (-P0) Q0 (n + 1 + 1) = t * X := by
      rw [(lin_combine _ (-P0) Q0 (n + 2)).1, ← hAn, ← hBn, hAt, hBt, hX]; ring
    have hQ0 : sQ D s P0 Q0 0 = Q0 := rfl
    rw [hG, ← hBn, hBt, hQ0] at hnm
    have h5 : e * Q0 = ((-1) ^ (n + 1) * sQ D s P0 Q0 (n + 1)) * Q0 := by
      rw [← hnm, ← he]; linear_combination (-(X * X - D * (Y * Y))) * htt
    have h6 := mul_right_cancel₀ hQ.ne' h5
    have h7 : |e| = |sQ D s P0 Q0 (n + 1)| := by
      rw [h6, abs_mul, abs_pow, abs_neg, abs_one, one_pow, one_mul]
    rw [← h7]
    rcases he1 with h | h <;> rw [h] <;> norm_num

/-! ## The run of `pell_mz` -/

theorem findUnit_spec (D s P0 Q0 : Int) (n : ℕ) : ∀ (cnt i : ℕ), i + cnt = n + 1 →
    i ≤ findUnit (tabAt D s P0 Q0 n).Q cnt i ∧ findUnit (tabAt D s P0 Q0 n).Q cnt i ≤ n + 1
    ∧ (∀ j, i ≤ j → j < findUnit (tabAt D s P0 Q0 n).Q cnt i → |sQ D s P0 Q0 j| ≠ 1)
    ∧ (findUnit (tabAt D s P0 Q0 n).Q cnt i ≤ n → |sQ D s P0 Q0 (findUnit (tabAt D s P0 Q0 n).Q cnt i)| = 1) := by
  intro cnt
  induction cnt with
  | zero => intro i hi; rw [findUnit]; exact ⟨le_rfl, by omega, fun j h1 h2 => by omega, fun h => by omega⟩
  | succ cnt ih =>
    intro i hi
    have hq : rd (tabAt D s P0 Q0 n).Q i = some (sQ D s P0 Q0 i) := by rw [tabAt, rd_map_range (by omega)]
    rw [findUnit, hq]
    simp only
    by_cases hc : sQ D s P0 Q0 i ≠ 1 ∧ sQ D s P0 Q0 i ≠ -1
    · rw [if_pos hc]
      obtain ⟨h1, h2, h3, h4⟩ := ih (i + 1) (by omega)
      refine ⟨by omega, h2, fun j h5 h6 => ?_, h4⟩
      rcases Nat.lt_or_ge i j with h | h
      · exact h3 j h h6
      · rw [show j = i by omega]
        intro he
        rcases abs_eq (by norm_num : (0 : Int) ≤ 1) |>.mp he with h | h
        · exact hc.1 h
        · exact hc.2 h
    · rw [if_neg hc]
      refine ⟨le_rfl, by omega, fun j h1 h2 => by omega, fun _ => ?_⟩
      rcases (show sQ D s P0 Q0 i = 1 ∨ sQ D s P0 Q0 i = -1 by omega) with h | h <;> rw [h] <;> norm_num

theorem sign_cases {q ms : Int} {j : ℕ} (h1 : |q| = 1) (hms : ms = 1 ∨ ms = -1) (h2 : ¬ q = (-1) ^ j * ms) :
    q = (-1) ^ j * -ms := by
  rcases neg_one_pow_eq j with ⟨g, -⟩ | ⟨g, -⟩ <;> rw [g] at h2 ⊢ <;>
  rcases abs_eq (by norm_num : (0 : Int) ≤ 1) |>.mp h1 with h | h <;> omega

theorem expected_eq (i : ℕ) (ms : Int) : expected i ms = (-1) ^ i * ms := by
  rw [expected]
  rcases neg_one_pow_eq i with ⟨h1, h2⟩ | ⟨h1, h2⟩
  · rw [h1, if_neg (by omega), one_mul]
  · rw [h1, if_pos h2]; ring

/-- What the pair read after a right denominator satisfies. -/
theorem good_pair (hD : Between D s) {P0 Q0 : Int} (hQ : Q0 ≠ 0) (hd : Q0 ∣ D - P0 * P0) (i : ℕ) (e : Int)
    (he : sQ D s P0 Q0 i = (-1) ^ i * e) :
    lin (sa D s P0 Q0) (-P0) Q0 (i + 1) * lin (sa D s P0 Q0) (-P0) Q0 (i + 1)
      - D * (lin (sa D s P0 Q0) 1 0 (i + 1) * lin (sa D s P0 Q0) 1 0 (i + 1)) = e * Q0
    ∧ Q0 ∣ lin (sa D s P0 Q0) (-P0) Q0 (i + 1) + P0 * lin (sa D s P0 Q0) 1 0 (i + 1) := by
  have hnm := (norms hD (expansion hD hQ hd) (lin_rec (sa D s P0 Q0) (-P0) Q0) (lin_rec (sa D s P0 Q0) 1 0)
    rfl rfl rfl rfl i).1
  have hQ0 : sQ D s P0 Q0 0 = Q0 := rfl
  have hsq : ((-1 : Int) ^ i) * (-1) ^ i = 1 := by rw [← mul_pow]; simp
  rw [hQ0, he] at hnm
  refine ⟨by rw [hnm]; linear_combination e * Q0 * hsq, ⟨lin (sa D s P0 Q0) 0 1 (i + 1), ?_⟩⟩
  rw [(lin_combine _ (-P0) Q0 (i + 1)).1]; ring

/-- C88 (one class): for a positive non-square `D`, `m ≠ 0` and `z` with `z^2 = D (mod m)`, `pell_mz(D, m, z)` terminates.

- If it returns a non-zero value, that is the length of the period, and `(x0, y0)` is a solution of `x^2 - D y^2 = m` in the
  class of `z`, that is with `x + z y = 0 (mod m)`.  The class then consists of the products of `(x0, y0)` with the solutions
  of `u^2 - D v^2 = 1`.
- If it returns `0`, then `x0`, `y0` are not changed; and if `u^2 - D v^2 = -1` has no solution, the class is empty. -/
theorem C88_pell_mz (D m z x0 y0 : Int) (hD : 0 < D) (hns : ¬ IsSquare D) (hl : D.natAbs.log2 < 2 ^ 63)
    (hm : m ≠ 0) (hz : m ∣ z * z - D) :
    ∃ (fuel0 r : ℕ) (x y : Int), (∀ fuel, fuel0 ≤ fuel → pellMZ fuel D m z x0 y0 = some (r, x, y))
      ∧ (r ≠ 0 → x * x - D * (y * y) = m ∧ m ∣ x + z * y
        ∧ PeriodLength (quo D (if z ≤ |m| / 2 then z else z - |m|) |m|) r
        ∧ ∀ x' y', (x' * x' - D * (y' * y') = m ∧ m ∣ x' + z * y')
          ↔ ∃ u v, u * u - D * (v * v) = 1 ∧ (⟨x', y'⟩ : ℤ√D) = ⟨x, y⟩ * ⟨u, v⟩)
      ∧ (r = 0 → x = x0 ∧ y = y0)
      ∧ (r = 0 → (∀ u v : Int, u * u - D * (v * v) ≠ -1) →
          ∀ x' y', ¬ (x' * x' - D * (y' * y') = m ∧ m ∣ x' + z * y')) := by
  have hB := between_sqrtT D hD hns hl
  -- the unit
  obtain ⟨r1, l1, hp1⟩ := exists_isPeriod hB one_ne_zero (dvd_one D)
  have hr1 := r_eq_one hB hp1
  subst hr1
  have hu := (generates hB hp1 (Or.inl rfl : (1 : Int) = 1 ∨ (1 : Int) = -1) (by omega)).sol
  generalize (conv D (Base.sqrtT D) (l1 + 1) ^ unitExp l1 1).re = x1 at hu
  generalize (conv D (Base.sqrtT D) (l1 + 1) ^ unitExp l1 1).im = y1 at hu
  generalize hs : Base.sqrtT D = s at hB
  have hs := hs.symm
  clear hp1
  have hmm : 0 < |m| := abs_pos.mpr hm
  have hdiv : |m|.tdiv 2 = |m| / 2 := Int.tdiv_eq_ediv_of_nonneg hmm.le
  set zh : Int := if z ≤ |m| / 2 then z else z - |m| with hzh
  obtain ⟨k, hk⟩ : ∃ k, zh = z + k * |m| := by
    rw [hzh]
    split
    · exact ⟨0, by ring⟩
    · exact ⟨-1, by ring⟩
  obtain ⟨ms, hms, hmsm⟩ : ∃ ms : Int, (ms = 1 ∨ ms = -1) ∧ ms = (if m < 0 then -1 else 1) := by
    by_cases h : m < 0
    · exact ⟨-1, Or.inr rfl, by rw [if_pos h]⟩
    · exact ⟨1, Or.inl rfl, by rw [if_neg h]⟩
  have hmeq : ms * |m| = m := by
    rw [hmsm]
    by_cases h : m < 0
    · rw [if_pos h, abs_of_neg h]; ring
    · rw [if_neg h, abs_of_nonneg (by omega)]; ring
  have hclass : ∀ x y : Int, |m| ∣ x + zh * y ↔ m ∣ x + z * y := by
    intro x y
    rw [abs_dvd, hk, show x + (z + k * |m|) * y = (x + z * y) + |m| * (k * y) by ring]
    constructor
    · intro h
      exact (dvd_add_left (dvd_mul_of_dvd_left ((dvd_abs m m).mpr dvd_rfl) _)).mp h
    · intro h
      exact (dvd_add_left (dvd_mul_of_dvd_left ((dvd_abs m m).mpr dvd_rfl) _)).mpr h
  have hd : |m| ∣ D - zh * zh := by
    rw [abs_dvd, hk]
    obtain ⟨c, hc⟩ := hz
    obtain ⟨w, hw⟩ : m ∣ |m| := (dvd_abs m m).mpr dvd_rfl
    exact ⟨-c - 2 * z * k * w - k * k * |m| * w, by rw [show D = z * z - m * c by linarith]; rw [show
      (z + k * |m|) * (z + k * |m|) = z * z + (2 * z * k + k * k * |m|) * |m| by ring]; nth_rewrite 2 [hw]; ring⟩
  obtain ⟨r, l, hp⟩ := exists_isPeriod hB hmm.ne' hd
  have hr := hp.r1
  have hl1 := hp.l1
  obtain ⟨f1, f2, f3, f4⟩ := findUnit_spec D s zh |m| (r + l) (r + l) 1 (by omega)
  set i := findUnit (tabAt D s zh |m| (r + l)).Q (r + l) 1 with hi
  have hlen : ∀ n, (tabAt D s zh |m| n).Q.length = n + 1 := by intro n; simp [tabAt]
  -- the common part of the run
  have hrun : ∀ fuel, r + l ≤ fuel → pellMZ fuel D m z x0 y0
      = if i ≥ r + l + 1 then some (0, x0, y0)
        else if sQ D s zh |m| i = (-1) ^ i * ms then
          some (l, lin (sa D s zh |m|) (-zh) |m| (i + 1), lin (sa D s zh |m|) 1 0 (i + 1))
        else if sQ D s zh |m| (i + l) = (-1) ^ (i + l) * ms then
          some (l, lin (sa D s zh |m|) (-zh) |m| (i + l + 1), lin (sa D s zh |m|) 1 0 (i + l + 1))
        else some (0, x0, y0) := by
    intro fuel hf
    rw [pellMZ]
    simp only [← hmsm, hdiv, ← hzh]
    rw [pqa_first hB hs hmm.ne' hd hp fuel hf]
    simp only [Option.bind_eq_bind, Option.bind_some]
    rw [hlen, Nat.add_sub_cancel, ← hi]
    by_cases hc : i ≥ r + l + 1
    · rw [if_pos hc, if_pos hc]
    · rw [if_neg hc, if_neg hc]
      have hq : rd (tabAt D s zh |m| (r + l)).Q i = some (sQ D s zh |m| i) := by
        rw [tabAt, rd_map_range (by omega)]
      have hrdG : ∀ n j, 1 ≤ j → j ≤ n → rd (tabAt D s zh |m| n).G (j - 1) = some (lin (sa D s zh |m|) (-zh) |m| (j + 1)) := by
        intro n j h1 h2
        rw [tabAt, rd_map_range (by omega), show j - 1 + 2 = j + 1 by omega]
      have hrdB : ∀ n j, 1 ≤ j → j ≤ n → rd (tabAt D s zh |m| n).B (j - 1) = some (lin (sa D s zh |m|) 1 0 (j + 1)) := by
        intro n j h1 h2
        rw [tabAt, rd_map_range (by omega), show j - 1 + 2 = j + 1 by omega]
      rw [hq]
      simp only [Option.bind_some, expected_eq]
      by_cases h1 : sQ D s zh |m| i = (-1) ^ i * ms
      · rw [if_neg (not_not.mpr h1), if_pos h1]
        rw [if_neg (not_not.mpr h1), hrdG _ _ f1 (by omega), hrdB _ _ f1 (by omega)]
        rfl
      · rw [if_pos h1, if_neg h1, pqa_again hB hs hmm.ne' hd hp (r + l) (by omega) (by omega) fuel (by omega)]
        simp only [Option.map_some, Option.bind_some]
        have hq2 : rd (tabAt D s zh |m| (r + l + l)).Q (i + l) = some (sQ D s zh |m| (i + l)) := by
          rw [tabAt, rd_map_range (by omega)]
        rw [hq2]
        simp only [Option.bind_some]
        by_cases h2 : sQ D s zh |m| (i + l) = (-1) ^ (i + l) * ms
        · rw [if_neg (not_not.mpr h2), if_pos h2, hrdG _ _ (by omega) (by omega), hrdB _ _ (by omega) (by omega)]
          rfl
        · rw [if_pos h2, if_neg h2]
  -- a right denominator gives a solution
  have hgood : ∀ j, sQ D s zh |m| j = (-1) ^ j * ms →
      (lin (sa D s zh |m|) (-zh) |m| (j + 1) * lin (sa D s zh |m|) (-zh) |m| (j + 1)
        - D * (lin (sa D s zh |m|) 1 0 (j + 1) * lin (sa D s zh |m|) 1 0 (j + 1)) = m)
      ∧ m ∣ lin (sa D s zh |m|) (-zh) |m| (j + 1) + z * lin (sa D s zh |m|) 1 0 (j + 1) := by
    intro j hj
    obtain ⟨h1, h2⟩ := good_pair hB hmm.ne' hd j ms hj
    exact ⟨by rw [h1, hmeq], (hclass _ _).mp h2⟩
  have hfull : ∀ x y : Int, x * x - D * (y * y) = m → m ∣ x + z * y →
      ∀ x' y', (x' * x' - D * (y' * y') = m ∧ m ∣ x' + z * y')
          ↔ ∃ u v, u * u - D * (v * v) = 1 ∧ (⟨x', y'⟩ : ℤ√D) = ⟨x, y⟩ * ⟨u, v⟩ := by
    intro x y h1 h2 x' y'
    constructor
    · rintro ⟨h3, h4⟩
      exact class_quot hm hz h4 h2 (Or.inl rfl) h3 (by rw [h1, one_mul])
    · rintro ⟨u, v, h3, h4⟩
      have e1 : x' = ((⟨x, y⟩ : ℤ√D) * ⟨u, v⟩).re := congrArg Zsqrtd.re h4
      have e2 : y' = ((⟨x, y⟩ : ℤ√D) * ⟨u, v⟩).im := congrArg Zsqrtd.im h4
      rw [e1, e2, norm_mul', h1, h3, mul_one]
      exact ⟨rfl, class_mul hz h2⟩
  have hperlen := (hp.cf hB hmm.ne' hd).1
  -- a member of the class gives a denominator ±1
  have hfind : ∀ x' y', (x' * x' - D * (y' * y') = m ∧ m ∣ x' + z * y') → i ≤ r + l := by
    rintro x' y' ⟨h1, h2⟩
    obtain ⟨j, hj1, hj2⟩ := exists_unit_index hB hu hmm hd ((hclass x' y').mpr h2) (by rw [h1]) r
    by_contra hc
    have hper := (hp.periodic hB hmm.ne' hd ((j - r) / l) (r + (j - r) % l) (by omega)).2.1
    have hmod := Nat.div_add_mod' (j - r) l
    have hlt := Nat.mod_lt (j - r) hl1
    rw [show r + (j - r) % l + (j - r) / l * l = j by omega] at hper
    exact f3 (r + (j - r) % l) (by omega) (by omega) (by rw [← hper]; exact hj2)
  -- a wrong sign gives a unit of norm -1
  have hwrong : ∀ j, |sQ D s zh |m| j| = 1 → ¬ sQ D s zh |m| j = (-1) ^ j * ms →
      (∃ x' y', x' * x' - D * (y' * y') = m ∧ m ∣ x' + z * y') → ∃ u v : Int, u * u - D * (v * v) = -1 := by
    rintro j h1 h2 ⟨x', y', h3, h4⟩
    have hneg : sQ D s zh |m| j = (-1) ^ j * -ms := by
      exact sign_cases h1 hms h2
    obtain ⟨g1, g2⟩ := good_pair hB hmm.ne' hd j (-ms) hneg
    obtain ⟨u, v, g3, -⟩ := class_quot hm hz h4 ((hclass _ _).mp g2) (Or.inr rfl) h3
      (by rw [g1]; linear_combination (-1) * hmeq)
    exact ⟨u, v, g3⟩
  by_cases hc : i ≥ r + l + 1
  · refine ⟨r + l, 0, x0, y0, fun fuel hf => by rw [hrun fuel hf, if_pos hc], fun h => absurd rfl h,
      fun _ => ⟨rfl, rfl⟩, fun _ _ x' y' h => ?_⟩
    have := hfind x' y' h
    omega
  by_cases h1 : sQ D s zh |m| i = (-1) ^ i * ms
  · obtain ⟨g1, g2⟩ := hgood i h1
    exact ⟨r + l, l, _, _, fun fuel hf => by rw [hrun fuel hf, if_neg hc, if_pos h1],
      fun _ => ⟨g1, g2, hperlen, hfull _ _ g1 g2⟩, fun h => by omega, fun h => by omega⟩
  by_cases h2 : sQ D s zh |m| (i + l) = (-1) ^ (i + l) * ms
  · obtain ⟨g1, g2⟩ := hgood (i + l) h2
    exact ⟨r + l, l, _, _, fun fuel hf => by rw [hrun fuel hf, if_neg hc, if_neg h1, if_pos h2],
      fun _ => ⟨g1, g2, hperlen, hfull _ _ g1 g2⟩, fun h => by omega, fun h => by omega⟩
  · refine ⟨r + l, 0, x0, y0, fun fuel hf => by rw [hrun fuel hf, if_neg hc, if_neg h1, if_neg h2],
      fun h => absurd rfl h, fun _ => ⟨rfl, rfl⟩, fun _ hno x' y' h => ?_⟩
    obtain ⟨u, v, huv⟩ := hwrong i (f4 (by omega)) h1 ⟨x', y', h⟩
    exact hno u v huv

set_option maxRecDepth 100000 in
/-- Without the condition on `-1` the last claim fails: `(1, 2)` is a solution of `x^2 - 2 y^2 = -7` in the class of `3`, and
`pell_mz(2, -7, 3)` returns `0`. -/
theorem C88_pell_mz_misses : pellMZ 100 2 (-7) 3 0 0 = some (0, 0, 0)
    ∧ (1 * 1 - 2 * (2 * 2) = (-7 : Int) ∧ (-7 : Int) ∣ 1 + 3 * 2) ∧ (-7 : Int) ∣ 3 * 3 - 2 := by decide +kernel

set_option maxRecDepth 100000 in
/-- A class that is found, of an equation with two, and an empty class; `x^2 - 6 y^2 = -1` has no solution (modulo 3). -/
example : pellMZ 100 6 25 9 0 0 = some (2, 7, 2) ∧ pellMZ 100 6 25 16 0 0 = some (2, 11, 4)
    ∧ pellMZ 100 6 (-2) 0 5 5 = some (2, 2, 1) ∧ pellMZ 100 6 2 0 5 5 = some (0, 5, 5) := by decide +kernel

example : ∀ u v : Int, u * u - 6 * (v * v) ≠ -1 := by
  intro u v h
  have h2 : (u * u - 6 * (v * v)) % 3 = 2 := by rw [h]; rfl
  have h3 : (u * u) % 3 = 2 := by omega
  have h1 : u % 3 = 0 ∨ u % 3 = 1 ∨ u % 3 = 2 := by omega
  rw [Int.mul_emod] at h3
  rcases h1 with e | e | e <;> rw [e] at h3 <;> norm_num at h3

end Altruct.Pell
