/-
C87: `pellS`, the equation `x^2 - D y^2 = N` for `N^2 < D`.
-/
import Verif.Pell.Solve
import Mathlib.Data.Nat.Log

namespace Altruct.Pell

open Altruct

variable {D s : Int}

/-- What the round `i` of the loop of `pellS` appends. -/
def elt (D s N : Int) (i : ℕ) : Option (Int × Int) :=
  if N.tmod (sQ D s 0 1 (i + 1)) ≠ 0 then none
  else
    let f2 := if i % 2 = 0 then -N.tdiv (sQ D s 0 1 (i + 1)) else N.tdiv (sQ D s 0 1 (i + 1))
    if f2 < 0 then none
    else if Base.sqrtT f2 * Base.sqrtT f2 ≠ f2 then none
    else some (Base.sqrtT f2 * (conv D s (i + 2)).re, Base.sqrtT f2 * (conv D s (i + 2)).im)

theorem pellSLoop_eq (hD : Between D s) (N : Int) (n : ℕ) : ∀ (cnt i : ℕ), i + cnt ≤ n →
    pellSLoop N (tabAt D s 0 1 n) cnt i = some ((List.range' i cnt).filterMap (elt D s N)) := by
  intro cnt
  induction cnt with
  | zero => intro i _; rfl
  | succ cnt ih =>
    intro i hi
    have hq : rd (tabAt D s 0 1 n).Q (i + 1) = some (sQ D s 0 1 (i + 1)) := by
      rw [tabAt, rd_map_range (by omega)]
    have hne := (pq_ok hD one_ne_zero (dvd_one D) (i + 1)).1
    rw [pellSLoop, hq, List.range'_succ, ih (i + 1) (by omega)]
    simp only [Option.bind_eq_bind, Option.bind_some]
    rw [if_neg hne, rd_G (by omega), rd_B (by omega)]
    simp only [Option.bind_some]
    by_cases h1 : N.tmod (sQ D s 0 1 (i + 1)) ≠ 0
    · rw [if_pos h1, List.filterMap_cons, elt, if_pos h1]
    · rw [if_neg h1, List.filterMap_cons, elt, if_neg h1]
      generalize (if i % 2 = 0 then -N.tdiv (sQ D s 0 1 (i + 1)) else N.tdiv (sQ D s 0 1 (i + 1))) = f2
      by_cases h2 : f2 < 0
      · simp only [if_pos h2]
      · simp only [if_neg h2]
        by_cases h3 : Base.sqrtT f2 * Base.sqrtT f2 ≠ f2
        · simp only [if_pos h3]
        · simp only [if_neg h3]

theorem log2_le {a b : ℕ} (h : a ≤ b) : a.log2 ≤ b.log2 := by
  rw [Nat.log2_eq_log_two, Nat.log2_eq_log_two]
  exact Nat.log_mono_right h

theorem sqrtT_sq (f : Int) (hf : 0 ≤ f) (hl : (f * f).natAbs.log2 < 2 ^ 63) : Base.sqrtT (f * f) = f := by
  obtain ⟨h0, h1, h2⟩ := Base.C01_sqrtT (f * f) (mul_nonneg hf hf) hl
  nlinarith

theorem elt_iff (hD : Between D s) {N : Int} (hN : N ≠ 0) (hlt : |N| ≤ s) (hl : D.natAbs.log2 < 2 ^ 63) (i : ℕ)
    (v : Int × Int) : elt D s N i = some v ↔ ∃ f, 0 < f ∧ f * f * ((-1) ^ (i + 1) * sQ D s 0 1 (i + 1)) = N
      ∧ v = (f * (conv D s (i + 2)).re, f * (conv D s (i + 2)).im) := by
  have hq := (red_ge1 hD (i + 1) (by omega)).q1
  have hqne : sQ D s 0 1 (i + 1) ≠ 0 := by omega
  -- the sign of the norm
  have hsg : ∀ x : Int, (if i % 2 = 0 then -x else x) = (-1) ^ (i + 1) * x := by
    intro x
    rcases neg_one_pow_eq (i + 1) with ⟨h1, h2⟩ | ⟨h1, h2⟩
    · rw [h1, if_neg (by omega), one_mul]
    · rw [h1, if_pos (by omega)]; ring
  have hss : ((-1 : Int) ^ (i + 1)) * (-1) ^ (i + 1) = 1 := by rw [← mul_pow]; simp
  rw [elt, hsg]
  simp only
  constructor
  · intro h
    by_cases h1 : N.tmod (sQ D s 0 1 (i + 1)) ≠ 0
    · rw [if_pos h1] at h; exact absurd h (by simp)
    rw [if_neg h1] at h
    push Not at h1
    by_cases h2 : (-1) ^ (i + 1) * N.tdiv (sQ D s 0 1 (i + 1)) < 0
    · rw [if_pos h2] at h; exact absurd h (by simp)
    rw [if_neg h2] at h
    push Not at h2
    by_cases h3 : Base.sqrtT ((-1) ^ (i + 1) * N.tdiv (sQ D s 0 1 (i + 1)))
        * Base.sqrtT ((-1) ^ (i + 1) * N.tdiv (sQ D s 0 1 (i + 1))) ≠ (-1) ^ (i + 1) * N.tdiv (sQ D s 0 1 (i + 1))
    · rw [if_pos h3] at h; exact absurd h (by simp)
    rw [if_neg h3] at h
    push Not at h3
    have hmul : sQ D s 0 1 (i + 1) * N.tdiv (sQ D s 0 1 (i + 1)) = N :=
      Int.mul_tdiv_cancel' (Int.dvd_of_tmod_eq_zero h1)
    set f2 := (-1) ^ (i + 1) * N.tdiv (sQ D s 0 1 (i + 1)) with hf2
    have hf2s : f2 ≤ s := by
      have : |f2| ≤ |N| := by
        have e : |N| = sQ D s 0 1 (i + 1) * |f2| := by
          rw [hf2, abs_mul, abs_pow, abs_neg, abs_one, one_pow, one_mul, ← hmul, abs_mul, abs_of_pos (by omega : 0 < sQ D s 0 1 (i + 1)), hmul]
        rw [e]
        nlinarith [abs_nonneg f2]
      have := le_abs_self f2
      omega
    have hfl : f2.natAbs.log2 < 2 ^ 63 := by
      refine lt_of_le_of_lt (log2_le ?_) hl
      have : s < D := by have := hD.lo; have := hD.pos; nlinarith
      omega
    obtain ⟨g0, -, -⟩ := Base.C01_sqrtT f2 h2 hfl
    refine ⟨Base.sqrtT f2, ?_, ?_, (Option.some.inj h).symm⟩
    · rcases lt_or_eq_of_le g0 with h4 | h4
      · exact h4
      · rw [← h4] at h3
        exfalso
        have hz : N.tdiv (sQ D s 0 1 (i + 1)) = 0 := by
          have : (-1) ^ (i + 1) * ((-1) ^ (i + 1) * N.tdiv (sQ D s 0 1 (i + 1))) = 0 := by
            rw [← hf2, ← h3]; ring
          rwa [← mul_assoc, hss, one_mul] at this
        rw [hz, mul_zero] at hmul
        exact hN hmul.symm
    · rw [h3, hf2]
      linear_combination hmul + sQ D s 0 1 (i + 1) * N.tdiv (sQ D s 0 1 (i + 1)) * hss
  · rintro ⟨f, hf, he, rfl⟩
    have hdvd : sQ D s 0 1 (i + 1) ∣ N := ⟨f * f * (-1) ^ (i + 1), by rw [← he]; ring⟩
    have hdiv : N.tdiv (sQ D s 0 1 (i + 1)) = f * f * (-1) ^ (i + 1) := by
      apply mul_left_cancel₀ hqne
      rw [Int.mul_tdiv_cancel' hdvd, ← he]; ring
    have hf2 : (-1) ^ (i + 1) * N.tdiv (sQ D s 0 1 (i + 1)) = f * f := by
      rw [hdiv]; linear_combination f * f * hss
    have hle : f * f ≤ s := by
      have e : |N| = f * f * sQ D s 0 1 (i + 1) := by
        rw [← he, abs_mul, abs_mul, abs_mul, abs_pow, abs_neg, abs_one, one_pow, one_mul,
          abs_of_pos hf, abs_of_pos (by omega : 0 < sQ D s 0 1 (i + 1))]
      nlinarith
    have hfl : (f * f).natAbs.log2 < 2 ^ 63 := by
      refine lt_of_le_of_lt (log2_le ?_) hl
      have : s < D := by have := hD.lo; have := hD.pos; nlinarith
      have : 0 ≤ f * f := by positivity
      omega
    rw [if_neg (by push Not; exact Int.tmod_eq_zero_of_dvd hdvd), hf2, if_neg (by push Not; positivity),
      sqrtT_sq f hf.le hfl, if_neg (by simp)]

theorem conv_coprime (D s : Int) (n : ℕ) : IsCoprime (conv D s (n + 1)).re (conv D s (n + 1)).im := by
  have hdet := lin_det (sa D s 0 1) n
  have hss : ((-1 : Int) ^ n) * (-1) ^ n = 1 := by rw [← mul_pow]; simp
  refine ⟨(-1) ^ n * lin (sa D s 0 1) 1 0 n, -((-1) ^ n * lin (sa D s 0 1) 0 1 n), ?_⟩
  simp only [conv]
  linear_combination (-1) ^ n * hdet + hss

/-- The multiplier of a multiple of a convergent is determined. -/
theorem scale_inj {f f' : Int} (hf : 0 < f) (hf' : 0 < f') {x y x' y' : Int} (hc : IsCoprime x y) (hc' : IsCoprime x' y')
    (h1 : f * x = f' * x') (h2 : f * y = f' * y') : f = f' := by
  obtain ⟨a, b, e⟩ := hc
  obtain ⟨a', b', e'⟩ := hc'
  have d1 : f ∣ f' := ⟨a' * x + b' * y, by linear_combination (-1) * f' * e' + (-1) * a' * h1 + (-1) * b' * h2⟩
  have d2 : f' ∣ f := ⟨a * x' + b * y', by linear_combination (-1) * f * e + a * h1 + b * h2⟩
  exact Int.dvd_antisymm hf.le hf'.le d1 d2

theorem conv_inj (hD : Between D s) {m n : ℕ} (h : conv D s (m + 2) = conv D s (n + 2)) : m = n := by
  rcases lt_trichotomy m n with h1 | h1 | h1
  · have := (conv_mono hD h1).1
    rw [h] at this
    exact absurd this (lt_irrefl _)
  · exact h1
  · have := (conv_mono hD h1).1
    rw [h] at this
    exact absurd this (lt_irrefl _)

theorem conv_mulL (hD : Between D s) {l : ℕ} (h : IsPeriod D s 0 1 1 l) (c k i : ℕ) :
    conv D s (i + 2) * conv D s (c * l + 1) ^ k = conv D s (k * (c * l) + i + 2) := by
  rw [conv_pow hD h c, ← pow_mul, mul_comm, ← conv_mul hD h (c * k) (i + 1)]
  congr 1
  ring

/-- C87: for a positive non-square `D` and `N ≠ 0` with `N^2 < D`, `pellS(D, N)` terminates, and with the least
positive solution `u` of `x^2 - D y^2 = 1` (as found by `pell1`):

- the positive solutions of `x^2 - D y^2 = N` are exactly the numbers `v * u^k`, `k ≥ 0`, for the pairs `v` found;
- no solution is reached from two of the pairs;
- each pair is the least positive solution of its class: it is not a positive solution times a power of `u`. -/
theorem C87_pellS (D N : Int) (hD : 0 < D) (hns : ¬ IsSquare D) (hl : D.natAbs.log2 < 2 ^ 63)
    (hN : N ≠ 0) (hlt : N * N < D) :
    ∃ (fuel0 r : ℕ) (x1 y1 : Int) (out : List (Int × Int)),
      (∀ fuel, fuel0 ≤ fuel → pellS fuel D N = some out ∧ pell1 fuel D 1 0 0 = some (r, x1, y1))
      ∧ (Sol D 1 x1 y1 ∧ ∀ x y, Sol D 1 x y → x1 ≤ x ∧ y1 ≤ y)
      ∧ (∀ x y, Sol D N x y ↔ ∃ v ∈ out, ∃ k : ℕ, (⟨x, y⟩ : ℤ√D) = ⟨v.1, v.2⟩ * ⟨x1, y1⟩ ^ k)
      ∧ out.Pairwise (fun v w => ∀ j k : ℕ, (⟨v.1, v.2⟩ : ℤ√D) * ⟨x1, y1⟩ ^ j ≠ ⟨w.1, w.2⟩ * ⟨x1, y1⟩ ^ k)
      ∧ ∀ v ∈ out, ∀ x y, Sol D N x y → ∀ k : ℕ, (⟨v.1, v.2⟩ : ℤ√D) = ⟨x, y⟩ * ⟨x1, y1⟩ ^ k → k = 0 := by
  have hB := between_sqrtT D hD hns hl
  obtain ⟨r, l, hp⟩ := exists_isPeriod hB one_ne_zero (dvd_one D)
  have hr := r_eq_one hB hp
  subst hr
  have h1 := hp.l1
  have habs : |N| ≤ Base.sqrtT D := by
    rw [abs_le]
    exact (lt_of_sq_lt hB N).mp hlt
  generalize hs : Base.sqrtT D = s at hB hp habs
  -- L is the even one of l, 2 l
  obtain ⟨c, hc, hcL⟩ : ∃ c, c = unitExp l 1 ∧ (c * l) % 2 = 0 := by
    refine ⟨_, rfl, ?_⟩
    rw [unitExp]
    by_cases hodd : l % 2 = 1
    · rw [if_pos ⟨hodd, rfl⟩]; omega
    · rw [if_neg (by omega)]; omega
  have hc1 : 1 ≤ c := by rw [hc, unitExp]; split <;> omega
  have hcl : 1 ≤ c * l := Nat.mul_pos hc1 h1
  have hg := generates hB hp (Or.inl rfl : (1 : Int) = 1 ∨ (1 : Int) = -1) (by omega)
  rw [← hc] at hg
  have heta : conv D s (l + 1) ^ c = conv D s (c * l + 1) := (conv_pow hB hp c).symm
  have hform : (⟨(conv D s (l + 1) ^ c).re, (conv D s (l + 1) ^ c).im⟩ : ℤ√D) = conv D s (c * l + 1) := heta
  -- the elements, as multiples of convergents
  have helt := elt_iff hB hN habs hl
  have hmem : ∀ v, v ∈ (List.range' 0 (c * l)).filterMap (elt D s N) ↔ ∃ i, i < c * l ∧ ∃ f, 0 < f
      ∧ f * f * ((-1) ^ (i + 1) * sQ D s 0 1 (i + 1)) = N ∧ v = (f * (conv D s (i + 2)).re, f * (conv D s (i + 2)).im) := by
    intro v
    rw [List.mem_filterMap]
    constructor
    · rintro ⟨i, hi, he⟩
      rw [List.mem_range'_1] at hi
      exact ⟨i, by omega, (helt i v).mp he⟩
    · rintro ⟨i, hi, he⟩
      exact ⟨i, by rw [List.mem_range'_1]; omega, (helt i v).mpr he⟩
  have hscale : ∀ (f : Int) (i k : ℕ),
      (⟨f * (conv D s (i + 2)).re, f * (conv D s (i + 2)).im⟩ : ℤ√D) * conv D s (c * l + 1) ^ k
        = ⟨f * (conv D s (k * (c * l) + i + 2)).re, f * (conv D s (k * (c * l) + i + 2)).im⟩ := by
    intro f i k
    rw [← conv_mulL hB hp c k i]
    apply Zsqrtd.ext
    · simp only [Zsqrtd.re_mul]; ring
    · simp only [Zsqrtd.im_mul]; ring
  have hpar : ∀ k i : ℕ, (-1 : Int) ^ (k * (c * l) + i + 1) = (-1) ^ (i + 1) := by
    intro k i
    rw [Nat.add_assoc, pow_add]
    have : Even (k * (c * l)) := Nat.even_mul.mpr (Or.inr (Nat.even_iff.mpr hcL))
    rw [this.neg_one_pow, one_mul]
  have hQper : ∀ k i : ℕ, sQ D s 0 1 (k * (c * l) + i + 1) = sQ D s 0 1 (i + 1) := by
    intro k i
    have := (hp.periodic hB one_ne_zero (dvd_one D) (k * c) (i + 1) (by omega)).2.1
    rw [← this]
    congr 1
    ring
  have hsolof : ∀ (f : Int) (i : ℕ), 0 < f → f * f * ((-1) ^ (i + 1) * sQ D s 0 1 (i + 1)) = N →
      Sol D N (f * (conv D s (i + 2)).re) (f * (conv D s (i + 2)).im) := by
    intro f i hf he
    obtain ⟨-, -, g1, g2⟩ := conv_pos hB i
    obtain ⟨n1, -⟩ := conv_norms hB (i + 1)
    refine ⟨by nlinarith, by nlinarith, ?_⟩
    rw [← he, ← n1]
    simp only [conv]
    ring
  have hall : ∀ x y, Sol D N x y ↔ ∃ v ∈ (List.range' 0 (c * l)).filterMap (elt D s N), ∃ k : ℕ,
      (⟨x, y⟩ : ℤ√D) = ⟨v.1, v.2⟩ * conv D s (c * l + 1) ^ k := by
    intro x y
    constructor
    · rintro ⟨hx, hy, he⟩
      have hg0 : 0 < (Int.gcd x y : Int) := by
        have := Int.gcd_pos_of_ne_zero_left y (show x ≠ 0 by omega)
        exact_mod_cast this
      set g : Int := (Int.gcd x y : Int) with hgdef
      obtain ⟨x', hx'⟩ : g ∣ x := Int.gcd_dvd_left ..
      obtain ⟨y', hy'⟩ : g ∣ y := Int.gcd_dvd_right ..
      have hcop : IsCoprime x' y' := by
        rw [Int.isCoprime_iff_gcd_eq_one]
        have : Int.gcd x y = Int.gcd x y * Int.gcd x' y' := by
          conv_lhs => rw [hx', hy', Int.gcd_mul_left]
          rw [hgdef, Int.natAbs_natCast]
        have hp0 : 0 < Int.gcd x y := by rw [hgdef] at hg0; exact_mod_cast hg0
        exact Nat.eq_of_mul_eq_mul_left hp0 (by omega)
      have hx0 : 0 < x' := by by_contra hneg; push Not at hneg; nlinarith
      have hy0 : 0 < y' := by by_contra hneg; push Not at hneg; nlinarith
      have hN' : N = g * g * (x' * x' - D * (y' * y')) := by rw [← he, hx', hy']; ring
      obtain ⟨n, hn⟩ := exists_conv hB x' y' hx0 hy0 hcop (by
        have e : |N| = g * g * |x' * x' - D * (y' * y')| := by
          rw [hN', abs_mul, abs_mul, abs_of_pos hg0]
        have := abs_nonneg (x' * x' - D * (y' * y'))
        have : 1 ≤ g * g := by nlinarith
        nlinarith)
      -- n = k (c l) + i
      refine ⟨(g * (conv D s (n % (c * l) + 2)).re, g * (conv D s (n % (c * l) + 2)).im), ?_, n / (c * l), ?_⟩
      · rw [hmem]
        refine ⟨n % (c * l), Nat.mod_lt _ (by omega), g, hg0, ?_, rfl⟩
        obtain ⟨n1, -⟩ := conv_norms hB (n + 1)
        have ex : lin (sa D s 0 1) 0 1 (n + 1 + 1) = x' := congrArg Zsqrtd.re hn
        have ey : lin (sa D s 0 1) 1 0 (n + 1 + 1) = y' := congrArg Zsqrtd.im hn
        rw [ex, ey] at n1
        have e1 := hpar (n / (c * l)) (n % (c * l))
        have e2 := hQper (n / (c * l)) (n % (c * l))
        rw [show n / (c * l) * (c * l) + n % (c * l) + 1 = n + 1 by rw [Nat.div_add_mod']] at e1 e2
        rw [← e1, ← e2, ← n1, hN']
      · rw [hscale, Nat.div_add_mod', hn]
        apply Zsqrtd.ext
        · exact hx'
        · exact hy'
    · rintro ⟨v, hv, k, e⟩
      rw [hmem] at hv
      obtain ⟨i, hi, f, hf, he, rfl⟩ := hv
      rw [hscale] at e
      have hx : x = f * (conv D s (k * (c * l) + i + 2)).re := congrArg Zsqrtd.re e
      have hy : y = f * (conv D s (k * (c * l) + i + 2)).im := congrArg Zsqrtd.im e
      rw [hx, hy]
      apply hsolof f _ hf
      rw [hpar, hQper, he]
  -- equal products come from the same index
  have hindex : ∀ (f f' : Int) (i i' j k : ℕ), 0 < f → 0 < f' →
      (⟨f * (conv D s (i + 2)).re, f * (conv D s (i + 2)).im⟩ : ℤ√D) * conv D s (c * l + 1) ^ j
        = (⟨f' * (conv D s (i' + 2)).re, f' * (conv D s (i' + 2)).im⟩ : ℤ√D) * conv D s (c * l + 1) ^ k →
      j * (c * l) + i = k * (c * l) + i' := by
    intro f f' i i' j k hf hf' he
    rw [hscale, hscale] at he
    have hx := congrArg Zsqrtd.re he
    have hy := congrArg Zsqrtd.im he
    simp only at hx hy
    have hff := scale_inj hf hf' (conv_coprime D s _) (conv_coprime D s _) hx hy
    rw [hff] at hx hy
    apply conv_inj hB
    apply Zsqrtd.ext
    · exact mul_left_cancel₀ hf'.ne' hx
    · exact mul_left_cancel₀ hf'.ne' hy
  refine ⟨1 + l, l, (conv D s (l + 1) ^ c).re, (conv D s (l + 1) ^ c).im,
    (List.range' 0 (c * l)).filterMap (elt D s N), ?_, ⟨hg.sol, hg.least hB⟩, ?_, ?_, ?_⟩
  · intro fuel hf
    have hs := hs.symm
    constructor
    · have hq : rd (tabAt D s 0 1 (1 + l)).Q l = some 1 := by
        rw [tabAt, rd_map_range (by omega), (one_iff hB hp l).mpr dvd_rfl]
      rw [pellS, pqa_first hB hs one_ne_zero (dvd_one D) hp fuel hf]
      simp only [Option.bind_eq_bind, Option.bind_some]
      rw [hq]
      simp only [Option.bind_some]
      by_cases hodd : l % 2 = 1
      · have hc2 : c = 2 := by rw [hc, unitExp, if_pos ⟨hodd, rfl⟩]
        rw [if_pos (Or.inl hodd),
          pqa_again hB hs one_ne_zero (dvd_one D) hp (1 + l) (by omega) (by omega) fuel (by omega)]
        simp only [Option.bind_some]
        rw [hc2, pellSLoop_eq hB N (1 + l + l) (l * 2) 0 (by omega), mul_comm l 2]
      · have hc2 : c = 1 := by rw [hc, unitExp, if_neg (by omega)]
        rw [if_neg (by simp [hodd]), hc2, one_mul]
        exact pellSLoop_eq hB N (1 + l) l 0 (by omega)
    · rw [pell1_run hB hs hp (Or.inl rfl) 0 0 fuel hf, if_neg (by omega), ← hc]
  · intro x y
    rw [hform]
    exact hall x y
  · rw [hform, List.pairwise_filterMap]
    have : (List.range' 0 (c * l)).Pairwise (fun a b => a < b ∧ b < c * l) := by
      rw [← List.range_eq_range']
      rw [List.pairwise_iff_getElem]
      intro i j hi hj hij
      simp only [List.length_range] at hi hj
      simp only [List.getElem_range]
      exact ⟨hij, hj⟩
    refine this.imp ?_
    rintro i i' ⟨hlt', hL⟩ v hv w hw j k he
    obtain ⟨f, hf, -, rfl⟩ := (helt i v).mp hv
    obtain ⟨f', hf', -, rfl⟩ := (helt i' w).mp hw
    have := hindex f f' i i' j k hf hf' he
    have e1 : (j * (c * l) + i) % (c * l) = i := by
      rw [Nat.add_comm, Nat.add_mul_mod_self_right, Nat.mod_eq_of_lt (by omega)]
    have e2 : (k * (c * l) + i') % (c * l) = i' := by
      rw [Nat.add_comm, Nat.add_mul_mod_self_right, Nat.mod_eq_of_lt (by omega)]
    rw [this, e2] at e1
    omega
  · intro v hv x y hsol k he
    rw [hform] at he
    obtain ⟨w, hw, j, e⟩ := (hall x y).mp hsol
    rw [e, mul_assoc, ← pow_add] at he
    rw [hmem] at hv hw
    obtain ⟨i, hi, f, hf, -, rfl⟩ := hv
    obtain ⟨i', hi', f', hf', -, rfl⟩ := hw
    have := hindex f f' i i' 0 (j + k) hf hf' (by rw [pow_zero, mul_one]; exact he)
    rw [zero_mul, zero_add] at this
    by_contra hk
    have : c * l ≤ (j + k) * (c * l) := Nat.le_mul_of_pos_left _ (by omega)
    omega

set_option maxRecDepth 100000 in
example : pellS 20 13 3 = some [(4, 1), (256, 71)] ∧ pellS 20 13 (-3) = some [(7, 2), (137, 38)]
    ∧ pellS 20 19 4 = some [(340, 78)] := by decide +kernel

example : Sol 13 3 4 1 ∧ Sol 13 3 256 71 := by refine ⟨⟨?_, ?_, ?_⟩, ⟨?_, ?_, ?_⟩⟩ <;> decide

end Altruct.Pell
