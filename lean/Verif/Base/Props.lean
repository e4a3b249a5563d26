/-
Properties C03, C04, C05 about the model in `Verif.Base.Model`.
-/
import Verif.Base.Model
import Mathlib.Algebra.Group.Basic
import Mathlib.Algebra.Order.Group.Int
import Mathlib.Data.Int.GCD
import Mathlib.Tactic.Ring
import Mathlib.Tactic.Linarith
import Mathlib.Tactic.NormNum
import Mathlib.Data.Rat.Floor

namespace Altruct.Base

/-! ## C04 exponentiation by squaring -/

theorem powLoop_eq {M : Type*} [Monoid M] (n : Nat) :
    ∀ (r x : M), powLoop r x (n : Int) = r * x ^ n := by
  induction n using Nat.strongRecOn with
  | _ n ih =>
    intro r x
    rw [powLoop]
    by_cases hn : n = 0
    · subst hn; simp
    · have h1 : ((n : Int) > 0) := by omega
      rw [if_pos h1]
      have h2 : ((n : Int).tdiv 2) = ((n / 2 : Nat) : Int) := by
        rw [Int.tdiv_eq_ediv_of_nonneg (by omega)]; omega
      have h3 : ((n : Int).tmod 2) = ((n % 2 : Nat) : Int) := by
        rw [Int.tmod_eq_emod_of_nonneg (by omega)]; omega
      rw [h2, h3, ih (n / 2) (by omega)]
      rcases Nat.mod_two_eq_zero_or_one n with h | h
      · rw [h]
        have : n = 2 * (n / 2) := by omega
        conv_rhs => rw [this, pow_mul]
        simp [pow_two]
      · rw [h]
        have : n = 2 * (n / 2) + 1 := by omega
        conv_rhs => rw [this, pow_succ', pow_mul]
        simp [pow_two, mul_assoc]

/-- C04: `powT(x, n)` is the `n`-fold product of `x`, in every monoid. -/
theorem C04_powT {M : Type*} [Monoid M] (x : M) (n : Nat) : powT x (n : Int) = x ^ n := by
  rw [powT, powLoop_eq, one_mul]

/-- C04: non-positive exponents give the identity. -/
theorem C04_powT_nonpos {M : Type*} [Monoid M] (x : M) (n : Int) (h : n ≤ 0) : powT x n = 1 := by
  rw [powT, powLoop, if_neg (by omega)]

example : powT (3 : Int) 5 = 243 := by
  have := C04_powT (3 : Int) 5
  norm_num at this
  exact this

/-! ## C03 gcd, extended gcd, lcm -/

theorem gcd_natAbs (a b : Int) : (gcd a b).natAbs = Int.gcd a b := by
  fun_induction gcd a b with
  | case1 b => simp
  | case2 a b h ih =>
    rw [ih, Int.gcd_def, Int.natAbs_tmod, Int.gcd_def, Nat.gcd_rec a.natAbs b.natAbs]

/-- C03: `gcd(a, b)` divides both arguments. -/
theorem C03_gcd_dvd (a b : Int) : gcd a b ∣ a ∧ gcd a b ∣ b := by
  constructor
  · rw [← Int.natAbs_dvd_natAbs, gcd_natAbs]; exact Nat.gcd_dvd_left _ _
  · rw [← Int.natAbs_dvd_natAbs, gcd_natAbs]; exact Nat.gcd_dvd_right _ _

/-- C03: every common divisor divides `gcd(a, b)`. -/
theorem C03_gcd_greatest (a b d : Int) (ha : d ∣ a) (hb : d ∣ b) : d ∣ gcd a b := by
  rw [← Int.natAbs_dvd_natAbs] at *
  rw [gcd_natAbs]; exact Nat.dvd_gcd ha hb

theorem gcd_nonneg (a b : Int) (ha : 0 ≤ a) (hb : 0 ≤ b) : 0 ≤ gcd a b := by
  fun_induction gcd a b with
  | case1 b => exact hb
  | case2 a b h ih => exact ih (Int.tmod_nonneg _ hb) ha

/-- C03: on non-negative arguments the sign is right: `gcd` is the usual gcd. -/
theorem C03_gcd_nonneg (a b : Int) (ha : 0 ≤ a) (hb : 0 ≤ b) : gcd a b = Int.gcd a b := by
  have h := gcd_natAbs a b
  have h0 := gcd_nonneg a b ha hb
  omega

/-- The documented caveat is real: with negative input the result may be negative. -/
theorem C03_gcd_sign_caveat : gcd 4 (-6) = -2 := by decide +kernel

theorem gcdExLoop_spec (a b : Int) (s : GcdEx)
    (hg : s.g = a * s.xn + b * s.yn) (hh : s.h = a * s.xo + b * s.yo) :
    (gcdExLoop s).g = a * (gcdExLoop s).xn + b * (gcdExLoop s).yn ∧
    (gcdExLoop s).g.natAbs = Int.gcd s.g s.h := by
  fun_induction gcdExLoop s with
  | case1 s h => simp [hg, h]
  | case2 s h q ih =>
    have e : s.g - q * s.h = s.g.tmod s.h := by
      have := Int.tdiv_mul_add_tmod s.g s.h
      simp only [q]; omega
    have := ih hh (by simp only; rw [hg, hh]; ring)
    refine ⟨this.1, ?_⟩
    rw [this.2]
    show Int.gcd s.h (s.g - q * s.h) = _
    rw [e, Int.gcd_def, Int.natAbs_tmod, Int.gcd_def, Nat.gcd_comm s.g.natAbs]
    exact (Nat.gcd_comm _ _).trans (Nat.gcd_rec _ _).symm

/-- C03: `gcd_ex` returns Bezout cofactors. -/
theorem C03_gcd_ex_bezout (a b : Int) :
    (gcdEx a b).1 = a * (gcdEx a b).2.1 + b * (gcdEx a b).2.2.1 := by
  have := gcdExLoop_spec a b { g := a, h := b, xo := 0, xn := 1, yo := 1, yn := 0, i := 0 }
    (by simp) (by simp)
  simpa [gcdEx] using this.1

/-- C03: the value returned by `gcd_ex` is a greatest common divisor. -/
theorem C03_gcd_ex_gcd (a b : Int) :
    (gcdEx a b).1 ∣ a ∧ (gcdEx a b).1 ∣ b ∧ ∀ d, d ∣ a → d ∣ b → d ∣ (gcdEx a b).1 := by
  have h : (gcdEx a b).1.natAbs = Int.gcd a b := by
    have := gcdExLoop_spec a b { g := a, h := b, xo := 0, xn := 1, yo := 1, yn := 0, i := 0 }
      (by simp) (by simp)
    simpa [gcdEx] using this.2
  refine ⟨?_, ?_, ?_⟩
  · rw [← Int.natAbs_dvd_natAbs, h]; exact Nat.gcd_dvd_left _ _
  · rw [← Int.natAbs_dvd_natAbs, h]; exact Nat.gcd_dvd_right _ _
  · intro d ha hb
    rw [← Int.natAbs_dvd_natAbs] at *
    rw [h]; exact Nat.dvd_gcd ha hb

theorem gcdExLoop_nonneg (s : GcdEx) (hg : 0 ≤ s.g) (hh : 0 ≤ s.h) : 0 ≤ (gcdExLoop s).g := by
  fun_induction gcdExLoop s with
  | case1 s h => exact hg
  | case2 s h q ih =>
    apply ih hh
    have e : s.g - q * s.h = s.g.tmod s.h := by
      have := Int.tdiv_mul_add_tmod s.g s.h
      simp only [q]; omega
    simp only; rw [e]; exact Int.tmod_nonneg _ hg

/-- C03: for non-negative arguments `gcd_ex` and `gcd` return the same value. -/
theorem C03_gcd_ex_eq_gcd (a b : Int) (ha : 0 ≤ a) (hb : 0 ≤ b) : (gcdEx a b).1 = gcd a b := by
  have h1 : (gcdEx a b).1.natAbs = Int.gcd a b := by
    have := gcdExLoop_spec a b { g := a, h := b, xo := 0, xn := 1, yo := 1, yn := 0, i := 0 }
      (by simp) (by simp)
    simpa [gcdEx] using this.2
  have h2 : 0 ≤ (gcdEx a b).1 := by
    have := gcdExLoop_nonneg { g := a, h := b, xo := 0, xn := 1, yo := 1, yn := 0, i := 0 } ha hb
    simpa [gcdEx] using this
  rw [C03_gcd_nonneg a b ha hb]; omega

example : gcdEx 240 46 = (2, -9, 47, 5) := by decide +kernel

/-- C03: unless both arguments are zero (where the code divides by zero, UB),
`lcm` is defined and is a least common multiple: a common multiple that divides
every common multiple. -/
theorem C03_lcm (a b : Int) (h : ¬ (a = 0 ∧ b = 0)) :
    ∃ l, lcm a b = some l ∧ a ∣ l ∧ b ∣ l ∧ ∀ m, a ∣ m → b ∣ m → l ∣ m := by
  have hg : gcd a b ≠ 0 := by
    intro h0
    have := gcd_natAbs a b
    rw [h0] at this
    have := Int.gcd_eq_zero_iff.mp this.symm
    exact h this
  refine ⟨_, by rw [lcm, if_neg hg], ?_, ?_, ?_⟩
  · exact Dvd.intro _ rfl
  · obtain ⟨c, hc⟩ := (C03_gcd_dvd a b).1
    refine ⟨c, ?_⟩
    have := Int.mul_tdiv_cancel' (C03_gcd_dvd a b).2
    calc a * b.tdiv (gcd a b) = (gcd a b * c) * b.tdiv (gcd a b) := by rw [← hc]
      _ = (gcd a b * b.tdiv (gcd a b)) * c := by ring
      _ = b * c := by rw [this]
  · intro m ha hb
    -- write a = g a', b = g b' with a', b' coprime
    have e1 := Int.mul_tdiv_cancel' (C03_gcd_dvd a b).2
    obtain ⟨k, hk⟩ := ha
    obtain ⟨l, hl⟩ := hb
    have hb2 := C03_gcd_ex_bezout a b
    obtain ⟨u, hu⟩ : (gcdEx a b).1 ∣ gcd a b := C03_gcd_greatest _ _ _ (C03_gcd_ex_gcd a b).1 (C03_gcd_ex_gcd a b).2.1
    -- gcd a b = a*x+b*y
    have hbz : gcd a b = a * ((gcdEx a b).2.1 * u) + b * ((gcdEx a b).2.2.1 * u) := by
      calc gcd a b = (gcdEx a b).1 * u := hu
        _ = _ := by rw [hb2]; ring
    obtain ⟨c, hc⟩ := (C03_gcd_dvd a b).1
    refine ⟨(gcdEx a b).2.1 * u * l + (gcdEx a b).2.2.1 * u * k, ?_⟩
    have key : gcd a b * m = gcd a b * (a * b.tdiv (gcd a b) *
        ((gcdEx a b).2.1 * u * l + (gcdEx a b).2.2.1 * u * k)) := by
      calc gcd a b * m = (a * ((gcdEx a b).2.1 * u) + b * ((gcdEx a b).2.2.1 * u)) * m := by rw [← hbz]
        _ = a * ((gcdEx a b).2.1 * u) * (b * l) + b * ((gcdEx a b).2.2.1 * u) * (a * k) := by
            rw [add_mul]; congr 1
            · rw [hl]
            · rw [hk]
        _ = a * b * ((gcdEx a b).2.1 * u * l + (gcdEx a b).2.2.1 * u * k) := by ring
        _ = a * (gcd a b * b.tdiv (gcd a b)) * ((gcdEx a b).2.1 * u * l + (gcdEx a b).2.2.1 * u * k) := by rw [e1]
        _ = _ := by ring
    exact Int.eq_of_mul_eq_mul_left hg key

example : lcm 4 6 = some 12 := by decide +kernel
example : lcm 0 0 = none := by decide +kernel

/-! ## C05 rounding division -/

theorem gcdMaxLoop_spec (a b : Int) (ha : 0 ≤ a) (hb : 0 < b) (fuel k : Nat) (go g : Int) (n : Nat)
    (hg : 0 < g) (hgb : g ∣ b) (h0 : 0 ≤ go) (hga : g ∣ a ^ n)
    (hfix : go = g → gcd (g * a) b = g)
    (hk : b < g * 2 ^ k) (hf : k + 2 ≤ fuel) (hstart : go ≠ 0 → gcd (go * a) b = g) :
    ∃ r, gcdMaxLoop a b fuel go g = some r ∧ 0 < r ∧ r ∣ b ∧ (∃ n, r ∣ a ^ n) ∧
      gcd (r * a) b = r := by
  induction fuel generalizing k go g n with
  | zero => omega
  | succ fuel ih =>
    rw [gcdMaxLoop]
    split
    · rename_i h
      exact ⟨g, rfl, hg, hgb, ⟨n, hga⟩, hfix h⟩
    · rename_i h
      have e := C03_gcd_nonneg (g * a) b (mul_nonneg hg.le ha) hb.le
      have d1 := C03_gcd_dvd (g * a) b
      have d2 : g ∣ gcd (g * a) b := by
        rw [e]; exact Int.dvd_coe_gcd (Dvd.intro _ rfl) hgb
      have pos : 0 < gcd (g * a) b := by
        rw [e]; exact_mod_cast Int.gcd_pos_of_ne_zero_right _ (by omega)
      generalize hg' : gcd (g * a) b = g' at *
      have d3 : g' ∣ a ^ (n + 1) := by
        rw [pow_succ]; exact d1.1.trans (mul_dvd_mul_right hga a)
      by_cases hgg : g = g'
      · subst hgg
        cases fuel with
        | zero => omega
        | succ fuel =>
          rw [gcdMaxLoop, if_pos rfl]
          exact ⟨g, rfl, hg, hgb, ⟨n, hga⟩, hg'⟩
      · obtain ⟨c, rfl⟩ := d2
        have hc : 2 ≤ c := by
          by_contra hc
          have h1 : 0 < c := by
            by_contra hc'
            have : g * c ≤ 0 := mul_nonpos_of_nonneg_of_nonpos hg.le (not_lt.mp hc')
            omega
          have : c = 1 := by omega
          subst this; simp at hgg
        cases k with
        | zero =>
          have : g * c ≤ b := Int.le_of_dvd hb d1.2
          simp at hk
          nlinarith
        | succ k =>
          refine ih k g (g * c) (n + 1) pos d1.2 hg.le d3 (fun h => absurd h hgg)
            ?_ (by omega) (fun _ => hg')
          have : (0 : Int) < 2 ^ k := by positivity
          have h2 : g * 2 * 2 ^ k ≤ g * c * 2 ^ k :=
            mul_le_mul_of_nonneg_right (mul_le_mul_of_nonneg_left hc hg.le) this.le
          have h3 : (2 : Int) ^ (k + 1) = 2 * 2 ^ k := by ring
          rw [h3] at hk
          linarith

/-- C03: `gcd_max(a, b)` is the largest divisor of `b` made only of primes of `a`:
it divides `b` and a power of `a`, and the cofactor `b / g` is coprime to `a`. -/
theorem C03_gcd_max (a b : Int) (ha : 0 ≤ a) (hb : 0 < b) (fuel : Nat)
    (hf : b.natAbs.log2 + 3 ≤ fuel) :
    ∃ g c, gcdMax fuel a b = some g ∧ 0 < g ∧ b = g * c ∧ (∃ n, g ∣ a ^ n) ∧ Int.gcd a c = 1 := by
  have hlt : b < 1 * 2 ^ (b.natAbs.log2 + 1) := by
    have h : b.natAbs < 2 ^ (b.natAbs.log2 + 1) := Nat.lt_log2_self
    have h' : ((b.natAbs : Nat) : Int) < 2 ^ (b.natAbs.log2 + 1) := by exact_mod_cast h
    omega
  obtain ⟨r, h1, h2, ⟨c, rfl⟩, h4, h5⟩ := gcdMaxLoop_spec a b ha hb fuel (b.natAbs.log2 + 1) 0 1 0
    (by omega) (one_dvd _) (by omega) (by simp) (by simp) hlt (by omega) (by simp)
  refine ⟨r, c, ?_, h2, rfl, h4, ?_⟩
  · rw [gcdMax, if_neg (by omega), h1]
  · rw [C03_gcd_nonneg _ _ (mul_nonneg h2.le ha) hb.le, Int.gcd_mul_left] at h5
    have : r * (Int.gcd a c : Int) = r * 1 := by
      rw [mul_one]
      push_cast at h5
      rwa [abs_of_pos h2] at h5
    have := Int.eq_of_mul_eq_mul_left (by omega) this
    exact_mod_cast this

example : gcdMax 10 6 360 = some 72 := by decide +kernel


theorem abs_sign_swap (a b : Int) : ((if b < 0 then -a else a : Int) : ℚ) / ((if b < 0 then -b else b : Int) : ℚ)
    = (a : ℚ) / b := by
  split
  · push_cast; rw [neg_div_neg_eq]
  · rfl

theorem floor_char (a b q : Int) (hb : 0 < b) (h1 : b * q ≤ a) (h2 : a < b * (q + 1)) :
    ⌊(a : ℚ) / (b : ℚ)⌋ = q := by
  have hbq : (0 : ℚ) < b := by exact_mod_cast hb
  rw [Int.floor_eq_iff]
  constructor
  · rw [le_div_iff₀ hbq]; exact_mod_cast (by linarith [mul_comm b q] : q * b ≤ a)
  · rw [div_lt_iff₀ hbq]; exact_mod_cast (by linarith [mul_comm b (q + 1)] : a < (q + 1) * b)

theorem ceil_char (a b q : Int) (hb : 0 < b) (h1 : b * (q - 1) < a) (h2 : a ≤ b * q) :
    ⌈(a : ℚ) / (b : ℚ)⌉ = q := by
  have hbq : (0 : ℚ) < b := by exact_mod_cast hb
  rw [Int.ceil_eq_iff]
  constructor
  · rw [lt_div_iff₀ hbq]; exact_mod_cast (by linarith [mul_comm b (q - 1)] : (q - 1) * b < a)
  · rw [div_le_iff₀ hbq]; exact_mod_cast (by linarith [mul_comm b q] : a ≤ q * b)

/-- C++ division of a non-negative dividend by a positive divisor. -/
theorem tdiv_bounds (a b : Int) (ha : 0 ≤ a) (hb : 0 < b) :
    b * a.tdiv b ≤ a ∧ a < b * (a.tdiv b + 1) := by
  rw [Int.tdiv_eq_ediv_of_nonneg ha]
  have h1 := Int.mul_ediv_add_emod a b
  have h2 := Int.emod_lt_of_pos a hb
  have h3 := Int.emod_nonneg a (by omega : b ≠ 0)
  constructor <;> linarith

/-- C++ division of a non-positive dividend by a positive divisor. -/
theorem tdiv_bounds_neg (a b : Int) (ha : a ≤ 0) (hb : 0 < b) :
    a ≤ b * a.tdiv b ∧ b * (a.tdiv b - 1) < a := by
  have h := tdiv_bounds (-a) b (by omega) hb
  rw [Int.neg_tdiv] at h
  constructor <;> linarith [h.1, h.2]

/-- C05: `div_floor(a, b)` is the floor of the exact rational quotient. -/
theorem C05_div_floor (a b : Int) (hb : b ≠ 0) : divFloor a b = ⌊(a : ℚ) / (b : ℚ)⌋ := by
  rw [← abs_sign_swap a b, divFloor]
  have hb' : 0 < (if b < 0 then -b else b) := by split <;> omega
  generalize (if b < 0 then -a else a) = a' at *
  generalize (if b < 0 then -b else b) = b' at *
  symm
  apply floor_char _ _ _ hb'
  · split
    · have := (tdiv_bounds_neg (a' + 1) b' (by omega) hb').2
      linarith
    · exact (tdiv_bounds a' b' (by omega) hb').1
  · split
    · have := (tdiv_bounds_neg (a' + 1) b' (by omega) hb').1
      rw [sub_add_cancel]; omega
    · exact (tdiv_bounds a' b' (by omega) hb').2

example : divFloor (-7) 2 = -4 ∧ divFloor 7 (-2) = -4 ∧ divFloor (-8) (-2) = 4 := by decide

/-- C05: `div_ceil(a, b)` is the ceiling of the exact rational quotient. -/
theorem C05_div_ceil (a b : Int) (hb : b ≠ 0) : divCeil a b = ⌈(a : ℚ) / (b : ℚ)⌉ := by
  rw [← abs_sign_swap a b, divCeil]
  have hb' : 0 < (if b < 0 then -b else b) := by split <;> omega
  generalize (if b < 0 then -a else a) = a' at *
  generalize (if b < 0 then -b else b) = b' at *
  symm
  apply ceil_char _ _ _ hb'
  · split
    · have := (tdiv_bounds (a' - 1) b' (by omega) hb').1
      rw [add_sub_cancel_right]; omega
    · exact (tdiv_bounds_neg a' b' (by omega) hb').2
  · split
    · have := (tdiv_bounds (a' - 1) b' (by omega) hb').2
      linarith
    · exact (tdiv_bounds_neg a' b' (by omega) hb').1

example : divCeil (-7) 2 = -3 ∧ divCeil 7 (-2) = -3 ∧ divCeil 7 2 = 4 := by decide

theorem round_char (a b q : Int) (hb : 0 < b) (h1 : 2 * (a - b * q) ≤ b) (h2 : -b ≤ 2 * (a - b * q))
    (h3 : 0 < a → 2 * (a - b * q) ≠ b) (h4 : a ≤ 0 → -b ≠ 2 * (a - b * q)) :
    |(a : ℚ) / b - q| ≤ 1 / 2 ∧ (|(a : ℚ) / b - q| = 1 / 2 → |(a : ℚ) / b| ≤ |(q : ℚ)|) := by
  have hbq : (0 : ℚ) < b := by exact_mod_cast hb
  have k1 : (2 * (a - b * q) : ℚ) ≤ b := by exact_mod_cast h1
  have k2 : (-b : ℚ) ≤ 2 * (a - b * q) := by exact_mod_cast h2
  have e : (a : ℚ) / b - q = (a - b * q) / b := by field_simp
  refine ⟨?_, ?_⟩
  · rw [e, abs_le, le_div_iff₀ hbq, div_le_iff₀ hbq]
    constructor <;> linarith
  · rw [e]
    intro h
    by_cases ha : 0 < a
    · have haq : (0 : ℚ) < a := by exact_mod_cast ha
      have h5 : (a - b * q : ℚ) < 0 := by
        by_contra h6
        rw [abs_of_nonneg (div_nonneg (not_lt.mp h6) hbq.le), div_eq_iff hbq.ne'] at h
        apply h3 ha
        have : (2 * (a - b * q) : ℚ) = b := by linarith
        exact_mod_cast this
      rw [abs_of_pos (div_pos haq hbq)]
      refine le_trans ?_ (le_abs_self _)
      rw [div_le_iff₀ hbq]; linarith
    · have haq : (a : ℚ) ≤ 0 := by exact_mod_cast not_lt.mp ha
      have h5 : (0 : ℚ) < a - b * q := by
        by_contra h6
        rw [abs_of_nonpos (div_nonpos_of_nonpos_of_nonneg (not_lt.mp h6) hbq.le), ← neg_div,
          div_eq_iff hbq.ne'] at h
        apply h4 (not_lt.mp ha)
        have : (-b : ℚ) = 2 * (a - b * q) := by linarith
        exact_mod_cast this
      rw [abs_of_nonpos (div_nonpos_of_nonpos_of_nonneg haq hbq.le)]
      refine le_trans ?_ (neg_le_abs _)
      rw [neg_le_neg_iff, le_div_iff₀ hbq]; linarith

/-- C05: `div_round(a, b)` is a nearest integer to `a/b`, ties rounded away from zero. -/
theorem C05_div_round (a b : Int) (hb : b ≠ 0) :
    |(a : ℚ) / b - divRound a b| ≤ 1 / 2 ∧
    (|(a : ℚ) / b - divRound a b| = 1 / 2 → |(a : ℚ) / b| ≤ |(divRound a b : ℚ)|) := by
  rw [← abs_sign_swap a b, divRound]
  have hb' : 0 < (if b < 0 then -b else b) := by split <;> omega
  generalize (if b < 0 then -a else a) = a' at *
  generalize (if b < 0 then -b else b) = b' at *
  have h2 := tdiv_bounds b' 2 (by omega) (by omega)
  split
  · rename_i h
    have h1 := tdiv_bounds (a' + b'.tdiv 2) b' (by omega) hb'
    rw [mul_add] at h1
    apply round_char _ _ _ hb' <;> omega
  · have h1 := tdiv_bounds_neg (a' - b'.tdiv 2) b' (by omega) hb'
    rw [mul_sub] at h1
    apply round_char _ _ _ hb' <;> omega

example : divRound 7 2 = 4 ∧ divRound (-7) 2 = -4 ∧ divRound 7 3 = 2 ∧ divRound (-5) (-3) = 2 := by
  decide

/-- C05: for `a != 0`, `multiple(a, b)` is a multiple of `a`, and for `a > 0`
it is the least one that is `>= b`. -/
theorem C05_multiple (a b : Int) (ha : 0 < a) :
    a ∣ multiple a b ∧ b ≤ multiple a b ∧ ∀ m, a ∣ m → b ≤ m → multiple a b ≤ m := by
  have hq : (0 : ℚ) < a := by exact_mod_cast ha
  have hc := C05_div_ceil b a (by omega)
  refine ⟨Dvd.intro_left _ rfl, ?_, ?_⟩
  · have := Int.le_ceil ((b : ℚ) / a)
    rw [← hc, div_le_iff₀ hq] at this
    exact_mod_cast this
  · rintro m ⟨k, rfl⟩ hm
    have : divCeil b a ≤ k := by
      rw [hc, Int.ceil_le, div_le_iff₀ hq]
      exact_mod_cast (by linarith [mul_comm a k] : b ≤ k * a)
    rw [multiple, mul_comm]
    exact Int.mul_le_mul_of_nonneg_left this ha.le

example : multiple 7 15 = 21 ∧ multiple 7 (-15) = -14 := by decide

end Altruct.Base
