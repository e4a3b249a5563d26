/-
C76: Cornacchia's algorithm.
-/
import Verif.Squares.Model
import Verif.NumTheory.Sqrt
import Verif.Base.RootProps
import Mathlib.NumberTheory.SumTwoSquares

namespace Altruct.Squares

open Altruct.Base (sqrtT IsFloorSqrt C01_sqrtT)
open Altruct.NumTheory (sqrtCipolla C64_sqrt_cipolla)

/-- A vector of the lattice whose first coordinate is smaller than the larger remainder has a second coordinate at least as
large as the cofactor of the smaller one. -/
theorem cofactor_min (p x z s t u V e : Int) (hp : 0 < p) (hx : 0 ≤ x) (hz : 0 < z) (hs : 0 ≤ s) (ht : 0 < t) (hu : 0 ≤ u) (huz : u < z)
    (hV : V ≠ 0) (he : e = 1 ∨ e = -1) (hdet : z * t + x * s = p) (h1 : p ∣ u * (e * t) - x * V) (h2 : p ∣ z * V + u * (e * s)) : t ≤ |V| := by
  obtain ⟨α', ha⟩ := h1
  obtain ⟨β', hb⟩ := h2
  have hee : e * e = 1 := by rcases he with h | h <;> rw [h] <;> norm_num
  obtain ⟨α, rfl⟩ : ∃ α, α' = e * α := ⟨e * α', by rw [← mul_assoc, hee, one_mul]⟩
  obtain ⟨β, rfl⟩ : ∃ β, β' = e * β := ⟨e * β', by rw [← mul_assoc, hee, one_mul]⟩
  have ha' : u * t - x * (e * V) = p * α := by
    have : e * (u * (e * t) - x * V) = e * (p * (e * α)) := by rw [ha]
    have e1 : e * (u * (e * t) - x * V) = (e * e) * (u * t) - x * (e * V) := by ring
    have e2 : e * (p * (e * α)) = (e * e) * (p * α) := by ring
    rw [e1, e2, hee] at this
    linarith
  have hb' : z * (e * V) + u * s = p * β := by
    have : e * (z * V + u * (e * s)) = e * (p * (e * β)) := by rw [hb]
    have e1 : e * (z * V + u * (e * s)) = z * (e * V) + (e * e) * (u * s) := by ring
    have e2 : e * (p * (e * β)) = (e * e) * (p * β) := by ring
    rw [e1, e2, hee] at this
    linarith
  have habs : |V| = |e * V| := by rcases he with h | h <;> rw [h] <;> simp
  have hW : e * V ≠ 0 := by
    intro h
    apply hV
    rcases he with h' | h' <;> rw [h'] at h <;> simpa using h
  rw [habs]
  generalize e * V = W at *
  -- u = α z + β x and W = β t - α s
  have hu' : u = α * z + β * x := by
    have : p * u = p * (α * z + β * x) := by linear_combination z * ha' + x * hb' - u * hdet
    exact mul_left_cancel₀ (by omega) this
  have hW' : W = β * t - α * s := by
    have : p * W = p * (β * t - α * s) := by linear_combination t * hb' - s * ha' - W * hdet
    exact mul_left_cancel₀ (by omega) this
  rcases lt_trichotomy β 0 with hβ | hβ | hβ
  · have hα : 0 ≤ α := by
      by_contra h
      have h3 : α * z < 0 := mul_neg_of_neg_of_pos (by omega) hz
      have h4 : β * x ≤ 0 := mul_nonpos_of_nonpos_of_nonneg (by omega) hx
      omega
    have h3 : β * t ≤ -t := by nlinarith
    have h4 : 0 ≤ α * s := mul_nonneg hα hs
    rw [abs_of_nonpos (by omega)]; omega
  · subst hβ
    have : u = α * z := by rw [hu']; ring
    have hα : α = 0 := by
      rcases lt_trichotomy α 0 with h | h | h
      · have : α * z < 0 := mul_neg_of_neg_of_pos h hz
        omega
      · exact h
      · have : z ≤ α * z := by nlinarith
        omega
    rw [hα] at hW'
    exact absurd (by rw [hW']; ring) hW
  · have hα : α ≤ 0 := by
      by_contra h
      have h3 : z ≤ α * z := by nlinarith
      have h4 : 0 ≤ β * x := mul_nonneg (by omega) hx
      omega
    have h3 : t ≤ β * t := by nlinarith
    have h4 : α * s ≤ 0 := mul_nonpos_of_nonpos_of_nonneg hα hs
    rw [abs_of_nonneg (by omega)]; omega

/-- The loop: `r0` is a square root of `-d`, `(u, v)` a solution with `u = V r0`, `V = ± v`. -/
theorem cornLoop_spec (p d r0 u V : Int) (hp : 1 < p) (hd : 0 < d) (hr0 : p ∣ r0 * r0 + d) (hu0 : 0 ≤ u) (huv : u * u + d * (V * V) = p)
    (hl : p ∣ u - V * r0) (hV : V ≠ 0) : ∀ (fuel : Nat) (x z s t e : Int), x < fuel → 0 ≤ x → x < z → 0 ≤ s → 0 < t → (e = 1 ∨ e = -1) → u < z →
    z * t + x * s = p → p ∣ x - e * t * r0 → p ∣ z + e * s * r0 →
    ∃ r y, cornLoop p fuel x z = some r ∧ 0 ≤ r ∧ 0 ≤ y ∧ r * r + d * (y * y) = p := by
  intro fuel
  induction fuel with
  | zero => intro x z s t e hf hx; push_cast at hf; omega
  | succ fuel ih =>
    intro x z s t e hf hx hxz hs ht he huz hdet h1 h2
    rw [cornLoop]
    by_cases hc : 0 < x ∧ (p - 1).tdiv x < x
    · rw [if_pos hc]
      have hx0 := hc.1
      rw [Int.tdiv_eq_ediv_of_nonneg (by omega)] at hc
      rw [Int.tmod_eq_emod_of_nonneg (by omega)]
      have hxx : p ≤ x * x := by
        have := Int.lt_mul_of_ediv_lt hx0 hc.2
        omega
      have hux : u < x := by
        by_contra h
        have h3 : x * x ≤ u * u := by nlinarith
        have h4 : 0 < V * V := mul_self_pos.mpr hV
        have h5 : 0 < d * (V * V) := mul_pos hd h4
        omega
      have hm := Int.emod_nonneg z (show x ≠ 0 by omega)
      have hm2 := Int.emod_lt_of_pos z hx0
      have hq : 0 ≤ z / x := Int.ediv_nonneg (by omega) hx
      have hdm := Int.mul_ediv_add_emod z x
      refine ih (z % x) x t (s + z / x * t) (-e) (by push_cast at hf; omega) hm hm2 (by omega) ?_ ?_ hux ?_ ?_ ?_
      · have : 1 ≤ z / x := by
          rw [Int.le_ediv_iff_mul_le hx0]; omega
        nlinarith
      · rcases he with h | h <;> rw [h] <;> simp
      · linear_combination hdet + t * hdm
      · have : z % x - -e * (s + z / x * t) * r0 = (z + e * s * r0) - z / x * (x - e * t * r0) := by linear_combination hdm
        rw [this]
        exact dvd_sub h2 (h1.mul_left _)
      · have : x + -e * t * r0 = x - e * t * r0 := by ring
        rw [this]; exact h1
    · rw [if_neg hc]
      have hxx : x * x < p := by
        by_cases hx0 : 0 < x
        · rw [Int.tdiv_eq_ediv_of_nonneg (by omega)] at hc
          have h3 : x ≤ (p - 1) / x := by
            by_contra h; exact hc ⟨hx0, by omega⟩
          rw [Int.le_ediv_iff_mul_le hx0] at h3
          omega
        · have : x = 0 := by omega
          rw [this]; omega
      have hee : e * e = 1 := by rcases he with h | h <;> rw [h] <;> norm_num
      have hmin := cofactor_min p x z s t u V e (by omega) hx (by omega) hs ht hu0 huz hV he hdet (by
        have : u * (e * t) - x * V = (u - V * r0) * (e * t) - (x - e * t * r0) * V := by ring
        rw [this]; exact dvd_sub (hl.mul_right _) (h1.mul_right _)) (by
        have : z * V + u * (e * s) = (z + e * s * r0) * V + (u - V * r0) * (e * s) := by ring
        rw [this]; exact dvd_add (h2.mul_right _) (hl.mul_right _))
      refine ⟨x, t, rfl, hx, by omega, ?_⟩
      have ht2 : t * t ≤ V * V := by
        rw [← abs_mul_abs_self V]
        exact mul_le_mul hmin hmin (by omega) (abs_nonneg V)
      have hd2 : d * (t * t) ≤ d * (V * V) := mul_le_mul_of_nonneg_left ht2 (by omega)
      have hdiv : p ∣ x * x + d * (t * t) := by
        have : x * x + d * (t * t) = (x - e * t * r0) * (x + e * t * r0) + t * t * ((e * e) * (r0 * r0) + d) := by ring
        rw [this, hee, one_mul]
        exact dvd_add (h1.mul_right _) (hr0.mul_left _)
      obtain ⟨k, hk⟩ := hdiv
      have hpos : 0 < d * (t * t) := mul_pos hd (mul_pos ht ht)
      have hu2 : 0 ≤ u * u := mul_self_nonneg u
      have hx2 : 0 ≤ x * x := mul_self_nonneg x
      have hk1 : 0 < k := by
        by_contra h
        have : p * k ≤ 0 := mul_nonpos_of_nonneg_of_nonpos (by omega) (by omega)
        omega
      have hk2 : k < 2 := by
        by_contra h
        have : p * 2 ≤ p * k := mul_le_mul_of_nonneg_left (by omega) (by omega)
        omega
      have : k = 1 := by omega
      rw [hk, this, mul_one]

theorem sqrt_sq (y : Int) (hy : 0 ≤ y) (hl : (y * y).natAbs.log2 < 2 ^ 63) : sqrtT (y * y) = y := by
  obtain ⟨h1, h2, h3⟩ := C01_sqrtT (y * y) (mul_self_nonneg y) hl
  have h4 : sqrtT (y * y) ≤ y := by
    by_contra h
    nlinarith
  have h5 : y < sqrtT (y * y) + 1 := by
    by_contra h
    nlinarith
  omega

/-- **C76**: if `x^2 + d y^2 = p` has a solution, `cornacchia(d, p)` returns one. -/
theorem C76_cornacchia (d : Int) (p : Nat) (hp : p.Prime) (hd : 0 < d) (hl : p.log2 < 2 ^ 63) (h : ∃ u v : Int, u * u + d * (v * v) = p) :
    ∃ x y, cornacchia d p = some (x, y) ∧ 0 ≤ x ∧ 0 ≤ y ∧ x * x + d * (y * y) = p := by
  have hpp : Prime (p : Int) := Nat.prime_iff_prime_int.mp hp
  have hp1 : (1 : Int) < p := by exact_mod_cast hp.one_lt
  obtain ⟨u, v, huv⟩ := h
  have hv : v ≠ 0 := by
    rintro rfl
    have h1 : (p : Int) ∣ u * u := ⟨1, by linarith⟩
    have h2 : (p : Int) ∣ u := by rcases hpp.dvd_or_dvd h1 with h | h <;> exact h
    obtain ⟨k, rfl⟩ := h2
    have h3 : (p : Int) * (p * (k * k)) = p * 1 := by linarith
    have h4 := mul_left_cancel₀ (by omega) h3
    have : (p : Int) ∣ 1 := ⟨k * k, h4.symm⟩
    exact hpp.not_dvd_one this
  have hvp : ¬ (p : Int) ∣ v := by
    rintro ⟨k, rfl⟩
    have hk : k ≠ 0 := by rintro rfl; simp at hv
    have hk2 : 1 ≤ k * k := by have : 0 < k * k := mul_self_pos.mpr hk
                               omega
    have h1 : (p : Int) * 1 < p * (p * (k * k)) := mul_lt_mul_of_pos_left (by nlinarith) (by omega)
    have h2 : p * k * (p * k) ≤ d * (p * k * (p * k)) := by nlinarith [mul_self_nonneg ((p : Int) * k)]
    have h3 : (p : Int) * k * (p * k) = p * (p * (k * k)) := by ring
    have := mul_self_nonneg u
    omega
  obtain ⟨r, er, hrp, hr⟩ := C64_sqrt_cipolla (-d) p hp (by
    have hc : IsCoprime v (p : Int) := by
      rw [isCoprime_comm]
      exact (Int.isCoprime_iff_gcd_eq_one.mpr (by
        rw [Int.gcd_eq_natAbs, Int.natAbs_natCast]
        exact (Nat.Prime.coprime_iff_not_dvd hp).mpr (fun h => hvp (Int.natCast_dvd.mpr h))))
    obtain ⟨a, b, hab⟩ := hc
    refine ⟨u * a, ?_⟩
    have : u * a * (u * a) - -d = a * a * (u * u + d * (v * v)) + d * ((1 - a * v) * (1 + a * v)) := by ring
    rw [this, huv]
    refine dvd_add (Dvd.intro_left _ rfl) (Dvd.dvd.mul_left (Dvd.dvd.mul_right ⟨b, by linarith⟩ _) _))
  rw [cornacchia, er, Option.bind_eq_bind, Option.bind_some]
  simp only []
  rw [Int.tdiv_eq_ediv_of_nonneg (by omega)]
  have hr0 : (p : Int) ∣ (r : Int) * r + d := by rwa [sub_neg_eq_add] at hr
  obtain ⟨x0, hx0, hx1, hx2, ex0⟩ : ∃ x0 : Int, 0 ≤ x0 ∧ x0 < p ∧ (p : Int) ∣ x0 * x0 + d ∧ (if (p : Int) / 2 < r then (p : Int) - r else r) = x0 := by
    by_cases hc : (p : Int) / 2 < r
    · refine ⟨p - r, by omega, by omega, ?_, if_pos hc⟩
      have : ((p : Int) - r) * (p - r) + d = p * (p - 2 * r) + (r * r + d) := by ring
      rw [this]
      exact dvd_add (Dvd.intro _ rfl) hr0
    · exact ⟨r, by omega, by omega, hr0, if_neg hc⟩
  rw [ex0]
  have hsplit : (p : Int) ∣ (|u| - v * x0) * (|u| - -v * x0) := by
    have : (|u| - v * x0) * (|u| - -v * x0) = (|u| * |u| + d * (v * v)) - v * v * (x0 * x0 + d) := by ring
    rw [this, abs_mul_abs_self, huv]
    exact dvd_sub (dvd_refl _) (hx2.mul_left _)
  obtain ⟨V, hVv, hVl⟩ : ∃ V : Int, V * V = v * v ∧ (p : Int) ∣ |u| - V * x0 := by
    rcases hpp.dvd_or_dvd hsplit with h | h
    · exact ⟨v, rfl, h⟩
    · exact ⟨-v, by ring, h⟩
  have hV : V ≠ 0 := by
    rintro rfl
    exact hv (mul_self_eq_zero.mp (by linarith))
  have hup : |u| < p := by
    have h1 : 0 < d * (v * v) := mul_pos hd (mul_self_pos.mpr hv)
    have h2 : |u| * |u| < p := by rw [abs_mul_abs_self]; omega
    by_contra h
    nlinarith [abs_nonneg u]
  obtain ⟨x, y, e, h1, h2, h3⟩ := cornLoop_spec p d x0 |u| V hp1 hd hx2 (abs_nonneg u) (by rw [abs_mul_abs_self, hVv]; exact huv) hVl hV (p + 2) x0 p 0 1 1
    (by push_cast; omega) hx0 hx1 (le_refl _) (by omega) (Or.inl rfl) hup (by ring) ⟨0, by ring⟩ ⟨1, by ring⟩
  rw [e, Option.bind_some, if_neg (by omega)]
  have hdiv : ((p : Int) - x * x).tdiv d = y * y := by
    rw [← h3, show x * x + d * (y * y) - x * x = d * (y * y) by ring, Int.mul_tdiv_cancel_left _ (by omega)]
  have hyp : y * y ≤ p := by nlinarith [mul_self_nonneg x, mul_self_nonneg y]
  refine ⟨x, y, ?_, h1, h2, h3⟩
  rw [hdiv, sqrt_sq y h2 ?_]
  refine lt_of_le_of_lt ?_ hl
  rw [Nat.log2_eq_log_two, Nat.log2_eq_log_two]
  refine Nat.log_mono_right ?_
  have := mul_self_nonneg y
  omega

/-- **C76**: `squares_r_prime(p)` writes a prime that is not 3 modulo 4 as a sum of two squares, the smaller one first. -/
theorem C76_prime (p : Nat) (hp : p.Prime) (h : p % 4 ≠ 3) (hl : p.log2 < 2 ^ 63) :
    ∃ a b, prime p = some (a, b) ∧ 0 < a ∧ a ≤ b ∧ a * a + b * b = p := by
  have : Fact p.Prime := ⟨hp⟩
  obtain ⟨u, v, huv⟩ := Nat.Prime.sq_add_sq h
  obtain ⟨x, y, e, h1, h2, h3⟩ := C76_cornacchia 1 p hp (by omega) hl ⟨u, v, by rw [← huv]; push_cast; ring⟩
  rw [one_mul] at h3
  have hns : ∀ z : Int, z * z ≠ p := by
    intro z hz
    have hpp : Prime (p : Int) := Nat.prime_iff_prime_int.mp hp
    have := hpp.irreducible.not_isSquare
    exact this ⟨z, hz.symm⟩
  have hx0 : x ≠ 0 := by rintro rfl; exact hns y (by linarith)
  have hy0 : y ≠ 0 := by rintro rfl; exact hns x (by linarith)
  rw [prime, e, Option.bind_eq_bind, Option.bind_some]
  simp only []
  by_cases hc : y < x
  · rw [if_pos hc]
    exact ⟨y, x, rfl, by omega, by omega, by linarith⟩
  · rw [if_neg hc]
    exact ⟨x, y, rfl, by omega, by omega, h3⟩

example : cornacchia 2 11 = some (3, 1) ∧ (∃ u v : Int, u * u + 2 * (v * v) = (11 : Nat)) := ⟨by decide +kernel, 3, 1, by norm_num⟩
example : prime 13 = some (2, 3) ∧ prime 2 = some (1, 1) := by decide +kernel

end Altruct.Squares
