/-
C01, C02: the fixed-width roots `isqrt`, `isqrtc`, `icbrt`, `icbrtc` and their
overflow behaviour.  The floating-point seed is an arbitrary value: the
correction loops make the answer independent of it.
-/
import Verif.Base.RootProps

namespace Altruct.Base

theorem i32_some (v : Int) (h1 : -2 ^ 31 ≤ v) (h2 : v < 2 ^ 31) : i32 v = some v := by
  rw [i32, if_pos ⟨h1, h2⟩]

theorem decLoop_spec (f : Int → Option Int) (g : Int → Int) (B x : Int) (hB : B < 2 ^ 31)
    (hf : ∀ q, 0 ≤ q → q ≤ B → f q = some (g q)) (h0 : g 0 ≤ x) (fuel : Nat) (q : Int)
    (hq : 0 ≤ q) (hqB : q ≤ B) (hfuel : q < fuel) :
    ∃ r, decLoop f x fuel q = some r ∧ 0 ≤ r ∧ r ≤ B ∧ g r ≤ x := by
  induction fuel generalizing q with
  | zero => omega
  | succ n ih =>
    rw [decLoop, hf q hq hqB, Option.bind_eq_bind, Option.bind_some]
    split
    · have hq1 : q ≠ 0 := by rintro rfl; omega
      rw [i32_some _ (by omega) (by omega), Option.bind_some]
      exact ih _ (by omega) (by omega) (by omega)
    · exact ⟨q, rfl, hq, hqB, by omega⟩

theorem incLoop_spec (f : Int → Option Int) (g : Int → Int) (B x : Int) (hB : B < 2 ^ 31)
    (hf : ∀ q, 0 ≤ q → q ≤ B → f q = some (g q)) (h0 : x < g B) (fuel : Nat) (q : Int)
    (hq : 0 ≤ q) (hqB : q ≤ B) (hgq : g q ≤ x) (hfuel : B - q < fuel) :
    ∃ r, incLoop f x fuel q = some r ∧ 0 ≤ r ∧ g r ≤ x ∧ x < g (r + 1) := by
  induction fuel generalizing q with
  | zero => omega
  | succ n ih =>
    have hne : q ≠ B := by rintro rfl; omega
    rw [incLoop, Option.bind_eq_bind, i32_some _ (by omega) (by omega), Option.bind_some,
      hf (q + 1) (by omega) (by omega), Option.bind_some]
    split
    · exact ih _ (by omega) (by omega) (by omega) (by omega)
    · exact ⟨q, rfl, hq, hgq, by omega⟩

theorem incLoopC_spec (f : Int → Option Int) (g : Int → Int) (B x : Int) (hB : B < 2 ^ 31)
    (hf : ∀ q, 0 ≤ q → q ≤ B → f q = some (g q)) (h0 : x ≤ g B) (fuel : Nat) (q : Int)
    (hq : 0 ≤ q) (hqB : q ≤ B) (hfuel : B - q < fuel) :
    ∃ r, incLoopC f x fuel q = some r ∧ 0 ≤ r ∧ r ≤ B ∧ x ≤ g r := by
  induction fuel generalizing q with
  | zero => omega
  | succ n ih =>
    rw [incLoopC, hf q hq hqB, Option.bind_eq_bind, Option.bind_some]
    split
    · have hne : q ≠ B := by rintro rfl; omega
      rw [i32_some _ (by omega) (by omega), Option.bind_some]
      exact ih _ (by omega) (by omega) (by omega)
    · exact ⟨q, rfl, hq, hqB, by omega⟩

theorem decLoopC_spec (f : Int → Option Int) (g : Int → Int) (B x : Int)
    (hf : ∀ q, 0 ≤ q → q ≤ B → f q = some (g q)) (fuel : Nat) (q : Int)
    (hq : 0 ≤ q) (hqB : q ≤ B) (hgq : x ≤ g q) (hfuel : q < fuel) :
    ∃ r, decLoopC f x fuel q = some r ∧ 0 ≤ r ∧ x ≤ g r ∧ (0 < r → g (r - 1) < x) := by
  induction fuel generalizing q with
  | zero => omega
  | succ n ih =>
    rw [decLoopC]
    split
    · rw [hf _ (by omega) (by omega), Option.bind_eq_bind, Option.bind_some]
      split
      · exact ih _ (by omega) (by omega) (by omega) (by omega)
      · exact ⟨q, rfl, hq, hgq, by omega⟩
    · exact ⟨q, rfl, hq, hgq, by omega⟩

theorem decLoopC'_spec (f : Int → Option Int) (g : Int → Int) (B x : Int) (hB : B < 2 ^ 31)
    (hf : ∀ q, -1 ≤ q → q ≤ B → f q = some (g q)) (h0 : g (-1) < x) (fuel : Nat) (q : Int)
    (hq : 0 ≤ q) (hqB : q ≤ B) (hgq : x ≤ g q) (hfuel : q < fuel) :
    ∃ r, decLoopC' f x fuel q = some r ∧ 0 ≤ r ∧ x ≤ g r ∧ g (r - 1) < x := by
  induction fuel generalizing q with
  | zero => omega
  | succ n ih =>
    rw [decLoopC', Option.bind_eq_bind, i32_some _ (by omega) (by omega), Option.bind_some,
      hf _ (by omega) (by omega), Option.bind_some]
    split
    · have hq1 : q ≠ 0 := by
        rintro rfl
        rename_i h; simp at h; omega
      exact ih _ (by omega) (by omega) (by omega) (by omega)
    · exact ⟨q, rfl, hq, hgq, by omega⟩

theorem isq_some (q : Int) (h0 : 0 ≤ q) (h1 : q ≤ 2 ^ 31 - 1) : isq q = some (q * q) := by
  rw [isq, i64, if_pos]
  constructor <;> nlinarith

theorem icb_some (q : Int) (h0 : -1 ≤ q) (h1 : q ≤ 2097151) : icb q = some (q * q * q) := by
  have a0 : 0 ≤ q * q := mul_self_nonneg q
  have a1 : q * q ≤ 2097151 * 2097151 := by nlinarith
  rw [icb, i64, if_pos (by constructor <;> omega), Option.bind_some, i64, if_pos]
  have b1 : q * q * q ≤ 2097151 * 2097151 * 2097151 := by
    by_cases h : 0 ≤ q
    · calc q * q * q ≤ 2097151 * 2097151 * q := Int.mul_le_mul_of_nonneg_right a1 h
        _ ≤ 2097151 * 2097151 * 2097151 := by omega
    · have : q = -1 := by omega
      subst this; norm_num
  have b2 : -1 ≤ q * q * q := by
    by_cases h : 0 ≤ q
    · have := mul_nonneg a0 h; omega
    · have : q = -1 := by omega
      subst this; norm_num
  constructor <;> omega

/-- C01: `isqrt(x)` is the floor of the square root, without overflow, whatever
value the floating-point seed has, for `0 <= x < (2^31 - 1)^2`. -/
theorem C01_isqrt_partial (x seed : Int) (fuel : Nat) (hx : 0 ≤ x)
    (hx2 : x < (2 ^ 31 - 1) * (2 ^ 31 - 1)) (hs : 0 ≤ seed) (hs2 : seed < 2 ^ 31)
    (hf : 2 ^ 31 ≤ fuel) :
    ∃ r, isqrt fuel seed x = some r ∧ IsFloorSqrt r x := by
  obtain ⟨q, h1, h2, h3, h4⟩ := decLoop_spec isq (fun q => q * q) (2 ^ 31 - 1) x (by omega)
    (fun q a b => isq_some q a b) (by simpa using hx) fuel seed hs (by omega) (by omega)
  obtain ⟨r, k1, k2, k3, k4⟩ := incLoop_spec isq (fun q => q * q) (2 ^ 31 - 1) x (by omega)
    (fun q a b => isq_some q a b) hx2 fuel q h2 h3 h4 (by omega)
  refine ⟨r, ?_, k2, k3, k4⟩
  rw [isqrt, h1, Option.bind_eq_bind, Option.bind_some, k1]

/-- The range in `C01_isqrt_partial` cannot be extended: from `(2^31-1)^2` on the
correct answer `2^31 - 1` makes the test `isq(q + 1)` overflow `int32_t`. -/
theorem C01_isqrt_overflow (fuel : Nat) :
    isqrt fuel (2 ^ 31 - 1) ((2 ^ 31 - 1) * (2 ^ 31 - 1)) = none := by
  cases fuel with
  | zero => rfl
  | succ n => simp [isqrt, decLoop, incLoop, isq, i64, i32]

/-- With a negative seed the search never comes back: no finite fuel is enough. -/
theorem C01_isqrt_negative_seed (fuel : Nat) : decLoop isq 0 fuel (-1) = none := by
  have key : ∀ (fuel : Nat) (q : Int), q < 0 → decLoop isq 0 fuel q = none := by
    intro fuel
    induction fuel with
    | zero => intros; rfl
    | succ n ih =>
      intro q hq
      rw [decLoop, isq]
      rcases h : i64 (q * q) with _ | s
      · rfl
      · have hs : s = q * q := by
          rw [i64] at h; split at h <;> simp_all
        rw [Option.bind_eq_bind, Option.bind_some, if_pos (by rw [hs]; nlinarith)]
        rcases h' : i32 (q - 1) with _ | q'
        · rfl
        · have hq' : q' = q - 1 := by
            rw [i32] at h'; split at h' <;> simp_all
          rw [Option.bind_some]
          exact ih q' (by omega)
  exact key fuel (-1) (by omega)

/-- C01: `isqrtc(x)` is the ceiling of the square root for `0 <= x <= (2^31-1)^2`. -/
theorem C01_isqrtc_partial (x seed : Int) (fuel : Nat) (_hx : 0 ≤ x)
    (hx2 : x ≤ (2 ^ 31 - 1) * (2 ^ 31 - 1)) (hs : 0 ≤ seed) (hs2 : seed < 2 ^ 31)
    (hf : 2 ^ 31 ≤ fuel) :
    ∃ r, isqrtc fuel seed x = some r ∧ IsCeilSqrt r x := by
  obtain ⟨q, h1, h2, h3, h4⟩ := incLoopC_spec isq (fun q => q * q) (2 ^ 31 - 1) x (by omega)
    (fun q a b => isq_some q a b) hx2 fuel seed hs (by omega) (by omega)
  obtain ⟨r, k1, k2, k3, k4⟩ := decLoopC_spec isq (fun q => q * q) (2 ^ 31 - 1) x
    (fun q a b => isq_some q a b) fuel q h2 h3 h4 (by omega)
  refine ⟨r, ?_, k2, k3, k4⟩
  rw [isqrtc, h1, Option.bind_eq_bind, Option.bind_some, k1]

/-- C02: `icbrt(x)` is the floor of the cube root, without overflow, for
`0 <= x < 2097151^3`. -/
theorem C02_icbrt_partial (x seed : Int) (fuel : Nat) (hx : 0 ≤ x)
    (hx2 : x < 2097151 * 2097151 * 2097151) (hs : 0 ≤ seed) (hs2 : seed ≤ 2097151)
    (hf : 2 ^ 21 ≤ fuel) :
    ∃ r, icbrt fuel seed x = some r ∧ IsFloorCbrt r x := by
  obtain ⟨q, h1, h2, h3, h4⟩ := decLoop_spec icb (fun q => q * q * q) 2097151 x (by omega)
    (fun q a b => icb_some q (by omega) b) (by simpa using hx) fuel seed hs (by omega) (by omega)
  obtain ⟨r, k1, k2, k3, k4⟩ := incLoop_spec icb (fun q => q * q * q) 2097151 x (by omega)
    (fun q a b => icb_some q (by omega) b) hx2 fuel q h2 h3 h4 (by omega)
  refine ⟨r, ?_, k2, k3, k4⟩
  rw [icbrt, h1, Option.bind_eq_bind, Option.bind_some, k1]

/-- The range in `C02_icbrt_partial` cannot be extended: `icb(2097152) = 2^63`. -/
theorem C02_icbrt_overflow (fuel : Nat) :
    icbrt fuel 2097151 (2097151 * 2097151 * 2097151) = none := by
  cases fuel with
  | zero => rfl
  | succ n => simp [icbrt, decLoop, incLoop, icb, i64, i32]

/-- C02: `icbrtc(x)` is the ceiling of the cube root for `0 <= x <= 2097151^3`. -/
theorem C02_icbrtc_partial (x seed : Int) (fuel : Nat) (hx : 0 ≤ x)
    (hx2 : x ≤ 2097151 * 2097151 * 2097151) (hs : 0 ≤ seed) (hs2 : seed ≤ 2097151)
    (hf : 2 ^ 21 ≤ fuel) :
    ∃ r, icbrtc fuel seed x = some r ∧ IsCeilCbrt r x := by
  obtain ⟨q, h1, h2, h3, h4⟩ := incLoopC_spec icb (fun q => q * q * q) 2097151 x (by omega)
    (fun q a b => icb_some q (by omega) b) hx2 fuel seed hs (by omega) (by omega)
  obtain ⟨r, k1, k2, k3, k4⟩ := decLoopC'_spec icb (fun q => q * q * q) 2097151 x (by omega)
    (fun q a b => icb_some q a b) (by simp; omega) fuel q h2 h3 h4 (by omega)
  refine ⟨r, ?_, k3, k4⟩
  rw [icbrtc, h1, Option.bind_eq_bind, Option.bind_some, k1]

/-- Hypotheses are met by concrete values with a wrong seed on either side. -/
example : isqrt 9 7 30 = some 5 ∧ isqrt 9 2 30 = some 5 ∧ isqrtc 9 3 30 = some 6 ∧
    icbrt 9 5 30 = some 3 ∧ icbrtc 9 0 30 = some 4 := by decide

end Altruct.Base
