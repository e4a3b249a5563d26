/-
C111, second part: the Mertens functions from a table of prime counts.
-/
import Verif.Mertens.PiModel
import Verif.Mertens.Props
import Verif.SumMult.Props23

namespace Altruct.Mertens

open Finset
open ArithmeticFunction (moebius)
open Altruct.Maps (SqrtMap Key)
open Altruct.SumMult (AllPrimes Mult primeSum total Tb H sumMultiplicative)

variable {α : Type} [CommRing α]

theorem mu_prime {p : Nat} (hp : p.Prime) : (mu p : α) = -1 := by
  rw [mu, ArithmeticFunction.moebius_apply_prime hp]
  simp

theorem mult_mu_pow : Mult (mu (α := α)) (fun _ _ e => if 1 < e then 0 else -1) := by
  refine ⟨by simp [mu], fun a b _ _ h => ?_, fun p e hp => ?_⟩
  · rw [mu, mu, mu, ArithmeticFunction.isMultiplicative_moebius.map_mul_of_coprime h, Int.cast_mul]
  · rw [mu, ArithmeticFunction.moebius_apply_prime_pow hp (by omega)]
    by_cases he : e = 0
    · subst he
      simp
    · rw [if_pos (by omega), if_neg (by omega)]
      simp

theorem mult_muOdd_pow : Mult (muOdd (α := α)) (fun _ p e => if p = 2 ∨ 1 < e then 0 else -1) := by
  refine ⟨by simp [muOdd, mu], fun a b ha hb h => ?_, fun p e hp => ?_⟩
  · have hm : (mu (a * b) : α) = mu a * mu b := mult_mu_pow.mul a b ha hb h
    have ho : (a * b) % 2 = 1 ↔ a % 2 = 1 ∧ b % 2 = 1 := by rw [← Nat.odd_iff, ← Nat.odd_iff, ← Nat.odd_iff, Nat.odd_mul]
    rw [muOdd, muOdd, muOdd, if_congr ho rfl rfl, hm]
    by_cases h1 : a % 2 = 1
    · by_cases h2 : b % 2 = 1
      · rw [if_pos ⟨h1, h2⟩, if_pos h1, if_pos h2]
      · rw [if_neg (fun h => h2 h.2), if_neg h2, mul_zero]
    · rw [if_neg (fun h => h1 h.1), if_neg h1, zero_mul]
  · rcases hp.eq_two_or_odd with h2 | h2
    · subst h2
      have : ¬ 2 ^ (e + 1) % 2 = 1 := by rw [pow_succ]; omega
      rw [if_pos (Or.inl rfl), muOdd, if_neg this]
    · have : p ^ (e + 1) % 2 = 1 := Nat.odd_iff.mp (Odd.pow (Nat.odd_iff.mpr h2))
      rw [muOdd, if_pos this, ← mult_mu_pow.pow p e hp]
      exact if_congr (by omega) rfl rfl

theorem total_mu (k : Nat) : total (mu (α := α)) k = ((M k : Int) : α) := M_eq k
theorem total_muOdd (k : Nat) : total (muOdd (α := α)) k = ((Modd k : Int) : α) := Modd_eq k

/-- The number of primes up to `k`. -/
def primePi (k : Nat) : Nat := ((Icc 1 k).filter Nat.Prime).card

theorem primeSum_mu (k : Nat) : primeSum (mu (α := α)) k = -((primePi k : Nat) : α) := by
  rw [primeSum, Finset.sum_congr rfl (fun p hp => mu_prime (mem_filter.mp hp).2), sum_const, primePi, nsmul_eq_mul, mul_neg, mul_one]

theorem primeSum_muOdd (k : Nat) : primeSum (muOdd (α := α)) k = -((primePi k : Nat) : α) + if 2 ≤ k then 1 else 0 := by
  rw [primeSum, Finset.sum_congr rfl (g := fun p => (-1 : α) + if p = 2 then 1 else 0) (fun p hp => ?_), Finset.sum_add_distrib, sum_const, primePi, nsmul_eq_mul,
    mul_neg, mul_one, Finset.sum_ite_eq']
  · congr 1
    apply if_congr _ rfl rfl
    rw [mem_filter, mem_Icc]
    exact ⟨fun h => h.1.2, fun h => ⟨⟨by omega, h⟩, Nat.prime_two⟩⟩
  · have hp := (mem_filter.mp hp).2
    rw [muOdd]
    rcases hp.eq_two_or_odd with h2 | h2
    · subst h2
      rw [if_neg (by omega), if_pos rfl, neg_add_cancel]
    · rw [if_pos h2, mu_prime hp, if_neg (by omega), add_zero]

/-- The keys for which the results are defined: up to the square root, and the quotients of `n`. -/
def Point (n k : Nat) : Prop := 1 ≤ k ∧ (k ≤ Nat.sqrt n ∨ ∃ j, 1 ≤ j ∧ k = n / j)

/-- **C111**: `mertens` from a table of prime counts. -/
theorem C111_mertens_pi (sq cb : Nat → Nat) (n : Nat) (hn : 9 ≤ n) (hn2 : n < 2 ^ 62) (hsq : sq n = Nat.sqrt n) (hcb : cb n ^ 3 ≤ n ∧ n < (cb n + 1) ^ 3)
    (pi : Nat → Nat) (hpi : ∀ k, Point n k → pi k = primePi k)
    (pa : List Nat) (psz B : Nat) (T : AllPrimes pa psz B) (hB : Nat.sqrt n ≤ B) (hB2 : B ≤ n / cb n) (fuel : Nat) (hf : n < fuel) :
    ∃ s : SqrtMap α, mertensPi sq cb fuel n pi pa psz = some s ∧ ∀ k, Point n k → s.el k = some ((M k : Int) : α) := by
  obtain ⟨s, e, h⟩ := SumMult.C113_sum_multiplicative (mult_mu_pow (α := α)) sq cb n hn hn2 hsq hcb (fun k => -((pi k : Nat) : α))
    (fun k h1 hk => by
      change -((pi k : Nat) : α) = _
      rw [primeSum_mu, hpi k ⟨h1, hk⟩]) pa psz B T hB hB2 fuel hf
  exact ⟨s, e, fun k hk => by rw [h k hk.1 hk.2, total_mu]⟩

/-- **C111**: `mertens_odd` from a table of prime counts. -/
theorem C111_mertens_odd_pi (sq cb : Nat → Nat) (n : Nat) (hn : 9 ≤ n) (hn2 : n < 2 ^ 62) (hsq : sq n = Nat.sqrt n) (hcb : cb n ^ 3 ≤ n ∧ n < (cb n + 1) ^ 3)
    (pi : Nat → Nat) (hpi : ∀ k, Point n k → pi k = primePi k)
    (pa : List Nat) (psz B : Nat) (T : AllPrimes pa psz B) (hB : Nat.sqrt n ≤ B) (hB2 : B ≤ n / cb n) (fuel : Nat) (hf : n < fuel) :
    ∃ s : SqrtMap α, mertensOddPi sq cb fuel n pi pa psz = some s ∧ ∀ k, Point n k → s.el k = some ((Modd k : Int) : α) := by
  obtain ⟨s, e, h⟩ := SumMult.C113_sum_multiplicative (mult_muOdd_pow (α := α)) sq cb n hn hn2 hsq hcb (fun k => -((pi k : Nat) : α) + if 2 ≤ k then 1 else 0)
    (fun k h1 hk => by
      change -((pi k : Nat) : α) + _ = _
      rw [primeSum_muOdd, hpi k ⟨h1, hk⟩]) pa psz B T hB hB2 fuel hf
  exact ⟨s, e, fun k hk => by rw [h k hk.1 hk.2, total_muOdd]⟩

/-- Quotients by different small numbers differ. -/
theorem quot_ne {n q i j : Nat} (hi : i ≤ n / (q + 1)) (hq : n / (q + 1) ≤ q) (h1 : 1 ≤ j) (hj : j < i) : n / j ≠ n / i := by
  obtain ⟨a, rfl⟩ : ∃ a, i = a + 1 := ⟨i - 1, by omega⟩
  have h2 : q + 1 ≤ n / (a + 1) := by
    rw [Nat.le_div_iff_mul_le (by omega)] at hi ⊢
    rwa [mul_comm]
  have h3 : n / (a + 1) * (a + 1) ≤ n := Nat.div_mul_le_self n (a + 1)
  have h4 : n / (a + 1) + 1 ≤ n / a := by
    rw [Nat.le_div_iff_mul_le (by omega)]
    nlinarith
  have h5 := Nat.div_le_div_left (a := n) (show j ≤ a by omega) h1
  omega

theorem quot_large {n q j : Nat} (h1 : 1 ≤ j) (hj : j ≤ n / (q + 1)) : q + 1 ≤ n / j := by
  rw [Nat.le_div_iff_mul_le (by omega)] at hj ⊢
  rwa [mul_comm]

/-- **C111**: `mertens_even` from a table of prime counts. -/
theorem C111_mertens_even_pi (sq cb : Nat → Nat) (n : Nat) (hn : 9 ≤ n) (hn2 : n < 2 ^ 62) (hsq : sq n = Nat.sqrt n) (hcb : cb n ^ 3 ≤ n ∧ n < (cb n + 1) ^ 3)
    (pi : Nat → Nat) (hpi : ∀ k, Point n k → pi k = primePi k)
    (pa : List Nat) (psz B : Nat) (T : AllPrimes pa psz B) (hB : Nat.sqrt n ≤ B) (hB2 : B ≤ n / cb n) (fuel : Nat) (hf : n < fuel) :
    ∃ s : SqrtMap α, mertensEvenPi sq cb fuel n pi pa psz = some s ∧ ∀ k, Point n k → s.el k = some ((Meven k : Int) : α) := by
  have hq1 : 1 ≤ Nat.sqrt n := Nat.sqrt_pos.mpr (by omega)
  have hnq : n / (Nat.sqrt n + 1) ≤ Nat.sqrt n := Nat.le_of_lt_succ (Nat.div_lt_of_lt_mul (Nat.lt_succ_sqrt n))
  obtain ⟨s0, e0, g0, t0, h0⟩ := SumMult.sumMultiplicative_map (mult_mu_pow (α := α)) sq cb n hn hn2 hsq hcb (fun k => -((pi k : Nat) : α))
    (fun k h1 hk => by
      change -((pi k : Nat) : α) = _
      rw [primeSum_mu, hpi k ⟨h1, hk⟩]) pa psz B T hB hB2 fuel hf
  obtain ⟨s1, e1, h1⟩ := C111_mertens_odd_pi (α := α) sq cb n hn hn2 hsq hcb pi hpi pa psz B T hB hB2 fuel hf
  have hsub : ∀ k (s : SqrtMap α) (g : Nat → α), Point n k → Tb s (Nat.sqrt n) n g → g k = ((M k : Int) : α) →
      ∃ s', subAt s1 k s = some s' ∧ Tb s' (Nat.sqrt n) n (Function.update g k ((Meven k : Int) : α)) := by
    intro k s g hk t hg
    obtain ⟨s', e', t'⟩ := t.set hq1 hk.2 ((Meven k : Int) : α)
    refine ⟨s', ?_, t'⟩
    rw [subAt, t.el hq1 hk.2, Option.bind_some, h1 k hk, Option.bind_some, ← e', hg, even_add_odd, Int.cast_sub]
  obtain ⟨s2, e2, g2, t2, h2⟩ := forUp_spec (body := fun i (M0 : SqrtMap α) => subAt s1 i M0)
    (fun i s => ∃ g, Tb s (Nat.sqrt n) n g ∧ ∀ k, Point n k → g k = if k < i then ((Meven k : Int) : α) else ((M k : Int) : α))
    (a := 1) (n := Nat.sqrt n + 1) (s := s0) (by omega)
    ⟨g0, t0, fun k hk => by rw [if_neg (by have := hk.1; omega), h0 k hk.2 hk.1, total_mu]⟩
    (fun i s a b ⟨g, t, h⟩ => by
      have hp : Point n i := ⟨a, Or.inl (by omega)⟩
      obtain ⟨s', e', t'⟩ := hsub i s g hp t (by rw [h i hp, if_neg (by omega)])
      refine ⟨s', e', _, t', fun k hk => ?_⟩
      by_cases hki : k = i
      · subst hki
        rw [Function.update_self, if_pos (by omega)]
      · rw [Function.update_of_ne hki, h k hk]
        exact if_congr (by omega) rfl rfl)
  obtain ⟨s3, e3, g3, t3, h3⟩ := forUp_spec (body := fun i (M0 : SqrtMap α) => subAt s1 (n / i) M0)
    (fun i s => ∃ g, Tb s (Nat.sqrt n) n g ∧ (∀ k, Point n k → k ≤ Nat.sqrt n → g k = ((Meven k : Int) : α)) ∧
      ∀ j, 1 ≤ j → j ≤ n / (Nat.sqrt n + 1) → g (n / j) = if j < i then ((Meven (n / j) : Int) : α) else ((M (n / j) : Int) : α))
    (a := 1) (n := n / (Nat.sqrt n + 1) + 1) (s := s2) (Nat.le_add_left 1 _)
    ⟨g2, t2, fun k hk hkq => by rw [h2 k hk, if_pos (by omega)], fun j hj hj2 => by
      have hlt := quot_large hj hj2
      rw [if_neg (by omega), h2 _ ⟨by omega, Or.inr ⟨j, hj, rfl⟩⟩, if_neg (by omega)]⟩
    (fun i s a b ⟨g, t, h, h'⟩ => by
      have hi2 : i ≤ n / (Nat.sqrt n + 1) := Nat.le_of_lt_succ b
      have hlt := quot_large a hi2
      have hp : Point n (n / i) := ⟨by omega, Or.inr ⟨i, a, rfl⟩⟩
      obtain ⟨s', e', t'⟩ := hsub (n / i) s g hp t (by rw [h' i a hi2, if_neg (by omega)])
      refine ⟨s', e', _, t', fun k hk hkq => ?_, fun j hj hj2 => ?_⟩
      · rw [Function.update_of_ne (by omega), h k hk hkq]
      · by_cases hji : j = i
        · subst hji
          rw [Function.update_self, if_pos (by omega)]
        · have hne : n / j ≠ n / i := by
            rcases Nat.lt_or_ge j i with hc | hc
            · exact quot_ne hi2 hnq hj hc
            · exact (quot_ne hj2 hnq a (by omega)).symm
          rw [Function.update_of_ne hne, h' j hj hj2]
          exact if_congr (by omega) rfl rfl)
  refine ⟨s3, ?_, fun k hk => ?_⟩
  · rw [mertensEvenPi, e1, Option.bind_some, mertensPi, e0, Option.bind_some, hsq]
    simp only
    rw [e2, Option.bind_some, e3]
  · rw [t3.el hq1 hk.2]
    by_cases hkq : k ≤ Nat.sqrt n
    · rw [h3.1 k hk hkq]
    · obtain ⟨j, hj1, hj2, rfl⟩ := SumMult.key_hi (by omega : Nat.sqrt n < k) hk.2
      rw [h3.2 j hj1 hj2, if_pos (Nat.lt_succ_of_le hj2)]

/-- The three functions up to 30: the values at 30, 10 and 3. -/
example : let pi : Nat → Nat := fun x => [0, 0, 1, 2, 2, 3, 3, 4, 4, 4, 4, 5, 5, 6, 6, 6, 6, 7, 7, 8, 8, 8, 8, 9, 9, 9, 9, 9, 9, 10, 10].getD x 0
    let at3 : Option (SqrtMap Int) → Option (Int × Int × Int) := fun o => o.bind fun s => (s.el 30).bind fun a => (s.el 10).bind fun b => (s.el 3).map fun c => (a, b, c)
    at3 (mertensPi Nat.sqrt (fun _ => 3) 31 30 pi [2, 3, 5] 3) = some (-3, -1, -1) ∧
    at3 (mertensOddPi Nat.sqrt (fun _ => 3) 31 30 pi [2, 3, 5] 3) = some (-6, -2, 0) ∧
    at3 (mertensEvenPi Nat.sqrt (fun _ => 3) 31 30 pi [2, 3, 5] 3) = some (3, 1, -1) := by decide +kernel

end Altruct.Mertens
