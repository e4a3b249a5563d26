/-
Properties of `traverse_rough_numbers` and `sum_multiplicative`.
-/
import Verif.SumMult.Step3

namespace Altruct.SumMult

open Finset
open Altruct.Maps (SqrtMap Key)

variable {α : Type} [CommRing α]

/-- The result is a map that holds the sums for all its keys. -/
theorem sumMultiplicative_map {F : Nat → α} {f : α → Nat → Nat → α} (hF : Mult F f) (sq cb : Nat → Nat) (n : Nat) (hn : 9 ≤ n) (hn2 : n < 2 ^ 62)
    (hsq : sq n = Nat.sqrt n) (hcb : cb n ^ 3 ≤ n ∧ n < (cb n + 1) ^ 3) (s1 : Nat → α)
    (hs1 : ∀ k, 1 ≤ k → (k ≤ Nat.sqrt n ∨ ∃ j, 1 ≤ j ∧ k = n / j) → s1 k = primeSum F k)
    (pa : List Nat) (psz B : Nat) (T : AllPrimes pa psz B) (hB : Nat.sqrt n ≤ B) (hB2 : B ≤ n / cb n) (fuel : Nat) (hf : n < fuel) :
    ∃ s, sumMultiplicative sq cb s1 f fuel n pa psz = some s ∧
      H s (Nat.sqrt n) n (fun k => 1 ≤ k) (total F) := by
  set q := Nat.sqrt n with hq
  set c := cb n with hc
  have S : Sizes n q c B := ⟨hn, hq, by have := hcb.1; rwa [pow_succ, pow_two] at this, by have := hcb.2; rwa [pow_succ, pow_two] at this, hB, hB2⟩
  have hq3 := S.q3
  have hc2 := S.c2
  obtain ⟨j0, hj0, _⟩ := T.tab.all 2 Nat.prime_two (by omega)
  obtain ⟨pl, hpl, epl, hplp⟩ := T.get (show psz - 1 < psz by omega)
  rw [show psz - 1 + 1 = psz by omega] at epl
  have hplB := T.le _ _ (by omega) hpl
  have hh2 : 2 ≤ n / c / pl + 1 := by
    have : 1 ≤ n / c / pl := Nat.div_pos (by omega) hplp.pos
    omega
  have hBp : ∀ p, n / c / pl + 1 < p → (n / c - 1) / p ≤ B := by
    intro p hp
    have h1 : n / c < pl * (n / c / pl + 1) := Nat.lt_mul_div_succ (n / c) hplp.pos
    have h2 : pl * (n / c / pl + 1) ≤ pl * p := Nat.mul_le_mul_left _ (by omega)
    have h3 : (n / c - 1) / p < pl := by
      apply Nat.div_lt_of_lt_mul
      rw [mul_comm]
      omega
    omega
  obtain ⟨Fp, eFp, tFp⟩ := H.init (α := α) q n (by omega) s1
  obtain ⟨Fp1, e1, t1⟩ := step1_spec (by omega) S.nq_q s1 tFp
  have t1' : H Fp1 q n (fun k => 1 ≤ k) (primeSum F) := t1.mono (fun k hk h1 => ⟨h1, hs1 k h1 hk⟩)
  have tF : ∀ V, H Fp q n (fun _ => False) V := fun V => tFp.mono (fun _ _ h => h.elim)
  obtain ⟨Fk, i, e2, hi1, hi, t2⟩ := step2_spec hF T S t1' tF
  obtain ⟨K', Gk, G1, e3, hK', t3, tG1⟩ := step3_spec hF T S hn2 hf hh2 hBp hi1 (le_of_lt hi) t2 tF
  obtain ⟨G, e4, t4⟩ := step4_spec hF T S hf K' Gk G1 (by omega) t3 tG1
  refine ⟨G, ?_, t4.mono (fun k _ h1 => ⟨h1, R_first F pa k⟩)⟩
  · rw [sumMultiplicative, hsq]
    simp only
    rw [if_neg (by omega), epl, Option.bind_some, if_neg hplp.pos.ne', eFp, Option.bind_some, Option.bind_some, Option.bind_some, if_neg (by omega), e1, Option.bind_some, e2, Option.bind_some]
    change (step3 f fuel n q c (n / c) (n / c / pl + 1) (n / (q + 1)) (tszOf n q) pa psz Fk Fp (Fenwick.mk (tszOf n q - c + 1) 0) (i + 1)).bind _ = _
    rw [e3, Option.bind_some]
    exact e4

/-- **C113**: `sum_multiplicative` returns a map with the sums of the multiplicative function over `1 .. k` for all `k` up to the square
root of `n` and all quotients `k = n / j`, for every table of primes up to some bound between `n^(1/2)` and `n / n^(1/3)`. -/
theorem C113_sum_multiplicative {F : Nat → α} {f : α → Nat → Nat → α} (hF : Mult F f) (sq cb : Nat → Nat) (n : Nat) (hn : 9 ≤ n) (hn2 : n < 2 ^ 62)
    (hsq : sq n = Nat.sqrt n) (hcb : cb n ^ 3 ≤ n ∧ n < (cb n + 1) ^ 3) (s1 : Nat → α)
    (hs1 : ∀ k, 1 ≤ k → (k ≤ Nat.sqrt n ∨ ∃ j, 1 ≤ j ∧ k = n / j) → s1 k = primeSum F k)
    (pa : List Nat) (psz B : Nat) (T : AllPrimes pa psz B) (hB : Nat.sqrt n ≤ B) (hB2 : B ≤ n / cb n) (fuel : Nat) (hf : n < fuel) :
    ∃ s, sumMultiplicative sq cb s1 f fuel n pa psz = some s ∧
      ∀ k, 1 ≤ k → (k ≤ Nat.sqrt n ∨ ∃ j, 1 ≤ j ∧ k = n / j) → s.el k = some (total F k) := by
  obtain ⟨s, e, t⟩ := sumMultiplicative_map hF sq cb n hn hn2 hsq hcb s1 hs1 pa psz B T hB hB2 fuel hf
  exact ⟨s, e, fun k h1 hk => t.el (Nat.sqrt_pos.mpr (by omega)) hk h1⟩

/-- The case `n = 1`. -/
theorem C113_one {F : Nat → α} {f : α → Nat → Nat → α} (hF : Mult F f) (sq cb : Nat → Nat) (hsq : sq 1 = 1) (hcb : cb 1 = 1) (s1 : Nat → α)
    (pa : List Nat) (psz p : Nat) (hp : pa1 pa psz = some p) (hp1 : 1 ≤ p) (fuel : Nat) :
    ∃ s, sumMultiplicative sq cb s1 f fuel 1 pa psz = some s ∧ s.el 1 = some (total F 1) := by
  obtain ⟨Fk, e, t⟩ := H.init (α := α) 1 1 (le_refl 1) (total F)
  obtain ⟨s, e2, t2⟩ := t.set (v := 1) (le_refl 1) (key_lo (le_refl 1)) (by simp [total, hF.one])
  refine ⟨s, ?_, t2.el (le_refl 1) (key_lo (le_refl 1)) (Or.inr rfl)⟩
  rw [sumMultiplicative, hsq, hcb]
  simp only
  rw [if_neg (by omega), hp, Option.bind_some, if_neg (by omega), e, Option.bind_some, Option.bind_some, Option.bind_some, if_pos trivial, e2]

/-- **C113**: for `2 ≤ n ≤ 7` the cube root is one and the first prime is above it; step 3 then reads the element before the table, whatever
the functions and the table. -/
theorem C113_before_table (f : α → Nat → Nat → α) (sq cb : Nat → Nat) (n : Nat) (hn : 2 ≤ n) (hcb : cb n = 1) (s1 : Nat → α)
    (pa : List Nat) (psz : Nat) (h2 : pa[0]? = some 2) (fuel : Nat) : sumMultiplicative sq cb s1 f fuel n pa psz = none := by
  have hf : ∀ c, findK pa 1 c 1 = some 1 := by
    intro c
    cases c with
    | zero => rfl
    | succ c =>
      have : pa1 pa 1 = some 2 := by rw [pa1, if_neg (by omega)]; exact h2
      rw [findK, this, Option.bind_some, if_neg (by omega)]
  rw [sumMultiplicative, hcb]
  simp only
  rw [if_neg (by omega)]
  simp only [Option.bind_eq_none_iff]
  intro pl _
  split
  · rfl
  · simp only [Option.bind_eq_none_iff]
    intro Fp _ Fk1 _ Fk _
    rw [if_neg (by omega)]
    simp only [Option.bind_eq_none_iff]
    intro Fp' _ r hr t ht
    have hr2 : r.2 = 1 := by
      rw [step2, hf, Option.bind_some] at hr
      simp only [Option.bind_eq_some_iff, Option.some.injEq] at hr
      obtain ⟨_, _, _, _, _, _, _, _, _, _, _, _, _, _, rfl⟩ := hr
      rfl
    rw [step3, hr2] at ht
    simp only [Option.bind_eq_some_iff] at ht
    obtain ⟨_, _, _, _, x, hx, _⟩ := ht
    rw [loop3] at hx
    cases hx

/-- The number of divisors up to 30, with the sums for the quotients. -/
example : ((sumMultiplicative Nat.sqrt (fun _ => 3) (fun x => ([0, 0, 2, 4, 4, 6, 6, 8, 8, 8, 8, 10, 10, 12, 12, 12, 12, 14, 14, 16, 16, 16, 16, 18, 18, 18, 18, 18, 18, 20, 20].getD x 0 : Int))
    (fun _ _ e => (e : Int) + 1) 31 30 [2, 3, 5] 3).bind fun s => (s.el 30).bind fun a => (s.el 15).bind fun b => (s.el 10).map fun c => (a, b, c)) = some (111, 45, 27) := by decide +kernel

/-- The hypotheses are met: all primes up to 7. -/
example : AllPrimes [2, 3, 5, 7] 4 7 := by
  refine ⟨⟨by decide, ?_, ?_, ?_⟩, ?_⟩
  · intro i j p r hij hj hp hr
    interval_cases j <;> interval_cases i <;> simp at hp hr <;> omega
  · intro i p hi hp
    interval_cases i <;> simp at hp <;> subst hp <;> norm_num
  · intro p hp hlt
    have := hp.two_le
    interval_cases p
    · exact ⟨0, by omega, rfl⟩
    · exact ⟨1, by omega, rfl⟩
    · exact absurd hp (by norm_num)
    · exact ⟨2, by omega, rfl⟩
    · exact absurd hp (by norm_num)
    · exact ⟨3, by omega, rfl⟩
  · intro i p hi hp
    interval_cases i <;> simp at hp <;> omega

/-- The table may not reach beyond `n / n^(1/3)`: for `n = 27` (here with `f = 1`) the primes up to 7 give 27, and with 11 as well the
element before the table is read. -/
theorem C113_long_table :
    ((sumMultiplicative Nat.sqrt (fun _ => 3) (fun x => ([0, 0, 1, 2, 2, 3, 3, 4, 4, 4, 4, 5, 5, 6, 6, 6, 6, 7, 7, 8, 8, 8, 8, 9, 9, 9, 9, 9].getD x 0 : Int))
      (fun _ _ _ => 1) 28 27 [2, 3, 5, 7] 4).bind fun s => s.el 27) = some 27 ∧
    sumMultiplicative Nat.sqrt (fun _ => 3) (fun x => ([0, 0, 1, 2, 2, 3, 3, 4, 4, 4, 4, 5, 5, 6, 6, 6, 6, 7, 7, 8, 8, 8, 8, 9, 9, 9, 9, 9].getD x 0 : Int))
      (fun _ _ _ => 1) 28 27 [2, 3, 5, 7, 11] 5 = none := by decide +kernel

/-! ### `traverse_rough_numbers` -/

/-- The numbers that `traverse_rough_numbers` should visit: up to `n` with smallest prime factor `p`. -/
def SmallestFactor (p t : Nat) : Prop := p ∣ t ∧ ∀ r : Nat, r.Prime → r ∣ t → p ≤ r

open scoped Classical in
/-- **C113**: `traverse_rough_numbers` visits the numbers up to `n` with smallest prime factor `p_k` with the value of the function: the calls, put
together with any weights, add up to the sum of `F(t) w(t)` over these numbers. -/
theorem C113_traverse {F : Nat → α} {f : α → Nat → Nat → α} (hF : Mult F f) (n : Nat) (pa : List Nat) (psz B k p : Nat) (T : AllPrimes pa psz B)
    (hk : k < psz) (hp : pa[k]? = some p) (hB : n / p ≤ B) (fuel : Nat) (hf : n < fuel) :
    ∃ l : List (Nat × α), rough f (fun m v l => some (l ++ [(m, v)])) pa psz fuel n (k + 1) 1 1 [] = some l ∧
      (∀ x ∈ l, 1 ≤ x.1 ∧ x.1 ≤ n) ∧
      ∀ w : Nat → α, (l.map (fun x => x.2 * w x.1)).sum = ∑ t ∈ (Icc 1 n).filter (SmallestFactor p), F t * w t := by
  have hpr := T.tab.prime k p hk hp
  obtain ⟨l, e, h1, h2⟩ := rough_spec (U := n) hF T (visit := fun m v l => some (l ++ [(m, v)]))
    (St := fun S l => (∀ x ∈ l, 1 ≤ x.1 ∧ x.1 ≤ n) ∧ ∀ w : Nat → α, (l.map (fun x => x.2 * w x.1)).sum = S w)
    (fun m v S l a b h => ⟨_, rfl, fun x hx => by
      rcases List.mem_append.mp hx with hx | hx
      · exact h.1 x hx
      · rw [List.mem_singleton.mp hx]
        exact ⟨a, b⟩, fun w => by
      rw [List.map_append, List.sum_append, h.2 w]
      simp⟩)
    fuel n k p 1 1 (fun _ => 0) [] hk hp hf hB (le_refl 1) (by omega) ⟨fun x hx => by simp at hx, fun w => by simp⟩
  refine ⟨l, e, h1, fun w => ?_⟩
  rw [h2 w]
  simp only [zero_add, contrib, sumS]
  refine Finset.sum_nbij (fun u => p * u) ?_ ?_ ?_ ?_
  · intro u hu
    rw [mem_filter, mem_Icc] at hu
    rw [mem_filter, mem_Icc]
    have h3 := hu.1.2
    rw [Nat.le_div_iff_mul_le hpr.pos, mul_comm] at h3
    refine ⟨⟨Nat.mul_pos hpr.pos hu.1.1, h3⟩, dvd_mul_right p u, fun r hr hd => ?_⟩
    rcases (Nat.Prime.dvd_mul hr).mp hd with h | h
    · exact le_of_eq ((Nat.prime_dvd_prime_iff_eq hr hpr).mp h).symm
    · exact (T.not_before hk hp r hr).mp (hu.2 r hr h)
  · intro u _ v _ h
    exact Nat.eq_of_mul_eq_mul_left hpr.pos h
  · intro t ht
    rw [mem_coe, mem_filter, mem_Icc] at ht
    obtain ⟨⟨h3, h4⟩, ⟨u, rfl⟩, h5⟩ := ht
    refine ⟨u, ?_, rfl⟩
    rw [mem_coe, mem_filter, mem_Icc, Nat.le_div_iff_mul_le hpr.pos, mul_comm u]
    refine ⟨⟨Nat.pos_of_mul_pos_left h3, h4⟩, fun r hr hd => ?_⟩
    exact (T.not_before hk hp r hr).mpr (h5 r hr (Dvd.dvd.mul_left hd p))
  · intro u _
    rw [one_mul, one_mul]

/-- The numbers up to 50 with smallest prime factor 3. -/
example : (rough (fun _ _ _ => (1 : Int)) (fun m _ (l : List Nat) => some (l ++ [m])) [2, 3, 5, 7, 11, 13] 6 51 50 2 1 1 []) = some [3, 15, 21, 33, 39, 9, 45, 27] := by decide +kernel

end Altruct.SumMult
