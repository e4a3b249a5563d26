/-
C114: counting primes by the Meissel-Lehmer formula, with tables that persist between calls.
-/
import Verif.PrimePi.Model
import Verif.SumMult.Step2
import Mathlib.NumberTheory.PrimeCounting

namespace Altruct.PrimePi

open Finset
open Altruct.SumMult
open scoped Classical

/-! ### Specification -/

/-- The number of `t` up to `m` that none of the first `n` primes divides. -/
noncomputable def phi (m n : Nat) : Nat := ((Icc 1 m).filter (fun t => ∀ i < n, ¬ Nat.nth Nat.Prime i ∣ t)).card

/-- The static tables hold right values: of `phi` under the keys of pairs, and of the number of primes. -/
def Ok (t : Tables) : Prop :=
  (∀ m n v, n < 2 ^ 16 → t.phi (m * 2 ^ 16 + n) = some v → v = (phi m n : Int)) ∧ ∀ m v, t.pi m = some v → v = (Nat.primeCounting m : Int)

/-! ### Primes and their indices -/

section table
variable {pa : List Nat} {psz B : Nat}

theorem count_index (T : AllPrimes pa psz B) : ∀ (i p : Nat), i < psz → pa[i]? = some p → Nat.count Nat.Prime p = i := by
  intro i
  induction i with
  | zero =>
    intro p hi hp
    rw [Nat.count_eq_card_filter_range, Finset.card_eq_zero, Finset.filter_eq_empty_iff]
    intro r hr hpr
    rw [mem_range] at hr
    have := (T.not_before hi hp r hpr).mp (by rintro ⟨j, hj, _⟩; omega)
    omega
  | succ i ih =>
    intro p hi hp
    obtain ⟨r, hr, _, hrp⟩ := T.get (show i < psz by omega)
    have h1 := ih r (by omega) hr
    have hlt := T.tab.sorted i (i + 1) r p (by omega) hi hr hp
    rw [Nat.count_eq_card_filter_range] at h1 ⊢
    rw [← h1, ← Finset.card_insert_of_notMem (a := r)]
    · congr 1
      ext t
      rw [mem_insert, mem_filter, mem_filter, mem_range, mem_range]
      constructor
      · rintro ⟨h2, h3⟩
        by_cases h4 : t = r
        · exact Or.inl h4
        · right
          refine ⟨?_, h3⟩
          by_contra hc
          have h5 := (T.not_before hi hp t h3).mp (by
            intro hb
            rcases (before_succ hr t).mp hb with h | h
            · exact (T.not_before (by omega) hr t h3).mpr (by omega) h
            · exact h4 h)
          omega
      · rintro (rfl | ⟨h2, h3⟩)
        · exact ⟨hlt, hrp⟩
        · exact ⟨by omega, h3⟩
    · rw [mem_filter, mem_range]
      omega

theorem nth_index (T : AllPrimes pa psz B) {i p : Nat} (hi : i < psz) (hp : pa[i]? = some p) : Nat.nth Nat.Prime i = p := by
  rw [← count_index T i p hi hp]
  exact Nat.nth_count (T.tab.prime i p hi hp)

theorem phi_eq (T : AllPrimes pa psz B) {n : Nat} (hn : n ≤ psz) (m : Nat) : (phi m n : Int) = R (fun _ => (1 : Int)) pa n m := by
  rw [R, sumS, phi, Finset.card_eq_sum_ones, Nat.cast_sum, Nat.cast_one]
  apply Finset.sum_congr _ (fun _ _ => rfl)
  ext t
  rw [mem_filter, mem_filter]
  refine and_congr_right (fun _ => ?_)
  constructor
  · rintro h r hr hd ⟨i, hi, e⟩
    apply h i hi
    rw [nth_index T (by omega) e]
    exact hd
  · intro h i hi hd
    obtain ⟨p, hp, _, hpr⟩ := T.get (show i < psz by omega)
    rw [nth_index T (by omega) hp] at hd
    exact h p hpr hd ⟨i, hi, hp⟩

theorem primeSum_one (k : Nat) : primeSum (fun _ => (1 : Int)) k = (Nat.primeCounting k : Int) := by
  rw [primeSum, Finset.sum_const, Nat.primeCounting, Nat.primeCounting', Nat.count_eq_card_filter_range, nsmul_eq_mul, mul_one]
  congr 2
  ext t
  rw [mem_filter, mem_filter, mem_Icc, mem_range]
  constructor
  · rintro ⟨h1, h2⟩
    exact ⟨by omega, h2⟩
  · rintro ⟨h1, h2⟩
    exact ⟨⟨h2.pos, by omega⟩, h2⟩

/-! ### The parts -/

theorem PHI_spec (T : AllPrimes pa psz B) {lim M : Nat} (hM : M * 2 ^ 16 + (2 ^ 16 - 1) ≤ lim) : ∀ (n m : Nat) (tbl : Nat → Option Int), n ≤ psz → n < 2 ^ 16 → m ≤ M →
    (∀ m n v, n < 2 ^ 16 → tbl (m * 2 ^ 16 + n) = some v → v = (phi m n : Int)) →
    ∃ tbl', PHI lim pa n m tbl = some ((phi m n : Int), tbl') ∧ ∀ m n v, n < 2 ^ 16 → tbl' (m * 2 ^ 16 + n) = some v → v = (phi m n : Int) := by
  intro n
  induction n with
  | zero =>
    intro m tbl _ _ _ h
    refine ⟨tbl, ?_, h⟩
    rw [PHI]
    simp [phi]
  | succ n ih =>
    intro m tbl hn hn2 hm h
    rw [PHI]
    by_cases h0 : m = 0
    · refine ⟨tbl, ?_, h⟩
      subst h0
      simp [phi]
    · have hk : m * 2 ^ 16 + (n + 1) ≤ lim := by
        have : m * 2 ^ 16 ≤ M * 2 ^ 16 := Nat.mul_le_mul_right _ hm
        have h5 : n + 1 ≤ 2 ^ 16 - 1 := Nat.le_sub_one_of_lt hn2
        exact le_trans (Nat.add_le_add this h5) hM
      rw [if_neg h0, phiKey, if_pos hk, Option.bind_some]
      cases ht : tbl (m * 2 ^ 16 + (n + 1)) with
      | some v => exact ⟨tbl, by rw [h m (n + 1) v hn2 ht], h⟩
      | none =>
        obtain ⟨q, hq, _, hqp⟩ := T.get (show n < psz by omega)
        obtain ⟨t1, e1, h1⟩ := ih m tbl (by omega) (by omega) hm h
        obtain ⟨t2, e2, h2⟩ := ih (m / q) t1 (by omega) (by omega) (le_trans (Nat.div_le_self _ _) hm) h1
        have hv : (phi m n : Int) - (phi (m / q) n : Int) = (phi m (n + 1) : Int) := by
          rw [phi_eq T (by omega), phi_eq T (by omega), phi_eq T (by omega), R, R, R, T.sumS_split (by omega) hq m]
          ring
        simp only
        rw [e1, Option.bind_some, rd, hq, Option.bind_some, if_neg hqp.pos.ne', e2, Option.bind_some]
        simp only
        rw [hv]
        refine ⟨_, rfl, fun m' n' v hn' hv' => ?_⟩
        by_cases hkey : m' * 2 ^ 16 + n' = m * 2 ^ 16 + (n + 1)
        · rw [hkey, Function.update_self] at hv'
          have e1 : m' = m := by omega
          have e2 : n' = n + 1 := by omega
          rw [e1, e2]
          exact (Option.some.inj hv').symm
        · rw [Function.update_of_ne hkey] at hv'
          exact h2 m' n' v hn' hv'

theorem P2_spec (T : AllPrimes pa psz B) {pi : List Nat} {m b K r : Nat} (hm : 1 ≤ m) (hb : m < b * b * b) (hK : K < psz) (hr : pa[K]? = some r) (hr2 : m < r * r)
    (hpi : ∀ i, i ≤ m / b → pi[i]? = some (Nat.primeCounting i)) : ∀ (fuel j : Nat) (s : Int), j ≤ K → K ≤ fuel + j → (∀ r : Nat, r.Prime → ¬ Before pa j r → b ≤ r) →
    P2 pi pa m fuel j s = some (s + (R (fun _ => (1 : Int)) pa j m - 1 - PR (fun r => ¬ Before pa j r) m (fun _ => (1 : Int)))) := by
  intro fuel
  induction fuel with
  | zero =>
    intro j s h1 h2 _
    have : j = K := by omega
    subst this
    rw [P2, rd, hr, Option.bind_some, if_neg (by omega), R, sumS_base hm]
    · congr 1
      ring
    · intro t ht hb
      have := (T.not_before hK hr t ht).mp hb
      have : r * r ≤ t * t := Nat.mul_le_mul this this
      omega
  | succ fuel ih =>
    intro j s h1 h2 hc
    obtain ⟨p, hp, _, hpr⟩ := T.get (show j < psz by omega)
    have hnb := T.not_before (show j < psz by omega) hp
    have hbp : b ≤ p := hc p hpr ((hnb p hpr).mpr (le_refl p))
    rw [P2, rd, hp, Option.bind_some]
    by_cases hpm : p * p ≤ m
    · have hjK : j ≠ K := by
        rintro rfl
        rw [hp] at hr
        have := Option.some.inj hr
        subst this
        omega
      have hpmd : p ≤ m / p := (Nat.le_div_iff_mul_le hpr.pos).mpr hpm
      have hpm' : p ≤ m := le_trans hpmd (Nat.div_le_self _ _)
      have hb0 : 0 < b := by
        rcases Nat.eq_zero_or_pos b with h | h
        · rw [h] at hb; omega
        · exact h
      rw [if_pos hpm]
      simp only
      rw [if_neg hpr.pos.ne', rd, hpi (m / p) (Nat.div_le_div_left hbp hb0), Option.bind_some, ih (j + 1) _ (by omega) (by omega)
        (fun r hr hb => hc r hr ((T.split (by omega) hp r).mpr (Or.inl hb))),
        R, R, T.sumS_split (by omega) hp m, PR_succ T (by omega) hp hpm', sumS_base (A := fun r => ¬ Before pa j r) (x := m / p) (by omega),
        PR_ge (A := fun r => ¬ Before pa j r) (x := m / p) (F := fun _ => (1 : Int)) (p := p) hnb (by omega) hpr.pos, primeSum_one, primeSum_one]
      · have : Nat.primeCounting (p - 1) = j := by
          rw [Nat.primeCounting, Nat.primeCounting', Nat.sub_add_cancel hpr.pos, count_index T j p (by omega) hp]
        rw [this]
        congr 1
        ring
      · intro t ht hb'
        have hpt := (hnb t ht).mp hb'
        apply Nat.div_lt_of_lt_mul
        refine lt_of_lt_of_le hb ?_
        rw [mul_assoc]
        exact Nat.mul_le_mul hbp (Nat.mul_le_mul (by omega) (by omega))
    · rw [if_neg hpm, R, sumS_base hm]
      · congr 1
        ring
      · intro t ht hb
        have := (hnb t ht).mp hb
        have : p * p ≤ t * t := Nat.mul_le_mul this this
        omega

end table

/-- The tables of primes and of numbers of primes reach far enough for `m`: `c` is the cube root. -/
structure Enough (pi p : List Nat) (psz B c m : Nat) : Prop where
  primes : AllPrimes p psz B
  last : ∃ K r, K < psz ∧ p[K]? = some r ∧ m < r * r ∧ c + 1 < r
  pi : ∀ i, (i ≤ c + 1 ∨ i ≤ m / (c + 2)) → pi[i]? = some (Nat.primeCounting i)

/-- **C114**: `prime_pi_deprecated` returns the number of primes up to `m`, from any right contents of the static tables, and leaves right
contents. -/
theorem C114_prime_pi (cb : Nat → Nat) (fuel m : Nat) (hm : m < 2 ^ 47) (hcb : cb m ^ 3 ≤ m ∧ m < (cb m + 1) ^ 3) (pi p : List Nat) (psz B : Nat)
    (hE : Enough pi p psz B (cb m) m) (hf : psz ≤ fuel) (piSize : Nat) (hps : ∀ i, i < piSize → pi[i]? = some (Nat.primeCounting i)) (t : Tables) (ht : Ok t) :
    ∃ t', primePi (2 ^ 63 - 1) cb fuel m pi p piSize t = some ((Nat.primeCounting m : Int), t') ∧ Ok t' := by
  rw [primePi]
  by_cases h2 : m < 2
  · refine ⟨t, ?_, ht⟩
    rw [if_pos h2]
    have : Nat.primeCounting m = 0 := by
      interval_cases m <;> decide
    rw [this, Nat.cast_zero]
  · rw [if_neg h2]
    by_cases h3 : m < piSize
    · exact ⟨t, by rw [if_pos h3, rd, hps m h3, Option.bind_some], ht⟩
    · rw [if_neg h3]
      cases h4 : t.pi m with
      | some v => exact ⟨t, by rw [ht.2 m v h4], ht⟩
      | none =>
        simp only
        set c := cb m with hc
        obtain ⟨T, ⟨K, r, hK, hr, hmr, hcr⟩, hpi⟩ := hE
        have hlo : c * c * c ≤ m := by have := hcb.1; rwa [pow_succ, pow_two] at this
        have hhi : m < (c + 1) * (c + 1) * (c + 1) := by have := hcb.2; rwa [pow_succ, pow_two] at this
        have hc1 : 1 ≤ c := by
          by_contra hc0
          rw [show c = 0 by omega] at hhi
          omega
        set n := Nat.primeCounting (c + 1) with hn
        have hcnt : n = Nat.count Nat.Prime (c + 1 + 1) := rfl
        have hcb2 : c < 52100 := by
          by_contra hcon
          have h5 : 52100 * 52100 * 52100 ≤ c * c * c := Nat.mul_le_mul (Nat.mul_le_mul (by omega) (by omega)) (by omega)
          norm_num at h5 hm
          omega
        have hn16 : n < 2 ^ 16 := by
          have := Nat.count_le (p := Nat.Prime) (n := c + 1 + 1)
          omega
        have hKr := count_index T K r hK hr
        have hnK : n ≤ K := by
          rw [← hKr, hcnt]
          exact Nat.count_monotone Nat.Prime (by omega)
        have hbef : ∀ q : Nat, q.Prime → (¬ Before p n q ↔ c + 1 + 1 ≤ q) := by
          intro q hq
          constructor
          · intro hb
            by_contra hcon
            obtain ⟨j, hj, e⟩ := T.tab.all q hq (by have := T.le K r hK hr; omega)
            apply hb
            refine ⟨j, ?_, e⟩
            rw [← count_index T j q hj e, hcnt]
            exact Nat.count_strict_mono hq (by omega)
          · rintro hle ⟨j, hj, e⟩
            have h5 := count_index T j q (by omega) e
            have h6 := Nat.count_monotone Nat.Prime hle
            omega
        obtain ⟨tb, e1, o1⟩ := PHI_spec T (lim := 2 ^ 63 - 1) (M := 2 ^ 47 - 1) (by norm_num) n m t.phi (by omega) hn16 (by omega) ht.1
        have hP := P2_spec T (pi := pi) (m := m) (b := c + 2) (by omega) (lt_of_lt_of_le hhi (Nat.mul_le_mul (Nat.mul_le_mul (by omega) (by omega)) (by omega)))
          hK hr hmr (fun i hi => hpi i (Or.inr hi)) fuel n 0 hnK (by omega) (fun q hq hb => (hbef q hq).mp hb)
        have hcm : c + 1 ≤ m := by nlinarith
        have hPR := PR_ge (A := fun r => ¬ Before p n r) (x := m) (F := fun _ => (1 : Int)) hbef (by omega) (by omega)
        rw [Nat.add_sub_cancel, primeSum_one, primeSum_one, ← hn] at hPR
        rw [rd, hpi (c + 1) (Or.inl (le_refl _)), Option.bind_some, e1, Option.bind_some, hP, Option.bind_some]
        simp only
        have hv : (phi m n : Int) - (0 + (R (fun _ => (1 : Int)) p n m - 1 - PR (fun r => ¬ Before p n r) m (fun _ => (1 : Int)))) + (n : Int) - 1 = (Nat.primeCounting m : Int) := by
          rw [hPR, ← phi_eq T (by omega)]
          ring
        rw [hv]
        refine ⟨_, rfl, o1, fun m' v hv' => ?_⟩
        by_cases hmm : m' = m
        · subst hmm
          simp only [Function.update_self] at hv'
          exact (Option.some.inj hv').symm
        · simp only [Function.update_of_ne hmm] at hv'
          exact ht.2 m' v hv'

/-- **C114**: any sequence of calls returns the numbers of primes, whatever the calls before them. -/
theorem C114_history (cb : Nat → Nat) (fuel : Nat) (pi p : List Nat) (psz B : Nat) (hf : psz ≤ fuel) (piSize : Nat)
    (hps : ∀ i, i < piSize → pi[i]? = some (Nat.primeCounting i)) : ∀ (ms : List Nat) (t : Tables), Ok t →
    (∀ m ∈ ms, m < 2 ^ 47 ∧ (cb m ^ 3 ≤ m ∧ m < (cb m + 1) ^ 3) ∧ Enough pi p psz B (cb m) m) →
    calls (2 ^ 63 - 1) cb fuel pi p piSize ms t = some (ms.map (fun m => (Nat.primeCounting m : Int))) := by
  intro ms
  induction ms with
  | nil => intro t _ _; rfl
  | cons m ms ih =>
    intro t ht h
    obtain ⟨h1, h2, h3⟩ := h m (List.mem_cons_self ..)
    obtain ⟨t', e, o⟩ := C114_prime_pi cb fuel m h1 h2 pi p psz B h3 hf piSize hps t ht
    rw [calls, e, Option.bind_some, ih t' o (fun x hx => h x (List.mem_cons_of_mem _ hx))]
    rfl

/-- The tables are empty before the first call. -/
theorem C114_start : Ok ⟨fun _ => none, fun _ => none⟩ := ⟨fun _ _ _ _ h => (Option.some_ne_none _ h.symm).elim, fun _ _ h => (Option.some_ne_none _ h.symm).elim⟩

/-- There are 25 primes up to 100 and 15 up to 50: two calls that share the tables. -/
example : calls (2 ^ 63 - 1) (fun m => if m < 64 then 3 else 4) 10 [0, 0, 1, 2, 2, 3, 3, 4, 4, 4, 4, 5, 5, 6, 6, 6, 6, 7, 7] [2, 3, 5, 7, 11] 0 [100, 50, 100] ⟨fun _ => none, fun _ => none⟩ =
    some [25, 15, 25] := by decide +kernel

/-- The hypotheses are met for `m = 100`. -/
example : Enough [0, 0, 1, 2, 2, 3, 3, 4, 4, 4, 4, 5, 5, 6, 6, 6, 6] [2, 3, 5, 7, 11] 5 11 4 100 := by
  refine ⟨⟨⟨by decide, ?_, ?_, ?_⟩, ?_⟩, ⟨4, 11, by decide, rfl, by decide, by decide⟩, fun i hi => ?_⟩
  · intro i j p r hij hj hp hr
    interval_cases j <;> interval_cases i <;> simp at hp hr <;> omega
  · intro i p hi hp
    interval_cases i <;> simp at hp <;> subst hp <;> norm_num
  · intro p hp hlt
    have := hp.two_le
    interval_cases p
    · exact ⟨0, by omega, rfl⟩
    · exact ⟨1, by omega, rfl⟩
    · exact absurd hp (by norm_num)
    · exact ⟨2, by omega, rfl⟩
    · exact absurd hp (by norm_num)
    · exact ⟨3, by omega, rfl⟩
    · exact absurd hp (by norm_num)
    · exact absurd hp (by norm_num)
    · exact absurd hp (by norm_num)
    · exact ⟨4, by omega, rfl⟩
  · intro i p hi hp
    interval_cases i <;> simp at hp <;> omega
  · have : i ≤ 16 := by omega
    interval_cases i <;> decide +kernel

/-- **C114**: the primes up to the square root, as documented, are not enough: the loop of `prime_pi_P2` reads one more.  Here `m = 100` with the
primes up to 10. -/
theorem C114_past_end : primePi (2 ^ 63 - 1) (fun _ => 4) 10 100 [0, 0, 1, 2, 2, 3, 3, 4, 4, 4, 4, 5, 5, 6, 6, 6, 6, 7, 7, 8, 8, 8] [2, 3, 5, 7] 0 ⟨fun _ => none, fun _ => none⟩ = none := by
  decide +kernel

/-- The key overflows from `m = 2^47` on; the comment in the code says that it works below `2^48`. -/
theorem C114_key_overflow (m n : Nat) : phiKey (2 ^ 63 - 1) m n = none ↔ 2 ^ 63 ≤ m * 2 ^ 16 + n := by
  rw [phiKey]
  split <;> simp <;> omega

end Altruct.PrimePi
