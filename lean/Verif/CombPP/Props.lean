/-
C77: factorials and binomials modulo a prime power.
-/
import Verif.CombPP.Model
import Verif.CombPP.Math
import Verif.NumTheory.Crt
import Verif.Primes.FactorProps
import Verif.Base.Props

namespace Altruct.CombPP

open Altruct.Base (powT C04_powT)
open Altruct.NumTheory (mulM negM divM divM_spec mulM_eq)
open Altruct.Primes (factorOut C13_factor_out)
open scoped Nat

/-! ### specification -/

/-- The table holds `i! / (u! p^u)`, `u = i / p`, modulo `p^e`, for the indices below `n`. -/
def TableOk (p e n : Nat) (tbl : List Int) : Prop :=
  ∀ i, i < n → tbl[i]? = some (((i ! / ((i / p) ! * p ^ (i / p))) % p ^ e : Nat) : Int)

/-! ### residues -/

theorem powT_nat (p e : Nat) : powT (p : Int) (e : Int) = ((p ^ e : Nat) : Int) := by rw [C04_powT]; push_cast; rfl

theorem mulM_nat (X i m : Nat) : mulM ((X % m : Nat) : Int) (i : Int) (m : Int) = ((X * i % m : Nat) : Int) := by
  rw [mulM_eq _ _ _ (by omega) (by omega)]
  rw [← Int.natCast_mul, ← Int.natCast_mod, Nat.mod_mul_mod]

theorem normM_nat (v m : Nat) : normM (v : Int) (m : Int) = ((v % m : Nat) : Int) := by
  rw [normM, Int.tmod_eq_emod_of_nonneg (by omega)]
  push_cast; rfl

theorem cast_mod (m X : Nat) : (((X % m : Nat) : Int) : ZMod m) = (X : ZMod m) := by rw [Int.cast_natCast, ZMod.natCast_mod]

theorem residue_eq (m : Nat) (f : Int) (X : Nat) (h0 : 0 ≤ f) (h1 : f < m) (h : (f : ZMod m) = (X : ZMod m)) : f = ((X % m : Nat) : Int) := by
  have h2 : ((f : Int) : ZMod m) = ((X : Int) : ZMod m) := by rw [h]; push_cast; rfl
  rw [ZMod.intCast_eq_intCast_iff, Int.ModEq, Int.emod_eq_of_lt h0 h1] at h2
  rw [h2]; push_cast; rfl

theorem divM_lt (x y M : Int) (hx : 0 ≤ x) (hxM : x < M) (hy : 0 ≤ y) (hM : 0 < M) (hc : Int.gcd y M = 1) : divM x y M < M := by
  rw [divM]
  by_cases h : y ≠ 0 ∧ x.tmod y = 0
  · rw [if_pos h]
    refine lt_of_le_of_lt ?_ hxM
    rw [Int.tdiv_eq_ediv_of_nonneg hx]
    exact Int.ediv_le_self _ hx
  · rw [if_neg h]
    obtain ⟨h1, h2, h3⟩ := NumTheory.invM_spec y M hy hM hc
    simp only
    split_ifs with h4
    · rw [mulM_eq _ _ _ hx h1]; exact Int.emod_lt_of_pos _ hM
    · have h5 : NumTheory.invM y M = 0 := by simpa using h4
      rw [h5, mul_zero, zero_sub, dvd_neg] at h3
      have h6 := Int.le_of_dvd (by omega) h3
      have h7 : M = 1 := by omega
      rw [h7, mulM, Int.tmod_one]; omega

theorem divM_nat (B S m : Nat) (hm : 0 < m) (hc : Nat.Coprime S m) : divM ((B * S % m : Nat) : Int) ((S % m : Nat) : Int) (m : Int) = ((B % m : Nat) : Int) := by
  have hg : Int.gcd ((S % m : Nat) : Int) (m : Int) = 1 := by
    rw [Int.gcd_natCast_natCast, ← Nat.gcd_rec, Nat.gcd_comm] ; exact hc
  have hlt : ((B * S % m : Nat) : Int) < m := by exact_mod_cast Nat.mod_lt _ hm
  obtain ⟨h1, h2⟩ := divM_spec ((B * S % m : Nat) : Int) ((S % m : Nat) : Int) (m : Int) (by omega) (by omega) (by omega) hg
  refine residue_eq m _ B h1 (divM_lt _ _ _ (by omega) hlt (by omega) (by omega) hg) ?_
  rw [← ZMod.intCast_zmod_eq_zero_iff_dvd _ m] at h2
  rw [Int.cast_sub, Int.cast_mul, cast_mod, cast_mod, Nat.cast_mul] at h2
  have hu : IsUnit (S : ZMod m) := (ZMod.isUnit_iff_coprime S m).mpr hc
  refine hu.mul_left_cancel ?_
  rw [← sub_eq_zero, ← h2]; ring

/-! ### the direct loops -/

/-- **C77**: `factorials_mod_pp_skipped(n, p, e)` is the table of `i! / (u! p^u)`, `u = i / p`, modulo `p^e`, for `i = 0, ..., n`. -/
theorem C77_table (n p e : Nat) (hp : 0 < p) : ∃ tbl, skippedTable n p e = some tbl ∧ tbl.length = n + 1 ∧ TableOk p e (n + 1) tbl := by
  rw [skippedTable]
  rw [powT_nat]
  have h := forUp_spec (body := tableBody p ((p ^ e : Nat) : Int))
    (fun i (s : Int × List Int) => s.1 = (((∏ j ∈ Finset.range i, if p ∣ j then 1 else j) % p ^ e : Nat) : Int) ∧ s.2.length = n + 1 ∧
      ∀ j, j < i → s.2[j]? = some ((skip p j % p ^ e : Nat) : Int)) (a := 0) (n := n + 1) (s := (normM 1 ((p ^ e : Nat) : Int), List.replicate (n + 1) 0)) (by omega)
    ⟨by simpa using normM_nat 1 (p ^ e), by simp, fun j hj => by omega⟩
    (by
      rintro i ⟨r, v⟩ _ hi ⟨h1, h2, h3⟩
      simp only [] at h1 h2 h3
      have hr : (if i % p ≠ 0 then mulM r i ((p ^ e : Nat) : Int) else r) = ((skip p i % p ^ e : Nat) : Int) := by
        rw [skip, Finset.prod_range_succ, h1]
        by_cases hd : i % p = 0
        · rw [if_neg (by simpa using hd), if_pos (Nat.dvd_of_mod_eq_zero hd), mul_one]
        · rw [if_pos hd, if_neg (fun h => hd (Nat.mod_eq_zero_of_dvd h)), mulM_nat]
      rw [tableBody, if_neg (by omega)]
      simp only []
      rw [hr, wr, if_pos (by rw [h2]; exact hi)]
      refine ⟨_, rfl, ?_, by simp only []; rw [List.length_set, h2], fun j hj => ?_⟩
      · rfl
      · simp only []
        by_cases hji : j = i
        · subst hji; rw [List.getElem?_set_self (by rw [h2]; exact hi)]
        · rw [List.getElem?_set_ne (Ne.symm hji)]; exact h3 j (by omega))
  obtain ⟨s, e1, h1, h2, h3⟩ := h
  rw [e1]
  refine ⟨s.2, rfl, h2, fun i hi => ?_⟩
  rw [h3 i hi, factorial_div_skip p i hp]

/-- **C77**: `factorial_mod_pp_skipped_slow(n, p, e)` is `n! / (u! p^u)` modulo `p^e`, and `u = n / p`. -/
theorem C77_skipped_slow (n p e : Nat) (hp : 0 < p) :
    skippedSlow n p e = some ((((n ! / ((n / p) ! * p ^ (n / p))) % p ^ e : Nat) : Int), n / p) := by
  rw [skippedSlow]
  rw [powT_nat, if_neg (by omega)]
  obtain ⟨s, e1, h1⟩ := forUp_spec (body := fun i r => some (if i % p ≠ 0 then mulM r i ((p ^ e : Nat) : Int) else r))
    (fun i (s : Int) => s = ((skip p (i - 1) % p ^ e : Nat) : Int)) (a := 1) (n := n + 1) (s := (normM 1 ((p ^ e : Nat) : Int))) (by omega)
    (by simpa [skip_zero] using normM_nat 1 (p ^ e))
    (by
      intro i r h1 hi hr
      obtain ⟨j, rfl⟩ : ∃ j, i = j + 1 := ⟨i - 1, by omega⟩
      refine ⟨_, rfl, ?_⟩
      rw [Nat.add_sub_cancel] at hr
      rw [Nat.add_sub_cancel, skip_succ, hr]
      by_cases hd : (j + 1) % p = 0
      · rw [if_neg (by simpa using hd), if_pos (Nat.dvd_of_mod_eq_zero hd), mul_one]
      · rw [if_pos hd, if_neg (fun h => hd (Nat.mod_eq_zero_of_dvd h)), mulM_nat])
  rw [e1, factorial_div_skip p n hp, h1]
  rfl

/-- The decomposition of a number into a power of `p` and the rest. -/
theorem split_unique {p N a t : Nat} (hp : p.Prime) (h : N = p ^ a * t) (ht : ¬ p ∣ t) : N.factorization p = a ∧ N / p ^ a = t := by
  have ht0 : t ≠ 0 := fun h0 => ht (h0 ▸ dvd_zero p)
  refine ⟨?_, by rw [h]; exact Nat.mul_div_cancel_left _ (Nat.pow_pos hp.pos)⟩
  rw [h, Nat.factorization_mul (Nat.pow_pos hp.pos).ne' ht0, Finsupp.add_apply, hp.factorization_pow, Finsupp.single_eq_same,
    Nat.factorization_eq_zero_of_not_dvd ht, add_zero]

theorem not_dvd_mul {p a b : Nat} (hp : p.Prime) (ha : ¬ p ∣ a) (hb : ¬ p ∣ b) : ¬ p ∣ a * b := fun h =>
  (hp.dvd_mul.mp h).elim ha hb

/-- **C77**: `factorial_mod_pp_reduced_slow(n, p, e)` is `n! / p^a` modulo `p^e`, and `a`, where `p^a` is the largest power of
the prime `p` that divides `n!`. -/
theorem C77_reduced_slow (n p e : Nat) (hp : p.Prime) :
    reducedSlow n p e = some (((n ! / p ^ (n !).factorization p % p ^ e : Nat) : Int), (n !).factorization p) := by
  rw [reducedSlow]
  simp only []
  rw [powT_nat]
  obtain ⟨s, e1, t, h1, h2, h3⟩ := forUp_spec (body := fun i (s : Int × Nat) => do
      let (t, a) ← factorOut i p s.2
      some (mulM s.1 t ((p ^ e : Nat) : Int), a))
    (fun i (s : Int × Nat) => ∃ t, s.1 = ((t % p ^ e : Nat) : Int) ∧ (i - 1)! = p ^ s.2 * t ∧ ¬ p ∣ t) (a := 1) (n := n + 1) (s := (normM 1 ((p ^ e : Nat) : Int), 0)) (by omega)
    ⟨1, by simpa using normM_nat 1 (p ^ e), by simp, fun h => hp.one_lt.ne' (Nat.dvd_one.mp h)⟩
    (by
      rintro i ⟨r, a⟩ hi1 hi ⟨t, h1, h2, h3⟩
      simp only [] at h1 h2
      obtain ⟨j, rfl⟩ : ∃ j, i = j + 1 := ⟨i - 1, by omega⟩
      obtain ⟨u, k, e2, h4, h5⟩ := C13_factor_out (j + 1) p a (by omega) hp.two_le
      simp only []
      rw [e2, Option.bind_eq_bind, Option.bind_some]
      refine ⟨_, rfl, t * u, by simp only []; rw [h1, mulM_nat], ?_, not_dvd_mul hp h3 h5⟩
      rw [Nat.add_sub_cancel] at h2
      rw [Nat.add_sub_cancel, Nat.factorial_succ, h2]
      simp only []
      rw [h4]; ring)
  rw [Nat.add_sub_cancel] at h2
  obtain ⟨k1, k2⟩ := split_unique hp h2 h3
  rw [k1, k2, ← h1]
  exact e1

theorem divides_choose {p n k ar as R S : Nat} (hp : p.Prime) (hk : k ≤ n) (hR : n.descFactorial k = p ^ ar * R) (hR' : ¬ p ∣ R)
    (hS : k ! = p ^ as * S) (hS' : ¬ p ∣ S) : (n.choose k).factorization p + as = ar ∧ n.choose k / p ^ (n.choose k).factorization p * S = R := by
  have hc : n.choose k ≠ 0 := (Nat.choose_pos hk).ne'
  have h1 : n.descFactorial k = p ^ ((n.choose k).factorization p + as) * (n.choose k / p ^ (n.choose k).factorization p * S) := by
    rw [Nat.descFactorial_eq_factorial_mul_choose, hS, pow_add]
    conv_lhs => rw [← Nat.ordProj_mul_ordCompl_eq_self (n.choose k) p]
    ring
  have h2 : ¬ p ∣ n.choose k / p ^ (n.choose k).factorization p * S := not_dvd_mul hp (Nat.not_dvd_ordCompl hp hc) hS'
  obtain ⟨k1, k2⟩ := split_unique hp h1 h2
  obtain ⟨k3, k4⟩ := split_unique hp hR hR'
  refine ⟨by omega, ?_⟩
  rw [← k2, ← k4, ← k1, ← k3]

theorem coprime_pow {p S : Nat} (e : Nat) (hp : p.Prime) (h : ¬ p ∣ S) : Nat.Coprime S (p ^ e) :=
  ((hp.coprime_iff_not_dvd.mpr h).symm).pow_right e

/-- **C77**: for `k ≤ n`, `binomial_mod_pp_reduced_slow(n, k, p, e)` is `C(n, k) / p^a` modulo `p^e`, and `a`, where `p^a` is the
largest power of the prime `p` that divides `C(n, k)`. -/
theorem C77_binomial_slow (n k p e : Nat) (hp : p.Prime) (hk : k ≤ n) :
    binomialSlow n k p e = some (((n.choose k / p ^ (n.choose k).factorization p % p ^ e : Nat) : Int), ((n.choose k).factorization p : Int)) := by
  have hsym : n.choose k = n.choose (min k (n - k)) := by
    rcases le_total k (n - k) with h | h
    · rw [min_eq_left h]
    · rw [min_eq_right h, Nat.choose_symm hk]
  rw [hsym, binomialSlow]
  have hk' : min k (n - k) ≤ n := le_trans (min_le_left _ _) hk
  generalize min k (n - k) = l at *
  rw [powT_nat]
  have one : ¬ p ∣ 1 := fun h => hp.one_lt.ne' (Nat.dvd_one.mp h)
  have hn : normM 1 ((p ^ e : Nat) : Int) = ((1 % p ^ e : Nat) : Int) := by simpa using normM_nat 1 (p ^ e)
  obtain ⟨s, e1, R, S, -, h1, h2, h3, h4, h5, h6⟩ := forUp_spec (body := fun i (st : Nat × (Int × Nat) × Int × Nat) => do
      let (t, ar) ← factorOut st.1 p st.2.1.2
      let (u, as) ← factorOut i p st.2.2.2
      some (st.1 - 1, (mulM st.2.1.1 t ((p ^ e : Nat) : Int), ar), mulM st.2.2.1 u ((p ^ e : Nat) : Int), as))
    (fun i st => ∃ R S, st.1 + (i - 1) = n ∧ st.2.1.1 = ((R % p ^ e : Nat) : Int) ∧ n.descFactorial (i - 1) = p ^ st.2.1.2 * R ∧ ¬ p ∣ R ∧
      st.2.2.1 = ((S % p ^ e : Nat) : Int) ∧ (i - 1)! = p ^ st.2.2.2 * S ∧ ¬ p ∣ S) (a := 1) (n := l + 1)
    (s := (n, (normM 1 ((p ^ e : Nat) : Int), 0), normM 1 ((p ^ e : Nat) : Int), 0)) (by omega)
    ⟨1, 1, by simp, hn, by simp, one, hn, by simp, one⟩
    (by
      rintro i ⟨c, ⟨r, ar⟩, s, as⟩ hi1 hi ⟨R, S, h0, h1, h2, h3, h4, h5, h6⟩
      simp only [] at h0 h1 h2 h4 h5
      obtain ⟨j, rfl⟩ : ∃ j, i = j + 1 := ⟨i - 1, by omega⟩
      rw [Nat.add_sub_cancel] at h0 h2 h5
      obtain ⟨t, k1, e2, h7, h8⟩ := C13_factor_out c p ar (by omega) hp.two_le
      obtain ⟨u, k2, e3, h9, h10⟩ := C13_factor_out (j + 1) p as (by omega) hp.two_le
      simp only []
      rw [e2, Option.bind_eq_bind, Option.bind_some]
      simp only []
      rw [e3, Option.bind_some]
      refine ⟨_, rfl, R * t, S * u, ?_, ?_, ?_, not_dvd_mul hp h3 h8, ?_, ?_, not_dvd_mul hp h6 h10⟩
      · simp only []; omega
      · simp only []; rw [h1, mulM_nat]
      · simp only []
        rw [Nat.add_sub_cancel, Nat.descFactorial_succ, h2, show n - j = c by omega, h7]; ring
      · simp only []; rw [h4, mulM_nat]
      · simp only []
        rw [Nat.add_sub_cancel, Nat.factorial_succ, h5, h9]; ring)
  rw [binomialLoop, e1, Option.bind_eq_bind, Option.bind_some]
  rw [Nat.add_sub_cancel] at h2 h5
  obtain ⟨k1, k2⟩ := divides_choose hp hk' h2 h3 h5 h6
  rw [h1, h4, ← k2, divM_nat _ _ _ (Nat.pow_pos hp.pos) (coprime_pow e hp h6)]
  refine congrArg some (Prod.ext rfl ?_)
  simp only []
  omega

/-! ### the look-up table -/

theorem negM_spec (m : Nat) (f : Int) (h0 : 0 ≤ f) (h1 : f < m) : 0 ≤ negM f m ∧ negM f m < m ∧ ((negM f m : Int) : ZMod m) = -(f : ZMod m) := by
  rw [negM]
  by_cases h : f = 0
  · rw [if_pos h, h]; exact ⟨le_refl _, by omega, by simp⟩
  · rw [if_neg h]
    refine ⟨by omega, by omega, ?_⟩
    push_cast
    rw [ZMod.natCast_self, zero_sub]

theorem mulM_spec (m : Nat) (hm : 0 < m) (f t : Int) (h0 : 0 ≤ f) (h1 : 0 ≤ t) : 0 ≤ mulM f t m ∧ mulM f t m < m ∧ ((mulM f t m : Int) : ZMod m) = f * t := by
  rw [mulM_eq _ _ _ h0 h1]
  refine ⟨Int.emod_nonneg _ (by omega), Int.emod_lt_of_pos _ (by omega), ?_⟩
  rw [ZMod.intCast_mod]
  push_cast; rfl

theorem reduced2Loop_spec (p e : Nat) (hp : p.Prime) (tbl : List Int) (ht : ∀ i, i < p ^ e → tbl[i]? = some ((skip p i % p ^ e : Nat) : Int)) :
    ∀ (fuel n : Nat) (f : Int) (a : Nat), n < fuel → 0 ≤ f → f < (p ^ e : Nat) →
    ∃ f', reduced2Loop p (p ^ e) (!(p == 2 && e != 2)) tbl fuel n f a = some (f', a + (n !).factorization p) ∧ 0 ≤ f' ∧ f' < (p ^ e : Nat) ∧
      (f' : ZMod (p ^ e)) = f * (red p n : Nat) := by
  intro fuel
  induction fuel with
  | zero => intro n f a h; omega
  | succ fuel ih =>
    intro n f a hn h0 h1
    have hm : 0 < p ^ e := Nat.pow_pos hp.pos
    rw [reduced2Loop]
    by_cases h : 1 < n
    · rw [if_pos h, if_neg (by have := hp.pos; omega)]
      simp only []
      rw [rd, ht _ (Nat.mod_lt _ hm), Option.bind_eq_bind, Option.bind_some]
      have hneg : ∃ g, (if (!(p == 2 && e != 2) && (n / p ^ e % 2 != 0)) = true then negM f ((p ^ e : Nat) : Int) else f) = g ∧ 0 ≤ g ∧ g < (p ^ e : Nat) ∧
          (g : ZMod (p ^ e)) = f * (if p = 2 ∧ e ≠ 2 then 1 else -1) ^ (n / p ^ e) := by
        refine ⟨_, rfl, ?_⟩
        by_cases hs : p = 2 ∧ e ≠ 2
        · rw [if_pos hs, if_neg (by simp [hs.1, hs.2]), one_pow, mul_one]
          exact ⟨h0, h1, rfl⟩
        · rw [if_neg hs]
          have hs' : (!(p == 2 && e != 2)) = true := by
            simp only [Bool.not_eq_true', Bool.and_eq_false_iff, beq_eq_false_iff_ne, bne_eq_false_iff_eq]
            tauto
          rw [hs', Bool.true_and]
          rcases Nat.mod_two_eq_zero_or_one (n / p ^ e) with hq | hq
          · rw [if_neg (by simp [hq]), Even.neg_one_pow (Nat.even_iff.mpr hq), mul_one]
            exact ⟨h0, h1, rfl⟩
          · rw [if_pos (by simp [hq]), Odd.neg_one_pow (Nat.odd_iff.mpr hq), mul_neg, mul_one]
            exact negM_spec _ f h0 h1
      obtain ⟨g, eg, g0, g1, g2⟩ := hneg
      rw [eg]
      obtain ⟨m0, m1, m2⟩ := mulM_spec (p ^ e) hm g ((skip p (n % p ^ e) % p ^ e : Nat) : Int) g0 (Int.natCast_nonneg _)
      obtain ⟨f', e1, k1, k2, k3⟩ := ih (n / p) _ (a + n / p) (by have := Nat.div_lt_self (n := n) (k := p) (by omega) hp.one_lt; omega) m0 m1
      refine ⟨f', by rw [e1, factorization_factorial p n hp, add_assoc], k1, k2, ?_⟩
      rw [k3, m2, g2, red_step p n hp]
      have hsk := skip_blocks p e hp (n / p ^ e) (n % p ^ e)
      rw [Nat.div_add_mod'] at hsk
      rw [Nat.cast_mul, hsk, cast_mod]
      ring
    · rw [if_neg h]
      obtain ⟨r1, r2⟩ := red_small p n (by omega)
      exact ⟨f, by rw [r2, add_zero], h0, h1, by rw [r1]; simp⟩

theorem tableOk_skip {p e n : Nat} {tbl : List Int} (hp : 0 < p) (ht : TableOk p e n tbl) : ∀ i, i < n → tbl[i]? = some ((skip p i % p ^ e : Nat) : Int) := by
  intro i hi
  rw [ht i hi, factorial_div_skip p i hp]

/-- **C77**: with a table up to `p^e`, `factorial_mod_pp_reduced_2(n, p, e, table)` gives the same result as
`factorial_mod_pp_reduced_slow`. -/
theorem C77_reduced_2 (n p e : Nat) (hp : p.Prime) (tbl : List Int) (ht : TableOk p e (p ^ e) tbl) :
    reduced2 n p e tbl = some (((n ! / p ^ (n !).factorization p % p ^ e : Nat) : Int), (n !).factorization p) := by
  have ht' := tableOk_skip hp.pos ht
  have hm : 0 < p ^ e := Nat.pow_pos hp.pos
  rw [reduced2, powT_nat, Int.toNat_natCast]
  rw [rd, ht' 0 hm, Option.bind_eq_bind, Option.bind_some, normM_nat, Nat.mod_mod, skip_zero]
  obtain ⟨f', e1, k1, k2, k3⟩ := reduced2Loop_spec p e hp tbl ht' (n + 2) n ((1 % p ^ e : Nat) : Int) 0 (by omega) (Int.natCast_nonneg _)
    (by exact_mod_cast Nat.mod_lt _ hm)
  rw [e1, zero_add]
  refine congrArg some (Prod.ext ?_ rfl)
  refine residue_eq _ f' _ k1 k2 ?_
  rw [k3, cast_mod, Nat.cast_one, one_mul]; rfl

/-- **C77**: with a table up to `p^e`, for `k ≤ n`, `binomial_mod_pp_reduced_2(n, k, p, e, table)` is `C(n, k) / p^a` modulo `p^e`,
and `a`, where `p^a` is the largest power of `p` that divides `C(n, k)`. -/
theorem C77_binomial_2 (n k p e : Nat) (hp : p.Prime) (hk : k ≤ n) (tbl : List Int) (ht : TableOk p e (p ^ e) tbl) :
    binomial2 n k p e tbl = some (((n.choose k / p ^ (n.choose k).factorization p % p ^ e : Nat) : Int), ((n.choose k).factorization p : Int)) := by
  rw [binomial2, powT_nat]
  rw [C77_reduced_2 n p e hp tbl ht, C77_reduced_2 k p e hp tbl ht, C77_reduced_2 (n - k) p e hp tbl ht]
  simp only [Option.bind_eq_bind, Option.bind_some]
  have hc : n.choose k ≠ 0 := (Nat.choose_pos hk).ne'
  have f1 := red_mul p n
  have f2 := red_mul p k
  have f3 := red_mul p (n - k)
  have f4 := Nat.ordProj_mul_ordCompl_eq_self (n.choose k) p
  have d2 := not_dvd_red p k hp
  have d3 := not_dvd_red p (n - k) hp
  have d4 := Nat.not_dvd_ordCompl hp hc
  have hmul : n ! = p ^ ((n.choose k).factorization p + ((k !).factorization p + ((n - k)!).factorization p)) *
      (n.choose k / p ^ (n.choose k).factorization p * (red p k * red p (n - k))) := by
    rw [← Nat.choose_mul_factorial_mul_factorial hk]
    conv_lhs => rw [← f4, ← f2, ← f3]
    rw [pow_add, pow_add]; ring
  obtain ⟨k1, k2⟩ := split_unique hp hmul (not_dvd_mul hp d4 (not_dvd_mul hp d2 d3))
  rw [← k1] at k2
  rw [k2]
  have hS : mulM ((k ! / p ^ (k !).factorization p % p ^ e : Nat) : Int) (((n - k)! / p ^ ((n - k)!).factorization p % p ^ e : Nat) : Int) ((p ^ e : Nat) : Int) =
      ((red p k * red p (n - k) % p ^ e : Nat) : Int) := by
    rw [mulM_nat, Nat.mul_mod_mod]; rfl
  rw [hS, divM_nat _ _ _ (Nat.pow_pos hp.pos) (coprime_pow e hp (not_dvd_mul hp d2 d3))]
  refine congrArg some (Prod.ext rfl ?_)
  simp only []
  omega

/-- The tables of `factorials_mod_pp_skipped` meet the hypothesis of the two theorems above. -/
theorem C77_table_usable (n p e : Nat) (hp : p.Prime) (hn : p ^ e ≤ n + 1) : ∃ tbl, skippedTable n p e = some tbl ∧ TableOk p e (p ^ e) tbl := by
  obtain ⟨tbl, h1, _, h3⟩ := C77_table n p e hp.pos
  exact ⟨tbl, h1, fun i hi => h3 i (by omega)⟩

example : skippedTable 9 3 2 = some [1, 1, 2, 2, 8, 4, 4, 1, 8, 8] := by decide +kernel
example : reducedSlow 10 3 2 = some (7, 4) ∧ (10 ! / 3 ^ 4) % 9 = 7 := by decide +kernel
example : reduced2 10 3 2 [1, 1, 2, 2, 8, 4, 4, 1, 8] = some (7, 4) := by decide +kernel
example : binomialSlow 10 4 3 2 = some (7, 1) ∧ binomial2 10 4 3 2 [1, 1, 2, 2, 8, 4, 4, 1, 8] = some (7, 1) ∧ Nat.choose 10 4 = 210 := by decide +kernel
/-- The modulus 4 is the exception among the powers of two. -/
example : (skippedTable 4 2 2).map (fun t => t[4]?) = some (some 3) ∧ (skippedTable 8 2 3).map (fun t => t[8]?) = some (some 1) := by decide +kernel

end Altruct.CombPP
