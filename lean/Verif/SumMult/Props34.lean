/-
C112: `sum_multiplicative_34`.
-/
import Verif.SumMult.Table
import Mathlib.Data.Nat.Totient

namespace Altruct.SumMult

open Finset
open Altruct.Maps (SqrtMap Key)
open Altruct.Dirichlet (PrimeTable)
open scoped Classical

variable {α : Type} [CommRing α]

/-- The primes of the table before index `i`. -/
def Before (pa : List Nat) (i p : Nat) : Prop := ∃ j < i, pa[j]? = some p

theorem before_succ {pa : List Nat} {i p : Nat} (hp : pa[i]? = some p) (r : Nat) : Before pa (i + 1) r ↔ Before pa i r ∨ r = p := by
  constructor
  · rintro ⟨j, hj, e⟩
    by_cases h : j = i
    · subst h
      rw [hp] at e
      exact Or.inr (Option.some.inj e).symm
    · exact Or.inl ⟨j, by omega, e⟩
  · rintro (⟨j, hj, e⟩ | rfl)
    · exact ⟨j, by omega, e⟩
    · exact ⟨i, by omega, hp⟩

theorem before_lt {pa : List Nat} {m N i p r : Nat} (T : PrimeTable pa m N) (hi : i < m) (hp : pa[i]? = some p) (h : Before pa i r) : r < p := by
  obtain ⟨j, hj, e⟩ := h
  exact T.sorted j i r p hj hi e hp

/-! ### The loops -/

section loops
variable {F : Nat → α} {f : α → Nat → Nat → α} {pa : List Nat} {m N : Nat} {self : Nat → Nat → α → Nat → Nat → Option α}
  {n be bv : Nat} {ftb : α} {W : Nat → α}

/-- What the recursive calls have to return. -/
def SelfOk (F : Nat → α) (pa : List Nat) (m : Nat) (self : Nat → Nat → α → Nat → Nat → Option α) (n : Nat) (ftb : α) (bv be : Nat) (W : Nat → α) : Prop :=
  ∀ (i p e : Nat), i < m → pa[i]? = some p → 1 ≤ e → (if be ≠ 0 then bv else p) ≤ n / p ^ e →
    ∃ r, self (n / p ^ e) i (if be ≠ 0 then ftb else F (p ^ e)) (if be ≠ 0 then bv else p) (if be ≠ 0 then be else e) = some r ∧
      (if be ≠ 0 then F (p ^ e) * r else r) = sumS (Before pa i) (n / p ^ e) (fun u => W (p ^ e * u))

theorem expLoop_spec (hF : Mult F f) (T : PrimeTable pa m N) (hs : SelfOk F pa m self n ftb bv be W) (hbv : be ≠ 0 → 1 ≤ bv)
    (hz : ∀ p t : Nat, p.Prime → p ∣ t → 1 ≤ t → n / t < (if be ≠ 0 then bv else p) → W t = 0)
    {i p : Nat} (hi : i < m) (hp : pa[i]? = some p) : ∀ (fuel e : Nat) (ret : α), n / p ^ (e + 1) ≤ fuel →
    expLoop self f p i ftb be (if be ≠ 0 then bv else p) fuel (n / p ^ (e + 1)) e (F (p ^ e)) ret =
      some (ret + sumS (Before pa (i + 1)) (n / p ^ (e + 1)) (fun u => W (p ^ (e + 1) * u))) := by
  have hpr := T.prime i p hi hp
  have hnb : ¬ Before pa i p := fun h => lt_irrefl _ (before_lt T hi hp h)
  intro fuel
  induction fuel with
  | zero =>
    intro e ret hf
    have hv : 1 ≤ (if be ≠ 0 then bv else p) := by
      split_ifs with h
      · exact hbv h
      · exact hpr.pos
    rw [expLoop, if_neg (by omega), sumS_zero, add_zero]
    intro t h1 h2 _
    omega
  | succ fuel ih =>
    intro e ret hf
    rw [expLoop]
    by_cases hv : (if be ≠ 0 then bv else p) ≤ n / p ^ (e + 1)
    · obtain ⟨r, er, hr⟩ := hs i p (e + 1) hi hp (by omega) hv
      rw [if_pos hv]
      simp only
      rw [hF.pow p e hpr, er, Option.bind_some, if_neg hpr.pos.ne', Nat.div_div_eq_div_mul, ← pow_succ, ih (e + 1), hr,
        sumS_split hpr hnb (fun r _ => before_succ hp r) (n / p ^ (e + 1)), Nat.div_div_eq_div_mul, ← pow_succ, add_assoc]
      · congr 3
        apply sumS_congr
        intro u _ _ _
        rw [pow_succ p (e + 1), mul_assoc]
      · have h1 : 1 ≤ n / p ^ (e + 1) := by
          refine le_trans ?_ hv
          split_ifs with h
          · exact hbv h
          · exact hpr.pos
        rw [pow_succ p (e + 1), ← Nat.div_div_eq_div_mul]
        have := Nat.div_lt_self h1 hpr.one_lt
        omega
    · rw [if_neg hv, sumS_zero, add_zero]
      intro u h1 _ _
      apply hz p _ hpr (Dvd.dvd.mul_right (dvd_pow_self p (by omega)) u) (Nat.mul_pos (pow_pos hpr.pos _) h1)
      rw [← Nat.div_div_eq_div_mul]
      have := Nat.div_le_self (n / p ^ (e + 1)) u
      omega

theorem primeLoop_spec (hF : Mult F f) (T : PrimeTable pa m N) (hs : SelfOk F pa m self n ftb bv be W) (hbv : be ≠ 0 → 1 ≤ bv)
    (hz : ∀ p t : Nat, p.Prime → p ∣ t → 1 ≤ t → n / t < (if be ≠ 0 then bv else p) → W t = 0) {M : Nat} (hM : M ≤ m) {fuel : Nat} (hf : n ≤ fuel) :
    ∀ (c i : Nat) (ret : α), i + c = M →
    primeLoop self f pa n ftb bv be fuel c i (ret + sumS (Before pa i) n W) = some (ret + sumS (Before pa M) n W) := by
  intro c
  induction c with
  | zero => intro i ret h; rw [primeLoop, ← h]; rfl
  | succ c ih =>
    intro i ret h
    have him : i < m := by omega
    obtain ⟨p, hp⟩ : ∃ p, pa[i]? = some p := ⟨pa[i]'(by have := T.len; omega), by rw [List.getElem?_eq_getElem]⟩
    have hpr := T.prime i p him hp
    have hnb : ¬ Before pa i p := fun h => lt_irrefl _ (before_lt T him hp h)
    rw [primeLoop, show rd pa i = some p from hp, Option.bind_some, if_neg hpr.pos.ne']
    simp only
    by_cases hv : n / p < (if be ≠ 0 then bv else p)
    · rw [if_pos hv]
      congr 2
      -- the numbers that are left out contribute nothing
      rw [sumS, sumS]
      apply Finset.sum_subset
      · intro t ht
        rw [mem_filter] at ht ⊢
        exact ⟨ht.1, fun r hr hd => by
          obtain ⟨j, hj, e⟩ := ht.2 r hr hd
          exact ⟨j, by omega, e⟩⟩
      · intro t ht hnt
        rw [mem_filter, mem_Icc] at ht
        have : ∃ r : Nat, r.Prime ∧ r ∣ t ∧ ¬ Before pa i r := by
          by_contra hc
          push Not at hc
          apply hnt
          rw [mem_filter, mem_Icc]
          exact ⟨ht.1, fun r hr hd => hc r hr hd⟩
        obtain ⟨r, hr, hd, hnr⟩ := this
        obtain ⟨j, hj, e⟩ := ht.2 r hr hd
        have hij : i ≤ j := by
          by_contra hc
          exact hnr ⟨j, by omega, e⟩
        have hpr2 : p ≤ r := by
          rcases Nat.lt_or_ge i j with h1 | h1
          · exact (T.sorted i j p r h1 (by omega) hp e).le
          · have : j = i := by omega
            subst this
            rw [hp] at e
            exact (Option.some.inj e).le
        apply hz r t hr hd ht.1.1
        have h1 : n / t ≤ n / p := Nat.div_le_div_left (le_trans hpr2 (Nat.le_of_dvd ht.1.1 hd)) hpr.pos
        split_ifs at hv ⊢ <;> omega
    · rw [if_neg hv]
      have h1 := expLoop_spec hF T hs hbv hz him hp fuel 0 (ret + sumS (Before pa i) n W) (by
        have := Nat.div_le_self n (p ^ (0 + 1)); omega)
      rw [zero_add, pow_one, pow_zero, hF.one] at h1
      rw [h1, Option.bind_some, add_assoc, ← sumS_split hpr hnb (fun r _ => before_succ hp r) n]
      exact ih (i + 1) ret (by omega)

end loops

/-! ### The recursion -/

/-- The contribution of the largest prime `q` with `v <= q <= y` to numbers whose next prime power is `v^e`. -/
noncomputable def G (F : Nat → α) (v e y : Nat) : α := ∑ q ∈ (Icc v y).filter Nat.Prime, F (v ^ e * q)

theorem coprime_of_smooth {pa : List Nat} {i u q : Nat} (hq : q.Prime) (hlt : ∀ r, Before pa i r → r < q) (hs : Smooth (Before pa i) u) :
    Nat.Coprime q u := by
  rw [Nat.Prime.coprime_iff_not_dvd hq]
  intro hd
  exact lt_irrefl _ (hlt q (hs q hq hd))

theorem G_eq {F : Nat → α} {f : α → Nat → Nat → α} (hF : Mult F f) {v e y : Nat} (hv : v.Prime) (hy : v ≤ y) :
    G F v e y = F (v ^ (e + 1)) + F (v ^ e) * (primeSum F y - primeSum F v) := by
  have h1 : (Icc v y).filter Nat.Prime = insert v ((Ioc v y).filter Nat.Prime) := by
    ext q
    simp only [mem_filter, mem_Icc, mem_insert, mem_Ioc]
    constructor
    · rintro ⟨⟨h1, h2⟩, h3⟩
      by_cases h : q = v
      · exact Or.inl h
      · exact Or.inr ⟨⟨by omega, h2⟩, h3⟩
    · rintro (rfl | ⟨⟨h1, h2⟩, h3⟩)
      · exact ⟨⟨le_refl _, hy⟩, hv⟩
      · exact ⟨⟨by omega, h2⟩, h3⟩
  have h2 : primeSum F y = primeSum F v + ∑ q ∈ (Ioc v y).filter Nat.Prime, F q := by
    rw [primeSum, primeSum, ← Finset.sum_union]
    · congr 1
      ext q
      simp only [mem_filter, mem_Icc, mem_union, mem_Ioc]
      have := hv.pos
      constructor
      · rintro ⟨⟨h1, h2⟩, h3⟩
        by_cases h : q ≤ v
        · exact Or.inl ⟨⟨h1, h⟩, h3⟩
        · exact Or.inr ⟨⟨by omega, h2⟩, h3⟩
      · rintro (⟨⟨h1, h2⟩, h3⟩ | ⟨⟨h1, h2⟩, h3⟩)
        · exact ⟨⟨h1, by omega⟩, h3⟩
        · exact ⟨⟨by omega, h2⟩, h3⟩
    · rw [Finset.disjoint_left]
      intro q
      simp only [mem_filter, mem_Icc, mem_Ioc]
      omega
  rw [G, h1, Finset.sum_insert (by simp), h2, add_sub_cancel_left, Finset.mul_sum, pow_succ]
  congr 1
  apply Finset.sum_congr rfl
  intro q hq
  rw [mem_filter, mem_Ioc] at hq
  exact hF.mul _ _ (pow_pos hv.pos e) hq.2.pos (Nat.Coprime.pow_left e ((Nat.coprime_primes hv hq.2).mpr (by omega)))

theorem G_zero (F : Nat → α) {v e y : Nat} (h : y < v) : G F v e y = 0 := by
  rw [G, Finset.Icc_eq_empty (by omega)]; rfl

/-- The recursion below the first level. -/
theorem sum34_inner {F : Nat → α} {f : α → Nat → Nat → α} (hF : Mult F f) {pa : List Nat} {m N L K : Nat} (T : PrimeTable pa m N) {s : SqrtMap α}
    (hL : 1 ≤ L) {g : Nat → α} (hs : Tb s L K g) (hg : ∀ k, 1 ≤ k → g k = primeSum F k) (v e : Nat) (hv : v.Prime) (he : 1 ≤ e) (hvL : v ≤ L) :
    ∀ (fuel c M : Nat), 1 ≤ c → v ≤ K / c → K / c < fuel → M ≤ m → (∀ r, Before pa M r → r < v) →
    sum34 s f pa fuel (K / c) M (F (v ^ e)) v e = some (sumS (Before pa M) (K / c) (fun t => F t * G F v e (K / c / t))) := by
  intro fuel
  induction fuel with
  | zero => intro c M _ _ h; omega
  | succ fuel ih =>
    intro c M hc hvn hf hM hlt
    have hvp := hv.pos
    have hn0 : 1 ≤ K / c := by omega
    have hbe : e ≠ 0 := by omega
    rw [sum34, hs.el hL (key_div hc), Option.bind_some, if_pos hbe, hs.el hL (key_lo hvL), Option.map_some, Option.bind_some,
      hg _ hn0, hg _ hvp, hF.pow v e hv, ← G_eq hF hv hvn]
    have h0 : G F v e (K / c) = 0 + sumS (Before pa 0) (K / c) (fun t => F t * G F v e (K / c / t)) := by
      rw [sumS_none hn0 (fun p _ _ hb => by obtain ⟨j, hj, _⟩ := hb; omega), hF.one, one_mul, Nat.div_one, zero_add]
    rw [h0]
    have hloop := primeLoop_spec (self := sum34 s f pa fuel) (n := K / c) (be := e) (bv := v) (ftb := F (v ^ e))
      (W := fun t => F t * G F v e (K / c / t)) (M := M) (m := M) hF
      ⟨le_trans hM T.len, fun i j x y h1 h2 => T.sorted i j x y h1 (by omega), fun i p h => T.prime i p (by omega), fun p _ h => absurd h (Nat.not_lt_zero p)⟩
      (N := 0) ?_ (fun _ => hvp) ?_ (le_refl M) (fuel := fuel) (by omega) M 0 0 (by omega)
    · rw [hloop, zero_add]
    · intro i p e' hi hp he' hle
      rw [if_pos hbe] at hle
      have hpr := T.prime i p (by omega) hp
      have hpe : 1 ≤ p ^ e' := pow_pos hpr.pos _
      have hdd : K / c / p ^ e' = K / (c * p ^ e') := Nat.div_div_eq_div_mul _ _ _
      simp only [if_pos hbe]
      rw [hdd] at hle ⊢
      have hlt' : K / (c * p ^ e') < K / c := by
        rw [← hdd]
        exact Nat.div_lt_self hn0 (Nat.one_lt_pow (by omega) hpr.one_lt)
      refine ⟨_, ih (c * p ^ e') i (Nat.mul_pos hc hpe) hle (by omega) (by omega) (fun r hr => ?_), ?_⟩
      · obtain ⟨j, hj, e1⟩ := hr
        exact hlt r ⟨j, by omega, e1⟩
      · rw [sumS_mul]
        apply sumS_congr
        intro u hu _ hsu
        have hco : Nat.Coprime (p ^ e') u := Nat.Coprime.pow_left e' (coprime_of_smooth hpr (fun r hr => before_lt T (by omega) hp hr) hsu)
        rw [hF.mul _ _ hpe hu hco, mul_assoc, ← hdd, Nat.div_div_eq_div_mul (K / c)]
    · intro p t _ _ _ hlt2
      rw [if_pos hbe] at hlt2
      change F t * G F v e (K / c / t) = 0
      rw [G_zero F hlt2, mul_zero]

/-- The contribution of the numbers `t * q`, where `q` is a prime not below any prime factor of `t`. -/
noncomputable def W0 (F : Nat → α) (n t : Nat) : α := ∑ q ∈ (Icc 1 (n / t)).filter (fun q => q.Prime ∧ ∀ r : Nat, r.Prime → r ∣ t → r ≤ q), F (t * q)

/-- Every number except one is uniquely such a product. -/
theorem total_eq {F : Nat → α} (h1 : F 1 = 1) {n : Nat} (hn : 1 ≤ n) : total F n = 1 + ∑ t ∈ Icc 1 n, W0 F n t := by
  rw [total, ← Finset.add_sum_Ioc_eq_sum_Icc hn, h1]
  congr 1
  simp only [W0]
  rw [Finset.sum_sigma']
  symm
  apply Finset.sum_nbij (fun x : (_ : Nat) × Nat => x.1 * x.2)
  · rintro ⟨t, q⟩ hx
    simp only [mem_sigma, mem_Icc, mem_filter] at hx
    obtain ⟨⟨a1, a2⟩, ⟨b1, b2⟩, hq, hr⟩ := hx
    rw [mem_Ioc]
    constructor
    · have h3 : q ≤ t * q := Nat.le_mul_of_pos_left q a1
      have := hq.two_le
      change 1 < t * q
      omega
    · change t * q ≤ n
      rw [mul_comm]; exact (Nat.le_div_iff_mul_le a1).mp b2
  · rintro ⟨t, q⟩ hx ⟨t', q'⟩ hx' e
    simp only [coe_sigma, Set.mem_sigma_iff, coe_Icc, coe_filter, mem_Icc, Set.mem_ofPred_eq, Set.mem_Icc] at hx hx'
    obtain ⟨⟨a1, a2⟩, ⟨b1, b2⟩, hq, hr⟩ := hx
    obtain ⟨⟨a1', a2'⟩, ⟨b1', b2'⟩, hq', hr'⟩ := hx'
    simp only at e
    have hle : ∀ {t q t' q' : Nat}, q.Prime → q'.Prime → (∀ r : Nat, r.Prime → r ∣ t → r ≤ q) → t * q = t' * q' → q' ≤ q := by
      intro t q t' q' hq hq' hr e
      have hd : q' ∣ t * q := by rw [e]; exact dvd_mul_left _ _
      rcases (Nat.Prime.dvd_mul hq').mp hd with h | h
      · exact hr q' hq' h
      · exact ((Nat.prime_dvd_prime_iff_eq hq' hq).mp h).le
    have hqq : q = q' := le_antisymm (hle hq' hq hr' e.symm) (hle hq hq' hr e)
    subst hqq
    have htt : t = t' := Nat.eq_of_mul_eq_mul_right hq.pos e
    subst htt
    rfl
  · intro k hk
    rw [mem_coe, mem_Ioc] at hk
    obtain ⟨q, hq, hmax⟩ : ∃ q ∈ k.primeFactors, ∀ r ∈ k.primeFactors, r ≤ q := by
      have hne : k.primeFactors.Nonempty := by
        rw [Nat.nonempty_primeFactors]; exact hk.1
      exact ⟨_, Finset.max'_mem _ hne, fun r hr => Finset.le_max' _ r hr⟩
    rw [Nat.mem_primeFactors] at hq
    obtain ⟨hq, ⟨t, rfl⟩, hk0⟩ := hq
    have ht : 1 ≤ t := Nat.pos_of_ne_zero (fun h => hk0 (by rw [h, mul_zero]))
    refine ⟨⟨t, q⟩, ?_, by simp only; rw [mul_comm]⟩
    rw [mem_coe, mem_sigma, mem_Icc, mem_filter, mem_Icc]
    refine ⟨⟨ht, le_trans (Nat.le_mul_of_pos_left t hq.pos) hk.2⟩, ⟨hq.pos, (Nat.le_div_iff_mul_le ht).mpr hk.2⟩, hq, fun r hr hd => ?_⟩
    exact hmax r (Nat.mem_primeFactors.mpr ⟨hr, Dvd.dvd.mul_left hd q, hk0⟩)
  · intro x _
    rfl

/-- **C112**: `sum_multiplicative_34` returns the sum of the multiplicative function over `1 .. n`, for every table of primes that
contains the primes up to the square root. -/
theorem C112_sum_multiplicative_34 {F : Nat → α} {f : α → Nat → Nat → α} (hF : Mult F f) (sq : Nat → Nat) (n : Nat) (hn : 1 ≤ n) (hsq : sq n = Nat.sqrt n)
    (pa : List Nat) (m : Nat) (T : PrimeTable pa m (Nat.sqrt n + 1)) (fuel : Nat) (hf : n < fuel) :
    sumMultiplicative34 sq (primeSum F) f fuel n pa m = some (total F n) := by
  have hq1 : 1 ≤ Nat.sqrt n := Nat.sqrt_pos.mpr hn
  obtain ⟨s, es, ts⟩ := makeSqrtMap_spec sq (primeSum F) n (by rw [hsq]; exact hq1)
  rw [hsq] at ts
  rw [sumMultiplicative34, es, Option.bind_some]
  obtain ⟨fu, rfl⟩ : ∃ fu, fuel = fu + 1 := ⟨fuel - 1, by omega⟩
  have hel : s.el n = some (primeSum F n) := by
    have := ts.el hq1 (key_div (le_refl 1))
    rwa [Nat.div_one, if_neg (by omega)] at this
  rw [sum34, hel, Option.bind_some, if_neg (by simp), Option.bind_some]
  have h0 : (1 : α) + primeSum F n = 1 + sumS (Before pa 0) n (W0 F n) := by
    rw [sumS_none hn (fun p _ _ hb => by obtain ⟨j, hj, _⟩ := hb; omega), W0, primeSum, Nat.div_one]
    congr 1
    apply Finset.sum_congr
    · ext q
      simp only [mem_filter, mem_Icc]
      refine and_congr_right (fun _ => ⟨fun h => ⟨h, fun r hr hd => absurd (Nat.dvd_one.mp hd) hr.one_lt.ne'⟩, fun h => h.1⟩)
    · intro q _
      rw [one_mul]
  rw [h0]
  have hloop := primeLoop_spec (self := sum34 s f pa fu) (n := n) (be := 0) (bv := 1) (ftb := 1) (W := W0 F n) (M := m) (m := m) hF T ?_
    (fun h => absurd rfl h) ?_ (le_refl m) (fuel := fu) (by omega) m 0 1 (by omega)
  · rw [hloop, total_eq hF.one hn]
    congr 2
    rw [sumS]
    apply Finset.sum_subset (Finset.filter_subset _ _)
    intro t ht hnt
    rw [mem_Icc] at ht
    have : ∃ r : Nat, r.Prime ∧ r ∣ t ∧ ¬ Before pa m r := by
      by_contra hc
      push Not at hc
      exact hnt (mem_filter.mpr ⟨mem_Icc.mpr ht, fun r hr hd => hc r hr hd⟩)
    obtain ⟨r, hr, hd, hnr⟩ := this
    rw [W0]
    apply Finset.sum_eq_zero
    intro q hq
    rw [mem_filter, mem_Icc] at hq
    exfalso
    have h1 : r ≤ q := hq.2.2 r hr hd
    have h2 : r ≤ t := Nat.le_of_dvd ht.1 hd
    have h3 : q * t ≤ n := (Nat.le_div_iff_mul_le ht.1).mp hq.1.2
    have h4 : r * r ≤ n := le_trans (Nat.mul_le_mul h1 h2) h3
    obtain ⟨i, hi, e⟩ := T.all r hr (Nat.lt_succ_of_le (Nat.le_sqrt.mpr h4))
    exact hnr ⟨i, hi, e⟩
  · intro i p e hi hp he hle
    simp only [ne_eq, not_true_eq_false, if_false] at hle ⊢
    have hpr := T.prime i p hi hp
    have hpe : 1 ≤ p ^ e := pow_pos hpr.pos _
    have hpL : p ≤ Nat.sqrt n := by
      rw [Nat.le_sqrt]
      have h1 : p * p ^ e ≤ n := (Nat.le_div_iff_mul_le hpe).mp hle
      have h2 : p ≤ p ^ e := Nat.le_self_pow (by omega) p
      exact le_trans (Nat.mul_le_mul_left p h2) h1
    have hlt := Nat.div_lt_self hn (Nat.one_lt_pow (show e ≠ 0 by omega) hpr.one_lt)
    refine ⟨_, sum34_inner hF T hq1 ts (fun k hk => by rw [if_neg (by omega)]) p e hpr he hpL fu (p ^ e) i hpe hle (by omega) hi.le
      (fun r hr => before_lt T hi hp hr), ?_⟩
    apply sumS_congr
    intro u hu hux hsu
    have hcu : ∀ q : Nat, q.Prime → p ≤ q → Nat.Coprime q u := fun q hq hpq =>
      coprime_of_smooth hq (fun r hr => lt_of_lt_of_le (before_lt T hi hp hr) hpq) hsu
    rw [G, W0, Finset.mul_sum, Nat.div_div_eq_div_mul]
    apply Finset.sum_congr
    · ext q
      simp only [mem_filter, mem_Icc]
      constructor
      · rintro ⟨⟨h1, h2⟩, h3⟩
        refine ⟨⟨h3.pos, h2⟩, h3, fun r hr hd => ?_⟩
        rcases (Nat.Prime.dvd_mul hr).mp hd with h | h
        · rw [(Nat.prime_dvd_prime_iff_eq hr hpr).mp (hr.dvd_of_dvd_pow h)]; exact h1
        · exact le_trans (before_lt T hi hp (hsu r hr h)).le h1
      · rintro ⟨⟨h1, h2⟩, h3, h4⟩
        exact ⟨⟨h4 p hpr (Dvd.dvd.mul_right (dvd_pow_self p (by omega)) u), h2⟩, h3⟩
    · intro q hq
      rw [mem_filter, mem_Icc] at hq
      obtain ⟨⟨_, _⟩, hq', h4⟩ := hq
      have hpq := h4 p hpr (Dvd.dvd.mul_right (dvd_pow_self p (by omega)) u)
      rw [mul_right_comm, mul_comm (p ^ e * q) u]
      symm
      apply hF.mul u (p ^ e * q) hu (Nat.mul_pos hpe hq'.pos)
      exact (Nat.Coprime.mul_left (Nat.Coprime.pow_left e (hcu p hpr (le_refl p))) (hcu q hq' hpq)).symm
  · intro p t hp hd ht hlt
    rw [if_neg (by simp)] at hlt
    rw [W0]
    apply Finset.sum_eq_zero
    intro q hq
    rw [mem_filter, mem_Icc] at hq
    have := hq.2.2 p hp hd
    omega

/-- The number of divisors summed up to 30, from twice the numbers of primes. -/
example : sumMultiplicative34 Nat.sqrt (fun x => ([0, 0, 2, 4, 4, 6, 6, 8, 8, 8, 8, 10, 10, 12, 12, 12, 12, 14, 14, 16, 16, 16, 16, 18, 18, 18, 18, 18, 18, 20, 20].getD x 0 : Int))
    (fun _ _ e => (e : Int) + 1) 31 30 [2, 3, 5] 3 = some 111 := by decide +kernel

/-- The hypotheses are met by Euler's function, given on prime powers. -/
example : Mult (fun k => (Nat.totient k : Int)) (fun a p e => if e = 1 then (p : Int) - 1 else a * p) := by
  refine ⟨rfl, fun a b _ _ h => by rw [Nat.totient_mul h]; push_cast; rfl, fun p e hp => ?_⟩
  obtain ⟨r, rfl⟩ : ∃ r, p = r + 1 := ⟨p - 1, by have := hp.pos; omega⟩
  cases e with
  | zero => simp [Nat.totient_prime hp]
  | succ e =>
    simp only [if_neg (show ¬ e + 1 + 1 = 1 by omega)]
    rw [Nat.totient_prime_pow_succ hp, Nat.totient_prime_pow_succ hp]
    push_cast
    ring

/-- With `n = 0` the map divides by zero. -/
theorem C112_zero : sumMultiplicative34 Nat.sqrt (fun _ => (0 : Int)) (fun _ _ _ => 1) 5 0 [2] 1 = none := by decide +kernel

/-- One prime missing in the table (here 3, for `n = 9`) loses the numbers it divides twice. -/
theorem C112_missing_prime : sumMultiplicative34 Nat.sqrt (fun x => ([0, 0, 1, 2, 2, 3, 3, 4, 4, 4].getD x 0 : Int)) (fun _ _ _ => 1) 10 9 [2, 3] 2 = some 9 ∧
    sumMultiplicative34 Nat.sqrt (fun x => ([0, 0, 1, 2, 2, 3, 3, 4, 4, 4].getD x 0 : Int)) (fun _ _ _ => 1) 10 9 [2] 1 = some 8 := by decide +kernel

end Altruct.SumMult
