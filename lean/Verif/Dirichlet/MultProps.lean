/-
C52: tables of multiplicative functions.
-/
import Verif.Dirichlet.Props
import Mathlib.Algebra.IsPrimePow
import Mathlib.Data.Nat.Factorization.Basic
import Mathlib.Data.Nat.Factorization.PrimePow
import Mathlib.NumberTheory.ArithmeticFunction.Defs
import Mathlib.NumberTheory.ArithmeticFunction.Moebius

namespace Altruct.Dirichlet

open Altruct.Polynom (Quo cdiv)

variable {α : Type} [CommRing α]

/-! ### Specification -/

/-- `F` is multiplicative on the numbers below `n`. -/
def MultBelow (n : Nat) (F : Nat → α) : Prop :=
  F 1 = 1 ∧ ∀ a b, 1 ≤ a → 1 ≤ b → a * b < n → Nat.Coprime a b → F (a * b) = F a * F b

/-- The first `m` elements of `pa` are primes in increasing order, all the primes below `n` among them. -/
structure PrimeTable (pa : List Nat) (m n : Nat) : Prop where
  len : m ≤ pa.length
  sorted : ∀ (i j x y : Nat), i < j → j < m → pa[i]? = some x → pa[j]? = some y → x < y
  prime : ∀ (i p : Nat), i < m → pa[i]? = some p → p.Prime
  all : ∀ p : Nat, p.Prime → p < n → ∃ i < m, pa[i]? = some p

/-! ### Loops -/

omit [CommRing α] in
theorem primesLoop_spec {pa : List Nat} {m n : Nat} {body : Nat → List α → Option (List α)} (T : PrimeTable pa m n)
    (P : List Nat → List α → Prop)
    (step : ∀ L p s, p.Prime → p < n → p ∉ L → P L s → ∃ s', body p s = some s' ∧ P (L ++ [p]) s')
    {s : List α} (h0 : P [] s) :
    ∃ L s', primesLoop pa n body m 0 s = some s' ∧ L.Nodup ∧ (∀ p, p ∈ L ↔ p.Prime ∧ p < n) ∧ P L s' := by
  have mem : ∀ i, i ≤ m → ∀ p, p ∈ pa.take i ↔ ∃ j < i, pa[j]? = some p := by
    intro i hi p
    rw [List.mem_iff_getElem?]
    constructor
    · rintro ⟨j, hj⟩
      rw [List.getElem?_take] at hj
      split at hj
      · exact ⟨j, by assumption, hj⟩
      · simp at hj
    · rintro ⟨j, h1, h2⟩
      exact ⟨j, by rw [List.getElem?_take, if_pos h1]; exact h2⟩
  have key : ∀ cnt i s, i + cnt = m → (pa.take i).Nodup → (∀ p ∈ pa.take i, p < n) → P (pa.take i) s →
      ∃ L s', primesLoop pa n body cnt i s = some s' ∧ L.Nodup ∧ (∀ p, p ∈ L ↔ p.Prime ∧ p < n) ∧ P L s' := by
    intro cnt
    induction cnt with
    | zero =>
      intro i s hi hnd hlt hP
      refine ⟨pa.take i, s, rfl, hnd, fun p => ⟨fun hp => ⟨?_, hlt p hp⟩, fun ⟨h1, h2⟩ => ?_⟩, hP⟩
      · obtain ⟨j, h1, h2⟩ := (mem i (by omega) p).mp hp
        exact T.prime j p (by omega) h2
      · obtain ⟨j, h3, h4⟩ := T.all p h1 h2
        exact (mem i (by omega) p).mpr ⟨j, by omega, h4⟩
    | succ cnt ih =>
      intro i s hi hnd hlt hP
      have hil : i < pa.length := lt_of_lt_of_le (by omega) T.len
      obtain ⟨p, hp⟩ : ∃ p, pa[i]? = some p := ⟨_, List.getElem?_eq_getElem hil⟩
      have hpi := T.prime i p (by omega) hp
      rw [primesLoop, rd, hp]
      simp only [Option.bind_eq_bind, Option.bind_some]
      by_cases hpn : p < n
      · rw [if_pos hpn]
        have hnot : p ∉ pa.take i := by
          intro hc
          obtain ⟨j, h1, h2⟩ := (mem i (by omega) p).mp hc
          exact lt_irrefl _ (T.sorted j i p p h1 (by omega) h2 hp)
        obtain ⟨s1, e1, P1⟩ := step _ p s hpi hpn hnot hP
        have htake : pa.take (i + 1) = pa.take i ++ [p] := by
          rw [List.take_add_one, hp]; rfl
        obtain ⟨L, s2, e2, r2⟩ := ih (i + 1) s1 (by omega)
          (by rw [htake]; exact List.Nodup.append hnd (List.nodup_singleton p) (by simpa using hnot))
          (by
            intro q hq
            rw [htake, List.mem_append, List.mem_singleton] at hq
            rcases hq with hq | rfl
            · exact hlt q hq
            · exact hpn)
          (by rw [htake]; exact P1)
        exact ⟨L, s2, by rw [e1]; exact e2, r2⟩
      · rw [if_neg hpn]
        refine ⟨pa.take i, s, rfl, hnd, fun q => ⟨fun hq => ⟨?_, hlt q hq⟩, fun ⟨h1, h2⟩ => ?_⟩, hP⟩
        · obtain ⟨j, h1, h2⟩ := (mem i (by omega) q).mp hq
          exact T.prime j q (by omega) h2
        · obtain ⟨j, h3, h4⟩ := T.all q h1 h2
          refine (mem i (by omega) q).mpr ⟨j, ?_, h4⟩
          by_contra hji
          rcases Nat.lt_or_ge i j with h5 | h5
          · have := T.sorted i j p q h5 h3 hp h4
            omega
          · have : j = i := by omega
            subst this
            rw [hp] at h4
            have := Option.some.inj h4
            omega
  exact key m 0 s (by omega) (by simp) (by simp) (by simpa using h0)

omit [CommRing α] in
theorem wr_self {s : List α} {N : Nat} {g : Nat → α} (r : Rep s N g) {i : Nat} (hi : i < N) : wr s i (g i) = some s := by
  rw [r.wr hi]
  congr 1
  apply List.ext_getElem?
  intro j
  by_cases hj : j = i
  · subst hj
    rw [List.getElem?_set_self (by rw [r.len]; exact hi), r.get _ hi]
  · rw [List.getElem?_set_ne (Ne.symm hj)]

/-! ### `calc_multiplicative` -/

/-- The value of `F` at the power of `p` in `i`. -/
def loc (F : Nat → α) (p i : Nat) : α := F (p ^ i.factorization p)

/-- A multiplicative function is the product of its values at prime powers. -/
theorem prod_loc (n : Nat) (F : Nat → α) (hF : MultBelow n F) : ∀ (L : List Nat) (i : Nat), L.Nodup → (∀ p ∈ L, p.Prime) →
    1 ≤ i → i < n → (∀ p, p.Prime → p ∣ i → p ∈ L) → (L.map (fun p => loc F p i)).prod = F i := by
  intro L
  induction L with
  | nil =>
    intro i _ _ hi _ hall
    have : i = 1 := by
      by_contra h1
      obtain ⟨p, hp, hpi⟩ := Nat.exists_prime_and_dvd h1
      exact absurd (hall p hp hpi) (by simp)
    subst this
    simp [hF.1]
  | cons p L ih =>
    intro i hnd hpr hi hin hall
    rw [List.nodup_cons] at hnd
    have hp := hpr p (by simp)
    have hne : i ≠ 0 := by omega
    have hsplit := Nat.ordProj_mul_ordCompl_eq_self i p
    set q := p ^ i.factorization p with hq
    set j := i / q with hj
    have hq1 : 1 ≤ q := Nat.one_le_pow _ _ hp.pos
    have hj1 : 1 ≤ j := Nat.pos_of_ne_zero (by rintro h0; rw [h0] at hsplit; omega)
    have hcop : Nat.Coprime q j := Nat.Coprime.pow_left _ (Nat.coprime_ordCompl hp hne)
    have hjle : j ≤ i := Nat.div_le_self _ _
    have hfac : j.factorization = i.factorization.erase p := Nat.factorization_ordCompl i p
    have hih := ih j hnd.2 (fun q hq => hpr q (by simp [hq])) hj1 (by omega) (by
      intro r hr hrj
      have hri : r ∣ i := hrj.trans ⟨q, by rw [mul_comm]; exact hsplit.symm⟩
      have := hall r hr hri
      rw [List.mem_cons] at this
      rcases this with rfl | h
      · exact absurd hrj (Nat.not_dvd_ordCompl hr hne)
      · exact h)
    have hmap : L.map (fun p => loc F p i) = L.map (fun p => loc F p j) := by
      apply List.map_congr_left
      intro r hr
      rw [loc, loc, hfac, Finsupp.erase_ne]
      rintro rfl
      exact hnd.1 hr
    rw [List.map_cons, List.prod_cons, hmap, hih, loc, ← hq, ← hF.2 q j hq1 hj1 (by rw [hsplit]; exact hin) hcop, hsplit]

/-- What the table holds while the powers of `p` are processed, from the `k`-th on. -/
structure MInv (n N : Nat) (F g0 : Nat → α) (L : List Nat) (p k : Nat) (s : List α) : Prop where
  ex : ∃ gs, Rep s N gs ∧ (∀ i, i = 0 ∨ i = 1 ∨ n ≤ i → gs i = g0 i) ∧
    (∀ i, i < n → IsPrimePow i → gs i = F i) ∧
    ∀ i, 2 ≤ i → i < n → ¬ IsPrimePow i →
      gs i = (L.map (fun p => loc F p i)).prod * if i.factorization p < k then loc F p i else 1

theorem powersLoop_spec {lim n N : Nat} {F g0 : Nat → α} {L : List Nat} {p : Nat} (hp : p.Prime) (hN : n ≤ N)
    (hlim : 2 * n ≤ lim + 1) : ∀ (fuel k : Nat) (s : List α), 1 ≤ k → n ≤ fuel + p ^ k → MInv n N F g0 L p k s →
    ∃ s', powersLoop lim n p fuel (p ^ k) s = some s' ∧ MInv n N F g0 (L ++ [p]) p 0 s' := by
  have finish : ∀ k s, n ≤ p ^ k → MInv n N F g0 L p k s → MInv n N F g0 (L ++ [p]) p 0 s := by
    rintro k s hk ⟨gs, r, h1, h2, h3⟩
    refine ⟨gs, r, h1, h2, fun i hi hin hnp => ?_⟩
    have hv : i.factorization p < k := by
      by_contra hc
      have : p ^ k ≤ p ^ i.factorization p := Nat.pow_le_pow_right hp.pos (by omega)
      have := Nat.ordProj_le p (show i ≠ 0 by omega)
      omega
    rw [h3 i hi hin hnp, if_pos hv, if_neg (Nat.not_lt_zero _), List.map_append, List.prod_append, mul_one]
    simp
  intro fuel
  induction fuel with
  | zero =>
    intro k s _ hf h
    exact ⟨s, by rw [powersLoop, if_neg (by omega)], finish k s (by omega) h⟩
  | succ fuel ih =>
    intro k s hk1 hf h
    by_cases hlt : p ^ k < n
    · obtain ⟨gs, r, h1, h2, h3⟩ := h
      have hpos : 0 < p ^ k := Nat.pow_pos hp.pos
      have hqpp : IsPrimePow (p ^ k) := (isPrimePow_nat_iff _).mpr ⟨p, k, hp, hk1, rfl⟩
      obtain ⟨s1, e1, r1⟩ := multiples_spec (lim := lim) (n := n) (d := p ^ k) (j0 := 2) (body := multBody p (p ^ k))
        (U := fun i => if i / p ^ k % p ≠ 0 then gs i * gs (p ^ k) else gs i) r hN hpos (by omega)
        (fun j s gs' hj hjn rs hg hlow => by
          rw [multBody, Nat.mul_div_cancel_left j hpos]
          by_cases hc : j % p ≠ 0
          · rw [if_pos hc, if_pos hc, rs.rd (by omega), rs.rd (by omega), hg, hlow _ (by omega)]
            rfl
          · rw [if_neg hc, if_neg hc, ← hg, wr_self rs (by omega)])
      rw [Nat.mul_comm] at e1
      have hinv : MInv n N F g0 L p (k + 1) s1 := by
        refine ⟨_, r1, fun i hi => ?_, fun i hi hpp => ?_, fun i hi hin hnp => ?_⟩
        · rw [if_neg (by omega)]; exact h1 i hi
        · by_cases hc : p ^ k ∣ i ∧ p ^ k * 2 ≤ i ∧ i < n
          · rw [if_pos hc, if_neg, h2 i hi hpp]
            rw [not_not]
            obtain ⟨⟨l, rfl⟩, hc2, _⟩ := hc
            rw [Nat.mul_div_cancel_left l hpos]
            apply Nat.mod_eq_zero_of_dvd
            obtain ⟨r, a, hr, ha, he⟩ := (isPrimePow_nat_iff _).mp hpp
            have hpr : p = r := by
              have : p ∣ r ^ a := by rw [he]; exact Dvd.dvd.mul_right (dvd_pow_self p (by omega)) l
              exact (Nat.prime_dvd_prime_iff_eq hp hr).mp (hp.dvd_of_dvd_pow this)
            subst hpr
            have hl2 : 2 ≤ l := Nat.le_of_mul_le_mul_left hc2 hpos
            have hka : k < a := by
              by_contra hka
              have := Nat.pow_le_pow_right hp.pos (show a ≤ k by omega)
              rw [he] at this
              have := Nat.mul_le_mul_left (p ^ k) hl2
              omega
            have : p ^ k * l = p ^ k * p ^ (a - k) := by rw [← he, ← pow_add]; congr 1; omega
            rw [Nat.eq_of_mul_eq_mul_left hpos this]
            exact dvd_pow_self p (by omega)
          · rw [if_neg hc, h2 i hi hpp]
        · have hi0 : i ≠ 0 := by omega
          have hdvd : ∀ j, p ^ j ∣ i ↔ j ≤ i.factorization p := fun j => hp.pow_dvd_iff_le_factorization hi0
          by_cases hv : i.factorization p = k
          · have hd : p ^ k ∣ i := (hdvd k).mpr (by omega)
            have hd' : ¬ p ^ (k + 1) ∣ i := by rw [hdvd]; omega
            have hne : i ≠ p ^ k := by rintro rfl; exact hnp hqpp
            obtain ⟨l, hl⟩ := hd
            have hl2 : 2 ≤ l := by
              by_contra hc
              have : l = 0 ∨ l = 1 := by omega
              rcases this with rfl | rfl <;> simp at hl <;> omega
            have hmod : i / p ^ k % p ≠ 0 := by
              rw [hl, Nat.mul_div_cancel_left l hpos]
              intro h0
              apply hd'
              rw [hl, pow_succ]
              exact Nat.mul_dvd_mul_left _ (Nat.dvd_of_mod_eq_zero h0)
            have hle : p ^ k * 2 ≤ i := by rw [hl]; exact Nat.mul_le_mul_left _ hl2
            rw [if_pos ⟨⟨l, hl⟩, hle, hin⟩, if_pos hmod, h3 i hi hin hnp, h2 _ hlt hqpp, if_neg (by omega), if_pos (by omega), loc, hv, mul_one]
          · have hU : (if p ^ k ∣ i ∧ p ^ k * 2 ≤ i ∧ i < n then (if i / p ^ k % p ≠ 0 then gs i * gs (p ^ k) else gs i) else gs i) = gs i := by
              by_cases hc : p ^ k ∣ i ∧ p ^ k * 2 ≤ i ∧ i < n
              · rw [if_pos hc, if_neg]
                rw [not_not]
                have h4 : p ^ (k + 1) ∣ i := (hdvd _).mpr (by have := (hdvd k).mp hc.1; omega)
                obtain ⟨l, hl⟩ := h4
                rw [hl, pow_succ, mul_assoc, Nat.mul_div_cancel_left _ hpos]
                exact Nat.mul_mod_right p l
              · rw [if_neg hc]
            rw [hU, h3 i hi hin hnp]
            congr 1
            by_cases hvk : i.factorization p < k
            · rw [if_pos hvk, if_pos (by omega)]
            · rw [if_neg hvk, if_neg (by omega)]
      obtain ⟨s2, e2, r2⟩ := ih (k + 1) s1 (by omega) (by
        rw [pow_succ]
        have := Nat.mul_le_mul_left (p ^ k) hp.two_le
        omega) hinv
      refine ⟨s2, ?_, r2⟩
      rw [powersLoop, if_pos hlt]
      rw [if_neg (by omega), e1]
      simp only [Option.bind_eq_bind, Option.bind_some]
      rw [← pow_succ]
      exact e2
    · exact ⟨s, by rw [powersLoop, if_neg hlt], finish k s (by omega) h⟩

theorem calc_spec (lim n N : Nat) (f : List α) (g0 F : Nat → α) (pa : List Nat) (m : Nat) (T : PrimeTable pa m n)
    (r : Rep f N g0) (hN : n ≤ N) (hlim : 2 * n ≤ lim + 1) (hF : MultBelow n F)
    (hpp : ∀ i, i < n → IsPrimePow i → g0 i = F i) (h1 : ∀ i, 1 ≤ i → i < n → ¬ IsPrimePow i → g0 i = 1) :
    ∃ f', calcMultiplicative lim f n pa m = some f' ∧ Rep f' N (fun i => if 1 ≤ i ∧ i < n then F i else g0 i) := by
  rw [calcMultiplicative]
  obtain ⟨L, s, e, hnd, hmem, ⟨gs, rs, k1, k2, k3⟩⟩ := primesLoop_spec (body := fun p f => powersLoop lim n p n p f) T
    (fun L s => MInv n N F g0 L 2 0 s) (s := f)
    (fun L p s hp hpn _ ⟨gs, rs, k1, k2, k3⟩ => by
      have hI : MInv n N F g0 L p 1 s := ⟨gs, rs, k1, k2, fun i hi hin hnp => by
        rw [k3 i hi hin hnp, if_neg (by omega)]
        congr 1
        split
        · rename_i hv
          rw [loc, show i.factorization p = 0 by omega, pow_zero, hF.1]
        · rfl⟩
      obtain ⟨s', e', ⟨gs', rs', k1', k2', k3'⟩⟩ := powersLoop_spec (lim := lim) hp hN hlim n 1 s (le_refl 1) (by omega) hI
      rw [pow_one] at e'
      exact ⟨s', e', gs', rs', k1', k2', fun i hi hin hnp => by rw [k3' i hi hin hnp, if_neg (by omega), if_neg (by omega)]⟩)
    ⟨g0, r, fun _ _ => rfl, hpp, fun i hi hin hnp => by rw [h1 i (by omega) hin hnp]; simp⟩
  refine ⟨s, e, rs.congr (fun i _ => ?_)⟩
  by_cases hi : 1 ≤ i ∧ i < n
  · rw [if_pos hi]
    by_cases hip : IsPrimePow i
    · exact k2 i hi.2 hip
    · by_cases hi1 : i = 1
      · subst hi1
        rw [k1 1 (by omega), h1 1 (le_refl _) hi.2 hip, hF.1]
      · rw [k3 i (by omega) hi.2 hip, if_neg (by omega), mul_one]
        refine prod_loc n F hF L i hnd (fun p hp => ((hmem p).mp hp).1) hi.1 hi.2 (fun p hp hpi => (hmem p).mpr ⟨hp, ?_⟩)
        have := Nat.le_of_dvd (by omega) hpi
        omega
  · rw [if_neg hi]
    exact k1 i (by omega)

/-- **C52**: `calc_multiplicative`: a table holding the values of the multiplicative function `F` at the
prime powers and `1` at the other positive numbers ends up holding `F`. -/
theorem C52_calc_multiplicative (lim n N : Nat) (f : List α) (g0 F : Nat → α) (pa : List Nat) (m : Nat) (T : PrimeTable pa m n)
    (r : Rep f N g0) (hN : n ≤ N) (hlim : 2 * n ≤ lim + 1) (hF : MultBelow n F)
    (hpp : ∀ i, i < n → IsPrimePow i → g0 i = F i) (h1 : ∀ i, 1 ≤ i → i < n → ¬ IsPrimePow i → g0 i = 1) :
    ∃ f', calcMultiplicative lim f n pa m = some f' ∧ Rep f' N (fun i => if 1 ≤ i ∧ i < n then F i else g0 i) :=
  calc_spec lim n N f g0 F pa m T r hN hlim hF hpp h1

/-! ### Convolution and division of multiplicative functions -/

theorem powersOf_go {n p : Nat} (hp : p.Prime) (hn : n ≤ 2 ^ 31) : ∀ (fuel k : Nat) (q : List Nat), Rep q k (fun j => p ^ j) →
    n ≤ fuel + k → (∀ j, j < k → p ^ j < n) →
    ∃ q' c, powersOf n p fuel (p ^ k) q = some q' ∧ Rep q' c (fun j => p ^ j) ∧ ∀ j, p ^ j < n ↔ j < c := by
  have hlt : ∀ k, k < p ^ k := fun k => Nat.lt_pow_self hp.one_lt
  have stop : ∀ k, ¬ p ^ k < n → (∀ j, j < k → p ^ j < n) → ∀ j, p ^ j < n ↔ j < k := by
    intro k hk hlow j
    refine ⟨fun h => ?_, hlow j⟩
    by_contra hc
    have := Nat.pow_le_pow_right hp.pos (show k ≤ j by omega)
    omega
  intro fuel
  induction fuel with
  | zero =>
    intro k q r hf hlow
    have := hlt k
    exact ⟨q, k, by rw [powersOf, if_neg (by omega)], r, stop k (by omega) hlow⟩
  | succ fuel ih =>
    intro k q r hf hlow
    by_cases hk : p ^ k < n
    · have hk32 : k < 31 := by
        by_contra hc
        have h1 : 2 ^ 31 ≤ 2 ^ k := Nat.pow_le_pow_right (by norm_num) (by omega)
        have h2 : 2 ^ k ≤ p ^ k := Nat.pow_le_pow_left hp.two_le k
        omega
      obtain ⟨q', c, e, r', h'⟩ := ih (k + 1) (q ++ [p ^ k]) ⟨by simp [r.len], fun j hj => by
          by_cases hjk : j < k
          · rw [List.getElem?_append_left (by rw [r.len]; exact hjk), r.get j hjk]
          · have : j = k := by omega
            subst this
            rw [List.getElem?_append_right (by rw [r.len]), r.len]; simp⟩ (by omega)
        (fun j hj => by
          by_cases hjk : j < k
          · exact hlow j hjk
          · have : j = k := by omega
            subst this; exact hk)
      refine ⟨q', c, ?_, r', h'⟩
      rw [powersOf, if_pos hk]
      rw [if_pos (by rw [r.len]; omega), ← pow_succ]
      exact e
    · exact ⟨q, k, by rw [powersOf, if_neg hk], r, stop k hk hlow⟩

theorem powersOf_spec {n p : Nat} (hp : p.Prime) (hn : n ≤ 2 ^ 31) :
    ∃ q c, powersOf n p n 1 [] = some q ∧ Rep q c (fun j => p ^ j) ∧ ∀ j, p ^ j < n ↔ j < c := by
  obtain ⟨q, c, h⟩ := powersOf_go hp hn n 0 [] ⟨rfl, fun i hi => by omega⟩ (by omega) (fun j hj => by omega)
  rw [pow_zero] at h
  exact ⟨q, c, h⟩

/-- The convolution at a prime power. -/
theorem conv_pow (f g : Nat → α) {p : Nat} (hp : p.Prime) (k : Nat) :
    conv f g (p ^ k) = ∑ j ∈ Finset.range (k + 1), f (p ^ (k - j)) * g (p ^ j) := by
  rw [conv, Nat.sum_divisors_prime_pow hp, ← Finset.sum_range_reflect]
  apply Finset.sum_congr rfl
  intro j hj
  rw [Finset.mem_range] at hj
  rw [show k + 1 - 1 - j = k - j by omega, Nat.pow_div (by omega) hp.pos, show k - (k - j) = j by omega]

theorem convAt_spec (f g : Nat → α) {p c k : Nat} {q : List Nat} (hp : p.Prime) (r : Rep q c (fun j => p ^ j)) (hk : k < c) :
    convAt f g q k = some (conv f g (p ^ k)) := by
  obtain ⟨s, e, hs⟩ := forUp_spec (body := fun j (s : α) => do
      let x ← rd q (k - j)
      let y ← rd q j
      some (s + f x * g y)) (fun j s => s = ∑ i ∈ Finset.range j, f (p ^ (k - i)) * g (p ^ i)) (a := 0) (n := k + 1) (s := 0) (by omega) (by simp)
    (fun j s _ hj hs => ⟨_, by rw [r.rd (by omega), r.rd (by omega)]; rfl, by rw [Finset.sum_range_succ, hs]⟩)
  rw [convAt, e, hs, conv_pow f g hp]

/-- The loops over primes that fill in the values at prime powers: everything positive not a prime power
keeps the value `1`. -/
structure FInv (n N : Nat) (H g0 : Nat → α) (L : List Nat) (s : List α) : Prop where
  ex : ∃ gs, Rep s N gs ∧ (∀ i, i < N → i = 0 ∨ n ≤ i → gs i = g0 i) ∧
    (∀ p ∈ L, ∀ k, p ^ k < n → gs (p ^ k) = H (p ^ k)) ∧
    ∀ i, 1 ≤ i → i < n → ¬ IsPrimePow i → gs i = 1

theorem FInv.init {n N : Nat} {H g0 : Nat → α} {s : List α} (r : Rep s N (fun i => if 1 ≤ i ∧ i < n then 1 else g0 i)) :
    FInv n N H g0 [] s :=
  ⟨_, r, fun i _ hi => by rw [if_neg (by omega)], by simp, fun i h1 h2 _ => by rw [if_pos ⟨h1, h2⟩]⟩

/-- One prime: if the loop over its powers writes `H` at `p^a`, ... and nothing else, the invariant is kept. -/
theorem FInv.step {n N : Nat} {H g0 : Nat → α} {L : List Nat} {s s' : List α} {p : Nat} (hp : p.Prime) (hH : H 1 = 1)
    (h : FInv n N H g0 L s)
    (hs : ∀ gs, Rep s N gs → gs 1 = 1 → ∃ gs', Rep s' N gs' ∧ (∀ k, p ^ k < n → gs' (p ^ k) = H (p ^ k)) ∧
      ∀ i, i < N → (∀ k, i = p ^ k → n ≤ p ^ k) → gs' i = gs i) (hpL : p ∉ L) (hLp : ∀ q ∈ L, q.Prime) (hn : 1 < n) (hN : n ≤ N) : FInv n N H g0 (L ++ [p]) s' := by
  obtain ⟨gs, r, h1, h2, h3⟩ := h
  have hnp1 : ¬ IsPrimePow (1 : Nat) := not_isPrimePow_one
  obtain ⟨gs', r', k1, k2⟩ := hs gs r (h3 1 (le_refl _) hn hnp1)
  have hppow : ∀ k, 1 ≤ k → IsPrimePow (p ^ k) := fun k hk => (isPrimePow_nat_iff _).mpr ⟨p, k, hp, hk, rfl⟩
  refine ⟨gs', r', fun i hiN hi => ?_, fun q hq k hk => ?_, fun i hi hin hnp => ?_⟩
  · rw [k2 i hiN, h1 i hiN hi]
    rintro k rfl
    have := Nat.pow_pos (n := k) hp.pos
    omega
  · rw [List.mem_append, List.mem_singleton] at hq
    rcases hq with hq | rfl
    · by_cases hk0 : k = 0
      · subst hk0
        have := k1 0 (by simpa using hn)
        simpa using this
      · rw [k2 _ (by omega), h2 q hq k hk]
        intro j hj
        exfalso
        have : q ∣ p ^ j := by rw [← hj]; exact dvd_pow_self q hk0
        have hqp := (Nat.prime_dvd_prime_iff_eq (hLp q hq) hp).mp ((hLp q hq).dvd_of_dvd_pow this)
        subst hqp
        exact hpL hq
    · exact k1 k hk
  · by_cases hi1 : i = 1
    · subst hi1
      have := k1 0 (by simpa using hn)
      rw [pow_zero] at this
      rw [this, hH]
    · rw [k2 _ (by omega), h3 i hi hin hnp]
      rintro k rfl
      by_cases hk0 : k = 0
      · subst hk0; simp at hi1
      · exact absurd (hppow k (by omega)) hnp

/-- The end of both functions. -/
theorem FInv.finish {lim n N : Nat} {H g0 : Nat → α} {L : List Nat} {s : List α} {pa : List Nat} {m : Nat} (T : PrimeTable pa m n)
    (hN : n ≤ N) (hlim : 2 * n ≤ lim + 1) (hH : MultBelow n H) (hL : ∀ p, p ∈ L ↔ p.Prime ∧ p < n) (h : FInv n N H g0 L s) :
    ∃ h', calcMultiplicative lim s n pa m = some h' ∧ Rep h' N (fun i => if 1 ≤ i ∧ i < n then H i else g0 i) := by
  obtain ⟨gs, r, h1, h2, h3⟩ := h
  obtain ⟨h', e, r'⟩ := calc_spec lim n N s gs H pa m T r hN hlim hH (fun i hi hpp => by
    obtain ⟨p, k, hp, hk, rfl⟩ := (isPrimePow_nat_iff _).mp hpp
    refine h2 p ((hL p).mpr ⟨hp, ?_⟩) k hi
    have := Nat.le_of_dvd (Nat.pow_pos (n := k) hp.pos) (dvd_pow_self p (show k ≠ 0 by omega))
    omega) h3
  refine ⟨h', e, r'.congr (fun i hiN => ?_)⟩
  by_cases hi : 1 ≤ i ∧ i < n
  · rw [if_pos hi, if_pos hi]
  · rw [if_neg hi, if_neg hi, h1 i hiN (by omega)]

omit [CommRing α] in
/-- The loop over the primes with the primes seen so far kept. -/
theorem primesLoop_spec' {pa : List Nat} {m n : Nat} {body : Nat → List α → Option (List α)} (T : PrimeTable pa m n)
    (P : List Nat → List α → Prop)
    (step : ∀ L p s, p.Prime → p < n → p ∉ L → (∀ q ∈ L, q.Prime) → P L s → ∃ s', body p s = some s' ∧ P (L ++ [p]) s')
    {s : List α} (h0 : P [] s) :
    ∃ L s', primesLoop pa n body m 0 s = some s' ∧ (∀ p, p ∈ L ↔ p.Prime ∧ p < n) ∧ P L s' := by
  obtain ⟨L, s', e, _, hmem, h1, h2⟩ := primesLoop_spec T (fun L s => (∀ q ∈ L, q.Prime) ∧ P L s)
    (fun L p s hp hpn hnot ⟨k1, k2⟩ => by
      obtain ⟨s', e, h⟩ := step L p s hp hpn hnot k1 k2
      exact ⟨s', e, by
        intro q hq
        rw [List.mem_append, List.mem_singleton] at hq
        rcases hq with hq | rfl
        · exact k1 q hq
        · exact hp, h⟩) (s := s) ⟨by simp, h0⟩
  exact ⟨L, s', e, hmem, h2⟩

/-- **C52**: `dirichlet_convolution_multiplicative`: if the convolution of `f` and `g` is multiplicative,
the table is filled with it (and `h[0]` is left alone). -/
theorem C52_convolution_multiplicative (lim n N : Nat) (h : List α) (g0 f g : Nat → α) (pa : List Nat) (m : Nat) (T : PrimeTable pa m n)
    (r : Rep h N g0) (hN : n ≤ N) (hN1 : 1 ≤ N) (hlim : 2 * n ≤ lim + 1) (hn : n ≤ 2 ^ 31) (hH : MultBelow n (conv f g)) :
    ∃ h', convolutionMultiplicative lim h f g n pa m = some h' ∧
      Rep h' N (fun i => if 1 ≤ i ∧ i < n then conv f g i else g0 i) := by
  obtain ⟨h1, e1, r1⟩ := fill_spec' (a := 1) r hN (fun _ => 1)
  obtain ⟨L, h2, e2, hL, hI⟩ := primesLoop_spec' (body := fun p h => do
      let q ← powersOf n p n 1 []
      forUp (fun k h => do
        let s ← convAt f g q k
        let qk ← rd q k
        wr h qk s) 0 q.length h) T (fun L s => FInv n N (conv f g) g0 L s)
    (fun L p s hp hpn hpL hLp hI => by
      obtain ⟨q, c, eq, rq, hc⟩ := powersOf_spec hp hn
      have hI' := hI
      obtain ⟨gs, rs, _⟩ := hI'
      obtain ⟨s', es, gs', rs', k1, k2⟩ := forUp_spec (body := fun k (h : List α) => do
          let s ← convAt f g q k
          let qk ← rd q k
          wr h qk s)
        (fun k (h : List α) => ∃ gs', Rep h N gs' ∧ (∀ j, j < k → gs' (p ^ j) = conv f g (p ^ j)) ∧
          ∀ i, (∀ j, i = p ^ j → n ≤ p ^ j) → gs' i = gs i) (a := 0) (n := c) (s := s) (by omega)
        ⟨gs, rs, fun j hj => by omega, fun _ _ => rfl⟩
        (fun k s _ hk ⟨gs', rs', k1, k2⟩ => by
          have hkn := (hc k).mpr hk
          refine ⟨_, by rw [convAt_spec f g hp rq hk, rq.rd hk]; exact rs'.wr (by omega) _, _, rs'.set _ _, fun j hj => ?_, fun i hi => ?_⟩
          · by_cases hjk : j = k
            · subst hjk; rw [Function.update_self]
            · rw [Function.update_of_ne, k1 j (by omega)]
              intro he
              exact hjk (Nat.pow_right_injective hp.two_le he)
          · rw [Function.update_of_ne, k2 i hi]
            intro he
            have := hi k he
            omega)
      refine ⟨s', ?_, hI.step hp hH.1 (fun gs2 rs2 _ => ⟨gs', rs', fun k hk => k1 k ((hc k).mp hk), fun i hiN hi => ?_⟩) hpL hLp
        (lt_trans hp.one_lt hpn) hN⟩
      · rw [eq]
        simp only [Option.bind_eq_bind, Option.bind_some]
        rw [rq.len]
        exact es
      · rw [k2 i hi]
        exact rs.unique rs2 hiN)
    (FInv.init r1)
  obtain ⟨h3, e3, r3⟩ := hI.finish (lim := lim) T hN hlim hH hL
  refine ⟨h3, ?_, r3⟩
  rw [convolutionMultiplicative, r.rd (by omega)]
  simp only [Option.bind_eq_bind, Option.bind_some]
  rw [e1]
  simp only [Option.bind_some]
  simp only [Option.bind_eq_bind] at e2
  rw [e2]
  exact e3

theorem quotAt_spec (f g H : Nat → α) {p c k : Nat} {q : List Nat} {hq : List α} (hp : p.Prime) (rq : Rep q c (fun j => p ^ j))
    (rh : Rep hq k (fun j => H (p ^ j))) (hk : k < c) (hg : g 1 = 1) (hH : conv H g (p ^ k) = f (p ^ k)) :
    quotAt f g q hq k = some (H (p ^ k)) := by
  obtain ⟨s, e, hs⟩ := forUp_spec (body := fun j (s : α) => do
      let x ← rd q (k - j)
      let y ← rd hq j
      some (s - g x * y)) (fun j s => s = f (p ^ k) - ∑ i ∈ Finset.range j, g (p ^ (k - i)) * H (p ^ i)) (a := 0) (n := k)
      (s := f (p ^ k)) (by omega) (by simp)
    (fun j s _ hj hs => ⟨_, by rw [rq.rd (by omega), rh.rd hj]; rfl, by rw [Finset.sum_range_succ, hs]; ring⟩)
  rw [quotAt, rq.rd hk]
  simp only [Option.bind_eq_bind, Option.bind_some] at e ⊢
  rw [e, hs, ← hH, conv, Nat.sum_divisors_prime_pow hp, Finset.sum_range_succ, Nat.div_self (Nat.pow_pos hp.pos), hg, mul_one]
  congr 1
  have : ∑ j ∈ Finset.range k, H (p ^ j) * g (p ^ k / p ^ j) = ∑ j ∈ Finset.range k, g (p ^ (k - j)) * H (p ^ j) := by
    apply Finset.sum_congr rfl
    intro j hj
    rw [Finset.mem_range] at hj
    rw [Nat.pow_div (by omega) hp.pos, mul_comm]
  rw [this]
  ring

/-- **C52**: `dirichlet_division_multiplicative`: if a multiplicative `H` satisfies `H * g = f`, and
`g(1) = 1`, the table is filled with `H`. -/
theorem C52_division_multiplicative (lim n N : Nat) (h : List α) (g0 f g H : Nat → α) (pa : List Nat) (m : Nat) (T : PrimeTable pa m n)
    (r : Rep h N g0) (hN : n ≤ N) (hN1 : 1 ≤ N) (hlim : 2 * n ≤ lim + 1) (hn : n ≤ 2 ^ 31) (hH : MultBelow n H)
    (hHg : ∀ k, 1 ≤ k → k < n → conv H g k = f k) (hg : g 1 = 1) :
    ∃ h', divisionMultiplicative lim h f g n pa m = some h' ∧
      Rep h' N (fun i => if 1 ≤ i ∧ i < n then H i else g0 i) := by
  obtain ⟨h1, e1, r1⟩ := fill_spec' (a := 1) r hN (fun _ => 1)
  obtain ⟨L, h2, e2, hL, hI⟩ := primesLoop_spec' (body := fun p h => do
      let q ← powersOf n p n 1 []
      let (h, _) ← forUp (fun k (s : List α × List α) => do
        let x ← quotAt f g q s.2 k
        let qk ← rd q k
        let h ← wr s.1 qk x
        some (h, s.2 ++ [x])) 1 q.length (h, [1])
      some h) T (fun L s => FInv n N H g0 L s)
    (fun L p s hp hpn hpL hLp hI => by
      obtain ⟨q, c, eq, rq, hc⟩ := powersOf_spec hp hn
      have hI' := hI
      obtain ⟨gs, rs, _, _, hg1⟩ := hI'
      have h1n : 1 < n := lt_trans hp.one_lt hpn
      have hgs1 : gs 1 = 1 := hg1 1 (le_refl _) h1n not_isPrimePow_one
      have hc1 : 1 ≤ c := (hc 0).mp (by simpa using h1n)
      obtain ⟨⟨s', hq'⟩, es, ⟨gs', rs', k1, k2⟩, _⟩ := forUp_spec (body := fun k (s : List α × List α) => do
          let x ← quotAt f g q s.2 k
          let qk ← rd q k
          let h ← wr s.1 qk x
          some (h, s.2 ++ [x]))
        (fun k (s : List α × List α) => (∃ gs', Rep s.1 N gs' ∧ (∀ j, j < k → gs' (p ^ j) = H (p ^ j)) ∧
          ∀ i, (∀ j, i = p ^ j → n ≤ p ^ j) → gs' i = gs i) ∧ Rep s.2 k (fun j => H (p ^ j))) (a := 1) (n := c) (s := (s, [1])) hc1
        ⟨⟨gs, rs, fun j hj => by
            have : j = 0 := by omega
            subst this
            rw [pow_zero, hgs1, hH.1], fun _ _ => rfl⟩, ⟨rfl, fun j hj => by
            have : j = 0 := by omega
            subst this
            simp [hH.1]⟩⟩
        (fun k s hk1 hk ⟨⟨gs', rs', k1, k2⟩, rh⟩ => by
          have hkn := (hc k).mpr hk
          refine ⟨_, by
            rw [quotAt_spec f g H hp rq rh hk hg (hHg _ (Nat.pow_pos hp.pos) hkn), rq.rd hk]
            simp only [Option.bind_eq_bind, Option.bind_some]
            rw [rs'.wr (by omega) _]
            rfl, ⟨_, rs'.set _ _, fun j hj => ?_, fun i hi => ?_⟩, ⟨by simp [rh.len], fun j hj => ?_⟩⟩
          · by_cases hjk : j = k
            · subst hjk; rw [Function.update_self]
            · rw [Function.update_of_ne, k1 j (by omega)]
              intro he
              exact hjk (Nat.pow_right_injective hp.two_le he)
          · rw [Function.update_of_ne, k2 i hi]
            intro he
            have := hi k he
            omega
          · by_cases hjk : j < k
            · rw [List.getElem?_append_left (by rw [rh.len]; exact hjk), rh.get j hjk]
            · have : j = k := by omega
              subst this
              rw [List.getElem?_append_right (by rw [rh.len]), rh.len]; simp)
      refine ⟨s', ?_, hI.step hp hH.1 (fun gs2 rs2 _ => ⟨gs', rs', fun k hk => k1 k ((hc k).mp hk), fun i hiN hi => ?_⟩) hpL hLp
        h1n hN⟩
      · rw [eq]
        simp only [Option.bind_eq_bind, Option.bind_some] at es ⊢
        rw [rq.len, es]
        rfl
      · rw [k2 i hi]
        exact rs.unique rs2 hiN)
    (FInv.init r1)
  obtain ⟨h3, e3, r3⟩ := hI.finish (lim := lim) T hN hlim hH hL
  refine ⟨h3, ?_, r3⟩
  rw [divisionMultiplicative, r.rd (by omega)]
  simp only [Option.bind_eq_bind, Option.bind_some] at e2 ⊢
  rw [e1]
  simp only [Option.bind_some]
  rw [e2]
  exact e3

/-! ### The inverse of a multiplicative function -/

/-- The multiplicative function with the given values at prime powers. -/
def ofPow (V : Nat → Nat → α) : ArithmeticFunction α :=
  ⟨fun i => if i = 0 then 0 else i.factorization.prod V, by simp⟩

theorem ofPow_mult (V : Nat → Nat → α) : (ofPow V).IsMultiplicative := by
  rw [ArithmeticFunction.IsMultiplicative.iff_ne_zero]
  refine ⟨by simp [ofPow], fun {a b} ha hb hab => ?_⟩
  change (if a * b = 0 then 0 else (a * b).factorization.prod V) = (if a = 0 then 0 else a.factorization.prod V) * (if b = 0 then 0 else b.factorization.prod V)
  rw [if_neg (Nat.mul_ne_zero ha hb), if_neg ha, if_neg hb, Nat.factorization_mul_of_coprime hab, Finsupp.prod_add_index_of_disjoint]
  exact hab.disjoint_primeFactors

theorem ofPow_pow (V : Nat → Nat → α) {p k : Nat} (hp : p.Prime) (hV : V p 0 = 1) : ofPow V (p ^ k) = V p k := by
  change (if p ^ k = 0 then 0 else (p ^ k).factorization.prod V) = V p k
  rw [if_neg (Nat.pow_pos hp.pos).ne', hp.factorization_pow, Finsupp.prod_single_index hV]

theorem ofPow_eq (n : Nat) (F : Nat → α) (hF : MultBelow n F) (i : Nat) (h1 : 1 ≤ i) (hin : i < n) :
    ofPow (fun p k => F (p ^ k)) i = F i := by
  change (if i = 0 then 0 else i.factorization.prod (fun p k => F (p ^ k))) = F i
  rw [if_neg (by omega), Finsupp.prod, Nat.support_factorization,
    ← prod_loc n F hF i.primeFactors.toList i (Finset.nodup_toList _)
    (fun p hp => Nat.prime_of_mem_primeFactors (Finset.mem_toList.mp hp)) h1 hin
    (fun p hp hpi => by rw [Finset.mem_toList, Nat.mem_primeFactors]; exact ⟨hp, hpi, by omega⟩), Finset.prod_map_toList]
  rfl

theorem mul_eq_conv (f g : ArithmeticFunction α) (k : Nat) : (f * g) k = conv f g k := by
  rw [ArithmeticFunction.mul_apply, conv, Nat.sum_divisorsAntidiagonal (fun a b => f a * g b)]

theorem conv_congr (f f' g g' : Nat → α) (n k : Nat) (hkn : k < n) (hf : ∀ i, 1 ≤ i → i < n → f i = f' i)
    (hg : ∀ i, 1 ≤ i → i < n → g i = g' i) : conv f g k = conv f' g' k := by
  rw [conv, conv]
  apply Finset.sum_congr rfl
  intro d hd
  have hdk := Nat.dvd_of_mem_divisors hd
  have := Nat.divisor_le hd
  have := Nat.pos_of_mem_divisors hd
  have h2 := Nat.div_le_self k d
  have h3 := Nat.div_pos (by omega : d ≤ k) (by omega)
  rw [hf d (by omega) (by omega), hg (k / d) (by omega) (by omega)]

/-- A multiplicative function has a multiplicative inverse. -/
theorem inverse_mult (n : Nat) (F : Nat → α) (hF : MultBelow n F) :
    ∃ H, MultBelow n H ∧ ∀ k, 1 ≤ k → k < n → conv H F k = unit k := by
  set F' := ofPow (fun p k => F (p ^ k)) with hF'
  have hm : F'.IsMultiplicative := ofPow_mult _
  have hF1 : F' 1 = 1 := hm.map_one
  set Q := quotF unit F' 1 with hQ
  have hQc : ∀ k, 1 ≤ k → conv Q F' k = unit k := fun k hk => conv_quotF unit F' 1 (by rw [hF1, mul_one]) k hk
  have hQ1 : Q 1 = 1 := by
    have := hQc 1 (le_refl _)
    simpa [conv, unit, hF1] using this
  set H := ofPow (fun p k => Q (p ^ k)) with hH
  have hHm : H.IsMultiplicative := ofPow_mult _
  have hone : H * F' = 1 := by
    rw [ArithmeticFunction.IsMultiplicative.eq_iff_eq_on_prime_powers _ (hHm.mul hm) _ ArithmeticFunction.isMultiplicative_one]
    intro p k hp
    rw [mul_eq_conv, conv, Nat.sum_divisors_prime_pow hp]
    have : ∀ j, H (p ^ j) = Q (p ^ j) := fun j => ofPow_pow _ hp (by rw [pow_zero]; exact hQ1)
    simp only [this]
    have h2 := hQc (p ^ k) (Nat.pow_pos hp.pos)
    rw [conv, Nat.sum_divisors_prime_pow hp] at h2
    rw [h2, unit, ArithmeticFunction.one_apply]
  refine ⟨H, ⟨hHm.map_one, fun a b _ _ _ hab => hHm.map_mul_of_coprime hab⟩, fun k hk hkn => ?_⟩
  rw [conv_congr H H F F' n k hkn (fun _ _ _ => rfl) (fun i h1 h2 => (ofPow_eq n F hF i h1 h2).symm), ← mul_eq_conv, hone,
    ArithmeticFunction.one_apply, unit]

/-- **C52**: `dirichlet_inverse_multiplicative`: the table is filled with the inverse of the multiplicative
function `f`, which is multiplicative too. -/
theorem C52_inverse_multiplicative (lim n N : Nat) (h : List α) (g0 f : Nat → α) (pa : List Nat) (m : Nat) (T : PrimeTable pa m n)
    (r : Rep h N g0) (hN : n ≤ N) (hN1 : 1 ≤ N) (hlim : 2 * n ≤ lim + 1) (hn : n ≤ 2 ^ 31) (hf : MultBelow n f) :
    ∃ h' H, inverseMultiplicative lim h f n pa m = some h' ∧ Rep h' N (fun i => if 1 ≤ i ∧ i < n then H i else g0 i) ∧
      MultBelow n H ∧ ∀ k, 1 ≤ k → k < n → conv H f k = if k = 1 then 1 else 0 := by
  obtain ⟨H, h1, h2⟩ := inverse_mult n f hf
  obtain ⟨h', e, r'⟩ := C52_division_multiplicative lim n N h g0 unit f H pa m T r hN hN1 hlim hn h1 h2 hf.1
  refine ⟨h', H, ?_, r', h1, h2⟩
  rw [inverseMultiplicative, r.rd (by omega)]
  exact e

/-- **C52**: `moebius_transform_multiplicative(g, f)`: if `f` is the sum over the divisors of a multiplicative
function, the table is filled with that function. -/
theorem C52_moebius_transform_multiplicative (lim n N : Nat) (h : List α) (g0 f G : Nat → α) (pa : List Nat) (m : Nat) (T : PrimeTable pa m n)
    (r : Rep h N g0) (hN : n ≤ N) (hN1 : 1 ≤ N) (hlim : 2 * n ≤ lim + 1) (hn : n ≤ 2 ^ 31) (hG : MultBelow n G)
    (hf : ∀ k, 1 ≤ k → k < n → ∑ d ∈ k.divisors, G d = f k) :
    ∃ h', moebiusTransformMultiplicative lim h f n pa m = some h' ∧ Rep h' N (fun i => if 1 ≤ i ∧ i < n then G i else g0 i) := by
  obtain ⟨h', e, r'⟩ := C52_division_multiplicative lim n N h g0 f (fun _ => 1) G pa m T r hN hN1 hlim hn hG
    (fun k hk hkn => by rw [← hf k hk hkn, conv]; simp) rfl
  refine ⟨h', ?_, r'⟩
  rw [moebiusTransformMultiplicative, r.rd (by omega)]
  exact e

/-- `sigma * 2 = 2 * (sigma * 1)`: with `g(1) = 2` (invertible in the rationals) the division by
`dirichlet_division_multiplicative` is wrong although the quotient (the identity) is multiplicative:
`h(2)` is `4`, not `2`. -/
example : divisionMultiplicative 100 [0, 0, 0] (fun k => 2 * ∑ d ∈ k.divisors, (d : Int)) (fun _ => 2) 3 [2] 1 = some [0, 1, 4] := by
  decide +kernel

example : divisionMultiplicative 100 (List.replicate 13 0) (fun k => ∑ d ∈ k.divisors, (d : Int)) (fun _ => 1) 13 [2, 3, 5, 7, 11] 5
    = some [0, 1, 2, 3, 4, 5, 6, 7, 8, 9, 10, 11, 12] := by decide +kernel

example : PrimeTable [2, 3, 5, 7, 11] 5 13 where
  len := by decide
  sorted := by
    intro i j x y hij hj hi hj'
    have h1 : ∀ j < 5, ∀ i < j, [2, 3, 5, 7, 11].getD i 0 < [2, 3, 5, 7, 11].getD j 0 := by decide
    have := h1 j hj i hij
    rw [List.getD_eq_getElem?_getD, List.getD_eq_getElem?_getD, hi, hj'] at this
    exact this
  prime := by
    intro i p hi hp
    have h1 : ∀ i < 5, ([2, 3, 5, 7, 11].getD i 0).Prime := by decide +kernel
    have := h1 i hi
    rw [List.getD_eq_getElem?_getD, hp] at this
    exact this
  all := by
    intro p hp hlt
    have h1 : ∀ p < 13, p.Prime → ∃ i < 5, [2, 3, 5, 7, 11][i]? = some p := by decide +kernel
    exact h1 p hlt hp

/-! ### Completely multiplicative functions -/

/-- `F` is completely multiplicative on the numbers below `n`. -/
def CMultBelow (n : Nat) (F : Nat → α) : Prop :=
  F 1 = 1 ∧ ∀ a b, 1 ≤ a → 1 ≤ b → a * b < n → F (a * b) = F a * F b

/-- `pf[k]` is a prime factor of `k`, for `2 <= k < n`. -/
def FactorTable (pf : List Nat) (n : Nat) : Prop := ∀ k, 2 ≤ k → k < n → ∃ p, pf[k]? = some p ∧ p.Prime ∧ p ∣ k

theorem FactorTable.self_iff {k p : Nat} (hk : 2 ≤ k) (hp : p.Prime) (hpk : p ∣ k) :
    p = k ∨ (p ≠ k ∧ ¬ k.Prime ∧ p < k ∧ 1 ≤ k / p ∧ k / p < k ∧ k / p * p = k) := by
  by_cases h : p = k
  · exact Or.inl h
  · have hle := Nat.le_of_dvd (by omega) hpk
    exact Or.inr ⟨h, fun hk' => h ((Nat.prime_dvd_prime_iff_eq hp hk').mp hpk), by omega, Nat.div_pos hle hp.pos,
      Nat.div_lt_self (by omega) hp.one_lt, Nat.div_mul_cancel hpk⟩

/-- **C52**: `calc_completely_multiplicative`: a table holding the values of the completely multiplicative
`F` at the primes, and `1` at `1`, ends up holding `F`. -/
theorem C52_calc_completely (n N : Nat) (f : List α) (g0 F : Nat → α) (pf : List Nat) (T : FactorTable pf n)
    (r : Rep f N g0) (hN : n ≤ N) (hF : CMultBelow n F) (hp : ∀ p, p < n → p.Prime → g0 p = F p) (h1 : 1 < n → g0 1 = 1) :
    ∃ f', calcCompletely f n pf = some f' ∧ Rep f' N (fun i => if 1 ≤ i ∧ i < n then F i else g0 i) := by
  by_cases hn2 : n ≤ 2
  · refine ⟨f, by rw [calcCompletely, forUp, show n - 2 = 0 by omega]; rfl, r.congr (fun i _ => ?_)⟩
    by_cases hi : 1 ≤ i ∧ i < n
    · have : i = 1 := by omega
      subst this
      rw [if_pos hi, h1 hi.2, hF.1]
    · rw [if_neg hi]
  obtain ⟨s, e, gs, rs, k1, k2, k3⟩ := forUp_spec (body := fun i (f : List α) => do
      let p ← rd pf i
      if p ≠ i then
        if p = 0 then none else do
        let x ← rd f (i / p)
        let y ← rd f p
        wr f i (x * y)
      else some f)
    (fun k s => ∃ gs, Rep s N gs ∧ (∀ i, i = 0 ∨ n ≤ i → gs i = g0 i) ∧ (∀ i, 1 ≤ i → i < k → gs i = F i) ∧
      ∀ p, p < n → p.Prime → gs p = F p) (a := 2) (n := n) (s := f) (by omega)
    ⟨g0, r, fun _ _ => rfl, fun i hi hi2 => by
      have : i = 1 := by omega
      subst this
      rw [h1 (by omega), hF.1], hp⟩
    (fun i s hi hin ⟨gs, rs, k1, k2, k3⟩ => by
      obtain ⟨p, e, hpp, hpi⟩ := T i hi hin
      rcases FactorTable.self_iff hi hpp hpi with h | ⟨h, hnp, hlt, hq1, hqi, hmul⟩
      · subst h
        refine ⟨s, by rw [rd, e]; simp, gs, rs, k1, fun j hj hjk => ?_, k3⟩
        by_cases hji : j = p
        · subst hji; exact k3 j hin hpp
        · exact k2 j hj (by omega)
      · refine ⟨_, by
          rw [rd, e]
          simp only [Option.bind_eq_bind, Option.bind_some]
          rw [if_pos h, if_neg hpp.ne_zero, rs.rd (by omega), rs.rd (by omega)]
          simp only [Option.bind_some]
          exact rs.wr (by omega) _, _, rs.set i _, fun j hj => ?_, fun j hj hjk => ?_, fun q hq hqp => ?_⟩
        · rw [Function.update_of_ne (by omega), k1 j hj]
        · by_cases hji : j = i
          · subst hji
            rw [Function.update_self, k2 _ hq1 hqi, k2 p hpp.one_le hlt, ← hF.2 _ _ hq1 hpp.one_le (by rw [hmul]; exact hin), hmul]
          · rw [Function.update_of_ne hji, k2 j hj (by omega)]
        · rw [Function.update_of_ne (by rintro rfl; exact hnp hqp), k3 q hq hqp])
  refine ⟨s, e, rs.congr (fun i _ => ?_)⟩
  by_cases hi : 1 ≤ i ∧ i < n
  · rw [if_pos hi, k2 i hi.1 hi.2]
  · rw [if_neg hi, k1 i (by omega)]

omit [CommRing α] in
theorem primesFill_spec (n N : Nat) (h : List α) (g0 x : Nat → α) (pf : List Nat) (T : FactorTable pf n) (r : Rep h N g0) (hN : n ≤ N) :
    ∃ h' gs, primesFill h x n pf = some h' ∧ Rep h' N gs ∧ (∀ p, p < n → p.Prime → gs p = x p) ∧
      ∀ i, ¬ i.Prime ∨ n ≤ i → gs i = g0 i := by
  by_cases hn2 : n ≤ 2
  · refine ⟨h, g0, by rw [primesFill, forUp, show n - 2 = 0 by omega]; rfl, r, fun p hp hpp => ?_, fun _ _ => rfl⟩
    have := hpp.two_le
    omega
  obtain ⟨s, e, gs, rs, k1, k2⟩ := forUp_spec (body := fun p (h : List α) => do
      let q ← rd pf p
      if q = p then wr h p (x p) else some h)
    (fun k s => ∃ gs, Rep s N gs ∧ (∀ p, p < k → p.Prime → gs p = x p) ∧ ∀ i, ¬ i.Prime ∨ n ≤ i → gs i = g0 i) (a := 2) (n := n) (s := h) (by omega)
    ⟨g0, r, fun p hp hpp => by have := hpp.two_le; omega, fun _ _ => rfl⟩
    (fun i s hi hin ⟨gs, rs, k1, k2⟩ => by
      obtain ⟨p, e, hpp, hpi⟩ := T i hi hin
      rcases FactorTable.self_iff hi hpp hpi with h | ⟨h, hnp, hlt, hq1, hqi, hmul⟩
      · subst h
        refine ⟨_, by
          rw [rd, e]
          simp only [Option.bind_eq_bind, Option.bind_some]
          rw [if_pos trivial]
          exact rs.wr (by omega) (x p), _, rs.set p _, fun q hq hqp => ?_, fun j hj => ?_⟩
        · by_cases hqi : q = p
          · subst hqi; rw [Function.update_self]
          · rw [Function.update_of_ne hqi, k1 q (by omega) hqp]
        · rw [Function.update_of_ne, k2 j hj]
          rintro rfl
          rcases hj with hc | hc
          · exact hc hpp
          · exact absurd hin (by omega)
      · refine ⟨s, by
          rw [rd, e]
          simp only [Option.bind_eq_bind, Option.bind_some]
          rw [if_neg h], gs, rs, fun q hq hqp => ?_, k2⟩
        by_cases hqi : q = i
        · subst hqi; exact absurd hqp hnp
        · exact k1 q (by omega) hqp)
  exact ⟨s, gs, e, rs, k1, k2⟩

theorem completely_spec (n N : Nat) (h : List α) (g0 x H : Nat → α) (pf : List Nat) (T : FactorTable pf n) (r : Rep h N g0) (hN : n ≤ N)
    (hH : CMultBelow n H) (hx : ∀ p, p < n → p.Prime → x p = H p) :
    ∃ h1 h2 h', fill h (fun _ => 1) 1 n = some h1 ∧ primesFill h1 x n pf = some h2 ∧ calcCompletely h2 n pf = some h' ∧
      Rep h' N (fun i => if 1 ≤ i ∧ i < n then H i else g0 i) := by
  obtain ⟨h1, e1, r1⟩ := fill_spec' (a := 1) r hN (fun _ => 1)
  obtain ⟨h2, gs, e2, r2, k1, k2⟩ := primesFill_spec n N h1 _ x pf T r1 hN
  obtain ⟨h3, e3, r3⟩ := C52_calc_completely n N h2 gs H pf T r2 hN hH (fun p hp hpp => by rw [k1 p hp hpp, hx p hp hpp])
    (fun h1n => by rw [k2 1 (Or.inl Nat.not_prime_one), if_pos ⟨le_refl _, h1n⟩])
  refine ⟨h1, h2, h3, e1, e2, e3, r3.congr (fun i _ => ?_)⟩
  by_cases hi : 1 ≤ i ∧ i < n
  · rw [if_pos hi, if_pos hi]
  · rw [if_neg hi, if_neg hi, k2 i, if_neg hi]
    by_cases h0 : i = 0
    · subst h0; exact Or.inl Nat.not_prime_zero
    · exact Or.inr (by omega)

theorem conv_prime (f g : Nat → α) {p : Nat} (hp : p.Prime) : conv f g p = f 1 * g p + f p * g 1 := by
  rw [conv, Nat.Prime.sum_divisors hp, Nat.div_self hp.pos, Nat.div_one, add_comm]

theorem conv_one (f g : Nat → α) : conv f g 1 = f 1 * g 1 := by simp [conv]

/-- **C52**: `dirichlet_convolution_completely_multiplicative`: if the convolution of `f` and `g` is
completely multiplicative, the table is filled with it. -/
theorem C52_convolution_completely (n N : Nat) (h : List α) (g0 f g : Nat → α) (pf : List Nat) (T : FactorTable pf n)
    (r : Rep h N g0) (hN : n ≤ N) (hN1 : 1 ≤ N) (hH : CMultBelow n (conv f g)) :
    ∃ h', convolutionCompletely h f g n pf = some h' ∧ Rep h' N (fun i => if 1 ≤ i ∧ i < n then conv f g i else g0 i) := by
  obtain ⟨h1, h2, h3, e1, e2, e3, r3⟩ := completely_spec n N h g0 (fun p => f p * g 1 + g p * f 1) (conv f g) pf T r hN hH
    (fun p _ hp => by rw [conv_prime f g hp]; ring)
  refine ⟨h3, ?_, r3⟩
  rw [convolutionCompletely, r.rd (by omega)]
  simp only [Option.bind_eq_bind, Option.bind_some]
  rw [e1]
  simp only [Option.bind_some]
  rw [e2]
  exact e3

/-- **C52**: `dirichlet_division_completely_multiplicative`: if a completely multiplicative `H` satisfies
`H * g = f`, and `g(1) = 1`, the table is filled with `H`. -/
theorem C52_division_completely (n N : Nat) (h : List α) (g0 f g H : Nat → α) (pf : List Nat) (T : FactorTable pf n)
    (r : Rep h N g0) (hN : n ≤ N) (hN1 : 1 ≤ N) (hH : CMultBelow n H) (hHg : ∀ k, 1 ≤ k → k < n → conv H g k = f k) (hg : g 1 = 1) :
    ∃ h', divisionCompletely h f g n pf = some h' ∧ Rep h' N (fun i => if 1 ≤ i ∧ i < n then H i else g0 i) := by
  obtain ⟨h1, h2, h3, e1, e2, e3, r3⟩ := completely_spec n N h g0 (fun p => f p - g p) H pf T r hN hH
    (fun p hpn hp => by rw [← hHg p hp.one_le hpn, conv_prime H g hp, hg, hH.1]; ring)
  refine ⟨h3, ?_, r3⟩
  rw [divisionCompletely, r.rd (by omega)]
  simp only [Option.bind_eq_bind, Option.bind_some]
  rw [e1]
  simp only [Option.bind_some]
  rw [e2]
  exact e3

/-- **C52**: `dirichlet_inverse_completely_multiplicative`: if `f` has a completely multiplicative inverse
`H`, the table is filled with it. -/
theorem C52_inverse_completely (n N : Nat) (h : List α) (g0 f H : Nat → α) (pf : List Nat) (T : FactorTable pf n)
    (r : Rep h N g0) (hN : n ≤ N) (hN1 : 1 ≤ N) (hH : CMultBelow n H)
    (hHf : ∀ k, 1 ≤ k → k < n → conv H f k = if k = 1 then 1 else 0) :
    ∃ h', inverseCompletely h f n pf = some h' ∧ Rep h' N (fun i => if 1 ≤ i ∧ i < n then H i else g0 i) := by
  by_cases hn : 1 < n
  · have hf1 : f 1 = 1 := by
      have := hHf 1 (le_refl _) hn
      rwa [conv_one, hH.1, one_mul, if_pos rfl] at this
    obtain ⟨h', e, r'⟩ := C52_division_completely n N h g0 unit f H pf T r hN hN1 hH hHf hf1
    refine ⟨h', ?_, r'⟩
    rw [inverseCompletely, r.rd (by omega)]
    exact e
  · obtain ⟨h1, h2, h3, e1, e2, e3, r3⟩ := completely_spec n N h g0 (fun p => unit p - f p) H pf T r hN hH
      (fun p hpn hp => by have := hp.two_le; omega)
    refine ⟨h3, ?_, r3⟩
    rw [inverseCompletely, divisionCompletely, r.rd (by omega)]
    simp only [Option.bind_eq_bind, Option.bind_some]
    rw [e1]
    simp only [Option.bind_some]
    rw [e2]
    exact e3

/-- **C52**: `moebius_transform_completely_multiplicative(g, f)`: if `f` is the sum over the divisors of a
completely multiplicative function, the table is filled with that function. -/
theorem C52_moebius_transform_completely (n N : Nat) (h : List α) (g0 f G : Nat → α) (pf : List Nat) (T : FactorTable pf n)
    (r : Rep h N g0) (hN : n ≤ N) (hN1 : 1 ≤ N) (hG : CMultBelow n G) (hf : ∀ k, 1 ≤ k → k < n → ∑ d ∈ k.divisors, G d = f k) :
    ∃ h', moebiusTransformCompletely h f n pf = some h' ∧ Rep h' N (fun i => if 1 ≤ i ∧ i < n then G i else g0 i) := by
  obtain ⟨h', e, r'⟩ := C52_division_completely n N h g0 f (fun _ => 1) G pf T r hN hN1 hG
    (fun k hk hkn => by rw [← hf k hk hkn, conv]; simp) rfl
  refine ⟨h', ?_, r'⟩
  rw [moebiusTransformCompletely, r.rd (by omega)]
  exact e

example : convolutionCompletely (List.replicate 9 7) (fun k => (ArithmeticFunction.moebius k : Int)) (fun k => ∑ d ∈ k.divisors, (d : Int)) 9
    [0, 1, 2, 3, 2, 5, 3, 7, 2] = some [7, 1, 2, 3, 4, 5, 6, 7, 8] := by decide +kernel

end Altruct.Dirichlet
