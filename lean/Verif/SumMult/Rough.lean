/-
Sums over the numbers without small prime factors: `calc_F_k` and `traverse_rough_numbers`.
-/
import Verif.SumMult.Model23
import Verif.SumMult.Props34

namespace Altruct.SumMult

open Finset
open Altruct.Dirichlet (PrimeTable)
open scoped Classical

variable {α : Type} [CommRing α]

/-- The first `psz` elements of `pa` are all the primes up to `B`, in increasing order. -/
structure AllPrimes (pa : List Nat) (psz B : Nat) : Prop where
  tab : PrimeTable pa psz (B + 1)
  le : ∀ (i p : Nat), i < psz → pa[i]? = some p → p ≤ B

/-- The sum of `F` over the numbers up to `x` without prime factors before index `i`. -/
noncomputable def R (F : Nat → α) (pa : List Nat) (i x : Nat) : α := sumS (fun r => ¬ Before pa i r) x F

theorem R_first (F : Nat → α) (pa : List Nat) (x : Nat) : R F pa 0 x = total F x := by
  rw [R, sumS, total, Finset.filter_true_of_mem]
  rintro t - r _ _ ⟨j, hj, _⟩
  omega

section table
variable {pa : List Nat} {psz B i p : Nat}

theorem AllPrimes.get (T : AllPrimes pa psz B) (hi : i < psz) : ∃ p, pa[i]? = some p ∧ pa1 pa (i + 1) = some p ∧ p.Prime := by
  have hl : i < pa.length := by have := T.tab.len; omega
  refine ⟨pa[i], by rw [List.getElem?_eq_getElem], ?_, T.tab.prime i _ hi (by rw [List.getElem?_eq_getElem])⟩
  rw [pa1, if_neg (by omega), Nat.add_sub_cancel, rd, List.getElem?_eq_getElem hl]

theorem AllPrimes.not_before (T : AllPrimes pa psz B) (hi : i < psz) (hp : pa[i]? = some p) (r : Nat) (hr : r.Prime) : ¬ Before pa i r ↔ p ≤ r := by
  constructor
  · intro h
    by_contra hc
    obtain ⟨j, hj, e⟩ := T.tab.all r hr (by have := T.le i p hi hp; omega)
    apply h
    refine ⟨j, ?_, e⟩
    by_contra hji
    rcases Nat.lt_or_ge i j with h1 | h1
    · have := T.tab.sorted i j p r h1 hj hp e
      omega
    · have : j = i := by omega
      subst this
      rw [hp] at e
      have := Option.some.inj e
      omega
  · intro h hb
    have := before_lt T.tab hi hp hb
    omega

theorem AllPrimes.end_before (T : AllPrimes pa psz B) (r : Nat) (hr : r.Prime) (hB : r ≤ B) : Before pa psz r :=
  let ⟨j, hj, e⟩ := T.tab.all r hr (by omega)
  ⟨j, hj, e⟩

theorem AllPrimes.split (T : AllPrimes pa psz B) (hi : i < psz) (hp : pa[i]? = some p) (r : Nat) : ¬ Before pa i r ↔ ¬ Before pa (i + 1) r ∨ r = p := by
  rw [before_succ hp r]
  constructor
  · intro h
    by_cases hr : r = p
    · exact Or.inr hr
    · exact Or.inl (fun hc => hc.elim h hr)
  · rintro (h | rfl)
    · exact fun hb => h (Or.inl hb)
    · exact fun hb => lt_irrefl _ (before_lt T.tab hi hp hb)

theorem AllPrimes.self_before (hp : pa[i]? = some p) : ¬ ¬ Before pa (i + 1) p := not_not.mpr ⟨i, by omega, hp⟩

theorem AllPrimes.sumS_split (T : AllPrimes pa psz B) (hi : i < psz) (hp : pa[i]? = some p) (x : Nat) (W : Nat → α) :
    sumS (fun r => ¬ Before pa i r) x W = sumS (fun r => ¬ Before pa (i + 1) r) x W + sumS (fun r => ¬ Before pa i r) (x / p) (fun u => W (p * u)) :=
  SumMult.sumS_split (T.tab.prime i p hi hp) (AllPrimes.self_before hp) (fun r _ => T.split hi hp r) x W

theorem AllPrimes.coprime (T : AllPrimes pa psz B) (hi : i < psz) (hp : pa[i]? = some p) {u : Nat} (hu : Smooth (fun r => ¬ Before pa (i + 1) r) u) (e : Nat) :
    Nat.Coprime (p ^ e) u := by
  apply Nat.Coprime.pow_left
  rw [Nat.Prime.coprime_iff_not_dvd (T.tab.prime i p hi hp)]
  exact fun hd => AllPrimes.self_before hp (hu p (T.tab.prime i p hi hp) hd)

/-- Only one is left below the next prime. -/
theorem AllPrimes.small (T : AllPrimes pa psz B) (hi : i < psz) (hp : pa[i]? = some p) {x : Nat} (hx : 1 ≤ x) (hxp : x < p) (W : Nat → α) :
    sumS (fun r => ¬ Before pa i r) x W = W 1 :=
  sumS_none hx (fun r hr hrx hb => by have := (T.not_before hi hp r hr).mp hb; omega)

theorem AllPrimes.last (T : AllPrimes pa psz B) {x : Nat} (hx : 1 ≤ x) (hxB : x ≤ B) (W : Nat → α) :
    sumS (fun r => ¬ Before pa psz r) x W = W 1 :=
  sumS_none hx (fun r hr hrx hb => hb (T.end_before r hr (by omega)))

end table

/-! ### `calc_F_k` -/

section calcFk
variable {F : Nat → α} {f : α → Nat → Nat → α} {pa : List Nat} {psz B i p : Nat}

theorem calcLoop_spec (hF : Mult F f) (T : AllPrimes pa psz B) (hi : i < psz) (hp : pa[i]? = some p) {m : Nat} {F1 : Nat → Option α}
    (hF1 : ∀ e, 1 ≤ e → 1 ≤ m / p ^ e → F1 (m / p ^ e) = some (R F pa (i + 1) (m / p ^ e))) : ∀ (fuel e : Nat) (s : α), m / p ^ e ≤ fuel →
    calcLoop f p F1 fuel (m / p ^ e) (e + 1) (F (p ^ e)) s = some (s + sumS (fun r => ¬ Before pa i r) (m / p ^ (e + 1)) (fun u => F (p ^ (e + 1) * u))) := by
  have hpr := T.tab.prime i p hi hp
  intro fuel
  induction fuel with
  | zero =>
    intro e s hf
    have h0 : m / p ^ e / p = 0 := by rw [Nat.le_zero.mp hf, Nat.zero_div]
    rw [calcLoop, if_neg hpr.pos.ne']
    simp only
    rw [if_neg (by omega), pow_succ, ← Nat.div_div_eq_div_mul, h0, sumS_zero (fun t h1 h2 _ => by omega), add_zero]
  | succ fuel ih =>
    intro e s hf
    rw [calcLoop, if_neg hpr.pos.ne']
    simp only
    rw [Nat.div_div_eq_div_mul, ← pow_succ]
    by_cases hm : 0 < m / p ^ (e + 1)
    · rw [if_pos hm, hF.pow p e hpr, hF1 (e + 1) (by omega) hm, Option.bind_some, ih (e + 1), T.sumS_split hi hp (m / p ^ (e + 1)),
        Nat.div_div_eq_div_mul, ← pow_succ, R, sumS_mul, add_assoc]
      · congr 2
        congr 1
        · apply sumS_congr
          intro u hu _ hs
          exact (hF.mul _ _ (pow_pos hpr.pos _) hu (T.coprime hi hp hs _)).symm
        · apply sumS_congr
          intro u _ _ _
          rw [pow_succ p (e + 1), mul_assoc]
      · have h1 : 1 ≤ m / p ^ e := by
          by_contra hc
          rw [pow_succ, ← Nat.div_div_eq_div_mul, Nat.eq_zero_of_not_pos hc, Nat.zero_div] at hm
          omega
        rw [pow_succ, ← Nat.div_div_eq_div_mul]
        have := Nat.div_lt_self h1 hpr.one_lt
        omega
    · rw [if_neg hm, sumS_zero (fun t h1 h2 _ => by omega), add_zero]

/-- `calc_F_k` goes one prime down. -/
theorem calcFk_spec (hF : Mult F f) (T : AllPrimes pa psz B) (hi : i < psz) (hp : pa[i]? = some p) {m fuel : Nat} {F1 : Nat → Option α} (hm : 1 ≤ m) (hf : m ≤ fuel)
    (hF1 : ∀ e, 1 ≤ m / p ^ e → F1 (m / p ^ e) = some (R F pa (i + 1) (m / p ^ e))) :
    calcFk f fuel p m F1 = some (R F pa i m) := by
  have h0 := hF1 0
  rw [pow_zero, Nat.div_one] at h0
  rw [calcFk, h0 hm, Option.bind_some]
  have h1 := calcLoop_spec hF T hi hp (fun e _ => hF1 e) fuel 0 (R F pa (i + 1) m) (by rw [pow_zero, Nat.div_one]; exact hf)
  rw [pow_zero, Nat.div_one, zero_add, pow_one, hF.one] at h1
  rw [h1, R, R, T.sumS_split hi hp m]

end calcFk

/-! ### `traverse_rough_numbers` -/

section rough
variable {F : Nat → α} {f : α → Nat → Nat → α} {pa : List Nat} {psz B : Nat} {σ : Type} {visit : Nat → α → σ → Option σ}
  {St : ((Nat → α) → α) → σ → Prop} {U : Nat}

/-- `St S s`: the calls of the visitor that led to `s` add up to `S w` for all weights `w`. -/
def VisitOk (visit : Nat → α → σ → Option σ) (St : ((Nat → α) → α) → σ → Prop) (U : Nat) : Prop :=
  ∀ m v S s, 1 ≤ m → m ≤ U → St S s → ∃ s', visit m v s = some s' ∧ St (fun w => S w + v * w m) s'

/-- What a call of the traversal adds: the numbers `m t` with `t` up to `n` and smallest prime factor `p`. -/
noncomputable def contrib (F : Nat → α) (pa : List Nat) (i p n m : Nat) (fm : α) (w : Nat → α) : α :=
  sumS (fun r => ¬ Before pa i r) (n / p) (fun u => fm * F (p * u) * w (m * (p * u)))

theorem roughNext_spec (hF1 : F 1 = 1) (T : AllPrimes pa psz B) {self : Nat → Nat → Nat → α → σ → Option σ} {y mpe : Nat} {fmpe : α} (hy : 1 ≤ y) (hyB : y ≤ B) {i0 : Nat}
    (hself : ∀ (j p : Nat) S s, i0 ≤ j → j < psz → pa[j]? = some p → p ≤ y → St S s →
      ∃ s', self y (j + 1) mpe fmpe s = some s' ∧ St (fun w => S w + contrib F pa j p y mpe fmpe w) s') :
    ∀ (c i : Nat) S s, i0 ≤ i → i + c = psz → St S s →
    ∃ s', roughNext self pa y mpe fmpe c (i + 1) s = some s' ∧
      St (fun w => S w + (sumS (fun r => ¬ Before pa i r) y (fun u => fmpe * F u * w (mpe * u)) - fmpe * w mpe)) s' := by
  intro c
  induction c with
  | zero =>
    intro i S s _ hi hs
    refine ⟨s, rfl, ?_⟩
    rw [show i = psz by omega]
    convert hs using 2 with w
    rw [T.last hy hyB, hF1, mul_one, mul_one, sub_self, add_zero]
  | succ c ih =>
    intro i S s hi0 hi hs
    obtain ⟨p, hp, e1, hpr⟩ := T.get (show i < psz by omega)
    rw [roughNext, e1, Option.bind_some]
    by_cases hpy : p ≤ y
    · obtain ⟨s1, k1, t1⟩ := hself i p S s hi0 (by omega) hp hpy hs
      obtain ⟨s2, k2, t2⟩ := ih (i + 1) _ s1 (by omega) (by omega) t1
      refine ⟨s2, by rw [if_pos hpy, k1]; exact k2, ?_⟩
      convert t2 using 2 with w
      rw [T.sumS_split (by omega) hp y, contrib]
      ring
    · refine ⟨s, by rw [if_neg hpy], ?_⟩
      convert hs using 2 with w
      rw [T.small (by omega) hp hy (by omega), hF1, mul_one, mul_one, sub_self, add_zero]

theorem roughExp_spec (hF : Mult F f) (T : AllPrimes pa psz B) (hv : VisitOk visit St U) {self : Nat → Nat → Nat → α → σ → Option σ} {n m i p : Nat} {fm : α}
    (hi : i < psz) (hp : pa[i]? = some p) (hnB : n / p ≤ B) (hm : 1 ≤ m) (hU : m * n ≤ U)
    (hself : ∀ (y j p' mpe : Nat) (fmpe : α) S s, y < n → i < j → j < psz → pa[j]? = some p' → p' ≤ y → y ≤ B → 1 ≤ mpe → mpe * y ≤ U → St S s →
      ∃ s', self y (j + 1) mpe fmpe s = some s' ∧ St (fun w => S w + contrib F pa j p' y mpe fmpe w) s') :
    ∀ (fuel e : Nat) S s, n / p ^ e ≤ fuel → St S s →
    ∃ s', roughExp self f visit pa psz (i + 1) p fm fuel (n / p ^ e) (m * p ^ e) e (F (p ^ e)) s = some s' ∧
      St (fun w => S w + sumS (fun r => ¬ Before pa i r) (n / p ^ (e + 1)) (fun u => fm * F (p ^ (e + 1) * u) * w (m * (p ^ (e + 1) * u)))) s' := by
  have hpr := T.tab.prime i p hi hp
  intro fuel
  induction fuel with
  | zero =>
    intro e S s hf hs
    have h0 : n / p ^ e = 0 := Nat.le_zero.mp hf
    have hpp := hpr.pos
    rw [roughExp, if_neg (by rw [h0]; omega)]
    refine ⟨s, rfl, ?_⟩
    convert hs using 2 with w
    rw [pow_succ, ← Nat.div_div_eq_div_mul, h0, Nat.zero_div, sumS_zero (fun t h1 h2 _ => by omega), add_zero]
  | succ fuel ih =>
    intro e S s hf hs
    rw [roughExp]
    by_cases hpn : p ≤ n / p ^ e
    · rw [if_pos hpn]
      simp only
      rw [if_neg hpr.pos.ne', hF.pow p e hpr, Nat.div_div_eq_div_mul, ← pow_succ, mul_assoc m, ← pow_succ]
      have hpe : 1 ≤ p ^ (e + 1) := pow_pos hpr.pos _
      have hy : 1 ≤ n / p ^ (e + 1) := by
        rw [pow_succ, ← Nat.div_div_eq_div_mul]
        exact Nat.div_pos hpn hpr.pos
      have hn1 : 1 ≤ n := by
        have := Nat.div_le_self n (p ^ (e + 1)); omega
      have hyB : n / p ^ (e + 1) ≤ B := by
        refine le_trans ?_ hnB
        rw [pow_succ, mul_comm, ← Nat.div_div_eq_div_mul]
        exact Nat.div_le_self _ _
      have hyn : n / p ^ (e + 1) < n := Nat.div_lt_self hn1 (Nat.one_lt_pow (by omega) hpr.one_lt)
      have hU2 : m * p ^ (e + 1) * (n / p ^ (e + 1)) ≤ U := by
        refine le_trans ?_ hU
        rw [mul_assoc]
        exact Nat.mul_le_mul_left m (Nat.mul_div_le n _)
      obtain ⟨s1, k1, t1⟩ := hv (m * p ^ (e + 1)) (fm * F (p ^ (e + 1))) S s (Nat.mul_pos hm hpe)
        (le_trans (Nat.le_mul_of_pos_right _ hy) hU2) hs
      obtain ⟨s2, k2, t2⟩ := roughNext_spec (self := self) (y := n / p ^ (e + 1)) (mpe := m * p ^ (e + 1)) (fmpe := fm * F (p ^ (e + 1))) hF.one T hy hyB
        (i0 := i + 1) (fun j p' S s hij hj hp' hle hs => hself _ j p' _ _ S s hyn (by omega) hj hp' hle hyB (Nat.mul_pos hm hpe) hU2 hs)
        (psz - (i + 1)) (i + 1) _ s1 (le_refl _) (by omega) t1
      obtain ⟨s3, k3, t3⟩ := ih (e + 1) _ s2 (by
        have h1 : 1 ≤ n / p ^ e := le_trans hpr.pos hpn
        rw [pow_succ, ← Nat.div_div_eq_div_mul]
        have := Nat.div_lt_self h1 hpr.one_lt
        omega) t2
      refine ⟨s3, ?_, ?_⟩
      · rw [k1, Option.bind_some, k2, Option.bind_some, k3]
      · convert t3 using 2 with w
        have h1 : sumS (fun r => ¬ Before pa (i + 1) r) (n / p ^ (e + 1)) (fun u => fm * F (p ^ (e + 1) * u) * w (m * (p ^ (e + 1) * u))) =
            sumS (fun r => ¬ Before pa (i + 1) r) (n / p ^ (e + 1)) (fun u => fm * F (p ^ (e + 1)) * F u * w (m * p ^ (e + 1) * u)) := by
          apply sumS_congr
          intro u hu _ hsm
          rw [hF.mul _ _ hpe hu (T.coprime hi hp hsm _), mul_assoc m]
          ring
        have h2 : sumS (fun r => ¬ Before pa i r) (n / p ^ (e + 1) / p) (fun u => fm * F (p ^ (e + 1) * (p * u)) * w (m * (p ^ (e + 1) * (p * u)))) =
            sumS (fun r => ¬ Before pa i r) (n / p ^ (e + 1 + 1)) (fun u => fm * F (p ^ (e + 1 + 1) * u) * w (m * (p ^ (e + 1 + 1) * u))) := by
          rw [Nat.div_div_eq_div_mul, ← pow_succ]
          apply sumS_congr
          intro u _ _ _
          rw [pow_succ p (e + 1), mul_assoc (p ^ (e + 1))]
        rw [T.sumS_split hi hp (n / p ^ (e + 1)), h1, h2]
        ring
    · rw [if_neg hpn]
      refine ⟨s, rfl, ?_⟩
      convert hs using 2 with w
      rw [pow_succ, ← Nat.div_div_eq_div_mul, Nat.div_eq_of_lt (by omega : n / p ^ e < p), sumS_zero (fun t h1 h2 _ => by omega), add_zero]

theorem rough_spec (hF : Mult F f) (T : AllPrimes pa psz B) (hv : VisitOk visit St U) : ∀ (fuel n i p m : Nat) (fm : α) S s, i < psz → pa[i]? = some p →
    n < fuel → n / p ≤ B → 1 ≤ m → m * n ≤ U → St S s →
    ∃ s', rough f visit pa psz fuel n (i + 1) m fm s = some s' ∧ St (fun w => S w + contrib F pa i p n m fm w) s' := by
  intro fuel
  induction fuel with
  | zero => intro n i p m fm S s _ _ h; omega
  | succ fuel ih =>
    intro n i p m fm S s hi hp hf hnB hm hU hs
    obtain ⟨p', hp', e1, hpr⟩ := T.get hi
    rw [hp] at hp'
    obtain rfl := Option.some.inj hp'
    obtain ⟨s', k, t⟩ := roughExp_spec hF T hv (self := rough f visit pa psz fuel) (fm := fm) hi hp hnB hm hU
      (fun y j p' mpe fmpe S s hy hij hj hp' hle hyB hm hU hs => ih y j p' mpe fmpe S s hj hp' (by omega) (le_trans (Nat.div_le_self _ _) hyB) hm hU hs)
      fuel 0 S s (by rw [pow_zero, Nat.div_one]; omega) hs
    refine ⟨s', ?_, ?_⟩
    · rw [rough, e1, Option.bind_some]
      rw [pow_zero, Nat.div_one, mul_one, hF.one] at k
      exact k
    · convert t using 2 with w
      rw [contrib, zero_add, pow_one]

end rough

end Altruct.SumMult
