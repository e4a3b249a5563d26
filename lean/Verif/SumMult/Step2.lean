/-
`sum_multiplicative`, steps 1 and 2: the sums over primes and over products of at most two primes.
-/
import Verif.SumMult.Rough
import Mathlib.NumberTheory.Bertrand

namespace Altruct.SumMult

open Finset
open Altruct.Maps (SqrtMap Key)
open scoped Classical

variable {α : Type} [CommRing α]

/-! ### Maps that are partly filled -/

/-- The map holds `V` for the keys in `D`. -/
def H (s : SqrtMap α) (L n : Nat) (D : Nat → Prop) (V : Nat → α) : Prop := ∃ g, Tb s L n g ∧ ∀ k, Key L n k → D k → g k = V k

theorem H.el {s : SqrtMap α} {L n : Nat} {D : Nat → Prop} {V : Nat → α} (h : H s L n D V) (hL : 1 ≤ L) {k : Nat} (hk : Key L n k) (hD : D k) : s.el k = some (V k) := by
  obtain ⟨g, t, e⟩ := h
  rw [t.el hL hk, e k hk hD]

theorem H.el' {s : SqrtMap α} {L n : Nat} {D : Nat → Prop} {V : Nat → α} (h : H s L n D V) (hL : 1 ≤ L) {k : Nat} (hk : Key L n k) : ∃ v, s.el k = some v := by
  obtain ⟨g, t, e⟩ := h
  exact ⟨_, t.el hL hk⟩

theorem H.set {s : SqrtMap α} {L n : Nat} {D : Nat → Prop} {V : Nat → α} (h : H s L n D V) (hL : 1 ≤ L) {k : Nat} (hk : Key L n k) {v : α} (hv : v = V k) :
    ∃ s', s.set k v = some s' ∧ H s' L n (fun j => D j ∨ j = k) V := by
  obtain ⟨g, t, e⟩ := h
  obtain ⟨s', e', t'⟩ := t.set hL hk v
  refine ⟨s', e', _, t', fun j hj hD => ?_⟩
  by_cases hjk : j = k
  · rw [hjk, Function.update_self, hv]
  · rw [Function.update_of_ne hjk]
    exact e j hj (hD.resolve_right hjk)

/-- Writing outside the domain. -/
theorem H.put {s : SqrtMap α} {L n : Nat} {D : Nat → Prop} {V : Nat → α} (h : H s L n D V) (hL : 1 ≤ L) {k : Nat} (hk : Key L n k) (v : α) (hD : ¬ D k) :
    ∃ s', s.set k v = some s' ∧ H s' L n D V := by
  obtain ⟨g, t, e⟩ := h
  obtain ⟨s', e', t'⟩ := t.set hL hk v
  refine ⟨s', e', _, t', fun j hj hDj => ?_⟩
  rw [Function.update_of_ne (by rintro rfl; exact hD hDj)]
  exact e j hj hDj

theorem H.mono {s : SqrtMap α} {L n : Nat} {D D' : Nat → Prop} {V V' : Nat → α} (h : H s L n D V) (hD : ∀ k, Key L n k → D' k → D k ∧ V k = V' k) : H s L n D' V' := by
  obtain ⟨g, t, e⟩ := h
  exact ⟨g, t, fun k hk hd => by rw [e k hk (hD k hk hd).1, (hD k hk hd).2]⟩

theorem H.init (L n : Nat) (hL : 1 ≤ L) (V : Nat → α) : ∃ s, SqrtMap.mk' (0 : α) L n = some s ∧ H s L n (fun _ => False) V := by
  obtain ⟨s, e, t⟩ := Tb.init (α := α) L n hL
  exact ⟨s, e, _, t, fun _ _ h => h.elim⟩

theorem downTo_spec {σ : Type} {body : Nat → σ → Option σ} (P : Nat → σ → Prop) (b : Nat) : ∀ (c : Nat) (s : σ), P (b + c) s →
    (∀ i s, b ≤ i → i < b + c → P (i + 1) s → ∃ s', body (i + 1) s = some s' ∧ P i s') → ∃ s', downTo body b c s = some s' ∧ P b s' := by
  intro c
  induction c with
  | zero => intro s h _; exact ⟨s, rfl, h⟩
  | succ c ih =>
    intro s h step
    obtain ⟨s1, e1, h1⟩ := step (b + c) s (by omega) (by omega) h
    obtain ⟨s2, e2, h2⟩ := ih s1 h1 (fun i s a b => step i s a (by omega))
    exact ⟨s2, by rw [downTo, e1]; exact e2, h2⟩

/-! ### Numbers -/

/-- The numbers that `sum_multiplicative` uses. -/
structure Sizes (n q c B : Nat) : Prop where
  hn : 9 ≤ n
  hq : q = Nat.sqrt n
  lo : c * c * c ≤ n
  hi : n < (c + 1) * (c + 1) * (c + 1)
  qB : q ≤ B
  Bn : B ≤ n / c

section sizes
variable {n q c B : Nat}

theorem Sizes.q3 (S : Sizes n q c B) : 3 ≤ q := by
  rw [S.hq]
  exact Nat.le_sqrt.mpr (by have := S.hn; omega)

theorem Sizes.qq (S : Sizes n q c B) : q * q ≤ n := by rw [S.hq]; exact Nat.sqrt_le n

theorem Sizes.qlt (S : Sizes n q c B) : n < (q + 1) * (q + 1) := by rw [S.hq]; exact Nat.lt_succ_sqrt n

theorem Sizes.c2 (S : Sizes n q c B) : 2 ≤ c := by
  by_contra hc
  have h1 := S.hi
  have h2 := S.hn
  have : c ≤ 1 := by omega
  interval_cases c <;> omega

theorem Sizes.cq (S : Sizes n q c B) : c < q := by
  by_contra hc
  have h1 := S.lo
  have h2 := S.qlt
  have h3 := S.q3
  have : q * q * q ≤ c * c * c := Nat.mul_le_mul (Nat.mul_le_mul (by omega) (by omega)) (by omega)
  nlinarith

theorem Sizes.c_nq (S : Sizes n q c B) : c ≤ n / (q + 1) := by
  rw [Nat.le_div_iff_mul_le (by omega)]
  have h1 := S.cq
  have h2 := S.qq
  have : c + 1 ≤ q := h1
  nlinarith

theorem Sizes.q_nd (S : Sizes n q c B) : q + 1 ≤ n / c := by
  have h1 := S.c_nq
  have h2 := S.c2
  rw [Nat.le_div_iff_mul_le (by omega)] at h1 ⊢
  rw [mul_comm]
  exact h1

theorem Sizes.nd_lt (S : Sizes n q c B) : n / (c + 1) < n / c := by
  have h1 := S.cq
  have h2 := S.qq
  have h3 := S.c2
  have h4 : n / (c + 1) * (c + 1) ≤ n := Nat.div_mul_le_self n (c + 1)
  have h5 : c ≤ n / (c + 1) := by
    rw [Nat.le_div_iff_mul_le (by omega)]
    nlinarith
  show n / (c + 1) + 1 ≤ n / c
  rw [Nat.le_div_iff_mul_le (by omega)]
  nlinarith

theorem Sizes.nq_q (S : Sizes n q c B) : n / (q + 1) ≤ q := by
  have h := S.qlt
  exact Nat.le_of_lt_succ (Nat.div_lt_of_lt_mul h)

theorem Sizes.n_q (S : Sizes n q c B) : q ≤ n / (q + 1) + 1 := by
  have h := S.qq
  have h3 := S.q3
  have : q - 1 ≤ n / (q + 1) := by
    rw [Nat.le_div_iff_mul_le (by omega)]
    obtain ⟨r, rfl⟩ : ∃ r, q = r + 1 := ⟨q - 1, by omega⟩
    rw [Nat.add_sub_cancel]
    nlinarith
  omega

theorem Sizes.prime (S : Sizes n q c B) : ∃ r : Nat, r.Prime ∧ c < r ∧ r ≤ q := by
  have h2 := S.c2
  by_cases h4 : 4 ≤ c
  · obtain ⟨r, h, a, b⟩ := Nat.exists_prime_lt_and_le_two_mul c (by omega)
    refine ⟨r, h, a, le_trans b ?_⟩
    rw [S.hq]
    apply Nat.le_sqrt.mpr
    have := S.lo
    nlinarith [Nat.mul_le_mul_left (c * c) h4]
  · have : c = 2 ∨ c = 3 := by omega
    rcases this with rfl | rfl
    · exact ⟨3, by norm_num, by omega, S.q3⟩
    · exact ⟨5, by norm_num, by omega, by rw [S.hq]; exact Nat.le_sqrt.mpr (by have := S.lo; omega)⟩

/-- Keys are small or quotients by small numbers. -/
theorem Sizes.keys (S : Sizes n q c B) {k : Nat} (hk : Key q n k) : k ≤ q ∨ (q < k ∧ ∃ j, 1 ≤ j ∧ j ≤ n / (q + 1) ∧ k = n / j) := by
  by_cases h : k ≤ q
  · exact Or.inl h
  · exact Or.inr ⟨by omega, key_hi (by omega) hk⟩

theorem Sizes.key_n (S : Sizes n q c B) : Key q n n := by
  have := key_div (L := q) (n := n) (le_refl 1)
  rwa [Nat.div_one] at this

end sizes

/-- Quotients of keys are keys. -/
theorem key_quot {L n k : Nat} (h : Key L n k) {p : Nat} (hp : 1 ≤ p) : Key L n (k / p) := by
  rcases h with h | ⟨j, hj, rfl⟩
  · exact Or.inl (le_trans (Nat.div_le_self _ _) h)
  · exact Or.inr ⟨j * p, Nat.mul_pos hj hp, Nat.div_div_eq_div_mul n j p⟩

/-! ### Sums over primes -/

theorem step1_spec {n q : Nat} (hq1 : 1 ≤ q) (hnq : n / (q + 1) ≤ q) (g : Nat → α) {Fp : SqrtMap α} (h : H Fp q n (fun _ => False) g) :
    ∃ Fp', forUp (fun i (Fp : SqrtMap α) => (Fp.set i (g i)).bind fun Fp => Fp.set (n / i) (g (n / i))) 1 (q + 1) Fp = some Fp' ∧
      H Fp' q n (fun k => 1 ≤ k) g := by
  obtain ⟨s, e, t⟩ := forUp_spec (body := fun i (Fp : SqrtMap α) => (Fp.set i (g i)).bind fun Fp => Fp.set (n / i) (g (n / i)))
    (fun i s => H s q n (fun k => ∃ j, 1 ≤ j ∧ j < i ∧ (k = j ∨ k = n / j)) g) (a := 1) (n := q + 1) (s := Fp) (by omega)
    (h.mono (fun k _ hd => by obtain ⟨j, a, b, _⟩ := hd; omega))
    (fun i s h1 h2 t => by
      obtain ⟨s1, e1, t1⟩ := t.set hq1 (key_lo (by omega : i ≤ q)) rfl
      obtain ⟨s2, e2, t2⟩ := t1.set hq1 (key_div h1) rfl
      refine ⟨s2, by rw [e1, Option.bind_some, e2], t2.mono ?_⟩
      rintro k _ ⟨j, a, b, c⟩
      refine ⟨?_, rfl⟩
      by_cases hj : j = i
      · subst hj
        rcases c with c | c
        · exact Or.inl (Or.inr c)
        · exact Or.inr c
      · exact Or.inl (Or.inl ⟨j, a, by omega, c⟩))
  refine ⟨s, e, t.mono (fun k hk h1 => ⟨?_, rfl⟩)⟩
  by_cases hkq : k ≤ q
  · exact ⟨k, h1, by omega, Or.inl rfl⟩
  · obtain ⟨j, a, b, c⟩ := key_hi (by omega) hk
    exact ⟨j, a, by omega, Or.inr c⟩

theorem findK_spec {pa : List Nat} {psz B c : Nat} (T : AllPrimes pa psz B) {r j0 : Nat} (hj0 : j0 < psz) (hr : pa[j0]? = some r) (hcr : c < r) : ∀ (cnt i : Nat), i + cnt + 1 = psz → i ≤ j0 →
    (∀ j p, j < i → pa[j]? = some p → p ≤ c) →
    ∃ i' p, findK pa c cnt (i + 1) = some (i' + 1) ∧ i' ≤ j0 ∧ pa[i']? = some p ∧ pa1 pa (i' + 1) = some p ∧ p.Prime ∧ c < p ∧ ∀ j p, j < i' → pa[j]? = some p → p ≤ c := by
  intro cnt
  induction cnt with
  | zero =>
    intro i hi hij hb
    obtain ⟨p, hp, e1, hpr⟩ := T.get (show i < psz by omega)
    have : j0 = i := by omega
    subst this
    rw [hr] at hp
    obtain rfl := Option.some.inj hp
    exact ⟨j0, r, rfl, le_refl _, hr, e1, hpr, hcr, hb⟩
  | succ cnt ih =>
    intro i hi hij hb
    obtain ⟨p, hp, e1, hpr⟩ := T.get (show i < psz by omega)
    by_cases hpc : p ≤ c
    · have hne : i ≠ j0 := by
        rintro rfl
        rw [hr] at hp
        have := Option.some.inj hp
        omega
      obtain ⟨i', p', h⟩ := ih (i + 1) (by omega) (by omega) (fun j p'' hj hp'' => by
        by_cases hji : j = i
        · subst hji
          rw [hp] at hp''
          rw [← Option.some.inj hp'']
          exact hpc
        · exact hb j p'' (by omega) hp'')
      exact ⟨i', p', by rw [findK, e1, Option.bind_some, if_pos hpc]; exact h.1, h.2⟩
    · exact ⟨i, p, by rw [findK, e1, Option.bind_some, if_neg hpc], hij, hp, e1, hpr, by omega, hb⟩

/-- The sum over the primes in `A`. -/
noncomputable def PR (A : Nat → Prop) (x : Nat) (W : Nat → α) : α := ∑ q ∈ (Icc 1 x).filter (fun q => q.Prime ∧ A q), W q

/-- With no products of two, only one and the primes are left. -/
theorem sumS_base {A : Nat → Prop} {x : Nat} (hx : 1 ≤ x) (h : ∀ r : Nat, r.Prime → A r → x < r * r) (W : Nat → α) : sumS A x W = W 1 + PR A x W := by
  rw [sumS, PR, show (Icc 1 x).filter (Smooth A) = insert 1 ((Icc 1 x).filter (fun q => q.Prime ∧ A q)) from ?_, Finset.sum_insert]
  · rw [mem_filter]
    exact fun hc => Nat.not_prime_one hc.2.1
  · ext t
    rw [mem_filter, mem_insert, mem_filter, mem_Icc]
    constructor
    · rintro ⟨⟨h1, h2⟩, hs⟩
      by_cases ht : t = 1
      · exact Or.inl ht
      · right
        have hmp := Nat.minFac_prime ht
        have hA := hs t.minFac hmp (Nat.minFac_dvd t)
        have hlt := h _ hmp hA
        have hpt : t.Prime := by
          by_contra hnp
          have := Nat.minFac_sq_le_self (by omega : 0 < t) hnp
          rw [pow_two] at this
          omega
        refine ⟨⟨h1, h2⟩, hpt, ?_⟩
        exact hs t hpt (dvd_refl t)
    · rintro (rfl | ⟨h12, hp, hA⟩)
      · exact ⟨⟨le_refl 1, hx⟩, fun r hr hd => absurd (Nat.dvd_one.mp hd) hr.one_lt.ne'⟩
      · refine ⟨h12, fun r hr hd => ?_⟩
        rcases (Nat.dvd_prime hp).mp hd with h | h
        · exact absurd h hr.one_lt.ne'
        · rw [h]; exact hA

theorem PR_ge {A : Nat → Prop} {F : Nat → α} {p x : Nat} (hA : ∀ r : Nat, r.Prime → (A r ↔ p ≤ r)) (hp : p ≤ x + 1) (hp1 : 1 ≤ p) : PR A x F = primeSum F x - primeSum F (p - 1) := by
  rw [eq_sub_iff_add_eq, PR, primeSum, primeSum, ← Finset.sum_union]
  · apply Finset.sum_congr _ (fun _ _ => rfl)
    ext t
    simp only [mem_union, mem_filter, mem_Icc]
    constructor
    · rintro (⟨h, hp, _⟩ | ⟨h, hp⟩)
      · exact ⟨h, hp⟩
      · exact ⟨by omega, hp⟩
    · rintro ⟨h, hp⟩
      by_cases hl : p ≤ t
      · exact Or.inl ⟨h, hp, (hA t hp).mpr hl⟩
      · exact Or.inr ⟨by omega, hp⟩
  · rw [Finset.disjoint_left]
    intro t h1 h2
    simp only [mem_filter, mem_Icc] at h1 h2
    have := (hA t h2.2).mp h1.2.2
    omega

theorem PR_insert {A A' : Nat → Prop} {p x : Nat} (hpr : p.Prime) (hpx : p ≤ x) (hA : ¬ A' p) (h : ∀ r, A r ↔ A' r ∨ r = p) (W : Nat → α) :
    PR A x W = W p + PR A' x W := by
  rw [PR, PR, ← Finset.sum_insert (a := p) (f := W) (by
    rw [mem_filter]
    exact fun hc => hA hc.2.2)]
  apply Finset.sum_congr _ (fun _ _ => rfl)
  ext t
  simp only [mem_insert, mem_filter, mem_Icc]
  rw [h t]
  constructor
  · rintro ⟨h, ht, h1 | h1⟩
    · exact Or.inr ⟨h, ht, h1⟩
    · exact Or.inl h1
  · rintro (rfl | ⟨h, ht, h1⟩)
    · exact ⟨⟨hpr.pos, hpx⟩, hpr, Or.inr rfl⟩
    · exact ⟨h, ht, Or.inl h1⟩

section semis
variable {F : Nat → α} {f : α → Nat → Nat → α} {pa : List Nat} {psz B n q c : Nat}

theorem PR_succ (T : AllPrimes pa psz B) {j p x : Nat} (hj : j < psz) (hp : pa[j]? = some p) (hpx : p ≤ x) (W : Nat → α) :
    PR (fun r => ¬ Before pa j r) x W = W p + PR (fun r => ¬ Before pa (j + 1) r) x W :=
  PR_insert (T.tab.prime j p hj hp) hpx (AllPrimes.self_before hp) (T.split hj hp) W

theorem semi_spec (hF : Mult F f) (T : AllPrimes pa psz B) (S : Sizes n q c B) {Fp : SqrtMap α} (hFp : H Fp q n (fun k => 1 ≤ k) (primeSum F)) {m : Nat} (hm : 1 ≤ m) (hk : Key q n m)
    (hmn : m ≤ n) : ∀ (cnt j : Nat) (s2 : α), j + cnt = psz → (∀ r : Nat, r.Prime → ¬ Before pa j r → c < r) →
    semi f pa Fp m cnt (j + 1) s2 = some (s2 + (R F pa j m - 1 - PR (fun r => ¬ Before pa j r) m F)) := by
  have hq3 := S.q3
  intro cnt
  induction cnt with
  | zero =>
    intro j s2 hj hc
    have : j = psz := by omega
    subst this
    rw [semi, R, sumS_base hm, hF.one]
    · congr 1
      ring
    · intro r hr hb
      have h1 : ¬ r ≤ B := fun h => hb (T.end_before r hr h)
      have h2 := S.qB
      have h3 := S.qlt
      have h4 : (q + 1) * (q + 1) ≤ r * r := Nat.mul_le_mul (by omega) (by omega)
      omega
  | succ cnt ih =>
    intro j s2 hj hc
    obtain ⟨p, hp, e1, hpr⟩ := T.get (show j < psz by omega)
    have hnb := T.not_before (show j < psz by omega) hp
    have hpc : c < p := hc p hpr ((hnb p hpr).mpr (le_refl p))
    rw [semi, e1, Option.bind_some]
    by_cases hpm : p * p ≤ m
    · have hp2 := hpr.two_le
      have hpq : p ≤ q := by
        by_contra hcon
        have h3 := S.qlt
        have : (q + 1) * (q + 1) ≤ p * p := Nat.mul_le_mul (by omega) (by omega)
        omega
      have hpmd : p ≤ m / p := (Nat.le_div_iff_mul_le hpr.pos).mpr hpm
      have hpm' : p ≤ m := le_trans hpmd (Nat.div_le_self _ _)
      rw [if_pos hpm]
      simp only
      have f1 : f 1 p 1 = F p := by
        have := hF.pow p 0 hpr
        rwa [pow_zero, zero_add, pow_one, hF.one] at this
      have f2 : f (F p) p 2 = F (p ^ 2) := by
        have := hF.pow p 1 hpr
        rwa [pow_one] at this
      rw [if_neg hpr.pos.ne', f1, f2, hFp.el (by omega) (key_quot hk hpr.pos) (by omega), Option.bind_some,
        hFp.el (by omega) (key_lo hpq) (by omega), Option.bind_some,
        ih (j + 1) _ (by omega) (fun r hr hb => hc r hr ((T.split (by omega) hp r).mpr (Or.inl hb))),
        R, R, T.sumS_split (by omega) hp m, PR_succ T (by omega) hp hpm', sumS_base (A := fun r => ¬ Before pa j r) (x := m / p) (by omega)]
      · have hG : PR (fun r => ¬ Before pa j r) (m / p) (fun u => F (p * u)) = F (p ^ 2) + F p * (primeSum F (m / p) - primeSum F p) := by
          have := G_eq hF (e := 1) hpr hpmd
          rw [pow_one] at this
          rw [← this, G, PR]
          apply Finset.sum_congr
          · ext t
            simp only [mem_filter, mem_Icc]
            constructor
            · rintro ⟨h, ht, hb⟩
              exact ⟨⟨(hnb t ht).mp hb, h.2⟩, ht⟩
            · rintro ⟨h, ht⟩
              exact ⟨⟨ht.pos, h.2⟩, ht, (hnb t ht).mpr h.1⟩
          · intro t _
            rw [pow_one]
        rw [hG, mul_one]
        congr 1
        ring
      · intro r hr hb
        have hpr' := (hnb r hr).mp hb
        apply Nat.div_lt_of_lt_mul
        have h1 := S.hi
        have h2 : (c + 1) * (c + 1) * (c + 1) ≤ p * (r * r) := by
          rw [mul_assoc]
          exact Nat.mul_le_mul (by omega) (Nat.mul_le_mul (by omega) (by omega))
        omega
    · rw [if_neg hpm, R, sumS_base hm, hF.one]
      · congr 1
        ring
      · intro r hr hb
        have hpr' := (hnb r hr).mp hb
        have : p * p ≤ r * r := Nat.mul_le_mul hpr' hpr'
        omega

theorem below_spec (S : Sizes n q c B) {Fp : SqrtMap α} {g V : Nat → α} {p2 : Nat} {b : α} (hFp : H Fp q n (fun k => 1 ≤ k) g)
    (hV : ∀ m, Key q n m → q < m → m < p2 → b + g m = V m) : ∀ (i : Nat) (Fk : SqrtMap α), i ≤ n / (q + 1) →
    H Fk q n (fun k => 1 ≤ k ∧ (k ≤ q ∨ (k < p2 ∧ ∃ j, i < j ∧ j ≤ n / (q + 1) ∧ k = n / j))) V →
    ∃ Fk', below n p2 b Fp i Fk = some Fk' ∧ H Fk' q n (fun k => 1 ≤ k ∧ (k ≤ q ∨ k < p2)) V := by
  have hq3 := S.q3
  intro i
  induction i with
  | zero =>
    intro Fk _ h
    refine ⟨Fk, rfl, h.mono (fun k hk hd => ⟨⟨hd.1, ?_⟩, rfl⟩)⟩
    rcases S.keys hk with h1 | ⟨h1, j, h2, h3, h4⟩
    · exact Or.inl h1
    · exact Or.inr ⟨by omega, j, by omega, h3, h4⟩
  | succ i ih =>
    intro Fk hi h
    have hlt : q + 1 ≤ n / (i + 1) := by
      rw [Nat.le_div_iff_mul_le (by omega)] at hi ⊢
      rwa [mul_comm]
    rw [below]
    by_cases hp : p2 ≤ n / (i + 1)
    · rw [if_pos hp]
      refine ⟨Fk, rfl, h.mono (fun k hk hd => ⟨⟨hd.1, ?_⟩, rfl⟩)⟩
      rcases S.keys hk with h1 | ⟨h1, j, h2, h3, h4⟩
      · exact Or.inl h1
      · have hkp : k < p2 := by omega
        refine Or.inr ⟨hkp, j, ?_, h3, h4⟩
        by_contra hc
        have := Nat.div_le_div_left (a := n) (show j ≤ i + 1 by omega) h2
        omega
    · rw [if_neg hp, hFp.el (by omega) (key_div (by omega)) (by omega), Option.bind_some]
      obtain ⟨s1, e1, t1⟩ := h.set (by omega) (key_div (n := n) (show 1 ≤ i + 1 by omega)) (hV _ (key_div (by omega)) (by omega) (by omega))
      rw [e1, Option.bind_some]
      refine ih s1 (by omega) (t1.mono (fun k hk hd => ⟨?_, rfl⟩))
      rcases hd with ⟨h1, h2 | ⟨h2, j, h3, h4, h5⟩⟩
      · exact Or.inl ⟨h1, Or.inl h2⟩
      · by_cases hj : j = i + 1
        · exact Or.inr (by rw [h5, hj])
        · exact Or.inl ⟨h1, Or.inr ⟨h2, j, by omega, h4, h5⟩⟩

/-- Step 2 finds the first prime above the cube root and the sums over the numbers without smaller prime factors. -/
theorem step2_spec (hF : Mult F f) (T : AllPrimes pa psz B) (S : Sizes n q c B) {Fp Fk : SqrtMap α} (hFp : H Fp q n (fun k => 1 ≤ k) (primeSum F))
    (hFk : ∀ V, H Fk q n (fun _ => False) V) :
    ∃ Fk' i, step2 f n q c (n / (q + 1)) pa psz Fp Fk = some (Fk', i + 1) ∧ 1 ≤ i ∧ i < psz ∧ H Fk' q n (fun k => 1 ≤ k) (R F pa i) := by
  have hq3 := S.q3
  obtain ⟨r, hr, hcr, hrq⟩ := S.prime
  obtain ⟨j0, hj0, ej0⟩ := T.tab.all r hr (by have := S.qB; omega)
  obtain ⟨i, p, e, hij, hp, e1, hpr, hcp, hb⟩ := findK_spec T hj0 ej0 hcr (psz - 1) 0 (by omega) (by omega) (fun j p h => by omega)
  have hi : i < psz := by omega
  have hnb := T.not_before hi hp
  have hp2 := hpr.two_le
  have hpq : p ≤ q := by
    refine le_trans ?_ hrq
    rcases Nat.lt_or_ge i j0 with h | h
    · exact le_of_lt (T.tab.sorted i j0 p r h hj0 hp ej0)
    · have : i = j0 := by omega
      subst this
      rw [hp] at ej0
      exact le_of_eq (Option.some.inj ej0)
  have hi1 : 1 ≤ i := by
    by_contra hc
    have hi0 : i = 0 := by omega
    have := (hnb 2 Nat.prime_two).mp (by
      rintro ⟨j, hj, _⟩
      omega)
    have := S.c2
    omega
  have hbase : ∀ m, p - 1 ≤ m → m < p * p → 1 - primeSum F (p - 1) + primeSum F m = R F pa i m := by
    intro m h1 h2
    rw [R, sumS_base (by omega), hF.one, PR_ge (p := p) hnb (by omega) (by omega)]
    · ring
    · intro r hr hb
      have := (hnb r hr).mp hb
      have : p * p ≤ r * r := Nat.mul_le_mul this this
      omega
  have hnp3 : n < p * p * p := by
    refine lt_of_lt_of_le S.hi ?_
    exact Nat.mul_le_mul (Nat.mul_le_mul (by omega) (by omega)) (by omega)
  have hqp : q < p * p := by
    by_contra hc
    have h1 := S.qq
    have h2 : p * p * (p * p) ≤ q * q := Nat.mul_le_mul (by omega) (by omega)
    have h3 : p * p * p ≤ p * p * (p * p) := Nat.mul_le_mul_left _ (Nat.le_mul_of_pos_left _ (by omega))
    omega
  obtain ⟨s0, k0, t0⟩ := (hFk (R F pa i)).put (by omega) (key_lo (Nat.zero_le q)) 0 (fun h => h)
  obtain ⟨s1, k1, t1⟩ := forUp_spec (body := fun m (Fk : SqrtMap α) => Fk.set m 1)
    (fun m s => H s q n (fun k => 1 ≤ k ∧ k < m) (R F pa i)) (a := 1) (n := p) (s := s0) (by omega)
    (t0.mono (fun k _ hd => by omega))
    (fun m s h1 h2 t => by
      obtain ⟨s', e', t'⟩ := t.set (by omega) (key_lo (by omega : m ≤ q)) (v := 1) (by rw [R, T.small hi hp h1 h2, hF.one])
      exact ⟨s', e', t'.mono (fun k _ hd => ⟨by omega, rfl⟩)⟩)
  obtain ⟨s2, k2, t2⟩ := forUp_spec (body := fun m (Fk : SqrtMap α) => (Fp.el m).bind fun v => Fk.set m (1 - primeSum F (p - 1) + v))
    (fun m s => H s q n (fun k => 1 ≤ k ∧ k < m) (R F pa i)) (a := p) (n := q + 1) (s := s1) (by omega) t1
    (fun m s h1 h2 t => by
      obtain ⟨s', e', t'⟩ := t.set (by omega) (key_lo (by omega : m ≤ q)) (hbase m (by omega) (by omega))
      refine ⟨s', ?_, t'.mono (fun k _ hd => ⟨by omega, rfl⟩)⟩
      rw [hFp.el (by omega) (key_lo (by omega)) (by omega), Option.bind_some]
      exact e')
  obtain ⟨s3, k3, t3⟩ := below_spec S hFp (p2 := p * p) (V := R F pa i) (fun m _ h1 h2 => hbase m (by omega) h2) (n / (q + 1)) s2 (le_refl _)
    (t2.mono (fun k _ hd => by
      obtain ⟨h1, h2 | ⟨_, j, h3, h4, _⟩⟩ := hd
      · exact ⟨by omega, rfl⟩
      · exact absurd h4 (by omega)))
  obtain ⟨s4, k4, t4⟩ := downTo_spec (body := fun a (Fk : SqrtMap α) =>
      let m := n / a
      if m < p * p then some Fk
      else (semi f pa Fp m (psz + 1 - (i + 1)) (i + 1) 0).bind fun s2 => (Fp.el m).bind fun v => Fk.set m (1 - primeSum F (p - 1) + v + s2))
    (fun a s => H s q n (fun k => 1 ≤ k ∧ (k ≤ q ∨ k < p * p ∨ ∃ j, a < j ∧ j ≤ c ∧ k = n / j)) (R F pa i)) 0 c s3
    (t3.mono (fun k _ hd => by
      obtain ⟨h1, h2 | h2 | ⟨j, h3, h4, _⟩⟩ := hd
      · exact ⟨⟨h1, Or.inl h2⟩, rfl⟩
      · exact ⟨⟨h1, Or.inr h2⟩, rfl⟩
      · omega))
    (fun a s h1 h2 t => by
      simp only
      by_cases hm : n / (a + 1) < p * p
      · rw [if_pos hm]
        refine ⟨s, rfl, t.mono (fun k _ hd => ⟨?_, rfl⟩)⟩
        obtain ⟨h1, h2 | h2 | ⟨j, h3, h4, h5⟩⟩ := hd
        · exact ⟨h1, Or.inl h2⟩
        · exact ⟨h1, Or.inr (Or.inl h2)⟩
        · by_cases hj : j = a + 1
          · exact ⟨h1, Or.inr (Or.inl (by rw [h5, hj]; exact hm))⟩
          · exact ⟨h1, Or.inr (Or.inr ⟨j, by omega, h4, h5⟩)⟩
      · have hpp : p ≤ p * p := Nat.le_mul_of_pos_left _ (by omega)
        have hkey : Key q n (n / (a + 1)) := key_div (by omega)
        have hm1 : 1 ≤ n / (a + 1) := by omega
        rw [if_neg hm, semi_spec hF T S hFp hm1 hkey (Nat.div_le_self _ _) _ i 0 (by omega) (fun r hr hb => by
          have := (hnb r hr).mp hb
          omega), Option.bind_some, hFp.el (by omega) hkey hm1, Option.bind_some, PR_ge (p := p) hnb (by omega) (by omega)]
        obtain ⟨s', e', t'⟩ := t.set (by omega) hkey (v := 1 - primeSum F (p - 1) + primeSum F (n / (a + 1)) + (0 + (R F pa i (n / (a + 1)) - 1 - (primeSum F (n / (a + 1)) - primeSum F (p - 1))))) (by ring)
        refine ⟨s', e', t'.mono (fun k _ hd => ⟨?_, rfl⟩)⟩
        obtain ⟨h1, h2 | h2 | ⟨j, h3, h4, h5⟩⟩ := hd
        · exact Or.inl ⟨h1, Or.inl h2⟩
        · exact Or.inl ⟨h1, Or.inr (Or.inl h2)⟩
        · by_cases hj : j = a + 1
          · exact Or.inr (by rw [h5, hj])
          · exact Or.inl ⟨h1, Or.inr (Or.inr ⟨j, by omega, h4, h5⟩)⟩)
  refine ⟨s4, i, ?_, hi1, hi, t4.mono (fun k hk h1 => ⟨⟨h1, ?_⟩, rfl⟩)⟩
  · rw [step2, e, Option.bind_some, e1, Option.bind_some, k0, Option.bind_some, k1, Option.bind_some, hFp.el (by omega) (key_lo (by omega)) (by omega), Option.bind_some]
    simp only
    rw [k2, Option.bind_some, k3, Option.bind_some]
    simp only at k4
    rw [k4, Option.bind_some]
  · rcases S.keys hk with h | ⟨h, j, hj1, hj2, hj3⟩
    · exact Or.inl h
    · right
      by_cases hkp : k < p * p
      · exact Or.inl hkp
      · refine Or.inr ⟨j, by omega, ?_, hj3⟩
        by_contra hc
        have h5 : k * j ≤ n := by rw [hj3]; exact Nat.div_mul_le_self n j
        have h6 : (c + 1) * (c + 1) * (c + 1) ≤ k * j := by
          refine Nat.mul_le_mul ?_ (by omega)
          refine le_trans (Nat.mul_le_mul (show c + 1 ≤ p by omega) (show c + 1 ≤ p by omega)) (by omega)
        have := S.hi
        omega

end semis

end Altruct.SumMult
