/-
C13, C14: factorisations and what is computed from them.
-/
import Verif.Primes.FactorModel
import Verif.Primes.TablesProps
import Verif.Base.Props
import Mathlib.NumberTheory.ArithmeticFunction.Moebius
import Mathlib.NumberTheory.ArithmeticFunction.Misc
import Mathlib.NumberTheory.ArithmeticFunction.Carmichael
import Mathlib.Data.Nat.Factorization.Basic
import Mathlib.Data.List.Sort
import Mathlib.Data.List.Forall2

namespace Altruct.Primes

/-! ### Specification -/

/-- `vf` lists the prime factors of `n`, each once, with their positive exponents. -/
structure IsFactorization (vf : List (Nat × Nat)) (n : Nat) : Prop where
  prime : ∀ f ∈ vf, f.1.Prime
  pos : ∀ f ∈ vf, 0 < f.2
  distinct : (vf.map Prod.fst).Nodup
  prod : (vf.map fun f => f.1 ^ f.2).prod = n

/-- `pf` holds a prime factor of every number from 2 to `n`, as computed by `factor`. -/
def FactorTable (pf : List Nat) (n : Nat) : Prop :=
  ∀ j, 2 ≤ j → j ≤ n → ∃ p, pf[j]? = some p ∧ p.Prime ∧ p ∣ j

/-- The table computed by `factor` is such a table. -/
theorem C13_factor_table (lim n : Nat) (h2 : 2 ≤ n) (hlim : 2 * n ≤ lim) (p : List Nat) (m : Nat)
    (hm : m ≤ p.length) (hp : p.take m = primesBelow n) (bpf : List Nat) (hb : bpf.length = n) :
    ∃ v, factor lim bpf n p m = some v ∧ FactorTable v (n - 1) := by
  obtain ⟨v, h1, _, _, _, h5⟩ := C12_factor lim n h2 hlim p m hm hp bpf hb
  refine ⟨v, h1, fun j hj hjn => ?_⟩
  obtain ⟨q, hq, hg, _⟩ := h5 j hj (by omega)
  exact ⟨q, hq, hg.1, hg.2⟩

/-! ### Lemmas about factorisations -/

theorem IsFactorization.nil : IsFactorization [] 1 := ⟨by simp, by simp, by simp, by simp⟩

theorem IsFactorization.ne_zero {vf : List (Nat × Nat)} {n : Nat} (h : IsFactorization vf n) : n ≠ 0 := by
  rw [← h.prod]
  apply List.prod_ne_zero
  rw [List.mem_map]
  rintro ⟨f, hf, h0⟩
  exact (h.prime f hf).ne_zero (pow_eq_zero_iff (h.pos f hf).ne' |>.mp h0)

theorem IsFactorization.dvd {vf : List (Nat × Nat)} {n : Nat} (h : IsFactorization vf n) {f : Nat × Nat}
    (hf : f ∈ vf) : f.1 ^ f.2 ∣ n := by
  rw [← h.prod]
  exact List.dvd_prod (List.mem_map.mpr ⟨f, hf, rfl⟩)

theorem IsFactorization.fst_dvd {vf : List (Nat × Nat)} {n : Nat} (h : IsFactorization vf n) {f : Nat × Nat}
    (hf : f ∈ vf) : f.1 ∣ n := (dvd_pow_self _ (h.pos f hf).ne').trans (h.dvd hf)

theorem IsFactorization.cons {vf : List (Nat × Nat)} {n p k : Nat} (h : IsFactorization vf n) (hp : p.Prime)
    (hk : 0 < k) (hn : ¬ p ∣ n) : IsFactorization ((p, k) :: vf) (p ^ k * n) where
  prime := by
    intro f hf
    rw [List.mem_cons] at hf
    rcases hf with rfl | hf
    · exact hp
    · exact h.prime f hf
  pos := by
    intro f hf
    rw [List.mem_cons] at hf
    rcases hf with rfl | hf
    · exact hk
    · exact h.pos f hf
  distinct := by
    rw [List.map_cons, List.nodup_cons]
    refine ⟨fun hm => ?_, h.distinct⟩
    obtain ⟨f, hf, rfl⟩ := List.mem_map.mp hm
    exact hn (h.fst_dvd hf)
  prod := by rw [List.map_cons, List.prod_cons, h.prod]

theorem IsFactorization.tail {vf : List (Nat × Nat)} {f : Nat × Nat} {n : Nat} (h : IsFactorization (f :: vf) n) :
    ∃ n', IsFactorization vf n' ∧ n = f.1 ^ f.2 * n' ∧ ¬ f.1 ∣ n' ∧ f.1.Prime ∧ 0 < f.2 := by
  have hd := h.distinct
  rw [List.map_cons, List.nodup_cons] at hd
  refine ⟨_, ⟨fun g hg => h.prime g (List.mem_cons_of_mem _ hg), fun g hg => h.pos g (List.mem_cons_of_mem _ hg), hd.2,
    rfl⟩, ?_, ?_, h.prime f (by simp), h.pos f (by simp)⟩
  · rw [← h.prod, List.map_cons, List.prod_cons]
  · intro hdvd
    rw [(h.prime f (by simp)).prime.dvd_prod_iff] at hdvd
    obtain ⟨x, hx, hdx⟩ := hdvd
    obtain ⟨g, hg, rfl⟩ := List.mem_map.mp hx
    have := (Nat.prime_dvd_prime_iff_eq (h.prime f (by simp)) (h.prime g (by simp [hg]))).mp
      ((h.prime f (by simp)).dvd_of_dvd_pow hdx)
    exact hd.1 (List.mem_map.mpr ⟨g, hg, this.symm⟩)

/-- The exponent of every prime is the multiplicity: the factorisation is determined by `n`. -/
theorem IsFactorization.factorization {vf : List (Nat × Nat)} {n : Nat} (h : IsFactorization vf n) :
    ∀ f ∈ vf, n.factorization f.1 = f.2 := by
  induction vf generalizing n with
  | nil => simp
  | cons g vf ih =>
    obtain ⟨n', h', rfl, hnd, hp, hk⟩ := h.tail
    have h0 := h'.ne_zero
    intro f hf
    rw [List.mem_cons] at hf
    rw [Nat.factorization_mul (pow_ne_zero _ hp.ne_zero) h0, Finsupp.add_apply, hp.factorization_pow]
    rcases hf with rfl | hf
    · rw [Finsupp.single_eq_same, Nat.factorization_eq_zero_of_not_dvd hnd, add_zero]
    · have hne : f.1 ≠ g.1 := by
        intro e
        exact hnd (e ▸ h'.fst_dvd hf)
      rw [Finsupp.single_eq_of_ne hne, zero_add, ih h' f hf]

/-! ### Taking out a factor -/

theorem factorOut_pow {p : Nat} (hp : 2 ≤ p) (k : Nat) :
    ∀ t e, 0 < t → ¬ p ∣ t → factorOut (p ^ k * t) p e = some (t, e + k) := by
  induction k with
  | zero =>
    intro t e ht hpt
    rw [factorOut, if_neg (by omega), if_neg (by simpa [Nat.dvd_iff_mod_eq_zero] using hpt)]
    simp
  | succ k ih =>
    intro t e ht hpt
    have hpos : 0 < p ^ (k + 1) * t := Nat.mul_pos (Nat.pow_pos (by omega)) ht
    have hd : p ^ (k + 1) * t = p * (p ^ k * t) := by ring
    rw [factorOut, if_neg (by omega), if_pos (by rw [hd]; exact Nat.mul_mod_right _ _), dif_neg (by omega), hd,
      Nat.mul_div_cancel_left _ (by omega), ih t _ ht hpt]
    congr 2
    omega

/-- C13: `factor_out(n, p, e)` splits `n` into `p ^ k` and a part not divisible by `p`, and adds
`k` to `e`. -/
theorem C13_factor_out (n p e : Nat) (hn : 0 < n) (hp : 2 ≤ p) :
    ∃ t k, factorOut n p e = some (t, e + k) ∧ n = p ^ k * t ∧ ¬ p ∣ t := by
  obtain ⟨k, t, hpt, rfl⟩ := Nat.exists_eq_pow_mul_and_not_dvd (show n ≠ 0 by omega) p (by omega)
  exact ⟨t, k, factorOut_pow hp k t e (Nat.pos_of_ne_zero (by rintro rfl; exact hpt (dvd_zero p))) hpt, rfl, hpt⟩

theorem out_step {n p : Nat} (hn : 2 ≤ n) (hp : p.Prime) (hd : p ∣ n) :
    ∃ t k, factorOut n p 0 = some (t, k) ∧ n = p ^ k * t ∧ ¬ p ∣ t ∧ 0 < t ∧ 0 < k ∧ t < n := by
  obtain ⟨t, k, h1, h2, h3⟩ := C13_factor_out n p 0 (by omega) hp.two_le
  rw [Nat.zero_add] at h1
  have ht : 0 < t := Nat.pos_of_ne_zero (by rintro rfl; exact h3 (dvd_zero p))
  have hk : 0 < k := Nat.pos_of_ne_zero (by
    rintro rfl
    rw [pow_zero, one_mul] at h2
    subst h2
    exact h3 hd)
  refine ⟨t, k, h1, h2, h3, ht, hk, ?_⟩
  rw [h2]
  exact lt_mul_of_one_lt_left ht (Nat.one_lt_pow hk.ne' hp.one_lt)

/-! ### Factorisation from a table -/

/-- C13: `factor_integer(vf, n, pf)` appends a factorisation of `n`. -/
theorem C13_factor_integer (pf : List Nat) (n : Nat) (hn : 1 ≤ n) (hpf : FactorTable pf n) (vf : List (Nat × Nat)) :
    ∃ w, factorInteger pf vf n = some (vf ++ w) ∧ IsFactorization w n := by
  induction n using Nat.strong_induction_on generalizing vf with
  | _ n ih =>
    rw [factorInteger]
    by_cases h1 : n > 1
    · obtain ⟨p, hrd, hp, hd⟩ := hpf n (by omega) (le_refl n)
      obtain ⟨t, k, e1, e2, e3, e4, e5, e6⟩ := out_step (by omega) hp hd
      rw [if_pos h1, show rd pf n = some p from hrd]
      simp only
      rw [e1]
      simp only
      rw [if_pos e6]
      obtain ⟨w, hw, hf⟩ := ih t e6 e4 (fun j h1 h2 => hpf j h1 (by omega)) (vf ++ [(p, k)])
      refine ⟨(p, k) :: w, by rw [hw]; simp, ?_⟩
      rw [e2]
      exact hf.cons hp e5 e3
    · rw [if_neg h1]
      have : n = 1 := by omega
      subst this
      exact ⟨[], by simp, IsFactorization.nil⟩

/-- C13: `factor_integer_to_map` adds the multiplicities of the prime factors of `n`. -/
theorem C13_factor_integer_to_map (pf : List Nat) (n : Nat) (hpf : FactorTable pf n) (mf : Nat → Nat) :
    factorIntegerToMap pf mf n = some (fun q => mf q + n.factorization q) := by
  induction n using Nat.strong_induction_on generalizing mf with
  | _ n ih =>
    rw [factorIntegerToMap]
    by_cases h1 : n > 1
    · obtain ⟨p, hrd, hp, hd⟩ := hpf n (by omega) (le_refl n)
      obtain ⟨t, k, e1, e2, e3, e4, e5, e6⟩ := out_step (by omega) hp hd
      rw [if_pos h1, show rd pf n = some p from hrd]
      simp only
      rw [e1]
      simp only
      rw [if_pos e6, ih t e6 (fun j h1 h2 => hpf j h1 (by omega))]
      congr 1
      funext q
      rw [e2, Nat.factorization_mul (pow_ne_zero _ hp.ne_zero) e4.ne', Finsupp.add_apply, hp.factorization_pow]
      by_cases hq : q = p
      · subst hq
        rw [if_pos rfl, Finsupp.single_eq_same, Nat.factorization_eq_zero_of_not_dvd e3]
        omega
      · rw [if_neg hq, Finsupp.single_eq_of_ne hq, zero_add]
    · rw [if_neg h1]
      congr 1
      funext q
      have : n = 0 ∨ n = 1 := by omega
      rcases this with rfl | rfl <;> simp

/-! ### Factorisation of a product -/

theorem outAll_spec {p : Nat} (hp : p.Prime) (vn : List Nat) (hv : ∀ x ∈ vn, 0 < x) (e : Nat) :
    ∃ vn' k, outAll p vn e = some (vn', e + k) ∧ vn.prod = p ^ k * vn'.prod ∧
      List.Forall₂ (fun a b => b ∣ a ∧ ¬ p ∣ b ∧ 0 < b) vn vn' := by
  induction vn generalizing e with
  | nil => exact ⟨[], 0, rfl, by simp, List.Forall₂.nil⟩
  | cons a vn ih =>
    obtain ⟨t, k, h1, h2, h3⟩ := C13_factor_out a p e (hv a (by simp)) hp.two_le
    obtain ⟨vn', k', h4, h5, h6⟩ := ih (fun x hx => hv x (by simp [hx])) (e + k)
    refine ⟨t :: vn', k + k', ?_, ?_, List.Forall₂.cons ⟨?_, h3, ?_⟩ h6⟩
    · rw [outAll, h1]
      simp only
      rw [h4, Option.map_some, Nat.add_assoc]
    · rw [List.prod_cons, List.prod_cons, h5, h2]; ring
    · rw [h2]; exact dvd_mul_left _ _
    · exact Nat.pos_of_ne_zero (by rintro rfl; exact h3 (dvd_zero p))

theorem forall₂_get {α β : Type*} {R : α → β → Prop} {l : List α} {l' : List β} (h : List.Forall₂ R l l') :
    ∀ {i : Nat} {a : α}, l[i]? = some a → ∃ b, l'[i]? = some b ∧ R a b := by
  induction h with
  | nil => intro i a h; simp at h
  | cons hR _ ih =>
    intro i a h
    cases i with
    | zero => simp at h; subst h; exact ⟨_, by simp, hR⟩
    | succ i => simp at h; simpa using ih h

theorem manyWhile_spec (pf : List Nat) (N : Nat) (hpf : FactorTable pf N) (k : Nat) (x : Nat) :
    ∀ (vf : List (Nat × Nat)) (vn : List Nat), vn[k]? = some x → (∀ y ∈ vn, 0 < y ∧ y ≤ N) →
    (∀ i, i < k → vn[i]? = some 1) →
    ∃ w vn', manyWhile pf k vf vn = some (vf ++ w, vn') ∧ vn'.length = vn.length ∧ (∀ y ∈ vn', 0 < y ∧ y ≤ N) ∧
      (∀ i, i < k + 1 → vn'[i]? = some 1) ∧ vn'.prod ∣ vn.prod ∧
      ∀ u, IsFactorization u vn'.prod → IsFactorization (w ++ u) vn.prod := by
  induction x using Nat.strong_induction_on with
  | _ x ih =>
    intro vf vn hx hv h1
    have hxm : x ∈ vn := List.mem_of_getElem? hx
    rw [manyWhile, show rd vn k = some x from hx]
    simp only
    by_cases hx1 : x > 1
    · obtain ⟨p, hrd, hp, hd⟩ := hpf x (by omega) (hv x hxm).2
      obtain ⟨vn1, c, e1, e2, e3⟩ := outAll_spec hp vn (fun y hy => (hv y hy).1) 0
      rw [Nat.zero_add] at e1
      rw [if_pos hx1, show rd pf x = some p from hrd]
      simp only
      rw [e1]
      simp only
      obtain ⟨y, hy, hyx, hpy, hy0⟩ := forall₂_get e3 hx
      have hlt : y < x := by
        refine lt_of_le_of_ne (Nat.le_of_dvd (by omega) hyx) ?_
        rintro rfl
        exact hpy hd
      rw [if_pos (by rw [List.getD_eq_getElem?_getD, List.getD_eq_getElem?_getD, hx, hy]; exact hlt)]
      have hlen := e3.length_eq
      have hnp : ¬ p ∣ vn1.prod := by
        rw [hp.prime.dvd_prod_iff]
        rintro ⟨z, hz, hpz⟩
        obtain ⟨i, hi⟩ := List.mem_iff_getElem?.mp hz
        obtain ⟨_, _, _, h, _⟩ := forall₂_get e3.flip (l' := vn) (R := fun b a => b ∣ a ∧ ¬ p ∣ b ∧ 0 < b) hi
        exact h hpz
      have hc : 0 < c := Nat.pos_of_ne_zero (by
        rintro rfl
        rw [pow_zero, one_mul] at e2
        exact hnp (e2 ▸ hd.trans (List.dvd_prod hxm)))
      have hv1 : ∀ z ∈ vn1, 0 < z ∧ z ≤ N := by
        intro z hz
        obtain ⟨i, hi⟩ := List.mem_iff_getElem?.mp hz
        obtain ⟨a, ha, h2, _, h3⟩ := forall₂_get e3.flip (l' := vn) (R := fun b a => b ∣ a ∧ ¬ p ∣ b ∧ 0 < b) hi
        have := hv a (List.mem_of_getElem? ha)
        exact ⟨h3, (Nat.le_of_dvd this.1 h2).trans this.2⟩
      obtain ⟨w, vn', f1, f2, f3, f4, f5, f6⟩ := ih y hlt (vf ++ [(p, c)]) vn1 hy hv1 (by
        intro i hi
        obtain ⟨b, hb, hb1, _⟩ := forall₂_get e3 (h1 i hi)
        rw [Nat.dvd_one] at hb1
        rw [hb, hb1])
      refine ⟨(p, c) :: w, vn', by rw [f1]; simp, by rw [f2, hlen], f3, f4,
        f5.trans (e2 ▸ dvd_mul_left _ _), fun u hu => ?_⟩
      rw [e2]
      exact (f6 u hu).cons hp hc hnp
    · rw [if_neg hx1]
      have : x = 1 := by have := (hv x hxm).1; omega
      subst this
      refine ⟨[], vn, by simp, rfl, hv, ?_, dvd_refl _, fun u hu => hu⟩
      intro i hi
      by_cases hik : i = k
      · rw [hik]; exact hx
      · exact h1 i (by omega)

theorem manyLoop_spec (pf : List Nat) (N : Nat) (hpf : FactorTable pf N) (c : Nat) :
    ∀ (k : Nat) (vf : List (Nat × Nat)) (vn : List Nat), vn.length = k + c → (∀ y ∈ vn, 0 < y ∧ y ≤ N) →
    (∀ i, i < k → vn[i]? = some 1) →
    ∃ w, manyLoop pf vf vn k c = some (vf ++ w) ∧ IsFactorization w vn.prod := by
  induction c with
  | zero =>
    intro k vf vn hl hv h1
    refine ⟨[], by simp [manyLoop], ?_⟩
    have : vn.prod = 1 := by
      apply List.prod_eq_one
      intro x hx
      obtain ⟨i, hi⟩ := List.mem_iff_getElem?.mp hx
      have hil := (List.getElem?_eq_some_iff.mp hi).1
      rw [h1 i (by omega)] at hi
      exact (Option.some.inj hi).symm
    rw [this]
    exact IsFactorization.nil
  | succ c ih =>
    intro k vf vn hl hv h1
    have hk : k < vn.length := by omega
    obtain ⟨w, vn', f1, f2, f3, f4, f5, f6⟩ := manyWhile_spec pf N hpf k vn[k] vf vn (List.getElem?_eq_getElem hk) hv h1
    obtain ⟨u, hu1, hu2⟩ := ih (k + 1) (vf ++ w) vn' (by omega) f3 f4
    refine ⟨w ++ u, ?_, f6 u hu2⟩
    rw [manyLoop, f1]
    simp only
    rw [hu1, List.append_assoc]

/-- C13: `factor_integer(vf, vn, pf)` appends a factorisation of the product of `vn`. -/
theorem C13_factor_integer_product (pf : List Nat) (N : Nat) (hpf : FactorTable pf N) (vn : List Nat)
    (hv : ∀ y ∈ vn, 0 < y ∧ y ≤ N) (vf : List (Nat × Nat)) :
    ∃ w, factorIntegers pf vf vn = some (vf ++ w) ∧ IsFactorization w vn.prod :=
  manyLoop_spec pf N hpf vn.length 0 vf vn (by omega) hv (by intro i hi; omega)

/-! ### Trial division -/

theorem prime_of_no_small {n i : Nat} (hn : 1 < n) (hi : ¬ i ≤ n / i) (h0 : 0 < i)
    (hno : ∀ q, q.Prime → q ∣ n → i ≤ q) : n.Prime := by
  by_contra hp
  have hm := Nat.minFac_sq_le_self (show 0 < n by omega) hp
  rw [pow_two] at hm
  have h2 := hno _ (Nat.minFac_prime (by omega)) (Nat.minFac_dvd n)
  apply hi
  rw [Nat.le_div_iff_mul_le h0]
  exact (Nat.mul_le_mul h2 h2).trans hm

theorem slowLoop_spec (lim k : Nat) :
    ∀ (vf : List (Nat × Nat)) (n i : Nat), n + 1 - i = k → 1 ≤ n → n ≤ lim → 2 ≤ i →
    (∀ q, q.Prime → q ∣ n → i ≤ q) →
    ∃ w r, slowLoop lim vf n i = some (vf ++ w, r) ∧
      IsFactorization (w ++ if r > 1 then [(r, 1)] else []) n ∧
      ((w ++ if r > 1 then [(r, 1)] else []).map Prod.fst).Pairwise (· < ·) := by
  induction k using Nat.strong_induction_on with
  | _ k ih =>
    intro vf n i hk hn hlim hi hno
    rw [slowLoop]
    by_cases hle : i ≤ n / i
    · rw [dif_pos hle]
      have hii : i * i ≤ n := by rwa [Nat.le_div_iff_mul_le (by omega)] at hle
      have h2i := Nat.mul_le_mul_right i hi
      rw [dif_neg (by omega)]
      by_cases hd : n % i ≠ 0
      · rw [if_pos hd]
        refine ih (n + 1 - (i + 1)) (by omega) vf n (i + 1) rfl hn hlim (by omega) ?_
        intro q hq hqn
        have := hno q hq hqn
        have hne : q ≠ i := by
          rintro rfl
          exact hd (Nat.mod_eq_zero_of_dvd hqn)
        omega
      · rw [if_neg hd]
        have hdvd : i ∣ n := Nat.dvd_of_mod_eq_zero (by simpa using hd)
        have hp : i.Prime := by
          have h := hno i.minFac (Nat.minFac_prime (by omega)) ((Nat.minFac_dvd i).trans hdvd)
          have h3 := Nat.minFac_le (show 0 < i by omega)
          have : i.minFac = i := by omega
          rw [← this]
          exact Nat.minFac_prime (by omega)
        obtain ⟨t, c, e1, e2, e3, e4, e5, e6⟩ := out_step (by omega) hp hdvd
        rw [e1]
        simp only
        rw [dif_pos (by omega)]
        have htn : t ∣ n := e2 ▸ dvd_mul_left _ _
        have hno' : ∀ q, q.Prime → q ∣ t → i + 1 ≤ q := by
          intro q hq hqt
          have := hno q hq (hqt.trans htn)
          have hne : q ≠ i := by
            rintro rfl
            exact e3 hqt
          omega
        obtain ⟨w, r, h1, h2, h3⟩ := ih (t + 1 - (i + 1)) (by omega) (vf ++ [(i, c)]) t (i + 1) rfl e4 (by omega)
          (by omega) hno'
        refine ⟨(i, c) :: w, r, by rw [h1]; simp, ?_, ?_⟩
        · rw [e2]
          exact h2.cons hp e5 e3
        · rw [List.cons_append, List.map_cons, List.pairwise_cons]
          refine ⟨?_, h3⟩
          intro a ha
          obtain ⟨f, hf, rfl⟩ := List.mem_map.mp ha
          exact hno' f.1 (h2.prime f hf) (h2.fst_dvd hf)
    · rw [dif_neg hle]
      refine ⟨[], n, by simp, ?_, ?_⟩
      · by_cases h1 : n > 1
        · rw [if_pos h1]
          have := IsFactorization.nil.cons (prime_of_no_small h1 hle (by omega) hno) (k := 1) (by omega)
            (fun h => by rw [Nat.dvd_one] at h; omega)
          simpa using this
        · rw [if_neg h1]
          have : n = 1 := by omega
          subst this
          exact IsFactorization.nil
      · split <;> simp

/-- C13: `factor_integer_slow(n)` is the factorisation of `n` with increasing primes. -/
theorem C13_factor_integer_slow (lim n : Nat) (hn : 1 ≤ n) (hlim : n ≤ lim) :
    ∃ w, factorIntegerSlow lim n = some w ∧ IsFactorization w n ∧ (w.map Prod.fst).Pairwise (· < ·) := by
  obtain ⟨w, r, h1, h2, h3⟩ := slowLoop_spec lim _ [] n 2 rfl hn hlim (le_refl 2) (fun q hq _ => hq.two_le)
  refine ⟨_, ?_, h2, h3⟩
  rw [factorIntegerSlow, h1, Option.map_some]
  simp only [List.nil_append]
  split <;> simp

/-! ### Back from a factorisation -/

theorem foldl_mul {α M : Type*} [Monoid M] (g : α → M) (l : List α) (r : M) :
    l.foldl (fun r f => r * g f) r = r * (l.map g).prod := by
  induction l generalizing r with
  | nil => simp
  | cons a l ih => rw [List.foldl_cons, ih, List.map_cons, List.prod_cons, mul_assoc]

/-- C13: `from_factorization` recovers the number. -/
theorem C13_from_factorization (vf : List (Nat × Nat)) (n : Nat) (h : IsFactorization vf n) :
    fromFactorization vf = n := by
  rw [fromFactorization, foldl_mul, one_mul, ← h.prod]
  congr 1
  apply List.map_congr_left
  intro f _
  exact Base.C04_powT f.1 f.2

end Altruct.Primes
