/-
C13, C14: numbers made of given primes, joint reduction of fractions, divisors and arithmetic
functions computed from a factorisation.
-/
import Verif.Primes.FactorProps

namespace Altruct.Primes

/-! ### Numbers made of given primes -/

/-- All prime factors of `m` are in `S`. -/
def Supported (S : List Nat) (m : Nat) : Prop := ∀ q, q.Prime → q ∣ m → q ∈ S

/-- The visits `l` are: each `n * m` with `1 ≤ m ≤ nmax` and `P m` exactly once, together with
`vf` extended by a factorisation of `m`. -/
structure Visits (vf : List (Nat × Nat)) (nmax n : Nat) (P : Nat → Prop) (l : List Visit) : Prop where
  nodup : (l.map Prod.snd).Nodup
  mem : ∀ x, x ∈ l.map Prod.snd ↔ ∃ m, 1 ≤ m ∧ m ≤ nmax ∧ P m ∧ x = n * m
  fact : ∀ v ∈ l, ∃ w m, v = (vf ++ w, n * m) ∧ IsFactorization w m

theorem supported_cons {S : List Nat} {p c m : Nat} (hp : p.Prime) (hm : Supported S m) :
    Supported (S ++ [p]) (p ^ c * m) := by
  intro q hq hd
  rcases hq.dvd_mul.mp hd with h | h
  · have := (Nat.prime_dvd_prime_iff_eq hq hp).mp (hq.dvd_of_dvd_pow h)
    simp [this]
  · simp [hm q hq h]

theorem supported_of_mul {S : List Nat} {p c m : Nat} (hm : Supported (S ++ [p]) (p ^ c * m)) (hpm : ¬ p ∣ m) :
    Supported S m := by
  intro q hq hd
  have := hm q hq (hd.mul_left _)
  rw [List.mem_append, List.mem_singleton] at this
  rcases this with h | rfl
  · exact h
  · exact absurd hd hpm

theorem fromPrimesLoop_spec (f : List (Nat × Nat) → Nat → Nat → Option (List Visit)) (S : List Nat) (p : Nat)
    (hp : p.Prime) (hpS : p ∉ S)
    (hf : ∀ vf nmax n, 1 ≤ nmax → 1 ≤ n → ∃ l, f vf nmax n = some l ∧ Visits vf nmax n (Supported S) l) (nmax : Nat) :
    ∀ (vf : List (Nat × Nat)) (n e : Nat), 1 ≤ n →
    ∃ l, fromPrimesLoop f p vf nmax n e = some l ∧ (l.map Prod.snd).Nodup ∧
      (∀ x, x ∈ l.map Prod.snd ↔ ∃ c m, p ^ (c + 1) * m ≤ nmax ∧ 1 ≤ m ∧ Supported S m ∧ x = n * (p ^ (c + 1) * m)) ∧
      ∀ v ∈ l, ∃ c w m, v = (vf ++ (p, e + c) :: w, n * (p ^ (c + 1) * m)) ∧ IsFactorization w m ∧ Supported S m := by
  induction nmax using Nat.strong_induction_on with
  | _ nmax ih =>
    intro vf n e hn
    rw [fromPrimesLoop, dif_neg (by have := hp.two_le; omega)]
    by_cases h0 : nmax / p > 0
    · rw [dif_pos h0]
      have hmax : nmax ≠ 0 := by rintro rfl; simp at h0
      have hn' : 1 ≤ n * p := Nat.mul_pos hn hp.pos
      obtain ⟨l, e1, v1⟩ := hf (vf ++ [(p, e)]) (nmax / p) (n * p) h0 hn'
      obtain ⟨l', e2, nd2, m2, f2⟩ := ih (nmax / p) (Nat.div_lt_self (by omega) hp.one_lt) vf (n * p) (e + 1) hn'
      rw [e1]
      simp only
      rw [e2]
      have hnot : ∀ m, 1 ≤ m → Supported S m → ¬ p ∣ m := fun m hm hs hd => hpS (hs p hp hd)
      refine ⟨l ++ l', rfl, ?_, ?_, ?_⟩
      · rw [List.map_append, List.nodup_append]
        refine ⟨v1.nodup, nd2, ?_⟩
        intro a ha b hb hab
        subst hab
        obtain ⟨m, hm1, hm2, hs, hx⟩ := (v1.mem a).mp ha
        obtain ⟨c, m', _, _, _, hx'⟩ := (m2 a).mp hb
        rw [hx] at hx'
        have := Nat.eq_of_mul_eq_mul_left hn' hx'
        refine hnot m hm1 hs ?_
        rw [this, pow_succ, mul_assoc]
        exact (dvd_mul_right p m').mul_left _
      · intro x
        rw [List.map_append, List.mem_append, v1.mem, m2]
        constructor
        · rintro (⟨m, h1, h2, h3, rfl⟩ | ⟨c, m, h1, h2, h3, rfl⟩)
          · refine ⟨0, m, ?_, h1, h3, by ring⟩
            rw [Nat.le_div_iff_mul_le hp.pos] at h2
            rw [zero_add, pow_one, mul_comm]; exact h2
          · refine ⟨c + 1, m, ?_, h2, h3, by ring⟩
            rw [Nat.le_div_iff_mul_le hp.pos] at h1
            rw [pow_succ]
            calc _ = p ^ (c + 1) * m * p := by ring
              _ ≤ _ := h1
        · rintro ⟨c, m, h1, h2, h3, rfl⟩
          rcases c with _ | c
          · left
            refine ⟨m, h2, ?_, h3, by ring⟩
            rw [Nat.le_div_iff_mul_le hp.pos, mul_comm]
            simpa using h1
          · right
            refine ⟨c, m, ?_, h2, h3, by ring⟩
            rw [Nat.le_div_iff_mul_le hp.pos]
            calc _ = p ^ (c + 1 + 1) * m := by ring
              _ ≤ _ := h1
      · intro v hv
        rw [List.mem_append] at hv
        rcases hv with hv | hv
        · obtain ⟨w, m, rfl, hw⟩ := v1.fact v hv
          refine ⟨0, w, m, ?_, hw, ?_⟩
          · simp [mul_assoc]
          · obtain ⟨m', hm1, hm2, hs, hx⟩ := (v1.mem _).mp (List.mem_map.mpr ⟨_, hv, rfl⟩)
            have := Nat.eq_of_mul_eq_mul_left hn' hx
            rw [this]; exact hs
        · obtain ⟨c, w, m, rfl, hw, hs⟩ := f2 v hv
          refine ⟨c + 1, w, m, ?_, hw, hs⟩
          rw [show e + 1 + c = e + (c + 1) by omega]
          congr 1
          ring
    · rw [dif_neg h0]
      refine ⟨[], rfl, by simp, ?_, by simp⟩
      intro x
      simp only [List.map_nil, List.not_mem_nil, false_iff]
      rintro ⟨c, m, h1, h2, _⟩
      apply h0
      rw [gt_iff_lt, Nat.div_pos_iff]
      refine ⟨hp.pos, ?_⟩
      calc p = p ^ 1 * 1 := by ring
        _ ≤ p ^ (c + 1) * m := Nat.mul_le_mul (Nat.pow_le_pow_right hp.pos (by omega)) h2
        _ ≤ _ := h1

theorem fromPrimesImpl_spec (pa : List Nat) (hpa : ∀ p ∈ pa, p.Prime) (hnd : pa.Nodup) (psz : Nat) :
    psz ≤ pa.length → ∀ vf nmax n, 1 ≤ nmax → 1 ≤ n →
    ∃ l, fromPrimesImpl pa psz vf nmax n = some l ∧ Visits vf nmax n (Supported (pa.take psz)) l := by
  induction psz with
  | zero =>
    intro _ vf nmax n hmax hn
    refine ⟨_, rfl, by simp, ?_, ?_⟩
    · intro x
      simp only [List.map_cons, List.map_nil, List.mem_singleton]
      constructor
      · rintro rfl
        exact ⟨1, le_refl 1, hmax, fun q hq hd => absurd (Nat.dvd_one.mp hd) hq.ne_one, by simp⟩
      · rintro ⟨m, h1, _, hs, rfl⟩
        have : m = 1 := by
          by_contra hne
          have := hs _ (Nat.minFac_prime hne) (Nat.minFac_dvd m)
          simp at this
        rw [this, mul_one]
    · intro v hv
      rw [List.mem_singleton] at hv
      exact ⟨[], 1, by simp [hv], IsFactorization.nil⟩
  | succ psz ih =>
    intro hle vf nmax n hmax hn
    have hlt : psz < pa.length := by omega
    have ih := ih (by omega)
    obtain ⟨l, e1, v1⟩ := ih vf nmax n hmax hn
    have htake : pa.take (psz + 1) = pa.take psz ++ [pa[psz]] := by
      rw [List.take_add_one, List.getElem?_eq_getElem hlt]; rfl
    have hp := hpa pa[psz] (List.getElem_mem hlt)
    have hnot : pa[psz] ∉ pa.take psz := by
      have h := hnd.sublist (List.take_sublist (psz + 1) pa)
      rw [htake, List.nodup_append] at h
      intro hm
      exact h.2.2 _ hm _ (by simp) rfl
    obtain ⟨l', e2, nd2, m2, f2⟩ := fromPrimesLoop_spec (fromPrimesImpl pa psz) (pa.take psz) pa[psz] hp hnot ih nmax vf n
      1 hn
    rw [fromPrimesImpl, rd, List.getElem?_eq_getElem hlt]
    simp only
    rw [e1]
    simp only
    rw [e2]
    refine ⟨l ++ l', rfl, ?_, ?_, ?_⟩
    · rw [List.map_append, List.nodup_append]
      refine ⟨v1.nodup, nd2, ?_⟩
      intro a ha b hb hab
      subst hab
      obtain ⟨m, hm1, hm2, hs, hx⟩ := (v1.mem a).mp ha
      obtain ⟨c, m', _, _, _, hx'⟩ := (m2 a).mp hb
      rw [hx] at hx'
      have := Nat.eq_of_mul_eq_mul_left hn hx'
      refine hnot (hs _ hp ?_)
      rw [this, pow_succ, mul_assoc]
      exact (dvd_mul_right _ m').mul_left _
    · intro x
      rw [List.map_append, List.mem_append, v1.mem, m2, htake]
      constructor
      · rintro (⟨m, h1, h2, h3, rfl⟩ | ⟨c, m, h1, h2, h3, rfl⟩)
        · exact ⟨m, h1, h2, fun q hq hd => List.mem_append_left _ (h3 q hq hd), rfl⟩
        · exact ⟨_, Nat.mul_pos (Nat.pow_pos hp.pos) h2, h1, supported_cons hp h3, rfl⟩
      · rintro ⟨m, h1, h2, h3, rfl⟩
        obtain ⟨c, t, hpt, rfl⟩ := Nat.exists_eq_pow_mul_and_not_dvd (show m ≠ 0 by omega) pa[psz] hp.ne_one
        have ht : 1 ≤ t := Nat.pos_of_ne_zero (by rintro rfl; exact hpt (dvd_zero _))
        have hs := supported_of_mul h3 hpt
        rcases c with _ | c
        · left
          rw [pow_zero, one_mul] at *
          exact ⟨t, ht, h2, hs, rfl⟩
        · right
          exact ⟨c, t, h2, ht, hs, rfl⟩
    · intro v hv
      rw [List.mem_append] at hv
      rcases hv with hv | hv
      · exact v1.fact v hv
      · obtain ⟨c, w, m, rfl, hw, hs⟩ := f2 v hv
        refine ⟨(pa[psz], 1 + c) :: w, _, rfl, ?_⟩
        rw [show c + 1 = 1 + c by omega]
        exact hw.cons hp (by omega) (fun hd => hnot (hs _ hp hd))

/-- C13: `from_primes(vp, n_max, visitor)` visits every number `≤ n_max` all of whose prime
factors are in `vp` exactly once, with its factorisation. -/
theorem C13_from_primes (vp : List Nat) (hp : ∀ p ∈ vp, p.Prime) (hnd : vp.Nodup) (nmax : Nat) (h1 : 1 ≤ nmax) :
    ∃ l, fromPrimes vp nmax = some l ∧ (l.map Prod.snd).Nodup ∧
      (∀ x, x ∈ l.map Prod.snd ↔ 1 ≤ x ∧ x ≤ nmax ∧ ∀ q, q.Prime → q ∣ x → q ∈ vp) ∧
      ∀ v ∈ l, IsFactorization v.1 v.2 := by
  obtain ⟨l, e, v⟩ := fromPrimesImpl_spec vp hp hnd vp.length (le_refl _) [] nmax 1 h1 (le_refl 1)
  rw [List.take_length] at v
  refine ⟨l, e, v.nodup, ?_, ?_⟩
  · intro x
    rw [v.mem]
    constructor
    · rintro ⟨m, h1, h2, h3, rfl⟩
      rw [one_mul]
      exact ⟨h1, h2, h3⟩
    · rintro ⟨h1, h2, h3⟩
      exact ⟨x, h1, h2, h3, by rw [one_mul]⟩
  · intro y hy
    obtain ⟨w, m, rfl, hw⟩ := v.fact y hy
    simpa using hw

/-! ### Joint reduction of fractions -/

theorem forall₂_dvd_refl (l : List Nat) : List.Forall₂ (fun a b => b ∣ a) l l := by
  induction l with
  | nil => exact .nil
  | cons a l ih => exact .cons (dvd_refl a) ih

theorem forall₂_dvd_trans {l l' l'' : List Nat} (h : List.Forall₂ (fun a b => b ∣ a) l l')
    (h' : List.Forall₂ (fun a b => b ∣ a) l' l'') : List.Forall₂ (fun a b => b ∣ a) l l'' := by
  induction h generalizing l'' with
  | nil => exact h'
  | cons h1 _ ih =>
    cases h' with
    | cons h2 h3 => exact .cons (h2.trans h1) (ih h3)

theorem forall₂_dvd_set {l : List Nat} {i x : Nat} (hi : i < l.length) (hx : x ∣ l[i]) :
    List.Forall₂ (fun a b => b ∣ a) l (l.set i x) := by
  induction l generalizing i with
  | nil => simp at hi
  | cons a l ih =>
    cases i with
    | zero => exact .cons hx (forall₂_dvd_refl l)
    | succ i => exact .cons (dvd_refl a) (ih (by simpa using hi) (by simpa using hx))

theorem prod_set_mul {l : List Nat} {i g x : Nat} (hi : i < l.length) (hx : l[i] = g * x) :
    l.prod = g * (l.set i x).prod := by
  induction l generalizing i with
  | nil => simp at hi
  | cons a l ih =>
    cases i with
    | zero => simp at hx; simp [hx, mul_assoc]
    | succ i =>
      rw [List.set_cons_succ, List.prod_cons, List.prod_cons, ih (by simpa using hi) (by simpa using hx)]
      ring

theorem reduceOne_spec (num : List Nat) (d i : Nat) (hd : 1 ≤ d)
    (hc : ∀ j, (hj : j < num.length) → j < i → Nat.Coprime num[j] d) :
    ∃ num' d' K, reduceOne num d i = some (num', d') ∧ num.prod = K * num'.prod ∧ d = K * d' ∧ 1 ≤ d' ∧
      List.Forall₂ (fun a b => b ∣ a) num num' ∧ ∀ x ∈ num', Nat.Coprime x d' := by
  induction num, d, i using reduceOne.induct with
  | case1 num d i h g hg h0 ih =>
    have hgd : g ∣ num[i]'h.2 ∧ g ∣ d := by
      have h1 := Base.C03_gcd_nonneg (num[i]'h.2) d (by omega) (by omega)
      have h2 : g = Nat.gcd (num[i]'h.2) d := by
        show (Base.gcd _ _).toNat = _
        rw [h1]; simp [Int.gcd_natCast_natCast]
      rw [h2]
      exact ⟨Nat.gcd_dvd_left _ _, Nat.gcd_dvd_right _ _⟩
    have hg0 : 0 < g := by omega
    obtain ⟨num', d', K, e1, e2, e3, e4, e5, e6⟩ := ih ((Nat.div_pos_iff).mpr ⟨hg0, Nat.le_of_dvd (by omega) hgd.2⟩) (by
      intro j hj hji
      rw [List.length_set] at hj
      rw [List.getElem_set_ne (by omega)]
      exact (hc j hj hji).coprime_dvd_right (Nat.div_dvd_of_dvd hgd.2))
    refine ⟨num', d', g * K, ?_, ?_, ?_, e4, ?_, e6⟩
    · rw [reduceOne, dif_pos h]
      simp only
      rw [if_pos hg, dif_pos h0, e1]
    · rw [prod_set_mul h.2 (Nat.mul_div_cancel' hgd.1).symm, e2, mul_assoc]
    · rw [mul_assoc, ← e3, Nat.mul_div_cancel' hgd.2]
    · exact forall₂_dvd_trans (forall₂_dvd_set h.2 (Nat.div_dvd_of_dvd hgd.1)) e5
  | case2 num d i h g hg h0 =>
    exfalso
    exact h0 (Nat.div_lt_self (by omega) (by omega))
  | case3 num d i h g hg ih =>
    have hgc : Nat.Coprime (num[i]'h.2) d := by
      have h1 := Base.C03_gcd_nonneg (num[i]'h.2) d (by omega) (by omega)
      have h2 : g = Nat.gcd (num[i]'h.2) d := by
        show (Base.gcd _ _).toNat = _
        rw [h1]; simp [Int.gcd_natCast_natCast]
      have h3 : 0 < Nat.gcd (num[i]'h.2) d := Nat.gcd_pos_of_pos_right _ (by omega)
      rw [Nat.Coprime]
      omega
    obtain ⟨num', d', K, e1, e2⟩ := ih hd (by
      intro j hj hji
      by_cases h' : j = i
      · subst h'; exact hgc
      · exact hc j hj (by omega))
    refine ⟨num', d', K, ?_, e2⟩
    rw [reduceOne, dif_pos h]
    simp only
    rw [if_neg hg, e1]
  | case4 num d i h =>
    refine ⟨num, d, 1, by rw [reduceOne, dif_neg h], by simp, by simp, hd, forall₂_dvd_refl num, ?_⟩
    intro x hx
    obtain ⟨j, hj, rfl⟩ := List.getElem_of_mem hx
    by_cases h1 : d = 1
    · rw [h1]; exact Nat.coprime_one_right _
    · exact hc j hj (by omega)

/-- C13: `fraction_reduce` keeps the value of the fraction (both products are divided by the
same number) and makes every numerator coprime to every denominator. -/
theorem C13_fraction_reduce (num den : List Nat) (hd : ∀ d ∈ den, 1 ≤ d) :
    ∃ num' den' K, fractionReduce num den = some (num', den') ∧ num.prod = K * num'.prod ∧ den.prod = K * den'.prod ∧
      num'.length = num.length ∧ den'.length = den.length ∧ (∀ d ∈ den', 1 ≤ d) ∧
      ∀ x ∈ num', ∀ d ∈ den', Nat.Coprime x d := by
  suffices h : ∃ num' den' K, fractionReduce num den = some (num', den') ∧ num.prod = K * num'.prod ∧
      den.prod = K * den'.prod ∧ List.Forall₂ (fun a b => b ∣ a) num num' ∧ den'.length = den.length ∧
      (∀ d ∈ den', 1 ≤ d) ∧ ∀ x ∈ num', ∀ d ∈ den', Nat.Coprime x d by
    obtain ⟨num', den', K, h1, h2, h3, h4, h5⟩ := h
    exact ⟨num', den', K, h1, h2, h3, h4.length_eq.symm, h5⟩
  induction den generalizing num with
  | nil => exact ⟨num, [], 1, rfl, by simp, by simp, forall₂_dvd_refl num, rfl, by simp, by simp⟩
  | cons d den ih =>
    obtain ⟨num1, d', K1, e1, e2, e3, e4, e5, e6⟩ := reduceOne_spec num d 0 (hd d (by simp)) (by intro j _ h; omega)
    obtain ⟨num2, den', K2, f1, f2, f3, f4, f5, f6, f7⟩ := ih num1 (fun x hx => hd x (by simp [hx]))
    refine ⟨num2, d' :: den', K1 * K2, ?_, ?_, ?_, forall₂_dvd_trans e5 f4, by simp [f5], ?_, ?_⟩
    · rw [fractionReduce, e1]
      simp only
      rw [f1, Option.map_some]
    · rw [e2, f2, mul_assoc]
    · rw [List.prod_cons, List.prod_cons, f3, e3]; ring
    · intro x hx
      rw [List.mem_cons] at hx
      rcases hx with rfl | hx
      · exact e4
      · exact f6 x hx
    · intro x hx y hy
      rw [List.mem_cons] at hy
      rcases hy with rfl | hy
      · obtain ⟨i, hi⟩ := List.mem_iff_getElem?.mp hx
        obtain ⟨a, ha, hax⟩ := forall₂_get (R := fun b a => b ∣ a) f4.flip hi
        exact (e6 a (List.mem_of_getElem? ha)).coprime_dvd_left hax
      · exact f7 x hx y hy

/-! ### Divisors -/

/-- The elements `l` are: each `d * y` with `y ∣ n` exactly once, up to the bound. -/
structure DivList (maxd n d : Nat) (l : List Nat) : Prop where
  nodup : l.Nodup
  mem : ∀ x, x ∈ l ↔ ∃ y, y ∣ n ∧ x = d * y ∧ (maxd = 0 ∨ x ≤ maxd)

theorem divisorsLoop_spec (lim : Nat) (f : Nat → Option (List Nat)) (maxd p n' : Nat) (hp : p.Prime) (hn' : ¬ p ∣ n')
    (H : Nat → Prop)
    (hf : ∀ d, 1 ≤ d → (maxd = 0 ∨ d ≤ maxd) → H d → ∃ l, f d = some l ∧ DivList maxd n' d l) (c : Nat) :
    ∀ d, 1 ≤ d → (maxd = 0 ∨ d ≤ maxd) → (∀ j, j < c → H (d * p ^ j)) → ((0 < maxd ∧ maxd ≤ lim) ∨ d * p ^ c ≤ lim) →
    ∃ l, divisorsLoop lim f maxd p c d = some l ∧ l.Nodup ∧
      ∀ x, x ∈ l ↔ ∃ j y, j < c ∧ y ∣ n' ∧ x = d * (p ^ j * y) ∧ (maxd = 0 ∨ x ≤ maxd) := by
  induction c with
  | zero =>
    intro d _ _ _ _
    exact ⟨[], rfl, by simp, by simp⟩
  | succ c ih =>
    intro d hd hmax hH hlim
    obtain ⟨l, e1, v1⟩ := hf d hd hmax (by simpa using hH 0 (by omega))
    rw [divisorsLoop, e1]
    simp only
    rw [if_neg (by have := hp.pos; omega)]
    have hfirst : ∀ x, (∃ y, y ∣ n' ∧ x = d * y ∧ (maxd = 0 ∨ x ≤ maxd)) →
        ∃ j y, j < c + 1 ∧ y ∣ n' ∧ x = d * (p ^ j * y) ∧ (maxd = 0 ∨ x ≤ maxd) := by
      rintro x ⟨y, h1, h2, h3⟩
      exact ⟨0, y, by omega, h1, by rw [h2, pow_zero, one_mul], h3⟩
    have hn0 : 0 < n' := Nat.pos_of_ne_zero (by rintro rfl; exact hn' (dvd_zero p))
    by_cases hbr : maxd > 0 ∧ d > maxd / p
    · rw [if_pos hbr]
      refine ⟨l, rfl, v1.nodup, fun x => ?_⟩
      rw [v1.mem]
      refine ⟨hfirst x, ?_⟩
      rintro ⟨j, y, h1, h2, h3, h4⟩
      rcases j with _ | j
      · exact ⟨y, h2, by rw [h3, pow_zero, one_mul], h4⟩
      · exfalso
        have h5 := (Nat.div_lt_iff_lt_mul hp.pos).mp hbr.2
        have hy : 0 < y := Nat.pos_of_dvd_of_pos h2 hn0
        have : d * p ≤ x := by
          rw [h3, pow_succ]
          calc d * p = d * (1 * p * 1) := by ring
            _ ≤ d * (p ^ j * p * y) :=
              Nat.mul_le_mul_left _ (Nat.mul_le_mul (Nat.mul_le_mul_right _ (Nat.pow_pos hp.pos)) hy)
        omega
    · rw [if_neg hbr]
      have hmax' : maxd = 0 ∨ d * p ≤ maxd := by
        rcases Nat.eq_zero_or_pos maxd with h | h
        · exact Or.inl h
        · right
          rw [← Nat.le_div_iff_mul_le hp.pos]
          by_contra hc
          exact hbr ⟨h, by omega⟩
      rw [if_neg (by
        rcases hlim with h | h
        · omega
        · have : d * p ≤ d * p ^ (c + 1) := Nat.mul_le_mul_left _ (by
            rw [pow_succ]; exact Nat.le_mul_of_pos_left _ (Nat.pow_pos hp.pos))
          omega)]
      obtain ⟨l', e2, nd2, m2⟩ := ih (d * p) (Nat.mul_pos hd hp.pos) hmax' (by
        intro j hj
        have := hH (j + 1) (by omega)
        rw [pow_succ] at this
        rwa [show d * p * p ^ j = d * (p ^ j * p) by ring]) (by
        rcases hlim with h | h
        · exact Or.inl h
        · right
          rw [pow_succ] at h
          rwa [show d * p * p ^ c = d * (p ^ c * p) by ring])
      rw [e2]
      refine ⟨l ++ l', rfl, ?_, ?_⟩
      · rw [List.nodup_append]
        refine ⟨v1.nodup, nd2, ?_⟩
        intro a ha b hb hab
        subst hab
        obtain ⟨y, h1, h2, _⟩ := (v1.mem a).mp ha
        obtain ⟨j, y', _, _, h3, _⟩ := (m2 a).mp hb
        rw [h2, mul_assoc] at h3
        have := Nat.eq_of_mul_eq_mul_left hd h3
        exact hn' ((this ▸ dvd_mul_right p _).trans h1)
      · intro x
        rw [List.mem_append, v1.mem, m2]
        constructor
        · rintro (h | ⟨j, y, h1, h2, h3, h4⟩)
          · exact hfirst x h
          · exact ⟨j + 1, y, by omega, h2, by rw [h3]; ring, h4⟩
        · rintro ⟨j, y, h1, h2, h3, h4⟩
          rcases j with _ | j
          · exact Or.inl ⟨y, h2, by rw [h3, pow_zero, one_mul], h4⟩
          · exact Or.inr ⟨j, y, by omega, h2, by rw [h3]; ring, h4⟩

theorem divisorsRec_spec (lim maxd : Nat) (vf : List (Nat × Nat)) :
    ∀ n, IsFactorization vf n → ∀ d, 1 ≤ d → (maxd = 0 ∨ d ≤ maxd) →
    ((0 < maxd ∧ maxd ≤ lim) ∨ ∀ f ∈ vf, d * n * f.1 ≤ lim) →
    ∃ l, divisorsRec lim maxd vf d = some l ∧ DivList maxd n d l := by
  induction vf with
  | nil =>
    intro n hn d hd hmax hlim
    have : n = 1 := by rw [← hn.prod]; simp
    subst this
    refine ⟨[d], rfl, by simp, fun x => ?_⟩
    simp only [List.mem_singleton, Nat.dvd_one]
    constructor
    · rintro rfl; exact ⟨1, rfl, by simp, hmax⟩
    · rintro ⟨y, rfl, rfl, _⟩; simp
  | cons f vf ih =>
    intro n hn d hd hmax hlim
    obtain ⟨n', h', rfl, hnd, hp, hk⟩ := hn.tail
    have hn0 : 0 < n' := Nat.pos_of_ne_zero h'.ne_zero
    obtain ⟨l, e, nd, m⟩ := divisorsLoop_spec lim (divisorsRec lim maxd vf) maxd f.1 n' hp hnd
      (fun d => (0 < maxd ∧ maxd ≤ lim) ∨ ∀ f ∈ vf, d * n' * f.1 ≤ lim)
      (fun d h1 h2 h3 => ih n' h' d h1 h2 h3) (f.2 + 1) d hd hmax (by
        intro j hj
        rcases hlim with h | h
        · exact Or.inl h
        · right
          intro g hg
          refine le_trans ?_ (h g (by simp [hg]))
          apply Nat.mul_le_mul_right
          rw [mul_assoc]
          apply Nat.mul_le_mul_left
          apply Nat.mul_le_mul_right
          exact Nat.pow_le_pow_right hp.pos (by omega)) (by
        rcases hlim with h | h
        · exact Or.inl h
        · right
          refine le_trans ?_ (h f (by simp))
          rw [pow_succ]
          calc d * (f.1 ^ f.2 * f.1) = d * (f.1 ^ f.2 * 1) * f.1 := by ring
            _ ≤ _ := Nat.mul_le_mul_right _ (Nat.mul_le_mul_left _ (Nat.mul_le_mul_left _ hn0)))
    refine ⟨l, e, nd, fun x => ?_⟩
    rw [m]
    constructor
    · rintro ⟨j, y, h1, h2, h3, h4⟩
      exact ⟨_, Nat.mul_dvd_mul (pow_dvd_pow _ (by omega)) h2, h3, h4⟩
    · rintro ⟨y, h1, h2, h3⟩
      obtain ⟨a, b, ha, hb, rfl⟩ := (Nat.dvd_mul).mp h1
      obtain ⟨j, hj, rfl⟩ := (Nat.dvd_prime_pow hp).mp ha
      exact ⟨j, b, by omega, hb, h2, h3⟩

/-- C14: `divisors(vd, vf, maxd)` appends every divisor of `n` (every divisor `≤ maxd` when
`maxd > 0`) exactly once.  Without a bound, `n * p` has to fit for the primes `p` of `n`. -/
theorem C14_divisors_unsorted (lim : Nat) (vf : List (Nat × Nat)) (n : Nat) (h : IsFactorization vf n) (maxd : Nat)
    (hlim : (0 < maxd ∧ maxd ≤ lim) ∨ (maxd = 0 ∧ ∀ f ∈ vf, n * f.1 ≤ lim)) :
    ∃ l, divisorsRec lim maxd vf 1 = some l ∧ l.Nodup ∧ ∀ x, x ∈ l ↔ x ∣ n ∧ (maxd = 0 ∨ x ≤ maxd) := by
  obtain ⟨l, e, v⟩ := divisorsRec_spec lim maxd vf n h 1 (le_refl 1) (by omega) (by
    rcases hlim with h | h
    · exact Or.inl h
    · exact Or.inr (by simpa using h.2))
  refine ⟨l, e, v.nodup, fun x => ?_⟩
  rw [v.mem]
  constructor
  · rintro ⟨y, h1, h2, h3⟩
    rw [one_mul] at h2
    exact ⟨h2 ▸ h1, h3⟩
  · rintro ⟨h1, h2⟩
    exact ⟨x, h1, by rw [one_mul], h2⟩

/-- C14: `divisors(vf, maxd)` is the increasing list of the divisors of `n` (of the divisors
`≤ maxd` when `maxd > 0`). -/
theorem C14_divisors (lim : Nat) (vf : List (Nat × Nat)) (n : Nat) (h : IsFactorization vf n) (maxd : Nat)
    (hlim : (0 < maxd ∧ maxd ≤ lim) ∨ (maxd = 0 ∧ ∀ f ∈ vf, n * f.1 ≤ lim)) :
    ∃ l, divisors lim vf maxd = some l ∧ l.Pairwise (· < ·) ∧ ∀ x, x ∈ l ↔ x ∣ n ∧ (maxd = 0 ∨ x ≤ maxd) := by
  obtain ⟨l, e, nd, m⟩ := C14_divisors_unsorted lim vf n h maxd hlim
  refine ⟨_, by rw [divisors, e, Option.map_some], ?_, fun x => by rw [List.mem_mergeSort, m]⟩
  have hs := List.pairwise_mergeSort (le := fun a b : Nat => decide (a ≤ b)) (by simp; omega) (by simp; omega) l
  have hnd : (l.mergeSort (fun a b => decide (a ≤ b))).Nodup := (List.mergeSort_perm l _).nodup_iff.mpr nd
  refine (hs.and hnd).imp ?_
  rintro a b ⟨h1, h2⟩
  simp at h1
  omega

/-- The condition on `lim` is needed: the product is formed once more after the last divisor.
For `int`, the divisors of `2^30` overflow although they all fit. -/
theorem C14_divisors_overflow : divisors (2 ^ 31 - 1) [(2, 30)] 0 = none ∧ IsFactorization [(2, 30)] (2 ^ 30) := by
  refine ⟨by decide +kernel, ⟨?_, ?_, ?_, ?_⟩⟩ <;> simp [Nat.prime_two]

theorem squarefreeSigned_spec (vf : List (Nat × Nat)) :
    ∀ n, IsFactorization vf n → ∀ d : Int, d ≠ 0 → (squarefreeSigned vf d).Nodup ∧
      ∀ x, x ∈ squarefreeSigned vf d ↔ ∃ y, y ∣ n ∧ Squarefree y ∧ x = d * (ArithmeticFunction.moebius y * y) := by
  induction vf with
  | nil =>
    intro n hn d hd
    have : n = 1 := by rw [← hn.prod]; simp
    subst this
    refine ⟨by simp [squarefreeSigned], fun x => ?_⟩
    simp only [squarefreeSigned, List.mem_singleton, Nat.dvd_one]
    constructor
    · rintro rfl; exact ⟨1, rfl, squarefree_one, by simp⟩
    · rintro ⟨y, rfl, _, rfl⟩; simp
  | cons f vf ih =>
    intro n hn d hd
    obtain ⟨n', h', rfl, hnd, hp, hk⟩ := hn.tail
    obtain ⟨nd1, m1⟩ := ih n' h' d hd
    obtain ⟨nd2, m2⟩ := ih n' h' (d * -(f.1 : Int)) (by
      have := hp.ne_zero
      simp [hd, this])
    rw [squarefreeSigned]
    have hcop : ∀ y, y ∣ n' → Nat.Coprime f.1 y := fun y hy =>
      (Nat.Prime.coprime_iff_not_dvd hp).mpr (fun h => hnd (h.trans hy))
    have hmu : ∀ y, y ∣ n' → ArithmeticFunction.moebius (f.1 * y) = -ArithmeticFunction.moebius y := by
      intro y hy
      rw [ArithmeticFunction.isMultiplicative_moebius.map_mul_of_coprime (hcop y hy),
        ArithmeticFunction.moebius_apply_prime hp]
      ring
    constructor
    · rw [List.nodup_append]
      refine ⟨nd1, nd2, ?_⟩
      intro a ha b hb hab
      subst hab
      obtain ⟨y, h1, h2, h3⟩ := (m1 a).mp ha
      obtain ⟨z, h4, h5, h6⟩ := (m2 a).mp hb
      rw [h3] at h6
      have h7 : ArithmeticFunction.moebius y * y = -(f.1 : Int) * (ArithmeticFunction.moebius z * z) := by
        apply mul_left_cancel₀ hd
        rw [h6]; ring
      have h8 := congrArg Int.natAbs h7
      have habs : ∀ w, Squarefree w → (ArithmeticFunction.moebius w).natAbs = 1 := by
        intro w hw
        rcases ArithmeticFunction.moebius_ne_zero_iff_eq_or.mp (ArithmeticFunction.moebius_ne_zero_iff_squarefree.mpr hw)
          with h | h <;> rw [h] <;> rfl
      rw [Int.natAbs_mul, Int.natAbs_mul, Int.natAbs_mul, habs y h2, habs z h5] at h8
      simp at h8
      exact hnd ((h8 ▸ dvd_mul_right f.1 z).trans h1)
    · intro x
      rw [List.mem_append, m1, m2]
      constructor
      · rintro (⟨y, h1, h2, h3⟩ | ⟨y, h1, h2, h3⟩)
        · exact ⟨y, h1.mul_left _, h2, h3⟩
        · refine ⟨f.1 * y, Nat.mul_dvd_mul (dvd_pow_self _ hk.ne') h1, ?_, ?_⟩
          · rw [Nat.squarefree_mul_iff]
            exact ⟨hcop y h1, hp.squarefree, h2⟩
          · rw [h3, hmu y h1]
            push_cast
            ring
      · rintro ⟨y, h1, h2, h3⟩
        obtain ⟨a, b, ha, hb, rfl⟩ := (Nat.dvd_mul).mp h1
        obtain ⟨j, hj, rfl⟩ := (Nat.dvd_prime_pow hp).mp ha
        have hsb : Squarefree b := (Nat.squarefree_mul_iff.mp h2).2.2
        rcases j with _ | j
        · left
          rw [pow_zero, one_mul] at h2 h3
          exact ⟨b, hb, h2, h3⟩
        · right
          have hj0 : j = 0 := by
            have h5 := (Nat.squarefree_mul_iff.mp h2).2.1
            by_contra hne
            have h6 : f.1 * f.1 ∣ f.1 ^ (j + 1) := by
              rw [← pow_two]
              exact pow_dvd_pow _ (by omega)
            have := h5 _ h6
            rw [Nat.isUnit_iff] at this
            exact hp.ne_one this
          subst hj0
          rw [zero_add, pow_one] at h3
          refine ⟨b, hb, hsb, ?_⟩
          rw [h3, hmu b hb]
          push_cast
          ring

/-- C14: `squarefree_signed_divisors` lists `mu(y) * y` for every squarefree divisor `y` of `n`,
each exactly once. -/
theorem C14_squarefree_signed_divisors (vf : List (Nat × Nat)) (n : Nat) (h : IsFactorization vf n) :
    (squarefreeSigned vf 1).Nodup ∧ ∀ x, x ∈ squarefreeSigned vf 1 ↔
      ∃ y, y ∣ n ∧ Squarefree y ∧ x = ArithmeticFunction.moebius y * y := by
  have := squarefreeSigned_spec vf n h 1 one_ne_zero
  simpa using this

/-! ### Arithmetic functions -/

/-- A multiplicative function is the product of its values at the prime powers. -/
theorem mult_prod {M : Type*} [CommMonoid M] (F : Nat → M) (h1 : F 1 = 1)
    (hm : ∀ a b, Nat.Coprime a b → F (a * b) = F a * F b) {vf : List (Nat × Nat)} {n : Nat} (h : IsFactorization vf n) :
    F n = (vf.map fun f => F (f.1 ^ f.2)).prod := by
  induction vf generalizing n with
  | nil => rw [← h.prod]; simpa using h1
  | cons f vf ih =>
    obtain ⟨n', h', rfl, hnd, hp, hk⟩ := h.tail
    rw [hm _ _ (((Nat.Prime.coprime_iff_not_dvd hp).mpr hnd).pow_left _), ih h', List.map_cons, List.prod_cons]

/-- C14: `prime_factors(vf)` lists exactly the prime factors of `n`, each once. -/
theorem C14_prime_factors (vf : List (Nat × Nat)) (n : Nat) (h : IsFactorization vf n) :
    (primeFactorsOf vf).Nodup ∧ ∀ p, p ∈ primeFactorsOf vf ↔ p.Prime ∧ p ∣ n := by
  have hm : primeFactorsOf vf = vf.map Prod.fst := by
    rw [primeFactorsOf]
    have : ∀ l : List Nat, vf.foldl (fun vp f => vp ++ [f.1]) l = l ++ vf.map Prod.fst := by
      clear h
      induction vf with
      | nil => simp
      | cons f vf ih => intro l; rw [List.foldl_cons, ih]; simp
    rw [this, List.nil_append]
  rw [hm]
  refine ⟨h.distinct, fun p => ?_⟩
  constructor
  · intro hp
    obtain ⟨f, hf, rfl⟩ := List.mem_map.mp hp
    exact ⟨h.prime f hf, h.fst_dvd hf⟩
  · rintro ⟨hp, hd⟩
    rw [← h.prod, hp.prime.dvd_prod_iff] at hd
    obtain ⟨x, hx, hdx⟩ := hd
    obtain ⟨f, hf, rfl⟩ := List.mem_map.mp hx
    rw [(Nat.prime_dvd_prime_iff_eq hp (h.prime f hf)).mp (hp.dvd_of_dvd_pow hdx)]
    exact List.mem_map.mpr ⟨f, hf, rfl⟩

/-- C14: `prime_exponents(vf)` lists the multiplicities in the order of `prime_factors(vf)`. -/
theorem C14_prime_exponents (vf : List (Nat × Nat)) (n : Nat) (h : IsFactorization vf n) :
    primeExponentsOf vf = (primeFactorsOf vf).map n.factorization := by
  have hm : ∀ (l : List Nat) (vf : List (Nat × Nat)), vf.foldl (fun vp f => vp ++ [f.1]) l = l ++ vf.map Prod.fst := by
    intro l vf
    induction vf generalizing l with
    | nil => simp
    | cons f vf ih => rw [List.foldl_cons, ih]; simp
  have hm2 : ∀ (l : List Nat) (vf : List (Nat × Nat)), vf.foldl (fun vp f => vp ++ [f.2]) l = l ++ vf.map Prod.snd := by
    intro l vf
    induction vf generalizing l with
    | nil => simp
    | cons f vf ih => rw [List.foldl_cons, ih]; simp
  rw [primeExponentsOf, primeFactorsOf, hm, hm2, List.nil_append, List.nil_append, List.map_map]
  apply List.map_congr_left
  intro f hf
  exact (h.factorization f hf).symm

/-- C14: `divisor_sigma0(vf)` is the number of divisors. -/
theorem C14_sigma0 (vf : List (Nat × Nat)) (n : Nat) (h : IsFactorization vf n) : sigma0Of vf = n.divisors.card := by
  rw [sigma0Of, foldl_mul, one_mul, mult_prod (fun n => n.divisors.card) (by simp)
    (fun a b hab => hab.card_divisors_mul) h]
  congr 1
  apply List.map_congr_left
  intro f hf
  simp [Nat.divisors_prime_pow (h.prime f hf)]

/-- C14: `euler_phi(vf)` is Euler's totient. -/
theorem C14_euler_phi (vf : List (Nat × Nat)) (n : Nat) (h : IsFactorization vf n) : eulerPhiOf vf = n.totient := by
  rw [eulerPhiOf, foldl_mul, one_mul, mult_prod (fun n => (n.totient : Int)) (by simp)
    (fun a b hab => by rw [Nat.totient_mul hab]; push_cast; ring) h]
  congr 1
  apply List.map_congr_left
  intro f hf
  have hp := h.prime f hf
  have hk := h.pos f hf
  rw [show ((f.2 : Int) - 1) = ((f.2 - 1 : Nat) : Int) by omega, Base.C04_powT, Nat.totient_prime_pow hp hk]
  have := hp.one_le
  push_cast [Nat.cast_sub this]
  ring

theorem base_lcm_nat {a b : Nat} (ha : 0 < a) : Base.lcm a b = some ((Nat.lcm a b : Nat) : Int) := by
  have h1 := Base.C03_gcd_nonneg a b (by omega) (by omega)
  rw [Int.gcd_natCast_natCast] at h1
  have h2 : 0 < Nat.gcd a b := Nat.gcd_pos_of_pos_left _ ha
  rw [Base.lcm, h1, if_neg (by omega), ← Int.ofNat_tdiv, Option.some.injEq, ← Nat.cast_mul,
    Nat.lcm, Nat.mul_div_assoc _ (Nat.gcd_dvd_right a b)]

/-- C14: `carmichael_lambda(vf)` is the Carmichael function: the least positive exponent `m`
with `a ^ m = 1` for all `a` invertible modulo `n`. -/
theorem C14_carmichael (vf : List (Nat × Nat)) (n : Nat) (h : IsFactorization vf n) :
    carmichaelOf vf = some ((Monoid.exponent (ZMod n)ˣ : Nat) : Int) := by
  rw [← ArithmeticFunction.carmichael_eq_exponent h.ne_zero]
  suffices hs : ∀ (vf : List (Nat × Nat)) (n : Nat), IsFactorization vf n → ∀ c : Nat, 0 < c →
      vf.foldl (fun r f => r.bind fun r =>
        let e : Int := if f.1 = 2 ∧ f.2 > 2 then (f.2 : Int) - 1 else f.2
        Base.lcm r (Base.powT (f.1 : Int) (e - 1) * ((f.1 : Int) - 1))) (some (c : Int)) =
      some ((Nat.lcm c (ArithmeticFunction.carmichael n) : Nat) : Int) by
    have := hs vf n h 1 Nat.one_pos
    rw [carmichaelOf]
    simpa using this
  clear h n vf
  intro vf
  induction vf with
  | nil =>
    intro n h c hc
    have : n = 1 := by rw [← h.prod]; simp
    subst this
    rw [ArithmeticFunction.carmichael_eq_exponent one_ne_zero]
    simp [Monoid.exp_eq_one_of_subsingleton]
  | cons f vf ih =>
    intro n h c hc
    obtain ⟨n', h', rfl, hnd, hp, hk⟩ := h.tail
    rw [List.foldl_cons, Option.bind_some]
    have hval : Base.powT (f.1 : Int) ((if f.1 = 2 ∧ f.2 > 2 then (f.2 : Int) - 1 else f.2) - 1) * ((f.1 : Int) - 1) =
        (ArithmeticFunction.carmichael (f.1 ^ f.2) : Nat) := by
      by_cases h2 : f.1 = 2
      · by_cases h3 : f.2 > 2
        · rw [if_pos ⟨h2, h3⟩, h2, show ((f.2 : Int) - 1 - 1) = ((f.2 - 2 : Nat) : Int) by omega, Base.C04_powT,
            ArithmeticFunction.carmichael_two_pow_of_ne_two (by omega)]
          push_cast
          ring
        · rw [if_neg (fun h => h3 h.2), h2, show ((f.2 : Int) - 1) = ((f.2 - 1 : Nat) : Int) by omega, Base.C04_powT,
            ArithmeticFunction.carmichael_two_pow_of_le_two (by omega)]
          push_cast
          ring
      · rw [if_neg (fun h => h2 h.1), show ((f.2 : Int) - 1) = ((f.2 - 1 : Nat) : Int) by omega, Base.C04_powT,
          ArithmeticFunction.carmichael_pow_of_prime_ne_two _ hp h2, Nat.totient_prime_pow hp hk]
        have := hp.one_le
        push_cast [Nat.cast_sub this]
        ring
    simp only
    rw [hval]
    have hcp : 0 < ArithmeticFunction.carmichael (f.1 ^ f.2) := by
      rw [ArithmeticFunction.carmichael_eq_exponent (pow_ne_zero _ hp.ne_zero)]
      have : NeZero (f.1 ^ f.2) := ⟨pow_ne_zero _ hp.ne_zero⟩
      exact Nat.pos_of_ne_zero Monoid.exponent_ne_zero_of_finite
    rw [base_lcm_nat hc, ih n' h' _ (Nat.lcm_pos hc hcp), Nat.lcm_assoc,
      ← ArithmeticFunction.carmichael_mul (((Nat.Prime.coprime_iff_not_dvd hp).mpr hnd).pow_left _)]

/-! Concrete cases. -/

example : FactorTable [0, 1, 2, 3, 2, 5, 3, 7, 2, 3, 5, 11, 3] 12 := by
  intro j h1 h2
  have : ∀ j < 13, 2 ≤ j → ∃ p < 13, [0, 1, 2, 3, 2, 5, 3, 7, 2, 3, 5, 11, 3][j]? = some p ∧ p.Prime ∧ p ∣ j := by
    decide +kernel
  obtain ⟨p, _, h⟩ := this j (by omega) h1
  exact ⟨p, h⟩
example : IsFactorization [(3, 1), (2, 2)] 12 := by
  refine ⟨?_, ?_, ?_, ?_⟩ <;> decide +kernel
example : factorInteger [0, 1, 2, 3, 2, 5, 3, 7, 2, 3, 5, 11, 3] [] 12 = some [(3, 1), (2, 2)] := by decide +kernel
example : factorIntegers [0, 1, 2, 3, 2, 5, 3, 7, 2, 3, 5, 11, 3] [] [6, 1, 12, 10] = some [(3, 2), (2, 4), (5, 1)] := by
  decide +kernel
example : factorIntegerSlow 1000 360 = some [(2, 3), (3, 2), (5, 1)] := by decide +kernel
example : fromFactorization [(2, 3), (3, 2), (5, 1)] = 360 := by decide +kernel
example : (fromPrimes [2, 3] 12).map (·.map Prod.snd) = some [1, 2, 4, 8, 3, 6, 12, 9] := by decide +kernel
example : fractionReduce [6, 10, 7] [4, 15] = some ([1, 1, 7], [1, 1]) := by decide +kernel
example : divisorsRec 1000 0 [(3, 1), (2, 2)] 1 = some [1, 2, 4, 3, 6, 12] := by decide +kernel
example : divisorsRec 12 5 [(3, 1), (2, 2)] 1 = some [1, 2, 4, 3] := by decide +kernel
example : squarefreeSigned [(3, 1), (2, 2)] 1 = [1, -2, -3, 6] := by decide +kernel
example : sigma0Of [(3, 1), (2, 2)] = 6 ∧ eulerPhiOf [(3, 1), (2, 2)] = 4 := by decide +kernel
example : carmichaelOf [(3, 1), (2, 4)] = some 4 := by decide +kernel

end Altruct.Primes
