/-
C72: sums of powers of primes and prime counting (`prime_counting.h`).
-/
import Verif.PrimeCount.Model
import Verif.Sums.PowProps
import Verif.Maps.Props
import Mathlib.Data.Nat.Sqrt
import Mathlib.Data.Nat.Prime.Basic

namespace Altruct.PrimeCount

open Altruct.Maps (SqrtMap)
open Altruct.Polynom (Quo)
open Finset (Icc)

/-! ### the specification -/

/-- `Σ_{p ≤ v prime} p^z`. -/
def primePowSum (α : Type) [CommRing α] (z v : Nat) : α := ∑ k ∈ (Icc 1 v).filter Nat.Prime, ((k : Nat) : α) ^ z

/-- The number of primes `≤ v` that are `c` modulo 4. -/
def primesMod4 (c v : Nat) : Nat := ((Icc 1 v).filter fun k => k.Prime ∧ k % 4 = c).card

/-! ### what is left after sieving by the primes up to `p` -/

/-- Numbers `2 ≤ k ≤ v` that are prime or have no prime factor `≤ p`. -/
def left (v p : Nat) : Finset Nat := (Icc 2 v).filter fun k => k.Prime ∨ p < k.minFac

theorem mem_left {v p k : Nat} : k ∈ left v p ↔ (2 ≤ k ∧ k ≤ v) ∧ (k.Prime ∨ p < k.minFac) := by
  rw [left, Finset.mem_filter, Finset.mem_Icc]

theorem left_one (v : Nat) : left v 1 = Icc 2 v := by
  ext k
  rw [mem_left, Finset.mem_Icc]
  constructor
  · intro h; exact h.1
  · intro h
    exact ⟨h, Or.inr (Nat.minFac_prime (by omega)).one_lt⟩

theorem left_primes {v p : Nat} (h : v < (p + 1) * (p + 1)) : left v p = (Icc 1 v).filter Nat.Prime := by
  ext k
  rw [mem_left, Finset.mem_filter, Finset.mem_Icc]
  constructor
  · intro ⟨⟨h2, hv⟩, hk⟩
    refine ⟨⟨by omega, hv⟩, ?_⟩
    rcases hk with hk | hk
    · exact hk
    · by_contra hp
      have := Nat.minFac_sq_le_self (n := k) (by omega) hp
      nlinarith
  · intro ⟨⟨_, hv⟩, hk⟩
    exact ⟨⟨hk.two_le, hv⟩, Or.inl hk⟩

theorem left_small {v p : Nat} (h : v < p * p) : left v (p - 1) = left v p := by
  rcases Nat.eq_zero_or_pos p with rfl | hp
  · rfl
  · rw [left_primes (p := p - 1) (by rw [Nat.sub_add_cancel hp]; exact h), left_primes (by nlinarith)]

theorem left_composite {v p : Nat} (hp : 1 < p) (h : ¬ p.Prime) : left v (p - 1) = left v p := by
  ext k
  rw [mem_left, mem_left]
  have : ∀ k, 2 ≤ k → (p - 1 < k.minFac ↔ p < k.minFac) := by
    intro k hk
    constructor
    · intro h1
      rcases Nat.lt_or_ge p k.minFac with h2 | h2
      · exact h2
      · have : k.minFac = p := by omega
        rw [← this] at h
        exact absurd (Nat.minFac_prime (by omega)) h
    · intro h1; omega
  constructor
  · intro ⟨h1, h2⟩
    rw [this k h1.1] at h2
    exact ⟨h1, h2⟩
  · intro ⟨h1, h2⟩
    rw [← this k h1.1] at h2
    exact ⟨h1, h2⟩

/-- The numbers removed in round `p`. -/
theorem left_prime {v p : Nat} (hp : p.Prime) (hv : p * p ≤ v) :
    left v (p - 1) \ left v p = (left (v / p) (p - 1) \ left (p - 1) (p - 1)).image (p * ·) := by
  ext k
  rw [Finset.mem_sdiff, mem_left, mem_left, Finset.mem_image]
  have h1 := hp.one_lt
  constructor
  · intro ⟨⟨h2, h3⟩, h4⟩
    have h5 : ¬ k.Prime ∧ ¬ p < k.minFac := by
      constructor
      · intro h; exact h4 ⟨h2, Or.inl h⟩
      · intro h; exact h4 ⟨h2, Or.inr h⟩
    have h6 : k.minFac = p := by
      rcases h3 with h3 | h3
      · exact absurd h3 h5.1
      · omega
    obtain ⟨m, rfl⟩ : p ∣ k := h6 ▸ Nat.minFac_dvd k
    have hm1 : 2 ≤ m := by
      rcases Nat.lt_or_ge m 2 with h | h
      · interval_cases m
        · omega
        · rw [mul_one] at h5; exact absurd hp h5.1
      · exact h
    have hmf : p ≤ m.minFac := by
      rw [← h6]
      exact Nat.minFac_le_of_dvd (Nat.minFac_prime (by omega)).two_le ((Nat.minFac_dvd m).trans (Dvd.intro_left p rfl))
    have hmp : p ≤ m := hmf.trans (Nat.minFac_le (by omega))
    refine ⟨m, ?_, rfl⟩
    rw [Finset.mem_sdiff, mem_left, mem_left]
    exact ⟨⟨⟨hm1, (Nat.le_div_iff_mul_le (by omega)).mpr (by rw [mul_comm]; exact h2.2)⟩, Or.inr (by omega)⟩, fun h => by omega⟩
  · rintro ⟨m, hm, rfl⟩
    rw [Finset.mem_sdiff, mem_left, mem_left] at hm
    obtain ⟨⟨⟨hm1, hm2⟩, hm3⟩, hm4⟩ := hm
    rw [Nat.le_div_iff_mul_le (by omega)] at hm2
    have hmp : p ≤ m := by
      by_contra h
      exact hm4 ⟨⟨hm1, by omega⟩, hm3⟩
    have hmf : p ≤ m.minFac := by
      rcases hm3 with h | h
      · rw [h.minFac_eq]; exact hmp
      · omega
    have hkf : (p * m).minFac = p := by
      apply le_antisymm
      · exact Nat.minFac_le_of_dvd hp.two_le (Dvd.intro m rfl)
      · have hpr := Nat.minFac_prime (n := p * m) (by nlinarith)
        rcases (Nat.Prime.dvd_mul hpr).mp (Nat.minFac_dvd (p * m)) with h | h
        · exact ((Nat.prime_dvd_prime_iff_eq hpr hp).mp h).ge
        · exact hmf.trans (Nat.minFac_le_of_dvd hpr.two_le h)
    have hnp : ¬ (p * m).Prime := Nat.not_prime_mul (by omega) (by omega)
    refine ⟨⟨⟨by nlinarith, by rw [mul_comm]; exact hm2⟩, Or.inr (by omega)⟩, ?_⟩
    rintro ⟨_, h | h⟩
    · exact hnp h
    · omega

theorem left_anti {v p q : Nat} (h : p ≤ q) : left v q ⊆ left v p := by
  intro k hk
  rw [mem_left] at hk ⊢
  exact ⟨hk.1, hk.2.imp id (fun h2 => by omega)⟩

theorem left_mono {v w p : Nat} (h : v ≤ w) : left v p ⊆ left w p := by
  intro k hk
  rw [mem_left] at hk ⊢
  exact ⟨⟨hk.1.1, by omega⟩, hk.2⟩

/-- The recurrence, for sums of any function. -/
theorem left_sum {α : Type} [CommRing α] (f : Nat → α) {v p : Nat} (hp : p.Prime) (hv : p * p ≤ v) :
    ∑ k ∈ left v p, f k = ∑ k ∈ left v (p - 1), f k -
      (∑ m ∈ left (v / p) (p - 1), f (p * m) - ∑ m ∈ left (p - 1) (p - 1), f (p * m)) := by
  have hp1 := hp.one_lt
  have h1 := Finset.sum_sdiff (f := f) (left_anti (v := v) (show p - 1 ≤ p by omega))
  have h2 := Finset.sum_sdiff (f := fun m => f (p * m)) (left_mono (p := p - 1) (v := p - 1) (w := v / p)
    (by have := (Nat.le_div_iff_mul_le (show 0 < p by omega)).mpr hv; omega))
  rw [left_prime hp hv, Finset.sum_image (fun a _ b _ h => Nat.eq_of_mul_eq_mul_left (by omega) h)] at h1
  linear_combination h1 - h2

section pps
variable {α : Type} [CommRing α]

/-- `Σ_{k left after p} k^z`. -/
def phi (α : Type) [CommRing α] (z v p : Nat) : α := ∑ k ∈ left v p, ((k : Nat) : α) ^ z

theorem phi_prime (z : Nat) {v p : Nat} (hp : p.Prime) (hv : p * p ≤ v) :
    phi α z v p = phi α z v (p - 1) - (phi α z (v / p) (p - 1) - phi α z (p - 1) (p - 1)) * (p : α) ^ z := by
  rw [phi, left_sum _ hp hv, sub_mul, phi, phi, phi, Finset.sum_mul, Finset.sum_mul]
  simp only [Nat.cast_mul, mul_pow, mul_comm]

theorem phi_small (z : Nat) {v p : Nat} (h : v < p * p) : phi α z v p = phi α z v (p - 1) := by
  rw [phi, phi, left_small h]

theorem phi_composite (z : Nat) {v p : Nat} (hp : 1 < p) (h : ¬ p.Prime) : phi α z v p = phi α z v (p - 1) := by
  rw [phi, phi, left_composite hp h]

/-- The test of the loop. -/
theorem left_step {p : Nat} (hp : 1 < p) : left p (p - 1) = left (p - 1) (p - 1) ∪ (if p.Prime then {p} else ∅) := by
  ext k
  rw [Finset.mem_union, mem_left, mem_left]
  by_cases hpr : p.Prime
  · rw [if_pos hpr, Finset.mem_singleton]
    constructor
    · intro ⟨h1, h2⟩
      by_cases hk : k = p
      · exact Or.inr hk
      · exact Or.inl ⟨⟨h1.1, by omega⟩, h2⟩
    · rintro (h | h)
      · exact ⟨⟨h.1.1, by omega⟩, h.2⟩
      · rw [h]; exact ⟨⟨by omega, le_refl _⟩, Or.inl hpr⟩
  · rw [if_neg hpr]
    constructor
    · intro ⟨h1, h2⟩
      refine Or.inl ⟨⟨h1.1, ?_⟩, h2⟩
      by_contra hk
      have hk' : k = p := by omega
      rw [hk'] at h2
      rcases h2 with h2 | h2
      · exact hpr h2
      · have h3 := Nat.minFac_sq_le_self (n := p) (by omega) hpr
        have h4 : p ≤ p.minFac := by omega
        nlinarith
    · rintro (h | h)
      · exact ⟨⟨h.1.1, by omega⟩, h.2⟩
      · simp at h

theorem left_step_disj {p : Nat} (hp : 1 < p) : Disjoint (left (p - 1) (p - 1)) (if p.Prime then {p} else ∅) := by
  rw [Finset.disjoint_left]
  intro k hk
  rw [mem_left] at hk
  split_ifs
  · rw [Finset.mem_singleton]; omega
  · simp

theorem phi_test (z : Nat) {p : Nat} (hp : 1 < p) : phi α z p (p - 1) = phi α z (p - 1) (p - 1) + (if p.Prime then (p : α) ^ z else 0) := by
  rw [phi, left_step hp, Finset.sum_union (left_step_disj hp), phi]
  congr 1
  split_ifs <;> simp

theorem phi_skip (z : Nat) {v p : Nat} (hp : 1 < p) (h : phi α z (p - 1) (p - 1) = phi α z p (p - 1)) : phi α z v p = phi α z v (p - 1) := by
  by_cases hpr : p.Prime
  · rw [phi_test z hp, if_pos hpr] at h
    have h0 : (p : α) ^ z = 0 := by linear_combination -h
    by_cases hv : p * p ≤ v
    · rw [phi_prime z hpr hv, h0]; ring
    · exact phi_small z (by omega)
  · exact phi_composite z hp hpr

theorem phi_run (z : Nat) {p : Nat} (hp : 1 < p) (h : phi α z (p - 1) (p - 1) ≠ phi α z p (p - 1)) : p.Prime := by
  by_contra hpr
  rw [phi_test z hp, if_neg hpr, add_zero] at h
  exact h rfl

end pps

/-! ### the loops -/

section loops
variable {α : Type} [CommRing α] [DecidableEq α] [Quo α]

/-- The tables of the map. -/
structure Tab (s : SqrtMap α) (L n : Nat) (lo hi : Nat → α) : Prop where
  mlo : s.maxLo = L
  mkey : s.maxKey = n
  cl : s.cntLo.length = L + 1
  ch : s.cntHi.length = n / L + 1
  tl : Rep s.tblLo (L + 1) lo
  th : Rep s.tblHi (n / L + 1) hi

theorem Tab.el_lo {s : SqrtMap α} {L n : Nat} {lo hi : Nat → α} (h : Tab s L n lo hi) {k : Nat} (hk : k ≤ L) : s.el k = some (lo k) := by
  rw [SqrtMap.el, h.mlo, if_pos hk, h.tl.rd (by omega)]

theorem Tab.el_hi {s : SqrtMap α} {L n : Nat} {lo hi : Nat → α} (h : Tab s L n lo hi) (hL : 1 ≤ L) {k : Nat} (hk : L < k) : s.el k = some (hi (n / k)) := by
  rw [SqrtMap.el, h.mlo, if_neg (by omega), SqrtMap.slot, if_neg (by omega), h.mkey]
  simp only [Option.bind_eq_bind, Option.bind_some]
  exact h.th.rd (Maps.slot_lt L n k hL hk)

theorem Tab.set_lo {s : SqrtMap α} {L n : Nat} {lo hi : Nat → α} (h : Tab s L n lo hi) {k : Nat} (hk : k ≤ L) (v : α) :
    ∃ s', s.set k v = some s' ∧ Tab s' L n (Function.update lo k v) hi := by
  rw [SqrtMap.set, h.mlo, if_pos hk, wr, if_pos (by rw [h.cl]; omega), h.tl.wr (by omega)]
  exact ⟨_, rfl, rfl, h.mkey, by simp [h.cl], h.ch, h.tl.set k v, h.th⟩

theorem Tab.set_hi {s : SqrtMap α} {L n : Nat} {lo hi : Nat → α} (h : Tab s L n lo hi) (hL : 1 ≤ L) {k : Nat} (hk : L < k) (v : α) :
    ∃ s', s.set k v = some s' ∧ Tab s' L n lo (Function.update hi (n / k) v) := by
  have hs := Maps.slot_lt L n k hL hk
  rw [SqrtMap.set, h.mlo, if_neg (by omega), SqrtMap.slot, if_neg (by omega), h.mkey]
  simp only [Option.bind_eq_bind, Option.bind_some]
  rw [wr, if_pos (by rw [h.ch]; exact hs), h.th.wr hs]
  exact ⟨_, rfl, rfl, rfl, h.cl, by simp [h.ch], h.tl, h.th.set _ v⟩

theorem tab_init (L n : Nat) (hL : 1 ≤ L) : ∃ s, SqrtMap.mk' (0 : α) L n = some s ∧ Tab s L n (fun _ => 0) (fun _ => 0) := by
  refine ⟨⟨L, n, List.replicate (L + 1) 0, List.replicate (L + 1) 0, List.replicate (n / L + 1) 0, List.replicate (n / L + 1) 0⟩,
    by rw [SqrtMap.mk', SqrtMap.resetMax, if_neg (by change ¬ L = 0; omega)]; simp, rfl, rfl, by simp, by simp, Rep.replicate _ _, Rep.replicate _ _⟩

/-- `sum_pow(z, ·)` is right, and stays right, when the static table satisfies `P`. -/
def GoodTable (z : Nat) (P : List α → Prop) : Prop :=
  ∀ B, P B → ∀ i : Nat, ∃ B', Sums.sumPow z i B = some (∑ k ∈ Icc 1 i, ((k : Nat) : α) ^ z, B') ∧ P B'

theorem div_div_self {n x : Nat} (hx : 0 < x) (h : x ≤ n / x) : n / (n / x) = x := by
  have h1 : n / x * x ≤ n := Nat.div_mul_le_self n x
  have h2 := Nat.div_add_mod n x
  have h3 := Nat.mod_lt n hx
  apply Nat.div_eq_of_lt_le
  · rw [mul_comm]; exact h1
  · nlinarith

theorem le_div_div {n x : Nat} (h : 0 < n / x) : x ≤ n / (n / x) := by
  rw [Nat.le_div_iff_mul_le h, mul_comm]
  exact Nat.div_mul_le_self n x

theorem phi_one (z i : Nat) (hi : 1 ≤ i) : phi α z i 1 = ∑ k ∈ Icc 1 i, ((k : Nat) : α) ^ z - 1 := by
  have : Icc 1 i = insert 1 (Icc 2 i) := by
    ext k; rw [Finset.mem_insert, Finset.mem_Icc, Finset.mem_Icc]; omega
  rw [phi, left_one, this, Finset.sum_insert (by simp)]
  simp

theorem initLo_spec (z L n : Nat) {P : List α → Prop} (hP : GoodTable z P) (hi : Nat → α) : ∀ (c i : Nat) (s : SqrtMap α) (B : List α) (lo : Nat → α),
    1 ≤ i → i + c = L + 1 → Tab s L n lo hi → P B → (∀ j, 1 ≤ j → j < i → lo j = phi α z j 1) →
    ∃ s' B' lo', initLo z c i s B = some (s', B') ∧ Tab s' L n lo' hi ∧ P B' ∧ ∀ j, 1 ≤ j → j ≤ L → lo' j = phi α z j 1 := by
  intro c
  induction c with
  | zero => intro i s B lo h1 h2 hT hB hl; exact ⟨s, B, lo, rfl, hT, hB, fun j h3 h4 => hl j h3 (by omega)⟩
  | succ c ih =>
    intro i s B lo h1 h2 hT hB hl
    rw [initLo]
    obtain ⟨B', e, hB'⟩ := hP B hB i
    rw [e]
    simp only [Option.bind_eq_bind, Option.bind_some]
    obtain ⟨s', es, hs⟩ := hT.set_lo (k := i) (by omega) (∑ k ∈ Icc 1 i, ((k : Nat) : α) ^ z - 1)
    rw [es, Option.bind_some]
    apply ih (i + 1) s' B' _ (by omega) (by omega) hs hB'
    intro j h3 h4
    by_cases hj : j = i
    · rw [hj, Function.update_self, phi_one z i h1]
    · rw [Function.update_of_ne hj]; exact hl j h3 (by omega)

theorem initHi_spec (z L n : Nat) (hL : 1 ≤ L) (hn : n < (L + 1) * (L + 1)) {P : List α → Prop} (hP : GoodTable z P) (lo : Nat → α) : ∀ (k : Nat) (s : SqrtMap α) (B : List α) (hi : Nat → α),
    k ≤ n / (L + 1) → Tab s L n lo hi → P B → (∀ j, k < j → j ≤ n / (L + 1) → hi j = phi α z (n / j) 1) →
    ∃ s' B' hi', initHi z n k s B = some (s', B') ∧ Tab s' L n lo hi' ∧ P B' ∧ ∀ j, 1 ≤ j → j ≤ n / (L + 1) → hi' j = phi α z (n / j) 1 := by
  intro k
  induction k with
  | zero => intro s B hi _ hT hB hl; exact ⟨s, B, hi, rfl, hT, hB, fun j h3 h4 => hl j (by omega) h4⟩
  | succ k ih =>
    intro s B hi hk hT hB hl
    rw [initHi]
    obtain ⟨B', e, hB'⟩ := hP B hB (n / (k + 1))
    simp only []
    rw [e]
    simp only [Option.bind_eq_bind, Option.bind_some]
    have h1 : L < n / (k + 1) := by
      apply Nat.lt_of_succ_le
      rw [Nat.succ_eq_add_one, Nat.le_div_iff_mul_le (by omega), mul_comm]
      rwa [Nat.le_div_iff_mul_le (by omega)] at hk
    have h2 : n / (n / (k + 1)) = k + 1 := by
      refine div_div_self (by omega) ?_
      have : n / (L + 1) < L + 1 := by rw [Nat.div_lt_iff_lt_mul (by omega)]; exact hn
      omega
    obtain ⟨s', es, hs⟩ := hT.set_hi hL (k := n / (k + 1)) h1 (∑ i ∈ Icc 1 (n / (k + 1)), ((i : Nat) : α) ^ z - 1)
    rw [es, Option.bind_some]
    rw [h2] at hs
    apply ih s' B' _ (by omega) hs hB'
    intro j h3 h4
    by_cases hj : j = k + 1
    · rw [hj, Function.update_self, phi_one z _ (by omega)]
    · rw [Function.update_of_ne hj]; exact hl j (by omega) h4

/-- The value found by `el`. -/
def E (L n : Nat) (lo hi : Nat → α) (j : Nat) : α := if j ≤ L then lo j else hi (n / j)

theorem Tab.el {s : SqrtMap α} {L n : Nat} {lo hi : Nat → α} (h : Tab s L n lo hi) (hL : 1 ≤ L) (j : Nat) : s.el j = some (E L n lo hi j) := by
  rw [E]
  by_cases hj : j ≤ L
  · rw [if_pos hj, h.el_lo hj]
  · rw [if_neg hj, h.el_hi hL (by omega)]

theorem hiLoop_spec (L n p : Nat) (hL : 1 ≤ L) (hp : 2 ≤ p) (t pz : α) (lo : Nat → α) : ∀ (c k : Nat) (s : SqrtMap α) (hi : Nat → α),
    1 ≤ k → k + c ≤ n / L + 1 → Tab s L n lo hi →
    ∃ s' hi', hiLoop n p t pz c k s = some s' ∧ Tab s' L n lo hi' ∧
      ∀ i, hi' i = if k ≤ i ∧ i < k + c then hi i - (E L n lo hi (n / (i * p)) - t) * pz else hi i := by
  intro c
  induction c with
  | zero =>
    intro k s hi _ _ hT
    exact ⟨s, hi, rfl, hT, fun i => by rw [if_neg (by omega)]⟩
  | succ c ih =>
    intro k s hi hk hc hT
    rw [hiLoop]
    have hkp : k * p ≠ 0 := Nat.mul_ne_zero (by omega) (by omega)
    rw [if_neg hkp]
    simp only []
    rw [hT.el hL, Option.bind_eq_bind, Option.bind_some, hT.th.rd (by omega)]
    simp only [Option.bind_eq_bind, Option.bind_some]
    rw [hT.th.wr (by omega), Option.bind_some]
    obtain ⟨s', hi', e, hT', hs⟩ := ih (k + 1) { s with tblHi := s.tblHi.set k (hi k - (E L n lo hi (n / (k * p)) - t) * pz) } (Function.update hi k (hi k - (E L n lo hi (n / (k * p)) - t) * pz)) (by omega) (by omega)
      ⟨hT.mlo, hT.mkey, hT.cl, hT.ch, hT.tl, hT.th.set k _⟩
    refine ⟨s', hi', e, hT', fun i => ?_⟩
    rw [hs i]
    by_cases h1 : i = k
    · subst h1
      rw [if_neg (by omega), if_pos (by omega), Function.update_self]
    · rw [Function.update_of_ne h1]
      by_cases h2 : k + 1 ≤ i ∧ i < k + 1 + c
      · rw [if_pos h2, if_pos (by omega)]
        congr 3
        generalize hi k - (E L n lo hi (n / (k * p)) - t) * pz = v
        rw [E, E]
        by_cases h3 : n / (i * p) ≤ L
        · rw [if_pos h3, if_pos h3]
        · rw [if_neg h3, if_neg h3, Function.update_of_ne]
          have := le_div_div (n := n) (x := i * p) (by omega)
          nlinarith
      · rw [if_neg h2, if_neg (by omega)]

theorem loLoop_spec (L n p : Nat) (hp : 2 ≤ p) (t pz : α) (hi : Nat → α) : ∀ (c i : Nat) (s : SqrtMap α) (lo : Nat → α),
    i ≤ L → c ≤ i → Tab s L n lo hi →
    ∃ s' lo', loLoop p t pz c i s = some s' ∧ Tab s' L n lo' hi ∧
      ∀ j, lo' j = if i < j + c ∧ j ≤ i then lo j - (lo (j / p) - t) * pz else lo j := by
  intro c
  induction c with
  | zero =>
    intro i s lo _ _ hT
    exact ⟨s, lo, rfl, hT, fun j => by rw [if_neg (by omega)]⟩
  | succ c ih =>
    intro i s lo hiL hc hT
    rw [loLoop]
    have hd : i / p < i := Nat.div_lt_self (by omega) (by omega)
    rw [hT.tl.rd (by omega), hT.tl.rd (by omega)]
    simp only [Option.bind_eq_bind, Option.bind_some]
    rw [hT.tl.wr (by omega), Option.bind_some]
    obtain ⟨s', lo', e, hT', hs⟩ := ih (i - 1) { s with tblLo := s.tblLo.set i (lo i - (lo (i / p) - t) * pz) } (Function.update lo i (lo i - (lo (i / p) - t) * pz)) (by omega) (by omega)
      ⟨hT.mlo, hT.mkey, hT.cl, hT.ch, hT.tl.set i _, hT.th⟩
    refine ⟨s', lo', e, hT', fun j => ?_⟩
    rw [hs j]
    by_cases h1 : j = i
    · subst h1
      rw [if_neg (by omega), if_pos (by omega), Function.update_self]
    · rw [Function.update_of_ne h1]
      by_cases h2 : i - 1 < j + c ∧ j ≤ i - 1
      · rw [if_pos h2, if_pos (by omega), Function.update_of_ne]
        have : j / p ≤ j := Nat.div_le_self _ _
        omega
      · rw [if_neg h2, if_neg (by omega)]

/-- The invariant of the main loop: the tables hold the sums over the numbers left after `p`. -/
def Sieved (z L n p : Nat) (s : SqrtMap α) : Prop :=
  ∃ lo hi, Tab s L n lo hi ∧ (∀ j, 1 ≤ j → j ≤ L → lo j = phi α z j p) ∧ ∀ k, 1 ≤ k → k ≤ n / (L + 1) → hi k = phi α z (n / k) p

theorem E_key {z L n p : Nat} {lo hi : Nat → α} (h1 : ∀ j, 1 ≤ j → j ≤ L → lo j = phi α z j p)
    (h2 : ∀ k, 1 ≤ k → k ≤ n / (L + 1) → hi k = phi α z (n / k) p) {x : Nat} (hx : 0 < n / x) : E L n lo hi (n / x) = phi α z (n / x) p := by
  rw [E]
  by_cases h : n / x ≤ L
  · rw [if_pos h, h1 _ hx h]
  · rw [if_neg h, h2]
    · congr 1
      apply le_antisymm
      · exact Nat.div_le_div_left (le_div_div hx) (by
          rcases Nat.eq_zero_or_pos x with rfl | h0
          · simp at hx
          · exact h0)
      · exact le_div_div (Nat.div_pos (Nat.div_le_self _ _) hx)
    · exact Nat.div_pos (Nat.div_le_self _ _) hx
    · exact Nat.div_le_div_left (by omega) (by omega)

theorem outer_spec (z L n : Nat) (hL : 1 ≤ L) (hLn : L * L ≤ n) (hn : n < (L + 1) * (L + 1)) : ∀ (c p : Nat) (s : SqrtMap α), 2 ≤ p → p + c = L + 1 →
    Sieved z L n (p - 1) s → ∃ s', outer z n (L + 1) c p s = some s' ∧ Sieved z L n L s' := by
  intro c
  induction c with
  | zero =>
    intro p s hp hc h
    exact ⟨s, rfl, by rw [show p - 1 = L by omega] at h; exact h⟩
  | succ c ih =>
    intro p s hp hc ⟨lo, hi, hT, h1, h2⟩
    rw [outer, hT.el_lo (by omega), hT.el_lo (by omega)]
    simp only [Option.bind_eq_bind, Option.bind_some]
    rw [h1 (p - 1) (by omega) (by omega), h1 p (by omega) (by omega)]
    by_cases hs : phi α z (p - 1) (p - 1) = phi α z p (p - 1)
    · rw [if_pos hs]
      apply ih (p + 1) s (by omega) (by omega)
      rw [show p + 1 - 1 = p by omega]
      exact ⟨lo, hi, hT, fun j h3 h4 => by rw [h1 j h3 h4, phi_skip z (by omega) hs],
        fun k h3 h4 => by rw [h2 k h3 h4, phi_skip z (by omega) hs]⟩
    · rw [if_neg hs]
      have hpr := phi_run z (by omega) hs
      have hq : n / (L + 1) ≤ n / L := Nat.div_le_div_left (by omega) (by omega)
      have hpp : 0 < p * p := Nat.mul_pos (by omega) (by omega)
      obtain ⟨s1, hi', e1, hT1, hh⟩ := hiLoop_spec L n p hL hp (phi α z (p - 1) (p - 1)) (Base.powT (p : α) z) lo
        (min (n / (L + 1)) (n / (p * p))) 1 s hi (le_refl _) (by omega) hT
      rw [e1, Option.bind_some]
      obtain ⟨s2, lo', e2, hT2, hl⟩ := loLoop_spec L n p hp (phi α z (p - 1) (p - 1)) (Base.powT (p : α) z) hi'
        (L + 1 - p * p) (L + 1 - 1) s1 lo (by omega) (by omega) hT1
      rw [e2, Option.bind_some]
      apply ih (p + 1) s2 (by omega) (by omega)
      rw [show p + 1 - 1 = p by omega]
      rw [Base.C04_powT] at hh hl
      refine ⟨lo', hi', hT2, ?_, ?_⟩
      · intro j h3 h4
        rw [hl j]
        by_cases h5 : p * p ≤ j
        · have h6 : j / p ≤ j := Nat.div_le_self _ _
          have h7 : 1 ≤ j / p := Nat.div_pos (by nlinarith) (by omega)
          rw [if_pos (by omega), h1 j h3 h4, h1 (j / p) h7 (by omega), phi_prime z hpr h5]
        · rw [if_neg (by omega), h1 j h3 h4, phi_small (v := j) (p := p) z (by omega)]
      · intro k h3 h4
        rw [hh k]
        by_cases h5 : k ≤ n / (p * p)
        · have h6 : p * p ≤ n / k := by
            rw [Nat.le_div_iff_mul_le (by omega), mul_comm, ← Nat.le_div_iff_mul_le hpp]; exact h5
          have h7 : n / (k * p) = n / k / p := (Nat.div_div_eq_div_mul n k p).symm
          have h8 : 0 < n / (k * p) := by
            rw [h7]; exact Nat.div_pos (by nlinarith) (by omega)
          rw [if_pos (by omega), E_key h1 h2 h8, h2 k h3 h4, phi_prime z hpr h6, h7]
        · have h6 : n / k < p * p := by
            rw [Nat.div_lt_iff_lt_mul (by omega), mul_comm, ← Nat.div_lt_iff_lt_mul hpp]; omega
          rw [if_neg (fun h => h5 (by omega)), h2 k h3 h4, phi_small (p := p) z h6]

theorem pps_spec {sq : Nat → Nat} (z n : Nat) (hn : 1 ≤ n) (hsq : sq n = Nat.sqrt n) {P : List α → Prop} (hP : GoodTable z P) (B : List α) (hB : P B) :
    ∃ s B', primePowerSumSqrt sq z n B = some (s, B') ∧ P B' ∧
      (∀ k, 1 ≤ k → k ≤ n → s.el (n / k) = some (primePowSum α z (n / k))) ∧
      ∀ j, 1 ≤ j → j ≤ Nat.sqrt n → s.el j = some (primePowSum α z j) := by
  rw [primePowerSumSqrt, hsq]
  generalize hLe : Nat.sqrt n = L
  have hL : 1 ≤ L := by rw [← hLe]; exact Nat.sqrt_pos.mpr hn
  have hLn : L * L ≤ n := by rw [← hLe]; exact Nat.sqrt_le n
  have hnL : n < (L + 1) * (L + 1) := by rw [← hLe]; exact Nat.lt_succ_sqrt n
  simp only [show L + 1 - 1 = L by omega, show L + 1 - 2 = L - 1 by omega]
  obtain ⟨s, e, hT⟩ := tab_init (α := α) L n hL
  rw [e]
  simp only [Option.bind_eq_bind, Option.bind_some]
  obtain ⟨s1, B1, lo1, e1, hT1, hB1, h1⟩ := initLo_spec z L n hP _ L 1 s B _ (le_refl _) (by omega) hT hB (fun j h3 h4 => by omega)
  rw [e1]
  simp only [Option.bind_some]
  obtain ⟨s2, B2, hi2, e2, hT2, hB2, h2⟩ := initHi_spec z L n hL hnL hP _ (n / (L + 1)) s1 B1 _ (le_refl _) hT1 hB1 (fun j h3 h4 => by omega)
  rw [e2]
  simp only [Option.bind_some]
  obtain ⟨s3, e3, lo, hi, hT3, h3, h4⟩ := outer_spec z L n hL hLn hnL (L - 1) 2 s2 (le_refl _) (by omega) ⟨lo1, hi2, hT2, h1, h2⟩
  rw [e3, Option.bind_some]
  have hfin : ∀ v, v ≤ n → phi α z v L = primePowSum α z v := by
    intro v hv
    rw [phi, primePowSum, left_primes (by omega)]
  refine ⟨s3, B2, rfl, hB2, ?_, ?_⟩
  · intro k h5 h6
    rw [hT3.el hL, E_key h3 h4 (Nat.div_pos h6 h5), hfin _ (Nat.div_le_self _ _)]
  · intro j h5 h6
    rw [hT3.el_lo h6, h3 j h5 h6, hfin j (by nlinarith)]

end loops

/-- The table condition in a field. -/
theorem good_field {α : Type} [Field α] [DecidableEq α] (z : Nat) (hinv : ∀ i, i < z + z / 2 + 1 → ((i + 1 : Nat) : α) ≠ 0) :
    GoodTable (α := α) z (fun B => Sums.BernTable B B.length) :=
  fun B hB i => Sums.sumPow_spec z z i B (le_refl _) hinv hB

/-- The table condition for integers and small exponents. -/
theorem good_int (z : Nat) (hz : z ≤ 3) : GoodTable (α := Int) z (fun _ => True) := by
  intro B _ i
  have h2 : z = 1 ∨ z = 3 → Sums.Exact (2 : Int) := fun _ => Sums.exact_int 2 (by decide)
  have h6 : z = 2 → Sums.Exact (6 : Int) := fun _ => Sums.exact_int 6 (by decide)
  rw [Sums.sumPow]
  by_cases h : B.length < z + 1
  · rw [if_pos h]
    obtain ⟨b, e, hl⟩ := Sums.bernOuter_some (α := Int) (max z (B.length + B.length / 2) + 1) (fun i _ => by omega) _ 0 _ _ (Nat.zero_add _)
      (List.length_replicate) (List.length_replicate (a := (0 : Int)))
    rw [Recurrence.bernoulliB, e]
    simp only [Option.bind_eq_bind, Option.bind_some]
    rw [Sums.C71_sum_pow_small z i b hz (by intro h; rw [h] at hl; simp at hl) h2 h6]
    exact ⟨b, rfl, trivial⟩
  · rw [if_neg h]
    simp only [Option.bind_eq_bind, Option.bind_some]
    rw [Sums.C71_sum_pow_small z i B hz (by intro h'; rw [h'] at h; simp at h) h2 h6]
    exact ⟨B, rfl, trivial⟩

/-- **C72**: in a field where `1, ..., 3z/2 + 1` are not zero, `prime_power_sum_sqrt(z, n)` holds
`Σ_{p ≤ v prime} p^z` for every `v = n / k` with `1 ≤ k ≤ n`, and for every `v ≤ √n`.  The static Bernoulli table `B` may
be any table left by earlier calls, and is again such a table. -/
theorem C72_prime_power_sum_sqrt {α : Type} [Field α] [DecidableEq α] {sq : Nat → Nat} (z n : Nat) (hn : 1 ≤ n) (hsq : sq n = Nat.sqrt n)
    (hinv : ∀ i, i < z + z / 2 + 1 → ((i + 1 : Nat) : α) ≠ 0) (B : List α) (hB : Sums.BernTable B B.length) :
    ∃ s B', primePowerSumSqrt sq z n B = some (s, B') ∧ Sums.BernTable B' B'.length ∧
      (∀ k, 1 ≤ k → k ≤ n → s.el (n / k) = some (primePowSum α z (n / k))) ∧
      ∀ j, 1 ≤ j → j ≤ Nat.sqrt n → s.el j = some (primePowSum α z j) :=
  pps_spec z n hn hsq (good_field z hinv) B hB

/-- **C72**: the same for integers and `z ≤ 3`, with no condition on the static table. -/
theorem C72_prime_power_sum_sqrt_int {sq : Nat → Nat} (z n : Nat) (hz : z ≤ 3) (hn : 1 ≤ n) (hsq : sq n = Nat.sqrt n) (B : List Int) :
    ∃ s B', primePowerSumSqrt sq z n B = some (s, B') ∧
      (∀ k, 1 ≤ k → k ≤ n → s.el (n / k) = some (primePowSum Int z (n / k))) ∧
      ∀ j, 1 ≤ j → j ≤ Nat.sqrt n → s.el j = some (primePowSum Int z j) := by
  obtain ⟨s, B', e, _, h1, h2⟩ := pps_spec z n hn hsq (good_int z hz) B trivial
  exact ⟨s, B', e, h1, h2⟩

/-- **C72**: `prime_sum(n)` is the sum of the primes up to `n`, and `prime_pi(n)` their number; for every `n`, and after any
earlier calls (`B` is arbitrary). -/
theorem C72_prime_sum_pi {sq : Nat → Nat} (n : Nat) (hsq : sq n = Nat.sqrt n) (B : List Int) :
    (∃ B', primeSum sq n B = some (∑ p ∈ (Icc 1 n).filter Nat.Prime, (p : Int), B')) ∧
    (∃ B', primePi sq n B = some ((((Icc 1 n).filter Nat.Prime).card : Int), B')) := by
  rw [primeSum, primePi]
  by_cases hn : n < 1
  · rw [if_pos hn, if_pos hn]
    have : n = 0 := by omega
    subst this
    exact ⟨⟨B, by simp⟩, ⟨B, by simp⟩⟩
  · rw [if_neg hn, if_neg hn, primeSumSqrt, primePiSqrt]
    obtain ⟨s, B', e, h1, _⟩ := C72_prime_power_sum_sqrt_int 1 n (by omega) (by omega) hsq B
    obtain ⟨s', B'', e', h1', _⟩ := C72_prime_power_sum_sqrt_int 0 n (by omega) (by omega) hsq B
    have h2 := h1 1 (le_refl _) (by omega)
    have h2' := h1' 1 (le_refl _) (by omega)
    rw [Nat.div_one] at h2 h2'
    rw [e, e']
    simp only [Option.bind_eq_bind, Option.bind_some]
    rw [h2, h2', Option.bind_some, Option.bind_some]
    exact ⟨⟨B', by rw [primePowSum]; simp⟩, ⟨B'', by rw [primePowSum]; simp⟩⟩

example : (primePi Nat.sqrt 100 []).map Prod.fst = some 25 := by decide +kernel
example : (primeSum Nat.sqrt 30 ([] : List Int)).map Prod.fst = some 129 := by decide +kernel
example : ((primePowerSumSqrt Nat.sqrt 4 20 ([] : List Rat)).bind fun r => r.1.el 10) = some (16 + 81 + 625 + 2401) := by decide +kernel

/-- `n = 0` is a division by zero in the constructor of the map. -/
theorem C72_zero : primePowerSumSqrt Nat.sqrt 0 0 ([] : List Int) = none := by decide +kernel

/-! ### primes modulo 4 -/

/-- The number of elements left that are `c` modulo 4. -/
def cnt (c v p : Nat) : Int := ∑ k ∈ left v p, if k % 4 = c then 1 else 0

theorem cnt_small (c : Nat) {v p : Nat} (h : v < p * p) : cnt c v p = cnt c v (p - 1) := by
  rw [cnt, cnt, left_small h]

theorem cnt_one : ∀ v, 1 ≤ v → cnt 1 v 1 = Int.tdiv ((v : Int) - 1) 4 ∧ cnt 3 v 1 = Int.tdiv ((v : Int) + 1) 4 := by
  intro v hv
  rw [cnt, cnt, left_one]
  induction v, hv using Nat.le_induction with
  | base => decide
  | succ v hv ih =>
    rw [Int.tdiv_eq_ediv_of_nonneg (by omega), Int.tdiv_eq_ediv_of_nonneg (by omega)] at ih ⊢
    rw [Finset.sum_Icc_succ_top (by omega), Finset.sum_Icc_succ_top (by omega), ih.1, ih.2]
    push_cast
    constructor <;> split_ifs <;> omega

theorem cnt_test (c : Nat) {p : Nat} (hp : 1 < p) : cnt c p (p - 1) = cnt c (p - 1) (p - 1) + (if p.Prime ∧ p % 4 = c then 1 else 0) := by
  rw [cnt, left_step hp, Finset.sum_union (left_step_disj hp), ← cnt]
  congr 1
  by_cases h : p.Prime
  · rw [if_pos h, Finset.sum_singleton]; simp [h]
  · rw [if_neg h, Finset.sum_empty, if_neg (fun h2 => h h2.1)]

theorem cnt_two (c : Nat) (hc : c % 2 = 1) (v : Nat) : cnt c v 2 = cnt c v 1 := by
  by_cases hv : 2 * 2 ≤ v
  · rw [cnt, left_sum _ Nat.prime_two hv]
    have h : ∀ w p, (∑ m ∈ left w p, if 2 * m % 4 = c then (1 : Int) else 0) = 0 :=
      fun w p => Finset.sum_eq_zero fun m _ => by rw [if_neg (by omega)]
    rw [h, h, sub_zero, sub_zero]
    rfl
  · exact cnt_small c (by omega)

theorem cnt_step1 {v p : Nat} (hp : p.Prime) (hp4 : p % 4 = 1) (hv : p * p ≤ v) (c : Nat) :
    cnt c v p = cnt c v (p - 1) - (cnt c (v / p) (p - 1) - cnt c (p - 1) (p - 1)) := by
  have : ∀ m, (p * m) % 4 = m % 4 := by intro m; rw [Nat.mul_mod, hp4, one_mul, Nat.mod_mod]
  rw [cnt, left_sum _ hp hv]
  simp only [this]
  rfl

theorem cnt_step3 {v p : Nat} (hp : p.Prime) (hp4 : p % 4 = 3) (hv : p * p ≤ v) :
    cnt 1 v p = cnt 1 v (p - 1) - (cnt 3 (v / p) (p - 1) - cnt 3 (p - 1) (p - 1)) ∧
    cnt 3 v p = cnt 3 v (p - 1) - (cnt 1 (v / p) (p - 1) - cnt 1 (p - 1) (p - 1)) := by
  have h1 : ∀ m, (p * m) % 4 = 1 ↔ m % 4 = 3 := by intro m; rw [Nat.mul_mod, hp4]; omega
  have h3 : ∀ m, (p * m) % 4 = 3 ↔ m % 4 = 1 := by intro m; rw [Nat.mul_mod, hp4]; omega
  constructor
  · rw [cnt, left_sum _ hp hv]
    simp only [h1]
    rfl
  · rw [cnt, left_sum _ hp hv]
    simp only [h3]
    rfl

theorem cnt_composite (c : Nat) {v p : Nat} (hp : 1 < p) (h : ¬ p.Prime) : cnt c v p = cnt c v (p - 1) := by
  rw [cnt, cnt, left_composite hp h]

theorem cnt_skip {p : Nat} (hp : 1 < p) (h1 : cnt 1 (p - 1) (p - 1) = cnt 1 p (p - 1)) (h3 : cnt 3 (p - 1) (p - 1) = cnt 3 p (p - 1)) (v : Nat) :
    cnt 1 v p = cnt 1 v (p - 1) ∧ cnt 3 v p = cnt 3 v (p - 1) := by
  rw [cnt_test _ hp] at h1 h3
  by_cases hpr : p.Prime
  · rcases hpr.eq_two_or_odd with rfl | ho
    · exact ⟨cnt_two 1 rfl v, cnt_two 3 rfl v⟩
    · exfalso
      rcases (by omega : p % 4 = 1 ∨ p % 4 = 3) with h | h
      · rw [if_pos ⟨hpr, h⟩] at h1; omega
      · rw [if_pos ⟨hpr, h⟩] at h3; omega
  · exact ⟨cnt_composite _ hp hpr, cnt_composite _ hp hpr⟩

theorem cnt_run {p : Nat} (hp : 1 < p) (h : ¬ (cnt 1 (p - 1) (p - 1) = cnt 1 p (p - 1) ∧ cnt 3 (p - 1) (p - 1) = cnt 3 p (p - 1))) :
    p.Prime ∧ (p % 4 = 1 ∨ p % 4 = 3) := by
  rw [cnt_test _ hp, cnt_test _ hp] at h
  by_contra h2
  apply h
  rw [if_neg (fun h3 => h2 ⟨h3.1, Or.inl h3.2⟩), if_neg (fun h3 => h2 ⟨h3.1, Or.inr h3.2⟩)]
  simp

theorem cnt_final {c v p : Nat} (h : v < (p + 1) * (p + 1)) : cnt c v p = primesMod4 c v := by
  rw [cnt, left_primes h, primesMod4, Finset.sum_ite, Finset.sum_const_zero, add_zero, Finset.sum_const, Finset.filter_filter]
  simp

/-! #### the keys -/

theorem mem_keys {n q x : Nat} : x ∈ keys13 n q ↔ (∃ i, 1 ≤ i ∧ i ≤ q ∧ x = n / i) ∨ (1 ≤ x ∧ x < n / q) := by
  rw [keys13, List.mem_append, List.mem_map, List.mem_map]
  constructor
  · rintro (⟨i, hi, rfl⟩ | ⟨i, hi, rfl⟩)
    · rw [List.mem_range] at hi; exact Or.inl ⟨i + 1, by omega, by omega, rfl⟩
    · rw [List.mem_reverse, List.mem_range] at hi; exact Or.inr ⟨by omega, by omega⟩
  · rintro (⟨i, h1, h2, rfl⟩ | ⟨h1, h2⟩)
    · exact Or.inl ⟨i - 1, by rw [List.mem_range]; omega, by rw [Nat.sub_add_cancel h1]⟩
    · exact Or.inr ⟨x - 1, by rw [List.mem_reverse, List.mem_range]; omega, by omega⟩

theorem keys_quot {n q i : Nat} (hq : 1 ≤ q) (hi : 1 ≤ i) (h : 1 ≤ n / i) : n / i ∈ keys13 n q := by
  rw [mem_keys]
  by_cases h1 : i ≤ q
  · exact Or.inl ⟨i, hi, h1, rfl⟩
  · have : n / i ≤ n / q := Nat.div_le_div_left (by omega) hq
    rcases Nat.lt_or_ge (n / i) (n / q) with h2 | h2
    · exact Or.inr ⟨h, h2⟩
    · exact Or.inl ⟨q, hq, le_refl _, by omega⟩

theorem keys_small {n q x : Nat} (hq : 1 ≤ q) (hx : 1 ≤ x) (h : x ≤ n / q) : x ∈ keys13 n q := by
  rw [mem_keys]
  rcases Nat.lt_or_ge x (n / q) with h2 | h2
  · exact Or.inr ⟨hx, h2⟩
  · exact Or.inl ⟨q, hq, le_refl _, by omega⟩

theorem keys_div {n q x p : Nat} (hq : 1 ≤ q) (hp : 1 ≤ p) (h : x ∈ keys13 n q) (h1 : 1 ≤ x / p) : x / p ∈ keys13 n q := by
  rcases mem_keys.mp h with ⟨i, hi, _, rfl⟩ | ⟨h2, h3⟩
  · rw [Nat.div_div_eq_div_mul] at h1 ⊢
    exact keys_quot hq (Nat.mul_pos hi hp) h1
  · exact keys_small hq h1 (by have := Nat.div_le_self x p; omega)

theorem keys_lo {n L x : Nat} (hL : 1 ≤ L) (hLn : L * L ≤ n) (hx : 1 ≤ x) (h : x ≤ L) : x ∈ keys13 n (L + 1) := by
  have h1 : L - 1 ≤ n / (L + 1) := by
    rw [Nat.le_div_iff_mul_le (by omega)]
    obtain ⟨m, rfl⟩ : ∃ m, L = m + 1 := ⟨L - 1, by omega⟩
    rw [Nat.add_sub_cancel]
    nlinarith
  by_cases h2 : x ≤ n / (L + 1)
  · exact keys_small (by omega) hx h2
  · have h3 : x = L := by omega
    subst h3
    have h4 : n / x = x := by
      apply Nat.div_eq_of_lt_le
      · exact hLn
      · rw [mul_comm, ← Nat.div_lt_iff_lt_mul (by omega)]; omega
    have := keys_quot (n := n) (q := x + 1) (i := x) (by omega) hx (by omega)
    rwa [h4] at this

theorem quot_lt {n L i j : Nat} (hLn : L * L ≤ n) (hi : 1 ≤ i) (hij : i < j) (hj : j ≤ L + 1) : n / j < n / i := by
  have h1 : n / j ≤ n / (i + 1) := Nat.div_le_div_left hij (by omega)
  refine lt_of_le_of_lt h1 ?_
  have h2 : n / (i + 1) * (i + 1) ≤ n := Nat.div_mul_le_self _ _
  generalize n / (i + 1) = y at *
  apply Nat.lt_of_succ_le
  rw [Nat.succ_eq_add_one, Nat.le_div_iff_mul_le (by omega)]
  by_cases hy : i ≤ y
  · nlinarith
  · have h3 : (y + 1) * i ≤ i * i := Nat.mul_le_mul_right _ (by omega)
    have h4 : i * i ≤ L * L := Nat.mul_le_mul (by omega) (by omega)
    omega

theorem keys_sorted {n L : Nat} (hLn : L * L ≤ n) : (keys13 n (L + 1)).Pairwise (· > ·) := by
  rw [keys13, List.pairwise_append]
  refine ⟨?_, ?_, ?_⟩
  · rw [List.pairwise_map, List.pairwise_iff_getElem]
    intro i j hi hj hij
    rw [List.length_range] at hi hj
    rw [List.getElem_range, List.getElem_range]
    exact quot_lt hLn (by omega) (by omega) (by omega)
  · rw [List.pairwise_map, List.pairwise_reverse]
    apply List.Pairwise.imp _ (List.pairwise_lt_range)
    intro a b h; omega
  · intro a ha b hb
    rw [List.mem_map] at ha hb
    obtain ⟨i, hi, rfl⟩ := ha
    obtain ⟨j, hj, rfl⟩ := hb
    rw [List.mem_range] at hi
    rw [List.mem_reverse, List.mem_range] at hj
    have : n / (L + 1) ≤ n / (i + 1) := Nat.div_le_div_left (by omega) (by omega)
    omega

/-! #### the loops -/

theorem inv_set {s : SqrtMap Int} {lo mx : Nat} {m : Nat → Option Int} (hI : Maps.Inv s lo mx m) (hlo : 1 ≤ lo) {k : Nat} (hk : Maps.Key lo mx k) (v : Int) :
    ∃ s', s.set k v = some s' ∧ Maps.Inv s' lo mx (Function.update m k (some v)) := by
  obtain ⟨s', e, h⟩ := hI.step 0 hlo (.set k v) hk
  rw [SqrtMap.step] at e
  cases hs : s.set k v with
  | none => rw [hs] at e; simp at e
  | some t =>
    rw [hs] at e
    simp only [Option.bind_eq_bind, Option.bind_some, Option.some.injEq, Prod.mk.injEq] at e
    obtain ⟨rfl, _⟩ := e
    exact ⟨t, rfl, h⟩

theorem inv_el {s : SqrtMap Int} {lo mx : Nat} {m : Nat → Option Int} (hI : Maps.Inv s lo mx m) (hlo : 1 ≤ lo) {k : Nat} (hk : Maps.Key lo mx k) {v : Int}
    (hv : m k = some v) : s.el k = some v := by
  obtain ⟨s', e, h⟩ := hI.step 0 hlo (.el k) ⟨hk, by rw [hv]; rfl⟩
  rw [SqrtMap.step, Maps.specStep, hv] at e
  cases hs : s.el k with
  | none => rw [hs] at e; simp at e
  | some t =>
    rw [hs] at e
    simp only [Option.bind_eq_bind, Option.bind_some, Option.some.injEq, Prod.mk.injEq, Maps.Out.val.injEq] at e
    rw [e.2]

/-- The map holds `g` on the keys. -/
def Holds (s : SqrtMap Int) (q n : Nat) (g : Nat → Int) : Prop :=
  ∃ m, Maps.Inv s q n m ∧ ∀ x ∈ keys13 n q, m x = some (g x)

theorem keys_key {n q x : Nat} (hq : n / q ≤ q) (h : x ∈ keys13 n q) : Maps.Key q n x := by
  rcases mem_keys.mp h with ⟨i, hi, _, rfl⟩ | ⟨h2, h3⟩
  · exact Or.inr ⟨i, hi, rfl⟩
  · exact Or.inl (by omega)

theorem holds_el {s : SqrtMap Int} {q n : Nat} {g : Nat → Int} (h : Holds s q n g) (hq1 : 1 ≤ q) (hq : n / q ≤ q) {x : Nat} (hx : x ∈ keys13 n q) :
    s.el x = some (g x) := by
  obtain ⟨m, hI, hm⟩ := h
  exact inv_el hI hq1 (keys_key hq hx) (hm x hx)

theorem holds_set {s : SqrtMap Int} {q n : Nat} {g : Nat → Int} (h : Holds s q n g) (hq1 : 1 ≤ q) (hq : n / q ≤ q) {x : Nat} (hx : x ∈ keys13 n q) (v : Int) :
    ∃ s', s.set x v = some s' ∧ Holds s' q n (Function.update g x v) := by
  obtain ⟨m, hI, hm⟩ := h
  obtain ⟨s', e, hI'⟩ := inv_set hI hq1 (keys_key hq hx) v
  refine ⟨s', e, _, hI', fun y hy => ?_⟩
  by_cases hyx : y = x
  · subst hyx; simp
  · rw [Function.update_of_ne hyx, Function.update_of_ne hyx, hm y hy]

theorem init13_spec {q n : Nat} (hq1 : 1 ≤ q) (hq : n / q ≤ q) : ∀ (ks : List Nat) (r0 r1 : SqrtMap Int) (m0 m1 : Nat → Option Int), (∀ k ∈ ks, k ∈ keys13 n q) →
    Maps.Inv r0 q n m0 → Maps.Inv r1 q n m1 → (∀ x ∈ keys13 n q, x ∉ ks → m0 x = some (Int.tdiv ((x : Int) - 1) 4) ∧ m1 x = some (Int.tdiv ((x : Int) + 1) 4)) →
    ∃ r0' r1', init13 ks r0 r1 = some (r0', r1') ∧ Holds r0' q n (fun x => Int.tdiv ((x : Int) - 1) 4) ∧ Holds r1' q n (fun x => Int.tdiv ((x : Int) + 1) 4) := by
  intro ks
  induction ks with
  | nil =>
    intro r0 r1 m0 m1 _ h0 h1 hm
    exact ⟨r0, r1, rfl, ⟨m0, h0, fun x hx => (hm x hx (by simp)).1⟩, ⟨m1, h1, fun x hx => (hm x hx (by simp)).2⟩⟩
  | cons k ks ih =>
    intro r0 r1 m0 m1 hk h0 h1 hm
    rw [init13]
    obtain ⟨r0', e0, h0'⟩ := inv_set h0 hq1 (keys_key hq (hk k List.mem_cons_self)) (Int.tdiv ((k : Int) - 1) 4)
    obtain ⟨r1', e1, h1'⟩ := inv_set h1 hq1 (keys_key hq (hk k List.mem_cons_self)) (Int.tdiv ((k : Int) + 1) 4)
    rw [e0, Option.bind_eq_bind, Option.bind_some, e1, Option.bind_some]
    apply ih r0' r1' _ _ (fun x hx => hk x (List.mem_cons_of_mem _ hx)) h0' h1'
    intro x hx hn
    by_cases hxk : x = k
    · subst hxk; simp
    · rw [Function.update_of_ne hxk, Function.update_of_ne hxk]
      exact hm x hx (fun h => by
        rcases List.mem_cons.mp h with h | h
        · exact hxk h
        · exact hn h)

theorem decAt_spec {s : SqrtMap Int} {q n : Nat} {g : Nat → Int} (h : Holds s q n g) (hq1 : 1 ≤ q) (hq : n / q ≤ q) {x : Nat} (hx : x ∈ keys13 n q) (d : Int) :
    ∃ s', decAt s x d = some s' ∧ Holds s' q n (Function.update g x (g x - d)) := by
  rw [decAt, holds_el h hq1 hq hx]
  simp only [Option.bind_eq_bind, Option.bind_some]
  exact holds_set h hq1 hq hx _

theorem holds_congr {s : SqrtMap Int} {q n : Nat} {g g' : Nat → Int} (h : Holds s q n g) (e : ∀ x ∈ keys13 n q, g x = g' x) : Holds s q n g' := by
  obtain ⟨m, hI, hm⟩ := h
  exact ⟨m, hI, fun x hx => by rw [hm x hx, e x hx]⟩

theorem inner13_spec {q n p : Nat} (hq1 : 1 ≤ q) (hq : n / q ≤ q) (hp : p.Prime) (hp4 : p % 4 = 1 ∨ p % 4 = 3) : ∀ (ks pre : List Nat) (r0 r1 : SqrtMap Int),
    pre ++ ks = keys13 n q → (keys13 n q).Pairwise (· > ·) →
    Holds r0 q n (fun x => if x ∈ ks then cnt 1 x (p - 1) else cnt 1 x p) →
    Holds r1 q n (fun x => if x ∈ ks then cnt 3 x (p - 1) else cnt 3 x p) →
    ∃ r0' r1', inner13 p (cnt 1 (p - 1) (p - 1)) (cnt 3 (p - 1) (p - 1)) ks r0 r1 = some (r0', r1') ∧
      Holds r0' q n (fun x => cnt 1 x p) ∧ Holds r1' q n (fun x => cnt 3 x p) := by
  intro ks
  induction ks with
  | nil =>
    intro pre r0 r1 _ _ h0 h1
    exact ⟨r0, r1, rfl, holds_congr h0 (fun x _ => by simp), holds_congr h1 (fun x _ => by simp)⟩
  | cons k ks ih =>
    intro pre r0 r1 hks hs h0 h1
    have hs' := hs
    rw [← hks, List.pairwise_append, List.pairwise_cons] at hs'
    obtain ⟨_, ⟨hk1, hk2⟩, hk3⟩ := hs'
    rw [inner13]
    by_cases hkp : k < p * p
    · rw [if_pos hkp]
      refine ⟨r0, r1, rfl, holds_congr h0 (fun x _ => ?_), holds_congr h1 (fun x _ => ?_)⟩
      · split_ifs with h
        · have : x ≤ k := by
            rcases List.mem_cons.mp h with rfl | h
            · exact le_refl _
            · exact (hk1 x h).le
          rw [cnt_small (v := x) (p := p) 1 (by omega)]
        · rfl
      · split_ifs with h
        · have : x ≤ k := by
            rcases List.mem_cons.mp h with rfl | h
            · exact le_refl _
            · exact (hk1 x h).le
          rw [cnt_small (v := x) (p := p) 3 (by omega)]
        · rfl
    · rw [if_neg hkp]
      have hp1 := hp.one_lt
      have hkm : k ∈ keys13 n q := by rw [← hks]; simp
      have hk0 : 0 < k := by
        have : 0 < p * p := Nat.mul_pos (by omega) (by omega)
        omega
      have hkd : 1 ≤ k / p := Nat.div_pos (by nlinarith) (by omega)
      have hdm := keys_div hq1 (by omega) hkm hkd
      have hlt : k / p < k := Nat.div_lt_self hk0 hp1
      have hdks : k / p ∈ ks := by
        have := hdm
        rw [← hks, List.mem_append, List.mem_cons] at this
        rcases this with h | h | h
        · have := hk3 _ h k List.mem_cons_self; omega
        · omega
        · exact h
      have hknk : k ∉ ks := fun h => by have := hk1 k h; omega
      have hd0 := holds_el h0 hq1 hq hdm
      simp only [if_pos (List.mem_cons_of_mem k hdks)] at hd0
      rw [hd0]
      simp only [Option.bind_eq_bind, Option.bind_some]
      have fin : ∀ (r0' r1' : SqrtMap Int), Holds r0' q n (Function.update (fun x => if x ∈ k :: ks then cnt 1 x (p - 1) else cnt 1 x p) k (cnt 1 k p)) →
          Holds r1' q n (Function.update (fun x => if x ∈ k :: ks then cnt 3 x (p - 1) else cnt 3 x p) k (cnt 3 k p)) →
          ∃ r0'' r1'', inner13 p (cnt 1 (p - 1) (p - 1)) (cnt 3 (p - 1) (p - 1)) ks r0' r1' = some (r0'', r1'') ∧
            Holds r0'' q n (fun x => cnt 1 x p) ∧ Holds r1'' q n (fun x => cnt 3 x p) := by
        intro r0' r1' g0 g1
        apply ih (pre ++ [k]) r0' r1' (by rw [List.append_assoc]; exact hks) hs
        · apply holds_congr g0
          intro x _
          by_cases hx : x = k
          · subst hx; rw [Function.update_self, if_neg hknk]
          · rw [Function.update_of_ne hx]; simp [hx]
        · apply holds_congr g1
          intro x _
          by_cases hx : x = k
          · subst hx; rw [Function.update_self, if_neg hknk]
          · rw [Function.update_of_ne hx]; simp [hx]
      rcases hp4 with h4 | h4
      · rw [if_neg (show ¬ p % 4 = 3 by omega)]
        simp only [if_pos h4]
        obtain ⟨r0', e0, g0⟩ := decAt_spec h0 hq1 hq hkm (cnt 1 (k / p) (p - 1) - cnt 1 (p - 1) (p - 1))
        rw [e0]
        simp only [Option.bind_some]
        have hd1 := holds_el h1 hq1 hq hdm
        simp only [if_pos (List.mem_cons_of_mem k hdks)] at hd1
        rw [hd1]
        simp only [Option.bind_some]
        obtain ⟨r1', e1, g1⟩ := decAt_spec h1 hq1 hq hkm (cnt 3 (k / p) (p - 1) - cnt 3 (p - 1) (p - 1))
        rw [e1]
        simp only [Option.bind_some]
        simp only [if_pos (List.mem_cons_self (a := k) (l := ks))] at g0 g1
        rw [← cnt_step1 hp h4 (by omega)] at g0 g1
        exact fin r0' r1' g0 g1
      · rw [if_pos h4]
        simp only [if_neg (show ¬ p % 4 = 1 by omega)]
        obtain ⟨r1', e1, g1⟩ := decAt_spec h1 hq1 hq hkm (cnt 1 (k / p) (p - 1) - cnt 1 (p - 1) (p - 1))
        rw [e1]
        simp only [Option.bind_some]
        have hd1 := holds_el g1 hq1 hq hdm
        rw [Function.update_of_ne (by omega)] at hd1
        simp only [if_pos (List.mem_cons_of_mem k hdks)] at hd1
        rw [hd1]
        simp only [Option.bind_some]
        obtain ⟨r0', e0, g0⟩ := decAt_spec h0 hq1 hq hkm (cnt 3 (k / p) (p - 1) - cnt 3 (p - 1) (p - 1))
        rw [e0]
        simp only [Option.bind_some]
        simp only [if_pos (List.mem_cons_self (a := k) (l := ks))] at g0 g1
        rw [← (cnt_step3 hp h4 (by omega)).1] at g0
        rw [← (cnt_step3 hp h4 (by omega)).2] at g1
        exact fin r0' r1' g0 g1

theorem outer13_spec {L n : Nat} (hL : 1 ≤ L) (hLn : L * L ≤ n) (hnL : n < (L + 1) * (L + 1)) : ∀ (c p : Nat) (r0 r1 : SqrtMap Int), 2 ≤ p → p + c = L + 1 →
    Holds r0 (L + 1) n (fun x => cnt 1 x (p - 1)) → Holds r1 (L + 1) n (fun x => cnt 3 x (p - 1)) →
    ∃ r0' r1', outer13 (keys13 n (L + 1)) c p r0 r1 = some (r0', r1') ∧
      Holds r0' (L + 1) n (fun x => cnt 1 x L) ∧ Holds r1' (L + 1) n (fun x => cnt 3 x L) := by
  have hq : n / (L + 1) ≤ L + 1 := by
    have : n / (L + 1) < L + 1 := by rw [Nat.div_lt_iff_lt_mul (by omega)]; exact hnL
    omega
  intro c
  induction c with
  | zero =>
    intro p r0 r1 _ hc h0 h1
    have : p - 1 = L := by omega
    rw [this] at h0 h1
    exact ⟨r0, r1, rfl, h0, h1⟩
  | succ c ih =>
    intro p r0 r1 hp hc h0 h1
    rw [outer13]
    have k1 := keys_lo (n := n) hL hLn (x := p - 1) (by omega) (by omega)
    have k2 := keys_lo (n := n) hL hLn (x := p) (by omega) (by omega)
    rw [holds_el h0 (by omega) hq k1, holds_el h1 (by omega) hq k1, holds_el h0 (by omega) hq k2, holds_el h1 (by omega) hq k2]
    simp only [Option.bind_eq_bind, Option.bind_some]
    by_cases hs : cnt 1 (p - 1) (p - 1) = cnt 1 p (p - 1) ∧ cnt 3 (p - 1) (p - 1) = cnt 3 p (p - 1)
    · rw [if_pos hs]
      apply ih (p + 1) r0 r1 (by omega) (by omega)
      · rw [show p + 1 - 1 = p by omega]
        exact holds_congr h0 (fun x _ => (cnt_skip (by omega) hs.1 hs.2 x).1.symm)
      · rw [show p + 1 - 1 = p by omega]
        exact holds_congr h1 (fun x _ => (cnt_skip (by omega) hs.1 hs.2 x).2.symm)
    · rw [if_neg hs]
      obtain ⟨hpr, hp4⟩ := cnt_run (by omega) hs
      obtain ⟨r0', r1', e, g0, g1⟩ := inner13_spec (by omega) hq hpr hp4 (keys13 n (L + 1)) [] r0 r1 rfl (keys_sorted hLn)
        (holds_congr h0 (fun x hx => by simp only [if_pos hx])) (holds_congr h1 (fun x hx => by simp only [if_pos hx]))
      rw [e]
      simp only [Option.bind_some]
      exact ih (p + 1) r0' r1' (by omega) (by omega) g0 g1

/-- **C72**: for `n ≥ 1`, the two maps of `prime_pi13_sqrt(n)` hold, for every `v = n / k` with `1 ≤ k ≤ n`, the number of
primes up to `v` that are 1 and that are 3 modulo 4. -/
theorem C72_prime_pi13_sqrt {sq : Nat → Nat} (n : Nat) (hn : 1 ≤ n) (hsq : sq n = Nat.sqrt n) :
    ∃ r0 r1, primePi13Sqrt sq n = some (r0, r1) ∧
      ∀ k, 1 ≤ k → k ≤ n → r0.el (n / k) = some (primesMod4 1 (n / k) : Int) ∧ r1.el (n / k) = some (primesMod4 3 (n / k) : Int) := by
  rw [primePi13Sqrt, hsq]
  by_cases h1 : n ≤ 1
  · have : n = 1 := by omega
    subst this
    refine ⟨_, _, rfl, fun k hk1 hk2 => ?_⟩
    have : k = 1 := by omega
    subst this
    decide +kernel
  generalize hLe : Nat.sqrt n = L
  have hL : 1 ≤ L := by rw [← hLe]; exact Nat.sqrt_pos.mpr hn
  have hLn : L * L ≤ n := by rw [← hLe]; exact Nat.sqrt_le n
  have hnL : n < (L + 1) * (L + 1) := by rw [← hLe]; exact Nat.lt_succ_sqrt n
  have hLt : L + 1 ≤ n := by
    rcases Nat.lt_or_ge L 2 with h | h
    · omega
    · nlinarith
  have hq : n / (L + 1) ≤ L + 1 := by
    have : n / (L + 1) < L + 1 := by rw [Nat.div_lt_iff_lt_mul (by omega)]; exact hnL
    omega
  have hpos : ∀ x ∈ keys13 n (L + 1), 1 ≤ x := by
    intro x hx
    rcases mem_keys.mp hx with ⟨i, hi, hi2, rfl⟩ | ⟨h2, _⟩
    · exact Nat.div_pos (by omega) hi
    · exact h2
  simp only []
  obtain ⟨s, e, hI⟩ := Maps.Inv.init (0 : Int) (L + 1) n (by omega)
  rw [e]
  simp only [Option.bind_eq_bind, Option.bind_some]
  rw [if_neg h1]
  obtain ⟨r0, r1, e1, g0, g1⟩ := init13_spec (by omega) hq (keys13 n (L + 1)) s s _ _ (fun k hk => hk) hI hI (fun x hx hn => absurd hx hn)
  rw [e1]
  simp only [Option.bind_some]
  obtain ⟨r0', r1', e2, f0, f1⟩ := outer13_spec hL hLn hnL (L + 1 - 2) 2 r0 r1 (le_refl _) (by omega)
    (holds_congr g0 (fun x hx => ((cnt_one x (hpos x hx)).1).symm)) (holds_congr g1 (fun x hx => ((cnt_one x (hpos x hx)).2).symm))
  refine ⟨r0', r1', e2, fun k hk1 hk2 => ?_⟩
  have hk := keys_quot (n := n) (q := L + 1) (by omega) hk1 (Nat.div_pos hk2 hk1)
  have hv : n / k ≤ n := Nat.div_le_self _ _
  rw [holds_el f0 (by omega) hq hk, holds_el f1 (by omega) hq hk, cnt_final (by omega), cnt_final (by omega)]
  exact ⟨rfl, rfl⟩

/-- **C72**: `prime_pi1(n)` and `prime_pi3(n)` count the primes up to `n` that are 1 and 3 modulo 4, for every `n`. -/
theorem C72_prime_pi13 {sq : Nat → Nat} (n : Nat) (hsq : sq n = Nat.sqrt n) :
    primePi1 sq n = some (primesMod4 1 n : Int) ∧ primePi3 sq n = some (primesMod4 3 n : Int) := by
  rw [primePi1, primePi3]
  by_cases hn : n < 1
  · rw [if_pos hn, if_pos hn]
    have : n = 0 := by omega
    subst this
    decide +kernel
  · rw [if_neg hn, if_neg hn]
    obtain ⟨r0, r1, e, h⟩ := C72_prime_pi13_sqrt n (by omega) hsq
    have := h 1 (le_refl _) (by omega)
    rw [Nat.div_one] at this
    rw [e]
    exact this

example : primePi1 Nat.sqrt 100 = some 11 ∧ primePi3 Nat.sqrt 100 = some 13 := by decide +kernel

/-- The library's own `sqrtT` meets the condition, for numbers of less than `2^63` bits. -/
theorem C72_sqrt_lib (n : Nat) (hl : n.log2 < 2 ^ 63) : (Base.sqrtT (n : Int)).toNat = Nat.sqrt n := by
  have h := Base.C01_sqrtT (n : Int) (by omega) (by simpa using hl)
  obtain ⟨h0, h1, h2⟩ := h
  obtain ⟨r, hr⟩ := Int.eq_ofNat_of_zero_le h0
  rw [hr] at h1 h2 ⊢
  rw [Int.toNat_natCast]
  exact Nat.eq_sqrt.mpr ⟨by exact_mod_cast h1, by exact_mod_cast h2⟩

end Altruct.PrimeCount
