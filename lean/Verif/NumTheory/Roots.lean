/-
C62 (continued): k-th roots modulo `m`.
-/
import Verif.NumTheory.Crt

namespace Altruct.NumTheory

open Altruct.Base (powT gcdEx)

theorem rootsLoop_mem {m : Nat} (w : ZMod m) : ∀ (n : Nat) (r : ZMod m) (sr : Finset Nat) (x : Nat),
    x ∈ rootsLoop w n r sr ↔ x ∈ sr ∨ ∃ i < n, x = (r * w ^ i).val := by
  intro n
  induction n with
  | zero => intro r sr x; simp [rootsLoop]
  | succ n ih =>
    intro r sr x
    rw [rootsLoop, ih, Finset.mem_insert]
    constructor
    · rintro ((h | h) | ⟨i, hi, h⟩)
      · exact Or.inr ⟨0, by omega, by simpa using h⟩
      · exact Or.inl h
      · exact Or.inr ⟨i + 1, by omega, by rw [h, pow_succ']; ring_nf⟩
    · rintro (h | ⟨i, hi, h⟩)
      · exact Or.inl (Or.inr h)
      · cases i with
        | zero => exact Or.inl (Or.inl (by simpa using h))
        | succ i => exact Or.inr ⟨i, by omega, by rw [h, pow_succ']; ring_nf⟩

theorem val_eq_iff {m : Nat} (hm : 0 < m) (x : Nat) (z : ZMod m) : x = z.val ↔ x < m ∧ (x : ZMod m) = z := by
  have : NeZero m := ⟨hm.ne'⟩
  constructor
  · rintro rfl
    exact ⟨ZMod.val_lt z, by rw [ZMod.natCast_val, ZMod.cast_id]⟩
  · rintro ⟨h1, h2⟩
    rw [← h2, ZMod.val_natCast, Nat.mod_eq_of_lt h1]

/-- Exponents of an element of order `o`. -/
theorem pow_eq_pow_iff_dvd {G : Type} [Group G] (u : G) (i j : Nat) : u ^ i = u ^ j ↔ (orderOf u : Int) ∣ (i : Int) - j := by
  rw [pow_eq_pow_iff_modEq, ← Int.natCast_modEq_iff, Int.modEq_iff_dvd, ← dvd_neg, neg_sub]

section roots
variable (m : Nat) (hm : 0 < m) (g : Nat) (hc : Nat.Coprime g m)
include hm

theorem coprime_of_pow (x k b : Nat) (hk : 0 < k) (hb : Nat.Coprime b m) (h : x ^ k ≡ b [MOD m]) : Nat.Coprime x m := by
  have h1 : Nat.Coprime (x ^ k) m := by
    have := h.gcd_eq
    unfold Nat.Coprime at hb ⊢
    omega
  exact Nat.Coprime.coprime_dvd_left (dvd_pow_self x hk.ne') h1

/-- **C62**: `kth_roots(m, k, ord, g, l)`, with `ord` the order of `g`, is the set of those powers of `g` whose `k`-th
power is `g^l`. -/
theorem C62_kth_roots_powers (k l : Nat) (hk : 0 < k) (ho : orderOf (ZMod.unitOfCoprime g hc) = o) (x : Nat) :
    x ∈ kthRoots m k o g l ↔ x < m ∧ x ^ k ≡ g ^ l [MOD m] ∧ ∃ j, x ≡ g ^ j [MOD m] := by
  have : NeZero m := ⟨hm.ne'⟩
  have hopos : 0 < o := by rw [← ho]; exact orderOf_pos _
  have hpw : ∀ i j : Nat, g ^ i ≡ g ^ j [MOD m] ↔ (o : Int) ∣ (i : Int) - j := by
    intro i j
    rw [← ho, ← pow_eq_pow_iff_dvd, ← ZMod.natCast_eq_natCast_iff, ← Units.val_inj, Units.val_pow_eq_pow_val, Units.val_pow_eq_pow_val,
      ZMod.coe_unitOfCoprime]
    push_cast
    rfl
  have hdpos : 0 < Nat.gcd k o := Nat.gcd_pos_of_pos_left _ hk
  obtain ⟨k1, hk1⟩ := Nat.gcd_dvd_left k o
  obtain ⟨o1, ho1⟩ := Nat.gcd_dvd_right k o
  have hco : Nat.Coprime k1 o1 := by
    have := Nat.coprime_div_gcd_div_gcd hdpos
    have e1 : k / Nat.gcd k o = k1 := Nat.div_eq_of_eq_mul_right hdpos hk1
    have e2 : o / Nat.gcd k o = o1 := Nat.div_eq_of_eq_mul_right hdpos ho1
    rwa [e1, e2] at this
  rw [kthRoots, gcd_nat]
  simp only
  generalize Nat.gcd k o = d at *
  have hk1p : 0 < k1 := Nat.pos_of_ne_zero (by rintro rfl; omega)
  have ho1p : 0 < o1 := Nat.pos_of_ne_zero (by rintro rfl; omega)
  have hne : ¬ ((d : Int) = 0) := by omega
  by_cases hl : (l : Int).tmod d ≠ 0
  · rw [if_pos (Or.inr hl)]
    simp only [Finset.notMem_empty, false_iff]
    rintro ⟨_, h2, j, h3⟩
    have h4 := ((h3.pow k).symm.trans h2)
    rw [← pow_mul, hpw] at h4
    apply hl
    have hd1 : (d : Int) ∣ (o : Int) := ⟨o1, by exact_mod_cast ho1⟩
    have hd2 : (d : Int) ∣ ((j * k : Nat) : Int) := ⟨j * k1, by rw [hk1]; push_cast; ring⟩
    have h5 := dvd_sub hd2 (hd1.trans h4)
    exact Int.tmod_eq_zero_of_dvd (by simpa using h5)
  · rw [if_neg (by tauto)]
    push Not at hl
    obtain ⟨l1, hl1⟩ := Int.natCast_dvd_natCast.mp (Int.dvd_of_tmod_eq_zero hl)
    have eo : (o : Int).tdiv d = o1 := by
      rw [ho1]; push_cast; exact Int.mul_tdiv_cancel_left _ hne
    have el : (l : Int).tdiv d = l1 := by
      rw [hl1]; push_cast; exact Int.mul_tdiv_cancel_left _ hne
    have ek : (k : Int).tdiv d = k1 := by
      rw [hk1]; push_cast; exact Int.mul_tdiv_cancel_left _ hne
    rw [eo, el, ek, Int.toNat_natCast]
    have hlm : (l1 : Int).tmod o1 = (l1 : Int) % o1 := Int.tmod_eq_emod_of_nonneg (by omega)
    have hl0 : 0 ≤ (l1 : Int) % o1 := Int.emod_nonneg _ (by omega)
    obtain ⟨h1, h2⟩ := divM_spec ((l1 : Int) % o1) k1 o1 hl0 (by omega) (by omega) (by rw [Int.gcd_natCast_natCast]; exact hco)
    rw [hlm]
    obtain ⟨h, hh⟩ := Int.eq_ofNat_of_zero_le h1
    rw [hh] at h2 ⊢
    rw [powT_nat, powT_nat, rootsLoop_mem]
    have h2' : (o1 : Int) ∣ (k1 : Int) * h - l1 := by
      have e := Int.mul_ediv_add_emod (l1 : Int) o1
      obtain ⟨c, hc⟩ := h2
      exact ⟨c - (l1 : Int) / o1, by linear_combination hc + e⟩
    have hval : ∀ i : Nat, x = ((((g : Int)) : ZMod m) ^ h * ((((g : Int)) : ZMod m) ^ o1) ^ i).val ↔ x < m ∧ x ≡ g ^ (h + o1 * i) [MOD m] := by
      intro i
      rw [val_eq_iff hm, ← ZMod.natCast_eq_natCast_iff]
      push_cast
      rw [pow_add, pow_mul]
    constructor
    · rintro (h | ⟨i, hi, hx⟩)
      · simp at h
      · obtain ⟨hx1, hx2⟩ := (hval i).mp hx
        refine ⟨hx1, (hx2.pow k).trans ?_, ⟨_, hx2⟩⟩
        rw [← pow_mul, hpw]
        obtain ⟨c, hc⟩ := h2'
        refine ⟨c + i * k1, ?_⟩
        rw [hk1, hl1, ho1]
        push_cast
        linear_combination (d : Int) * hc
    · rintro ⟨hx1, hx2, j, hj⟩
      right
      have h4 := ((hj.pow k).symm.trans hx2)
      rw [← pow_mul, hpw] at h4
      -- j ≡ h modulo o1
      have h5 : (o1 : Int) ∣ (j : Int) - h := by
        have h6 : (o1 : Int) ∣ (k1 : Int) * j - l1 := by
          obtain ⟨c, hc⟩ := h4
          rw [hk1, hl1, ho1] at hc
          push_cast at hc
          refine ⟨c, Int.eq_of_mul_eq_mul_left hne ?_⟩
          linear_combination hc
        have h7 : (o1 : Int) ∣ (k1 : Int) * ((j : Int) - h) := by
          have := dvd_sub h6 h2'
          rwa [sub_sub_sub_cancel_right, ← mul_sub] at this
        exact (Int.isCoprime_iff_gcd_eq_one.mpr (by rw [Int.gcd_natCast_natCast]; exact Nat.coprime_comm.mp hco) : IsCoprime (o1 : Int) k1).dvd_of_dvd_mul_left h7
      obtain ⟨c, hc⟩ := h5
      have hc0 : 0 ≤ c % d := Int.emod_nonneg _ hne
      have hc1 : c % d < d := Int.emod_lt_of_pos _ (by omega)
      refine ⟨(c % d).toNat, by omega, (hval _).mpr ⟨hx1, hj.trans ((hpw _ _).mpr ?_)⟩⟩
      refine ⟨c / d, ?_⟩
      have e := Int.mul_ediv_add_emod c d
      push_cast
      rw [Int.toNat_of_nonneg hc0, ho1]
      push_cast
      linear_combination hc - (o1 : Int) * e

/-- **C62**: `kth_roots_of_unity(m, k, ord, g)`, with `ord` the order of `g`, is the set of those powers of `g` whose
`k`-th power is 1. -/
theorem C62_kth_roots_of_unity_powers (k : Nat) (hk : 0 < k) (ho : orderOf (ZMod.unitOfCoprime g hc) = o) :
    ∃ S, kthRootsOfUnity m k o g = some S ∧ ∀ x, x ∈ S ↔ x < m ∧ x ^ k ≡ 1 [MOD m] ∧ ∃ j, x ≡ g ^ j [MOD m] := by
  have : NeZero m := ⟨hm.ne'⟩
  have hopos : 0 < o := by rw [← ho]; exact orderOf_pos _
  have hpw : ∀ i j : Nat, g ^ i ≡ g ^ j [MOD m] ↔ (o : Int) ∣ (i : Int) - j := by
    intro i j
    rw [← ho, ← pow_eq_pow_iff_dvd, ← ZMod.natCast_eq_natCast_iff, ← Units.val_inj, Units.val_pow_eq_pow_val, Units.val_pow_eq_pow_val,
      ZMod.coe_unitOfCoprime]
    push_cast
    rfl
  have hdpos : 0 < Nat.gcd k o := Nat.gcd_pos_of_pos_left _ hk
  obtain ⟨k1, hk1⟩ := Nat.gcd_dvd_left k o
  obtain ⟨o1, ho1⟩ := Nat.gcd_dvd_right k o
  have hco : Nat.Coprime k1 o1 := by
    have := Nat.coprime_div_gcd_div_gcd hdpos
    have e1 : k / Nat.gcd k o = k1 := Nat.div_eq_of_eq_mul_right hdpos hk1
    have e2 : o / Nat.gcd k o = o1 := Nat.div_eq_of_eq_mul_right hdpos ho1
    rwa [e1, e2] at this
  rw [kthRootsOfUnity, gcd_nat]
  simp only
  generalize Nat.gcd k o = d at *
  have ho1p : 0 < o1 := Nat.pos_of_ne_zero (by rintro rfl; omega)
  have hne : ¬ ((d : Int) = 0) := by omega
  have eo : (o : Int).tdiv d = o1 := by
    rw [ho1]; push_cast; exact Int.mul_tdiv_cancel_left _ hne
  rw [if_neg hne, eo, powT_nat, Int.toNat_natCast]
  refine ⟨_, rfl, fun x => ?_⟩
  rw [rootsLoop_mem]
  have hval : ∀ i : Nat, x = ((1 : ZMod m) * ((((g : Int)) : ZMod m) ^ o1) ^ i).val ↔ x < m ∧ x ≡ g ^ (o1 * i) [MOD m] := by
    intro i
    rw [val_eq_iff hm, ← ZMod.natCast_eq_natCast_iff]
    push_cast
    rw [pow_mul, one_mul]
  constructor
  · rintro (h | ⟨i, hi, hx⟩)
    · simp at h
    · obtain ⟨hx1, hx2⟩ := (hval i).mp hx
      refine ⟨hx1, (hx2.pow k).trans ?_, ⟨_, hx2⟩⟩
      rw [← pow_mul, ← pow_zero g, hpw]
      refine ⟨i * k1, ?_⟩
      rw [hk1, ho1]
      push_cast
      ring
  · rintro ⟨hx1, hx2, j, hj⟩
    right
    have h4 := ((hj.pow k).symm.trans hx2)
    rw [← pow_mul, ← pow_zero g, hpw] at h4
    have h5 : (o1 : Int) ∣ (j : Int) := by
      have h7 : (o1 : Int) ∣ (k1 : Int) * (j : Int) := by
        obtain ⟨c, hc⟩ := h4
        rw [hk1, ho1] at hc
        push_cast at hc
        refine ⟨c, Int.eq_of_mul_eq_mul_left hne ?_⟩
        linear_combination hc
      exact (Int.isCoprime_iff_gcd_eq_one.mpr (by rw [Int.gcd_natCast_natCast]; exact Nat.coprime_comm.mp hco) : IsCoprime (o1 : Int) k1).dvd_of_dvd_mul_left h7
    obtain ⟨c, hc⟩ := h5
    have hc0 : 0 ≤ c % d := Int.emod_nonneg _ hne
    have hc1 : c % d < d := Int.emod_lt_of_pos _ (by omega)
    refine ⟨(c % d).toNat, by omega, (hval _).mpr ⟨hx1, hj.trans ((hpw _ _).mpr ?_)⟩⟩
    refine ⟨c / d, ?_⟩
    have e := Int.mul_ediv_add_emod c d
    push_cast
    rw [Int.toNat_of_nonneg hc0, ho1]
    push_cast
    linear_combination hc - (o1 : Int) * e

/-- **C62**: with a primitive root `g` of `m`, `kth_roots` is the set of all the `k`-th roots of `n = g^l` modulo `m`. -/
theorem C62_kth_roots (k l n : Nat) (hk : 0 < k) (hg : IsPrimRoot m g) (hn : g ^ l ≡ n [MOD m]) (x : Nat) :
    x ∈ kthRoots m k (Nat.totient m) g l ↔ x < m ∧ x ^ k ≡ n [MOD m] := by
  obtain ⟨hc, ho⟩ := (isPrimRoot_iff m g hm).mp hg
  rw [C62_kth_roots_powers m hm g hc k l hk ho x]
  constructor
  · rintro ⟨h1, h2, _⟩
    exact ⟨h1, h2.trans hn⟩
  · rintro ⟨h1, h2⟩
    refine ⟨h1, h2.trans hn.symm, ?_⟩
    have hx := coprime_of_pow m hm x k (g ^ l) hk (hg.1.pow_left l) (h2.trans hn.symm)
    obtain ⟨j, _, hj⟩ := hg.2 x hx
    exact ⟨j, hj.symm⟩

/-- **C62**: with a primitive root `g` of `m`, `kth_roots_of_unity` is the set of all the `k`-th roots of 1 modulo `m`. -/
theorem C62_kth_roots_of_unity (k : Nat) (hk : 0 < k) (hg : IsPrimRoot m g) :
    ∃ S, kthRootsOfUnity m k (Nat.totient m) g = some S ∧ ∀ x, x ∈ S ↔ x < m ∧ x ^ k ≡ 1 [MOD m] := by
  obtain ⟨hc, ho⟩ := (isPrimRoot_iff m g hm).mp hg
  obtain ⟨S, e, h⟩ := C62_kth_roots_of_unity_powers m hm g hc k hk ho
  refine ⟨S, e, fun x => ?_⟩
  rw [h]
  constructor
  · rintro ⟨h1, h2, _⟩
    exact ⟨h1, h2⟩
  · rintro ⟨h1, h2⟩
    refine ⟨h1, h2, ?_⟩
    have hx := coprime_of_pow m hm x k 1 hk (Nat.coprime_one_left m) h2
    obtain ⟨j, _, hj⟩ := hg.2 x hx
    exact ⟨j, hj.symm⟩

end roots

example : kthRoots 41 4 40 6 8 = {36, 4, 5, 37} ∧ kthRootsOfUnity 41 4 40 6 = some {1, 9, 32, 40} := by decide +kernel
example : (4 ^ 4 : Nat) ≡ 6 ^ 8 [MOD 41] := by decide
/-- Modulo a number without primitive roots the set is not complete: 7 is a square root of 1 modulo 24. -/
theorem C62_kth_roots_of_unity_not_all : kthRootsOfUnity 24 2 2 5 = some {1, 5} ∧ 7 ^ 2 ≡ 1 [MOD 24] := by decide +kernel

end Altruct.NumTheory
