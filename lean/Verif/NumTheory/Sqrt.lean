/-
C64: modular square roots.
-/
import Verif.NumTheory.DLogPp
import Mathlib.Algebra.CharP.Lemmas
import Mathlib.NumberTheory.LegendreSymbol.Basic

namespace Altruct.NumTheory

open Altruct.Base (powT gcdEx)
open Altruct.Modulo (CrtSpec)
open Altruct.Quadratic (Quad)

/-! ### Cipolla -/

theorem zmod2_sq (z : ZMod 2) : z * z = z := by
  revert z
  decide

section cipolla
variable {p : Nat} [hp : Fact p.Prime]

theorem quad_natCast (d : ZMod p) (n : Nat) : ((n : Quad (ZMod p) d)).a = n ∧ ((n : Quad (ZMod p) d)).b = 0 := by
  induction n with
  | zero => simp
  | succ n ih =>
    rw [Nat.cast_succ]
    exact ⟨by rw [Quadratic.add_a, ih.1]; simp, by rw [Quadratic.add_b, ih.2]; simp⟩

instance (d : ZMod p) : CharP (Quad (ZMod p) d) p where
  cast_eq_zero_iff n := by
    rw [← CharP.cast_eq_zero_iff (ZMod p) p n]
    obtain ⟨h1, h2⟩ := quad_natCast d n
    constructor
    · intro h
      rw [← h1, h]; rfl
    · intro h
      exact Quadratic.Quad.ext (by rw [h1, h]; rfl) h2

theorem exists_stop (hp2 : p ≠ 2) (y : ZMod p) : ∃ k < p, (((k + 1 : Nat) : ZMod p) * ((k + 1 : Nat) : ZMod p) - y) ^ (p / 2) ≠ 1 := by
  by_contra hcon
  push Not at hcon
  have hp' := hp.out
  have hodd := hp'.odd_of_ne_two hp2
  have hp3 : 3 ≤ p := by have := hp'.two_le; omega
  have hall : ∀ a : ZMod p, (a * a - y) ^ (p / 2) = 1 := by
    intro a
    by_cases ha : a.val = 0
    · have := hcon (p - 1) (by omega)
      rw [Nat.sub_add_cancel hp'.pos] at this
      have h0 : a = 0 := (ZMod.val_eq_zero a).mp ha
      rw [h0]
      simpa using this
    · have := hcon (a.val - 1) (by have := ZMod.val_lt a; omega)
      rw [Nat.sub_add_cancel (by omega), ZMod.natCast_val, ZMod.cast_id] at this
      exact this
  have hne : ∀ a : ZMod p, a * a - y ≠ 0 := by
    intro a h
    have := hall a
    rw [h, zero_pow (by omega)] at this
    exact zero_ne_one this
  have hsq : ∀ a : ZMod p, IsSquare (a * a - y) := fun a => (ZMod.euler_criterion p (hne a)).mpr (hall a)
  have hy0 : y ≠ 0 := by
    rintro rfl
    exact hne 0 (by ring)
  have hk : ∀ k : Nat, IsSquare (-((k : ZMod p) * y)) := by
    intro k
    induction k with
    | zero => exact ⟨0, by simp⟩
    | succ k ih =>
      obtain ⟨r, hr⟩ := ih
      have := hsq r
      rw [← hr] at this
      have e : -((k : ZMod p) * y) - y = -(((k + 1 : Nat) : ZMod p) * y) := by push_cast; ring
      rwa [e] at this
  -- y itself is then a square, which stops the search
  have : IsSquare y := by
    have := hk (p - 1)
    rw [Nat.cast_sub hp'.one_lt.le, Nat.cast_one, CharP.cast_eq_zero] at this
    simpa using this
  obtain ⟨r, hr⟩ := this
  exact hne r (by rw [hr]; ring)

theorem cipollaLoop_spec (y : ZMod p) (hp2 : p ≠ 2) : ∀ (fuel k : Nat), (∃ j, k ≤ j ∧ j < k + fuel ∧ (((j + 1 : Nat) : ZMod p) * ((j + 1 : Nat) : ZMod p) - y) ^ (p / 2) ≠ 1) →
    ∃ a d : ZMod p, cipollaLoop y fuel (k : ZMod p) = some (a, d) ∧ d = a * a - y ∧ d ^ (p / 2) ≠ 1 := by
  have hexp : (((p : Int) - 1).tdiv 2) = ((p / 2 : Nat) : Int) := by
    have := (hp.out.odd_of_ne_two hp2)
    have hp1 := hp.out.two_le
    obtain ⟨c, hc⟩ := this
    rw [Int.tdiv_eq_ediv_of_nonneg (by omega)]
    omega
  intro fuel
  induction fuel with
  | zero => rintro k ⟨j, h1, h2, _⟩; omega
  | succ fuel ih =>
    rintro k ⟨j, h1, h2, h3⟩
    rw [cipollaLoop]
    rw [hexp, powT_nat]
    have e : (k : ZMod p) + 1 = ((k + 1 : Nat) : ZMod p) := by push_cast; rfl
    rw [e]
    by_cases h : (((k + 1 : Nat) : ZMod p) * ((k + 1 : Nat) : ZMod p) - y) ^ (p / 2) = 1
    · rw [if_pos h]
      refine ih (k + 1) ⟨j, ?_, by omega, h3⟩
      rcases Nat.lt_or_ge k j with h4 | h4
      · exact h4
      · have : j = k := by omega
        subst this
        exact absurd h h3
    · rw [if_neg h]
      exact ⟨_, _, rfl, rfl, h⟩

theorem quad_pow_zero (a : ZMod p) (n : Nat) : (((⟨a, 1⟩ : Quad (ZMod p) 0)) ^ n).a = a ^ n := by
  induction n with
  | zero => simp
  | succ n ih =>
    rw [pow_succ, Quadratic.mul_a, ih, mul_zero, add_zero, pow_succ]

theorem cipolla_spec (y : ZMod p) : ∃ r, cipolla y = some r ∧ (IsSquare y → r * r = y) := by
  have hp' := hp.out
  rw [cipolla]
  by_cases hp2 : p = 2
  · rw [if_pos hp2]
    refine ⟨y, rfl, fun _ => ?_⟩
    subst hp2
    exact zmod2_sq y
  rw [if_neg hp2]
  obtain ⟨k, hk, hk2⟩ := exists_stop hp2 y
  obtain ⟨a, d, e, hd, hd1⟩ := cipollaLoop_spec y hp2 p 0 ⟨k, by omega, by omega, hk2⟩
  rw [Nat.cast_zero] at e
  rw [e, Option.bind_eq_bind, Option.bind_some]
  obtain ⟨c, hc⟩ := hp'.odd_of_ne_two hp2
  have hexp : (((p : Int) + 1).tdiv 2) = ((p / 2 + 1 : Nat) : Int) := by
    rw [Int.tdiv_eq_ediv_of_nonneg (by omega)]
    omega
  simp only
  rw [hexp, powT_nat]
  refine ⟨_, rfl, fun hy => ?_⟩
  have hp1 : p / 2 + 1 + (p / 2 + 1) = p + 1 := by omega
  by_cases hd0 : d = 0
  · subst hd0
    rw [quad_pow_zero, ← pow_add, hp1, pow_succ, ZMod.pow_card]
    rw [← sub_eq_zero, hd]
  · have hneg : d ^ (p / 2) = -1 := by
      rcases ZMod.pow_div_two_eq_neg_one_or_one p hd0 with h | h
      · exact absurd h hd1
      · exact h
    set t : Quad (ZMod p) d := (⟨a, 1⟩ : Quad (ZMod p) d) ^ (p / 2 + 1) with ht
    have hw : ((⟨0, 1⟩ : Quad (ZMod p) d)) ^ p = ⟨0, -1⟩ := by
      have hw2 : ((⟨0, 1⟩ : Quad (ZMod p) d)) ^ 2 = ⟨d, 0⟩ := by
        rw [pow_two]; ext <;> simp
      have hsc : ∀ n : Nat, ((⟨d, 0⟩ : Quad (ZMod p) d)) ^ n = ⟨d ^ n, 0⟩ := by
        intro n
        induction n with
        | zero => ext <;> simp
        | succ n ih => rw [pow_succ, ih]; ext <;> simp [pow_succ]
      have hpp : 2 * (p / 2) + 1 = p := by omega
      have : (⟨0, 1⟩ : Quad (ZMod p) d) ^ (2 * (p / 2) + 1) = (⟨0, 1⟩ : Quad (ZMod p) d) ^ p := congrArg (fun n => (⟨0, 1⟩ : Quad (ZMod p) d) ^ n) hpp
      rw [← this, pow_succ, pow_mul, hw2, hsc, hneg]
      ext <;> simp
    have hA : ∀ n : Nat, ((⟨a, 0⟩ : Quad (ZMod p) d)) ^ n = ⟨a ^ n, 0⟩ := by
      intro n
      induction n with
      | zero => ext <;> simp
      | succ n ih => rw [pow_succ, ih]; ext <;> simp [pow_succ]
    have hfrob : ((⟨a, 1⟩ : Quad (ZMod p) d)) ^ p = ⟨a, -1⟩ := by
      have e1 : (⟨a, 1⟩ : Quad (ZMod p) d) = ⟨a, 0⟩ + ⟨0, 1⟩ := by ext <;> simp
      rw [e1, add_pow_char, hw, hA, ZMod.pow_card]
      ext <;> simp
    have htt : t * t = ⟨y, 0⟩ := by
      rw [ht, ← pow_add, hp1, pow_succ, hfrob]
      ext
      · simp only [Quadratic.mul_a]; rw [hd]; ring
      · simp only [Quadratic.mul_b]; ring
    have h1 : t.a * t.a + t.b * t.b * d = y := by rw [← Quadratic.mul_a, htt]
    have h2 : t.a * t.b + t.b * t.a = 0 := by rw [← Quadratic.mul_b, htt]
    have h3 : t.a * t.b = 0 := by
      have h4 : (2 : ZMod p) ≠ 0 := by
        have : ((2 : Nat) : ZMod p) ≠ 0 := by
          rw [Ne, ZMod.natCast_eq_zero_iff]
          intro h
          have := Nat.le_of_dvd (by omega) h
          have := hp'.two_le
          omega
        simpa using this
      have h5 : 2 * (t.a * t.b) = 0 := by linear_combination h2
      exact (mul_eq_zero.mp h5).resolve_left h4
    rcases mul_eq_zero.mp h3 with h | h
    · -- then d would be a square
      rw [h] at h1 ⊢
      by_cases hb : t.b = 0
      · rw [hb] at h1; rw [← h1]; ring
      · exfalso
        have : IsSquare d := by
          obtain ⟨s, hs⟩ := hy
          refine ⟨s / t.b, ?_⟩
          field_simp
          rw [hs] at h1
          linear_combination h1
        exact hd1 ((ZMod.euler_criterion p hd0).mp this)
    · rw [h] at h1
      rw [← h1]; ring

end cipolla

/-- **C64**: `sqrt_cipolla` finds a square root of every quadratic residue modulo a prime (0 included). -/
theorem C64_sqrt_cipolla (y : Int) (p : Nat) (hp : p.Prime) (hy : ∃ x : Int, (p : Int) ∣ x * x - y) :
    ∃ r : Nat, sqrtCipolla y p = some (r : Int) ∧ r < p ∧ (p : Int) ∣ (r : Int) * r - y := by
  have : Fact p.Prime := ⟨hp⟩
  obtain ⟨r, e, h⟩ := cipolla_spec (y : ZMod p)
  obtain ⟨x, hx⟩ := hy
  have hsq : IsSquare (y : ZMod p) := by
    refine ⟨(x : ZMod p), ?_⟩
    have := (ZMod.intCast_eq_intCast_iff_dvd_sub y (x * x) p).mpr hx
    push_cast at this
    exact this
  refine ⟨r.val, ?_, ZMod.val_lt r, ?_⟩
  · rw [sqrtCipolla, e, Option.bind_eq_bind, Option.bind_some]
  · rw [← ZMod.intCast_eq_intCast_iff_dvd_sub]
    push_cast
    rw [ZMod.natCast_val, ZMod.cast_id, h hsq]

/-- **C64**: the search of `sqrt_cipolla` ends for every `y`, residue or not. -/
theorem C64_sqrt_cipolla_ends (y : Int) (p : Nat) (hp : p.Prime) : ∃ r, sqrtCipolla y p = some r := by
  have : Fact p.Prime := ⟨hp⟩
  obtain ⟨r, e, _⟩ := cipolla_spec (y : ZMod p)
  exact ⟨_, by rw [sqrtCipolla, e, Option.bind_eq_bind, Option.bind_some]⟩

example : sqrtCipolla 10 13 = some 6 ∧ (13 : Int) ∣ 6 * 6 - 10 := by decide +kernel

/-! ### Hensel lifting modulo an odd prime power -/

theorem henselLoop_ends (y p : Int) (k : Nat) : ∀ (fuel i : Nat) (r M : Int), 1 ≤ i → 1 ≤ fuel → k + 1 ≤ fuel + i →
    ∃ x : Int, henselLoop y p k fuel i r M = some x := by
  intro fuel
  induction fuel with
  | zero => intro i r M _ h; omega
  | succ fuel ih =>
    intro i r M hi _ hf
    rw [henselLoop]
    by_cases h : i < k
    · rw [if_pos h]
      exact ih _ _ _ (by omega) (by omega) (by omega)
    · rw [if_neg h]
      exact ⟨r, rfl⟩

theorem henselLoop_spec (y : Int) (p k : Nat) (hp : p.Prime) (hodd : Odd p) : ∀ (fuel i : Nat) (r : Int), 1 ≤ i → 1 ≤ fuel → k + 1 ≤ fuel + i →
    ¬ (p : Int) ∣ y → (p : Int) ^ (min i k) ∣ r * r - y → 0 ≤ r → r < (p : Int) ^ (min i k) → 1 ≤ k →
    ∃ x : Int, henselLoop y p k fuel i r ((p : Int) ^ (min i k)) = some x ∧ 0 ≤ x ∧ x < (p : Int) ^ k ∧ (p : Int) ^ k ∣ x * x - y := by
  intro fuel
  induction fuel with
  | zero => intro i r _ h; omega
  | succ fuel ih =>
    intro i r hi _ hf hy h0 h1 h2 hk
    rw [henselLoop]
    have hp2 := hp.two_le
    have hp0 : (p : Int) ≠ 0 := by omega
    have hpp := Nat.prime_iff_prime_int.mp hp
    have hr : ¬ (p : Int) ∣ r := by
      intro h
      have h3 : (p : Int) ∣ r * r - y := (dvd_pow_self _ (by omega)).trans h0
      have := dvd_sub (h.mul_left r) h3
      rw [sub_sub_cancel] at this
      exact hy this
    by_cases hik : i < k
    · rw [if_pos hik]
      have hmin : min i k = i := by omega
      rw [hmin] at h0 h2 ⊢
      have hM : ((p : Int) ^ i) = ((p ^ i : Nat) : Int) := by push_cast; rfl
      have htp : 1 ≤ Nat.totient (p ^ i) := Nat.totient_pos.mpr (pow_pos hp.pos i)
      have hphi : ((p : Int) ^ i).tdiv p * ((p : Int) - 1) - 1 = ((Nat.totient (p ^ i) - 1 : Nat) : Int) := by
        rw [Nat.cast_sub htp, Nat.totient_prime_pow hp hi]
        have e1 : (p : Int) ^ i = p * (p : Int) ^ (i - 1) := by rw [← pow_succ']; congr 1; omega
        rw [e1, Int.mul_tdiv_cancel_left _ hp0]
        push_cast [Nat.cast_sub hp.one_lt.le]
        ring
      have hMpos : 0 < p ^ i := pow_pos hp.pos i
      simp only
      rw [hphi]
      obtain ⟨u1, u2, u3⟩ := powM_spec (r * 2) (Nat.totient (p ^ i) - 1) (p ^ i) hMpos
      -- the power is the inverse of 2 r
      have hu : ((p ^ i : Nat) : Int) ∣ r * 2 * powM (r * 2) ((Nat.totient (p ^ i) - 1 : Nat) : Int) ((p ^ i : Nat) : Int) - 1 := by
        rw [← ZMod.intCast_eq_intCast_iff_dvd_sub, Int.cast_mul, u1, ← pow_succ', Nat.sub_add_cancel htp, Int.cast_one]
        have hunit : IsUnit (((r * 2 : Int)) : ZMod (p ^ i)) := by
          rw [ZMod.coe_int_isUnit_iff_isCoprime, Nat.cast_pow]
          apply IsCoprime.pow_left
          rw [Irreducible.coprime_iff_not_dvd hpp.irreducible]
          intro hd
          rcases hpp.dvd_or_dvd hd with h | h
          · exact hr h
          · have h3 : p ∣ 2 := by exact_mod_cast h
            have := Nat.le_of_dvd (by omega) h3
            obtain ⟨c, hc⟩ := hodd
            omega
        obtain ⟨v, hv⟩ := hunit
        rw [← hv, ← Units.val_pow_eq_pow_val, ZMod.pow_totient, Units.val_one]
      rw [hM]
      generalize powM (r * 2) ((Nat.totient (p ^ i) - 1 : Nat) : Int) ((p ^ i : Nat) : Int) = u at *
      have hM' : (if i * 2 < k then ((p ^ i : Nat) : Int) * ((p ^ i : Nat) : Int) else powT (p : Int) (k : Int)) = (p : Int) ^ (min (i * 2) k) := by
        split_ifs with h
        · rw [show min (i * 2) k = i * 2 by omega, pow_mul, pow_two]; push_cast; rfl
        · rw [show min (i * 2) k = k by omega, powT_nat]
      rw [hM']
      have hM'pos : 0 < (p : Int) ^ (min (i * 2) k) := by positivity
      have hMsq : (p : Int) ^ (min (i * 2) k) ∣ ((p ^ i : Nat) : Int) * ((p ^ i : Nat) : Int) := by
        rw [← pow_two]
        push_cast
        rw [← pow_mul]
        exact pow_dvd_pow _ (by omega)
      refine ih (i * 2) _ (by omega) (by omega) (by omega) hy ?_ (Int.emod_nonneg _ (by omega)) (Int.emod_lt_of_pos _ hM'pos) hk
      generalize (p : Int) ^ (min (i * 2) k) = M' at *
      rw [← hM] at hMsq hu
      rw [hM] at h0 hMsq hu
      generalize ((p ^ i : Nat) : Int) = M at *
      have d1 := Int.mul_ediv_add_emod (r * r - y) M'
      generalize (r * r - y) % M' = v at *
      generalize (r * r - y) / M' = q1 at *
      have d2 := Int.mul_ediv_add_emod (r - v * u) M'
      generalize (r - v * u) % M' = z at *
      generalize (r - v * u) / M' = q2 at *
      obtain ⟨e, he⟩ := h0
      obtain ⟨f, hf⟩ := hu
      obtain ⟨g, hg⟩ := hMsq
      -- z = r - v u - M' q2, v = M e - M' q1
      have hz : z = r - v * u - M' * q2 := by linarith
      have hv : v = M * e - M' * q1 := by linarith
      have hyr : y = r * r - M * e := by linarith
      refine ⟨g * (e * e * u * u - e * f) + 2 * (r - M * e * u) * (q1 * u - q2) + M' * (q1 * u - q2) ^ 2, ?_⟩
      rw [hz, hv, hyr]
      linear_combination (-(M * e)) * hf + (e * e * u * u - e * f) * hg
    · rw [if_neg hik]
      have hmin : min i k = k := by omega
      rw [hmin] at h0 h2
      exact ⟨r, rfl, h1, h2, h0⟩

/-- Two square roots of the same unit modulo an odd prime power are equal up to sign. -/
theorem roots_pp (p k : Nat) (hp : p.Prime) (hodd : Odd p) (x z y : Int) (hy : ¬ (p : Int) ∣ y) (hk : 1 ≤ k)
    (hx : (p : Int) ^ k ∣ x * x - y) (hz : (p : Int) ^ k ∣ z * z - y) : (p : Int) ^ k ∣ x - z ∨ (p : Int) ^ k ∣ x + z := by
  have hpp := Nat.prime_iff_prime_int.mp hp
  have hp2 := hp.two_le
  have h : (p : Int) ^ k ∣ (x - z) * (x + z) := by
    have := dvd_sub hx hz
    rw [sub_sub_sub_cancel_right] at this
    have e : (x - z) * (x + z) = x * x - z * z := by ring
    rwa [e]
  have hnot : ¬ ((p : Int) ∣ x - z ∧ (p : Int) ∣ x + z) := by
    rintro ⟨h1, h2⟩
    have h3 : (p : Int) ∣ 2 * x := by
      have := dvd_add h1 h2
      have e : x - z + (x + z) = 2 * x := by ring
      rwa [e] at this
    rcases hpp.dvd_or_dvd h3 with h4 | h4
    · have h5 : p ∣ 2 := by exact_mod_cast h4
      have := Nat.le_of_dvd (by omega) h5
      obtain ⟨c, hc⟩ := hodd
      omega
    · have h5 : (p : Int) ∣ x * x - y := (dvd_pow_self _ (by omega)).trans hx
      have := dvd_sub (h4.mul_left x) h5
      rw [sub_sub_cancel] at this
      exact hy this
  by_cases h1 : (p : Int) ∣ x - z
  · left
    have h2 : ¬ (p : Int) ∣ x + z := fun h2 => hnot ⟨h1, h2⟩
    have hc : IsCoprime ((p : Int) ^ k) (x + z) := IsCoprime.pow_left ((Irreducible.coprime_iff_not_dvd hpp.irreducible).mpr h2)
    exact hc.dvd_of_dvd_mul_right h
  · right
    have hc : IsCoprime ((p : Int) ^ k) (x - z) := IsCoprime.pow_left ((Irreducible.coprime_iff_not_dvd hpp.irreducible).mpr h1)
    exact hc.dvd_of_dvd_mul_left h

/-- **C64**: `sqrt_hensel_lift` finds a square root modulo an odd prime power of every `y` coprime to `p` that has one
modulo `p`, and `{x, -x}` are all of them. -/
theorem C64_sqrt_hensel_lift (y : Int) (p k : Nat) (hp : p.Prime) (hodd : Odd p) (hk : 1 ≤ k) (hy : ¬ (p : Int) ∣ y)
    (hex : ∃ x : Int, (p : Int) ∣ x * x - y) :
    ∃ x : Int, sqrtHensel y p k = some x ∧ 0 ≤ x ∧ x < (p : Int) ^ k ∧
      ∀ z : Int, (p : Int) ^ k ∣ z * z - y ↔ (p : Int) ^ k ∣ z - x ∨ (p : Int) ^ k ∣ z + x := by
  have hf : Fact p.Prime := ⟨hp⟩
  obtain ⟨r, e, h1, h2⟩ := C64_sqrt_cipolla y p hp hex
  obtain ⟨c, ec, _⟩ := cipolla_spec (y : ZMod p)
  rw [sqrtCipolla, ec, Option.bind_eq_bind, Option.bind_some] at e
  have er : (c.val : Int) = r := Option.some.inj e
  have hmin : min 1 k = 1 := by omega
  obtain ⟨x, x1, x2, x3, x4⟩ := henselLoop_spec y p k hp hodd (k + 1) 1 r le_rfl (by omega) (by omega) hy
    (by rw [hmin, pow_one]; exact h2) (by omega) (by rw [hmin, pow_one]; exact_mod_cast h1) hk
  rw [hmin, pow_one] at x1
  refine ⟨x, ?_, x2, x3, fun z => ⟨fun hz => roots_pp p k hp hodd z x y hy hk hz x4, fun hz => ?_⟩⟩
  · rw [sqrtHensel, ec, Option.bind_eq_bind, Option.bind_some, er, x1]
  · have e : z * z - y = (z - x) * (z + x) + (x * x - y) := by ring
    rw [e]
    rcases hz with h | h
    · exact dvd_add (h.mul_right _) x4
    · exact dvd_add (h.mul_left _) x4

/-- For `y` without a square root the lifting still ends. -/
theorem sqrtHensel_ends (y : Int) (p k : Nat) (hp : p.Prime) : ∃ x : Int, sqrtHensel y p k = some x := by
  have hf : Fact p.Prime := ⟨hp⟩
  obtain ⟨c, ec, _⟩ := cipolla_spec (y : ZMod p)
  obtain ⟨x, hx⟩ := henselLoop_ends y p k (k + 1) 1 (c.val : Int) p le_rfl (by omega) (by omega)
  exact ⟨x, by rw [sqrtHensel, ec, Option.bind_eq_bind, Option.bind_some, hx]⟩

example : (sqrtHensel 2 7 3 = some 108 ∨ sqrtHensel 2 7 3 = some 235) ∧ (7 ^ 3 : Int) ∣ 235 * 235 - 2 := by decide +kernel

/-! ### powers of two -/

theorem p2Step_spec (y w2 s : Int) (hw : 4 ∣ w2) (hpos : 0 < w2) (hs0 : 0 < s) (hs1 : s < w2) (hodd : s % 2 = 1) (hdvd : 2 * w2 ∣ s * s - y) :
    0 < p2Step y w2 s ∧ p2Step y w2 s < 2 * w2 ∧ p2Step y w2 s % 2 = 1 ∧ 2 * (2 * w2) ∣ p2Step y w2 s * p2Step y w2 s - y ∧ w2 ∣ p2Step y w2 s - s := by
  obtain ⟨c, rfl⟩ := hw
  rw [p2Step]
  by_cases hv : (s * s - y) % (4 * c * 4) = 0
  · rw [if_neg (not_not.mpr hv), if_neg (by omega)]
    refine ⟨hs0, by omega, hodd, ?_, by rw [sub_self]; exact dvd_zero _⟩
    have := Int.dvd_of_emod_eq_zero hv
    rwa [show 2 * (2 * (4 * c)) = 4 * c * 4 by ring]
  · rw [if_pos hv]
    refine ⟨by omega, by omega, by omega, ?_, ⟨1, by ring⟩⟩
    obtain ⟨e, he⟩ := hdvd
    have heo : e % 2 = 1 := by
      by_contra h
      apply hv
      obtain ⟨f, hf⟩ : ∃ f, e = 2 * f := ⟨e / 2, by omega⟩
      rw [he, hf]
      exact Int.emod_eq_zero_of_dvd ⟨f, by ring⟩
    obtain ⟨f, hf⟩ : ∃ f, e = 2 * f + 1 := ⟨e / 2, by omega⟩
    obtain ⟨g, hg⟩ : ∃ g, s = 2 * g + 1 := ⟨s / 2, by omega⟩
    refine ⟨f + 1 + g + c, ?_⟩
    have e1 : (s + 4 * c) * (s + 4 * c) - y = (s * s - y) + 8 * c * s + 16 * c * c := by ring
    rw [e1, he, hf, hg]
    ring

theorem p2Lift_spec (y : Int) : ∀ (n i : Nat) (s0 s1 : Int), 2 ≤ i → 0 < s0 → s0 < 2 ^ i → s0 % 2 = 1 → (2 : Int) ^ (i + 1) ∣ s0 * s0 - y →
    0 < s1 → s1 < 2 ^ i → s1 % 2 = 1 → (2 : Int) ^ (i + 1) ∣ s1 * s1 - y → s0 ≠ s1 →
    ∃ t0 t1, p2Lift y n (2 ^ i) s0 s1 = (t0, t1) ∧ 0 < t0 ∧ t0 < 2 ^ (i + n) ∧ t0 % 2 = 1 ∧ (2 : Int) ^ (i + n + 1) ∣ t0 * t0 - y ∧
      0 < t1 ∧ t1 < 2 ^ (i + n) ∧ t1 % 2 = 1 ∧ (2 : Int) ^ (i + n + 1) ∣ t1 * t1 - y ∧ t0 ≠ t1 := by
  intro n
  induction n with
  | zero =>
    intro i s0 s1 hi a1 a2 a3 a4 b1 b2 b3 b4 hne
    exact ⟨s0, s1, rfl, a1, a2, a3, a4, b1, b2, b3, b4, hne⟩
  | succ n ih =>
    intro i s0 s1 hi a1 a2 a3 a4 b1 b2 b3 b4 hne
    have h4 : (4 : Int) ∣ 2 ^ i := ⟨2 ^ (i - 2), by rw [show (4 : Int) = 2 ^ 2 by norm_num, ← pow_add]; congr 1; omega⟩
    have hpos : (0 : Int) < 2 ^ i := by positivity
    have e1 : (2 : Int) ^ (i + 1) = 2 * 2 ^ i := by ring
    have e2 : (2 : Int) ^ (i + 1 + 1) = 2 * (2 * 2 ^ i) := by ring
    rw [e1] at a4 b4
    obtain ⟨c1, c2, c3, c4, c5⟩ := p2Step_spec y (2 ^ i) s0 h4 hpos a1 a2 a3 a4
    obtain ⟨d1, d2, d3, d4, d5⟩ := p2Step_spec y (2 ^ i) s1 h4 hpos b1 b2 b3 b4
    have hne' : p2Step y (2 ^ i) s0 ≠ p2Step y (2 ^ i) s1 := by
      intro h
      rw [h] at c5
      have := dvd_sub c5 d5
      rw [sub_sub_sub_cancel_left] at this
      obtain ⟨q, hq⟩ := this
      have hq0 : q = 0 := by
        by_contra hq0
        rcases Int.lt_or_gt_of_ne hq0 with h | h
        · have : (2 : Int) ^ i * q ≤ 2 ^ i * (-1) := Int.mul_le_mul_of_nonneg_left (by omega) hpos.le
          omega
        · have : (2 : Int) ^ i * 1 ≤ 2 ^ i * q := Int.mul_le_mul_of_nonneg_left (by omega) hpos.le
          omega
      rw [hq0, mul_zero] at hq
      exact hne (by omega)
    rw [p2Lift, show (2 : Int) ^ i * 2 = 2 ^ (i + 1) by ring]
    have := ih (i + 1) _ _ (by omega) c1 (by rw [e1]; exact c2) c3 (by rw [e2]; exact c4) d1 (by rw [e1]; exact d2) d3 (by rw [e2]; exact d4) hne'
    rw [show i + (n + 1) = i + 1 + n by omega]
    exact this

/-- The square roots of an odd number modulo `2^k` (`k >= 3`) are determined up to sign modulo `2^(k-1)`. -/
theorem roots_2k (k : Nat) (hk : 2 ≤ k) (x z y : Int) (hx2 : x % 2 = 1) (hz2 : z % 2 = 1)
    (hx : (2 : Int) ^ k ∣ x * x - y) (hz : (2 : Int) ^ k ∣ z * z - y) : (2 : Int) ^ (k - 1) ∣ x - z ∨ (2 : Int) ^ (k - 1) ∣ x + z := by
  obtain ⟨c, hc⟩ := dvd_sub hx hz
  rw [sub_sub_sub_cancel_right] at hc
  have e : (2 : Int) ^ k = 2 ^ (k - 2) * 4 := by rw [show (4 : Int) = 2 ^ 2 by norm_num, ← pow_add]; congr 1; omega
  have e' : (2 : Int) ^ (k - 1) = 2 ^ (k - 2) * 2 := by rw [← pow_succ]; congr 1; omega
  obtain ⟨a, ha⟩ : ∃ a, x - z = 2 * a := ⟨(x - z) / 2, by omega⟩
  obtain ⟨b, hb⟩ : ∃ b, x + z = 2 * b := ⟨(x + z) / 2, by omega⟩
  have hab : a * b = 2 ^ (k - 2) * c := by
    have : (x - z) * (x + z) = x * x - z * z := by ring
    rw [ha, hb, hc, e] at this
    have h4 : 4 * (a * b) = 4 * (2 ^ (k - 2) * c) := by linear_combination this
    exact Int.eq_of_mul_eq_mul_left (by omega) h4
  have hpar : (a + b) % 2 = 1 := by
    have : a + b = x := by omega
    omega
  have h2p : Prime (2 : Int) := Int.prime_two
  rcases Int.emod_two_eq_zero_or_one a with h | h
  · left
    have hb1 : ¬ (2 : Int) ∣ b := by omega
    have hc' : IsCoprime ((2 : Int) ^ (k - 2)) b := IsCoprime.pow_left ((Irreducible.coprime_iff_not_dvd h2p.irreducible).mpr hb1)
    obtain ⟨q, hq⟩ := hc'.dvd_of_dvd_mul_right ⟨c, hab⟩
    exact ⟨q, by rw [ha, hq, e']; ring⟩
  · right
    have ha1 : ¬ (2 : Int) ∣ a := by omega
    have hc' : IsCoprime ((2 : Int) ^ (k - 2)) a := IsCoprime.pow_left ((Irreducible.coprime_iff_not_dvd h2p.irreducible).mpr ha1)
    obtain ⟨q, hq⟩ := hc'.dvd_of_dvd_mul_left ⟨c, hab⟩
    exact ⟨q, by rw [hb, hq, e']; ring⟩

theorem odd_sq_mod8 (z : Int) (hz : z % 2 = 1) : (z * z) % 8 = 1 := by
  obtain ⟨c, rfl⟩ : ∃ c, z = 2 * c + 1 := ⟨z / 2, by omega⟩
  have e : (2 * c + 1) * (2 * c + 1) = 4 * (c * (c + 1)) + 1 := by ring
  have h2 : (c * (c + 1)) % 2 = 0 := by
    rcases Int.emod_two_eq_zero_or_one c with h | h
    · rw [Int.mul_emod, h, zero_mul]; rfl
    · rw [Int.mul_emod, Int.add_emod, h]; rfl
  rw [e]
  omega

/-- **C64**: `sqrt_hensel_lift_p2`: for odd `y >= 0` and `k >= 1` the result `{x1, x2}` describes all the square roots
modulo `2^k` as `{x1, x2, -x2, -x1}`; if there is none, the result is `{0, 0}`, and 0 is not a root. -/
theorem C64_sqrt_hensel_lift_p2 (y : Int) (hy0 : 0 ≤ y) (hy : y % 2 = 1) (k : Nat) (hk : 1 ≤ k) :
    ∃ x1 x2, sqrtP2 y k = (x1, x2) ∧ 0 ≤ x1 ∧ x1 < 2 ^ k ∧ 0 ≤ x2 ∧ x2 < 2 ^ k ∧
      ((x1 = 0 ∧ x2 = 0 ∧ ∀ z : Int, ¬ (2 : Int) ^ k ∣ z * z - y) ∨
       (∀ z : Int, (2 : Int) ^ k ∣ z * z - y ↔ (2 : Int) ^ k ∣ z - x1 ∨ (2 : Int) ^ k ∣ z + x1 ∨ (2 : Int) ^ k ∣ z - x2 ∨ (2 : Int) ^ k ∣ z + x2)) := by
  have hodd : ∀ z : Int, (2 : Int) ^ k ∣ z * z - y → z % 2 = 1 := by
    intro z hz
    have h2 : (2 : Int) ∣ z * z - y := (dvd_pow_self _ (by omega)).trans hz
    rcases Int.emod_two_eq_zero_or_one z with h | h
    · have : (z * z) % 2 = 0 := by rw [Int.mul_emod, h, zero_mul]; rfl
      omega
    · exact h
  have ht : ∀ n : Int, 0 < n → y.tmod n = y % n := fun n _ => Int.tmod_eq_emod_of_nonneg hy0
  have hpk : (0 : Int) < 2 ^ k := by positivity
  rw [sqrtP2, ht 2 (by omega), ht 4 (by omega), ht 8 (by omega), if_neg (by omega)]
  by_cases hk1 : k = 1
  · rw [if_pos hk1]
    subst hk1
    refine ⟨1, 1, rfl, by omega, by norm_num, by omega, by norm_num, Or.inr fun z => ?_⟩
    rw [pow_one]
    constructor
    · intro h
      have := hodd z (by rwa [pow_one])
      exact Or.inl (by omega)
    · intro h
      have : z % 2 = 1 := by omega
      have := odd_sq_mod8 z this
      omega
  rw [if_neg hk1]
  by_cases hy4 : y % 4 ≠ 1
  · rw [if_pos hy4]
    refine ⟨0, 0, rfl, le_rfl, hpk, le_rfl, hpk, Or.inl ⟨rfl, rfl, fun z hz => ?_⟩⟩
    have h1 := odd_sq_mod8 z (hodd z hz)
    have h2 : (4 : Int) ∣ z * z - y := by
      refine dvd_trans ?_ hz
      rw [show (4 : Int) = 2 ^ 2 by norm_num]
      exact pow_dvd_pow 2 (by omega)
    omega
  rw [if_neg hy4]
  push Not at hy4
  by_cases hk2 : k = 2
  · rw [if_pos hk2]
    subst hk2
    refine ⟨1, 1, rfl, by omega, by norm_num, by omega, by norm_num, Or.inr fun z => ?_⟩
    rw [show (2 : Int) ^ 2 = 4 by norm_num] at *
    constructor
    · intro h
      have := hodd z h
      omega
    · intro h
      have : z % 2 = 1 := by omega
      have := odd_sq_mod8 z this
      omega
  rw [if_neg hk2]
  by_cases hy8 : y % 8 ≠ 1
  · rw [if_pos hy8]
    refine ⟨0, 0, rfl, le_rfl, hpk, le_rfl, hpk, Or.inl ⟨rfl, rfl, fun z hz => ?_⟩⟩
    have h1 := odd_sq_mod8 z (hodd z hz)
    have h2 : (8 : Int) ∣ z * z - y := by
      refine dvd_trans ?_ hz
      rw [show (8 : Int) = 2 ^ 3 by norm_num]
      exact pow_dvd_pow 2 (by omega)
    omega
  rw [if_neg hy8]
  push Not at hy8
  obtain ⟨x1, x2, e, a1, a2, a3, a4, b1, b2, b3, b4, hne⟩ := p2Lift_spec y (k - 3) 2 1 3 (by omega) (by omega) (by norm_num) (by omega)
    (by norm_num; omega) (by omega) (by norm_num) (by omega) (by norm_num; omega) (by omega)
  rw [show 2 + (k - 3) = k - 1 by omega] at a2 b2
  rw [show 2 + (k - 3) + 1 = k by omega] at a4 b4
  have hkk : (2 : Int) ^ k = 2 * 2 ^ (k - 1) := by rw [← pow_succ']; congr 1; omega
  have hpk1 : (0 : Int) < 2 ^ (k - 1) := by positivity
  rw [show (2 : Int) ^ 2 = 4 by norm_num] at e
  refine ⟨x1, x2, e, by omega, by omega, by omega, by omega, Or.inr fun z => ?_⟩
  -- x2 = 2^(k-1) - x1
  have hx12 : x2 = 2 ^ (k - 1) - x1 := by
    rcases roots_2k k (by omega) x2 x1 y b3 a3 b4 a4 with ⟨q, hq⟩ | ⟨q, hq⟩
    · exfalso
      have hq0 : q ≠ 0 := by rintro rfl; rw [mul_zero] at hq; omega
      rcases Int.lt_or_gt_of_ne hq0 with h | h
      · have : (2 : Int) ^ (k - 1) * q ≤ 2 ^ (k - 1) * (-1) := Int.mul_le_mul_of_nonneg_left (by omega) hpk1.le
        omega
      · have : (2 : Int) ^ (k - 1) * 1 ≤ 2 ^ (k - 1) * q := Int.mul_le_mul_of_nonneg_left (by omega) hpk1.le
        omega
    · have hq1 : q = 1 := by
        by_contra hq1
        rcases Int.lt_or_gt_of_ne hq1 with h | h
        · have : (2 : Int) ^ (k - 1) * q ≤ 2 ^ (k - 1) * 0 := Int.mul_le_mul_of_nonneg_left (by omega) hpk1.le
          omega
        · have : (2 : Int) ^ (k - 1) * 2 ≤ 2 ^ (k - 1) * q := Int.mul_le_mul_of_nonneg_left (by omega) hpk1.le
          omega
      rw [hq1] at hq
      omega
  constructor
  · intro hz
    have hzo := hodd z hz
    rcases roots_2k k (by omega) z x1 y hzo a3 hz a4 with ⟨q, hq⟩ | ⟨q, hq⟩
    · rcases Int.emod_two_eq_zero_or_one q with h | h
      · exact Or.inl ⟨q / 2, by rw [hq, hkk, mul_assoc, mul_comm (2 : Int), mul_assoc]; congr 1; omega⟩
      · refine Or.inr (Or.inr (Or.inr ⟨(q + 1) / 2, ?_⟩))
        have : q + 1 = 2 * ((q + 1) / 2) := by omega
        rw [hx12, hkk]
        linear_combination hq + (2 : Int) ^ (k - 1) * this
    · rcases Int.emod_two_eq_zero_or_one q with h | h
      · exact Or.inr (Or.inl ⟨q / 2, by rw [hq, hkk, mul_assoc, mul_comm (2 : Int), mul_assoc]; congr 1; omega⟩)
      · refine Or.inr (Or.inr (Or.inl ⟨(q - 1) / 2, ?_⟩))
        have : q - 1 = 2 * ((q - 1) / 2) := by omega
        rw [hx12, hkk]
        linear_combination hq + (2 : Int) ^ (k - 1) * this
  · have e1 : z * z - y = (z - x1) * (z + x1) + (x1 * x1 - y) := by ring
    have e2 : z * z - y = (z - x2) * (z + x2) + (x2 * x2 - y) := by ring
    rintro (h | h | h | h)
    · rw [e1]; exact dvd_add (h.mul_right _) a4
    · rw [e1]; exact dvd_add (h.mul_left _) a4
    · rw [e2]; exact dvd_add (h.mul_right _) b4
    · rw [e2]; exact dvd_add (h.mul_left _) b4

example : sqrtP2 17 6 = (9, 23) ∧ sqrtP2 5 6 = (0, 0) := by decide +kernel
/-- A negative `y` is reported to have no root even if it has one: `1 * 1 = -7 (mod 8)`. -/
theorem C64_sqrt_p2_negative : sqrtP2 (-7) 3 = (0, 0) ∧ (2 : Int) ^ 3 ∣ 1 * 1 - (-7) := by decide +kernel

/-! ### composite moduli -/

/-- The square roots of `y` modulo `m`. -/
def RootSet (y m : Int) (S : Finset Int) : Prop := ∀ x, x ∈ S ↔ 0 ≤ x ∧ x < m ∧ m ∣ x * x - y

theorem dvd_sq_of (n x z y : Int) (h : n ∣ x - z) : n ∣ x * x - y ↔ n ∣ z * z - y := by
  have e : x * x - y = (x - z) * (x + z) + (z * z - y) := by ring
  rw [e]
  exact dvd_add_right (h.mul_right _)

theorem eq_of_dvd_range (n x z : Int) (hx0 : 0 ≤ x) (hx : x < n) (hz0 : 0 ≤ z) (hz : z < n) (h : n ∣ x - z) : x = z := by
  obtain ⟨q, hq⟩ := h
  have : q = 0 := by
    by_contra hq0
    rcases Int.lt_or_gt_of_ne hq0 with h | h
    · have : n * q ≤ n * (-1) := Int.mul_le_mul_of_nonneg_left (by omega) (by omega)
      omega
    · have : n * 1 ≤ n * q := Int.mul_le_mul_of_nonneg_left (by omega) (by omega)
      omega
  rw [this, mul_zero] at hq
  omega

/-- The Chinese remainder of coprime moduli. -/
theorem crt_coprime (m q : Int) (hm : 0 < m) (hq : 0 < q) (hc : Int.gcd m q = 1) (r x : Int) (hr : 0 ≤ r) (hx : 0 ≤ x) :
    0 ≤ (crt r m x q).1 ∧ (crt r m x q).1 < m * q ∧ m ∣ (crt r m x q).1 - r ∧ q ∣ (crt r m x q).1 - x := by
  have hsp := crt_spec r m x q hm hq hr hx
  have hl : ((Int.lcm m q : Nat) : Int) = m * q := by
    have := Int.gcd_mul_lcm m q
    rw [hc, one_mul] at this
    rw [this, Nat.cast_mul, Int.natAbs_of_nonneg hm.le, Int.natAbs_of_nonneg hq.le]
  generalize crt r m x q = R at *
  obtain ⟨A, N⟩ := R
  rcases hsp with ⟨_, _, h⟩ | ⟨h1, h2, h3, h4⟩
  · exfalso
    apply h
    have hco : IsCoprime m q := Int.isCoprime_iff_gcd_eq_one.mpr hc
    obtain ⟨u, v, huv⟩ := hco
    refine ⟨x * (u * m) + r * (v * q), ⟨(x - r) * u, ?_⟩, ⟨(r - x) * v, ?_⟩⟩
    · linear_combination r * huv
    · linear_combination x * huv
  · simp only at *
    obtain ⟨g1, g2⟩ := (h4 A).mpr (by rw [sub_self]; exact dvd_zero _)
    rw [h1, hl] at h3
    exact ⟨h2, h3, g1, g2⟩

/-- What one call of the lambda `add` inserts. -/
theorem addRoots_spec (y m q : Int) (hm : 0 < m) (hq : 0 < q) (hc : Int.gcd m q = 1) (sr0 sr : Finset Int) (h0 : RootSet y m sr0) (x : Int) (hx0 : 0 ≤ x) (hxq : x < q)
    (z : Int) : z ∈ addRoots y m sr0 x q sr ↔ z ∈ sr ∨ (0 ≤ z ∧ z < m * q ∧ m ∣ z * z - y ∧ q ∣ x * x - y ∧ (q ∣ z - x ∨ q ∣ z + x)) := by
  rw [addRoots]
  by_cases hx : q ∣ x * x - y
  · rw [if_neg (not_not.mpr (Int.tmod_eq_zero_of_dvd hx)), Finset.mem_union, Finset.mem_union, Finset.mem_image, Finset.mem_image]
    have hneg0 : 0 ≤ negM x q := by rw [negM]; split_ifs <;> omega
    have hneg : q ∣ negM x q + x := by
      rw [negM]
      split_ifs with h
      · rw [h, add_zero]; exact dvd_zero _
      · exact ⟨1, by ring⟩
    have key : ∀ w : Int, 0 ≤ w → ((∃ a ∈ sr0, (crt a m w q).1 = z) ↔ (0 ≤ z ∧ z < m * q ∧ m ∣ z * z - y ∧ q ∣ z - w)) := by
      intro w hw
      constructor
      · rintro ⟨a, ha, rfl⟩
        obtain ⟨a1, a2, a3⟩ := (h0 a).mp ha
        obtain ⟨c1, c2, c3, c4⟩ := crt_coprime m q hm hq hc a w a1 hw
        exact ⟨c1, c2, (dvd_sq_of m _ a y c3).mpr a3, c4⟩
      · rintro ⟨z1, z2, z3, z4⟩
        have d := Int.mul_ediv_add_emod z m
        have hd : m ∣ z - z % m := ⟨z / m, by linarith⟩
        refine ⟨z % m, (h0 _).mpr ⟨Int.emod_nonneg _ (by omega), Int.emod_lt_of_pos _ hm, (dvd_sq_of m z _ y hd).mp z3⟩, ?_⟩
        obtain ⟨c1, c2, c3, c4⟩ := crt_coprime m q hm hq hc (z % m) w (Int.emod_nonneg _ (by omega)) hw
        refine eq_of_dvd_range (m * q) _ _ c1 c2 z1 z2 ?_
        have e1 : m ∣ (crt (z % m) m w q).1 - z := by
          have := dvd_sub c3 hd
          rwa [sub_sub_sub_cancel_right] at this
        have e2 : q ∣ (crt (z % m) m w q).1 - z := by
          have := dvd_sub c4 z4
          rwa [sub_sub_sub_cancel_right] at this
        exact (Int.isCoprime_iff_gcd_eq_one.mpr hc).mul_dvd e1 e2
    rw [key x hx0, key _ hneg0]
    have hcong : q ∣ z - negM x q ↔ q ∣ z + x := by
      constructor
      · intro h
        have := dvd_add h hneg
        have e : z - negM x q + (negM x q + x) = z + x := by ring
        rwa [e] at this
      · intro h
        have := dvd_sub h hneg
        have e : z + x - (negM x q + x) = z - negM x q := by ring
        rwa [e] at this
    rw [hcong]
    tauto
  · rw [if_pos (fun h => hx (Int.dvd_of_tmod_eq_zero h))]
    tauto

/-- One prime power: all the square roots modulo `m q`. -/
theorem sqrtModLoop_spec (y : Int) (hy0 : 0 ≤ y) : ∀ (vf : List (Nat × Nat)) (m : Nat) (sr0 : Finset Int), IsFact vf → 0 < m →
    Nat.Coprime m (value vf) → Int.gcd y (value vf) = 1 → RootSet y m sr0 →
    ∃ S, sqrtModLoop y vf m sr0 = some S ∧ RootSet y ((m * value vf : Nat) : Int) S := by
  intro vf
  induction vf with
  | nil =>
    intro m sr0 _ _ _ _ h0
    exact ⟨sr0, rfl, by simpa [value] using h0⟩
  | cons f vf ih =>
    intro m sr0 hf hm hcop hy h0
    have hp := hf.prime f List.mem_cons_self
    have he := hf.pos f List.mem_cons_self
    rw [value_cons] at hcop hy ⊢
    have hqpos : 0 < f.1 ^ f.2 := pow_pos hp.pos _
    have hcq : Nat.Coprime m (f.1 ^ f.2) := hcop.coprime_dvd_right (Dvd.intro _ rfl)
    have hgcd : Int.gcd (m : Int) ((f.1 ^ f.2 : Nat) : Int) = 1 := by rw [Int.gcd_natCast_natCast]; exact hcq
    have hyp : ¬ (f.1 : Int) ∣ y := by
      intro h
      have h2 : (f.1 : Int) ∣ ((f.1 ^ f.2 * value vf : Nat) : Int) := Int.natCast_dvd_natCast.mpr ((dvd_pow_self _ (by omega)).trans (Dvd.intro _ rfl))
      have h3 := Int.dvd_coe_gcd h h2
      rw [hy] at h3
      have h4 : f.1 ∣ 1 := by exact_mod_cast h3
      exact hp.one_lt.ne' (Nat.dvd_one.mp h4)
    have hq : powT (f.1 : Int) (f.2 : Int) = ((f.1 ^ f.2 : Nat) : Int) := by rw [powT_nat]; push_cast; rfl
    have hdvdmul : ∀ z : Int, ((m * f.1 ^ f.2 : Nat) : Int) ∣ z * z - y ↔ (m : Int) ∣ z * z - y ∧ ((f.1 ^ f.2 : Nat) : Int) ∣ z * z - y := by
      intro z
      rw [Nat.cast_mul]
      constructor
      · intro h
        exact ⟨(Dvd.intro _ rfl).trans h, (Dvd.intro_left _ rfl).trans h⟩
      · rintro ⟨h1, h2⟩
        exact (Int.isCoprime_iff_gcd_eq_one.mpr hgcd).mul_dvd h1 h2
    have hstep : ∃ sr, (if f.1 = 2 then
        some (addRoots y m sr0 (sqrtP2 y f.2).2 ((f.1 ^ f.2 : Nat) : Int) (addRoots y m sr0 (sqrtP2 y f.2).1 ((f.1 ^ f.2 : Nat) : Int) ∅))
      else (sqrtHensel y f.1 f.2).bind (fun x => some (addRoots y m sr0 x ((f.1 ^ f.2 : Nat) : Int) ∅))) = some sr ∧ RootSet y ((m * f.1 ^ f.2 : Nat) : Int) sr := by
      have hM : (0 : Int) < m := by omega
      have hQ : (0 : Int) < ((f.1 ^ f.2 : Nat) : Int) := by omega
      by_cases h2 : f.1 = 2
      · rw [if_pos h2]
        refine ⟨_, rfl, fun z => ?_⟩
        have hyo : y % 2 = 1 := by rw [h2] at hyp; omega
        obtain ⟨x1, x2, e, a1, a2, b1, b2, hcase⟩ := C64_sqrt_hensel_lift_p2 y hy0 hyo f.2 he
        have hpow : ((f.1 ^ f.2 : Nat) : Int) = 2 ^ f.2 := by rw [h2]; push_cast; rfl
        rw [e]
        simp only
        rw [addRoots_spec y m _ hM hQ hgcd sr0 _ h0 x2 b1 (by rw [hpow]; exact b2), addRoots_spec y m _ hM hQ hgcd sr0 _ h0 x1 a1 (by rw [hpow]; exact a2), hdvdmul z]
        simp only [Finset.notMem_empty, false_or]
        rw [hpow, Nat.cast_mul, hpow]
        rcases hcase with ⟨rfl, rfl, hno⟩ | hall
        · have := hno 0
          have h3 := hno z
          tauto
        · have hx1 := (hall x1).mpr (Or.inl (by rw [sub_self]; exact dvd_zero _))
          have hx2 := (hall x2).mpr (Or.inr (Or.inr (Or.inl (by rw [sub_self]; exact dvd_zero _))))
          rw [hall z]
          tauto
      · rw [if_neg h2]
        have hodd := hp.odd_of_ne_two h2
        have hpow : ((f.1 ^ f.2 : Nat) : Int) = (f.1 : Int) ^ f.2 := by push_cast; rfl
        by_cases hex : ∃ x : Int, (f.1 : Int) ∣ x * x - y
        · obtain ⟨x, e, x1, x2, hall⟩ := C64_sqrt_hensel_lift y f.1 f.2 hp hodd he hyp hex
          rw [e, Option.bind_some]
          refine ⟨_, rfl, fun z => ?_⟩
          rw [addRoots_spec y m _ hM hQ hgcd sr0 _ h0 x x1 (by rw [hpow]; exact x2), hdvdmul z]
          simp only [Finset.notMem_empty, false_or]
          rw [hpow, Nat.cast_mul, hpow, hall z]
          have := (hall x).mpr (Or.inl (by rw [sub_self]; exact dvd_zero _))
          tauto
        · obtain ⟨x, e⟩ := sqrtHensel_ends y f.1 f.2 hp
          rw [e, Option.bind_some]
          refine ⟨_, rfl, fun z => ?_⟩
          have hno : ∀ z : Int, ¬ ((f.1 ^ f.2 : Nat) : Int) ∣ z * z - y := by
            intro z h
            apply hex
            exact ⟨z, (Int.natCast_dvd_natCast.mpr (dvd_pow_self _ (by omega))).trans h⟩
          rw [addRoots, if_pos (fun h => hno x (Int.dvd_of_tmod_eq_zero h)), hdvdmul z]
          have := hno z
          simp only [Finset.notMem_empty, false_iff]
          tauto
    obtain ⟨sr, e, hsr⟩ := hstep
    have hcop' : Nat.Coprime (m * f.1 ^ f.2) (value vf) :=
      Nat.Coprime.mul_left (hcop.coprime_dvd_right (Dvd.intro_left _ rfl)) hf.coprime
    have hy' : Int.gcd y (value vf) = 1 := by
      have h : Int.gcd y (value vf) ∣ Int.gcd y ((f.1 ^ f.2 * value vf : Nat) : Int) :=
        Int.gcd_dvd_gcd_of_dvd_right _ (Int.natCast_dvd_natCast.mpr (Dvd.intro_left _ rfl))
      rw [hy] at h
      exact Nat.dvd_one.mp h
    obtain ⟨S, eS, hS⟩ := ih (m * f.1 ^ f.2) sr hf.tail (Nat.mul_pos hm hqpos) hcop' hy' hsr
    refine ⟨S, ?_, by rw [← mul_assoc]; exact hS⟩
    rw [sqrtModLoop, hq]
    rw [← eS]
    have e' := e
    simp only [Option.bind_eq_bind]
    rw [e', Option.bind_some, Nat.cast_mul]

/-- **C64**: `sqrt_mod` returns exactly the square roots of `y` modulo `m`, for every `m` given by its factorization and
every `y >= 0` coprime to `m`; in particular the empty set if there is no root. -/
theorem C64_sqrt_mod (y : Int) (hy0 : 0 ≤ y) (vf : List (Nat × Nat)) (hf : IsFact vf) (hy : Int.gcd y (value vf) = 1) :
    ∃ S, sqrtMod y vf = some S ∧ ∀ x, x ∈ S ↔ 0 ≤ x ∧ x < (value vf : Int) ∧ (value vf : Int) ∣ x * x - y := by
  have h0 : RootSet y ((1 : Nat) : Int) {0} := by
    intro x
    rw [Finset.mem_singleton]
    constructor
    · rintro rfl
      exact ⟨le_rfl, by norm_num, by simp⟩
    · rintro ⟨h1, h2, _⟩
      push_cast at h2
      omega
  obtain ⟨S, e, hS⟩ := sqrtModLoop_spec y hy0 vf 1 {0} hf Nat.one_pos (Nat.coprime_one_left _) hy h0
  rw [one_mul] at hS
  exact ⟨S, e, hS⟩

example : sqrtMod 1 [(2, 3), (3, 1)] = some {1, 5, 7, 11, 13, 17, 19, 23} ∧ sqrtMod 2 [(3, 1), (7, 1)] = some ∅ := by decide +kernel

end Altruct.NumTheory
