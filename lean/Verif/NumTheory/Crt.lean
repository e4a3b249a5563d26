/-
Modular inverse, division and the Chinese remainder step over unbounded integers, as used by modulos.h.
-/
import Verif.NumTheory.Order
import Verif.Modulo.CrtProps

namespace Altruct.NumTheory

open Altruct.Base (powT gcdEx)
open Altruct.Modulo (CrtSpec)

theorem invM_spec (v M : Int) (hv : 0 ≤ v) (hM : 0 < M) (hc : Int.gcd v M = 1) :
    0 ≤ invM v M ∧ invM v M ≤ M ∧ M ∣ v * invM v M - 1 := by
  obtain ⟨h1, h2, h3, h4, _, ⟨k, hk⟩, _⟩ := Modulo.gcdEx_adj M v hM hv
  rw [Int.gcd_comm, hc] at h2
  rw [invM]
  rw [if_pos (by omega)]
  refine ⟨h3, h4, ?_⟩
  rw [h2] at hk
  refine ⟨v * k - (if (gcdEx M v).2.2.2 % 2 = 1 ∧ (gcdEx M v).2.1 ≠ 0 then (gcdEx M v).2.1 + v else (gcdEx M v).2.1), ?_⟩
  push_cast at hk
  linarith

theorem mulM_nonneg (x y M : Int) (hx : 0 ≤ x) (hy : 0 ≤ y) : 0 ≤ mulM x y M := Int.tmod_nonneg _ (mul_nonneg hx hy)

theorem mulM_eq (x y M : Int) (hx : 0 ≤ x) (hy : 0 ≤ y) : mulM x y M = (x * y) % M :=
  Int.tmod_eq_emod_of_nonneg (mul_nonneg hx hy)

/-- Division of residues by a residue coprime to the modulus. -/
theorem divM_spec (x y M : Int) (hx : 0 ≤ x) (hy : 0 ≤ y) (hM : 0 < M) (hc : Int.gcd y M = 1) :
    0 ≤ divM x y M ∧ M ∣ y * divM x y M - x := by
  rw [divM]
  by_cases h : y ≠ 0 ∧ x.tmod y = 0
  · rw [if_pos h]
    refine ⟨Int.tdiv_nonneg hx hy, ?_⟩
    rw [Int.mul_tdiv_cancel' (Int.dvd_of_tmod_eq_zero h.2), sub_self]
    exact dvd_zero _
  · rw [if_neg h]
    obtain ⟨h1, h2, h3⟩ := invM_spec y M hy hM hc
    simp only
    split_ifs with h4
    · refine ⟨mulM_nonneg _ _ _ hx h1, ?_⟩
      rw [mulM_eq _ _ _ hx h1]
      have e := Int.mul_ediv_add_emod (x * invM y M) M
      obtain ⟨c, hc⟩ := h3
      refine ⟨x * c - y * (x * invM y M / M), ?_⟩
      have : x * invM y M % M = x * invM y M - M * (x * invM y M / M) := by linarith
      rw [this]
      linear_combination x * hc
    · have h5 : invM y M = 0 := by simpa using h4
      rw [h5, mul_zero] at h3
      have hM1 : M = 1 := by
        have := Int.eq_one_of_dvd_one hM.le (by simpa using h3)
        exact this
      subst hM1
      refine ⟨?_, one_dvd _⟩
      rw [mulM, Int.tmod_one]

theorem addM_spec (x y M : Int) (hx : 0 ≤ x) (hy : 0 ≤ y) (hxM : x < M) (hyM : y < M) : addM x y M = (x + y) % M := by
  rw [addM]
  split_ifs with h
  · rw [Int.emod_eq_of_lt (by omega) (by omega)]
  · rw [← Int.sub_emod_right, Int.emod_eq_of_lt (by omega) (by omega)]

/-- The unbounded `chinese_remainder` finds the solutions of two congruences, or reports that there are none. -/
theorem crt_spec (a1 n1 a2 n2 : Int) (h1 : 0 < n1) (h2 : 0 < n2) (l1 : 0 ≤ a1) (l2 : 0 ≤ a2) :
    CrtSpec a1 n1 a2 n2 (crt a1 n1 a2 n2).1 (crt a1 n1 a2 n2).2 := by
  obtain ⟨g1, g2, g3, g4, g5, ⟨k, hk⟩, _⟩ := Modulo.gcdEx_adj n1 n2 h1 h2.le
  obtain ⟨g5, g6⟩ := g5 h2
  rw [crt, gcdExM]
  simp only
  generalize (gcdEx n1 n2).1 = g at *
  generalize (if (gcdEx n1 n2).2.2.2 % 2 = 1 ∧ (gcdEx n1 n2).2.1 ≠ 0 then (gcdEx n1 n2).2.1 + n2 else (gcdEx n1 n2).2.1) = ni1 at *
  generalize (if (gcdEx n1 n2).2.2.2 % 2 = 0 ∧ (gcdEx n1 n2).2.2.1 ≠ 0 then (gcdEx n1 n2).2.2.1 + n1 else (gcdEx n1 n2).2.2.1) = ni2 at *
  have hd1 : g ∣ n1 := g2 ▸ Int.gcd_dvd_left _ _
  have hd2 : g ∣ n2 := g2 ▸ Int.gcd_dvd_right _ _
  by_cases hd : (a2 - a1).tmod g ≠ 0
  · rw [if_pos hd]
    refine Or.inl ⟨rfl, rfl, Modulo.crt_none a1 n1 a2 n2 g hd1 hd2 (fun h => hd (Int.tmod_eq_zero_of_dvd h))⟩
  · rw [if_neg hd]
    push Not at hd
    obtain ⟨d, hd⟩ := Int.dvd_of_tmod_eq_zero hd
    obtain ⟨m1, e1⟩ := hd1
    obtain ⟨m2, e2⟩ := hd2
    have hm1 : n1.tdiv g = m1 := by rw [e1, Int.mul_tdiv_cancel_left _ (by omega)]
    have hm2 : n2.tdiv g = m2 := by rw [e2, Int.mul_tdiv_cancel_left _ (by omega)]
    rw [hm1, hm2]
    have p1 : 0 < m1 := by rw [e1] at h1; exact pos_of_mul_pos_right h1 g1.le
    have p2 : 0 < m2 := by rw [e2] at h2; exact pos_of_mul_pos_right h2 g1.le
    have hn : 0 < m1 * m2 * g := by positivity
    have hlcm : m1 * m2 * g = Int.lcm n1 n2 := by
      have := Int.gcd_mul_lcm n1 n2
      have h3 : ((n1 * n2).natAbs : Int) = n1 * n2 := Int.natAbs_of_nonneg (by positivity)
      have h4 : (Int.gcd n1 n2 : Int) * (Int.lcm n1 n2 : Int) = n1 * n2 := by
        rw [← h3, Int.natAbs_mul, ← this]; push_cast; rfl
      rw [← g2, e1, e2] at h4
      rw [← e1, ← e2] at h4
      apply Int.eq_of_mul_eq_mul_left (show g ≠ 0 by omega)
      rw [h4, e1, e2]; ring
    have q1 := mulM_nonneg a1 ni2 n1 l1 g3
    have q2 := mulM_nonneg a2 ni1 n2 l2 g5
    rw [mulM_eq _ m2 _ q1 p2.le, mulM_eq _ m1 _ q2 p1.le,
      addM_spec _ _ _ (Int.emod_nonneg _ (by omega)) (Int.emod_nonneg _ (by omega)) (Int.emod_lt_of_pos _ hn) (Int.emod_lt_of_pos _ hn),
      mulM_eq a1 ni2 n1 l1 g3, mulM_eq a2 ni1 n2 l2 g5, ← Int.add_emod]
    refine Or.inr ⟨hlcm, Int.emod_nonneg _ (by omega), Int.emod_lt_of_pos _ hn, ?_⟩
    have key := Modulo.crt_core a1 n1 a2 n2 g m1 m2 ni1 ni2 k d
      ((a1 * ni2 % n1 * m2 + a2 * ni1 % n2 * m1) % (m1 * m2 * g))
      (-((a1 * ni2) / n1) - (a2 * ni1 / n2) - ((a1 * ni2 % n1 * m2 + a2 * ni1 % n2 * m1) / (m1 * m2 * g)))
      (by omega) e1 e2 hk hd ?_
    · intro x
      exact Modulo.crt_sol _ _ _ _ _ _ hlcm key.1 key.2 x
    · have d1 := Int.mul_ediv_add_emod (a1 * ni2) n1
      have d2 := Int.mul_ediv_add_emod (a2 * ni1) n2
      have d3 := Int.mul_ediv_add_emod ((a1 * ni2) % n1 * m2 + (a2 * ni1) % n2 * m1) (m1 * m2 * g)
      generalize (a1 * ni2) % n1 = r1 at *
      generalize (a2 * ni1) % n2 = r2 at *
      generalize (a1 * ni2) / n1 = u1 at *
      generalize (a2 * ni1) / n2 = u2 at *
      generalize (r1 * m2 + r2 * m1) % (m1 * m2 * g) = r3 at *
      generalize (r1 * m2 + r2 * m1) / (m1 * m2 * g) = u3 at *
      rw [e1] at d1
      rw [e2] at d2
      linear_combination d3 + m2 * d1 + m1 * d2

example : crt 3 6 5 10 = (15, 30) ∧ crt 3 6 4 10 = (0, 0) := by decide +kernel

end Altruct.NumTheory
