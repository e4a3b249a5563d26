/-
C07: modular inverse, division and the corrected extended gcd on machine words.
-/
import Verif.Modulo.GcdEx
import Mathlib.Tactic.LinearCombination

namespace Altruct.Modulo

open Altruct.Base

theorem toU_cast (w : Nat) (v : Int) : (toU w v : Int) = v % 2 ^ w := by
  rw [toU, Int.toNat_of_nonneg (Int.emod_nonneg _ (by positivity))]

theorem toU_lt (w : Nat) (v : Int) : toU w v < 2 ^ w := by
  have h1 := toU_cast w v
  have h2 := Int.emod_lt_of_pos v (show (0 : Int) < 2 ^ w by positivity)
  exact_mod_cast (h1 ▸ h2 : (toU w v : Int) < 2 ^ w)

theorem toU_eq_iff (w : Nat) (u v : Int) : toU w u = toU w v ↔ u % 2 ^ w = v % 2 ^ w := by
  rw [← toU_cast, ← toU_cast]; exact Nat.cast_inj.symm

theorem subW_cast (w x y : Nat) (hy : y ≤ 2 ^ w) : (subW w x y : Int) = ((x : Int) - y) % 2 ^ w := by
  rw [subW]
  push_cast [Nat.cast_sub hy]
  rw [show (x : Int) + (2 ^ w - y) = x - y + 2 ^ w by ring, Int.add_emod_right]

theorem mulW_cast (w x y : Nat) : (mulW w x y : Int) = ((x : Int) * y) % 2 ^ w := by
  rw [mulW]; push_cast; rfl

theorem addW_cast (w x y : Nat) : (addW w x y : Int) = ((x : Int) + y) % 2 ^ w := by
  rw [addW]; push_cast; rfl

theorem addW_toU (w : Nat) (x : Int) (n : Nat) : addW w (toU w x) n = toU w (x + n) := by
  have : (addW w (toU w x) n : Int) = (toU w (x + n) : Int) := by
    rw [addW_cast, toU_cast, toU_cast, Int.emod_add_emod]
  exact_mod_cast this

theorem step_toU (w : Nat) (xn xo : Int) (q : Nat) :
    subW w (toU w xn) (mulW w q (toU w xo)) = toU w (xn - q * xo) := by
  have hlt : mulW w q (toU w xo) ≤ 2 ^ w := (Nat.mod_lt _ (by positivity)).le
  have : (subW w (toU w xn) (mulW w q (toU w xo)) : Int) = (toU w (xn - q * xo) : Int) := by
    rw [subW_cast _ _ _ hlt, mulW_cast, toU_cast, toU_cast, toU_cast]
    rw [Int.sub_emod, Int.emod_emod, Int.emod_emod, Int.mul_emod, Int.emod_emod, ← Int.mul_emod,
      ← Int.sub_emod]
  exact_mod_cast this

/-- The unsigned loop computes the exact loop modulo `2^w`. -/
theorem gcdWLoop_eq (w : Nat) (s : GcdEx) (t : GcdW) (hg : (t.g : Int) = s.g) (hh : (t.h : Int) = s.h)
    (h1 : t.xo = toU w s.xo) (h2 : t.xn = toU w s.xn) (h3 : t.yo = toU w s.yo)
    (h4 : t.yn = toU w s.yn) (h5 : t.i = s.i) :
    ((gcdWLoop w t).g : Int) = (gcdExLoop s).g ∧ (gcdWLoop w t).xn = toU w (gcdExLoop s).xn ∧
    (gcdWLoop w t).yn = toU w (gcdExLoop s).yn ∧ (gcdWLoop w t).i = (gcdExLoop s).i := by
  fun_induction gcdWLoop w t generalizing s with
  | case1 t h =>
    rw [gcdExLoop, if_pos (by omega)]
    exact ⟨hg, h2, h4, h5⟩
  | case2 t h q ih =>
    rw [gcdExLoop_next s (by omega), next, nextQ]
    have e : s.g.tdiv s.h = (q : Int) := by
      rw [← hg, ← hh, Int.tdiv_eq_ediv_of_nonneg (by omega)]; rfl
    rw [e]
    apply ih
    · exact hh
    · simp only
      have : q * t.h ≤ t.g := Nat.div_mul_le_self _ _
      rw [Nat.cast_sub this, hg, Nat.cast_mul, hh]
    · simp only; rw [h1, h2, step_toU]
    · exact h1
    · simp only; rw [h3, h4, step_toU]
    · exact h3
    · simp only; rw [h5]

theorem gcdExW_eq (w a b : Nat) (hw : 1 ≤ w) :
    ((gcdExW w a b).1 : Int) = (gcdEx a b).1 ∧ (gcdExW w a b).2.1 = toU w (gcdEx a b).2.1 ∧
    (gcdExW w a b).2.2.1 = toU w (gcdEx a b).2.2.1 ∧ (gcdExW w a b).2.2.2 = (gcdEx a b).2.2.2 := by
  have h2 : (1 : Int) < 2 ^ w := by
    calc (1 : Int) < 2 ^ 1 := by norm_num
      _ ≤ 2 ^ w := pow_le_pow_right₀ (by norm_num) hw
  have e1 : toU w 1 = 1 := by rw [toU, Int.emod_eq_of_lt (by omega) h2]; rfl
  have e0 : toU w 0 = 0 := by simp [toU]
  exact gcdWLoop_eq w _ _ rfl rfl e0.symm e1.symm e1.symm e0.symm rfl

theorem toU_ne_zero (w : Nat) (x : Int) (h : (x.natAbs : Int) < 2 ^ w) : toU w x ≠ 0 ↔ x ≠ 0 := by
  rw [not_iff_not]
  constructor
  · intro h0
    have h1 := toU_cast w x
    rw [h0] at h1
    have : (2 : Int) ^ w ∣ x := Int.dvd_of_emod_eq_zero (by simpa using h1.symm)
    apply Int.eq_zero_of_abs_lt_dvd this
    rwa [Int.abs_eq_natAbs]
  · rintro rfl; simp [toU]

theorem adjW (w : Nat) (p : Prop) [Decidable p] (x : Int) (n : Nat) (h : (x.natAbs : Int) < 2 ^ w)
    (h0 : 0 ≤ if p ∧ x ≠ 0 then x + n else x) (h1 : (if p ∧ x ≠ 0 then x + n else x) < 2 ^ w) :
    ((if p ∧ toU w x ≠ 0 then addW w (toU w x) n else toU w x : Nat) : Int) =
      if p ∧ x ≠ 0 then x + n else x := by
  simp only [toU_ne_zero w x h]
  split
  · rename_i hc
    simp only [if_pos hc] at h0 h1
    rw [addW_toU, toU_cast, Int.emod_eq_of_lt h0 h1]
  · rename_i hc
    simp only [if_neg hc] at h0 h1
    rw [toU_cast, Int.emod_eq_of_lt h0 h1]

/-- The corrected cofactors on unsigned words are the corrected exact ones. -/
theorem gcdExU_spec (w n1 n2 : Nat) (hw : 1 ≤ w) (h1 : 0 < n1) (h2 : 0 < n2) (l1 : n1 < 2 ^ w)
    (l2 : n2 < 2 ^ w) :
    let r := gcdExU w n1 n2
    r.1 = Nat.gcd n1 n2 ∧ r.2.1 ≤ n2 ∧ r.2.2 ≤ n1 ∧
    ∃ k : Int, (n1 : Int) * r.2.1 + n2 * r.2.2 = r.1 + n1 * n2 * k := by
  obtain ⟨e1, e2, e3, e4⟩ := gcdExW_eq w n1 n2 hw
  obtain ⟨a1, a2, a3, a4, a5, ⟨k, a6⟩, a7, a8⟩ := gcdEx_adj n1 n2 (by omega) (by omega)
  obtain ⟨a5, a5'⟩ := a5 (by omega)
  have L1 : (n1 : Int) < 2 ^ w := by exact_mod_cast l1
  have L2 : (n2 : Int) < 2 ^ w := by exact_mod_cast l2
  have ex := adjW w ((gcdEx n1 n2).2.2.2 % 2 = 1) (gcdEx n1 n2).2.1 n2 (by omega) a5 (by omega)
  have ey := adjW w ((gcdEx n1 n2).2.2.2 % 2 = 0) (gcdEx n1 n2).2.2.1 n1 (by omega) a3 (by omega)
  simp only [gcdExU, e2, e3, e4]
  rw [← ex] at a5 a5' a6
  rw [← ey] at a3 a4 a6
  rw [← e1] at a2 a6
  refine ⟨?_, by exact_mod_cast a5', by exact_mod_cast a4, k, a6⟩
  have : ((gcdExW w n1 n2).1 : Int) = (Nat.gcd n1 n2 : Int) := by rw [a2]; rfl
  exact_mod_cast this

theorem natMod_of_int_dvd (x y m : Nat) (h : (m : Int) ∣ (x : Int) - y) : x % m = y % m := by
  have := (Int.emod_emod_of_dvd x (dvd_refl (m : Int)))
  have h2 : (x : Int) % m = (y : Int) % m := Int.emod_eq_emod_iff_emod_sub_eq_zero.mpr
    (Int.emod_eq_zero_of_dvd h)
  exact_mod_cast h2

theorem int_dvd_of_natMod (x y m : Nat) (h : x % m = y % m) : (m : Int) ∣ (x : Int) - y := by
  apply Int.dvd_of_emod_eq_zero
  apply Int.emod_eq_emod_iff_emod_sub_eq_zero.mp
  exact_mod_cast h

/-- C07: `modulo_gcd_ex` on unsigned words returns the gcd and cofactors in range
that satisfy the two congruences `n1*ni1 = g (mod n2)`, `n2*ni2 = g (mod n1)`,
although the cofactors wrap around in the computation. -/
theorem C07_gcd_ex_unsigned (w n1 n2 : Nat) (hw : 1 ≤ w) (h1 : 0 < n1) (h2 : 0 < n2)
    (l1 : n1 < 2 ^ w) (l2 : n2 < 2 ^ w) :
    ∃ g ni1 ni2, gcdExU w n1 n2 = (g, ni1, ni2) ∧ g = Nat.gcd n1 n2 ∧ ni1 ≤ n2 ∧ ni2 ≤ n1 ∧
      (n1 * ni1) % n2 = g % n2 ∧ (n2 * ni2) % n1 = g % n1 := by
  obtain ⟨a1, a2, a3, k, a4⟩ := gcdExU_spec w n1 n2 hw h1 h2 l1 l2
  refine ⟨(gcdExU w n1 n2).1, (gcdExU w n1 n2).2.1, (gcdExU w n1 n2).2.2, rfl, a1, a2, a3, ?_, ?_⟩
  · apply natMod_of_int_dvd
    exact ⟨n1 * k - (gcdExU w n1 n2).2.2, by push_cast; linarith⟩
  · apply natMod_of_int_dvd
    exact ⟨n2 * k - (gcdExU w n1 n2).2.1, by push_cast; linarith⟩

example : gcdExU 8 200 150 = (50, 1, 199) := by decide +kernel

/-- `modulo_inv_int` for any `v < M`: in range, and an inverse up to the gcd. -/
theorem invU_spec (w v M : Nat) (hw : 1 ≤ w) (hM : 0 < M) (hMw : M < 2 ^ w) :
    (Nat.gcd v M ≠ 1 → invU w v M = 0) ∧
    (Nat.gcd v M = 1 → invU w v M ≤ M ∧ (v * invU w v M) % M = 1 % M) := by
  obtain ⟨e1, e2, e3, e4⟩ := gcdExW_eq w M v hw
  obtain ⟨a1, a2, a3, a4, a5, ⟨k, a6⟩, a7, a8⟩ := gcdEx_adj M v (by omega) (by omega)
  have L1 : (M : Int) < 2 ^ w := by exact_mod_cast hMw
  have ey := adjW w ((gcdEx M v).2.2.2 % 2 = 0) (gcdEx M v).2.2.1 M (by omega) a3 (by omega)
  have eg : (gcdExW w M v).1 = Nat.gcd v M := by
    have : ((gcdExW w M v).1 : Int) = (Nat.gcd v M : Int) := by rw [e1, a2, Nat.gcd_comm]; rfl
    exact_mod_cast this
  simp only [invU, e3, e4, eg]
  refine ⟨fun h => if_neg h, fun h => ?_⟩
  rw [if_pos h]
  rw [← ey] at a3 a4 a6
  rw [← e1, eg, h] at a6
  refine ⟨by exact_mod_cast a4, natMod_of_int_dvd _ _ _ ?_⟩
  push_cast
  exact ⟨v * k - (if (gcdEx M v).2.2.2 % 2 = 1 ∧ (gcdEx M v).2.1 ≠ 0 then (gcdEx M v).2.1 + v
    else (gcdEx M v).2.1), by push_cast at a6; linarith⟩

/-- C07: `modulo_inv(v, M)` on unsigned words of any width: a residue that is an
inverse of `v`, for every modulus `M > 1` and every `v` coprime to it. -/
theorem C07_inv_unsigned (w v M : Nat) (hw : 1 ≤ w) (hM : 1 < M) (hMw : M < 2 ^ w)
    (hc : Nat.gcd v M = 1) :
    invU w v M < M ∧ (v * invU w v M) % M = 1 := by
  obtain ⟨h1, h2⟩ := (invU_spec w v M hw (by omega) hMw).2 hc
  rw [Nat.mod_eq_of_lt hM] at h2
  refine ⟨lt_of_le_of_ne h1 ?_, h2⟩
  intro h
  rw [h, Nat.mul_mod_left] at h2
  omega

/-- C07: `modulo_inv(v, M)` is `0` when no inverse exists. -/
theorem C07_inv_unsigned_none (w v M : Nat) (hw : 1 ≤ w) (hM : 0 < M) (hMw : M < 2 ^ w)
    (hc : Nat.gcd v M ≠ 1) : invU w v M = 0 := (invU_spec w v M hw hM hMw).1 hc

example : invU 8 3 250 = 167 ∧ Nat.gcd 3 250 = 1 := by decide +kernel

theorem gcdU_eq (a b : Nat) : gcdU a b = Nat.gcd a b := by
  fun_induction gcdU a b with
  | case1 b => simp
  | case2 a b h ih => rw [ih, ← Nat.gcd_rec]

/-- C07: `modulo_div(x, y, M)` on unsigned words: a residue `q` with
`q*y = x (mod M)` whenever one exists, i.e. whenever `gcd(y, M)` divides `x`. -/
theorem C07_div_unsigned (w x y M : Nat) (hw : w = 8 ∨ w = 16 ∨ w = 32 ∨ w = 64) (hM : 1 < M)
    (hMw : M < 2 ^ w) (hx : x < M) (hy : y < M) (hd : Nat.gcd y M ∣ x) :
    divU w x y M < M ∧ (divU w x y M * y) % M = x := by
  have hw1 : 1 ≤ w := by omega
  rw [divU]
  split
  · rename_i h
    refine ⟨lt_of_le_of_lt (Nat.div_le_self _ _) hx, ?_⟩
    rw [Nat.div_mul_cancel (Nat.dvd_of_mod_eq_zero h.2), Nat.mod_eq_of_lt hx]
  · rename_i hfast
    simp only
    split
    · rename_i hyi
      have hc : Nat.gcd y M = 1 := by
        by_contra h; exact hyi (C07_inv_unsigned_none w y M hw1 (by omega) hMw h)
      obtain ⟨h1, h2⟩ := C07_inv_unsigned w y M hw1 hM hMw hc
      rw [mulU_eq w x _ M hw hMw hx (by omega)]
      refine ⟨Nat.mod_lt _ (by omega), ?_⟩
      rw [Nat.mod_mul_mod, mul_assoc, mul_comm (invU w y M), Nat.mul_mod, h2]
      simp [Nat.mod_eq_of_lt hx]
    · rename_i hyi
      have hyi' : invU w y M = 0 := by simpa using hyi
      rw [gcdU_eq, gcdU_eq]
      have eg : Nat.gcd (Nat.gcd x y) M = Nat.gcd y M := by
        rw [Nat.gcd_assoc]; exact Nat.gcd_eq_right hd
      rw [eg]
      set g := Nat.gcd y M with hg
      have hgpos : 0 < g := Nat.gcd_pos_of_pos_right _ (by omega)
      obtain ⟨x', hx'⟩ := hd
      obtain ⟨y', hy'⟩ := Nat.gcd_dvd_left y M
      obtain ⟨M', hM'⟩ := Nat.gcd_dvd_right y M
      rw [← hg] at hy' hM'
      have q1 : x / g = x' := by rw [hx']; exact Nat.mul_div_cancel_left _ hgpos
      have q2 : y / g = y' := by rw [hy']; exact Nat.mul_div_cancel_left _ hgpos
      have q3 : M / g = M' := by rw [hM']; exact Nat.mul_div_cancel_left _ hgpos
      have hM0 : 0 < M' := by
        rcases Nat.eq_zero_or_pos M' with h | h
        · rw [h] at hM'; omega
        · exact h
      have hM'le : M' ≤ M := by rw [hM']; exact Nat.le_mul_of_pos_left _ hgpos
      have hcop : Nat.gcd y' M' = 1 := by
        have : Nat.gcd y M = g * Nat.gcd y' M' := by
          conv_lhs => rw [hy', hM']
          rw [Nat.gcd_mul_left]
        rw [← hg] at this
        have h1 : g * Nat.gcd y' M' = g * 1 := by omega
        exact Nat.eq_of_mul_eq_mul_left hgpos h1
      rw [q1, q2, q3]
      obtain ⟨i1, i2⟩ := (invU_spec w y' M' hw1 hM0 (by omega)).2 hcop
      have hx'lt : x' < M := by
        rw [← q1]; exact lt_of_le_of_lt (Nat.div_le_self _ _) hx
      rw [mulU_eq w x' _ M hw hMw hx'lt (by omega)]
      refine ⟨Nat.mod_lt _ (by omega), ?_⟩
      clear_value g
      rw [Nat.mod_mul_mod]
      conv_rhs => rw [← Nat.mod_eq_of_lt hx]
      apply natMod_of_int_dvd
      obtain ⟨k, hk⟩ := int_dvd_of_natMod _ _ _ i2
      refine ⟨x' * k, ?_⟩
      rw [hx', hM', hy']
      push_cast at hk ⊢
      linear_combination (g : Int) * x' * hk

/-- The three branches: exact quotient, inverse, common divisor. -/
example : divU 8 6 3 10 = 2 ∧ divU 8 5 3 10 = 5 ∧ divU 8 4 6 10 = 4 ∧ 4 * 6 % 10 = 4 := by
  decide +kernel

end Altruct.Modulo
