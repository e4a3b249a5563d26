/-
C09: Chinese remainder; and the signed half of C07.
-/
import Verif.Modulo.InvProps

namespace Altruct.Modulo

open Altruct.Base

/-! ## Signed extended gcd and inverse -/

theorem sw_some (w : Nat) (v : Int) (h1 : -2 ^ (w - 1) ≤ v) (h2 : v < 2 ^ (w - 1)) :
    sw w v = some v := by rw [sw, if_pos ⟨h1, h2⟩]

theorem sw_sign (w : Nat) (σ v : Int) (hσ : σ = 1 ∨ σ = -1) (h0 : 0 ≤ v) (h2 : v < 2 ^ (w - 1)) :
    sw w (σ * v) = some (σ * v) := by
  rcases hσ with rfl | rfl
  · exact sw_some _ _ (by omega) (by omega)
  · exact sw_some _ _ (by omega) (by omega)

/-- On signed words the `gcd_ex` loop never overflows. -/
theorem gcdSLoop_eq (w : Nat) (a b : Int) (ha : a < 2 ^ (w - 1)) (hb : b < 2 ^ (w - 1)) (fuel : Nat)
    (s : GcdEx) (σ Xn Xo Yn Yo : Int) (I : EInv a b s σ Xn Xo Yn Yo) (hf : s.h < fuel) :
    gcdSLoop w fuel s = some (gcdExLoop s) := by
  induction fuel generalizing s σ Xn Xo Yn Yo with
  | zero => have := I.h0; omega
  | succ fuel ih =>
    rw [gcdSLoop]
    split
    · rename_i h; rw [gcdExLoop, if_pos h]
    · rename_i h
      obtain ⟨q0, q1, J⟩ := I.next h
      rw [gcdExLoop_next s h]
      have hh : 0 < s.h := lt_of_le_of_ne I.h0 (Ne.symm h)
      have hσ : σ = 1 ∨ σ = -1 := by rcases I.sg with o | o <;> omega
      have hσ' : -σ = 1 ∨ -σ = -1 := by omega
      have hgb : s.g < 2 ^ (w - 1) := by
        rcases I.ord with o | o
        · omega
        · have h1 := I.sx
          have h2 := mul_nonneg hh.le I.pXn
          have h3 : s.g * 1 ≤ s.g * Xo := mul_le_mul_of_nonneg_left o.2.2.2.1 I.g0
          omega
      have jx := J.sx
      have jy := J.sy
      have jh := J.h0
      have jg : (next s).g = s.h := rfl
      have jh' : (next s).h = s.g - s.g.tdiv s.h * s.h := rfl
      have p1 := J.pXn
      have p2 := J.pXo
      have p3 := J.pYn
      have p4 := J.pYo
      have p5 := I.pXn
      have p6 := I.pYn
      rw [jg] at jx jy
      have bX : Xn + s.g.tdiv s.h * Xo ≤ b := by
        have h2 := mul_nonneg jh p1
        have h3 : 1 * (Xn + s.g.tdiv s.h * Xo) ≤ s.h * (Xn + s.g.tdiv s.h * Xo) :=
          mul_le_mul_of_nonneg_right (by omega) p2
        omega
      have bY : Yn + s.g.tdiv s.h * Yo ≤ a := by
        have h2 := mul_nonneg jh p3
        have h3 : 1 * (Yn + s.g.tdiv s.h * Yo) ≤ s.h * (Yn + s.g.tdiv s.h * Yo) :=
          mul_le_mul_of_nonneg_right (by omega) p4
        omega
      have m1 := mul_nonneg q0 I.pXo
      have m2 := mul_nonneg q0 I.pYo
      have m3 : s.g.tdiv s.h * 1 ≤ s.g.tdiv s.h * s.h := mul_le_mul_of_nonneg_left (by omega) q0
      rw [jh'] at jh
      have w1 : sw w (s.g.tdiv s.h) = some (s.g.tdiv s.h) := sw_some _ _ (by omega) (by omega)
      have w2 : sw w (s.g.tdiv s.h * s.h) = some (s.g.tdiv s.h * s.h) :=
        sw_some _ _ (by omega) (by omega)
      have w3 : sw w (s.g - s.g.tdiv s.h * s.h) = some (s.g - s.g.tdiv s.h * s.h) :=
        sw_some _ _ (by omega) (by omega)
      have w4 : sw w (s.g.tdiv s.h * s.xo) = some (s.g.tdiv s.h * s.xo) := by
        rw [I.exo, show s.g.tdiv s.h * (-σ * Xo) = -σ * (s.g.tdiv s.h * Xo) by ring]
        exact sw_sign _ _ _ hσ' m1 (by omega)
      have w5 : sw w (s.xn - s.g.tdiv s.h * s.xo) = some (s.xn - s.g.tdiv s.h * s.xo) := by
        rw [I.exo, I.exn, show σ * Xn - s.g.tdiv s.h * (-σ * Xo) = σ * (Xn + s.g.tdiv s.h * Xo) by ring]
        exact sw_sign _ _ _ hσ p2 (by omega)
      have w6 : sw w (s.g.tdiv s.h * s.yo) = some (s.g.tdiv s.h * s.yo) := by
        rw [I.eyo, show s.g.tdiv s.h * (σ * Yo) = σ * (s.g.tdiv s.h * Yo) by ring]
        exact sw_sign _ _ _ hσ m2 (by omega)
      have w7 : sw w (s.yn - s.g.tdiv s.h * s.yo) = some (s.yn - s.g.tdiv s.h * s.yo) := by
        rw [I.eyo, I.eyn, show -σ * Yn - s.g.tdiv s.h * (σ * Yo) = -σ * (Yn + s.g.tdiv s.h * Yo) by ring]
        exact sw_sign _ _ _ hσ' p4 (by omega)
      simp only [Option.bind_eq_bind, w1, Option.bind_some, w2, w3, w4, w5, w6, w7]
      refine ih (next s) _ _ _ _ _ J ?_
      rw [jh']
      have := Int.tdiv_eq_ediv_of_nonneg I.g0 (b := s.h)
      have := Int.mul_ediv_add_emod s.g s.h
      have := Int.emod_lt_of_pos s.g hh
      have : s.g.tdiv s.h * s.h = s.h * (s.g / s.h) := by rw [Int.tdiv_eq_ediv_of_nonneg I.g0]; ring
      push_cast at hf
      omega

theorem gcdExS_eq (w fuel : Nat) (a b : Int) (h1 : 0 ≤ a) (h2 : 0 ≤ b) (ha : a < 2 ^ (w - 1))
    (hb : b < 2 ^ (w - 1)) (hf : b < fuel) : gcdExS w fuel a b = some (gcdEx a b) := by
  rw [gcdExS, gcdSLoop_eq w a b ha hb fuel _ _ _ _ _ _ (EInv.init a b h1 h2) hf]; rfl

theorem adjS_eq (w s par : Nat) (x n : Int)
    (h0 : 0 ≤ if s % 2 = par ∧ x ≠ 0 then x + n else x)
    (h1 : (if s % 2 = par ∧ x ≠ 0 then x + n else x) < 2 ^ (w - 1)) :
    adjS w s par x n = some (if s % 2 = par ∧ x ≠ 0 then x + n else x) := by
  rw [adjS]
  split
  · rename_i h
    simp only [if_pos h] at h0 h1
    exact sw_some _ _ (by omega) h1
  · rfl

/-- C07: `modulo_inv(v, M)` on signed words of any width: no overflow, and the result
is a residue that inverts `v`. -/
theorem C07_inv_signed (w fuel : Nat) (v M : Int) (hM : 1 < M) (hMw : M < 2 ^ (w - 1)) (hv : 0 ≤ v)
    (hvM : v < M) (hc : Int.gcd v M = 1) (hf : v < fuel) :
    ∃ r, invS w fuel v M = some r ∧ 0 ≤ r ∧ r < M ∧ (v * r) % M = 1 := by
  obtain ⟨a1, a2, a3, a4, a5, ⟨k, a6⟩, a7, a8⟩ := gcdEx_adj M v (by omega) hv
  rw [Int.gcd_comm, hc] at a2
  rw [invS, gcdExS_eq w fuel M v (by omega) hv hMw (by omega) hf]
  simp only [Option.bind_eq_bind, Option.bind_some]
  rw [adjS_eq w _ _ _ _ a3 (lt_of_le_of_lt a4 hMw), Option.bind_some, a2, Nat.cast_one, if_pos rfl]
  refine ⟨_, rfl, a3, ?_⟩
  generalize (if (gcdEx M v).2.2.2 % 2 = 0 ∧ (gcdEx M v).2.2.1 ≠ 0 then (gcdEx M v).2.2.1 + M
        else (gcdEx M v).2.2.1) = Y at *
  generalize (if (gcdEx M v).2.2.2 % 2 = 1 ∧ (gcdEx M v).2.1 ≠ 0 then (gcdEx M v).2.1 + v
        else (gcdEx M v).2.1) = X at *
  have h1 : (v * Y) % M = 1 := by
    have : v * Y = 1 + M * (v * k - X) := by
      rw [a2] at a6; push_cast at a6; linarith
    rw [this, Int.add_mul_emod_self_left, Int.emod_eq_of_lt (by omega) hM]
  refine ⟨lt_of_le_of_ne a4 ?_, h1⟩
  rintro rfl
  simp at h1

example : invS 32 10 7 26 = some 15 := by decide +kernel

/-! ## C09 -/

/-- The pair of congruences has the solution set `x = a (mod n)` with `n` the least
common multiple, or `(a, n) = (0, 0)` and there is no solution. -/
def CrtSpec (a1 n1 a2 n2 a n : Int) : Prop :=
  (a = 0 ∧ n = 0 ∧ ¬ ∃ x, n1 ∣ x - a1 ∧ n2 ∣ x - a2) ∨
  (n = Int.lcm n1 n2 ∧ 0 ≤ a ∧ a < n ∧ ∀ x, (n1 ∣ x - a1 ∧ n2 ∣ x - a2) ↔ n ∣ x - a)

theorem crt_core (a1 n1 a2 n2 g m1 m2 ni1 ni2 k d a z : Int) (hg : g ≠ 0) (e1 : n1 = g * m1)
    (e2 : n2 = g * m2) (hb : n1 * ni1 + n2 * ni2 = g + n1 * n2 * k) (hd : a2 - a1 = g * d)
    (ha : a = a1 * ni2 * m2 + a2 * ni1 * m1 + (g * m1 * m2) * z) :
    n1 ∣ a - a1 ∧ n2 ∣ a - a2 := by
  subst e1 e2
  have hb' : m1 * ni1 + m2 * ni2 = 1 + g * m1 * m2 * k := by
    apply Int.eq_of_mul_eq_mul_left hg
    linarith
  have hd' : a2 = a1 + g * d := by omega
  subst hd' ha
  constructor
  · exact ⟨a1 * m2 * k + d * ni1 + m2 * z, by linear_combination a1 * hb'⟩
  · exact ⟨(a1 + g * d) * m1 * k - d * ni2 + m1 * z, by linear_combination (a1 + g * d) * hb'⟩

theorem crt_sol (a1 n1 a2 n2 a n : Int) (hn : n = Int.lcm n1 n2) (h1 : n1 ∣ a - a1)
    (h2 : n2 ∣ a - a2) (x : Int) : (n1 ∣ x - a1 ∧ n2 ∣ x - a2) ↔ n ∣ x - a := by
  subst hn
  rw [Int.coe_lcm_dvd_iff]
  constructor
  · rintro ⟨k1, k2⟩
    constructor
    · have := dvd_sub k1 h1; rwa [sub_sub_sub_cancel_right] at this
    · have := dvd_sub k2 h2; rwa [sub_sub_sub_cancel_right] at this
  · rintro ⟨k1, k2⟩
    constructor
    · have := dvd_add k1 h1; rwa [sub_add_sub_cancel] at this
    · have := dvd_add k2 h2; rwa [sub_add_sub_cancel] at this

theorem crt_none (a1 n1 a2 n2 g : Int) (h1 : g ∣ n1) (h2 : g ∣ n2) (h : ¬ g ∣ a2 - a1) :
    ¬ ∃ x, n1 ∣ x - a1 ∧ n2 ∣ x - a2 := by
  rintro ⟨x, k1, k2⟩
  apply h
  have := dvd_sub (h1.trans k1) (h2.trans k2)
  rwa [sub_sub_sub_cancel_left] at this

/-- C09 on unsigned words: correct whenever `a1 <= a2` or the gcd of the moduli is a
power of two; the least common multiple has to fit the word. -/
theorem C09_unsigned_partial (w a1 n1 a2 n2 : Nat) (hw : w = 8 ∨ w = 16 ∨ w = 32 ∨ w = 64)
    (h1 : 0 < n1) (h2 : 0 < n2) (l1 : a1 < n1) (l2 : a2 < n2) (hl : Nat.lcm n1 n2 < 2 ^ w)
    (hc : a1 ≤ a2 ∨ Nat.gcd n1 n2 ∣ 2 ^ w) :
    ∃ a n : Nat, crtU w a1 n1 a2 n2 = (a, n) ∧ CrtSpec a1 n1 a2 n2 a n := by
  have hle1 : n1 ≤ Nat.lcm n1 n2 := Nat.le_of_dvd (Nat.lcm_pos h1 h2) (Nat.dvd_lcm_left _ _)
  have hle2 : n2 ≤ Nat.lcm n1 n2 := Nat.le_of_dvd (Nat.lcm_pos h1 h2) (Nat.dvd_lcm_right _ _)
  obtain ⟨g1, g2, g3, k, g4⟩ := gcdExU_spec w n1 n2 (by omega) h1 h2 (by omega) (by omega)
  refine ⟨(crtU w a1 n1 a2 n2).1, (crtU w a1 n1 a2 n2).2, rfl, ?_⟩
  simp only [crtU]
  generalize gcdExU w n1 n2 = r at *
  obtain ⟨g, ni1, ni2⟩ := r
  simp only at *
  have hgpos : 0 < g := by rw [g1]; exact Nat.gcd_pos_of_pos_left _ h1
  have hsub : subW w a2 a1 % g = 0 ↔ (g : Int) ∣ (a2 : Int) - a1 := by
    have e := subW_cast w a2 a1 (by omega)
    rcases hc with hc | hc
    · rw [Int.emod_eq_of_lt (by omega) (by have : (a2 : Int) < 2 ^ w := by exact_mod_cast (by omega : a2 < 2 ^ w)
                                           omega)] at e
      rw [← e, Int.natCast_dvd_natCast, Nat.dvd_iff_mod_eq_zero]
    · rw [← g1] at hc
      have : ((subW w a2 a1 : Nat) : Int) % g = ((a2 : Int) - a1) % g := by
        rw [e, Int.emod_emod_of_dvd]; exact_mod_cast hc
      rw [← Nat.dvd_iff_mod_eq_zero, ← Int.natCast_dvd_natCast, Int.dvd_iff_emod_eq_zero, this,
        ← Int.dvd_iff_emod_eq_zero]
  obtain ⟨m1, hm1⟩ : g ∣ n1 := by rw [g1]; exact Nat.gcd_dvd_left _ _
  obtain ⟨m2, hm2⟩ : g ∣ n2 := by rw [g1]; exact Nat.gcd_dvd_right _ _
  have q1 : n1 / g = m1 := by rw [hm1]; exact Nat.mul_div_cancel_left _ hgpos
  have q2 : n2 / g = m2 := by rw [hm2]; exact Nat.mul_div_cancel_left _ hgpos
  split
  · rename_i h
    left
    refine ⟨rfl, rfl, crt_none _ _ _ _ (g : Int) ?_ ?_ ?_⟩
    · exact_mod_cast Dvd.intro _ hm1.symm
    · exact_mod_cast Dvd.intro _ hm2.symm
    · rw [← hsub]; exact h
  · rename_i h
    have hd := hsub.mp (not_not.mp h)
    have hlcm : m1 * m2 * g = Nat.lcm n1 n2 := by
      have e := Nat.gcd_mul_lcm n1 n2
      rw [← g1] at e
      apply Nat.eq_of_mul_eq_mul_left hgpos
      rw [e, hm1, hm2]; ring
    have m1pos : 0 < m1 := by
      rcases Nat.eq_zero_or_pos m1 with h | h
      · rw [h] at hm1; omega
      · exact h
    have m2pos : 0 < m2 := by
      rcases Nat.eq_zero_or_pos m2 with h | h
      · rw [h] at hm2; omega
      · exact h
    have b1 : m1 ≤ n1 := by rw [hm1]; exact Nat.le_mul_of_pos_left _ hgpos
    have b2 : m2 ≤ n2 := by rw [hm2]; exact Nat.le_mul_of_pos_left _ hgpos
    have b3 : m1 * m2 ≤ Nat.lcm n1 n2 := by rw [← hlcm]; exact Nat.le_mul_of_pos_right _ hgpos
    have en : mulW w (mulW w (n1 / g) (n2 / g)) g = Nat.lcm n1 n2 := by
      rw [q1, q2, mulW, mulW, Nat.mod_eq_of_lt (by omega : m1 * m2 < 2 ^ w), hlcm,
        Nat.mod_eq_of_lt hl]
    rw [en, q1, q2]
    set n := Nat.lcm n1 n2 with hn
    have t1e : mulU w a1 ni2 n1 = (a1 * ni2) % n1 := mulU_eq w _ _ _ hw (by omega) l1 (by omega)
    have t2e : mulU w a2 ni1 n2 = (a2 * ni1) % n2 := mulU_eq w _ _ _ hw (by omega) l2 (by omega)
    have t1lt : mulU w a1 ni2 n1 < n1 := by rw [t1e]; exact Nat.mod_lt _ h1
    have t2lt : mulU w a2 ni1 n2 < n2 := by rw [t2e]; exact Nat.mod_lt _ h2
    have npos : 0 < n := by omega
    rw [mulU_eq w _ m2 n hw hl (by omega) (by omega), mulU_eq w _ m1 n hw hl (by omega) (by omega),
      addU_mod w _ _ n hl (Nat.mod_lt _ npos) (Nat.mod_lt _ npos).le, ← Nat.add_mod, t1e, t2e]
    right
    refine ⟨by rw [hn]; rfl, by omega, by exact_mod_cast Nat.mod_lt _ npos, ?_⟩
    obtain ⟨d, hd⟩ := hd
    have key := crt_core a1 n1 a2 n2 g m1 m2 ni1 ni2 k d
      ((((a1 * ni2) % n1 * m2 + (a2 * ni1) % n2 * m1) % n : Nat) : Int)
      (-(((a1 * ni2) / n1 : Nat) : Int) - ((a2 * ni1 / n2 : Nat) : Int) -
        (((a1 * ni2) % n1 * m2 + (a2 * ni1) % n2 * m1) / n : Nat))
      (by omega) (by exact_mod_cast hm1) (by exact_mod_cast hm2) g4 hd ?_
    · intro x
      exact crt_sol _ _ _ _ _ _ (by rw [hn]; rfl) key.1 key.2 x
    · have d1 := Nat.div_add_mod (a1 * ni2) n1
      have d2 := Nat.div_add_mod (a2 * ni1) n2
      have d3 := Nat.div_add_mod ((a1 * ni2) % n1 * m2 + (a2 * ni1) % n2 * m1) n
      have dn : (n : Int) = m1 * m2 * g := by exact_mod_cast hlcm.symm
      generalize (a1 * ni2) % n1 = r1 at *
      generalize (a2 * ni1) % n2 = r2 at *
      generalize (a1 * ni2) / n1 = u1 at *
      generalize (a2 * ni1) / n2 = u2 at *
      generalize (r1 * m2 + r2 * m1) % n = r3 at *
      generalize (r1 * m2 + r2 * m1) / n = u3 at *
      have d1' : (n1 : Int) * u1 + r1 = a1 * ni2 := by exact_mod_cast d1
      have d2' : (n2 : Int) * u2 + r2 = a2 * ni1 := by exact_mod_cast d2
      have d3' : (n : Int) * u3 + r3 = r1 * m2 + r2 * m1 := by exact_mod_cast d3
      have hm1' : (n1 : Int) = g * m1 := by exact_mod_cast hm1
      have hm2' : (n2 : Int) = g * m2 := by exact_mod_cast hm2
      rw [hm1'] at d1'
      rw [hm2'] at d2'
      rw [dn] at d3'
      linear_combination d3' + (m2 : Int) * d1' + (m1 : Int) * d2'

example : crtU 32 2 4 4 6 = (10, 12) ∧ crtU 32 1 4 2 6 = (0, 0) := by decide +kernel

/-- The hypothesis `a1 <= a2` in `C09_unsigned_partial` is needed: on unsigned words
`a2 - a1` wraps before it is tested, so a solvable system is reported unsolvable.
`x = 3 (mod 6)`, `x = 0 (mod 9)` has the solution `9`, but the code reports `(0, 0)`. -/
theorem C09_unsigned_wrap_bug :
    crtU 32 3 6 0 9 = (0, 0) ∧ (6 : Int) ∣ 9 - 3 ∧ (9 : Int) ∣ 9 - 0 := by decide +kernel

theorem gcdExIS_spec (w fuel : Nat) (n1 n2 : Int) (h1 : 0 < n1) (h2 : 0 < n2)
    (l1 : n1 < 2 ^ (w - 1)) (l2 : n2 < 2 ^ (w - 1)) (hf : n2 < fuel) :
    ∃ g ni1 ni2 k, gcdExIS w fuel n1 n2 = some (g, ni1, ni2) ∧ g = Int.gcd n1 n2 ∧ 0 < g ∧
      0 ≤ ni1 ∧ ni1 ≤ n2 ∧ 0 ≤ ni2 ∧ ni2 ≤ n1 ∧ n1 * ni1 + n2 * ni2 = g + n1 * n2 * k := by
  obtain ⟨a1, a2, a3, a4, a5, ⟨k, a6⟩, a7, a8⟩ := gcdEx_adj n1 n2 (by omega) (by omega)
  obtain ⟨a5, a5'⟩ := a5 h2
  rw [gcdExIS, gcdExS_eq w fuel n1 n2 h1.le h2.le l1 l2 hf]
  simp only [Option.bind_eq_bind, Option.bind_some]
  rw [adjS_eq w _ _ _ _ a5 (lt_of_le_of_lt a5' l2), Option.bind_some,
    adjS_eq w _ _ _ _ a3 (lt_of_le_of_lt a4 l1), Option.bind_some]
  exact ⟨_, _, _, k, rfl, a2, a1, a5, a5', a3, a4, a6⟩

/-- C07: `modulo_gcd_ex` on signed words. -/
theorem C07_gcd_ex_signed (w fuel : Nat) (n1 n2 : Int) (h1 : 0 < n1) (h2 : 0 < n2)
    (l1 : n1 < 2 ^ (w - 1)) (l2 : n2 < 2 ^ (w - 1)) (hf : n2 < fuel) :
    ∃ g ni1 ni2, gcdExIS w fuel n1 n2 = some (g, ni1, ni2) ∧ g = Int.gcd n1 n2 ∧
      0 ≤ ni1 ∧ ni1 ≤ n2 ∧ 0 ≤ ni2 ∧ ni2 ≤ n1 ∧ n2 ∣ n1 * ni1 - g ∧ n1 ∣ n2 * ni2 - g := by
  obtain ⟨g, ni1, ni2, k, e, b1, b2, b3, b4, b5, b6, b7⟩ := gcdExIS_spec w fuel n1 n2 h1 h2 l1 l2 hf
  exact ⟨g, ni1, ni2, e, b1, b3, b4, b5, b6, ⟨n1 * k - ni2, by linarith⟩, ⟨n2 * k - ni1, by linarith⟩⟩

/-- C09 on signed words: `chinese_remainder` returns exactly the solution set of the
two congruences, coprime moduli or not, and never overflows as long as the least
common multiple is at most `2^(w-2)` (a quarter of the word; see
`C06_add_signed_overflow` for why not more). -/
theorem C09_signed (w fuel : Nat) (a1 n1 a2 n2 : Int) (hw : w = 8 ∨ w = 16 ∨ w = 32 ∨ w = 64)
    (h1 : 0 < n1) (h2 : 0 < n2) (p1 : 0 ≤ a1) (l1 : a1 < n1) (p2 : 0 ≤ a2) (l2 : a2 < n2)
    (hl : (Int.lcm n1 n2 : Int) ≤ 2 ^ (w - 2)) (hf : n2 < fuel) :
    ∃ a n, crtS w fuel a1 n1 a2 n2 = some (a, n) ∧ CrtSpec a1 n1 a2 n2 a n := by
  have hp : (2 : Int) ^ (w - 1) = 2 * 2 ^ (w - 2) := by
    rw [← pow_succ', show w - 2 + 1 = w - 1 by omega]
  have hpp : (0 : Int) < 2 ^ (w - 2) := by positivity
  have lpos : 0 < (Int.lcm n1 n2 : Int) := by
    exact_mod_cast Nat.pos_of_ne_zero (Int.lcm_ne_zero (by omega) (by omega))
  have hle1 : n1 ≤ Int.lcm n1 n2 := Int.le_of_dvd lpos (Int.dvd_lcm_left _ _)
  have hle2 : n2 ≤ Int.lcm n1 n2 := Int.le_of_dvd lpos (Int.dvd_lcm_right _ _)
  obtain ⟨g, ni1, ni2, k, e, b1, b2, b3, b4, b5, b6, b7⟩ :=
    gcdExIS_spec w fuel n1 n2 h1 h2 (by omega) (by omega) hf
  have gd1 : g ∣ n1 := by rw [b1]; exact Int.gcd_dvd_left _ _
  have gd2 : g ∣ n2 := by rw [b1]; exact Int.gcd_dvd_right _ _
  rw [crtS, e]
  simp only [Option.bind_eq_bind, Option.bind_some]
  rw [sw_some w (a2 - a1) (by omega) (by omega), Option.bind_some]
  have hdvd : (a2 - a1).tmod g = 0 ↔ g ∣ a2 - a1 := Int.dvd_iff_tmod_eq_zero.symm
  split
  · rename_i h
    refine ⟨0, 0, rfl, Or.inl ⟨rfl, rfl, crt_none _ _ _ _ g gd1 gd2 ?_⟩⟩
    rw [← hdvd]; exact h
  · rename_i h
    have hd := hdvd.mp (not_not.mp h)
    obtain ⟨m1, hm1⟩ := gd1
    obtain ⟨m2, hm2⟩ := gd2
    have q1 : n1.tdiv g = m1 := by rw [hm1]; exact Int.mul_tdiv_cancel_left _ (by omega)
    have q2 : n2.tdiv g = m2 := by rw [hm2]; exact Int.mul_tdiv_cancel_left _ (by omega)
    have m1pos : 0 < m1 := by
      by_contra hc
      have : g * m1 ≤ 0 := mul_nonpos_of_nonneg_of_nonpos b2.le (not_lt.mp hc)
      omega
    have m2pos : 0 < m2 := by
      by_contra hc
      have : g * m2 ≤ 0 := mul_nonpos_of_nonneg_of_nonpos b2.le (not_lt.mp hc)
      omega
    have hlcm : m1 * m2 * g = Int.lcm n1 n2 := by
      have e0 : (Int.gcd n1 n2 : Int) * Int.lcm n1 n2 = n1 * n2 := by
        have := Int.gcd_mul_lcm n1 n2
        have h3 : ((Int.gcd n1 n2 * Int.lcm n1 n2 : Nat) : Int) = ((n1 * n2).natAbs : Int) := by
          rw [this]; simp [Int.natAbs_mul]
        rw [Int.natAbs_of_nonneg (mul_nonneg h1.le h2.le)] at h3
        exact_mod_cast h3
      rw [← b1] at e0
      apply Int.eq_of_mul_eq_mul_left (by omega : g ≠ 0)
      rw [e0, hm1, hm2]; ring
    have b8 : m1 ≤ n1 := by rw [hm1]; nlinarith
    have b9 : m2 ≤ n2 := by rw [hm2]; nlinarith
    have m12 : 0 < m1 * m2 := mul_pos m1pos m2pos
    have b10 : m1 * m2 ≤ Int.lcm n1 n2 := by rw [← hlcm]; nlinarith
    rw [q1, q2, sw_some w (m1 * m2) (by omega) (by omega), Option.bind_some, hlcm,
      sw_some w _ (by omega) (by omega), Option.bind_some]
    have t1e : mulS w a1 ni2 n1 = (a1 * ni2) % n1 :=
      mulS_eq w _ _ _ hw (by omega) p1 l1 b5 (by omega)
    have t2e : mulS w a2 ni1 n2 = (a2 * ni1) % n2 :=
      mulS_eq w _ _ _ hw (by omega) p2 l2 b3 (by omega)
    have t1lt := Int.emod_lt_of_pos (a1 * ni2) h1
    have t2lt := Int.emod_lt_of_pos (a2 * ni1) h2
    have t1n := Int.emod_nonneg (a1 * ni2) (by omega : n1 ≠ 0)
    have t2n := Int.emod_nonneg (a2 * ni1) (by omega : n2 ≠ 0)
    generalize hn : (Int.lcm n1 n2 : Int) = n at *
    rw [t1e, t2e, mulS_eq w _ m2 n hw (by omega) t1n (by omega) (by omega) (by omega),
      mulS_eq w _ m1 n hw (by omega) t2n (by omega) (by omega) (by omega),
      C06_add_signed_partial w _ _ n hl (by omega) (Int.emod_nonneg _ (by omega))
        (Int.emod_lt_of_pos _ lpos) (Int.emod_nonneg _ (by omega)) (Int.emod_lt_of_pos _ lpos).le,
      Option.bind_some, ← Int.add_emod]
    refine ⟨_, _, rfl, Or.inr ⟨hn.symm, Int.emod_nonneg _ (by omega), Int.emod_lt_of_pos _ lpos, ?_⟩⟩
    obtain ⟨d, hd⟩ := hd
    have key := crt_core a1 n1 a2 n2 g m1 m2 ni1 ni2 k d
      (((a1 * ni2) % n1 * m2 + (a2 * ni1) % n2 * m1) % n)
      (-((a1 * ni2) / n1) - (a2 * ni1 / n2) -
        (((a1 * ni2) % n1 * m2 + (a2 * ni1) % n2 * m1) / n))
      (by omega) hm1 hm2 b7 hd ?_
    · intro x
      exact crt_sol _ _ _ _ _ _ hn.symm key.1 key.2 x
    · have d1 := Int.mul_ediv_add_emod (a1 * ni2) n1
      have d2 := Int.mul_ediv_add_emod (a2 * ni1) n2
      have d3 := Int.mul_ediv_add_emod ((a1 * ni2) % n1 * m2 + (a2 * ni1) % n2 * m1) n
      generalize (a1 * ni2) % n1 = r1 at *
      generalize (a2 * ni1) % n2 = r2 at *
      generalize (a1 * ni2) / n1 = u1 at *
      generalize (a2 * ni1) / n2 = u2 at *
      generalize (r1 * m2 + r2 * m1) % n = r3 at *
      generalize (r1 * m2 + r2 * m1) / n = u3 at *
      rw [hm1] at d1
      rw [hm2] at d2
      rw [← hlcm] at d3
      linear_combination d3 + m2 * d1 + m1 * d2

example : crtS 32 20 3 6 0 9 = some (9, 18) ∧ crtS 32 20 1 4 2 6 = some (0, 0) := by decide +kernel

end Altruct.Modulo
