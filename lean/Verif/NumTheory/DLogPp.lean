/-
C63 (continued): discrete logarithms modulo `2^s` and modulo `p^s`.
-/
import Verif.NumTheory.DLog
import Mathlib.NumberTheory.Multiplicity

namespace Altruct.NumTheory

open Altruct.Base (powT gcdEx)
open Altruct.Modulo (CrtSpec)

theorem powM_spec (x : Int) (e m : Nat) (hm : 0 < m) :
    ((powM x e m : Int) : ZMod m) = (x : ZMod m) ^ e ∧ 0 ≤ powM x e m ∧ powM x e m < m := by
  have : NeZero m := ⟨hm.ne'⟩
  rw [powM, Int.toNat_natCast, powT_nat]
  refine ⟨?_, by omega, by exact_mod_cast ZMod.val_lt _⟩
  rw [Int.cast_natCast, ZMod.natCast_val, ZMod.cast_id]

theorem zmod_one_iff (v : Int) (m : Nat) (hm : 1 < m) (h0 : 0 ≤ v) (h1 : v < m) : (v : ZMod m) = 1 ↔ v = 1 := by
  have : ((1 : Int) : ZMod m) = 1 := Int.cast_one
  rw [← this, ZMod.intCast_eq_intCast_iff, Int.ModEq, Int.emod_eq_of_lt h0 h1, Int.emod_eq_of_lt (by omega) (by omega)]

theorem mulM_cast (x y : Int) (m : Nat) (hx : 0 ≤ x) (hy : 0 ≤ y) : ((mulM x y m : Int) : ZMod m) = (x : ZMod m) * (y : ZMod m) := by
  rw [mulM_eq _ _ _ hx hy, ← Int.cast_mul, ZMod.intCast_eq_intCast_iff, Int.ModEq, Int.emod_emod]

theorem mulM_lt (x y : Int) (m : Nat) (hm : 0 < m) (hx : 0 ≤ x) (hy : 0 ≤ y) : mulM x y m < m := by
  rw [mulM_eq _ _ _ hx hy]
  exact Int.emod_lt_of_pos _ (by omega)

/-! ### modulo a power of two -/

theorem p2Loop_spec (m : Nat) (hm : 1 < m) (A : ZMod m) (T : Nat) (hT : A ^ 2 ^ T = 1) : ∀ (fuel t : Nat) (ao : Int), t ≤ T → T < fuel + t →
    0 ≤ ao → ao < m → (ao : ZMod m) = A ^ 2 ^ t → (∀ j < t, A ^ 2 ^ j ≠ 1) →
    ∃ t', p2Loop m fuel ao ((2 ^ t : Nat) : Int) t = some (((2 ^ t' : Nat) : Int), t') ∧ A ^ 2 ^ t' = 1 ∧ ∀ j < t', A ^ 2 ^ j ≠ 1 := by
  intro fuel
  induction fuel with
  | zero => intro t ao h1 h2; omega
  | succ fuel ih =>
    intro t ao h1 h2 h3 h4 h5 h6
    rw [p2Loop]
    have hiff := zmod_one_iff ao m hm h3 h4
    by_cases h : ao = 1
    · rw [if_neg (not_not.mpr h)]
      exact ⟨t, rfl, by rw [← h5, hiff.mpr h], h6⟩
    · rw [if_pos h]
      have hne : A ^ 2 ^ t ≠ 1 := by rw [← h5, Ne, hiff]; exact h
      have htT : t ≠ T := by rintro rfl; exact hne hT
      have e : ((2 ^ t : Nat) : Int) * 2 = ((2 ^ (t + 1) : Nat) : Int) := by push_cast; ring
      rw [e]
      refine ih (t + 1) (mulM ao ao m) (by omega) (by omega) (mulM_nonneg _ _ _ h3 h3) (mulM_lt _ _ _ (by omega) h3 h3) ?_ ?_
      · rw [mulM_cast _ _ _ h3 h3, h5, ← pow_add, ← two_mul, ← pow_succ']
      · intro j hj
        by_cases hjt : j = t
        · rw [hjt]; exact hne
        · exact h6 j (by omega)

theorem p2Bits_spec (m : Nat) (hm : 1 < m) (A : ZMod m) (ai b : Int) (t y : Nat) (hai0 : 0 ≤ ai) (hb0 : 0 ≤ b) (hai : (ai : ZMod m) * A = 1)
    (hb : (b : ZMod m) = A ^ y) (hA : orderOf A = 2 ^ t) (hy : y < 2 ^ t) : ∀ (n i : Nat), n + i = t →
    p2Bits b ai ((2 ^ t : Nat) : Int) m n i ((y % 2 ^ i : Nat) : Int) = (y : Int) := by
  intro n
  induction n with
  | zero =>
    intro i hi
    have : i = t := by omega
    subst this
    rw [p2Bits, Nat.mod_eq_of_lt hy]
  | succ n ih =>
    intro i hi
    rw [p2Bits]
    have he : ((2 ^ t : Nat) : Int) >>> (i + 1) = ((2 ^ (t - (i + 1)) : Nat) : Int) := by
      rw [Int.shiftRight_eq_div_pow]
      have : 2 ^ t = 2 ^ (i + 1) * 2 ^ (t - (i + 1)) := by rw [← pow_add]; congr 1; omega
      rw [this]
      push_cast
      exact Int.mul_ediv_cancel_left _ (by positivity)
    rw [he]
    obtain ⟨q1, q2, q3⟩ := powM_spec ai (y % 2 ^ i) m (by omega)
    have hw0 := mulM_nonneg b (powM ai ((y % 2 ^ i : Nat) : Int) m) m hb0 q2
    obtain ⟨r1, r2, r3⟩ := powM_spec (mulM b (powM ai ((y % 2 ^ i : Nat) : Int) m) m) (2 ^ (t - (i + 1))) m (by omega)
    have hdm := Nat.div_add_mod y (2 ^ i)
    rw [mulM_cast _ _ _ hb0 q2, q1, hb] at r1
    have h1 : A ^ y * (ai : ZMod m) ^ (y % 2 ^ i) = A ^ (2 ^ i * (y / 2 ^ i)) := by
      conv_lhs => arg 1; rw [← hdm, pow_add]
      rw [mul_assoc, ← mul_pow, mul_comm A, hai, one_pow, mul_one]
    rw [h1, ← pow_mul] at r1
    have hone := zmod_one_iff _ m hm r2 r3
    rw [r1] at hone
    have hpar : A ^ (2 ^ i * (y / 2 ^ i) * 2 ^ (t - (i + 1))) = 1 ↔ 2 ∣ y / 2 ^ i := by
      rw [← orderOf_dvd_iff_pow_eq_one, hA]
      have e2 : 2 ^ t = 2 ^ i * 2 ^ (t - (i + 1)) * 2 := by
        rw [← pow_add, ← pow_succ]; congr 1; omega
      have e3 : 2 ^ i * (y / 2 ^ i) * 2 ^ (t - (i + 1)) = 2 ^ i * 2 ^ (t - (i + 1)) * (y / 2 ^ i) := by ring
      rw [e2, e3]
      exact Nat.mul_dvd_mul_iff_left (by positivity)
    rw [hpar] at hone
    have hnext : (if powM (mulM b (powM ai ((y % 2 ^ i : Nat) : Int) m) m) ((2 ^ (t - (i + 1)) : Nat) : Int) m ≠ 1 then
        ((y % 2 ^ i : Nat) : Int) + 1 <<< i else ((y % 2 ^ i : Nat) : Int)) = ((y % 2 ^ (i + 1) : Nat) : Int) := by
      rw [pow_succ, Nat.mod_mul]
      by_cases h2 : 2 ∣ y / 2 ^ i
      · rw [if_neg (not_not.mpr (hone.mp h2)), Nat.mod_eq_zero_of_dvd h2, Nat.mul_zero, Nat.add_zero]
      · rw [if_pos (fun h => h2 (hone.mpr h)), show y / 2 ^ i % 2 = 1 by omega, Nat.shiftLeft_eq]
        push_cast
        ring
    rw [hnext]
    exact ih (i + 1) (by omega)

/-- **C63**: `discrete_log_p2` finds the least logarithm modulo `2^s` of every power `b` of an odd `a`. -/
theorem C63_discrete_log_p2 (a b s : Nat) (hs : 1 ≤ s) (ha : a % 2 = 1) (has : a < 2 ^ s) (hb : ∃ y, a ^ y ≡ b [MOD 2 ^ s]) :
    ∃ x : Nat, dlogP2 a b s = some (x : Int) ∧ a ^ x ≡ b [MOD 2 ^ s] ∧ ∀ y, a ^ y ≡ b [MOD 2 ^ s] → x ≤ y := by
  obtain ⟨y, hy⟩ := hb
  have hm : 1 < 2 ^ s := Nat.one_lt_two_pow (by omega)
  have hodd : Nat.Coprime a (2 ^ s) := Nat.Coprime.pow_right s (Nat.coprime_two_right.mpr (Nat.odd_iff.mpr ha))
  have hT : ((a : Int) : ZMod (2 ^ s)) ^ 2 ^ (s - 1) = 1 := by
    have := Nat.ModEq.pow_totient hodd
    rw [Nat.totient_prime_pow Nat.prime_two (by omega)] at this
    have := (pow_eq_iff_modEq (2 ^ s) a 1 _).mpr this
    simpa using this
  obtain ⟨t, e, ht1, ht2⟩ := p2Loop_spec (2 ^ s) hm ((a : Int) : ZMod (2 ^ s)) (s - 1) hT (s + 1) 0 a (by omega) (by omega)
    (by omega) (by exact_mod_cast has) (by simp) (fun j hj => by omega)
  have hord : orderOf ((a : Int) : ZMod (2 ^ s)) = 2 ^ t := by
    rcases Nat.eq_zero_or_pos t with h | h
    · rw [h] at ht1 ⊢
      rw [pow_zero, pow_one] at ht1
      rw [ht1]; simp
    · obtain ⟨u, rfl⟩ := Nat.exists_eq_succ_of_ne_zero (by omega : t ≠ 0)
      have : Fact (Nat.Prime 2) := ⟨Nat.prime_two⟩
      exact orderOf_eq_prime_pow (ht2 u (by omega)) ht1
  obtain ⟨i1, i2, i3⟩ := invM_spec (a : Int) ((2 ^ s : Nat) : Int) (by omega) (by positivity) (by rw [Int.gcd_natCast_natCast]; exact hodd)
  have hai : ((invM (a : Int) ((2 ^ s : Nat) : Int) : Int) : ZMod (2 ^ s)) * ((a : Int) : ZMod (2 ^ s)) = 1 := by
    have := (ZMod.intCast_eq_intCast_iff_dvd_sub 1 ((a : Int) * invM (a : Int) ((2 ^ s : Nat) : Int)) (2 ^ s)).mpr i3
    push_cast at this
    rw [mul_comm]
    push_cast
    exact this.symm
  have hf := isOfFin _ _ (by positivity) ht1
  have hy' := (pow_eq_iff_modEq (2 ^ s) a b y).mpr hy
  have hlt : y % 2 ^ t < 2 ^ t := Nat.mod_lt _ (by positivity)
  have hb' : ((b : Int) : ZMod (2 ^ s)) = ((a : Int) : ZMod (2 ^ s)) ^ (y % 2 ^ t) := by rw [← hord, pow_mod_orderOf, hy']
  have := p2Bits_spec (2 ^ s) hm ((a : Int) : ZMod (2 ^ s)) _ b t (y % 2 ^ t) i1 (by omega) hai hb' hord hlt t 0 (by omega)
  refine ⟨y % 2 ^ t, ?_, (pow_eq_iff_modEq _ _ _ _).mp hb'.symm, fun z hz => ?_⟩
  · rw [dlogP2]
    have e2 : powT (2 : Int) s = ((2 ^ s : Nat) : Int) := by rw [powT_nat]; push_cast; rfl
    simp only
    rw [e2]
    rw [pow_zero] at e
    rw [show ((1 : Nat) : Int) = 1 from rfl] at e
    rw [e, Option.bind_eq_bind, Option.bind_some]
    rw [pow_zero, Nat.mod_one] at this
    rw [← this]
    rfl
  · have h1 := (pow_eq_iff_modEq (2 ^ s) a b z).mpr hz
    have h4 := hf.pow_inj_mod.mp (h1.trans hy'.symm)
    rw [hord] at h4
    rw [← h4]
    exact Nat.mod_le _ _

example : dlogP2 3 11 5 = some 7 ∧ (3 ^ 7 : Nat) ≡ 11 [MOD 2 ^ 5] := by decide +kernel

/-! ### modulo an odd prime power -/

theorem one_add_pow (P θ : Int) (x : Nat) : P ^ 2 ∣ (1 + P * θ) ^ x - (1 + P * (x * θ)) := by
  induction x with
  | zero => simp
  | succ x ih =>
    obtain ⟨c, hc⟩ := ih
    have : (1 + P * θ) ^ x = 1 + P * (x * θ) + P ^ 2 * c := by linarith
    refine ⟨c * (1 + P * θ) + x * θ * θ, ?_⟩
    rw [pow_succ, this]
    push_cast
    ring

/-- Lifting the exponent: `p^s` divides `x - y` exactly if `p^(2s-1)` divides `x^phi - y^phi`. -/
theorem lift_phi (p s : Nat) (hp : p.Prime) (hodd : Odd p) (hs : 1 ≤ s) (x y : Int) (hxy : (p : Int) ∣ x - y) (hx : ¬ (p : Int) ∣ x) :
    (p : Int) ^ s ∣ x - y ↔ (p : Int) ^ (2 * s - 1) ∣ x ^ ((p - 1) * p ^ (s - 1)) - y ^ ((p - 1) * p ^ (s - 1)) := by
  have : Fact p.Prime := ⟨hp⟩
  have h := Int.emultiplicity_pow_sub_pow hp hodd hxy hx ((p - 1) * p ^ (s - 1))
  have hp2 := hp.two_le
  have hv : emultiplicity p ((p - 1) * p ^ (s - 1)) = (s - 1 : Nat) := by
    rw [emultiplicity_eq_coe]
    refine ⟨Dvd.intro_left _ rfl, fun hd => ?_⟩
    rw [pow_succ'] at hd
    have := Nat.dvd_of_mul_dvd_mul_right (pow_pos hp.pos _) hd
    have := Nat.le_of_dvd (by omega) this
    omega
  rw [hv] at h
  rw [pow_dvd_iff_le_emultiplicity, pow_dvd_iff_le_emultiplicity, h]
  have : ((2 * s - 1 : Nat) : ℕ∞) = (s : ℕ∞) + ((s - 1 : Nat) : ℕ∞) := by
    rw [← Nat.cast_add]; congr 1; omega
  rw [this]
  exact (ENat.add_le_add_iff_right (ENat.natCast_ne_top _)).symm

theorem theta_spec (p s c : Nat) (hp : p.Prime) (hs : 1 ≤ s) (hc : Nat.Coprime c p) :
    ∃ θ : Nat, theta (((p - 1) * p ^ (s - 1) : Nat) : Int) ((p ^ s : Nat) : Int) ((p ^ (s - 1) : Nat) : Int) c = θ ∧
      (p : Int) ^ (2 * s - 1) ∣ (c : Int) ^ ((p - 1) * p ^ (s - 1)) - (1 + (p : Int) ^ s * θ) := by
  have hN : ((p ^ s : Nat) : Int) * ((p ^ (s - 1) : Nat) : Int) = ((p ^ (2 * s - 1) : Nat) : Int) := by
    rw [← Nat.cast_mul, ← pow_add]; congr 2; omega
  rw [theta, hN]
  have hNpos : 0 < p ^ (2 * s - 1) := pow_pos hp.pos _
  obtain ⟨r1, r2, r3⟩ := powM_spec (c : Int) ((p - 1) * p ^ (s - 1)) (p ^ (2 * s - 1)) hNpos
  generalize powM (c : Int) (((p - 1) * p ^ (s - 1) : Nat) : Int) ((p ^ (2 * s - 1) : Nat) : Int) = r at *
  have h1 : ((p ^ (2 * s - 1) : Nat) : Int) ∣ (c : Int) ^ ((p - 1) * p ^ (s - 1)) - r := by
    rw [← ZMod.intCast_eq_intCast_iff_dvd_sub, r1]
    push_cast
    rfl
  have h2 : ((p ^ s : Nat) : Int) ∣ (c : Int) ^ ((p - 1) * p ^ (s - 1)) - 1 := by
    have h := Nat.ModEq.pow_totient (Nat.Coprime.pow_right s hc)
    rw [Nat.totient_prime_pow hp (by omega), Nat.mul_comm] at h
    have := (Nat.modEq_iff_dvd.mp h.symm)
    push_cast at this ⊢
    exact this
  have h3 : ((p ^ s : Nat) : Int) ∣ r - 1 := by
    have hd : ((p ^ s : Nat) : Int) ∣ ((p ^ (2 * s - 1) : Nat) : Int) := Int.natCast_dvd_natCast.mpr (pow_dvd_pow p (by omega))
    have := dvd_sub h2 (hd.trans h1)
    rwa [sub_sub_sub_cancel_left] at this
  have hps : 1 < p ^ s := Nat.one_lt_pow (by omega) hp.one_lt
  obtain ⟨k, hk⟩ := h3
  have hk0 : 0 ≤ k := by
    by_contra hneg
    have : ((p ^ s : Nat) : Int) * k ≤ ((p ^ s : Nat) : Int) * (-1) := Int.mul_le_mul_of_nonneg_left (by omega) (by omega)
    omega
  obtain ⟨θ, rfl⟩ := Int.eq_ofNat_of_zero_le hk0
  refine ⟨θ, ?_, ?_⟩
  · rw [hk, Int.mul_tdiv_cancel_left _ (by omega)]
  · push_cast at h1 hk
    rw [show (1 + (p : Int) ^ s * θ) = r by rw [← hk]; ring]
    exact h1

/-- The logarithm modulo `p^s` in terms of the one modulo `p` and the linear equation for `theta`. -/
theorem theta_iff (p s a b : Nat) (hp : p.Prime) (hodd : Odd p) (hs : 1 ≤ s) (ha : Nat.Coprime a p) (θa θb : Nat)
    (hθa : (p : Int) ^ (2 * s - 1) ∣ (a : Int) ^ ((p - 1) * p ^ (s - 1)) - (1 + (p : Int) ^ s * θa))
    (hθb : (p : Int) ^ (2 * s - 1) ∣ (b : Int) ^ ((p - 1) * p ^ (s - 1)) - (1 + (p : Int) ^ s * θb))
    (x : Nat) (hx : (p : Int) ∣ (a : Int) ^ x - b) :
    (p : Int) ^ s ∣ (a : Int) ^ x - b ↔ (p : Int) ^ (s - 1) ∣ (x : Int) * θa - θb := by
  have hna : ¬ (p : Int) ∣ (a : Int) ^ x := by
    intro h
    have h1 : p ∣ a ^ x := by exact_mod_cast h
    have := hp.dvd_of_dvd_pow h1
    exact (Nat.Prime.coprime_iff_not_dvd hp).mp (Nat.coprime_comm.mp ha) this
  rw [lift_phi p s hp hodd hs _ _ hx hna]
  generalize hphi : (p - 1) * p ^ (s - 1) = phi at *
  have hN : (p : Int) ^ (2 * s - 1) = (p : Int) ^ s * (p : Int) ^ (s - 1) := by rw [← pow_add]; congr 1; omega
  have h2s : (p : Int) ^ (2 * s - 1) ∣ ((p : Int) ^ s) ^ 2 := by rw [← pow_mul]; exact pow_dvd_pow _ (by omega)
  have e1 : (p : Int) ^ (2 * s - 1) ∣ ((a : Int) ^ x) ^ phi - (1 + (p : Int) ^ s * θa) ^ x := by
    rw [pow_right_comm]
    exact hθa.trans (sub_dvd_pow_sub_pow _ _ _)
  have e2 := h2s.trans (one_add_pow ((p : Int) ^ s) θa x)
  have e3 : (p : Int) ^ (2 * s - 1) ∣ (((a : Int) ^ x) ^ phi - (b : Int) ^ phi) - (p : Int) ^ s * ((x : Int) * θa - θb) := by
    have := dvd_sub (dvd_add e1 e2) hθb
    have e4 : ((a : Int) ^ x) ^ phi - (1 + (p : Int) ^ s * θa) ^ x + ((1 + (p : Int) ^ s * θa) ^ x - (1 + (p : Int) ^ s * (x * θa))) -
        ((b : Int) ^ phi - (1 + (p : Int) ^ s * θb)) = (((a : Int) ^ x) ^ phi - (b : Int) ^ phi) - (p : Int) ^ s * ((x : Int) * θa - θb) := by ring
    rwa [e4] at this
  rw [dvd_iff_dvd_of_dvd_sub e3, hN]
  exact mul_dvd_mul_iff_left (pow_ne_zero _ (by exact_mod_cast hp.ne_zero))

theorem thetaLoop_spec (p : Nat) (hp : p.Prime) : ∀ (fuel i ta tb : Nat), i < fuel →
    ∃ j ta' tb' : Nat, j ≤ i ∧ thetaLoop p fuel ta tb ((p ^ i : Nat) : Int) = some ((ta' : Int), (tb' : Int), ((p ^ (i - j) : Nat) : Int)) ∧
      ta = ta' * p ^ j ∧ tb = tb' * p ^ j ∧ ¬ (p ∣ ta' ∧ p ∣ tb' ∧ p ∣ p ^ (i - j)) := by
  intro fuel
  induction fuel with
  | zero => intro i ta tb h; omega
  | succ fuel ih =>
    intro i ta tb h
    have hp0 : (p : Int) ≠ 0 := by exact_mod_cast hp.ne_zero
    have hiff : ∀ n : Nat, (n : Int).tmod p = 0 ↔ p ∣ n := by
      intro n
      rw [← Int.dvd_iff_tmod_eq_zero, Int.natCast_dvd_natCast]
    rw [thetaLoop]
    by_cases hc : p ∣ ta ∧ p ∣ tb ∧ p ∣ p ^ i
    · rw [if_pos ⟨(hiff _).mpr hc.1, (hiff _).mpr hc.2.1, (hiff _).mpr hc.2.2⟩]
      obtain ⟨⟨ta1, rfl⟩, ⟨tb1, rfl⟩, h3⟩ := hc
      have hi : i ≠ 0 := by
        rintro rfl
        rw [pow_zero] at h3
        exact hp.one_lt.ne' (Nat.dvd_one.mp h3)
      have e1 : ∀ n : Nat, ((p * n : Nat) : Int).tdiv p = n := by
        intro n; push_cast; exact Int.mul_tdiv_cancel_left _ hp0
      have e2 : p ^ i = p * p ^ (i - 1) := by rw [← pow_succ']; congr 1; omega
      rw [e1, e1, e2, e1]
      obtain ⟨j, ta', tb', h4, h5, h6, h7, h8⟩ := ih (i - 1) ta1 tb1 (by omega)
      refine ⟨j + 1, ta', tb', by omega, ?_, by rw [h6]; ring, by rw [h7]; ring, ?_⟩
      · rw [h5, show i - 1 - j = i - (j + 1) by omega]
      · rw [show i - (j + 1) = i - 1 - j by omega]; exact h8
    · rw [if_neg (fun h' => hc ⟨(hiff _).mp h'.1, (hiff _).mp h'.2.1, (hiff _).mp h'.2.2⟩)]
      exact ⟨0, ta, tb, by omega, rfl, by simp, by simp, hc⟩

/-- **C63**: `discrete_log_pp` finds a logarithm modulo `p^s` of every power `b` of `a`. -/
theorem C63_discrete_log_pp (a b p s : Nat) (hp : p.Prime) (hl : p.log2 < 2 ^ 63) (ha : Nat.Coprime a p) (has : a < p ^ s)
    (hy : ∃ y, a ^ y ≡ b [MOD p ^ s]) :
    ∃ x : Nat, dlogPp a b p s = some (x : Int) ∧ a ^ x ≡ b [MOD p ^ s] := by
  obtain ⟨y, hy⟩ := hy
  rw [dlogPp]
  by_cases h0 : s = 0
  · rw [if_pos h0]
    exact ⟨0, rfl, by rw [h0, pow_zero]; exact Nat.modEq_one⟩
  rw [if_neg h0]
  by_cases h1 : (a : Int) = 1
  · rw [if_pos h1]
    have : a = 1 := by omega
    rw [this, one_pow] at hy
    exact ⟨0, rfl, by rw [pow_zero]; exact hy⟩
  rw [if_neg h1]
  by_cases h2 : (b : Int) = 1
  · rw [if_pos h2]
    have : b = 1 := by omega
    exact ⟨0, rfl, by rw [pow_zero, this]⟩
  rw [if_neg h2]
  by_cases h3 : (a : Int) = b
  · rw [if_pos h3]
    have : a = b := by omega
    exact ⟨1, rfl, by rw [pow_one, this]⟩
  rw [if_neg h3]
  by_cases h4 : p = 2
  · rw [if_pos h4]
    subst h4
    obtain ⟨x, e, x1, _⟩ := C63_discrete_log_p2 a b s (by omega) (Nat.odd_iff.mp (Nat.coprime_two_right.mp ha)) has ⟨y, hy⟩
    exact ⟨x, e, x1⟩
  rw [if_neg h4]
  have hodd : Odd p := hp.odd_of_ne_two h4
  have hp2 := hp.two_le
  have hyp : a ^ y ≡ b [MOD p] := hy.of_dvd (dvd_pow_self p h0)
  have hap : (a % p) ^ y ≡ b % p [MOD p] := ((Nat.mod_modEq a p).pow y).trans (hyp.trans (Nat.mod_modEq b p).symm)
  have hcop : Nat.Coprime (a % p) p := by
    unfold Nat.Coprime at ha ⊢
    rwa [← Nat.gcd_rec, Nat.gcd_comm]
  have e1 : ∀ n : Nat, (n : Int).tmod p = ((n % p : Nat) : Int) := fun n => rfl
  rw [e1, e1]
  have hx1 : ∃ x1 : Nat, oddp ((a % p : Nat) : Int) ((b % p : Nat) : Int) p = x1 ∧ a ^ x1 ≡ b [MOD p] := by
    rcases C63_oddp (a % p) (b % p) p hp hl hcop with ⟨x, e, x1, _⟩ | ⟨_, h⟩
    · exact ⟨x, e, ((Nat.mod_modEq a p).pow x).symm.trans (x1.trans (Nat.mod_modEq b p))⟩
    · exact absurd hap (h y)
  obtain ⟨x1, ex, hx1⟩ := hx1
  rw [ex]
  simp only
  by_cases h5 : s = 1
  · rw [if_pos h5]
    refine ⟨x1, rfl, ?_⟩
    rw [h5, pow_one]; exact hx1
  rw [if_neg h5]
  have eps1 : powT (p : Int) ((s : Int) - 1) = ((p ^ (s - 1) : Nat) : Int) := by
    rw [show (s : Int) - 1 = ((s - 1 : Nat) : Int) by omega, powT_nat]; push_cast; rfl
  have ephi : ((p : Int) - 1) * ((p ^ (s - 1) : Nat) : Int) = (((p - 1) * p ^ (s - 1) : Nat) : Int) := by
    rw [show (p : Int) - 1 = ((p - 1 : Nat) : Int) by omega]; push_cast; rfl
  have eps : ((p ^ (s - 1) : Nat) : Int) * p = ((p ^ s : Nat) : Int) := by
    conv_rhs => rw [show s = s - 1 + 1 by omega, pow_succ]
    push_cast
    rfl
  rw [eps1, ephi, eps]
  have hb : Nat.Coprime b p := by
    have h := hyp.gcd_eq
    unfold Nat.Coprime
    rw [← h]
    exact ha.pow_left y
  obtain ⟨θa, ea, hθa⟩ := theta_spec p s a hp (by omega) ha
  obtain ⟨θb, eb, hθb⟩ := theta_spec p s b hp (by omega) hb
  rw [ea, eb]
  obtain ⟨j, ta, tb, j1, j2, j3, j4, j5⟩ := thetaLoop_spec p hp (s + 1) (s - 1) θa θb (by omega)
  rw [j2, Option.bind_eq_bind, Option.bind_some]
  have hiff := theta_iff p s a b hp hodd (by omega) ha θa θb hθa hθb
  have hdvd : ∀ x : Nat, (p : Int) ∣ (a : Int) ^ x - b → (a ^ x ≡ b [MOD p ^ s] ↔ ((p ^ (s - 1 - j) : Nat) : Int) ∣ (x : Int) * ta - tb) := by
    intro x hx
    have h6 : a ^ x ≡ b [MOD p ^ s] ↔ (p : Int) ^ s ∣ (a : Int) ^ x - b := by
      rw [Nat.ModEq.comm, Nat.modEq_iff_dvd]
      push_cast
      rfl
    rw [h6, hiff x hx, j3, j4]
    have e : ((x : Int) * ((ta * p ^ j : Nat) : Int) - ((tb * p ^ j : Nat) : Int)) = (p : Int) ^ j * ((x : Int) * ta - tb) := by push_cast; ring
    have e' : (p : Int) ^ (s - 1) = (p : Int) ^ j * (p : Int) ^ (s - 1 - j) := by rw [← pow_add]; congr 1; omega
    rw [e, e', mul_dvd_mul_iff_left (pow_ne_zero _ (by exact_mod_cast hp.ne_zero))]
    push_cast
    rfl
  have hydvd : (p : Int) ∣ (a : Int) ^ y - b := by
    have := Nat.modEq_iff_dvd.mp hyp.symm
    push_cast at this
    exact this
  have hsol := (hdvd y hydvd).mp hy
  -- ta is invertible
  have hgcd : Int.gcd (ta : Int) ((p ^ (s - 1 - j) : Nat) : Int) = 1 := by
    rw [Int.gcd_natCast_natCast]
    rcases Nat.eq_zero_or_pos (s - 1 - j) with h | h
    · rw [h, pow_zero]; exact Nat.gcd_one_right _
    · apply Nat.Coprime.pow_right
      rw [Nat.coprime_comm, Nat.Prime.coprime_iff_not_dvd hp]
      intro hd
      apply j5
      have hpp : p ∣ p ^ (s - 1 - j) := dvd_pow_self p (by omega)
      refine ⟨hd, ?_, hpp⟩
      have h7 : (p : Int) ∣ (y : Int) * ta - tb := (Int.natCast_dvd_natCast.mpr hpp).trans hsol
      have h8 : (p : Int) ∣ (y : Int) * ta := (Int.natCast_dvd_natCast.mpr hd).mul_left _
      have := dvd_sub h8 h7
      rw [sub_sub_cancel] at this
      exact_mod_cast this
  have hMpos : 0 < p ^ (s - 1 - j) := pow_pos hp.pos _
  obtain ⟨i1, i2, i3⟩ := invM_spec (ta : Int) ((p ^ (s - 1 - j) : Nat) : Int) (by omega) (by omega) hgcd
  have hcop2 : Nat.Coprime (p - 1) (p ^ (s - 1 - j)) := by
    apply Nat.Coprime.pow_right
    rw [Nat.coprime_comm, Nat.Prime.coprime_iff_not_dvd hp]
    intro h
    have := Nat.le_of_dvd (by omega) h
    omega
  generalize hM : p ^ (s - 1 - j) = M at *
  have hxs0 := mulM_nonneg (tb : Int) (invM (ta : Int) M) M (by omega) i1
  have hxs : (M : Int) ∣ mulM (tb : Int) (invM (ta : Int) M) M * ta - tb := by
    rw [mulM_eq _ _ _ (by omega) i1]
    have e := Int.mul_ediv_add_emod ((tb : Int) * invM (ta : Int) M) M
    obtain ⟨c, hc⟩ := i3
    refine ⟨(tb : Int) * c - ((tb : Int) * invM (ta : Int) M / M) * ta, ?_⟩
    have e' : (tb : Int) * invM (ta : Int) M % M = (tb : Int) * invM (ta : Int) M - M * ((tb : Int) * invM (ta : Int) M / M) := by linarith
    rw [e']
    linear_combination (tb : Int) * hc
  simp only
  generalize mulM (tb : Int) (invM (ta : Int) M) M = xs at *
  obtain ⟨xs, rfl⟩ := Int.eq_ofNat_of_zero_le hxs0
  have hcrt := crt_spec (x1 : Int) ((p : Int) - 1) (xs : Int) (M : Int) (by omega) (by omega) (by omega) (by omega)
  generalize crt (x1 : Int) ((p : Int) - 1) (xs : Int) (M : Int) = R at *
  obtain ⟨A, N⟩ := R
  simp only at hcrt
  rcases hcrt with ⟨_, _, h⟩ | ⟨_, hA0, hA1, hA⟩
  · exfalso
    apply h
    obtain ⟨k, k1, k2⟩ := Nat.chineseRemainder hcop2 x1 xs
    refine ⟨(k : Int), ?_, ?_⟩
    · have := Nat.modEq_iff_dvd.mp k1.symm
      rwa [show ((p - 1 : Nat) : Int) = (p : Int) - 1 by omega] at this
    · exact Nat.modEq_iff_dvd.mp k2.symm
  · obtain ⟨X, rfl⟩ := Int.eq_ofNat_of_zero_le hA0
    obtain ⟨g1, g2⟩ := (hA X).mpr (by rw [sub_self]; exact dvd_zero _)
    refine ⟨X, rfl, ?_⟩
    have hXp : a ^ X ≡ b [MOD p] := by
      have h6 : X ≡ x1 [MOD p - 1] := by
        rw [Nat.ModEq.comm, Nat.modEq_iff_dvd, show ((p - 1 : Nat) : Int) = (p : Int) - 1 by omega]
        exact g1
      have h7 : a ^ (p - 1) ≡ 1 [MOD p] := by
        have := Nat.ModEq.pow_totient ha
        rwa [Nat.totient_prime hp] at this
      refine Nat.ModEq.trans ?_ hx1
      have key : ∀ n, a ^ n ≡ a ^ (n % (p - 1)) [MOD p] := by
        intro n
        conv_lhs => rw [← Nat.div_add_mod n (p - 1), pow_add, pow_mul]
        have := (h7.pow (n / (p - 1))).mul_right (a ^ (n % (p - 1)))
        rwa [one_pow, one_mul] at this
      have h8 : X % (p - 1) = x1 % (p - 1) := h6
      exact (key X).trans ((by rw [h8]) : a ^ (X % (p - 1)) ≡ a ^ (x1 % (p - 1)) [MOD p]) |>.trans (key x1).symm
    refine (hdvd X ?_).mpr ?_
    · have := Nat.modEq_iff_dvd.mp hXp.symm
      push_cast at this
      exact this
    · obtain ⟨c, hc⟩ := g2
      obtain ⟨d, hd⟩ := hxs
      exact ⟨c * ta + d, by linear_combination (ta : Int) * hc + hd⟩

example : dlogPp 2 5 3 4 = some 23 ∧ (2 ^ 23 : Nat) ≡ 5 [MOD 3 ^ 4] := by decide +kernel

end Altruct.NumTheory
