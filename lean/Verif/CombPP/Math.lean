/-
C77: the products without the multiples of `p`, and the generalized theorem of Wilson.
-/
import Mathlib.Data.ZMod.Units
import Mathlib.Data.Nat.Factorization.Basic
import Mathlib.Data.Nat.Factorial.Basic
import Mathlib.Data.Nat.Choose.Basic
import Mathlib.Algebra.BigOperators.Intervals
import Mathlib.Tactic.Ring
import Mathlib.Tactic.LinearCombination
import Mathlib.Tactic.Linarith
import Mathlib.RingTheory.Int.Basic
import Mathlib.RingTheory.PrincipalIdealDomain

namespace Altruct.CombPP

open Finset
open scoped Nat

/-- The product of the numbers up to `n` that are not multiples of `p`. -/
def skip (p n : Nat) : Nat := ∏ i ∈ range (n + 1), if p ∣ i then 1 else i

/-- `n!` without its factors `p`. -/
def red (p n : Nat) : Nat := n ! / p ^ (n !).factorization p

theorem skip_zero (p : Nat) : skip p 0 = 1 := by simp [skip]

theorem skip_succ (p n : Nat) : skip p (n + 1) = skip p n * (if p ∣ n + 1 then 1 else n + 1) := by
  rw [skip, prod_range_succ]; rfl

theorem factorial_skip (p n : Nat) (hp : 0 < p) : n ! = skip p n * ((n / p) ! * p ^ (n / p)) := by
  induction n with
  | zero => simp [skip_zero]
  | succ n ih =>
    rw [Nat.factorial_succ, skip_succ, Nat.succ_div]
    by_cases h : p ∣ n + 1
    · rw [if_pos h, if_pos h, Nat.factorial_succ, pow_succ, ih]
      have : n + 1 = p * (n / p + 1) := by
        have h2 : (n + 1) / p = n / p + 1 := by rw [Nat.succ_div, if_pos h]
        rw [← h2]; exact (Nat.mul_div_cancel' h).symm
      generalize n / p = u at *
      rw [this]; ring
    · rw [if_neg h, if_neg h, ih, add_zero]; ring

theorem factorial_div_skip (p n : Nat) (hp : 0 < p) : n ! / ((n / p) ! * p ^ (n / p)) = skip p n := by
  rw [factorial_skip p n hp]
  exact Nat.mul_div_cancel _ (Nat.mul_pos (Nat.factorial_pos _) (Nat.pow_pos hp))

theorem not_dvd_skip (p n : Nat) (hp : p.Prime) : ¬ p ∣ skip p n := by
  rw [skip, Prime.dvd_finset_prod_iff hp.prime]
  rintro ⟨i, _, h⟩
  by_cases hi : p ∣ i
  · rw [if_pos hi] at h; exact hp.one_lt.ne' (Nat.dvd_one.mp h)
  · rw [if_neg hi] at h; exact hi h

theorem skip_ne_zero (p n : Nat) (hp : p.Prime) : skip p n ≠ 0 := fun h => not_dvd_skip p n hp (h ▸ dvd_zero p)

theorem factorization_factorial (p n : Nat) (hp : p.Prime) : (n !).factorization p = n / p + ((n / p) !).factorization p := by
  conv_lhs => rw [factorial_skip p n hp.pos]
  rw [Nat.factorization_mul (skip_ne_zero p n hp) (Nat.mul_pos (Nat.factorial_pos _) (Nat.pow_pos hp.pos)).ne',
    Nat.factorization_mul (Nat.factorial_ne_zero _) (Nat.pow_pos hp.pos).ne', Finsupp.add_apply, Finsupp.add_apply,
    Nat.factorization_eq_zero_of_not_dvd (not_dvd_skip p n hp), hp.factorization_pow, Finsupp.single_eq_same]
  omega

theorem red_step (p n : Nat) (hp : p.Prime) : red p n = skip p n * red p (n / p) := by
  rw [red, red, factorization_factorial p n hp, pow_add]
  conv_lhs => rw [factorial_skip p n hp.pos]
  have hd : p ^ ((n / p) !).factorization p ∣ (n / p) ! := Nat.ordProj_dvd _ _
  rw [← Nat.div_div_eq_div_mul, show skip p n * ((n / p) ! * p ^ (n / p)) = skip p n * (n / p) ! * p ^ (n / p) by ring,
    Nat.mul_div_cancel _ (Nat.pow_pos hp.pos), Nat.mul_div_assoc _ hd]

theorem red_small (p n : Nat) (h : n ≤ 1) : red p n = 1 ∧ (n !).factorization p = 0 := by
  have : n ! = 1 := by
    rcases Nat.le_one_iff_eq_zero_or_eq_one.mp h with rfl | rfl <;> rfl
  rw [red, this]
  simp

theorem red_mul (p n : Nat) : p ^ (n !).factorization p * red p n = n ! := Nat.ordProj_mul_ordCompl_eq_self _ _

theorem not_dvd_red (p n : Nat) (hp : p.Prime) : ¬ p ∣ red p n := Nat.not_dvd_ordCompl hp (Nat.factorial_ne_zero n)

/-! ### Wilson -/

/-- In `Z/p^e` only the residues not divisible by `p` contribute. -/
def unitPart (p e : Nat) (x : ZMod (p ^ e)) : ZMod (p ^ e) := if p ∣ x.val then 1 else x

theorem unitPart_cast (p e i : Nat) (he : 0 < e) : unitPart p e (i : ZMod (p ^ e)) = ((if p ∣ i then 1 else i : Nat) : ZMod (p ^ e)) := by
  rw [unitPart, ZMod.val_natCast]
  have : p ∣ i % p ^ e ↔ p ∣ i := (Nat.dvd_mod_iff (dvd_pow_self p he.ne'))
  by_cases h : p ∣ i
  · rw [if_pos (this.mpr h), if_pos h, Nat.cast_one]
  · rw [if_neg (fun h' => h (this.mp h')), if_neg h]

theorem prod_block (p e : Nat) (a : Nat) [NeZero (p ^ e)] :
    ∏ i ∈ range (p ^ e), unitPart p e ((a + i : Nat) : ZMod (p ^ e)) = ∏ x : ZMod (p ^ e), unitPart p e x := by
  refine prod_bij (fun i _ => ((a + i : Nat) : ZMod (p ^ e))) (fun _ _ => mem_univ _) ?_ ?_ (fun _ _ => rfl)
  · intro i hi j hj h
    rw [mem_range] at hi hj
    rw [ZMod.natCast_eq_natCast_iff] at h
    have := Nat.ModEq.add_left_cancel' a h
    rwa [Nat.ModEq, Nat.mod_eq_of_lt hi, Nat.mod_eq_of_lt hj] at this
  · intro x _
    refine ⟨(x - a).val, mem_range.mpr (ZMod.val_lt _), ?_⟩
    push_cast
    rw [ZMod.natCast_zmod_val]; ring

theorem isUnit_iff_val (p e : Nat) (hp : p.Prime) (he : 0 < e) (x : ZMod (p ^ e)) : IsUnit x ↔ ¬ p ∣ x.val := by
  have : NeZero (p ^ e) := ⟨(Nat.pow_pos hp.pos).ne'⟩
  conv_lhs => rw [← ZMod.natCast_zmod_val x]
  rw [ZMod.isUnit_iff_coprime, Nat.coprime_pow_right_iff he, Nat.coprime_comm, hp.coprime_iff_not_dvd]

/-- All the units that are not their own inverse cancel. -/
theorem prod_selfinv (p e : Nat) (hp : p.Prime) (he : 0 < e) [NeZero (p ^ e)] :
    ∏ x : ZMod (p ^ e), unitPart p e x = ∏ x ∈ univ.filter (fun x : ZMod (p ^ e) => x * x = 1), x := by
  rw [← prod_filter_mul_prod_filter_not univ (fun x : ZMod (p ^ e) => x * x = 1)]
  have h1 : ∏ x ∈ univ.filter (fun x : ZMod (p ^ e) => x * x = 1), unitPart p e x = ∏ x ∈ univ.filter (fun x : ZMod (p ^ e) => x * x = 1), x := by
    refine prod_congr rfl (fun x hx => ?_)
    rw [mem_filter] at hx
    rw [unitPart, if_neg ((isUnit_iff_val p e hp he x).mp (IsUnit.of_mul_eq_one x hx.2))]
  have h2 : ∏ x ∈ univ.filter (fun x : ZMod (p ^ e) => ¬ x * x = 1), unitPart p e x = 1 := by
    have inv : ∀ x : ZMod (p ^ e), ¬ p ∣ x.val → x * x⁻¹ = 1 := fun x h => by
      obtain ⟨u, rfl⟩ := (isUnit_iff_val p e hp he x).mpr h
      rw [ZMod.inv_coe_unit, Units.mul_inv]
    have ival : ∀ x : ZMod (p ^ e), ¬ p ∣ x.val → ¬ p ∣ (x⁻¹).val := fun x h =>
      (isUnit_iff_val p e hp he _).mp (IsUnit.of_mul_eq_one x (by rw [mul_comm]; exact inv x h))
    refine prod_involution (fun x _ => if p ∣ x.val then x else x⁻¹) ?_ ?_ ?_ ?_
    all_goals intro x hx
    all_goals rw [mem_filter] at hx
    · by_cases h : p ∣ x.val
      · rw [if_pos h, unitPart, if_pos h, mul_one]
      · rw [if_neg h, unitPart, if_neg h, unitPart, if_neg (ival x h), inv x h]
    · intro hne
      by_cases h : p ∣ x.val
      · rw [unitPart, if_pos h] at hne; exact absurd rfl hne
      · rw [if_neg h]
        intro e1
        have := inv x h
        rw [e1] at this
        exact hx.2 this
    · rw [mem_filter]
      refine ⟨mem_univ _, ?_⟩
      by_cases h : p ∣ x.val
      · rw [if_pos h]; exact hx.2
      · rw [if_neg h]
        intro e1
        apply hx.2
        have := inv x h
        calc x * x = x * x * (x⁻¹ * x⁻¹) := by rw [e1, mul_one]
          _ = (x * x⁻¹) * (x * x⁻¹) := by ring
          _ = 1 := by rw [this, one_mul]
    · by_cases h : p ∣ x.val
      · simp only [if_pos h]
      · simp only [if_neg h, if_neg (ival x h)]
        have h3 := inv x h
        have h4 := inv _ (ival x h)
        calc x⁻¹⁻¹ = (x * x⁻¹) * x⁻¹⁻¹ := by rw [h3, one_mul]
          _ = x * (x⁻¹ * x⁻¹⁻¹) := by ring
          _ = x := by rw [h4, mul_one]
  rw [h1, h2, mul_one]

theorem dvd_sq_sub_one (m : Nat) [NeZero m] (x : ZMod m) (h : x * x = 1) : (m : Int) ∣ ((x.val : Int) - 1) * ((x.val : Int) + 1) := by
  rw [← ZMod.intCast_zmod_eq_zero_iff_dvd _ m]
  push_cast
  rw [ZMod.natCast_zmod_val]
  linear_combination h

theorem eq_of_dvd (m : Nat) [NeZero m] (x : ZMod m) (c : Int) (h : (m : Int) ∣ (x.val : Int) - c) : x = (c : ZMod m) := by
  rw [← ZMod.intCast_zmod_eq_zero_iff_dvd _ m] at h
  push_cast at h
  rw [ZMod.natCast_zmod_val] at h
  linear_combination h

theorem wilson_odd (p e : Nat) (hp : p.Prime) (h2 : p ≠ 2) (he : 0 < e) [NeZero (p ^ e)] : ∏ x : ZMod (p ^ e), unitPart p e x = -1 := by
  rw [prod_selfinv p e hp he]
  have hp2 : 2 < p := lt_of_le_of_ne hp.two_le (Ne.symm h2)
  have hpe : 2 < p ^ e := lt_of_lt_of_le hp2 (Nat.le_self_pow he.ne' p)
  have hne : (1 : ZMod (p ^ e)) ≠ -1 := by
    have : Fact (2 < p ^ e) := ⟨hpe⟩
    exact (ZMod.neg_one_ne_one).symm
  have hset : univ.filter (fun x : ZMod (p ^ e) => x * x = 1) = {1, -1} := by
    ext x
    simp only [mem_filter, mem_univ, true_and, mem_insert, mem_singleton]
    constructor
    · intro h
      have hd := dvd_sq_sub_one (p ^ e) x h
      have hpi : Prime (p : Int) := Nat.prime_iff_prime_int.mp hp
      push_cast at hd
      have hnot : ¬ ((p : Int) ∣ (x.val : Int) - 1 ∧ (p : Int) ∣ (x.val : Int) + 1) := by
        rintro ⟨h3, h4⟩
        have h5 : (p : Int) ∣ 2 := by
          have := dvd_sub h4 h3
          rwa [show (x.val : Int) + 1 - (x.val - 1) = 2 by ring] at this
        have := Int.le_of_dvd (by norm_num) h5
        omega
      by_cases h3 : (p : Int) ∣ (x.val : Int) - 1
      · have h4 : ¬ (p : Int) ∣ (x.val : Int) + 1 := fun h4 => hnot ⟨h3, h4⟩
        left
        have := (hpi.coprime_iff_not_dvd.mpr h4).pow_left (m := e)
        have hd' := this.dvd_of_dvd_mul_right hd
        have := eq_of_dvd (p ^ e) x 1 (by push_cast; exact hd')
        simpa using this
      · right
        have := (hpi.coprime_iff_not_dvd.mpr h3).pow_left (m := e)
        have hd' := this.dvd_of_dvd_mul_left hd
        have := eq_of_dvd (p ^ e) x (-1) (by push_cast; rw [sub_neg_eq_add]; exact hd')
        simpa using this
    · rintro (rfl | rfl) <;> ring
  rw [hset, prod_pair hne, one_mul]

theorem wilson_two (e : Nat) (he : 3 ≤ e) [NeZero (2 ^ e)] : ∏ x : ZMod (2 ^ e), unitPart 2 e x = 1 := by
  rw [prod_selfinv 2 e Nat.prime_two (by omega)]
  obtain ⟨k, rfl⟩ : ∃ k, e = k + 3 := ⟨e - 3, by omega⟩
  have hpos : 0 < 2 ^ k := Nat.pow_pos (by omega)
  generalize hh : (2 ^ (k + 2) : Nat) = h
  have hm : 2 ^ (k + 3) = 2 * h := by rw [← hh]; ring
  have h4 : 4 ≤ h := by rw [← hh, show 2 ^ (k + 2) = 4 * 2 ^ k by ring]; omega
  have h22 : ((h : Nat) : ZMod (2 ^ (k + 3))) * h = 0 := by
    rw [← Nat.cast_mul, ZMod.natCast_eq_zero_iff, hm]
    obtain ⟨c, hc⟩ : 2 ∣ h := ⟨2 ^ (k + 1), by rw [← hh]; ring⟩
    exact ⟨c, by rw [hc]; ring⟩
  have h2 : (2 : ZMod (2 ^ (k + 3))) * h = 0 := by
    have : ((2 * h : Nat) : ZMod (2 ^ (k + 3))) = 0 := by rw [ZMod.natCast_eq_zero_iff, hm]
    exact_mod_cast this
  have key : ∀ a b : Nat, a < 2 * h → b < 2 * h → a ≠ b → ((a : Nat) : ZMod (2 ^ (k + 3))) ≠ b := by
    intro a b ha hb hab e1
    rw [ZMod.natCast_eq_natCast_iff, Nat.ModEq, hm, Nat.mod_eq_of_lt ha, Nat.mod_eq_of_lt hb] at e1
    exact hab e1
  have n1 : ((2 * h - 1 : Nat) : ZMod (2 ^ (k + 3))) = -1 := by
    rw [Nat.cast_sub (by omega)]; push_cast; rw [h2]; ring
  have n2 : ((h - 1 : Nat) : ZMod (2 ^ (k + 3))) = h - 1 := by
    rw [Nat.cast_sub (by omega)]; push_cast; ring
  have hset : univ.filter (fun x : ZMod (2 ^ (k + 3)) => x * x = 1) = {((1 : Nat) : ZMod (2 ^ (k + 3))), ((2 * h - 1 : Nat) : ZMod (2 ^ (k + 3))), ((h + 1 : Nat) : ZMod (2 ^ (k + 3))), ((h - 1 : Nat) : ZMod (2 ^ (k + 3)))} := by
    ext x
    simp only [mem_filter, mem_univ, true_and, mem_insert, mem_singleton]
    rw [n1, n2]
    constructor
    · intro hx
      have hd := dvd_sq_sub_one (2 ^ (k + 3)) x hx
      have hmi : ((2 ^ (k + 3) : Nat) : Int) = 2 * h := by rw [hm]; push_cast; ring
      rw [hmi] at hd
      have hodd : (x.val : Int) % 2 = 1 := by
        by_contra hc
        obtain ⟨c, hc⟩ : ∃ c, (x.val : Int) = 2 * c := ⟨x.val / 2, by omega⟩
        obtain ⟨d, hd⟩ := hd
        rw [hc, show (2 * c - 1) * (2 * c + 1) = 2 * (2 * (c * c)) - 1 by ring, show 2 * (h : Int) * d = 2 * (h * d) by ring] at hd
        omega
      obtain ⟨c, hc⟩ : ∃ c, (x.val : Int) = 2 * c + 1 := ⟨x.val / 2, by omega⟩
      -- the modulus divides 4 c (c + 1)
      have hd1 : ((2 : Int) ^ (k + 1)) ∣ c * (c + 1) := by
        obtain ⟨d, hd⟩ := hd
        refine ⟨d, ?_⟩
        have hhk : (h : Int) = 2 * 2 ^ (k + 1) := by rw [← hh]; push_cast; ring
        rw [hc, hhk] at hd
        have : 4 * (c * (c + 1)) = 4 * (2 ^ (k + 1) * d) := by linear_combination hd
        omega
      have hcase : ((2 : Int) ^ (k + 1)) ∣ c ∨ ((2 : Int) ^ (k + 1)) ∣ c + 1 := by
        rcases Int.emod_two_eq_zero_or_one c with hp | hp
        · left
          have : IsCoprime ((2 : Int) ^ (k + 1)) (c + 1) := (Int.prime_two.coprime_iff_not_dvd.mpr (by omega)).pow_left
          exact this.dvd_of_dvd_mul_right hd1
        · right
          have : IsCoprime ((2 : Int) ^ (k + 1)) c := (Int.prime_two.coprime_iff_not_dvd.mpr (by omega)).pow_left
          exact this.dvd_of_dvd_mul_left hd1
      have hhk : (h : Int) = 2 * 2 ^ (k + 1) := by rw [← hh]; push_cast; ring
      rcases hcase with ⟨d, hd2⟩ | ⟨d, hd2⟩
      · rcases Int.emod_two_eq_zero_or_one d with hp | hp
        · left
          have := eq_of_dvd _ x 1 (by
            rw [hmi, hc]
            have hdd : d = 2 * (d / 2) := by omega
            exact ⟨d / 2, by rw [hd2, hhk]; linear_combination 2 * (2 : Int) ^ (k + 1) * hdd⟩)
          simpa using this
        · right; right; left
          have := eq_of_dvd _ x (h + 1) (by
            rw [hmi, hc]
            have hdd : d = 2 * (d / 2) + 1 := by omega
            exact ⟨d / 2, by rw [hd2, hhk]; linear_combination 2 * (2 : Int) ^ (k + 1) * hdd⟩)
          simpa using this
      · have hc' : c = 2 ^ (k + 1) * d - 1 := by linarith
        rcases Int.emod_two_eq_zero_or_one d with hp | hp
        · right; left
          have := eq_of_dvd _ x (-1) (by
            rw [hmi, hc]
            have hdd : d = 2 * (d / 2) := by omega
            exact ⟨d / 2, by rw [hc', hhk]; linear_combination 2 * (2 : Int) ^ (k + 1) * hdd⟩)
          simpa using this
        · right; right; right
          have := eq_of_dvd _ x (h - 1) (by
            rw [hmi, hc]
            have hdd : d = 2 * (d / 2) + 1 := by omega
            exact ⟨d / 2, by rw [hc', hhk]; linear_combination 2 * (2 : Int) ^ (k + 1) * hdd⟩)
          simpa using this
    · rintro (rfl | rfl | rfl | rfl)
      · push_cast; ring
      · ring
      · push_cast; linear_combination h22 + h2
      · linear_combination h22 - h2
  rw [hset, prod_insert, prod_insert, prod_insert, prod_singleton, n1, n2]
  · push_cast; linear_combination -h22
  · rw [mem_singleton]; exact key _ _ (by omega) (by omega) (by omega)
  · simp only [mem_insert, mem_singleton, not_or]
    exact ⟨key _ _ (by omega) (by omega) (by omega), key _ _ (by omega) (by omega) (by omega)⟩
  · simp only [mem_insert, mem_singleton, not_or]
    exact ⟨key _ _ (by omega) (by omega) (by omega), key _ _ (by omega) (by omega) (by omega), key _ _ (by omega) (by omega) (by omega)⟩

/-- Wilson's theorem modulo a prime power. -/
theorem wilson (p e : Nat) (hp : p.Prime) (he : 0 < e) [NeZero (p ^ e)] : ∏ x : ZMod (p ^ e), unitPart p e x = if p = 2 ∧ e ≠ 2 then 1 else -1 := by
  by_cases h2 : p = 2
  · subst h2
    by_cases h3 : 3 ≤ e
    · rw [wilson_two e h3, if_pos ⟨rfl, by omega⟩]
    · have : e = 1 ∨ e = 2 := by omega
      rcases this with rfl | rfl
      · rw [if_pos ⟨rfl, by omega⟩, ← prod_block 2 1 0]; decide +kernel
      · rw [if_neg (by simp), ← prod_block 2 2 0]; decide +kernel
  · rw [wilson_odd p e hp h2 he, if_neg (by tauto)]

/-- The product over whole blocks. -/
theorem skip_blocks (p e : Nat) (hp : p.Prime) (q r : Nat) :
    ((skip p (q * p ^ e + r) : Nat) : ZMod (p ^ e)) = (if p = 2 ∧ e ≠ 2 then 1 else -1) ^ q * ((skip p r : Nat) : ZMod (p ^ e)) := by
  rcases Nat.eq_zero_or_pos e with rfl | he
  · have : Subsingleton (ZMod (p ^ 0)) := by rw [pow_zero]; infer_instance
    exact Subsingleton.elim _ _
  · have : NeZero (p ^ e) := ⟨(Nat.pow_pos hp.pos).ne'⟩
    induction q with
    | zero => simp
    | succ q ih =>
      rw [pow_succ, mul_right_comm, ← ih]
      have e1 : ∀ n, ((skip p n : Nat) : ZMod (p ^ e)) = ∏ i ∈ range (n + 1), unitPart p e (i : ZMod (p ^ e)) := by
        intro n
        rw [skip, Nat.cast_prod]
        exact prod_congr rfl (fun i _ => (unitPart_cast p e i he).symm)
      rw [e1, e1, show (q + 1) * p ^ e + r + 1 = q * p ^ e + r + 1 + p ^ e by ring, prod_range_add, prod_block p e, wilson p e hp he]

end Altruct.CombPP
