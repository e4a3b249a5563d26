/-
C50: Miller-Rabin never rejects a prime; `factor_integer` is a factorisation.
-/
import Verif.Factorization.Model
import Verif.Modulo.InvProps
import Verif.Modulo.RingProps
import Mathlib.Tactic.NormNum.Prime
import Mathlib.FieldTheory.Finite.Basic
import Mathlib.Data.Nat.Factorization.Basic

namespace Altruct.Factorization

open Altruct.Modulo

/-! ### Miller-Rabin -/

theorem twos_spec : ∀ (fuel d r : Nat), 0 < d → d ≤ fuel →
    ∃ d' r', twos fuel d r = some (d', r') ∧ d' * 2 ^ (r' - r) = d ∧ r ≤ r' ∧ d' % 2 = 1 := by
  intro fuel
  induction fuel with
  | zero => intro d r h1 h2; omega
  | succ fuel ih =>
    intro d r h1 h2
    rw [twos]
    by_cases h : d % 2 = 0
    · rw [if_pos h]
      obtain ⟨d', r', e, h3, h4, h5⟩ := ih (d / 2) (r + 1) (by omega) (by omega)
      refine ⟨d', r', e, ?_, by omega, h5⟩
      rw [show r' - r = r' - (r + 1) + 1 by omega, pow_succ, ← mul_assoc, h3]; omega
    · rw [if_neg h]
      exact ⟨d, r, rfl, by simp, le_refl _, by omega⟩

section prime
variable {n : Nat} [hp : Fact n.Prime]

theorem cast_one_iff {x : Nat} (hx : x < n) : ((x : Nat) : ZMod n) = 1 ↔ x = 1 := by
  have h2 := hp.out.two_le
  constructor
  · intro h
    have h1 : ((x : Nat) : ZMod n) = ((1 : Nat) : ZMod n) := by rw [h, Nat.cast_one]
    rw [ZMod.natCast_eq_natCast_iff, Nat.ModEq, Nat.mod_eq_of_lt hx, Nat.mod_eq_of_lt (by omega)] at h1
    exact h1
  · rintro rfl; simp

theorem cast_neg_iff {x : Nat} (hx : x < n) : ((x : Nat) : ZMod n) = -1 ↔ x = n - 1 := by
  have h2 := hp.out.two_le
  have e : ((n - 1 : Nat) : ZMod n) = -1 := by
    rw [Nat.cast_sub (by omega), ZMod.natCast_self, Nat.cast_one, zero_sub]
  constructor
  · intro h
    rw [← e, ZMod.natCast_eq_natCast_iff, Nat.ModEq, Nat.mod_eq_of_lt hx, Nat.mod_eq_of_lt (by omega)] at h
    exact h
  · rintro rfl; exact e

theorem sq_one {x : Nat} (hx : x < n) (h : ((x : Nat) : ZMod n) ^ 2 = 1) : x = 1 ∨ x = n - 1 := by
  have h1 : ((x : ZMod n) - 1) * ((x : ZMod n) + 1) = 0 := by
    have : ((x : ZMod n) - 1) * ((x : ZMod n) + 1) = (x : ZMod n) ^ 2 - 1 := by ring
    rw [this, h, sub_self]
  rcases mul_eq_zero.mp h1 with h | h
  · exact Or.inl ((cast_one_iff hx).mp (sub_eq_zero.mp h))
  · exact Or.inr ((cast_neg_iff hx).mp (eq_neg_of_add_eq_zero_left h))

theorem squares_spec (w : Nat) (hw : w = 8 ∨ w = 16 ∨ w = 32 ∨ w = 64) (hn : n < 2 ^ w) : ∀ (k x : Nat), x < n → x ≠ 1 →
    x ≠ n - 1 → ((x : Nat) : ZMod n) ^ (2 ^ (k + 1)) = 1 → squares w n k x = n - 1 := by
  intro k
  induction k with
  | zero =>
    intro x hx h1 h2 h
    rcases sq_one hx (by simpa using h) with h3 | h3
    · exact absurd h3 h1
    · exact absurd h3 h2
  | succ k ih =>
    intro x hx h1 h2 h
    have hpos := hp.out.pos
    have hm : mulU w x x n = x * x % n := mulU_eq w x x n hw hn hx (by omega)
    have hlt : x * x % n < n := Nat.mod_lt _ hpos
    have hc : ((x * x % n : Nat) : ZMod n) = (x : ZMod n) ^ 2 := by rw [ZMod.natCast_mod, Nat.cast_mul, pow_two]
    rw [squares, hm]
    by_cases h3 : x * x % n = 1 ∨ x * x % n = n - 1
    · simp only [if_pos h3]
      rcases h3 with h3 | h3
      · rw [← cast_one_iff hlt, hc] at h3
        rcases sq_one hx h3 with h4 | h4
        · exact absurd h4 h1
        · exact absurd h4 h2
      · exact h3
    · simp only [if_neg h3]
      push Not at h3
      apply ih _ hlt h3.1 h3.2
      rw [hc, ← pow_mul, ← pow_succ']
      exact h

theorem basesLoop_spec (w : Nat) (hw : w = 8 ∨ w = 16 ∨ w = 32 ∨ w = 64) (hn : n < 2 ^ w) (d r : Nat) (hr : 1 ≤ r)
    (hd : d * 2 ^ r = n - 1) : ∀ bases : List Nat, (0 ∈ bases ∨ ∃ b ∈ bases, n ≤ b) → basesLoop w n d r bases = some true := by
  intro bases
  induction bases with
  | nil => intro h; simp at h
  | cons b bs ih =>
    intro h
    have hpos := hp.out.pos
    rw [basesLoop]
    by_cases hb : b ≠ 0 ∧ b < n
    · rw [if_pos hb]
      have ih' : basesLoop w n d r bs = some true := ih (by
        rcases h with h | ⟨c, hc, hcn⟩
        · left
          rcases List.mem_cons.mp h with h | h
          · exact absurd h.symm hb.1
          · exact h
        · right
          rcases List.mem_cons.mp hc with h | h
          · omega
          · exact ⟨c, h, hcn⟩)
      have e : powMod w n (normU b n) (d : Int) = b ^ d % n := by
        rw [normU_eq, Nat.mod_eq_of_lt hb.2, C08_modulo_power w n b d hw hpos hn hb.2, Int.toNat_natCast]
      simp only [e]
      by_cases h1 : b ^ d % n = 1 ∨ b ^ d % n = n - 1
      · rw [if_pos h1]; exact ih'
      · rw [if_neg h1]
        push Not at h1
        have hs := squares_spec w hw hn (r - 1) (b ^ d % n) (Nat.mod_lt _ hpos) h1.1 h1.2 (by
          rw [ZMod.natCast_mod, Nat.cast_pow, ← pow_mul, show r - 1 + 1 = r by omega, hd]
          apply ZMod.pow_card_sub_one_eq_one
          intro h0
          rw [ZMod.natCast_eq_zero_iff] at h0
          have := Nat.le_of_dvd (by omega) h0
          omega)
        rw [if_neg (by rw [hs]; simp)]
        exact ih'
    · rw [if_neg hb]

end prime

/-- **C50**: `miller_rabin` never rejects a prime: for every prime of the type and every null-terminated
list of bases the answer is true. -/
theorem C50_miller_rabin_prime (w n : Nat) (hw : w = 8 ∨ w = 16 ∨ w = 32 ∨ w = 64) (hn : n < 2 ^ w) (hp : n.Prime)
    (bases : List Nat) (hb : 0 ∈ bases) : millerRabin w n bases = some true := by
  have : Fact n.Prime := ⟨hp⟩
  have h2 := hp.two_le
  rw [millerRabin, if_neg (by omega)]
  by_cases h3 : n = 2 ∨ n = 3
  · rw [if_pos h3]
  · rw [if_neg h3]
    have hodd : ¬ n % 2 = 0 := by
      intro h
      have := (Nat.prime_dvd_prime_iff_eq Nat.prime_two hp).mp (Nat.dvd_of_mod_eq_zero h)
      omega
    rw [if_neg hodd]
    obtain ⟨d, r, e, hd, _, hdo⟩ := twos_spec n (n - 1) 0 (by omega) (by omega)
    rw [e]
    simp only [Option.bind_eq_bind, Option.bind_some]
    rw [Nat.sub_zero] at hd
    apply basesLoop_spec w hw hn d r _ hd bases (Or.inl hb)
    by_contra h0
    have : r = 0 := by omega
    rw [this, pow_zero, mul_one] at hd
    omega

theorem basesLoop_total (w n d r : Nat) : ∀ bases : List Nat, 0 ∈ bases → ∃ b, basesLoop w n d r bases = some b := by
  intro bases
  induction bases with
  | nil => intro h; simp at h
  | cons b bs ih =>
    intro h
    rw [basesLoop]
    by_cases hb : b ≠ 0 ∧ b < n
    · rw [if_pos hb]
      have ih' := ih (by
        rcases List.mem_cons.mp h with h | h
        · exact absurd h.symm hb.1
        · exact h)
      simp only
      split
      · exact ih'
      · split
        · exact ⟨_, rfl⟩
        · exact ih'
    · rw [if_neg hb]; exact ⟨_, rfl⟩

theorem zero_mem_auto (n : Nat) : 0 ∈ autoBases n := by
  rw [autoBases]
  split_ifs <;> simp

theorem mrAuto_total (w n : Nat) : ∃ b, millerRabinAuto w n = some b := by
  rw [millerRabinAuto, millerRabin]
  split
  · exact ⟨_, rfl⟩
  · split
    · exact ⟨_, rfl⟩
    · split
      · exact ⟨_, rfl⟩
      · obtain ⟨d, r, e, _⟩ := twos_spec n (n - 1) 0 (by omega) (by omega)
        rw [e]
        exact basesLoop_total w n d r _ (zero_mem_auto n)

/-- **C50**: so the answer "composite" of `miller_rabin(n)` is always right. -/
theorem C50_miller_rabin_composite (w n : Nat) (hw : w = 8 ∨ w = 16 ∨ w = 32 ∨ w = 64) (hn : n < 2 ^ w) :
    (∃ b, millerRabinAuto w n = some b) ∧ (millerRabinAuto w n = some false → ¬ n.Prime) := by
  refine ⟨mrAuto_total w n, fun h hp => ?_⟩
  rw [millerRabinAuto, C50_miller_rabin_prime w n hw hn hp _ (zero_mem_auto n)] at h
  simp at h

/-! ### Bases that do catch a composite -/

theorem squares_not_one (w n : Nat) (hw : w = 8 ∨ w = 16 ∨ w = 32 ∨ w = 64) (hn : n < 2 ^ w) (p : Nat) (hp : 1 < p) (hpn : p ∣ n)
    (h0 : 0 < n) : ∀ k x, x < n → p ∣ x → squares w n k x ≠ n - 1 := by
  have hne : ∀ x, x < n → p ∣ x → x ≠ n - 1 := by
    intro x hx hpx h
    subst h
    have : p ∣ n - (n - 1) := Nat.dvd_sub hpn hpx
    rw [show n - (n - 1) = 1 by omega, Nat.dvd_one] at this
    omega
  intro k
  induction k with
  | zero => intro x hx hpx; exact hne x hx hpx
  | succ k ih =>
    intro x hx hpx
    have hd : p ∣ x * x % n := (Nat.dvd_mod_iff hpn).mpr (Dvd.dvd.mul_right hpx x)
    have hlt : x * x % n < n := Nat.mod_lt _ h0
    rw [squares, mulU_eq w x x n hw hn hx (by omega)]
    split
    · exact hne _ hlt hd
    · exact ih _ hlt hd

/-- **C50**: a base that is not coprime to `n` makes the test answer "composite" when it is reached. -/
theorem C50_miller_rabin_witness (w n : Nat) (hw : w = 8 ∨ w = 16 ∨ w = 32 ∨ w = 64) (hn : n < 2 ^ w)
    (pre rest : List Nat) (b : Nat) (hb : 0 < b ∧ b < n) (hg : 1 < Nat.gcd b n) (hpre : ∀ c ∈ pre, c ≠ 0 ∧ c < n) (h3 : 3 < n) :
    millerRabin w n (pre ++ b :: rest) = some false := by
  rw [millerRabin, if_neg (by omega), if_neg (by omega)]
  split
  · rfl
  · obtain ⟨d, r, e, hd, _, hdo⟩ := twos_spec n (n - 1) 0 (by omega) (by omega)
    rw [e]
    simp only [Option.bind_eq_bind, Option.bind_some]
    induction pre with
    | nil =>
      rw [List.nil_append, basesLoop, if_pos ⟨by omega, hb.2⟩]
      have e : powMod w n (normU b n) (d : Int) = b ^ d % n := by
        rw [normU_eq, Nat.mod_eq_of_lt hb.2, C08_modulo_power w n b d hw (by omega) hn hb.2, Int.toNat_natCast]
      have hd0 : d ≠ 0 := by rintro rfl; omega
      have hx : Nat.gcd b n ∣ b ^ d % n :=
        (Nat.dvd_mod_iff (Nat.gcd_dvd_right _ _)).mpr ((Nat.gcd_dvd_left b n).trans (dvd_pow_self b hd0))
      have hs := fun k => squares_not_one w n hw hn _ hg (Nat.gcd_dvd_right _ _) (by omega) k _ (Nat.mod_lt (b ^ d) (by omega : 0 < n)) hx
      simp only [e]
      rw [if_neg, if_pos (hs _)]
      rintro (h | h)
      · rw [h, Nat.dvd_one] at hx; omega
      · exact hs 0 h
    | cons c pre ih =>
      have hc := hpre c (by simp)
      have ih := ih (fun c hc => hpre c (by simp [hc]))
      rw [List.cons_append, basesLoop, if_pos hc]
      simp only
      split
      · exact ih
      · split
        · rfl
        · exact ih

/-- **C50**: run with all the bases below `n`, the test is exact. -/
theorem C50_miller_rabin_all_bases (w n : Nat) (hw : w = 8 ∨ w = 16 ∨ w = 32 ∨ w = 64) (hn : n < 2 ^ w) :
    millerRabin w n ((List.range n).tail ++ [0]) = some (decide n.Prime) := by
  by_cases hp : n.Prime
  · rw [C50_miller_rabin_prime w n hw hn hp _ (by simp), decide_eq_true hp]
  · rw [decide_eq_false hp]
    by_cases h3 : 3 < n
    · have hm := Nat.minFac_prime (n := n) (by omega)
      have hdv := Nat.minFac_dvd n
      have hlt : n.minFac < n := lt_of_le_of_ne (Nat.le_of_dvd (by omega) hdv) (fun h => hp (h ▸ hm))
      generalize n.minFac = b at *
      have hmem : b ∈ (List.range n).tail := by
        obtain ⟨m, rfl⟩ : ∃ m, n = m + 1 := ⟨n - 1, by omega⟩
        rw [List.range_succ_eq_map, List.tail_cons, List.mem_map]
        exact ⟨b - 1, by rw [List.mem_range]; omega, by have := hm.pos; show b - 1 + 1 = b; omega⟩
      obtain ⟨pre, rest, he⟩ := List.append_of_mem hmem
      have hall : ∀ c ∈ (List.range n).tail, c ≠ 0 ∧ c < n := by
        intro c hc
        obtain ⟨m, rfl⟩ : ∃ m, n = m + 1 := ⟨n - 1, by omega⟩
        rw [List.range_succ_eq_map, List.tail_cons, List.mem_map] at hc
        obtain ⟨a, ha, rfl⟩ := hc
        rw [List.mem_range] at ha
        exact ⟨by simp, by show a + 1 < m + 1; omega⟩
      rw [he, List.append_assoc, List.cons_append]
      apply C50_miller_rabin_witness w n hw hn pre _ b ⟨hm.pos, hlt⟩ _ _ h3
      · rw [Nat.gcd_eq_left hdv]; exact hm.one_lt
      · intro c hc
        exact hall c (by rw [he]; simp [hc])
    · have : n = 0 ∨ n = 1 := by
        have h2 : n ≠ 2 := fun h => hp (h ▸ Nat.prime_two)
        have h3 : n ≠ 3 := fun h => hp (h ▸ Nat.prime_three)
        omega
      rw [millerRabin, if_pos this]

/-! ### The automatic choice of bases, below 2304 -/

/-- The squaring loop with the mathematical product. -/
def squaresP (n : Nat) : Nat → Nat → Nat
  | 0, x => x
  | k + 1, x => if x * x % n = 1 ∨ x * x % n = n - 1 then x * x % n else squaresP n k (x * x % n)

/-- The loop over the bases with the mathematical power. -/
def basesP (n d r : Nat) : List Nat → Option Bool
  | [] => none
  | b :: bs =>
    if b ≠ 0 ∧ b < n then
      if b ^ d % n = 1 ∨ b ^ d % n = n - 1 then basesP n d r bs
      else if squaresP n (r - 1) (b ^ d % n) ≠ n - 1 then some false
      else basesP n d r bs
    else some true

/-- Trial division up to 64. -/
def trial (n : Nat) : Bool := 2 ≤ n && (List.range 64).all (fun m => m < 2 || n < m * m || n % m != 0)

theorem squaresP_eq (w n : Nat) (hw : w = 8 ∨ w = 16 ∨ w = 32 ∨ w = 64) (hn : n < 2 ^ w) (h0 : 0 < n) : ∀ k x, x < n →
    squares w n k x = squaresP n k x := by
  intro k
  induction k with
  | zero => intro x _; rfl
  | succ k ih =>
    intro x hx
    rw [squares, squaresP, mulU_eq w x x n hw hn hx (by omega)]
    simp only [ih _ (Nat.mod_lt (x * x) h0)]

theorem basesP_eq (w n d r : Nat) (hw : w = 8 ∨ w = 16 ∨ w = 32 ∨ w = 64) (hn : n < 2 ^ w) (h0 : 0 < n) : ∀ bs : List Nat,
    basesLoop w n d r bs = basesP n d r bs := by
  intro bs
  induction bs with
  | nil => rfl
  | cons b bs ih =>
    rw [basesLoop, basesP]
    by_cases hb : b ≠ 0 ∧ b < n
    · have e : powMod w n (normU b n) (d : Int) = b ^ d % n := by
        rw [normU_eq, Nat.mod_eq_of_lt hb.2, C08_modulo_power w n b d hw h0 hn hb.2, Int.toNat_natCast]
      rw [if_pos hb, if_pos hb]
      simp only [e, ih, squaresP_eq w n hw hn h0 _ _ (Nat.mod_lt (b ^ d) h0)]
    · rw [if_neg hb, if_neg hb]

theorem trial_iff (n : Nat) (hn : n < 2304) : trial n = decide n.Prime := by
  rw [Bool.eq_iff_iff, decide_eq_true_eq, trial, Bool.and_eq_true, decide_eq_true_eq, List.all_eq_true]
  constructor
  · rintro ⟨h2, h⟩
    by_contra hp
    have hsq := Nat.minFac_sq_le_self (n := n) (by omega) hp
    have hmp := Nat.minFac_prime (n := n) (by omega)
    have hm := hmp.two_le
    have hd := Nat.minFac_dvd n
    generalize n.minFac = m at *
    have hm64 : m < 64 := by
      by_contra hge
      have : 64 * 64 ≤ m * m := Nat.mul_le_mul (by omega) (by omega)
      rw [pow_two] at hsq
      omega
    have := h m (List.mem_range.mpr hm64)
    rw [pow_two] at hsq
    simp only [Bool.or_eq_true, decide_eq_true_eq, bne_iff_ne] at this
    rcases this with (h | h) | h
    · omega
    · omega
    · exact h (Nat.mod_eq_zero_of_dvd hd)
  · intro hp
    refine ⟨hp.two_le, fun m hm => ?_⟩
    simp only [Bool.or_eq_true, decide_eq_true_eq, bne_iff_ne]
    by_contra hc
    push Not at hc
    have h1 := (Nat.dvd_prime hp).mp (Nat.dvd_of_mod_eq_zero hc.2)
    rcases h1 with h1 | h1
    · omega
    · subst h1; nlinarith [hc.1.1, hc.1.2]

/-- `miller_rabin(n)` on the mathematical operations. -/
def mrP (n : Nat) : Option Bool :=
  if n = 0 ∨ n = 1 then some false
  else if n = 2 ∨ n = 3 then some true
  else if n % 2 = 0 then some false
  else do
    let (d, r) ← twos n (n - 1) 0
    basesP n d r (autoBases n)

theorem mrP_trial_aux : ∀ i, i < 36 → ∀ j, j < 64 → mrP (64 * i + j) = some (trial (64 * i + j)) := by decide +kernel

theorem mrP_trial (n : Nat) (h : n < 2304) : mrP n = some (trial n) := by
  have := mrP_trial_aux (n / 64) (by omega) (n % 64) (by omega)
  rwa [Nat.div_add_mod] at this

/-- **C50**: below 2304 (where two of the ranges meet, 2047 being the first strong pseudoprime
to base 2), `miller_rabin(n)` is exact.  The bounds of the other ranges rest on published computer
searches and are not proved. -/
theorem C50_miller_rabin_small (w n : Nat) (hw : w = 8 ∨ w = 16 ∨ w = 32 ∨ w = 64) (hn : n < 2 ^ w) (h : n < 2304) :
    millerRabinAuto w n = some (decide n.Prime) := by
  rw [← trial_iff n h, ← mrP_trial n h, millerRabinAuto, millerRabin, mrP]
  split
  · rfl
  · simp only [basesP_eq w n _ _ hw hn (by omega : 0 < n)]

example : millerRabinAuto 64 1999 = some true := by
  rw [C50_miller_rabin_small 64 1999 (by decide) (by decide) (by decide)]; norm_num
example : millerRabinAuto 64 2047 = some false := by
  rw [C50_miller_rabin_small 64 2047 (by decide) (by decide) (by decide)]; norm_num

/-! ### Pollard's rho -/

theorem rhoLoop_spec (w n a : Nat) : ∀ (iter x y d : Nat), d ∣ n → rhoLoop w n a iter x y d ∣ n := by
  intro iter
  induction iter with
  | zero => intro x y d h; rw [rhoLoop]; split <;> exact h
  | succ iter ih =>
    intro x y d h
    rw [rhoLoop]
    split
    · apply ih
      rw [gcdU_eq]
      exact Nat.gcd_dvd_right _ _
    · exact h

/-- **C50**: `pollard_rho` returns a divisor, for every starting value, every polynomial and every
bound on the number of iterations; it is never 1 (for `n > 1`). -/
theorem C50_pollard_rho (w n k a iter : Nat) : pollardRho w n k a iter ∣ n ∧ (n ≠ 1 → pollardRho w n k a iter ≠ 1) := by
  rw [pollardRho]
  by_cases h0 : n = 0
  · rw [if_pos h0]; subst h0; simp
  · rw [if_neg h0]
    by_cases h1 : n = 1
    · rw [if_pos h1]; simp [h1]
    · rw [if_neg h1]
      by_cases h2 : n % 2 = 0
      · rw [if_pos h2]; exact ⟨Nat.dvd_of_mod_eq_zero h2, by simp⟩
      · rw [if_neg h2]
        simp only
        by_cases h3 : rhoLoop w n a iter (normU k n) (normU k n) 1 = 1
        · rw [if_pos h3]; exact ⟨dvd_refl _, fun h => h⟩
        · rw [if_neg h3]; exact ⟨rhoLoop_spec w n a _ _ _ _ (one_dvd n), fun _ => h3⟩

/-- **C50**: and so does `pollard_rho_repeated`. -/
theorem C50_pollard_rho_repeated (w n maxIter iter : Nat) :
    pollardRhoRepeated w n maxIter iter ∣ n ∧ (n ≠ 1 → pollardRhoRepeated w n maxIter iter ≠ 1) := by
  rw [pollardRhoRepeated]
  generalize maxIter - 1 = t
  generalize (2 : Nat) = k
  induction t generalizing k with
  | zero => exact ⟨dvd_refl _, fun h => h⟩
  | succ t ih =>
    rw [rhoRepLoop]
    split
    · exact C50_pollard_rho w n k k iter
    · exact ih (k + 1)

/-! ### factor_integer -/

theorem divideOut_spec (a : Nat) (ha : 2 ≤ a) : ∀ (fuel b e : Nat), 0 < b → b ≤ fuel →
    ∃ b' e', divideOut a fuel b e = some (b', e') ∧ b' * a ^ e' = b * a ^ e ∧ 0 < b' ∧ b' ∣ b ∧ ¬ a ∣ b' ∧ e ≤ e' := by
  intro fuel
  induction fuel with
  | zero => intro b e h1 h2; omega
  | succ fuel ih =>
    intro b e h1 h2
    rw [divideOut]
    by_cases h : b % a = 0
    · rw [if_pos h]
      have hd := Nat.dvd_of_mod_eq_zero h
      have hlt : b / a < b := Nat.div_lt_self h1 (by omega)
      obtain ⟨b', e', he, h3, h4, h5, h6, h7⟩ := ih (b / a) (e + 1) (Nat.div_pos (Nat.le_of_dvd h1 hd) (by omega)) (by omega)
      refine ⟨b', e', he, ?_, h4, h5.trans (Nat.div_dvd_of_dvd hd), h6, by omega⟩
      rw [h3, pow_succ', ← mul_assoc, Nat.div_mul_cancel hd]
    · rw [if_neg h]
      exact ⟨b, e, rfl, rfl, h1, dvd_refl _, fun hd => h (Nat.mod_eq_zero_of_dvd hd), le_refl _⟩

theorem divideAll_spec (a : Nat) (ha : 2 ≤ a) : ∀ (q : List Nat) (e : Nat), (∀ b ∈ q, 0 < b) →
    ∃ q' e', divideAll a q e = some (q', e') ∧ q'.prod * a ^ e' = q.prod * a ^ e ∧ (∀ b ∈ q', 0 < b) ∧ e ≤ e' ∧
      (q'.map (fun b => 2 * b - 1)).sum ≤ (q.map (fun b => 2 * b - 1)).sum ∧
      (∀ b ∈ q', ¬ a ∣ b) ∧ ∀ b' ∈ q', ∃ b ∈ q, b' ∣ b := by
  intro q
  induction q with
  | nil => intro e _; exact ⟨[], e, rfl, rfl, by simp, le_refl _, le_refl _, by simp, by simp⟩
  | cons b q ih =>
    intro e h
    obtain ⟨b', e1, h1, h2, h3, h4, h5, h6⟩ := divideOut_spec a ha b b e (h b (by simp)) (le_refl _)
    obtain ⟨q', e2, g1, g2, g3, g4, g5, g6, g7⟩ := ih e1 (fun c hc => h c (by simp [hc]))
    refine ⟨b' :: q', e2, ?_, ?_, ?_, by omega, ?_, ?_, ?_⟩
    · rw [divideAll, h1]
      simp only [Option.bind_eq_bind, Option.bind_some]
      rw [g1]; rfl
    · rw [List.prod_cons, List.prod_cons, mul_assoc, g2, mul_left_comm, h2]; ring
    · intro c hc
      rcases List.mem_cons.mp hc with rfl | hc
      · exact h3
      · exact g3 c hc
    · have : b' ≤ b := Nat.le_of_dvd (h b (by simp)) h4
      simp only [List.map_cons, List.sum_cons]
      omega
    · intro c hc
      rcases List.mem_cons.mp hc with rfl | hc
      · exact h5
      · exact g6 c hc
    · intro c hc
      rcases List.mem_cons.mp hc with rfl | hc
      · exact ⟨b, by simp, h4⟩
      · obtain ⟨x, hx, hd⟩ := g7 c hc
        exact ⟨x, by simp [hx], hd⟩

/-- The value of a list of prime powers. -/
def value (vf : List (Nat × Nat)) : Nat := (vf.map (fun f => f.1 ^ f.2)).prod

/-- What is known of an entry of the result: it passed the primality test, or it is a composite that
Pollard's rho could not split. -/
def Entry (w maxIter iter : Nat) (f : Nat × Nat) : Prop :=
  1 < f.1 ∧ 0 < f.2 ∧ (millerRabinAuto w f.1 = some true ∨
    (millerRabinAuto w f.1 = some false ∧ f.2 = 1 ∧ pollardRhoRepeated w f.1 maxIter iter = f.1))

theorem factorLoop_spec (w maxIter iter : Nat) : ∀ (fuel : Nat) (q : List Nat) (vf : List (Nat × Nat)),
    (∀ b ∈ q, 0 < b) → (q.map (fun b => 2 * b - 1)).sum ≤ fuel → (∀ f ∈ vf, Entry w maxIter iter f) →
    (∀ f ∈ vf, millerRabinAuto w f.1 = some true → ∀ b ∈ q, ¬ f.1 ∣ b) →
    ((vf.filter (fun f => millerRabinAuto w f.1 = some true)).map Prod.fst).Nodup →
    ∃ vf', factorLoop w maxIter iter fuel q vf = some vf' ∧ value vf' = q.prod * value vf ∧
      (∀ f ∈ vf', Entry w maxIter iter f) ∧
      ((vf'.filter (fun f => millerRabinAuto w f.1 = some true)).map Prod.fst).Nodup := by
  intro fuel
  induction fuel with
  | zero =>
    intro q vf hq hf h1 h2 h3
    rcases q with _ | ⟨a, q⟩
    · exact ⟨vf, rfl, by simp, h1, h3⟩
    · have := hq a (by simp)
      simp only [List.map_cons, List.sum_cons] at hf
      omega
  | succ fuel ih =>
    intro q vf hq hf h1 h2 h3
    rcases q with _ | ⟨a, q⟩
    · exact ⟨vf, rfl, by simp, h1, h3⟩
    · have ha := hq a (by simp)
      simp only [List.map_cons, List.sum_cons] at hf
      rw [factorLoop]
      by_cases h : a = 1
      · rw [if_pos h]
        obtain ⟨vf', e, g1, g2⟩ := ih q vf (fun b hb => hq b (by simp [hb])) (by omega) h1
          (fun f hf' hm b hb => h2 f hf' hm b (by simp [hb])) h3
        exact ⟨vf', e, by rw [g1, h, List.prod_cons, one_mul], g2⟩
      · rw [if_neg h]
        obtain ⟨pr, hpr⟩ := mrAuto_total w a
        rw [hpr]
        simp only [Option.bind_eq_bind, Option.bind_some]
        rcases pr with _ | _
        · simp only [Bool.false_eq_true, if_false]
          obtain ⟨hd1, hd2⟩ := C50_pollard_rho_repeated w a maxIter iter
          have hd2 := hd2 h
          by_cases hd : pollardRhoRepeated w a maxIter iter = 1 ∨ pollardRhoRepeated w a maxIter iter = a
          · rw [if_pos hd]
            have hda := hd.resolve_left hd2
            obtain ⟨vf', e, g1, g2⟩ := ih q (vf ++ [(a, 1)]) (fun b hb => hq b (by simp [hb])) (by omega)
              (fun f hf' => by
                rcases List.mem_append.mp hf' with hf' | hf'
                · exact h1 f hf'
                · rw [List.mem_singleton] at hf'
                  subst hf'
                  exact ⟨by show 1 < a; omega, Nat.one_pos, Or.inr ⟨hpr, rfl, hda⟩⟩)
              (fun f hf' hm b hb => by
                rcases List.mem_append.mp hf' with hf' | hf'
                · exact h2 f hf' hm b (by simp [hb])
                · rw [List.mem_singleton] at hf'
                  subst hf'
                  rw [hpr] at hm; simp at hm)
              (by
                rw [List.filter_append, List.map_append]
                simp only [List.filter_cons, hpr]
                simpa using h3)
            refine ⟨vf', e, ?_, g2⟩
            rw [g1, value, value, List.map_append, List.prod_append, List.prod_cons]
            simp only [List.map_cons, List.map_nil, List.prod_cons, List.prod_nil, pow_one, mul_one]
            ring
          · rw [if_neg hd]
            push Not at hd
            generalize pollardRhoRepeated w a maxIter iter = d at *
            have hd0 : 0 < d := Nat.pos_of_dvd_of_pos hd1 ha
            obtain ⟨c, hc⟩ := hd1
            have hc0 : 0 < c := by
              rcases Nat.eq_zero_or_pos c with h0 | h0
              · rw [h0, mul_zero] at hc; omega
              · exact h0
            have hcd : a / d = c := by rw [hc, Nat.mul_div_cancel_left _ hd0]
            have hc1 : c ≠ 1 := by rintro rfl; rw [mul_one] at hc; exact hd.2 hc.symm
            have hsum : c + d ≤ a := by
              obtain ⟨c', rfl⟩ : ∃ c', c = c' + 2 := ⟨c - 2, by omega⟩
              obtain ⟨d', rfl⟩ : ∃ d', d = d' + 2 := ⟨d - 2, by omega⟩
              rw [hc]
              nlinarith [Nat.zero_le (c' * d')]
            obtain ⟨vf', e, g1, g2⟩ := ih (a / d :: d :: q) vf
              (fun b hb => by
                rcases List.mem_cons.mp hb with rfl | hb
                · omega
                · rcases List.mem_cons.mp hb with rfl | hb
                  · exact hd0
                  · exact hq b (by simp [hb]))
              (by simp only [List.map_cons, List.sum_cons, hcd]; omega) h1
              (fun f hf' hm b hb => by
                rcases List.mem_cons.mp hb with rfl | hb
                · intro hdv
                  exact h2 f hf' hm a (by simp) (hdv.trans (by rw [hcd, hc]; exact dvd_mul_left _ _))
                · rcases List.mem_cons.mp hb with rfl | hb
                  · intro hdv
                    exact h2 f hf' hm a (by simp) (hdv.trans (by rw [hc]; exact dvd_mul_right _ _))
                  · exact h2 f hf' hm b (by simp [hb])) h3
            refine ⟨vf', e, ?_, g2⟩
            rw [g1, List.prod_cons, List.prod_cons, List.prod_cons, hcd, hc]
            ring
        · simp only [if_true]
          obtain ⟨q', e', e, g2, g3, g4, g5, g6, g7⟩ := divideAll_spec a (by omega) q 1 (fun b hb => hq b (by simp [hb]))
          rw [e]
          simp only [Option.bind_some]
          obtain ⟨vf', e2, k1, k2⟩ := ih q' (vf ++ [(a, e')]) g3 (by omega)
            (fun f hf' => by
              rcases List.mem_append.mp hf' with hf' | hf'
              · exact h1 f hf'
              · rw [List.mem_singleton] at hf'
                subst hf'
                exact ⟨by show 1 < a; omega, by show 0 < e'; omega, Or.inl hpr⟩)
            (fun f hf' hm b hb => by
              rcases List.mem_append.mp hf' with hf' | hf'
              · obtain ⟨c, hc, hbc⟩ := g7 b hb
                exact fun hdv => h2 f hf' hm c (by simp [hc]) (hdv.trans hbc)
              · rw [List.mem_singleton] at hf'
                subst hf'
                exact g6 b hb)
            (by
              rw [List.filter_append, List.map_append]
              simp only [List.filter_cons, hpr, decide_true, if_true, List.filter_nil, List.map_cons, List.map_nil]
              rw [List.nodup_append]
              refine ⟨h3, by simp, ?_⟩
              intro x hx y hy
              rw [List.mem_singleton] at hy
              obtain ⟨f, hf1, rfl⟩ := List.mem_map.mp hx
              rw [List.mem_filter, decide_eq_true_eq] at hf1
              intro heq
              exact h2 f hf1.1 hf1.2 a (by simp) (by rw [heq, hy]))
          refine ⟨vf', e2, ?_, k2⟩
          rw [k1, value, value, List.map_append, List.prod_append, List.prod_cons]
          simp only [List.map_cons, List.map_nil, List.prod_cons, List.prod_nil, mul_one]
          rw [pow_one] at g2
          rw [mul_comm (List.prod _) (a ^ e'), ← mul_assoc, g2]
          ring

/-- **C50**: `factor_integer(n)` always ends, and the product of the powers it returns is `n`.  Every
base is greater than 1 and either passes `miller_rabin` or could not be split; those that pass are
pairwise different. -/
theorem C50_factor_integer (w n maxIter iter : Nat) (hn : 1 ≤ n) :
    ∃ vf, factorInteger w n maxIter iter = some vf ∧ (vf.map (fun f => f.1 ^ f.2)).prod = n ∧
      (∀ f ∈ vf, Entry w maxIter iter f) ∧
      ((vf.filter (fun f => millerRabinAuto w f.1 = some true)).map Prod.fst).Nodup := by
  rw [factorInteger]
  by_cases h : n = 0 ∨ n = 1
  · rw [if_pos h]
    exact ⟨[], rfl, by simp; omega, by simp, by simp⟩
  · rw [if_neg h]
    obtain ⟨vf, e, h1, h2, h3⟩ := factorLoop_spec w maxIter iter (2 * n) [n] [] (by simp; omega) (by simp) (by simp) (by simp)
      (by simp)
    exact ⟨vf, e, by rw [← value, h1]; simp [value], h2, h3⟩

theorem value_factorization (p : Nat) : ∀ vf : List (Nat × Nat), (∀ f ∈ vf, f.1.Prime) →
    (value vf).factorization p = (vf.map (fun f => if f.1 = p then f.2 else 0)).sum := by
  intro vf
  induction vf with
  | nil => intro _; simp [value]
  | cons f vf ih =>
    intro h
    have hf := h f (by simp)
    have hv : value vf ≠ 0 := by
      rw [value]
      apply List.prod_ne_zero
      rw [List.mem_map]
      rintro ⟨g, hg, h0⟩
      exact (pow_pos (h g (by simp [hg])).pos _).ne' h0
    have e : value (f :: vf) = f.1 ^ f.2 * value vf := by simp [value]
    rw [e, Nat.factorization_mul (pow_pos hf.pos _).ne' hv, Finsupp.add_apply, ih (fun g hg => h g (by simp [hg])),
      Nat.Prime.factorization_pow hf, Finsupp.single_apply, List.map_cons, List.sum_cons]

theorem sum_of_mem (p k : Nat) : ∀ vf : List (Nat × Nat), (vf.map Prod.fst).Nodup → (p, k) ∈ vf →
    (vf.map (fun f => if f.1 = p then f.2 else 0)).sum = k := by
  intro vf
  induction vf with
  | nil => intro _ h; simp at h
  | cons f vf ih =>
    intro hn h
    rw [List.map_cons, List.nodup_cons] at hn
    rw [List.map_cons, List.sum_cons]
    rcases List.mem_cons.mp h with h | h
    · subst h
      rw [if_pos rfl]
      have : (vf.map (fun f => if f.1 = p then f.2 else 0)).sum = 0 := by
        apply List.sum_eq_zero
        intro x hx
        obtain ⟨g, hg, rfl⟩ := List.mem_map.mp hx
        rw [if_neg]
        intro hgp
        exact hn.1 (List.mem_map.mpr ⟨g, hg, hgp⟩)
      omega
    · rw [if_neg, ih hn.2 h, zero_add]
      intro hfp
      exact hn.1 (List.mem_map.mpr ⟨(p, k), h, hfp.symm⟩)

example : ∃ vf, factorInteger 64 360 20 1000 = some vf ∧ (vf.map (fun f => f.1 ^ f.2)).prod = 360 :=
  let ⟨vf, h1, h2, _⟩ := C50_factor_integer 64 360 20 1000 (by decide)
  ⟨vf, h1, h2⟩

/-- **C50**: if all the bases returned are prime, the result is the factorisation of `n` into prime
powers: every prime divisor occurs once, with its exact exponent. -/
theorem C50_factorization (w n maxIter iter : Nat) (hw : w = 8 ∨ w = 16 ∨ w = 32 ∨ w = 64) (hn : 1 ≤ n) (hnw : n < 2 ^ w)
    (vf : List (Nat × Nat)) (e : factorInteger w n maxIter iter = some vf) (hp : ∀ f ∈ vf, f.1.Prime) :
    (vf.map Prod.fst).Nodup ∧ ∀ p k, (p, k) ∈ vf ↔ p.Prime ∧ p ∣ n ∧ k = n.factorization p := by
  obtain ⟨vf', e', h1, h2, h3⟩ := C50_factor_integer w n maxIter iter hn
  rw [e] at e'
  obtain rfl := Option.some.inj e'
  have hdv : ∀ f ∈ vf, f.1 ∣ n := by
    intro f hf
    rw [← h1]
    exact (dvd_pow_self f.1 (h2 f hf).2.1.ne').trans (List.dvd_prod (List.mem_map.mpr ⟨f, hf, rfl⟩))
  rw [List.filter_eq_self.mpr (by
    intro f hf
    rw [decide_eq_true_eq, millerRabinAuto]
    exact C50_miller_rabin_prime w f.1 hw ((Nat.le_of_dvd hn (hdv f hf)).trans_lt hnw) (hp f hf) _ (zero_mem_auto _))] at h3
  have key : ∀ p k, (p, k) ∈ vf → k = n.factorization p := by
    intro p k h
    rw [← h1]
    have := value_factorization p vf hp
    rw [value] at this
    rw [this, sum_of_mem p k vf h3 h]
  refine ⟨h3, fun p k => ⟨fun h => ⟨hp _ h, hdv _ h, key p k h⟩, ?_⟩⟩
  rintro ⟨hpp, hpn, rfl⟩
  rw [← h1] at hpn
  obtain ⟨x, hx, hpx⟩ := (Prime.dvd_prod_iff hpp.prime).mp hpn
  obtain ⟨f, hf, rfl⟩ := List.mem_map.mp hx
  have := (Nat.prime_dvd_prime_iff_eq hpp (hp f hf)).mp (hpp.dvd_of_dvd_pow hpx)
  obtain ⟨a, k⟩ := f
  obtain rfl := this
  rw [← key _ _ hf]
  exact hf

end Altruct.Factorization
