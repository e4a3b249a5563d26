/-
C62: functions of a factorization, multiplicative order, primitive roots and k-th roots.
-/
import Verif.NumTheory.Model
import Verif.Base.Props
import Verif.Modulo.GcdEx
import Mathlib.FieldTheory.Finite.Basic
import Mathlib.GroupTheory.OrderOfElement
import Mathlib.RingTheory.ZMod.UnitsCyclic
import Mathlib.NumberTheory.ArithmeticFunction.Carmichael
import Mathlib.NumberTheory.ArithmeticFunction.Misc
import Mathlib.NumberTheory.ArithmeticFunction.Moebius

namespace Altruct.NumTheory

open Altruct.Base (powT gcdEx)

theorem powT_nat {G : Type} [Monoid G] (a : G) (k : Nat) : powT a (k : Int) = a ^ k := Base.C04_powT a k

theorem gcd_nat (a b : Nat) : Base.gcd (a : Int) (b : Int) = (Nat.gcd a b : Nat) := by
  have h := Base.gcd_natAbs (a : Int) b
  have h2 := Base.C03_gcd_ex_eq_gcd (a : Int) b (by omega) (by omega)
  have h3 := Base.gcdExLoop_nonneg { g := (a : Int), h := b, xo := 0, xn := 1, yo := 1, yn := 0, i := 0 } (by simp) (by simp)
  have h4 : 0 ≤ (gcdEx (a : Int) b).1 := by simpa [gcdEx] using h3
  rw [h2] at h4
  rw [Int.gcd_natCast_natCast] at h
  omega

/-! ### functions of a factorization -/

/-- A factorization: distinct primes with positive exponents. -/
structure IsFact (vf : List (Nat × Nat)) : Prop where
  prime : ∀ f ∈ vf, f.1.Prime
  pos : ∀ f ∈ vf, 1 ≤ f.2
  nodup : (vf.map Prod.fst).Nodup

/-- The number that a factorization stands for. -/
def value (vf : List (Nat × Nat)) : Nat := (vf.map (fun f => f.1 ^ f.2)).prod

/-- The factorization as the code sees it. -/
def toI (vf : List (Nat × Nat)) : List (Int × Nat) := vf.map (fun f => ((f.1 : Int), f.2))

theorem IsFact.tail {f : Nat × Nat} {vf : List (Nat × Nat)} (h : IsFact (f :: vf)) : IsFact vf :=
  ⟨fun g hg => h.prime g (List.mem_cons_of_mem _ hg), fun g hg => h.pos g (List.mem_cons_of_mem _ hg),
    (List.nodup_cons.mp h.nodup).2⟩

theorem prime_dvd_value (vf : List (Nat × Nat)) (h : ∀ f ∈ vf, f.1.Prime) (p : Nat) (hp : p.Prime) (hd : p ∣ value vf) :
    p ∈ vf.map Prod.fst := by
  rw [value, hp.prime.dvd_prod_iff] at hd
  obtain ⟨x, hx, hd⟩ := hd
  obtain ⟨f, hf, rfl⟩ := List.mem_map.mp hx
  have := (Nat.prime_dvd_prime_iff_eq hp (h f hf)).mp (hp.dvd_of_dvd_pow hd)
  rw [this]
  exact List.mem_map.mpr ⟨f, hf, rfl⟩

theorem IsFact.coprime {f : Nat × Nat} {vf : List (Nat × Nat)} (h : IsFact (f :: vf)) : Nat.Coprime (f.1 ^ f.2) (value vf) := by
  refine Nat.Coprime.pow_left _ ((Nat.Prime.coprime_iff_not_dvd (h.prime f List.mem_cons_self)).mpr fun hd => ?_)
  exact (List.nodup_cons.mp h.nodup).1 (prime_dvd_value vf h.tail.prime f.1 (h.prime f List.mem_cons_self) hd)

theorem value_pos (vf : List (Nat × Nat)) (h : ∀ f ∈ vf, f.1.Prime) : 0 < value vf := by
  rw [value]
  refine Nat.pos_of_ne_zero (List.prod_ne_zero ?_)
  intro hz
  obtain ⟨f, hf, h0⟩ := List.mem_map.mp hz
  exact absurd h0 (pow_ne_zero _ (h f hf).ne_zero)

theorem value_cons (f : Nat × Nat) (vf : List (Nat × Nat)) : value (f :: vf) = f.1 ^ f.2 * value vf := by
  simp [value]

/-- **C62**: `euler_phi` of a factorization is Euler's totient. -/
theorem C62_euler_phi (vf : List (Nat × Nat)) (h : IsFact vf) : eulerPhi (toI vf) = (Nat.totient (value vf) : Nat) := by
  have key : ∀ (vf : List (Nat × Nat)) (r : Int), IsFact vf →
      (toI vf).foldl (fun r f => r * (powT f.1 ((f.2 : Int) - 1) * (f.1 - 1))) r = r * (Nat.totient (value vf) : Nat) := by
    intro vf
    induction vf with
    | nil => intro r _; simp [toI, value]
    | cons f vf ih =>
      intro r h
      have hp := h.prime f List.mem_cons_self
      have he := h.pos f List.mem_cons_self
      have ih' := ih (r * (powT (f.1 : Int) ((f.2 : Int) - 1) * ((f.1 : Int) - 1))) h.tail
      rw [toI, List.map_cons, List.foldl_cons]
      rw [toI] at ih'
      rw [ih', value_cons, Nat.totient_mul h.coprime, Nat.totient_prime_pow hp he,
        show ((f.2 : Int) - 1) = ((f.2 - 1 : Nat) : Int) by omega, powT_nat]
      push_cast [Nat.cast_sub hp.one_lt.le]
      ring
  rw [eulerPhi, key vf 1 h, one_mul]

/-- **C62**: `divisor_sigma0` of a factorization is the number of divisors. -/
theorem C62_divisor_sigma0 (vf : List (Nat × Nat)) (h : IsFact vf) : divisorSigma0 (toI vf) = ((value vf).divisors.card : Nat) := by
  have key : ∀ (vf : List (Nat × Nat)) (r : Int), IsFact vf →
      (toI vf).foldl (fun r f => r * ((f.2 : Int) + 1)) r = r * ((value vf).divisors.card : Nat) := by
    intro vf
    induction vf with
    | nil => intro r _; simp [toI, value]
    | cons f vf ih =>
      intro r h
      have hp := h.prime f List.mem_cons_self
      have ih' := ih (r * ((f.2 : Int) + 1)) h.tail
      rw [toI, List.map_cons, List.foldl_cons]
      rw [toI] at ih'
      rw [ih', value_cons, Nat.Coprime.card_divisors_mul h.coprime, Nat.divisors_prime_pow hp, Finset.card_map, Finset.card_range]
      push_cast
      ring
  rw [divisorSigma0, key vf 1 h, one_mul]

/-- **C62**: `carmichael_lambda` of a factorization is the exponent of the group of units. -/
theorem C62_carmichael_lambda (vf : List (Nat × Nat)) (h : IsFact vf) :
    carmichaelLambda (toI vf) = some ((Monoid.exponent (ZMod (value vf))ˣ : Nat) : Int) := by
  have key : ∀ (vf : List (Nat × Nat)) (r : Nat), 0 < r → IsFact vf →
      (toI vf).foldlM (fun r f =>
        let e : Int := if f.1 = 2 ∧ f.2 > 2 then (f.2 : Int) - 1 else f.2
        Base.lcm r (powT f.1 (e - 1) * (f.1 - 1))) (r : Int) =
      some ((Nat.lcm r (ArithmeticFunction.carmichael (value vf)) : Nat) : Int) := by
    intro vf
    induction vf with
    | nil =>
      intro r hr _
      have : ArithmeticFunction.carmichael 1 = 1 := by
        have := ArithmeticFunction.carmichael_two_pow_of_le_two (n := 0) (by omega)
        simpa using this
      simp [toI, value, this]
    | cons f vf ih =>
      intro r hr h
      have hp := h.prime f List.mem_cons_self
      have he := h.pos f List.mem_cons_self
      have hc : powT (f.1 : Int) ((if (f.1 : Int) = 2 ∧ f.2 > 2 then (f.2 : Int) - 1 else f.2) - 1) * ((f.1 : Int) - 1) =
          ((ArithmeticFunction.carmichael (f.1 ^ f.2) : Nat) : Int) := by
        by_cases h2 : f.1 = 2
        · rw [h2]
          by_cases h3 : f.2 > 2
          · rw [if_pos ⟨rfl, h3⟩, show ((f.2 : Int) - 1 - 1) = ((f.2 - 2 : Nat) : Int) by omega, powT_nat,
              ArithmeticFunction.carmichael_two_pow_of_ne_two (by omega)]
            simp
          · rw [if_neg (by tauto), show ((f.2 : Int) - 1) = ((f.2 - 1 : Nat) : Int) by omega, powT_nat,
              ArithmeticFunction.carmichael_two_pow_of_le_two (by omega)]
            simp
        · rw [if_neg (by omega), show ((f.2 : Int) - 1) = ((f.2 - 1 : Nat) : Int) by omega, powT_nat,
            ArithmeticFunction.carmichael_pow_of_prime_ne_two _ hp h2, Nat.totient_prime_pow hp he]
          push_cast [Nat.cast_sub hp.one_lt.le]
          ring
      have hcpos : 0 < ArithmeticFunction.carmichael (f.1 ^ f.2) := by
        have : NeZero (f.1 ^ f.2) := ⟨pow_ne_zero _ hp.ne_zero⟩
        rw [ArithmeticFunction.carmichael_eq_exponent']
        exact Nat.pos_of_ne_zero Monoid.exponent_ne_zero_of_finite
      have hl : Base.lcm (r : Int) ((ArithmeticFunction.carmichael (f.1 ^ f.2) : Nat) : Int) =
          some ((Nat.lcm r (ArithmeticFunction.carmichael (f.1 ^ f.2)) : Nat) : Int) := by
        have hg : 0 < Nat.gcd r (ArithmeticFunction.carmichael (f.1 ^ f.2)) := Nat.gcd_pos_of_pos_left _ hr
        rw [Base.lcm, gcd_nat, if_neg (by omega), Nat.lcm, Nat.mul_div_assoc _ (Nat.gcd_dvd_right _ _)]
        congr 1
      have ih' := ih (Nat.lcm r (ArithmeticFunction.carmichael (f.1 ^ f.2))) (Nat.lcm_pos hr hcpos) h.tail
      rw [toI, List.map_cons, List.foldlM_cons]
      simp only
      rw [hc, hl, Option.bind_eq_bind, Option.bind_some]
      rw [toI] at ih'
      rw [ih', value_cons, ArithmeticFunction.carmichael_mul h.coprime, Nat.lcm_assoc]
  have := key vf 1 Nat.one_pos h
  rw [carmichaelLambda]
  rw [Nat.lcm_one_left, ArithmeticFunction.carmichael_eq_exponent (value_pos vf h.prime).ne'] at this
  exact this

/-- **C62**: `prime_factors` are exactly the primes that divide the number. -/
theorem C62_prime_factors (vf : List (Nat × Nat)) (h : IsFact vf) (p : Int) :
    p ∈ primeFactors (toI vf) ↔ ∃ q : Nat, q.Prime ∧ q ∣ value vf ∧ p = q := by
  have e : primeFactors (toI vf) = (vf.map Prod.fst).map (fun x : Nat => (x : Int)) := by
    simp [primeFactors, toI]
  rw [e]
  constructor
  · intro hm
    obtain ⟨q, hq, rfl⟩ := List.mem_map.mp hm
    obtain ⟨f, hf, rfl⟩ := List.mem_map.mp hq
    refine ⟨f.1, h.prime f hf, ?_, rfl⟩
    exact (dvd_pow_self _ (by have := h.pos f hf; omega)).trans (List.dvd_prod (List.mem_map.mpr ⟨f, hf, rfl⟩))
  · rintro ⟨q, hq, hd, rfl⟩
    exact List.mem_map.mpr ⟨q, prime_dvd_value vf h.prime q hq hd, rfl⟩

theorem squarefreeSignedDivisors_scale (vf : List (Int × Nat)) : ∀ d : Int,
    squarefreeSignedDivisors vf d = (squarefreeSignedDivisors vf 1).map (fun x => d * x) := by
  induction vf with
  | nil => intro d; simp [squarefreeSignedDivisors]
  | cons f vf ih =>
    intro d
    rw [squarefreeSignedDivisors, squarefreeSignedDivisors, ih d, ih (d * -f.1), ih (1 * -f.1), List.map_append, List.map_map]
    congr 1
    refine List.map_congr_left fun x _ => ?_
    simp only [Function.comp]
    ring

theorem squarefree_divisors_cons (p e n : Nat) (hp : p.Prime) (he : 1 ≤ e) (hc : Nat.Coprime p n) (d : Nat) :
    (d ∣ p ^ e * n ∧ Squarefree d) ↔ (d ∣ n ∧ Squarefree d) ∨ ∃ d', (d' ∣ n ∧ Squarefree d') ∧ p * d' = d := by
  constructor
  · rintro ⟨hd, hs⟩
    by_cases hpd : p ∣ d
    · obtain ⟨d', rfl⟩ := hpd
      right
      have hs' : Squarefree d' := hs.squarefree_of_dvd (Dvd.intro_left _ rfl)
      have hpd' : ¬ p ∣ d' := by
        rintro ⟨c, rfl⟩
        have := hs p ⟨c, by ring⟩
        exact hp.one_lt.ne' (Nat.isUnit_iff.mp this)
      refine ⟨d', ⟨?_, hs'⟩, rfl⟩
      have : d' ∣ p ^ e * n := (Dvd.intro_left _ rfl).trans hd
      exact (Nat.Coprime.dvd_of_dvd_mul_left (Nat.Coprime.pow_right _ ((Nat.coprime_comm.mp ((Nat.Prime.coprime_iff_not_dvd hp).mpr hpd')))) this)
    · left
      exact ⟨Nat.Coprime.dvd_of_dvd_mul_left (Nat.Coprime.pow_right _ (Nat.coprime_comm.mp ((Nat.Prime.coprime_iff_not_dvd hp).mpr hpd))) hd, hs⟩
  · rintro (⟨hd, hs⟩ | ⟨d', ⟨hd, hs⟩, rfl⟩)
    · exact ⟨hd.trans (Dvd.intro_left _ rfl), hs⟩
    · refine ⟨Nat.mul_dvd_mul (dvd_pow_self _ (by omega)) hd, ?_⟩
      rw [Nat.squarefree_mul (hc.coprime_dvd_right hd)]
      exact ⟨hp.prime.squarefree, hs⟩

/-- **C62**: `squarefree_signed_divisors` lists `mu(d) d` for every square-free divisor `d`, once each. -/
theorem C62_squarefree_signed_divisors (vf : List (Nat × Nat)) (h : IsFact vf) :
    (squarefreeSignedDivisors (toI vf) 1 : Multiset Int) =
      ((value vf).divisors.filter Squarefree).val.map (fun d => ArithmeticFunction.moebius d * (d : Int)) := by
  induction vf with
  | nil =>
    have : (Nat.divisors 1).filter Squarefree = {1} := by
      ext d
      simp only [Nat.divisors_one, Finset.mem_filter, Finset.mem_singleton]
      exact ⟨fun h => h.1, fun h => ⟨h, h ▸ squarefree_one⟩⟩
    change ({1} : Multiset Int) = Multiset.map _ ((Nat.divisors 1).filter Squarefree).val
    rw [this]
    simp
  | cons f vf ih =>
    have hp := h.prime f List.mem_cons_self
    have he := h.pos f List.mem_cons_self
    have hn := value_pos vf h.tail.prime
    have hc : Nat.Coprime f.1 (value vf) := Nat.Coprime.coprime_dvd_left (dvd_pow_self _ (by omega)) h.coprime
    have hset : (value (f :: vf)).divisors.filter Squarefree =
        ((value vf).divisors.filter Squarefree).disjUnion
          (((value vf).divisors.filter Squarefree).map ⟨fun d => f.1 * d, mul_right_injective₀ hp.ne_zero⟩) (by
            rw [Finset.disjoint_left]
            intro d hd hd'
            simp only [Finset.mem_filter, Nat.mem_divisors, Finset.mem_map, Function.Embedding.coeFn_mk] at hd hd'
            obtain ⟨d', _, rfl⟩ := hd'
            exact hp.one_lt.ne' (Nat.eq_one_of_dvd_coprimes hc dvd_rfl ((Dvd.intro _ rfl).trans hd.1.1))) := by
      ext d
      simp only [Finset.mem_filter, Nat.mem_divisors, Finset.mem_disjUnion, Finset.mem_map, Function.Embedding.coeFn_mk, value_cons]
      have hne : f.1 ^ f.2 * value vf ≠ 0 := mul_ne_zero (pow_ne_zero _ hp.ne_zero) hn.ne'
      have := squarefree_divisors_cons f.1 f.2 (value vf) hp he hc d
      simp only [hne, hn.ne', ne_eq, not_false_eq_true, and_true]
      exact this
    rw [hset, Finset.disjUnion_val, Finset.map_val, Multiset.map_add, Multiset.map_map, ← ih h.tail, toI, List.map_cons,
      squarefreeSignedDivisors, squarefreeSignedDivisors_scale _ (1 * _), ← Multiset.coe_add]
    congr 1
    have e1 : (((squarefreeSignedDivisors (toI vf) 1).map (fun x => 1 * -(f.1 : Int) * x) : List Int) : Multiset Int) =
        Multiset.map (fun x => 1 * -(f.1 : Int) * x) (squarefreeSignedDivisors (toI vf) 1 : Multiset Int) := rfl
    rw [toI] at e1 ih
    rw [e1, ih h.tail, Multiset.map_map]
    refine Multiset.map_congr rfl fun d hd => ?_
    rw [Finset.mem_val, Finset.mem_filter, Nat.mem_divisors] at hd
    change 1 * -(f.1 : Int) * (ArithmeticFunction.moebius d * d) = ArithmeticFunction.moebius (f.1 * d) * ((f.1 * d : Nat) : Int)
    rw [ArithmeticFunction.isMultiplicative_moebius.map_mul_of_coprime (hc.coprime_dvd_right hd.1.1),
      ArithmeticFunction.moebius_apply_prime hp]
    push_cast
    ring

example : IsFact [(2, 3), (3, 1), (5, 2)] ∧ value [(2, 3), (3, 1), (5, 2)] = 600 ∧ eulerPhi (toI [(2, 3), (3, 1), (5, 2)]) = 160 ∧
    carmichaelLambda (toI [(2, 3), (3, 1), (5, 2)]) = some 20 ∧ divisorSigma0 (toI [(2, 3), (3, 1), (5, 2)]) = 24 :=
  ⟨⟨by decide, by decide, by decide⟩, by decide +kernel, by decide +kernel, by decide +kernel, by decide +kernel⟩
example : squarefreeSignedDivisors (toI [(2, 3), (3, 1)]) 1 = [1, -3, -2, 6] := by decide

/-! ### multiplicative order -/

section order
variable {G : Type} [Monoid G] [DecidableEq G]

theorem ordLoop_spec (a : G) (p : Nat) (hp : 2 ≤ p) : ∀ (fuel k : Nat), 0 < k → k < fuel → a ^ k = 1 →
    ∃ k' : Nat, ordLoop a p fuel k = some (k' : Int) ∧ 0 < k' ∧ a ^ k' = 1 ∧ k' ∣ k ∧ ¬ (p ∣ k' ∧ a ^ (k' / p) = 1) := by
  intro fuel
  induction fuel with
  | zero => intro k _ h; omega
  | succ fuel ih =>
    intro k hk hf ha
    rw [ordLoop, if_neg (by omega)]
    have e1 : (k : Int).tmod p = 0 ↔ p ∣ k := by
      rw [← Int.dvd_iff_tmod_eq_zero, Int.natCast_dvd_natCast]
    have e2 : (k : Int).tdiv p = ((k / p : Nat) : Int) := rfl
    rw [e2, powT_nat]
    by_cases h : p ∣ k ∧ a ^ (k / p) = 1
    · rw [if_pos ⟨e1.mpr h.1, h.2⟩]
      have h1 : k / p < k := Nat.div_lt_self hk hp
      have h2 : 0 < k / p := Nat.div_pos (Nat.le_of_dvd hk h.1) (by omega)
      obtain ⟨k', e, g1, g2, g3, g4⟩ := ih (k / p) h2 (by omega) h.2
      exact ⟨k', e, g1, g2, g3.trans (Nat.div_dvd_of_dvd h.1), g4⟩
    · rw [if_neg (fun h' => h ⟨e1.mp h'.1, h'.2⟩)]
      exact ⟨k, rfl, hk, ha, dvd_rfl, h⟩

theorem orderLoop_spec (a : G) : ∀ (fs : List Int), (∀ p ∈ fs, 2 ≤ p) → ∀ (k : Nat), 0 < k → a ^ k = 1 →
    ∃ k' : Nat, orderLoop a fs k = some (k' : Int) ∧ 0 < k' ∧ a ^ k' = 1 ∧ k' ∣ k ∧
      ∀ p : Nat, (p : Int) ∈ fs → ¬ (p ∣ k' ∧ a ^ (k' / p) = 1) := by
  intro fs
  induction fs with
  | nil => intro _ k hk ha; exact ⟨k, rfl, hk, ha, dvd_rfl, fun p hp => by simp at hp⟩
  | cons q fs ih =>
    intro hfs k hk ha
    have hq := hfs q List.mem_cons_self
    obtain ⟨k1, e1, h1, h2, h3, h4⟩ := ordLoop_spec a q.toNat (by omega) (k + 1) k hk (by omega) ha
    rw [Int.toNat_of_nonneg (by omega)] at e1
    obtain ⟨k2, e2, g1, g2, g3, g4⟩ := ih (fun p hp => hfs p (List.mem_cons_of_mem _ hp)) k1 h1 h2
    refine ⟨k2, ?_, g1, g2, g3.trans h3, ?_⟩
    · rw [orderLoop, Int.toNat_natCast, e1, Option.bind_eq_bind, Option.bind_some, e2]
    · intro p hp
      rcases List.mem_cons.mp hp with hp | hp
      · rintro ⟨hd, he⟩
        apply h4
        have : q.toNat = p := by omega
        rw [this]
        refine ⟨hd.trans g3, ?_⟩
        obtain ⟨c, hc⟩ := g3
        obtain ⟨c2, hc2⟩ := hd
        have hp0 : 0 < p := by omega
        have e : k1 / p = k2 / p * c := by
          rw [hc, hc2, mul_assoc, Nat.mul_div_cancel_left _ hp0, Nat.mul_div_cancel_left _ hp0]
        rw [e, pow_mul, he, one_pow]
      · exact g4 p hp

/-- **C62**: `multiplicative_order_g` is the least positive `k` with `a^k = 1`, for any monoid, any `n > 0` with
`a^n = 1` and any list of numbers `>= 2` that contains the prime factors of `n`. -/
theorem C62_multiplicative_order_g (a : G) (n : Nat) (hn : 0 < n) (ha : a ^ n = 1) (fs : List Int) (hfs : ∀ p ∈ fs, 2 ≤ p)
    (hall : ∀ q : Nat, q.Prime → q ∣ n → (q : Int) ∈ fs) :
    ∃ k : Nat, multiplicativeOrderG a n fs = some (k : Int) ∧ 0 < k ∧ a ^ k = 1 ∧ ∀ j, 0 < j → a ^ j = 1 → k ≤ j := by
  obtain ⟨k, e, h1, h2, h3, h4⟩ := orderLoop_spec a fs hfs n hn ha
  have ho : orderOf a ∣ k := orderOf_dvd_of_pow_eq_one h2
  have hk : k = orderOf a := by
    obtain ⟨c, hc⟩ := ho
    by_cases hc1 : c = 1
    · rw [hc1, mul_one] at hc; exact hc
    · exfalso
      obtain ⟨q, hq, hqc⟩ := Nat.exists_prime_and_dvd hc1
      obtain ⟨c', rfl⟩ := hqc
      have hqk : q ∣ k := ⟨orderOf a * c', by rw [hc]; ring⟩
      refine h4 q (hall q hq (hqk.trans h3)) ⟨hqk, ?_⟩
      rw [hc, show orderOf a * (q * c') = q * (orderOf a * c') by ring, Nat.mul_div_cancel_left _ hq.pos, pow_mul, pow_orderOf_eq_one, one_pow]
  refine ⟨k, e, h1, h2, fun j hj haj => ?_⟩
  rw [hk]
  exact orderOf_le_of_pow_eq_one hj haj

end order

/-- **C62**: `multiplicative_order(a, m, phi, phi_factors)` is the least positive `k` with `a^k = 1 (mod m)`, for
`a` coprime to `m`. -/
theorem C62_multiplicative_order (a m : Nat) (hm : 0 < m) (hc : Nat.Coprime a m) (vf : List (Nat × Nat)) (hf : IsFact vf)
    (hv : value vf = Nat.totient m) :
    ∃ k : Nat, multiplicativeOrder a m (Nat.totient m) (primeFactors (toI vf)) = some (k : Int) ∧ 0 < k ∧ a ^ k ≡ 1 [MOD m] ∧
      ∀ j, 0 < j → a ^ j ≡ 1 [MOD m] → k ≤ j := by
  have he : ∀ j, (a : ZMod m) ^ j = 1 ↔ a ^ j ≡ 1 [MOD m] := by
    intro j
    rw [← ZMod.natCast_eq_natCast_iff]
    push_cast
    rfl
  obtain ⟨k, e, h1, h2, h3⟩ := C62_multiplicative_order_g (a : ZMod m) (Nat.totient m) (Nat.totient_pos.mpr hm)
    ((he _).mpr (Nat.ModEq.pow_totient hc)) (primeFactors (toI vf))
    (fun p hp => by
      obtain ⟨q, hq, _, rfl⟩ := (C62_prime_factors vf hf p).mp hp
      exact_mod_cast hq.two_le)
    (fun q hq hd => (C62_prime_factors vf hf q).mpr ⟨q, hq, by rw [hv]; exact hd, rfl⟩)
  refine ⟨k, ?_, h1, (he k).mp h2, fun j hj hj2 => h3 j hj ((he j).mpr hj2)⟩
  rw [multiplicativeOrder]
  push_cast
  exact e

example : multiplicativeOrder 2 35 24 [2, 3] = some 12 := by decide +kernel
example : value [(2, 3), (3, 1)] = Nat.totient 35 := by decide +kernel

/-! ### primitive roots -/

theorem primTest_spec (m : Nat) (phi g : Int) : ∀ (fs : List Int) (b : Bool), (∀ p ∈ fs, p ≠ 0) →
    primTest m phi g fs b = some (b && fs.all (fun p => decide (powT (g : ZMod m) (phi.tdiv p) ≠ 1))) := by
  intro fs
  induction fs with
  | nil => intro b _; simp [primTest]
  | cons p fs ih =>
    intro b h
    rw [primTest, if_neg (h p List.mem_cons_self), ih _ (fun q hq => h q (List.mem_cons_of_mem _ hq)), List.all_cons, Bool.and_assoc]

/-- What the loop of `primitive_root` tests. -/
def PrimCond (m : Nat) (phi : Int) (fs : List Int) (g : Nat) : Prop :=
  Nat.Coprime g m ∧ ∀ p ∈ fs, (g : ZMod m) ^ (phi.tdiv p).toNat ≠ 1

theorem primLoop_spec (m : Nat) (phi : Int) (fs : List Int) (hphi : 0 ≤ phi) (hfs : ∀ p ∈ fs, 2 ≤ p) (hm : 0 < m) : ∀ (k g : Nat), 0 < g →
    ∃ r : Nat, primLoop m phi fs k g = some (r : Int) ∧
      ((g ≤ r ∧ r < g + k ∧ PrimCond m phi fs r ∧ ∀ j, g ≤ j → j < r → ¬ PrimCond m phi fs j) ∨
       (r = 0 ∧ ∀ j, g ≤ j → j < g + k → ¬ PrimCond m phi fs j)) := by
  intro k
  induction k with
  | zero => intro g _; exact ⟨0, rfl, Or.inr ⟨rfl, fun j h1 h2 => by omega⟩⟩
  | succ k ih =>
    intro g hg
    rw [primLoop, gcd_nat]
    have next : ¬ PrimCond m phi fs g → ∃ r : Nat, primLoop m phi fs k ((g : Int) + 1) = some (r : Int) ∧
      ((g ≤ r ∧ r < g + (k + 1) ∧ PrimCond m phi fs r ∧ ∀ j, g ≤ j → j < r → ¬ PrimCond m phi fs j) ∨
       (r = 0 ∧ ∀ j, g ≤ j → j < g + (k + 1) → ¬ PrimCond m phi fs j)) := by
      intro hn
      obtain ⟨r, e, h⟩ := ih (g + 1) (by omega)
      push_cast at e
      refine ⟨r, e, ?_⟩
      rcases h with ⟨h1, h2, h3, h4⟩ | ⟨h1, h2⟩
      · refine Or.inl ⟨by omega, by omega, h3, fun j hj1 hj2 => ?_⟩
        by_cases hjg : j = g
        · rw [hjg]; exact hn
        · exact h4 j (by omega) hj2
      · refine Or.inr ⟨h1, fun j hj1 hj2 => ?_⟩
        by_cases hjg : j = g
        · rw [hjg]; exact hn
        · exact h2 j (by omega) (by omega)
    have hgp : 0 < Nat.gcd g m := Nat.gcd_pos_of_pos_right _ hm
    by_cases hc : Nat.Coprime g m
    · have hc' : Nat.gcd g m = 1 := hc
      rw [if_neg (by omega), primTest_spec _ _ _ _ _ (fun p hp => by have := hfs p hp; omega), Option.bind_eq_bind, Option.bind_some, Bool.true_and]
      have hiff : (fs.all (fun p => decide (powT (((g : Int)) : ZMod m) (phi.tdiv p) ≠ 1))) = true ↔ PrimCond m phi fs g := by
        rw [List.all_eq_true]
        have hpow : ∀ p ∈ fs, powT (((g : Int)) : ZMod m) (phi.tdiv p) = (g : ZMod m) ^ (phi.tdiv p).toNat := by
          intro p hp
          have h2 := hfs p hp
          have : phi.tdiv p = ((phi.tdiv p).toNat : Int) := (Int.toNat_of_nonneg (Int.tdiv_nonneg hphi (by omega))).symm
          rw [this, powT_nat, Int.toNat_natCast]
          push_cast
          rfl
        constructor
        · intro h
          refine ⟨hc, fun p hp => ?_⟩
          have := h p hp
          rw [decide_eq_true_eq, hpow p hp] at this
          exact this
        · rintro ⟨_, h⟩ p hp
          rw [decide_eq_true_eq, hpow p hp]
          exact h p hp
      by_cases hb : (fs.all (fun p => decide (powT (((g : Int)) : ZMod m) (phi.tdiv p) ≠ 1))) = true
      · rw [if_pos hb]
        exact ⟨g, rfl, Or.inl ⟨le_refl g, by omega, hiff.mp hb, fun j h1 h2 => by omega⟩⟩
      · rw [if_neg hb]
        exact next (fun h => hb (hiff.mpr h))
    · have : Nat.gcd g m ≠ 1 := hc
      rw [if_pos (by omega)]
      exact next (fun h => hc h.1)

/-- The order of `g` in the units modulo `m`. -/
theorem primCond_iff (m : Nat) (N : Nat) (hN : 0 < N) (vf : List (Nat × Nat)) (hf : IsFact vf) (hv : value vf = N)
    (g : Nat) (hexp : ∀ u : (ZMod m)ˣ, u ^ N = 1) :
    PrimCond m N (primeFactors (toI vf)) g ↔ ∃ hc : Nat.Coprime g m, orderOf (ZMod.unitOfCoprime g hc) = N := by
  have hpow : ∀ (hc : Nat.Coprime g m) (j : Nat), (g : ZMod m) ^ j = 1 ↔ (ZMod.unitOfCoprime g hc) ^ j = 1 := by
    intro hc j
    rw [← Units.val_inj, Units.val_pow_eq_pow_val, ZMod.coe_unitOfCoprime, Units.val_one]
  constructor
  · rintro ⟨hc, h⟩
    refine ⟨hc, orderOf_eq_of_pow_and_pow_div_prime hN (hexp _) fun q hq hd => ?_⟩
    rw [Ne, ← hpow hc]
    have := h q ((C62_prime_factors vf hf q).mpr ⟨q, hq, by rw [hv]; exact hd, rfl⟩)
    exact this
  · rintro ⟨hc, h⟩
    refine ⟨hc, fun p hp hone => ?_⟩
    obtain ⟨q, hq, hd, rfl⟩ := (C62_prime_factors vf hf p).mp hp
    rw [hv] at hd
    have e : ((N : Int).tdiv q).toNat = N / q := rfl
    rw [e, hpow hc] at hone
    have := orderOf_dvd_of_pow_eq_one hone
    rw [h] at this
    have h1 : N / q < N := Nat.div_lt_self hN hq.one_lt
    have h2 : 0 < N / q := Nat.div_pos (Nat.le_of_dvd hN hd) hq.pos
    exact absurd (Nat.le_of_dvd h2 this) (by omega)

/-- `g` generates all the numbers coprime to `m`, as powers `g^k` with `k < phi(m)`. -/
def IsPrimRoot (m g : Nat) : Prop :=
  Nat.Coprime g m ∧ ∀ x, Nat.Coprime x m → ∃ k, k < Nat.totient m ∧ g ^ k ≡ x [MOD m]

theorem isPrimRoot_iff (m g : Nat) (hm : 0 < m) :
    IsPrimRoot m g ↔ ∃ hc : Nat.Coprime g m, orderOf (ZMod.unitOfCoprime g hc) = Nat.totient m := by
  have : NeZero m := ⟨hm.ne'⟩
  constructor
  · rintro ⟨hc, h⟩
    refine ⟨hc, ?_⟩
    rw [← ZMod.card_units_eq_totient, ← Nat.card_eq_fintype_card]
    refine orderOf_eq_card_of_forall_mem_zpowers fun u => ?_
    obtain ⟨k, _, hk⟩ := h (u : ZMod m).val (ZMod.val_coe_unit_coprime u)
    refine Subgroup.mem_zpowers_iff.mpr ⟨k, ?_⟩
    rw [zpow_natCast, ← Units.val_inj, Units.val_pow_eq_pow_val, ZMod.coe_unitOfCoprime]
    rw [← ZMod.natCast_eq_natCast_iff] at hk
    push_cast at hk
    rw [hk, ZMod.natCast_val, ZMod.cast_id]
  · rintro ⟨hc, h⟩
    refine ⟨hc, fun x hx => ?_⟩
    have htop : Subgroup.zpowers (ZMod.unitOfCoprime g hc) = ⊤ := by
      apply Subgroup.eq_top_of_card_eq
      rw [Nat.card_zpowers, h, Nat.card_eq_fintype_card, ZMod.card_units_eq_totient]
    have hmem : ZMod.unitOfCoprime x hx ∈ Submonoid.powers (ZMod.unitOfCoprime g hc) := by
      rw [mem_powers_iff_mem_zpowers, htop]; trivial
    obtain ⟨k, hk⟩ := hmem
    have hk' : (ZMod.unitOfCoprime g hc) ^ k = ZMod.unitOfCoprime x hx := hk
    rw [← pow_mod_orderOf, h] at hk'
    refine ⟨k % Nat.totient m, Nat.mod_lt _ (Nat.totient_pos.mpr hm), ?_⟩
    rw [← ZMod.natCast_eq_natCast_iff]
    push_cast
    have := congrArg Units.val hk'
    rw [Units.val_pow_eq_pow_val, ZMod.coe_unitOfCoprime, ZMod.coe_unitOfCoprime] at this
    exact this

theorem isPrimRoot_mod (m g : Nat) (h : IsPrimRoot m g) : IsPrimRoot m (g % m) := by
  refine ⟨?_, fun x hx => ?_⟩
  · have := h.1
    unfold Nat.Coprime at this ⊢
    rwa [← Nat.gcd_rec, Nat.gcd_comm] 
  · obtain ⟨k, hk, e⟩ := h.2 x hx
    exact ⟨k, hk, (Nat.ModEq.pow k (Nat.mod_modEq g m)).trans e⟩

theorem unit_pow_totient (m : Nat) (u : (ZMod m)ˣ) : u ^ Nat.totient m = 1 := ZMod.pow_totient u

/-- **C62**: `primitive_root` finds the least primitive root modulo `m`, and returns 0 exactly if there is none. -/
theorem C62_primitive_root (m : Nat) (hm : 2 ≤ m) (vf : List (Nat × Nat)) (hf : IsFact vf) (hv : value vf = Nat.totient m) :
    ∃ r : Nat, primitiveRoot m (Nat.totient m) (primeFactors (toI vf)) = some (r : Int) ∧
      ((1 ≤ r ∧ r < m ∧ IsPrimRoot m r ∧ ∀ j, 1 ≤ j → j < r → ¬ IsPrimRoot m j) ∨ (r = 0 ∧ ∀ j, ¬ IsPrimRoot m j)) := by
  have hpos : 0 < Nat.totient m := Nat.totient_pos.mpr (by omega)
  have hiff : ∀ j, PrimCond m (Nat.totient m) (primeFactors (toI vf)) j ↔ IsPrimRoot m j := by
    intro j
    rw [primCond_iff m (Nat.totient m) hpos vf hf hv j (unit_pow_totient m), isPrimRoot_iff m j (by omega)]
  obtain ⟨r, e, h⟩ := primLoop_spec m (Nat.totient m) (primeFactors (toI vf)) (by omega)
    (fun p hp => by
      obtain ⟨q, hq, _, rfl⟩ := (C62_prime_factors vf hf p).mp hp
      exact_mod_cast hq.two_le) (by omega) (m - 1) 1 (by omega)
  refine ⟨r, e, ?_⟩
  simp only [hiff] at h
  rcases h with ⟨h1, h2, h3, h4⟩ | ⟨h1, h2⟩
  · exact Or.inl ⟨h1, by omega, h3, h4⟩
  · refine Or.inr ⟨h1, fun j hj => ?_⟩
    have hj2 := isPrimRoot_mod m j hj
    have h0 : j % m ≠ 0 := by
      intro h0
      have := hj2.1
      rw [h0, Nat.coprime_zero_left] at this
      omega
    have := Nat.mod_lt j (show 0 < m by omega)
    exact h2 (j % m) (by omega) (by omega) hj2

/-- **C62**: `primitive_root` succeeds for exactly the moduli its comment lists: 2, 4, `p^k` and `2 p^k`. -/
theorem C62_primitive_root_exists (m : Nat) (hm : 2 ≤ m) (vf : List (Nat × Nat)) (hf : IsFact vf) (hv : value vf = Nat.totient m) :
    primitiveRoot m (Nat.totient m) (primeFactors (toI vf)) ≠ some 0 ↔
      (m = 2 ∨ m = 4 ∨ ∃ p k : Nat, p.Prime ∧ Odd p ∧ 1 ≤ k ∧ (m = p ^ k ∨ m = 2 * p ^ k)) := by
  have hcyc := ZMod.isCyclic_units_iff m
  have hm0 : 0 < m := by omega
  have : NeZero m := ⟨by omega⟩
  have hz : IsCyclic (ZMod m)ˣ ↔ ∃ g, IsPrimRoot m g := by
    constructor
    · intro hC
      obtain ⟨u, hu⟩ := IsCyclic.exists_ofOrder_eq_natCard (α := (ZMod m)ˣ)
      refine ⟨(u : ZMod m).val, (isPrimRoot_iff m _ hm0).mpr ⟨ZMod.val_coe_unit_coprime u, ?_⟩⟩
      have : ZMod.unitOfCoprime (u : ZMod m).val (ZMod.val_coe_unit_coprime u) = u := by
        rw [← Units.val_inj, ZMod.coe_unitOfCoprime, ZMod.natCast_val, ZMod.cast_id]
      rw [this, hu, Nat.card_eq_fintype_card, ZMod.card_units_eq_totient]
    · rintro ⟨g, hg⟩
      obtain ⟨hc, h⟩ := (isPrimRoot_iff m g hm0).mp hg
      refine isCyclic_of_orderOf_eq_card _ (?_ : orderOf (ZMod.unitOfCoprime g hc) = _)
      rw [h, Nat.card_eq_fintype_card, ZMod.card_units_eq_totient]
  obtain ⟨r, e, h⟩ := C62_primitive_root m hm vf hf hv
  rw [e]
  have h1 : (some (r : Int) ≠ some 0) ↔ ∃ g, IsPrimRoot m g := by
    rcases h with ⟨h1, h2, h3, h4⟩ | ⟨h1, h2⟩
    · refine ⟨fun _ => ⟨r, h3⟩, fun _ h => ?_⟩
      have := Option.some.inj h
      omega
    · refine ⟨fun h => absurd (by rw [h1]; rfl) h, fun ⟨g, hg⟩ => absurd hg (h2 g)⟩
  rw [h1, ← hz, hcyc]
  constructor
  · rintro (h | h | h)
    · omega
    · omega
    · exact h
  · exact fun h => Or.inr (Or.inr h)

/-- **C62**: `primitive_root_of_unity` with the Carmichael number `lam` finds, for every `m >= 2`, the least `r` whose
multiplicative order is `lam`, and `lam` is an exponent that works for all the numbers coprime to `m`. -/
theorem C62_primitive_root_of_unity (m : Nat) (hm : 2 ≤ m) (vf : List (Nat × Nat)) (hf : IsFact vf)
    (hv : value vf = ArithmeticFunction.carmichael m) :
    ∃ r : Nat, primitiveRootOfUnity m (ArithmeticFunction.carmichael m : Nat) (primeFactors (toI vf)) = some (r : Int) ∧
      1 ≤ r ∧ r < m ∧ Nat.Coprime r m ∧ (∀ x, Nat.Coprime x m → x ^ ArithmeticFunction.carmichael m ≡ 1 [MOD m]) ∧
      (∀ j, 0 < j → r ^ j ≡ 1 [MOD m] → ArithmeticFunction.carmichael m ≤ j) ∧
      (∀ s, 1 ≤ s → s < r → Nat.Coprime s m → ∃ j, 0 < j ∧ j < ArithmeticFunction.carmichael m ∧ s ^ j ≡ 1 [MOD m]) := by
  have hm0 : 0 < m := by omega
  have : NeZero m := ⟨by omega⟩
  have hexp : ∀ u : (ZMod m)ˣ, u ^ (ArithmeticFunction.carmichael m) = 1 := by
    intro u
    rw [ArithmeticFunction.carmichael_eq_exponent']
    exact Monoid.pow_exponent_eq_one u
  have hpos : 0 < ArithmeticFunction.carmichael m := by
    rw [ArithmeticFunction.carmichael_eq_exponent']
    exact Nat.pos_of_ne_zero Monoid.exponent_ne_zero_of_finite
  have hiff := fun j => primCond_iff m (ArithmeticFunction.carmichael m) hpos vf hf hv j hexp
  obtain ⟨u, hu⟩ := Monoid.exists_orderOf_eq_exponent (G := (ZMod m)ˣ) (Monoid.ExponentExists.of_finite)
  rw [← ArithmeticFunction.carmichael_eq_exponent'] at hu
  obtain ⟨r, e, h⟩ := primLoop_spec m (ArithmeticFunction.carmichael m : Nat) (primeFactors (toI vf)) (by omega)
    (fun p hp => by
      obtain ⟨q, hq, _, rfl⟩ := (C62_prime_factors vf hf p).mp hp
      exact_mod_cast hq.two_le) (by omega) (m - 1) 1 (by omega)
  have hpw : ∀ (x : Nat) (hc : Nat.Coprime x m) (j : Nat), (ZMod.unitOfCoprime x hc) ^ j = 1 ↔ x ^ j ≡ 1 [MOD m] := by
    intro x hc j
    rw [← ZMod.natCast_eq_natCast_iff, ← Units.val_inj, Units.val_pow_eq_pow_val, ZMod.coe_unitOfCoprime]
    push_cast
    rfl
  rcases h with ⟨h1, h2, h3, h4⟩ | ⟨h1, h2⟩
  · obtain ⟨hc, ho⟩ := (hiff r).mp h3
    refine ⟨r, e, h1, by omega, h3.1, fun x hx => (hpw x hx _).mp (hexp _), fun j hj hjr => ?_, fun s hs1 hs2 hsc => ?_⟩
    · rw [← ho]
      exact orderOf_le_of_pow_eq_one hj ((hpw r hc j).mpr hjr)
    · have hn := h4 s hs1 hs2
      rw [hiff] at hn
      refine ⟨orderOf (ZMod.unitOfCoprime s hsc), orderOf_pos _, ?_, (hpw s hsc _).mp (pow_orderOf_eq_one _)⟩
      have := Nat.le_of_dvd hpos (orderOf_dvd_of_pow_eq_one (hexp (ZMod.unitOfCoprime s hsc)))
      have hne : orderOf (ZMod.unitOfCoprime s hsc) ≠ ArithmeticFunction.carmichael m := fun h => hn ⟨hsc, h⟩
      omega
  · exfalso
    have hc := ZMod.val_coe_unit_coprime u
    have heq : ZMod.unitOfCoprime (u : ZMod m).val hc = u := by
      rw [← Units.val_inj, ZMod.coe_unitOfCoprime, ZMod.natCast_val, ZMod.cast_id]
    have hlt := ZMod.val_lt (u : ZMod m)
    have h0 : (u : ZMod m).val ≠ 0 := by
      intro h0
      rw [h0, Nat.coprime_zero_left] at hc
      omega
    refine h2 (u : ZMod m).val (by omega) (by omega) ((hiff _).mpr ⟨hc, ?_⟩)
    rw [heq, hu]

/-- **C62**: the prime-holder overloads are the same functions on the factorizations the holder gives. -/
theorem C62_primitive_root_prim (m : Nat) (vfm : List (Nat × Nat)) (hfm : IsFact vfm) (hvm : value vfm = m) (factor : Nat → List (Nat × Nat)) :
    primitiveRootPrim m (toI vfm) (fun n => toI (factor n.toNat)) = primitiveRoot m (Nat.totient m) (primeFactors (toI (factor (Nat.totient m)))) ∧
    primitiveRootOfUnityPrim m (toI vfm) (fun n => toI (factor n.toNat)) =
      primitiveRootOfUnity m (ArithmeticFunction.carmichael m : Nat) (primeFactors (toI (factor (ArithmeticFunction.carmichael m)))) := by
  constructor
  · rw [primitiveRootPrim, C62_euler_phi vfm hfm, hvm]
    rfl
  · rw [primitiveRootOfUnityPrim, C62_carmichael_lambda vfm hfm, hvm, Option.bind_eq_bind, Option.bind_some]
    have : NeZero m := ⟨by have := value_pos vfm hfm.prime; omega⟩
    rw [← ArithmeticFunction.carmichael_eq_exponent']
    rfl

example : primitiveRoot 41 40 [2, 5] = some 6 ∧ primitiveRoot 8 4 [2] = some 0 ∧ primitiveRoot 2 1 [] = some 1 := by decide +kernel
example : value [(2, 3), (5, 1)] = Nat.totient 41 ∧ IsFact [(2, 3), (5, 1)] :=
  ⟨by decide +kernel, by decide +kernel, by decide, by decide⟩
example : primitiveRootOfUnity 24 2 [2] = some 5 := by decide +kernel

end Altruct.NumTheory
