/-
C63: discrete logarithms in a group.
-/
import Verif.NumTheory.Crt
import Verif.Base.RootProps
import Mathlib.Combinatorics.Pigeonhole

namespace Altruct.NumTheory

open Altruct.Base (powT gcdEx)
open Altruct.Modulo (CrtSpec)

section group
variable {G : Type} [Monoid G] [DecidableEq G]

/-- `r` is the least `x >= 0` with `a^x = b`, or -1 if there is none. -/
def LeastLog (a b : G) (r : Int) : Prop :=
  (∃ x : Nat, r = x ∧ a ^ x = b ∧ ∀ y : Nat, a ^ y = b → x ≤ y) ∨ (r = -1 ∧ ∀ y : Nat, a ^ y ≠ b)

/-! ### brute force -/

theorem bruteLoop_spec (a b : G) : ∀ (k x : Nat), (∀ y < x, a ^ y ≠ b) →
    (∃ z : Nat, bruteLoop a b k x (a ^ x) = z ∧ z < x + k ∧ a ^ z = b ∧ ∀ y < z, a ^ y ≠ b) ∨
    (bruteLoop a b k x (a ^ x) = -1 ∧ ∀ y < x + k, a ^ y ≠ b) := by
  intro k
  induction k with
  | zero => intro x h; exact Or.inr ⟨rfl, h⟩
  | succ k ih =>
    intro x h
    rw [bruteLoop]
    by_cases hx : a ^ x = b
    · rw [if_pos hx]
      exact Or.inl ⟨x, rfl, by omega, hx, h⟩
    · rw [if_neg hx, ← pow_succ]
      have := ih (x + 1) (fun y hy => by
        by_cases hyx : y = x
        · rw [hyx]; exact hx
        · exact h y (by omega))
      push_cast at this
      rw [show x + (k + 1) = x + 1 + k by omega]
      exact this

/-- **C63**: `discrete_log_brute_force_g` finds the least logarithm below `max_iter`, or reports that there is none. -/
theorem C63_brute_force_g (a b : G) (n : Nat) :
    (∃ x : Nat, bruteForceG a b n = x ∧ x < n ∧ a ^ x = b ∧ ∀ y < x, a ^ y ≠ b) ∨ (bruteForceG a b n = -1 ∧ ∀ y < n, a ^ y ≠ b) := by
  have := bruteLoop_spec a b n 0 (fun y hy => by omega)
  rw [pow_zero, zero_add] at this
  rw [bruteForceG, Int.toNat_natCast]
  exact this

/-! ### baby-step giant-step -/

theorem lookup_none (l : List (G × Int)) (x : G) : lookup l x = none ↔ ∀ e ∈ l, e.1 ≠ x := by
  induction l with
  | nil => simp [lookup]
  | cons e l ih =>
    rw [lookup]
    by_cases h : e.1 = x
    · rw [if_pos h]; simp [h]
    · rw [if_neg h, ih]; simp [h]

theorem lookup_some (l : List (G × Int)) (x : G) (j : Int) (h : lookup l x = some j) : (x, j) ∈ l := by
  induction l with
  | nil => simp [lookup] at h
  | cons e l ih =>
    rw [lookup] at h
    by_cases hx : e.1 = x
    · rw [if_pos hx] at h
      have : e = (x, j) := Prod.ext hx (Option.some.inj h)
      rw [this]; exact List.mem_cons_self
    · rw [if_neg hx] at h
      exact List.mem_cons_of_mem _ (ih h)

/-- The table of baby steps `a^0, ..., a^(n-1)`. -/
def table (a : G) (n : Nat) : List (G × Int) := (List.range n).map (fun j : Nat => (a ^ j, (j : Int)))

theorem mem_table (a : G) (n : Nat) (x : G) (j : Int) : (x, j) ∈ table a n ↔ ∃ i < n, a ^ i = x ∧ (i : Int) = j := by
  simp [table]

theorem babyLoop_spec (a : G) : ∀ (k j : Nat), (∀ i < j, ∀ i' < i, a ^ i' ≠ a ^ i) →
    ∃ n, babyLoop a k j (a ^ j) (table a j) = table a n ∧ n ≤ j + k ∧ (∀ i < n, ∀ i' < i, a ^ i' ≠ a ^ i) ∧ ∀ i < j + k, ∃ i' < n, i' ≤ i ∧ a ^ i' = a ^ i := by
  intro k
  induction k with
  | zero => intro j hd; exact ⟨j, rfl, by omega, hd, fun i hi => ⟨i, by omega, le_refl i, rfl⟩⟩
  | succ k ih =>
    intro j hd
    rw [babyLoop]
    cases h : lookup (table a j) (a ^ j) with
    | some v =>
      obtain ⟨i0, hi0, e0, _⟩ := (mem_table a j _ _).mp (lookup_some _ _ _ h)
      refine ⟨j, rfl, by omega, hd, fun i _ => ?_⟩
      -- the powers repeat with period `j - i0`
      induction i using Nat.strongRecOn with
      | ind i ihi =>
        by_cases hij : i < j
        · exact ⟨i, hij, le_refl i, rfl⟩
        · obtain ⟨i', h1, h2, h3⟩ := ihi (i - j + i0) (by omega) (by omega)
          refine ⟨i', h1, by omega, ?_⟩
          rw [h3, pow_add, e0, ← pow_add]
          congr 1
          omega
    | none =>
      have e : table a j ++ [(a ^ j, (j : Int))] = table a (j + 1) := by
        simp [table, List.range_succ]
      simp only
      rw [e, ← pow_succ]
      have := ih (j + 1) (fun i hi i' hi' => by
        rcases Nat.lt_or_ge i j with h1 | h1
        · exact hd i h1 i' hi'
        · have : i = j := by omega
          subst this
          exact (lookup_none _ _).mp h (a ^ i', (i' : Int)) ((mem_table a i _ _).mpr ⟨i', hi', rfl, rfl⟩))
      push_cast at this
      rw [show j + (k + 1) = j + 1 + k by omega]
      exact this

theorem giantLoop_spec (a b alpha : G) (q n y : Nat) (hq : 0 < q) (hal : alpha * a ^ q = 1) (hcomm : Commute alpha a)
    (hn : ∀ i < q, ∃ i' < n, i' ≤ i ∧ a ^ i' = a ^ i) (hnq : n ≤ q) (hdist : ∀ i < n, ∀ i' < i, a ^ i' ≠ a ^ i) (hy : a ^ y = b) (hmin : ∀ z, a ^ z = b → y ≤ z) :
    ∀ (k i : Nat), i ≤ y / q → y / q < i + k → giantLoop (table a n) alpha q k i (b * alpha ^ i) = y := by
  have hpow : ∀ i : Nat, alpha ^ i * a ^ (q * i) = 1 := by
    intro i
    rw [pow_mul, ← (hcomm.pow_right q).mul_pow, hal, one_pow]
  intro k
  induction k with
  | zero => intro i h1 h2; omega
  | succ k ih =>
    intro i h1 h2
    rw [giantLoop]
    have hdm := Nat.div_add_mod y q
    have hml := Nat.mod_lt y hq
    cases h : lookup (table a n) (b * alpha ^ i) with
    | some v =>
      obtain ⟨j, hj, e, e2⟩ := (mem_table a n _ _).mp (lookup_some _ _ _ h)
      simp only
      have hb : a ^ (j + q * i) = b := by
        rw [pow_add, e, mul_assoc, hpow, mul_one]
      have hle := hmin _ hb
      have hi : i = y / q := by
        rcases Nat.lt_or_ge i (y / q) with hlt | hge
        · have : q * (i + 1) ≤ q * (y / q) := Nat.mul_le_mul_left q hlt
          rw [Nat.mul_add, mul_one] at this
          omega
        · omega
      obtain ⟨j', h3, h4, h5⟩ := hn (y % q) hml
      have hb' : a ^ (j' + q * i) = b := by
        rw [pow_add, h5, ← pow_add, ← hy]
        congr 1
        rw [hi]; omega
      have hj'y : j' = y % q := by have := hmin _ hb'; rw [hi] at this; omega
      -- the entry found is the only one
      have hjj : j = y % q := by
        -- both `j` and `y % q` index the same power below `n`
        have h6 : a ^ j = a ^ (y % q) := by
          have h7 : b * alpha ^ i = a ^ (y % q) := by
            rw [← hy]
            conv_lhs => rw [← hdm, hi, Nat.add_comm, pow_add, mul_assoc]
            rw [((hcomm.symm.pow_left (q * (y / q))).pow_right (y / q)).eq, hpow, mul_one]
          rw [e, h7]
        rcases Nat.lt_trichotomy j (y % q) with hlt | heq | hgt
        · have : a ^ (j + q * (y / q)) = b := by rw [pow_add, h6, ← pow_add, ← hy]; congr 1; omega
          have := hmin _ this
          omega
        · exact heq
        · exact absurd h6.symm (hdist j hj _ hgt)
      rw [hjj] at e2
      rw [← e2, hi]
      push_cast
      have : ((q * (y / q) + y % q : Nat) : Int) = y := by rw [hdm]
      push_cast at this
      linarith
    | none =>
      simp only
      have hi : i ≠ y / q := by
        intro hi
        obtain ⟨j', h3, _, h5⟩ := hn (y % q) hml
        have h7 : b * alpha ^ i = a ^ (y % q) := by
          rw [← hy]
          conv_lhs => rw [← hdm, hi, Nat.add_comm, pow_add, mul_assoc]
          rw [((hcomm.symm.pow_left (q * (y / q))).pow_right (y / q)).eq, hpow, mul_one]
        exact (lookup_none _ _).mp h (a ^ j', (j' : Int)) ((mem_table a n _ _).mpr ⟨j', h3, rfl, rfl⟩) (by rw [h5, h7])
      rw [mul_assoc, ← pow_succ]
      have := ih (i + 1) (by omega) (by omega)
      push_cast at this
      exact this

theorem giantLoop_none (a b alpha : G) (q n : Nat) (hal : alpha * a ^ q = 1) (hcomm : Commute alpha a)
    (hno : ∀ y : Nat, a ^ y ≠ b) : ∀ (k i : Nat), giantLoop (table a n) alpha q k i (b * alpha ^ i) = -1 := by
  have hpow : ∀ i : Nat, alpha ^ i * a ^ (q * i) = 1 := by
    intro i
    rw [pow_mul, ← (hcomm.pow_right q).mul_pow, hal, one_pow]
  intro k
  induction k with
  | zero => intro i; rfl
  | succ k ih =>
    intro i
    rw [giantLoop]
    cases h : lookup (table a n) (b * alpha ^ i) with
    | some v =>
      obtain ⟨j, hj, e, e2⟩ := (mem_table a n _ _).mp (lookup_some _ _ _ h)
      exact absurd (by rw [pow_add, e, mul_assoc, hpow, mul_one]) (hno (j + q * i))
    | none =>
      simp only
      rw [mul_assoc, ← pow_succ]
      have := ih (i + 1)
      push_cast at this
      exact this

/-- **C63**: `discrete_log_baby_giant_g` finds the least logarithm, or reports that there is none, for every `a` with
`a^n = 1`. -/
theorem C63_baby_giant_g (a b : G) (n : Nat) (hn : 1 ≤ n) (hl : n.log2 < 2 ^ 63) (ha : a ^ n = 1) :
    LeastLog a b (babyGiantG a b n) := by
  obtain ⟨r0, r1, r2⟩ := Base.C01_sqrtT (n : Int) (by omega) (by simpa using hl)
  obtain ⟨r, hr⟩ := Int.eq_ofNat_of_zero_le r0
  rw [hr] at r1 r2
  have r1' : r * r ≤ n := by exact_mod_cast r1
  have r2' : n < (r + 1) * (r + 1) := by exact_mod_cast r2
  have hrp : 1 ≤ r := by
    rcases Nat.eq_zero_or_pos r with h | h
    · rw [h] at r2'; omega
    · exact h
  have hal : ∃ e : Nat, powT a ((n : Int) - ((r : Int) + 1)) = a ^ e ∧ a ^ e * a ^ (r + 1) = 1 := by
    rcases Nat.lt_or_ge n (r + 1) with h | h
    · have hn1 : n = 1 := by nlinarith
      rw [hn1, pow_one] at ha
      exact ⟨0, by rw [Base.C04_powT_nonpos _ _ (by omega), pow_zero], by rw [ha, one_pow, one_pow, one_mul]⟩
    · refine ⟨n - (r + 1), by rw [show (n : Int) - ((r : Int) + 1) = ((n - (r + 1) : Nat) : Int) by omega, powT_nat], ?_⟩
      rw [← pow_add, Nat.sub_add_cancel h, ha]
  obtain ⟨e, he, hal⟩ := hal
  obtain ⟨t, ht, htq, hdist, hcov⟩ := babyLoop_spec a (r + 1) 0 (fun i hi => by omega)
  have hq : (Base.sqrtT (n : Int) + 1) = ((r + 1 : Nat) : Int) := by rw [hr]; push_cast; rfl
  have hG : babyGiantG a b n = giantLoop (table a t) (a ^ e) ((r + 1 : Nat) : Int) (r + 1) 0 (b * (a ^ e) ^ 0) := by
    rw [babyGiantG]
    rw [hq, Int.toNat_natCast, show ((n : Int) - ((r + 1 : Nat) : Int)) = (n : Int) - ((r : Int) + 1) by push_cast; rfl, he, pow_zero, mul_one, ← ht, pow_zero]
    rfl
  have hcomm : Commute (a ^ e) a := (Commute.refl a).pow_left e
  rw [hG]
  by_cases hex : ∃ y, a ^ y = b
  · left
    have hmin : ∀ z, a ^ z = b → Nat.find hex ≤ z := fun z hz => Nat.find_min' hex hz
    have hy := Nat.find_spec hex
    generalize Nat.find hex = y at hmin hy
    have hyn : y < n := by
      by_contra hc
      have := hmin (y - n) (by
        rw [← hy]
        conv_rhs => rw [show y = (y - n) + n by omega, pow_add, ha, mul_one])
      omega
    refine ⟨y, ?_, hy, hmin⟩
    refine giantLoop_spec a b (a ^ e) (r + 1) t y (by omega) hal hcomm ?_ (by omega) hdist hy hmin (r + 1) 0 (Nat.zero_le _) ?_
    · intro i hi
      exact hcov i (by omega)
    · rw [zero_add, Nat.div_lt_iff_lt_mul (by omega)]
      omega
  · right
    push Not at hex
    exact ⟨giantLoop_none a b (a ^ e) (r + 1) t hal hcomm hex (r + 1) 0, hex⟩

/-! ### prime power order -/

theorem isOfFin (a : G) (n : Nat) (hn : 0 < n) (ha : a ^ n = 1) : IsOfFinOrder a := isOfFinOrder_iff_pow_eq_one.mpr ⟨n, hn, ha⟩

/-- The least logarithm of a power is the exponent modulo the order. -/
theorem leastLog_pow (a : G) (n : Nat) (hn : 0 < n) (ha : a ^ n = 1) (y : Nat) (r : Int) (h : LeastLog a (a ^ y) r) :
    r = ((y % orderOf a : Nat) : Int) := by
  have hf := isOfFin a n hn ha
  rcases h with ⟨x, rfl, h1, h2⟩ | ⟨_, h⟩
  · have h3 := hf.pow_inj_mod.mp h1
    have h4 := h2 (y % orderOf a) (pow_mod_orderOf a y)
    have h5 := h2 (x % orderOf a) (by rw [pow_mod_orderOf, h1])
    have h6 := Nat.mod_le x (orderOf a)
    have : x = y % orderOf a := by rw [← h3]; omega
    rw [this]
  · exact absurd rfl (h y)

/-- The vector of the powers of `p`. -/
def powers (p : Nat) (n : Nat) : List Int := (List.range n).map (fun i => ((p ^ i : Nat) : Int))

theorem rd_powers (p n i : Nat) (h : i < n) : rd (powers p n) i = some ((p ^ i : Nat) : Int) := by
  simp [rd, powers, h]

theorem powers_succ (p n : Nat) : powers p (n + 1) = powers p n ++ [((p ^ n : Nat) : Int)] := by
  simp [powers, List.range_succ]

theorem ppLoop_spec (a : G) (p : Nat) : ∀ (n k : Nat), 1 ≤ k → (∀ j < k - 1, a ^ p ^ j ≠ 1) → a ^ p ^ (k - 1 + n) = 1 →
    ∃ s, ppLoop a p n k (powers p k) = some (s, powers p (s + 1)) ∧ a ^ p ^ s = 1 ∧ (∀ j < s, a ^ p ^ j ≠ 1) := by
  intro n
  induction n with
  | zero =>
    intro k hk h1 h2
    refine ⟨k - 1, ?_, by simpa using h2, h1⟩
    rw [ppLoop, Nat.sub_add_cancel hk]
  | succ n ih =>
    intro k hk h1 h2
    rw [ppLoop, rd_powers _ _ _ (by omega), Option.bind_eq_bind, Option.bind_some, powT_nat]
    by_cases h : a ^ p ^ (k - 1) = 1
    · rw [if_pos h]
      exact ⟨k - 1, by rw [Nat.sub_add_cancel hk], h, h1⟩
    · rw [if_neg h]
      have e : powers p k ++ [((p ^ (k - 1) : Nat) : Int) * p] = powers p (k + 1) := by
        rw [powers_succ]
        congr 2
        conv_rhs => rw [show k = k - 1 + 1 by omega, pow_succ]
        push_cast
        rfl
      rw [e]
      refine ih (k + 1) (by omega) (fun j hj => ?_) (by rw [show k + 1 - 1 + n = k - 1 + (n + 1) by omega]; exact h2)
      by_cases hjk : j = k - 1
      · rw [hjk]; exact h
      · exact h1 j (by omega)

theorem digitLoop_spec (a b ai : G) (p s y : Nat) (hp : p.Prime) (hlog : p.log2 < 2 ^ 63) (hs : 1 ≤ s) (ha : orderOf a = p ^ s)
    (hai : ai * a = 1) (hcomm : Commute ai a) (hb : a ^ y = b) (hy : y < p ^ s) : ∀ (n k : Nat), n + k = s →
    digitLoop b ai (a ^ p ^ (s - 1)) p (powers p (s + 1)) s n k ((y % p ^ k : Nat) : Int) = some (y : Int) := by
  intro n
  induction n with
  | zero =>
    intro k hk
    have : k = s := by omega
    subst this
    rw [digitLoop, Nat.mod_eq_of_lt hy]
  | succ n ih =>
    intro k hk
    rw [digitLoop, rd_powers _ _ _ (by omega), Option.bind_eq_bind, Option.bind_some, powT_nat, powT_nat]
    simp only
    have hdm := Nat.div_add_mod y (p ^ k)
    have hbk : (ai ^ (y % p ^ k) * b) ^ p ^ (s - 1 - k) = (a ^ p ^ (s - 1)) ^ (y / p ^ k) := by
      have h1 : ai ^ (y % p ^ k) * b = a ^ (p ^ k * (y / p ^ k)) := by
        rw [← hb]
        conv_lhs => arg 2; rw [← hdm, Nat.add_comm, pow_add]
        rw [← mul_assoc, ← hcomm.mul_pow, hai, one_pow, one_mul]
      rw [h1, ← pow_mul, ← pow_mul]
      congr 1
      rw [show s - 1 = k + (s - 1 - k) by omega, pow_add]
      rw [show k + (s - 1 - k) - k = s - 1 - k by omega]
      ring
    have hord : orderOf (a ^ p ^ (s - 1)) = p := by
      rw [orderOf_pow_of_dvd (pow_ne_zero _ hp.ne_zero) (by rw [ha]; exact pow_dvd_pow p (by omega)), ha]
      exact Nat.div_eq_of_eq_mul_right (pow_pos hp.pos _) (by rw [← pow_succ, Nat.sub_add_cancel hs])
    have hg1 : (a ^ p ^ (s - 1)) ^ p = 1 := by
      rw [← pow_mul, ← pow_succ, Nat.sub_add_cancel hs, ← ha, pow_orderOf_eq_one]
    have hd := leastLog_pow (a ^ p ^ (s - 1)) p hp.pos hg1 (y / p ^ k) _
      (by rw [← hbk]; exact C63_baby_giant_g _ _ p hp.one_lt.le hlog hg1)
    rw [hd, hord, rd_powers _ _ _ (by omega), Option.bind_some]
    have e : ((y % p ^ k : Nat) : Int) + ((p ^ k : Nat) : Int) * ((y / p ^ k % p : Nat) : Int) = ((y % p ^ (k + 1) : Nat) : Int) := by
      rw [pow_succ, Nat.mod_mul]
      push_cast
      ring
    rw [e]
    exact ih (k + 1) (by omega)

/-- **C63**: `discrete_log_order_pp_g` finds the least logarithm of every power `b` of `a`, for every `a` with
`a^(p^s) = 1`, `p` prime. -/
theorem C63_order_pp_g (a b : G) (p s : Nat) (hp : p.Prime) (hlog : p.log2 < 2 ^ 63) (ha : a ^ p ^ s = 1) (hb : ∃ y : Nat, a ^ y = b) :
    ∃ x : Nat, orderPpG a b p s = some (x : Int) ∧ a ^ x = b ∧ ∀ y : Nat, a ^ y = b → x ≤ y := by
  obtain ⟨y0, hy0⟩ := hb
  rw [orderPpG]
  by_cases h0 : s = 0
  · rw [if_pos h0]
    rw [h0, pow_zero, pow_one] at ha
    exact ⟨0, rfl, by rw [← hy0, ha, one_pow, one_pow], fun y _ => Nat.zero_le y⟩
  rw [if_neg h0]
  by_cases h1 : a = 1
  · rw [if_pos h1]
    exact ⟨0, rfl, by rw [← hy0, h1, one_pow, one_pow], fun y _ => Nat.zero_le y⟩
  rw [if_neg h1]
  by_cases h2 : b = 1
  · rw [if_pos h2]
    exact ⟨0, rfl, by rw [h2, pow_zero], fun y _ => Nat.zero_le y⟩
  rw [if_neg h2]
  by_cases h3 : a = b
  · rw [if_pos h3]
    refine ⟨1, rfl, by rw [pow_one, h3], fun y hy => ?_⟩
    rcases Nat.eq_zero_or_pos y with h | h
    · rw [h, pow_zero] at hy; exact absurd hy.symm h2
    · exact h
  rw [if_neg h3]
  obtain ⟨t, e, ht1, ht2⟩ := ppLoop_spec a p s 1 le_rfl (fun j hj => by omega) (by simpa using ha)
  have e1 : powers p 1 = [1] := by simp [powers]
  rw [e1] at e
  have ht : t ≠ 0 := by
    rintro rfl
    rw [pow_zero, pow_one] at ht1
    exact h1 ht1
  have hord : orderOf a = p ^ t := by
    obtain ⟨u, rfl⟩ := Nat.exists_eq_succ_of_ne_zero ht
    have : Fact p.Prime := ⟨hp⟩
    exact orderOf_eq_prime_pow (ht2 u (by omega)) ht1
  have hps : 1 ≤ p ^ t := pow_pos hp.pos t
  rw [e, Option.bind_eq_bind, Option.bind_some]
  simp only
  rw [rd_powers _ _ _ (by omega), Option.bind_eq_bind, Option.bind_some, rd_powers _ _ _ (by omega), Option.bind_some, powT_nat,
    show (((p ^ t : Nat) : Int) - 1) = ((p ^ t - 1 : Nat) : Int) by omega, powT_nat]
  have hf := isOfFin a _ hps ht1
  have hlt : y0 % p ^ t < p ^ t := Nat.mod_lt _ (by omega)
  have hy : a ^ (y0 % p ^ t) = b := by rw [← hord, pow_mod_orderOf, hy0]
  have := digitLoop_spec a b (a ^ (p ^ t - 1)) p t (y0 % p ^ t) hp hlog (by omega) hord
    (by rw [← pow_succ, Nat.sub_add_cancel hps, ht1]) ((Commute.refl a).pow_left _) hy hlt t 0 (by omega)
  rw [pow_zero, Nat.mod_one] at this
  refine ⟨y0 % p ^ t, this, hy, fun y h => ?_⟩
  have h4 := hf.pow_inj_mod.mp (h.trans hy.symm)
  rw [hord, Nat.mod_mod] at h4
  rw [← h4]
  exact Nat.mod_le _ _

/-! ### Pohlig-Hellman -/

theorem splitLoop_spec (p : Nat) (hp : p.Prime) (o : Nat) (ho : 0 < o) : ∀ (fuel d e : Nat), 0 < d → d < fuel → o = d * p ^ e →
    ∃ d' e' : Nat, splitLoop p fuel d ((p ^ e : Nat) : Int) e = some ((d' : Int), ((p ^ e' : Nat) : Int), e') ∧ o = d' * p ^ e' ∧ ¬ p ∣ d' := by
  intro fuel
  induction fuel with
  | zero => intro d e _ h; omega
  | succ fuel ih =>
    intro d e hd hf he
    have hp2 := hp.two_le
    rw [splitLoop, if_neg (by omega)]
    by_cases h : p ∣ d
    · rw [if_pos (Int.tmod_eq_zero_of_dvd (Int.natCast_dvd_natCast.mpr h))]
      obtain ⟨c, rfl⟩ := h
      have hc : 0 < c := Nat.pos_of_ne_zero (by rintro rfl; omega)
      have e1 : (((p * c : Nat) : Int)).tdiv p = c := by push_cast; exact Int.mul_tdiv_cancel_left _ (by omega)
      have e2 : ((p ^ e : Nat) : Int) * p = ((p ^ (e + 1) : Nat) : Int) := by push_cast; ring
      rw [e1, e2]
      refine ih c (e + 1) hc (by nlinarith) (by rw [he]; ring)
    · rw [if_neg (fun h' => h (Int.natCast_dvd_natCast.mp (Int.dvd_of_tmod_eq_zero h')))]
      exact ⟨d, e, rfl, he, h⟩

theorem dlogLoop_spec (a b : G) (o y : Nat) (ho : orderOf a = o) (hpos : 0 < o) (hy : a ^ y = b) : ∀ (ps : List Nat),
    (∀ p ∈ ps, p.Prime ∧ p.log2 < 2 ^ 63) → ps.Nodup → ∀ (q c : Nat), 0 < q → o = q * c → Nat.Coprime q c → (∀ p ∈ ps, ¬ p ∣ q) →
    (∀ r : Nat, r.Prime → r ∣ c → r ∈ ps) →
    dlogLoop a b o (ps.map (fun p : Nat => (p : Int))) ((y % q : Nat) : Int) (q : Int) = some (((y % o : Nat) : Int), (o : Int)) := by
  intro ps
  induction ps with
  | nil =>
    intro _ _ q c hq hqc _ _ hr
    have : c = 1 := by
      by_contra h
      obtain ⟨r, h1, h2⟩ := Nat.exists_prime_and_dvd h
      simpa using hr r h1 h2
    rw [this, mul_one] at hqc
    rw [List.map_nil, dlogLoop, hqc]
  | cons p ps ih =>
    intro hps hnd q c hq hqc hcop hnq hr
    obtain ⟨hp, hlog⟩ := hps p List.mem_cons_self
    have hps' := fun r hr' => hps r (List.mem_cons_of_mem p hr')
    obtain ⟨hpn, hnd'⟩ := List.nodup_cons.mp hnd
    obtain ⟨d, e, e1, e2, e3⟩ := splitLoop_spec p hp o hpos (o + 1) o 0 hpos (by omega) (by simp)
    rw [pow_zero] at e1
    rw [List.map_cons, dlogLoop, Int.toNat_natCast]
    rw [show ((1 : Nat) : Int) = 1 from rfl] at e1
    rw [e1, Option.bind_eq_bind, Option.bind_some]
    simp only
    have hpq : Nat.Coprime p q := (Nat.Prime.coprime_iff_not_dvd hp).mpr (hnq p List.mem_cons_self)
    by_cases he : e = 0
    · rw [if_pos he]
      rw [he, pow_zero, mul_one] at e2
      refine ih hps' hnd' q c hq hqc hcop (fun r h => hnq r (List.mem_cons_of_mem p h)) (fun r h1 h2 => ?_)
      rcases List.mem_cons.mp (hr r h1 h2) with h | h
      · exfalso
        apply e3
        rw [← e2, hqc, ← h]
        exact h2.trans (Dvd.intro_left _ rfl)
      · exact h
    · rw [if_neg he, powT_nat, powT_nat]
      have hd0 : d ≠ 0 := by rintro rfl; omega
      have hdo : d ∣ orderOf a := by rw [ho, e2]; exact Dvd.intro _ rfl
      have hpe : 0 < p ^ e := pow_pos hp.pos e
      have hord : orderOf (a ^ d) = p ^ e := by
        rw [orderOf_pow_of_dvd hd0 hdo, ho, e2, Nat.mul_div_cancel_left _ (Nat.pos_of_ne_zero hd0)]
      have h1 : (a ^ d) ^ p ^ e = 1 := by rw [← hord, pow_orderOf_eq_one]
      have hbd : (a ^ d) ^ y = b ^ d := by rw [← hy, ← pow_mul, ← pow_mul, Nat.mul_comm]
      obtain ⟨x, x1, x2, x3⟩ := C63_order_pp_g (a ^ d) (b ^ d) p e hp hlog h1 ⟨y, hbd⟩
      have hx := leastLog_pow (a ^ d) _ hpe h1 y x (Or.inl ⟨x, rfl, by rw [x2, hbd], fun z hz => x3 z (by rw [hz, hbd])⟩)
      rw [hord] at hx
      rw [x1, Option.bind_eq_bind, Option.bind_some, hx]
      have hcpe : Nat.Coprime q (p ^ e) := (Nat.Coprime.pow_left e hpq).symm
      -- Chinese remainder
      have hcrt : crt ((y % q : Nat) : Int) q ((y % p ^ e : Nat) : Int) ((p ^ e : Nat) : Int) = (((y % (q * p ^ e) : Nat) : Int), ((q * p ^ e : Nat) : Int)) := by
        have hsp := crt_spec ((y % q : Nat) : Int) q ((y % p ^ e : Nat) : Int) ((p ^ e : Nat) : Int) (by omega) (by omega) (by omega) (by omega)
        have hself : ∀ n : Nat, (n : Int) ∣ (y : Int) - ((y % n : Nat) : Int) := by
          intro n
          refine ⟨((y / n : Nat) : Int), ?_⟩
          have := Nat.div_add_mod y n
          have h' : ((n * (y / n) + y % n : Nat) : Int) = y := by rw [this]
          push_cast at h' ⊢
          linarith
        have hlcm : Int.lcm (q : Int) ((p ^ e : Nat) : Int) = q * p ^ e := by
          rw [Int.lcm_natCast_natCast, Nat.Coprime.lcm_eq_mul hcpe]
        generalize crt ((y % q : Nat) : Int) q ((y % p ^ e : Nat) : Int) ((p ^ e : Nat) : Int) = R at hsp
        obtain ⟨A, N⟩ := R
        rcases hsp with ⟨_, _, h⟩ | ⟨h1, h2, h3, h4⟩
        · exact absurd ⟨(y : Int), hself q, hself (p ^ e)⟩ h
        · rw [hlcm] at h1
          simp only at h1 h2 h3 h4
          have h5 := (h4 y).mp ⟨hself q, hself (p ^ e)⟩
          subst h1
          have h6 : A = ((y % (q * p ^ e) : Nat) : Int) := by
            rw [Int.natCast_mod]
            have : (y : Int) % ((q * p ^ e : Nat) : Int) = A % ((q * p ^ e : Nat) : Int) :=
              Int.emod_eq_emod_iff_emod_sub_eq_zero.mpr (Int.emod_eq_zero_of_dvd h5)
            rw [this, Int.emod_eq_of_lt h2 h3]
          rw [h6]
      rw [hcrt]
      simp only
      -- the part of the order that is left
      have hpc : p ^ e ∣ c := by
        have : p ^ e ∣ q * c := by rw [← hqc, e2]; exact Dvd.intro_left _ rfl
        exact Nat.Coprime.dvd_of_dvd_mul_left hcpe.symm this
      obtain ⟨c', hc'⟩ := hpc
      have hdq : d = q * c' := by
        have : d * p ^ e = q * c' * p ^ e := by rw [← e2, hqc, hc']; ring
        exact Nat.eq_of_mul_eq_mul_right hpe this
      have hpc' : ¬ p ∣ c' := fun h => e3 (by rw [hdq]; exact h.mul_left q)
      refine ih hps' hnd' (q * p ^ e) c' (Nat.mul_pos hq hpe) (by rw [hqc, hc']; ring) ?_ ?_ ?_
      · refine Nat.Coprime.mul_left (hcop.coprime_dvd_right (by rw [hc']; exact Dvd.intro_left _ rfl)) (Nat.Coprime.pow_left e ((Nat.Prime.coprime_iff_not_dvd hp).mpr hpc'))
      · intro r hr' h
        have hrp := (hps' r hr').1
        rcases hrp.dvd_mul.mp h with h | h
        · exact hnq r (List.mem_cons_of_mem p hr') h
        · have := (Nat.prime_dvd_prime_iff_eq hrp hp).mp (hrp.dvd_of_dvd_pow h)
          rw [this] at hr'
          exact hpn hr'
      · intro r h1 h2
        rcases List.mem_cons.mp (hr r h1 (by rw [hc']; exact h2.mul_left _)) with h | h
        · rw [h] at h2; exact absurd h2 hpc'
        · exact h

/-- **C63**: `discrete_log_g` returns the order of `a` and the least logarithm of every power `b` of `a`. -/
theorem C63_discrete_log_g (a b : G) (n : Nat) (hn : 0 < n) (ha : a ^ n = 1) (ps : List Nat) (hps : ∀ p ∈ ps, p.Prime ∧ p.log2 < 2 ^ 63) (hnd : ps.Nodup)
    (hall : ∀ q : Nat, q.Prime → q ∣ n → q ∈ ps) (hb : ∃ y : Nat, a ^ y = b) :
    ∃ x : Nat, dlogG a b n (ps.map (fun p : Nat => (p : Int))) = some ((x : Int), (orderOf a : Int)) ∧ a ^ x = b ∧ ∀ y : Nat, a ^ y = b → x ≤ y := by
  obtain ⟨y, hy⟩ := hb
  have hf := isOfFin a n hn ha
  obtain ⟨k, e, k1, k2, k3⟩ := C62_multiplicative_order_g a n hn ha (ps.map (fun p : Nat => (p : Int)))
    (fun p hp => by
      obtain ⟨r, hr, rfl⟩ := List.mem_map.mp hp
      exact_mod_cast (hps r hr).1.two_le)
    (fun q h1 h2 => List.mem_map.mpr ⟨q, hall q h1 h2, rfl⟩)
  have hk : orderOf a = k := by
    have h1 := orderOf_le_of_pow_eq_one k1 k2
    have h2 := k3 (orderOf a) hf.orderOf_pos (pow_orderOf_eq_one a)
    omega
  have hl := dlogLoop_spec a b k y hk k1 hy ps hps hnd 1 k Nat.one_pos (by omega) (Nat.coprime_one_left k)
    (fun p hp h => (hps p hp).1.one_lt.ne' (Nat.dvd_one.mp h))
    (fun r h1 h2 => hall r h1 (h2.trans (by rw [← hk]; exact orderOf_dvd_of_pow_eq_one ha)))
  rw [Nat.mod_one] at hl
  refine ⟨y % k, ?_, by rw [← hk, pow_mod_orderOf, hy], fun z hz => ?_⟩
  · rw [dlogG, e, Option.bind_eq_bind, Option.bind_some]
    push_cast at hl
    push_cast
    rw [hl, hk, Option.bind_eq_bind, Option.bind_some]
  · have h4 := hf.pow_inj_mod.mp (hz.trans hy.symm)
    rw [hk] at h4
    rw [← h4]
    exact Nat.mod_le _ _

end group
/-! ### modulo `m` -/

/-- In a finite monoid the least logarithm is below the number of elements. -/
theorem exists_small_log {G : Type} [Monoid G] [Fintype G] (a b : G) (h : ∃ y : Nat, a ^ y = b) : ∃ y : Nat, y < Fintype.card G ∧ a ^ y = b := by
  classical
  refine ⟨Nat.find h, ?_, Nat.find_spec h⟩
  by_contra hc
  have hmin : ∀ z, a ^ z = b → Nat.find h ≤ z := fun z hz => Nat.find_min' h hz
  have hy := Nat.find_spec h
  generalize Nat.find h = y at hc hmin hy
  obtain ⟨i, j, hij, he⟩ := Fintype.exists_ne_map_eq_of_card_lt (fun i : Fin (y + 1) => a ^ (i : Nat)) (by rw [Fintype.card_fin]; omega)
  wlog hlt : i < j generalizing i j
  · exact this j i hij.symm he.symm (lt_of_le_of_ne (not_lt.mp hlt) hij.symm)
  have hj := j.2
  have hlt' : (i : Nat) < j := hlt
  have := hmin (y - j + i) (by
    rw [pow_add, he, ← pow_add, Nat.sub_add_cancel (by omega), hy])
  omega

theorem pow_eq_iff_modEq (m a b k : Nat) : ((a : Int) : ZMod m) ^ k = ((b : Int) : ZMod m) ↔ a ^ k ≡ b [MOD m] := by
  rw [← ZMod.natCast_eq_natCast_iff]
  push_cast
  rfl

/-- The least `x >= 0` with `a^x = b (mod m)`, or -1. -/
def LeastLogMod (m a b : Nat) (r : Int) : Prop :=
  (∃ x : Nat, r = x ∧ a ^ x ≡ b [MOD m] ∧ ∀ y : Nat, a ^ y ≡ b [MOD m] → x ≤ y) ∨ (r = -1 ∧ ∀ y : Nat, ¬ a ^ y ≡ b [MOD m])

/-- **C63**: `discrete_log_brute_force` finds the least logarithm modulo `m`, or reports that there is none; `a` and
`b` need not be coprime to `m`. -/
theorem C63_brute_force (a b m : Nat) (hm : 0 < m) : LeastLogMod m a b (bruteForce a b m) := by
  have : NeZero m := ⟨hm.ne'⟩
  rw [bruteForce]
  rcases C63_brute_force_g ((a : Int) : ZMod m) ((b : Int) : ZMod m) m with ⟨x, e, h1, h2, h3⟩ | ⟨e, h⟩
  · refine Or.inl ⟨x, e, (pow_eq_iff_modEq m a b x).mp h2, fun y hy => ?_⟩
    by_contra hc
    exact h3 y (by omega) ((pow_eq_iff_modEq m a b y).mpr hy)
  · refine Or.inr ⟨e, fun y hy => ?_⟩
    obtain ⟨z, hz, hzb⟩ := exists_small_log ((a : Int) : ZMod m) ((b : Int) : ZMod m) ⟨y, (pow_eq_iff_modEq m a b y).mpr hy⟩
    rw [ZMod.card] at hz
    exact h z hz hzb

/-- **C63**: `discrete_log_baby_giant` modulo `m`, for every `n` with `a^n = 1 (mod m)`. -/
theorem C63_baby_giant (a b m n : Nat) (hn : 1 ≤ n) (hl : n.log2 < 2 ^ 63) (ha : a ^ n ≡ 1 [MOD m]) :
    LeastLogMod m a b (babyGiant a b m n) := by
  have h := C63_baby_giant_g ((a : Int) : ZMod m) ((b : Int) : ZMod m) n hn hl (by
    have := (pow_eq_iff_modEq m a 1 n).mpr ha
    simpa using this)
  rw [babyGiant]
  rcases h with ⟨x, e, h1, h2⟩ | ⟨e, h⟩
  · exact Or.inl ⟨x, e, (pow_eq_iff_modEq m a b x).mp h1, fun y hy => h2 y ((pow_eq_iff_modEq m a b y).mpr hy)⟩
  · exact Or.inr ⟨e, fun y hy => h y ((pow_eq_iff_modEq m a b y).mpr hy)⟩

/-- **C63**: `discrete_log_shanks` modulo a prime `p`. -/
theorem C63_shanks (a b p : Nat) (hp : p.Prime) (hl : p.log2 < 2 ^ 63) (ha : Nat.Coprime a p) :
    LeastLogMod p a b (shanks a b p) := by
  have hp2 := hp.two_le
  rw [shanks, show (p : Int) - 1 = ((p - 1 : Nat) : Int) by omega]
  refine C63_baby_giant a b p (p - 1) (by omega) (lt_of_le_of_lt ?_ hl) ?_
  · rw [Nat.log2_eq_log_two, Nat.log2_eq_log_two]
    exact Nat.log_mono_right (by omega)
  · have := Nat.ModEq.pow_totient ha
    rwa [Nat.totient_prime hp] at this

/-- **C63**: `discrete_log_oddp` modulo a prime `p`. -/
theorem C63_oddp (a b p : Nat) (hp : p.Prime) (hl : p.log2 < 2 ^ 63) (ha : Nat.Coprime a p) :
    LeastLogMod p a b (oddp a b p) := by
  rw [oddp]
  split_ifs
  · exact C63_brute_force a b p hp.pos
  · exact C63_shanks a b p hp hl ha

/-- **C63**: `discrete_log` modulo `m`: the order of `a` and the least logarithm of every power `b` of `a`. -/
theorem C63_discrete_log (a b m : Nat) (hm : 0 < m) (hc : Nat.Coprime a m) (vf : List (Nat × Nat)) (hf : IsFact vf) (hv : value vf = Nat.totient m)
    (hlog : ∀ f ∈ vf, f.1.log2 < 2 ^ 63) (hb : ∃ y, a ^ y ≡ b [MOD m]) :
    ∃ x o : Nat, dlog a b m (Nat.totient m) (primeFactors (toI vf)) = some ((x : Int), (o : Int)) ∧
      a ^ x ≡ b [MOD m] ∧ (∀ y, a ^ y ≡ b [MOD m] → x ≤ y) ∧
      0 < o ∧ a ^ o ≡ 1 [MOD m] ∧ ∀ j, 0 < j → a ^ j ≡ 1 [MOD m] → o ≤ j := by
  have h1 : ∀ k, ((a : Int) : ZMod m) ^ k = 1 ↔ a ^ k ≡ 1 [MOD m] := by
    intro k
    have := pow_eq_iff_modEq m a 1 k
    simpa using this
  have hone := (h1 _).mpr (Nat.ModEq.pow_totient hc)
  have hpos := Nat.totient_pos.mpr hm
  obtain ⟨y, hy⟩ := hb
  have hpf : primeFactors (toI vf) = (vf.map Prod.fst).map (fun p : Nat => (p : Int)) := by
    rw [primeFactors, toI, List.map_map, List.map_map]
    rfl
  obtain ⟨x, e, x1, x2⟩ := C63_discrete_log_g ((a : Int) : ZMod m) ((b : Int) : ZMod m) (Nat.totient m) hpos hone (vf.map Prod.fst)
    (fun p hp => by
      obtain ⟨f, hf', rfl⟩ := List.mem_map.mp hp
      exact ⟨hf.prime f hf', hlog f hf'⟩) hf.nodup
    (fun q hq hd => by
      have := (C62_prime_factors vf hf q).mpr ⟨q, hq, by rw [hv]; exact hd, rfl⟩
      rw [hpf] at this
      obtain ⟨r, hr, e⟩ := List.mem_map.mp this
      have : r = q := by exact_mod_cast e
      rwa [← this]) ⟨y, (pow_eq_iff_modEq m a b y).mpr hy⟩
  have hfin := isOfFin _ _ hpos hone
  refine ⟨x, orderOf ((a : Int) : ZMod m), ?_, (pow_eq_iff_modEq m a b x).mp x1, fun z hz => x2 z ((pow_eq_iff_modEq m a b z).mpr hz),
    hfin.orderOf_pos, (h1 _).mp (pow_orderOf_eq_one _), fun j hj hj1 => orderOf_le_of_pow_eq_one hj ((h1 j).mpr hj1)⟩
  rw [dlog, hpf]
  exact e

example : dlog 2 9 11 10 [2, 5] = some (6, 10) ∧ bruteForce 2 9 11 = 6 ∧ babyGiant 2 9 11 10 = 6 ∧ babyGiant 3 2 11 10 = -1 ∧ shanks 2 9 11 = 6 := by
  decide +kernel
example : orderPpG (3 : ZMod 17) 5 2 4 = some 5 := by decide +kernel
/-- `b` has to be a power of `a`: for other `b` the result of the prime-power version means nothing. -/
theorem C63_order_pp_not_power : orderPpG (2 : ZMod 17) 3 2 4 = some (-1 - 2 - 4) ∧ ∀ y < 17, (2 : ZMod 17) ^ y ≠ 3 := by decide +kernel

end Altruct.NumTheory
