/-
C12: Moebius function and the segmented tables (primality flags, totients, Moebius).
-/
import Verif.Primes.TablesProps
import Verif.Base.Props
import Mathlib.NumberTheory.ArithmeticFunction.Moebius
import Mathlib.Tactic.LinearCombination

namespace Altruct.Primes

open ArithmeticFunction (moebius)

/-! ### The values of the Moebius loops -/

/-- What the sieve of the Moebius tables holds at `j` after processing the primes of `L`. -/
def muVal (L : List Nat) (j : Nat) : Int :=
  if j = 0 then 0 else ((L.filter (· ∣ j)).map fun p : Nat => if p * p ∣ j then (0 : Int) else -(p : Int)).prod

theorem muVal_zero (L : List Nat) : muVal L 0 = 0 := if_pos rfl

theorem muVal_nil {j : Nat} (hj : j ≠ 0) : muVal [] j = 1 := by simp [muVal, hj]

theorem muVal_not_dvd {L : List Nat} {q j : Nat} (hq : ¬ q ∣ j) : muVal (L ++ [q]) j = muVal L j := by
  simp [muVal, List.filter_append, hq]

theorem muVal_sq {L : List Nat} {q j : Nat} (hq : q * q ∣ j) : muVal (L ++ [q]) j = 0 := by
  have : q ∣ j := (dvd_mul_left q q).trans hq
  simp [muVal, List.filter_append, this, hq]

theorem muVal_dvd {L : List Nat} {q j : Nat} (hq : q ∣ j) (h2 : ¬ q * q ∣ j) :
    muVal (L ++ [q]) j = muVal L j * -(q : Int) := by
  unfold muVal
  split
  · simp
  · simp [List.filter_append, hq, h2]

theorem natAbs_muVal_le {L : List Nat} {j : Nat} (hj : j ≠ 0) :
    (muVal L j).natAbs ∣ (L.filter (· ∣ j)).prod ∨ muVal L j = 0 := by
  unfold muVal
  rw [if_neg hj]
  generalize L.filter (· ∣ j) = M
  induction M with
  | nil => left; simp
  | cons a M ih =>
    rw [List.map_cons, List.prod_cons, List.prod_cons]
    rcases ih with h | h
    · by_cases ha : a * a ∣ j
      · right; simp [ha]
      · left
        rw [if_neg ha, Int.natAbs_mul, Int.natAbs_neg, Int.natAbs_natCast]
        exact Nat.mul_dvd_mul (dvd_refl a) h
    · right; rw [h, mul_zero]

/-- No product computed by the sieves is bigger than the index. -/
theorem mul_fits {lim : Nat} {L : List Nat} {q j : Nat} (hn : (L ++ [q]).Nodup) (hp : ∀ p ∈ L ++ [q], p.Prime)
    (hq : q ∣ j) (hj : j ≤ lim) : mulNeg lim q (muVal L j) = some (muVal L j * -(q : Int)) := by
  rw [mulNeg, if_pos]
  rcases Nat.eq_zero_or_pos j with rfl | h0
  · simp [muVal]
  · rcases natAbs_muVal_le (L := L) (j := j) (by omega) with h | h
    · have hd := prod_dvd_of_primes (j := j) (hn.filter (fun x => decide (x ∣ j))) (by
        intro p h
        rw [List.mem_filter] at h
        exact ⟨hp p h.1, by simpa using h.2⟩)
      rw [List.filter_append, List.prod_append] at hd
      simp only [hq, decide_true, List.filter_cons_of_pos, List.filter_nil, List.prod_singleton] at hd
      rw [Int.natAbs_mul, Int.natAbs_neg, Int.natAbs_natCast]
      have := Nat.le_of_dvd h0 ((Nat.mul_dvd_mul h (dvd_refl q)).trans hd)
      omega
    · rw [h]; simp

/-- The table entry of the next candidate tells whether it is a prime. -/
theorem muVal_eq_one {i : Nat} (hi : 2 ≤ i) : muVal (primesBelow i) i = 1 ↔ i.Prime := by
  constructor
  · intro h
    by_contra hp
    have hm := Nat.minFac_prime (show i ≠ 1 by omega)
    have hlt : i.minFac < i := by
      rcases Nat.lt_or_eq_of_le (Nat.minFac_le (show 0 < i by omega)) with h | h
      · exact h
      · rw [h] at hm; exact absurd hm hp
    have hmem : i.minFac ∈ (primesBelow i).filter (· ∣ i) := by
      rw [List.mem_filter, mem_primesBelow]
      exact ⟨⟨hlt, hm⟩, by simpa using Nat.minFac_dvd i⟩
    rw [muVal, if_neg (by omega)] at h
    have hd := List.dvd_prod (List.mem_map_of_mem (f := fun p : Nat => if p * p ∣ i then (0 : Int) else -(p : Int)) hmem)
    rw [h] at hd
    split at hd
    · simp at hd
    · rw [neg_dvd, ← Int.natCast_one, Int.natCast_dvd_natCast, Nat.dvd_one] at hd
      exact hm.one_lt.ne' hd
  · intro hp
    rw [muVal, if_neg (by omega), List.filter_eq_nil_iff.mpr]
    · rfl
    · intro a ha
      rw [mem_primesBelow] at ha
      simp only [decide_eq_true_eq]
      intro h
      rcases (Nat.dvd_prime hp).mp h with rfl | rfl
      · exact absurd ha.2 (by decide)
      · omega

theorem moebius_prod {M : List Nat} (hn : M.Nodup) (hp : ∀ p ∈ M, p.Prime) :
    moebius M.prod = (-1) ^ M.length := by
  induction M with
  | nil => simp
  | cons a M ih =>
    rw [List.nodup_cons] at hn
    have hc : Nat.Coprime a M.prod := by
      rw [Nat.coprime_list_prod_right_iff]
      intro b hb
      rw [Nat.coprime_primes (hp a (by simp)) (hp b (by simp [hb]))]
      rintro rfl
      exact hn.1 hb
    rw [List.prod_cons, ArithmeticFunction.isMultiplicative_moebius.map_mul_of_coprime hc,
      ih hn.2 (fun p h => hp p (by simp [h])), ArithmeticFunction.moebius_apply_prime (hp a (by simp)),
      List.length_cons, pow_succ]
    ring

theorem prod_neg_list (M : List Nat) : (M.map fun p : Nat => -(p : Int)).prod = (-1) ^ M.length * (M.prod : Int) := by
  induction M with
  | nil => simp
  | cons a M ih =>
    rw [List.map_cons, List.prod_cons, ih, List.length_cons, List.prod_cons, pow_succ]
    push_cast
    ring

/-- What the sieve holds when all primes with a square up to `j` were processed. -/
theorem mu_cases {r j : Nat} (hj : 1 ≤ j) (hjr : j < r * r) :
    (muVal (primesBelow r) j = 0 ∧ moebius j = 0) ∨
    (muVal (primesBelow r) j = moebius j * j ∧ (moebius j = 1 ∨ moebius j = -1)) ∨
    (∃ c : Nat, 1 ≤ c ∧ c < j ∧ muVal (primesBelow r) j = -moebius j * c ∧ (moebius j = 1 ∨ moebius j = -1)) := by
  by_cases hsq : Squarefree j
  · right
    have hmu := ArithmeticFunction.moebius_ne_zero_iff_eq_or.mp (ArithmeticFunction.moebius_ne_zero_iff_squarefree.mpr hsq)
    set M := (primesBelow r).filter (· ∣ j) with hM
    have hMn : M.Nodup := (primesBelow_nodup r).filter _
    have hMp : ∀ p ∈ M, p.Prime ∧ p ∣ j := by
      intro p h
      rw [hM, List.mem_filter, mem_primesBelow] at h
      exact ⟨h.1.2, by simpa using h.2⟩
    have hval : muVal (primesBelow r) j = (-1) ^ M.length * (M.prod : Int) := by
      rw [muVal, if_neg (by omega), ← prod_neg_list]
      congr 1
      apply List.map_congr_left
      intro p hp
      rw [if_neg]
      intro h
      have := hsq p h
      rw [Nat.isUnit_iff] at this
      exact (hMp p hp).1.one_lt.ne' this
    have hmM := moebius_prod hMn (fun p h => (hMp p h).1)
    obtain ⟨B, hB⟩ := prod_dvd_of_primes hMn hMp
    have hA0 : 0 < M.prod := Nat.pos_of_ne_zero (by rintro h; rw [h] at hB; omega)
    have hB0 : 0 < B := Nat.pos_of_ne_zero (by rintro h; rw [h] at hB; omega)
    have hbig : ∀ q, q.Prime → q ∣ B → r ≤ q := by
      intro q hq hqB
      by_contra hlt
      have hqj : q ∣ j := hB ▸ hqB.mul_left _
      have hqM : q ∈ M := by
        rw [hM, List.mem_filter, mem_primesBelow]
        exact ⟨⟨by omega, hq⟩, by simpa using hqj⟩
      have h1 : q ∣ M.prod := List.dvd_prod hqM
      have : q * q ∣ j := hB ▸ Nat.mul_dvd_mul h1 hqB
      have := hsq q this
      rw [Nat.isUnit_iff] at this
      exact hq.one_lt.ne' this
    by_cases hB1 : B = 1
    · left
      rw [hB1, mul_one] at hB
      refine ⟨?_, hmu⟩
      rw [hval, ← hmM, ← hB]
    · right
      have hBp : B.Prime := by
        obtain ⟨c, hc⟩ := Nat.minFac_dvd B
        have hq := Nat.minFac_prime hB1
        have hc1 : c = 1 := by
          by_contra hc1
          have h1 := hbig _ hq (Nat.minFac_dvd B)
          have h2 := hbig _ (Nat.minFac_prime hc1) ((Nat.minFac_dvd c).trans (hc ▸ dvd_mul_left c _))
          have h3 := Nat.minFac_le (show 0 < c from Nat.pos_of_ne_zero (by rintro rfl; omega))
          have h4 := Nat.mul_le_mul h1 (h2.trans h3)
          have h5 : B ≤ j := Nat.le_of_dvd (by omega) (hB ▸ dvd_mul_left B _)
          omega
        rw [hc1, mul_one] at hc
        rw [hc]; exact hq
      have hcop : Nat.Coprime M.prod B := by
        have := hsq
        rw [hB] at this
        exact (Nat.squarefree_mul_iff.mp this).1
      have hmj : moebius j = -(-1) ^ M.length := by
        conv_lhs => rw [hB]
        rw [ArithmeticFunction.isMultiplicative_moebius.map_mul_of_coprime hcop, hmM,
          ArithmeticFunction.moebius_apply_prime hBp]
        ring
      refine ⟨M.prod, hA0, ?_, ?_, hmu⟩
      · rw [hB]
        exact lt_mul_of_one_lt_right hA0 hBp.one_lt
      · rw [hval, hmj]; ring
  · left
    refine ⟨?_, ArithmeticFunction.moebius_eq_zero_of_not_squarefree hsq⟩
    rw [Nat.squarefree_iff_prime_squarefree] at hsq
    push Not at hsq
    obtain ⟨p, hp, hpj⟩ := hsq
    have hpr : p < r := by
      by_contra h
      have := Nat.mul_le_mul (Nat.le_of_not_lt h) (Nat.le_of_not_lt h)
      have := Nat.le_of_dvd (by omega) hpj
      omega
    rw [muVal, if_neg (by omega)]
    apply List.prod_eq_zero
    rw [List.mem_map]
    refine ⟨p, ?_, if_pos hpj⟩
    rw [List.mem_filter, mem_primesBelow]
    exact ⟨⟨hpr, hp⟩, by simpa using (dvd_mul_left p p).trans hpj⟩

theorem muFix_eq {r j : Nat} (hj : 2 ≤ j) (hjr : j < r * r) : muFix j (muVal (primesBelow r) j) = moebius j := by
  rcases mu_cases (show 1 ≤ j by omega) hjr with ⟨h1, h2⟩ | ⟨h1, h2⟩ | ⟨c, hc1, hc2, h1, h2⟩
  · rw [h1, h2, muFix]
    rw [if_neg (by omega), if_neg (by omega), if_neg (by omega), if_neg (by omega)]
  · rw [h1, muFix]
    rcases h2 with h2 | h2
    · rw [h2, if_pos (by omega)]
    · rw [h2, if_neg (by omega), if_pos (by omega)]
  · rw [h1, muFix]
    rcases h2 with h2 | h2
    · rw [h2, if_neg (by omega), if_neg (by omega), if_pos (by omega)]
    · rw [h2, if_neg (by omega), if_neg (by omega), if_neg (by omega), if_pos (by omega)]

theorem segMuFix_eq {r j : Nat} (hj : 1 ≤ j) (hjr : j < r * r) :
    segMuSign (segMuFix j (muVal (primesBelow r) j)) = moebius j := by
  rcases mu_cases hj hjr with ⟨h1, h2⟩ | ⟨h1, h2⟩ | ⟨c, hc1, hc2, h1, h2⟩
  · rw [h1, h2]
    simp [segMuFix, segMuSign]
  · rw [h1]
    rcases h2 with h2 | h2 <;> rw [h2] <;> simp only [segMuFix, segMuSign] <;> split <;> split <;> split <;> split <;> omega
  · rw [h1]
    rcases h2 with h2 | h2 <;> rw [h2] <;> simp only [segMuFix, segMuSign] <;> split <;> split <;> split <;> split <;> omega

/-! ### `moebius_mu` -/

theorem muLoop_spec (lim n : Nat) (hlim : 2 * n ≤ lim) (hsq : (n.sqrt + 1) * (n.sqrt + 1) ≤ lim) (k : Nat) :
    ∀ (v : List Int) (i : Nat), n.sqrt + 1 - i = k → i ≤ n.sqrt + 1 → 2 ≤ i → Rep v n (muVal (primesBelow i)) →
    ∃ v' r, muLoop lim n v i = some v' ∧ n ≤ r * r ∧ Rep v' n (muVal (primesBelow r)) := by
  induction k with
  | zero =>
    intro v i hk hi' hi r
    have h2 := Nat.lt_succ_sqrt n
    have h3 : i = n.sqrt + 1 := by omega
    rw [Nat.succ_eq_add_one] at h2
    subst h3
    rw [muLoop, if_neg (by omega), dif_neg (by omega)]
    exact ⟨v, _, rfl, by omega, r⟩
  | succ k ih =>
    intro v i hk hi' hi r
    have hii := Nat.mul_le_mul hi' hi'
    rw [muLoop, if_neg (by omega)]
    by_cases hlt : i * i < n
    · rw [dif_pos hlt, r.rd (by have := Nat.le_mul_self i; omega)]
      simp only
      by_cases hp : i.Prime
      · rw [if_neg (by rw [not_not]; exact (muVal_eq_one hi).mpr hp)]
        obtain ⟨v1, e1, r1⟩ := stride_spec (lim := lim) (off := 0) (e := n) (k := n)
          (f := fun _ _ => some 0) (fun _ => 0) (show 0 < i * i from Nat.mul_pos (by omega) (by omega)) (by omega)
          (by omega) 0 (by omega) (dvd_zero _) r (fun _ _ _ _ => rfl)
        rw [e1]
        simp only
        have hL : primesBelow (i + 1) = primesBelow i ++ [i] := by rw [primesBelow_succ, if_pos hp]
        obtain ⟨v2, e2, r2⟩ := stride_spec (lim := lim) (off := 0) (e := n) (k := n)
          (f := fun _ x => mulNeg lim i x) (muVal (primesBelow (i + 1))) (show 0 < i by omega) (by have := Nat.le_mul_self i; omega) (by omega) 0
          (by omega) (dvd_zero i) r1 (by
            intro j _ hj hd
            simp only [Nat.zero_add, Nat.zero_le, true_and] at hj hd ⊢
            by_cases h2 : i * i ∣ j
            · rw [if_pos ⟨hj, h2⟩, hL, muVal_sq h2]
              simp [mulNeg]
            · rw [if_neg (fun h => h2 h.2), mul_fits (hL ▸ primesBelow_nodup _)
                (fun p h => (mem_primesBelow.mp (hL ▸ h)).2) hd (by omega), hL, muVal_dvd hd h2])
        rw [e2]
        simp only
        refine ih v2 (i + 1) (by omega) (by omega) (by omega) (r2.congr (fun j hj => ?_))
        simp only [Nat.zero_add, Nat.zero_le, true_and]
        by_cases hd : i ∣ j
        · rw [if_pos ⟨hj, hd⟩]
        · rw [if_neg (fun h => hd h.2), if_neg (fun h => hd ((dvd_mul_left i i).trans h.2)), hL, muVal_not_dvd hd]
      · rw [if_pos (fun h => hp ((muVal_eq_one hi).mp h))]
        refine ih v (i + 1) (by omega) (by omega) (by omega) ?_
        rw [primesBelow_succ, if_neg hp, List.append_nil]
        exact r
    · rw [dif_neg hlt]
      exact ⟨v, i, rfl, by omega, r⟩

/-- C12: `moebius_mu` stores the Moebius function at every index, for `n ≥ 1`. -/
theorem C12_moebius_mu (lim n : Nat) (h1 : 1 ≤ n) (hlim : 2 * n ≤ lim) (hsq : (n.sqrt + 1) * (n.sqrt + 1) ≤ lim)
    (mu : List Int) (hmu : mu.length = n) :
    moebiusMu lim mu n = some ((List.range n).map fun j => moebius j) := by
  have r : Rep mu n _ := hmu ▸ Rep.self mu
  obtain ⟨v0, e0, r0⟩ := fill_spec (lim := lim) (off := 0) (e := n) (k := n) (f := fun _ _ => some 1) (fun _ => 1)
    (by omega) (by omega) 1 (by omega) (r.set 0 0) (fun i _ _ => rfl)
  have hs : 1 ≤ n.sqrt := Nat.sqrt_pos.mpr h1
  obtain ⟨v1, q, e1, hq, r1⟩ := muLoop_spec lim n hlim hsq _ v0 2 rfl (by omega) (le_refl 2) (r0.congr (fun j hj => by
    rw [Nat.zero_add]
    rcases Nat.eq_zero_or_pos j with rfl | h0
    · rw [if_neg (by omega), Function.update_self, muVal_zero]
    · rw [if_pos (by omega), show primesBelow 2 = [] by decide, muVal_nil (by omega)]))
  obtain ⟨v2, e2, r2⟩ := fill_spec (lim := lim) (off := 0) (e := n) (k := n)
    (f := fun i x => some (muFix i x)) (fun j => moebius j) (by omega) (by omega) 2 (by omega) r1 (by
      intro i hi hin
      rw [Nat.zero_add] at hi hin ⊢
      rw [muFix_eq hi (by omega)])
  rw [moebiusMu, r.wr (by omega), Option.bind_some, e0, Option.bind_some, e1, Option.bind_some, e2, r2.eq_map,
    Option.some.injEq]
  apply List.map_congr_left
  intro j hj
  rw [List.mem_range] at hj
  rw [Nat.zero_add]
  by_cases h : 2 ≤ j
  · rw [if_pos ⟨h, hj⟩]
  · rw [if_neg (by omega)]
    have : j = 0 ∨ j = 1 := by omega
    rcases this with rfl | rfl
    · rw [muVal_zero]; simp
    · rw [muVal, if_neg (by omega), List.filter_eq_nil_iff.mpr]
      · simp
      · intro a ha
        rw [mem_primesBelow] at ha
        simp only [Nat.dvd_one, decide_eq_true_eq]
        exact ha.2.one_lt.ne'

/-- The precondition `n ≥ 1` is needed: `mu[0]` is written in any case. -/
theorem C12_moebius_mu_zero (lim : Nat) : moebiusMu lim [] 0 = none := by
  simp [moebiusMu, wr]

/-! ### Segmented tables -/

theorem multipleN_spec {a : Nat} (ha : 0 < a) (b : Nat) :
    a ∣ multipleN a b ∧ b ≤ multipleN a b ∧ ∀ m, a ∣ m → b ≤ m → multipleN a b ≤ m := by
  obtain ⟨h1, h2, h3⟩ := Base.C05_multiple a b (by omega)
  unfold multipleN
  have hp : 0 ≤ Base.multiple a b := le_trans (by omega) h2
  refine ⟨?_, by omega, ?_⟩
  · rw [← Int.natCast_dvd_natCast, Int.toNat_of_nonneg hp]; exact h1
  · intro m hm hb
    have := h3 m (by exact_mod_cast hm) (by omega)
    omega

/-- The multiples of `d` in `[b, e)`, started at `multiple(d, b)`. -/
theorem stride_from {α : Type*} {lim off e d k b : Nat} {f : Nat → α → Option α} (h : Nat → α) (hd : 0 < d)
    (hlim : e + d ≤ lim + 1) (hk : e ≤ off + k) {v : List α} {g : Nat → α} (hoff : off ≤ b)
    (r : Rep v k g) (hf : ∀ i, b ≤ off + i → off + i < e → d ∣ off + i → f (off + i) (g i) = some (h i)) :
    ∃ v', stride lim off f e d v (multipleN d b) = some v' ∧
      Rep v' k (fun i => if b ≤ off + i ∧ off + i < e ∧ d ∣ off + i then h i else g i) := by
  obtain ⟨h1, h2, h3⟩ := multipleN_spec hd b
  obtain ⟨v', e', r'⟩ := stride_spec (lim := lim) h hd hlim hk (multipleN d b) (by omega) h1 r
    (fun i i1 i2 i3 => hf i (by omega) i2 i3)
  refine ⟨v', e', r'.congr (fun i _ => ?_)⟩
  by_cases hc : b ≤ off + i ∧ off + i < e ∧ d ∣ off + i
  · rw [if_pos ⟨h3 _ hc.2.2 hc.1, hc.2⟩, if_pos hc]
  · rw [if_neg (fun h => hc ⟨by omega, h.2⟩), if_neg hc]

/-- C12: `segmented_mu` stores the Moebius function of every integer of `[b, e)`, given all
primes below some `r` with `e ≤ r * r`. -/
theorem C12_segmented_mu (lim b e r : Nat) (hbe : b ≤ e) (hb0 : b = 0 → 1 ≤ e) (hr : e ≤ r * r)
    (hlim : e + r * r ≤ lim) (p : List Nat) (m : Nat) (hm : m ≤ p.length) (hp : p.take m = primesBelow r)
    (mu : List Int) (hmu : mu.length = e - b) :
    segmentedMu lim mu b e p m = some ((List.range (e - b)).map fun i => moebius (b + i)) := by
  have hr0 : Rep mu (e - b) _ := hmu ▸ Rep.self mu
  obtain ⟨v0, b', e0, r0, hb1, hbb, hbz⟩ : ∃ v0 b', (if b = 0 then (wr mu 0 0).map fun mu => (mu, 1) else some (mu, b)) =
      some (v0, b') ∧ (∃ g, Rep v0 (e - b) g ∧ ∀ i, b + i = 0 → g i = 0) ∧ b ≤ b' ∧ 1 ≤ b' ∧ b' ≤ b + 1 ∧
        (b' = b ∨ b = 0) := by
    by_cases h : b = 0
    · subst h
      rw [if_pos rfl, hr0.wr (by have := hb0 rfl; omega)]
      refine ⟨_, _, rfl, ⟨_, hr0.set 0 0, ?_⟩, by omega, by omega, by omega, Or.inr rfl⟩
      intro i hi
      have : i = 0 := by omega
      subst this
      exact Function.update_self _ _ _
    · rw [if_neg h]
      exact ⟨_, _, rfl, ⟨_, hr0, by intro i hi; omega⟩, le_refl _, by omega, by omega, Or.inl rfl⟩
  obtain ⟨g0, r0, hg0⟩ := r0
  obtain ⟨hbz, hbc⟩ := hbz
  obtain ⟨v1, e1, r1⟩ := fill_spec (lim := lim) (off := b) (e := e) (k := e - b) (f := fun _ _ => some 1) (fun _ => (1 : Int))
    (by omega) (by omega) b' hb1 r0 (fun i _ _ => rfl)
  have key : ∀ i, i < e - b → ¬ b' ≤ b + i → b + i = 0 := fun i hi h => by omega
  obtain ⟨v2, e2, r2⟩ := forPrimes_spec hm
    (body := fun r mu =>
        (stride lim b (fun _ x => mulNeg lim r x) e r mu (multipleN r b')).bind fun mu =>
          stride lim b (fun _ _ => some 0) e (r * r) mu (multipleN (r * r) b'))
    (fun L v => Rep v (e - b) (fun i => muVal L (b + i))) (s := v1) (by
      intro L q rest s hsplit rs
      obtain ⟨hq, hqr, hL, hnd, hpr⟩ := step_facts hp hsplit
      have hqq := Nat.mul_le_mul (show q + 1 ≤ r from hqr) (show q + 1 ≤ r from hqr)
      have hqq' : q * q + 2 * q + 1 = (q + 1) * (q + 1) := by ring
      obtain ⟨w1, f1, s1⟩ := stride_from (lim := lim) (off := b) (e := e) (k := e - b) (b := b')
        (f := fun _ x => mulNeg lim q x) (fun i => muVal L (b + i) * -(q : Int)) hq.pos (by omega) (by omega) hb1 rs (by
          intro i _ hi hd
          exact mul_fits hnd hpr hd (by omega))
      obtain ⟨w2, f2, s2⟩ := stride_from (lim := lim) (off := b) (e := e) (k := e - b) (b := b')
        (f := fun _ _ => some 0) (fun i => (0 : Int)) (Nat.mul_pos hq.pos hq.pos) (by omega) (by omega) hb1 s1
        (fun _ _ _ _ => rfl)
      refine ⟨w2, by rw [f1, Option.bind_some, f2], s2.congr (fun i hi => ?_)⟩
      by_cases hbi : b' ≤ b + i
      · by_cases h2 : q * q ∣ b + i
        · rw [if_pos ⟨hbi, by omega, h2⟩, muVal_sq h2]
        · rw [if_neg (fun h => h2 h.2.2)]
          by_cases h1 : q ∣ b + i
          · rw [if_pos ⟨hbi, by omega, h1⟩, muVal_dvd h1 h2]
          · rw [if_neg (fun h => h1 h.2.2), muVal_not_dvd h1]
      · rw [if_neg (fun h => hbi h.1), if_neg (fun h => hbi h.1), key i hi hbi, muVal_zero, muVal_zero])
    (r1.congr (fun i hi => by
      by_cases hbi : b' ≤ b + i
      · rw [if_pos ⟨hbi, by omega⟩, muVal_nil (by omega)]
      · rw [if_neg (fun h => hbi h.1), key i hi hbi, muVal_zero, hg0 i (key i hi hbi)]))
  rw [hp] at r2
  obtain ⟨v3, e3, r3⟩ := fill_spec (lim := lim) (off := b) (e := e) (k := e - b)
    (f := fun q x => some (segMuFix q x)) (fun i => segMuFix (b + i) (muVal (primesBelow r) (b + i)))
    (by omega) (by omega) b' hb1 r2 (fun i _ _ => rfl)
  obtain ⟨v4, e4, r4⟩ := fill_spec (lim := lim) (off := b) (e := e) (k := e - b)
    (f := fun _ x => some (segMuSign x)) (fun i => moebius (b + i))
    (by omega) (by omega) b' hb1 r3 (by
      intro i h1 h2
      rw [if_pos ⟨h1, h2⟩, segMuFix_eq (by omega) (by omega)])
  rw [segmentedMu, e0, Option.bind_some]
  simp only
  rw [e1, Option.bind_some, e2, Option.bind_some, e3, Option.bind_some, e4, r4.eq_map, Option.some.injEq]
  apply List.map_congr_left
  intro i hi
  rw [List.mem_range] at hi
  by_cases hbi : b' ≤ b + i
  · rw [if_pos ⟨hbi, by omega⟩]
  · rw [if_neg (fun h => hbi h.1), if_neg (fun h => hbi h.1), key i hi hbi, muVal_zero]; simp

/-! #### Primality flags -/

theorem prime_iff_no_small {r a : Nat} (ha : 2 ≤ a) (har : a < r * r) :
    a.Prime ↔ ¬ ∃ q ∈ primesBelow r, q ∣ a ∧ q * q ≤ a := by
  constructor
  · rintro hp ⟨q, hq, hd, hsq⟩
    rw [mem_primesBelow] at hq
    rcases (Nat.dvd_prime hp).mp hd with rfl | rfl
    · exact absurd hq.2 (by decide)
    · have := Nat.mul_le_mul_right q ha; omega
  · intro h
    by_contra hp
    have hm := Nat.minFac_sq_le_self (show 0 < a by omega) hp
    rw [pow_two] at hm
    refine h ⟨a.minFac, mem_primesBelow.mpr ⟨?_, Nat.minFac_prime (by omega)⟩, Nat.minFac_dvd a, hm⟩
    by_contra hc
    have := Nat.mul_le_mul (Nat.le_of_not_lt hc) (Nat.le_of_not_lt hc)
    omega

/-- `a` was struck out by one of the primes of `L`. -/
def Struck (L : List Nat) (a : Nat) : Prop := ∃ q ∈ L, q ∣ a ∧ q * q ≤ a

open Classical in
/-- The flag of `a` after the primes of `L`. -/
noncomputable def segFlag (L : List Nat) (a : Nat) : Nat := if a < 2 ∨ Struck L a then 0 else 1

theorem take_succ_split {p : List Nat} {m i : Nat} (hm : m ≤ p.length) (hi : i < m) :
    ∃ q, rd p i = some q ∧ p.take (i + 1) = p.take i ++ [q] ∧ ∃ rest, p.take m = p.take i ++ q :: rest := by
  have hip : i < p.length := by omega
  refine ⟨p[i], by rw [rd, List.getElem?_eq_getElem hip], ?_, (p.take m).drop (i + 1), ?_⟩
  · rw [List.take_add_one, List.getElem?_eq_getElem hip]; rfl
  · have hit : i < (p.take m).length := by rw [List.length_take]; omega
    have h2 : (p.take m)[i] = p[i] := List.getElem_take
    rw [← h2, ← List.drop_eq_getElem_cons hit]
    have h3 : p.take i = (p.take m).take i := by rw [List.take_take]; congr 1; omega
    rw [h3, List.take_append_drop]

theorem flag_congr {L L' : List Nat} {a : Nat} (h : 2 ≤ a → (Struck L a ↔ Struck L' a)) : segFlag L a = segFlag L' a := by
  unfold segFlag
  by_cases ha : a < 2
  · rw [if_pos (Or.inl ha), if_pos (Or.inl ha)]
  · have h := h (by omega)
    by_cases hs : Struck L a
    · rw [if_pos (Or.inr hs), if_pos (Or.inr (h.mp hs))]
    · rw [if_neg (by rintro (h1 | h1); exacts [ha h1, hs h1]),
        if_neg (by rintro (h1 | h1); exacts [ha h1, hs (h.mpr h1)])]

theorem segQLoop_spec (lim b e r b0 : Nat) (hb : b ≤ b0) (hbd : ∀ a, b ≤ a → a < b0 → a < 2)
    (hlim : e + r ≤ lim) (p : List Nat) (m : Nat) (hm : m ≤ p.length) (hp : p.take m = primesBelow r) (k : Nat) :
    ∀ (v : List Nat) (bc i : Nat), m - i = k → i ≤ m → Rep v (e - b) (fun t => segFlag (p.take i) (b + t)) →
    b0 ≤ bc → (∀ q, (∀ x ∈ p.take i, x < q) → max bc (q * q) = max b0 (q * q)) →
    ∃ v', segQLoop lim b e p m v bc i = some v' ∧ Rep v' (e - b) (fun t => segFlag (primesBelow r) (b + t)) := by
  induction k with
  | zero =>
    intro v bc i hk hi rv hbc hmax
    rw [segQLoop, if_neg (by omega)]
    have : i = m := by omega
    subst this
    exact ⟨v, rfl, hp ▸ rv⟩
  | succ k ih =>
    intro v bc i hk hi rv hbc hmax
    obtain ⟨q, hrd, htake, rest, hsplit⟩ := take_succ_split hm (show i < m by omega)
    obtain ⟨hq, hqr, hL, hnd, hpr⟩ := step_facts hp hsplit
    have hlt : ∀ x ∈ p.take i, x < q := by
      intro x hx
      rw [hL, mem_primesBelow] at hx
      exact hx.1
    rw [segQLoop, if_pos (by omega), hrd]
    simp only
    rw [hmax q hlt]
    by_cases hbr : max b0 (q * q) ≥ e
    · rw [if_pos hbr]
      refine ⟨v, rfl, rv.congr (fun t ht => flag_congr (fun h2 => ?_))⟩
      constructor
      · rintro ⟨x, hx, hd⟩
        rw [hL, mem_primesBelow] at hx
        exact ⟨x, mem_primesBelow.mpr ⟨by omega, hx.2⟩, hd⟩
      · rintro ⟨x, hx, hd, hsq⟩
        rw [mem_primesBelow] at hx
        refine ⟨x, ?_, hd, hsq⟩
        rw [hL, mem_primesBelow]
        refine ⟨?_, hx.2⟩
        by_contra hc
        have h1 := Nat.mul_le_mul (Nat.le_of_not_lt hc) (Nat.le_of_not_lt hc)
        have h3 := hbd (b + t) (by omega)
        omega
    · rw [if_neg hbr]
      obtain ⟨v1, e1, r1⟩ := stride_from (lim := lim) (off := b) (e := e) (k := e - b) (b := max b0 (q * q))
        (f := fun _ _ => some 0) (fun _ => 0) hq.pos (by omega) (by omega) (by omega) rv (fun _ _ _ _ => rfl)
      rw [e1]
      simp only
      refine ih v1 _ (i + 1) (by omega) (by omega) (r1.congr (fun t ht => ?_)) (by omega) ?_
      · rw [htake]
        by_cases hc : max b0 (q * q) ≤ b + t ∧ b + t < e ∧ q ∣ b + t
        · rw [if_pos hc, segFlag, if_pos]
          exact Or.inr ⟨q, by simp, hc.2.2, by omega⟩
        · rw [if_neg hc]
          apply flag_congr
          intro h2
          constructor
          · rintro ⟨x, hx, hd⟩
            exact ⟨x, by simp [hx], hd⟩
          · rintro ⟨x, hx, hd, hsq⟩
            rw [List.mem_append, List.mem_singleton] at hx
            rcases hx with hx | rfl
            · exact ⟨x, hx, hd, hsq⟩
            · exfalso
              have h3 := hbd (b + t) (by omega)
              exact hc ⟨by omega, by omega, hd⟩
      · intro x hx
        rw [htake] at hx
        have := hx q (by simp)
        have := Nat.mul_le_mul (Nat.le_of_lt this) (Nat.le_of_lt this)
        omega

theorem segSkip_spec {off k K b : Nat} {v : List Nat} {g : Nat → Nat} (r : Rep v K g) (hb : off ≤ b)
    (h : b = k → b < off + K) :
    ∃ v' b', segSkip off k v b = some (v', b') ∧ b' = (if b = k then b + 1 else b) ∧
      Rep v' K (fun i => if off + i = b ∧ b = k then 0 else g i) := by
  rw [segSkip]
  by_cases hbk : b = k
  · rw [if_pos hbk, if_pos hbk, r.wr (by have := h hbk; omega)]
    refine ⟨_, _, rfl, rfl, (r.set (b - off) 0).congr (fun i hi => ?_)⟩
    by_cases hi : i = b - off
    · subst hi; rw [Function.update_self, if_pos ⟨by omega, hbk⟩]
    · rw [Function.update_of_ne hi, if_neg (by omega)]
  · rw [if_neg hbk, if_neg hbk]
    exact ⟨_, _, rfl, rfl, r.congr (fun i _ => by rw [if_neg (fun h => hbk h.2)])⟩

/-- C12: `segmented_q` stores whether `a` is prime for every `a` of `[b, e)`, given all primes
below some `r` with `e ≤ r * r`; a range starting below 2 has to reach up to 2. -/
theorem C12_segmented_q (lim b e r : Nat) (hbe : b ≤ e) (hb2 : b < 2 → 2 ≤ e) (hr : e ≤ r * r)
    (hlim : e + r ≤ lim) (p : List Nat) (m : Nat) (hm : m ≤ p.length) (hp : p.take m = primesBelow r)
    (q : List Nat) (hq : q.length = e - b) :
    segmentedQ lim q b e p m = some ((List.range (e - b)).map fun i => if (b + i).Prime then 1 else 0) := by
  have hr0 : Rep q (e - b) _ := hq ▸ Rep.self q
  obtain ⟨v1, b1, e1, hb1, r1⟩ := segSkip_spec (off := b) (k := 0) (b := b) hr0 (le_refl b) (by omega)
  obtain ⟨v2, b2, e2, hb2', r2⟩ := segSkip_spec (off := b) (k := 1) (b := b1) r1 (by split at hb1 <;> omega)
    (by split at hb1 <;> omega)
  have hb0 : b2 = max b 2 := by split at hb1 <;> split at hb2' <;> omega
  obtain ⟨v3, e3, r3⟩ := fill_spec (lim := lim) (off := b) (e := e) (k := e - b) (f := fun _ _ => some 1) (fun _ => 1)
    (by omega) (by omega) b2 (by omega) r2 (fun i _ _ => rfl)
  obtain ⟨v4, e4, r4⟩ := segQLoop_spec lim b e r b2 (by omega) (by intros; omega) hlim p m hm hp _ v3 b2 0 rfl (by omega)
    (r3.congr (fun t ht => by
      by_cases h : b2 ≤ b + t
      · rw [if_pos ⟨h, by omega⟩, segFlag, if_neg]
        rintro (h1 | ⟨x, hx, _⟩)
        · omega
        · simp at hx
      · rw [if_neg (fun hc => h hc.1), segFlag, if_pos (Or.inl (by omega))]
        by_cases h1 : b + t = b1 ∧ b1 = 1
        · rw [if_pos h1]
        · rw [if_neg h1, if_pos]
          split at hb1 <;> omega))
    (le_refl _) (fun q _ => rfl)
  rw [segmentedQ, e1, Option.bind_some]
  simp only
  rw [e2, Option.bind_some]
  simp only
  rw [e3, Option.bind_some, e4, r4.eq_map, Option.some.injEq]
  apply List.map_congr_left
  intro i hi
  rw [List.mem_range] at hi
  by_cases h2 : b + i < 2
  · rw [segFlag, if_pos (Or.inl h2), if_neg (fun h => by have := h.two_le; omega)]
  · have h := prime_iff_no_small (r := r) (a := b + i) (by omega) (by omega)
    by_cases hpr : (b + i).Prime
    · rw [if_pos hpr, segFlag, if_neg]
      rintro (h1 | h1)
      · exact h2 h1
      · exact h.mp hpr h1
    · rw [if_neg hpr, segFlag, if_pos]
      right
      by_contra hc
      exact hpr (h.mpr hc)

/-- A range `[0, 1)` is out of bounds: `q[1]` is written. -/
theorem C12_segmented_q_short (lim : Nat) (x : Nat) : segmentedQ lim [x] 0 1 [] 0 = none := by
  simp [segmentedQ, segSkip, wr]

/-! #### Totients -/

theorem phiWhile_spec {q : Nat} (hq : 2 ≤ q) (k : Nat) :
    ∀ a t, 0 < t → ¬ q ∣ t → phiWhile q a (q ^ k * t) = some (a * q ^ k, t) := by
  induction k with
  | zero =>
    intro a t ht hqt
    rw [phiWhile, dif_neg (by simpa [Nat.dvd_iff_mod_eq_zero] using hqt)]
    simp
  | succ k ih =>
    intro a t ht hqt
    have hpos : 0 < q ^ (k + 1) * t := Nat.mul_pos (Nat.pow_pos (by omega)) ht
    have hd : q ^ (k + 1) * t = q * (q ^ k * t) := by ring
    rw [phiWhile, dif_pos (by rw [hd]; exact Nat.mul_mod_right _ _), dif_neg (by omega), hd,
      Nat.mul_div_cancel_left _ (by omega), ih _ t ht hqt]
    congr 2
    ring

/-- The state of one entry: the part of `j` made of the processed primes is split off. -/
def PhiInv (L : List Nat) (j : Nat) (x : Nat × Nat) : Prop :=
  0 < x.2 ∧ ∃ s, j = s * x.2 ∧ x.1 = s.totient ∧ (∀ q, q.Prime → q ∣ s → q ∈ L) ∧ ∀ q ∈ L, ¬ q ∣ x.2

theorem phi_entry {L : List Nat} {q j : Nat} {x : Nat × Nat} (hq : q.Prime) (hqL : q ∉ L) (hqj : q ∣ j)
    (h : PhiInv L j x) : ∃ y, phiWhile q (x.1 * (q - 1)) (x.2 / q) = some y ∧ PhiInv (L ++ [q]) j y := by
  obtain ⟨x1, x2⟩ := x
  obtain ⟨h0, s, hs, hx, hsL, hL⟩ := h
  simp only at h0 hs hx hL ⊢
  have hqs : ¬ q ∣ s := fun h => hqL (hsL q hq h)
  have hqx : q ∣ x2 := by
    rw [hs] at hqj
    exact (hq.dvd_mul.mp hqj).resolve_left hqs
  obtain ⟨k, t, hqt, hxt⟩ := Nat.exists_eq_pow_mul_and_not_dvd (show x2 ≠ 0 by omega) q hq.ne_one
  have ht0 : 0 < t := Nat.pos_of_ne_zero (by rintro rfl; exact hqt (dvd_zero q))
  obtain ⟨k, rfl⟩ : ∃ k', k = k' + 1 := by
    rcases k with _ | k
    · rw [pow_zero, one_mul] at hxt; subst hxt; exact absurd hqx hqt
    · exact ⟨k, rfl⟩
  have hdiv : x2 / q = q ^ k * t := by
    rw [hxt, show q ^ (k + 1) * t = q * (q ^ k * t) by ring, Nat.mul_div_cancel_left _ hq.pos]
  rw [hdiv, phiWhile_spec hq.two_le k _ t ht0 hqt]
  refine ⟨_, rfl, ht0, s * q ^ (k + 1), ?_, ?_, ?_, ?_⟩
  · simp only; rw [hs, hxt]; ring
  · have hc : Nat.Coprime s (q ^ (k + 1)) := ((Nat.Prime.coprime_iff_not_dvd hq).mpr hqs).symm.pow_right _
    simp only
    rw [Nat.totient_mul hc, Nat.totient_prime_pow_succ hq, hx]
    ring
  · intro y hy hys
    rcases hy.dvd_mul.mp hys with h | h
    · simp [hsL y hy h]
    · have := (Nat.prime_dvd_prime_iff_eq hy hq).mp (hy.dvd_of_dvd_pow h)
      simp [this]
  · intro y hy hyt
    rw [List.mem_append, List.mem_singleton] at hy
    rcases hy with hy | rfl
    · exact hL y hy (hxt ▸ hyt.mul_left _)
    · exact hqt hyt

theorem phi_entry_final {r j : Nat} {x : Nat × Nat} (hj : 1 ≤ j) (hjr : j < r * r) (h : PhiInv (primesBelow r) j x) :
    (if x.2 > 1 then (x.1 * (x.2 - 1), x.2) else x).1 = j.totient := by
  obtain ⟨x1, x2⟩ := x
  obtain ⟨h0, s, hs, hx, hsL, hL⟩ := h
  simp only at h0 hs hx hL ⊢
  have hbig : ∀ q, q.Prime → q ∣ x2 → r ≤ q := by
    intro q hq hqx
    by_contra hlt
    exact hL q (mem_primesBelow.mpr ⟨by omega, hq⟩) hqx
  by_cases h1 : x2 > 1
  · rw [if_pos h1]
    have hp : x2.Prime := by
      by_contra hp
      have hm := Nat.minFac_sq_le_self h0 hp
      rw [pow_two] at hm
      have h2 := hbig _ (Nat.minFac_prime (by omega)) (Nat.minFac_dvd x2)
      have h3 := Nat.mul_le_mul h2 h2
      have h4 : x2 ≤ j := Nat.le_of_dvd (by omega) (hs ▸ dvd_mul_left x2 s)
      omega
    have hc : Nat.Coprime s x2 := by
      apply Nat.Coprime.symm
      rw [Nat.Prime.coprime_iff_not_dvd hp]
      intro h
      exact hL x2 (hsL x2 hp h) (dvd_refl _)
    rw [hs, Nat.totient_mul hc, Nat.totient_prime hp, hx]
  · rw [if_neg h1]
    have : x2 = 1 := by omega
    subst this
    rw [hs, mul_one]; exact hx

/-- C12: `segmented_phi` stores Euler's totient of every integer of `[b, e)`, given all primes
below some `r` with `e ≤ r * r`. -/
theorem C12_segmented_phi (lim b e r : Nat) (hbe : b ≤ e) (hb0 : b = 0 → 1 ≤ e) (hr : e ≤ r * r)
    (hlim : e + r ≤ lim) (p : List Nat) (m : Nat) (hm : m ≤ p.length) (hp : p.take m = primesBelow r)
    (v : List (Nat × Nat)) (hv : v.length = e - b) :
    ∃ v', segmentedPhi lim v b e p m = some v' ∧
      v'.map Prod.fst = (List.range (e - b)).map fun i => (b + i).totient := by
  have hr0 : Rep v (e - b) _ := hv ▸ Rep.self v
  obtain ⟨v0, b', e0, r0, hb1, hbb, hbz⟩ : ∃ v0 b',
      (if b = 0 then (rd v 0).bind fun x => (wr v 0 (0, x.2)).map fun v => (v, 1) else some (v, b)) =
      some (v0, b') ∧ (∃ g, Rep v0 (e - b) g ∧ ∀ i, b + i = 0 → (g i).1 = 0) ∧ b ≤ b' ∧ 1 ≤ b' ∧ b' ≤ b + 1 ∧
        (b' = b ∨ b = 0) := by
    by_cases h : b = 0
    · subst h
      have := hb0 rfl
      rw [if_pos rfl, hr0.rd (by omega), Option.bind_some, hr0.wr (by omega)]
      refine ⟨_, _, rfl, ⟨_, hr0.set 0 _, ?_⟩, by omega, by omega, by omega, Or.inr rfl⟩
      intro i hi
      have : i = 0 := by omega
      subst this
      rw [Function.update_self]
    · rw [if_neg h]
      exact ⟨_, _, rfl, ⟨_, hr0, by intro i hi; omega⟩, le_refl _, by omega, by omega, Or.inl rfl⟩
  obtain ⟨g0, r0, hg0⟩ := r0
  obtain ⟨hbz, hbc⟩ := hbz
  have key : ∀ i, i < e - b → ¬ b' ≤ b + i → b + i = 0 := fun i hi h => by omega
  obtain ⟨v1, e1, r1⟩ := fill_spec (lim := lim) (off := b) (e := e) (k := e - b) (f := fun q _ => some (1, q))
    (fun i => (1, b + i)) (by omega) (by omega) b' hb1 r0 (fun i _ _ => rfl)
  obtain ⟨v2, e2, g2, r2, hg2⟩ := forPrimes_spec hm
    (body := fun r v => stride lim b (fun _ x => phiWhile r (x.1 * (r - 1)) (x.2 / r)) e r v (multipleN r b'))
    (fun L v => ∃ g, Rep v (e - b) g ∧ ∀ i, i < e - b →
      (b' ≤ b + i → PhiInv L (b + i) (g i)) ∧ (¬ b' ≤ b + i → (g i).1 = 0)) (s := v1) (by
      rintro L q rest s hsplit ⟨g, rs, hg⟩
      obtain ⟨hq, hqr, hL, hnd, hpr⟩ := step_facts hp hsplit
      have hqL : q ∉ L := by rw [hL, mem_primesBelow]; omega
      have hent : ∀ i, ∃ y, i < e - b → b' ≤ b + i → q ∣ b + i →
          phiWhile q ((g i).1 * (q - 1)) ((g i).2 / q) = some y ∧ PhiInv (L ++ [q]) (b + i) y := by
        intro i
        by_cases h : i < e - b ∧ b' ≤ b + i ∧ q ∣ b + i
        · obtain ⟨y, hy⟩ := phi_entry hq hqL h.2.2 ((hg i h.1).1 h.2.1)
          exact ⟨y, fun _ _ _ => hy⟩
        · exact ⟨(0, 0), fun h1 h2 h3 => absurd ⟨h1, h2, h3⟩ h⟩
      choose h hh using hent
      obtain ⟨w1, f1, s1⟩ := stride_from (lim := lim) (off := b) (e := e) (k := e - b) (b := b')
        (f := fun _ x => phiWhile q (x.1 * (q - 1)) (x.2 / q)) h hq.pos (by omega) (by omega) hb1 rs (by
          intro i h1 h2 h3
          exact (hh i (by omega) h1 h3).1)
      refine ⟨w1, f1, _, s1, fun i hi => ⟨fun hbi => ?_, fun hbi => ?_⟩⟩
      · by_cases hd : q ∣ b + i
        · rw [if_pos ⟨hbi, by omega, hd⟩]
          exact (hh i hi hbi hd).2
        · rw [if_neg (fun h => hd h.2.2)]
          obtain ⟨k0, s', k1, k2, k3, k4⟩ := (hg i hi).1 hbi
          refine ⟨k0, s', k1, k2, fun y hy hys => by simp [k3 y hy hys], fun y hy hyx => ?_⟩
          rw [List.mem_append, List.mem_singleton] at hy
          rcases hy with hy | rfl
          · exact k4 y hy hyx
          · exact hd (k1 ▸ hyx.mul_left _)
      · rw [if_neg (fun h => hbi h.1)]
        exact (hg i hi).2 hbi)
    ⟨_, r1, fun i hi => ⟨fun hbi => by
      rw [if_pos ⟨hbi, by omega⟩]
      exact ⟨by simp only; omega, 1, by simp, by simp, fun q hq h => absurd (Nat.dvd_one.mp h) hq.ne_one, by simp⟩,
      fun hbi => by
        rw [if_neg (fun h => hbi h.1)]
        exact hg0 i (key i hi hbi)⟩⟩
  rw [hp] at hg2
  obtain ⟨v3, e3, r3⟩ := fill_spec (lim := lim) (off := b) (e := e) (k := e - b)
    (f := fun _ (x : Nat × Nat) => some (if x.2 > 1 then (x.1 * (x.2 - 1), x.2) else x))
    (fun i => if (g2 i).2 > 1 then ((g2 i).1 * ((g2 i).2 - 1), (g2 i).2) else g2 i)
    (by omega) (by omega) b' hb1 r2 (fun i _ _ => rfl)
  refine ⟨v3, ?_, ?_⟩
  · rw [segmentedPhi, e0, Option.bind_some]
    simp only
    rw [e1, Option.bind_some, e2, Option.bind_some, e3]
  · rw [r3.eq_map, List.map_map]
    apply List.map_congr_left
    intro i hi
    rw [List.mem_range] at hi
    rw [Function.comp]
    by_cases hbi : b' ≤ b + i
    · rw [if_pos ⟨hbi, by omega⟩]
      exact phi_entry_final (by omega) (by omega) ((hg2 i hi).1 hbi)
    · rw [if_neg (fun h => hbi h.1), (hg2 i hi).2 hbi, key i hi hbi]; simp

/-! Concrete cases. -/

example : moebiusMu 1000 (List.replicate 13 7) 13 = some [0, 1, -1, -1, 0, -1, 1, -1, 0, 0, 1, -1, 0] := by
  decide +kernel
example : segmentedMu 1000 (List.replicate 7 9) 0 7 [2, 3, 0] 2 = some [0, 1, -1, -1, 0, -1, 1] := by decide +kernel
example : segmentedMu 1000 (List.replicate 6 9) 20 26 [2, 3, 5, 0] 3 = some [0, 1, 1, -1, 0, 0] := by decide +kernel
example : segmentedQ 1000 (List.replicate 6 9) 20 26 [2, 3, 5, 0] 3 = some [0, 0, 0, 1, 0, 0] := by decide +kernel
example : segmentedQ 1000 (List.replicate 6 9) 0 6 [2, 3, 5, 0] 3 = some [0, 0, 1, 1, 0, 1] := by decide +kernel
example : (segmentedPhi 1000 (List.replicate 6 (9, 9)) 20 26 [2, 3, 5, 0] 3).map (·.map Prod.fst) =
    some [8, 12, 10, 22, 8, 20] := by decide +kernel
example : primesBelow 6 = [2, 3, 5] ∧ 26 ≤ 6 * 6 := by decide +kernel

end Altruct.Primes
