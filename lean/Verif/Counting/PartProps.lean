/-
C75: the Euler function and the numbers of partitions.
-/
import Verif.Counting.Model
import Verif.Counting.PartMath
import Verif.Series.Props

set_option linter.unusedSectionVars false

namespace Altruct.Counting

open Altruct.Polynom (Quo cdiv at' poly poly_coeff at'_ge at'_resize length_resize DivBy divBy_int divBy_field)
open Altruct.Series (Agree)
open Polynomial (X C)

/-! ### the two sequences of generalized pentagonal numbers -/

/-- `1, 5, 12, 22, ...` -/
def pa : Nat → Nat
  | 0 => 0
  | t + 1 => pa t + (3 * t + 1)

/-- `2, 7, 15, 26, ...` -/
def pb : Nat → Nat
  | 0 => 0
  | t + 1 => pb t + (3 * t + 2)

theorem pa_eq (t : Nat) : pa t = pentagonal (t : ℤ) := by
  have h := two_mul_natCast_pentagonal (t : ℤ)
  have : 2 * (pa t : ℤ) = t * (3 * t - 1) := by
    clear h
    induction t with
    | zero => rfl
    | succ t ih => rw [pa]; push_cast; linear_combination ih
  omega

theorem pb_eq (t : Nat) : pb t = pentagonal (-(t : ℤ)) := by
  have h := two_mul_natCast_pentagonal_neg (t : ℤ)
  have : 2 * (pb t : ℤ) = t * (3 * t + 1) := by
    clear h
    induction t with
    | zero => rfl
    | succ t ih => rw [pb]; push_cast; linear_combination ih
  omega

theorem le_pa (t : Nat) : t ≤ pa t := by
  induction t with
  | zero => exact le_refl _
  | succ t ih => rw [pa]; omega

theorem le_pb (t : Nat) : t ≤ pb t := by
  induction t with
  | zero => exact le_refl _
  | succ t ih => rw [pb]; omega

theorem mono_of_step {M K : Nat → Nat} (h : ∀ t, M (t + 1) = M t + K t) : ∀ {s t : Nat}, s ≤ t → M s ≤ M t := by
  intro s t hst
  induction t, hst using Nat.le_induction with
  | base => exact le_refl _
  | succ t _ ih => rw [h]; omega

section Ring
variable {α : Type} [CommRing α]

/-- A coefficient of the Euler function as a sum over the two sequences. -/
theorem pent_eq_sum (m T : Nat) (hT : m < T) : pent α m = (if m = 0 then 1 else 0) +
    ∑ s ∈ Finset.Ico 1 T, ((if pa s = m then (-1) ^ s else 0) + (if pb s = m then (-1) ^ s else 0)) := by
  by_cases h0 : m = 0
  · subst h0
    rw [if_pos rfl, Finset.sum_eq_zero (fun s hs => ?_)]
    · have := pent_pos (α := α) 0
      simpa [pentagonal] using this
    · have h := Finset.mem_Ico.mp hs
      have h1 := le_pa s
      have h2 := le_pb s
      rw [if_neg (by omega), if_neg (by omega), add_zero]
  · rw [if_neg h0, zero_add]
    by_cases hk : ∃ k : ℤ, pentagonal k = m
    · obtain ⟨k, hk⟩ := hk
      rcases Int.eq_nat_or_neg k with ⟨t, rfl | rfl⟩
      · have ht : pa t = m := by rw [pa_eq, hk]
        have ht0 : 0 < t := by
          rcases Nat.eq_zero_or_pos t with h | h
          · subst h; exact absurd ht (by show ¬ (0 = m); omega)
          · exact h
        rw [Finset.sum_eq_single t]
        · rw [if_pos ht, if_neg (by rw [← ht, pa_eq, pb_eq, pentagonal_inj]; omega), add_zero, ← hk, pent_pos]
        · intro s hs hne
          have := Finset.mem_Ico.mp hs
          rw [if_neg (by rw [← ht, pa_eq, pa_eq, pentagonal_inj]; omega), if_neg (by rw [← ht, pa_eq, pb_eq, pentagonal_inj]; omega), add_zero]
        · intro h
          have := le_pa t
          exact absurd (Finset.mem_Ico.mpr ⟨ht0, by omega⟩) h
      · have ht : pb t = m := by rw [pb_eq, hk]
        have ht0 : 0 < t := by
          rcases Nat.eq_zero_or_pos t with h | h
          · subst h; exact absurd ht (by show ¬ (0 = m); omega)
          · exact h
        rw [Finset.sum_eq_single t]
        · rw [if_pos ht, if_neg (by rw [← ht, pa_eq, pb_eq, pentagonal_inj]; omega), zero_add, ← hk, pent_neg]
        · intro s hs hne
          have := Finset.mem_Ico.mp hs
          rw [if_neg (by rw [← ht, pa_eq, pb_eq, pentagonal_inj]; omega), if_neg (by rw [← ht, pb_eq, pb_eq, pentagonal_inj]; omega), add_zero]
        · intro h
          have := le_pb t
          exact absurd (Finset.mem_Ico.mpr ⟨ht0, by omega⟩) h
    · rw [pent_other (fun k h => hk ⟨k, h⟩), Finset.sum_eq_zero (fun s hs => ?_)]
      rw [if_neg (fun h => hk ⟨_, (pa_eq s).symm.trans h⟩), if_neg (fun h => hk ⟨_, (pb_eq s).symm.trans h⟩), add_zero]

/-- A sum over the Euler function is a sum over the two sequences. -/
theorem pent_sum (i T : Nat) (hT : i < T) (f : Nat → α) : ∑ m ∈ Finset.range (i + 1), pent α m * f m = f 0 +
    (∑ s ∈ Finset.Ico 1 T, (if pa s ≤ i then (-1) ^ s * f (pa s) else 0) + ∑ s ∈ Finset.Ico 1 T, (if pb s ≤ i then (-1) ^ s * f (pb s) else 0)) := by
  rw [Finset.sum_congr rfl (fun m hm => by rw [pent_eq_sum m T (by have := Finset.mem_range.mp hm; omega)])]
  simp only [add_mul, Finset.sum_add_distrib, ite_mul, one_mul, zero_mul, Finset.sum_mul]
  rw [Finset.sum_ite_eq' (Finset.range (i + 1)) 0 f, if_pos (by simp), Finset.sum_comm (s := Finset.range (i + 1)), Finset.sum_comm (s := Finset.range (i + 1))]
  have e1 : ∀ (g : Nat → Nat) (s : Nat), (∑ m ∈ Finset.range (i + 1), if g s = m then (-1) ^ s * f m else 0) = if g s ≤ i then (-1) ^ s * f (g s) else 0 := by
    intro g s
    rw [Finset.sum_ite_eq]
    by_cases h : g s ≤ i
    · rw [if_pos h, if_pos (Finset.mem_range.mpr (by omega))]
    · rw [if_neg h, if_neg (fun h' => h (by have := Finset.mem_range.mp h'; omega))]
  simp only [e1 pa, e1 pb]

/-! ### the Euler function -/

theorem eulerLoop_spec (n : Nat) (ev od : α) (M K : Nat → Nat) (hM : ∀ t, M (t + 1) = M t + K t) (hK : ∀ t, K (t + 1) = K t + 3)
    (hpos : ∀ t, 0 < K t) : ∀ (fuel t : Nat) (e : List α) (g : Nat → α), n < M t + fuel → 0 < fuel → Rep e n g →
    ∃ e' g', eulerLoop n ev od fuel (K t) (M t) e = some e' ∧ Rep e' n g' ∧
      ∀ i, i < n → (∀ s, t ≤ s → M s = i → g' i = if K s % 2 = 0 then ev else od) ∧ ((∀ s, t ≤ s → M s ≠ i) → g' i = g i) := by
  intro fuel
  induction fuel with
  | zero => intro _ _ _ _ h; omega
  | succ fuel ih =>
    intro t e g hf _ hr
    rw [eulerLoop]
    by_cases h : M t < n
    · have hk := hpos t
      rw [if_pos h, Option.bind_eq_bind, hr.wr h, Option.bind_some, ← hM t, ← hK t]
      by_cases h' : M (t + 1) < n
      · obtain ⟨e', g', ee, hr', hg⟩ := ih (t + 1) _ _ (by have := hM t; omega) (by have := hM t; omega) (hr.set (M t) (if K t % 2 = 0 then ev else od))
        refine ⟨e', g', ee, hr', fun i hi => ⟨fun s hs hse => ?_, fun hne => ?_⟩⟩
        · rcases Nat.eq_or_lt_of_le hs with h1 | h1
          · subst h1
            rw [(hg i hi).2 (fun u hu hue => by
              have := mono_of_step hM hu
              have := hM t
              omega), ← hse, Function.update_self]
          · exact (hg i hi).1 s h1 hse
        · rw [(hg i hi).2 (fun s hs => hne s (by omega)), Function.update_of_ne (fun h => hne t (le_refl t) h.symm)]
      · obtain ⟨f, hf'⟩ : ∃ f, fuel = f + 1 ∨ fuel = 0 := ⟨fuel - 1, by omega⟩
        rcases hf' with rfl | rfl
        · rw [eulerLoop, if_neg h']
          refine ⟨_, _, rfl, hr.set _ _, fun i hi => ⟨fun s hs hse => ?_, fun hne => ?_⟩⟩
          · rcases Nat.eq_or_lt_of_le hs with h1 | h1
            · subst h1; rw [← hse, Function.update_self]
            · have := mono_of_step hM (show t + 1 ≤ s from h1)
              omega
          · rw [Function.update_of_ne (fun h => hne t (le_refl t) h.symm)]
        · omega
    · rw [if_neg h]
      refine ⟨e, g, rfl, hr, fun i hi => ⟨fun s hs hse => ?_, fun _ => rfl⟩⟩
      have := mono_of_step hM hs
      omega

theorem euler_rep (n : Nat) (hn : 0 < n) : ∃ e, eulerFunction n = some e ∧ Rep e n (pent α) := by
  have h0 := Rep.replicate n (0 : α)
  rw [eulerFunction, Option.bind_eq_bind, h0.wr hn, Option.bind_some]
  obtain ⟨e1, g1, q1, r1, s1⟩ := eulerLoop_spec n (-1 : α) 1 pa (fun t => 3 * t + 1) (fun t => rfl) (fun t => by ring) (fun t => by omega)
    (n + 1) 1 _ _ (by omega) (by omega) (h0.set 0 1)
  rw [show eulerLoop n (-1 : α) 1 (n + 1) 4 1 ((List.replicate n (0 : α)).set 0 1) = some e1 from q1, Option.bind_some]
  obtain ⟨e2, g2, q2, r2, s2⟩ := eulerLoop_spec n (1 : α) (-1) pb (fun t => 3 * t + 2) (fun t => rfl) (fun t => by ring) (fun t => by omega)
    (n + 1) 1 _ _ (by omega) (by omega) r1
  refine ⟨e2, q2, r2.congr (fun i hi => ?_)⟩
  by_cases hk : ∃ k : ℤ, pentagonal k = i
  · obtain ⟨k, hk⟩ := hk
    rcases Int.eq_nat_or_neg k with ⟨t, rfl | rfl⟩
    · rw [(s2 i hi).2 (fun s hs => by rw [pb_eq, ← hk, Ne, pentagonal_inj]; omega), ← hk, pent_pos, hk]
      rcases Nat.eq_zero_or_pos t with h | h
      · subst h
        rw [(s1 i hi).2 (fun s hs => by rw [pa_eq, ← hk, Ne, pentagonal_inj]; omega), ← hk]
        simp [pentagonal]
      · rw [(s1 i hi).1 t h (by rw [pa_eq, hk])]
        rcases Nat.even_or_odd t with ht | ht
        · rw [ht.neg_one_pow, if_neg (by have := Nat.even_iff.mp ht; omega)]
        · rw [ht.neg_one_pow, if_pos (by have := Nat.odd_iff.mp ht; omega)]
    · rcases Nat.eq_zero_or_pos t with h | h
      · subst h
        rw [(s2 i hi).2 (fun s hs => by rw [pb_eq, ← hk, Ne, pentagonal_inj]; omega),
          (s1 i hi).2 (fun s hs => by rw [pa_eq, ← hk, Ne, pentagonal_inj]; omega), ← hk, pent_neg]
        simp [pentagonal]
      · rw [(s2 i hi).1 t h (by rw [pb_eq, hk]), ← hk, pent_neg]
        rcases Nat.even_or_odd t with ht | ht
        · rw [ht.neg_one_pow, if_pos (by have := Nat.even_iff.mp ht; omega)]
        · rw [ht.neg_one_pow, if_neg (by have := Nat.odd_iff.mp ht; omega)]
  · have hne : ∀ k, pentagonal k ≠ i := fun k h => hk ⟨k, h⟩
    rw [(s2 i hi).2 (fun s _ => by rw [pb_eq]; exact hne _), (s1 i hi).2 (fun s _ => by rw [pa_eq]; exact hne _), pent_other hne,
      Function.update_of_ne (fun h => hne 0 (by rw [h]; rfl))]

/-- **C75**: `euler_function(n)` returns the first `n` coefficients of `(1 - x) (1 - x^2) (1 - x^3) ...`: coefficient `i` is
that of the product of the first `M` factors, for every `M > i`. -/
theorem C75_euler_function (n : Nat) (hn : 0 < n) : ∃ e : List α, eulerFunction n = some e ∧ e.length = n ∧
    ∀ i, i < n → ∀ M, i < M → e[i]? = some ((∏ j ∈ Finset.range M, (1 - X ^ (j + 1)) : Polynomial α).coeff i) := by
  obtain ⟨e, h1, h2⟩ := euler_rep (α := α) n hn
  exact ⟨e, h1, h2.len, fun i hi M hM => by rw [h2.get i hi, ← euler_coeff M i hM]; rfl⟩

/-- **C75** (negative): asked for no coefficients, the function writes outside of the empty vector. -/
theorem C75_euler_zero : (eulerFunction 0 : Option (List α)) = none ∧ (partitionsSlow 0 : Option (List α)) = none := ⟨rfl, rfl⟩

/-! ### the recurrences -/

theorem pentLoop_spec (n i step md : Nat) (pos : Bool) (M K : Nat → Nat) (hi : i < n) (hM : ∀ t, M (t + 1) = M t + K t) (hK : ∀ t, K (t + 1) = K t + step)
    (hpos : ∀ t, 0 < K t) (sg : Nat → α) (hsg : ∀ t (a : α), (if decide (K t % md = 0) = pos then a else -a) = sg t * a) :
    ∀ (fuel t : Nat) (p : List α) (g : Nat → α), i + 1 < M t + fuel → 0 < M t → 0 < fuel → Rep p n g →
    ∃ p', pentLoop i step md pos fuel (K t) (M t) p = some p' ∧
      Rep p' n (Function.update g i (g i + ∑ s ∈ Finset.Ico t (t + fuel), if M s ≤ i then sg s * g (i - M s) else 0)) := by
  intro fuel
  induction fuel with
  | zero => intro _ _ _ _ _ h; omega
  | succ fuel ih =>
    intro t p g hf hM0 _ hr
    have hk := hpos t
    have hm := hM t
    rw [pentLoop]
    by_cases h : M t ≤ i
    · simp only [if_pos h, hr.rd (show i - M t < n by omega), hr.rd hi, hr.wr hi, Option.bind_eq_bind, Option.bind_some, hsg]
      rw [← hM t, ← hK t]
      obtain ⟨p', e, hr'⟩ := ih (t + 1) _ _ (by omega) (by omega) (by omega) (hr.set i (g i + sg t * g (i - M t)))
      refine ⟨p', e, hr'.congr (fun j hj => ?_)⟩
      rw [Function.update_idem, Function.update_self]
      congr 1
      rw [Finset.sum_eq_sum_Ico_succ_bot (show t < t + (fuel + 1) by omega), if_pos h, add_assoc, show t + (fuel + 1) = t + 1 + fuel by omega]
      congr 2
      refine Finset.sum_congr rfl (fun s hs => ?_)
      have := mono_of_step hM (Finset.mem_Ico.mp hs).1
      by_cases hs' : M s ≤ i
      · rw [if_pos hs', if_pos hs', Function.update_of_ne (by omega)]
      · rw [if_neg hs', if_neg hs']
    · rw [if_neg h]
      refine ⟨p, rfl, ?_⟩
      rw [Finset.sum_eq_zero (fun s hs => if_neg (by
        have := mono_of_step hM (Finset.mem_Ico.mp hs).1
        omega)), add_zero, Function.update_eq_self]
      exact hr

/-- The number of partitions of `i`. -/
def part (i : Nat) : Nat := Fintype.card (Nat.Partition i)

theorem part_rec (i : Nat) (hi : 0 < i) :
    ∑ s ∈ Finset.Ico 1 (i + 2), (if pa s ≤ i then -(-1) ^ s * ((part (i - pa s) : Nat) : α) else 0) +
    ∑ s ∈ Finset.Ico 1 (i + 2), (if pb s ≤ i then -(-1) ^ s * ((part (i - pb s) : Nat) : α) else 0) = ((part i : Nat) : α) := by
  have h := part_sum (α := α) i
  have h2 := pent_sum i (i + 2) (by omega) (fun m => ((part (i - m) : Nat) : α))
  rw [if_neg (by omega)] at h
  change ∑ m ∈ Finset.range (i + 1), pent α m * ((part (i - m) : Nat) : α) = 0 at h
  rw [h] at h2
  have e : ∀ g : Nat → Nat, (∑ s ∈ Finset.Ico 1 (i + 2), (if g s ≤ i then -(-1) ^ s * ((part (i - g s) : Nat) : α) else 0)) =
      -∑ s ∈ Finset.Ico 1 (i + 2), (if g s ≤ i then (-1) ^ s * ((part (i - g s) : Nat) : α) else 0) := by
    intro g
    rw [← Finset.sum_neg_distrib]
    refine Finset.sum_congr rfl (fun s _ => ?_)
    by_cases h : g s ≤ i
    · rw [if_pos h, if_pos h, neg_mul]
    · rw [if_neg h, if_neg h, neg_zero]
  rw [e, e]
  rw [Nat.sub_zero] at h2
  linear_combination h2

theorem slow_rep (n : Nat) (hn : 0 < n) : ∃ p, partitionsSlow n = some p ∧ Rep p n (fun i => ((part i : Nat) : α)) := by
  have h0 := Rep.replicate n (0 : α)
  rw [partitionsSlow, Option.bind_eq_bind, h0.wr hn, Option.bind_some]
  obtain ⟨p, e, hp⟩ := forUp_spec (fun i (p : List α) => Rep p n (fun j => if j < i then ((part j : Nat) : α) else 0))
    (show 1 ≤ n from hn) ((h0.set 0 1).congr (fun i hi => by
      by_cases h : i = 0
      · subst h; rw [Function.update_self, if_pos (by omega)]; simp [part]
      · rw [Function.update_of_ne h, if_neg (by omega)]))
    (body := fun i p => do
      let p ← pentLoop i 3 2 true (i + 1) 4 1 p
      pentLoop i 3 2 false (i + 1) 5 2 p) (fun i p h1 hi hr => by
    obtain ⟨p1, e1, r1⟩ := pentLoop_spec n i 3 2 true pa (fun t => 3 * t + 1) hi (fun t => rfl) (fun t => by ring) (fun t => by omega)
      (fun s => -(-1 : α) ^ s) (fun t a => by
        rcases Nat.even_or_odd t with ht | ht
        · have := Nat.even_iff.mp ht
          rw [ht.neg_one_pow, if_neg (by simp; omega)]; ring
        · have := Nat.odd_iff.mp ht
          rw [ht.neg_one_pow, if_pos (by simp; omega)]; ring) (i + 1) 1 p _ (by show i + 1 < _ + (i + 1); first | (show i + 1 < 1 + (i + 1); omega) | (show i + 1 < 2 + (i + 1); omega) | (show i + 1 < 4 + (i + 1); omega)) (by decide) (by omega) hr
    obtain ⟨p2, e2, r2⟩ := pentLoop_spec n i 3 2 false pb (fun t => 3 * t + 2) hi (fun t => rfl) (fun t => by ring) (fun t => by omega)
      (fun s => -(-1 : α) ^ s) (fun t a => by
        rcases Nat.even_or_odd t with ht | ht
        · have := Nat.even_iff.mp ht
          rw [ht.neg_one_pow, if_neg (by simp; omega)]; ring
        · have := Nat.odd_iff.mp ht
          rw [ht.neg_one_pow, if_pos (by simp; omega)]; ring) (i + 1) 1 p1 _ (by show i + 1 < _ + (i + 1); first | (show i + 1 < 1 + (i + 1); omega) | (show i + 1 < 2 + (i + 1); omega) | (show i + 1 < 4 + (i + 1); omega)) (by decide) (by omega) r1
    refine ⟨p2, ?_, r2.congr (fun j hj => ?_)⟩
    · show (pentLoop i 3 2 true (i + 1) 4 1 p).bind _ = _
      rw [show pentLoop i 3 2 true (i + 1) 4 1 p = some p1 from e1]; exact e2
    · rw [Function.update_idem]
      by_cases hji : j = i
      · subst hji
        rw [Function.update_self, Function.update_self, if_neg (by omega), if_pos (by omega), zero_add, ← part_rec j h1,
          show 1 + (j + 1) = j + 2 by omega]
        congr 1
        · refine Finset.sum_congr rfl (fun s hs => ?_)
          have := le_pa s
          have := Finset.mem_Ico.mp hs
          by_cases h : pa s ≤ j
          · rw [if_pos h, if_pos h, if_pos (by omega)]
          · rw [if_neg h, if_neg h]
        · refine Finset.sum_congr rfl (fun s hs => ?_)
          have := le_pb s
          have := Finset.mem_Ico.mp hs
          by_cases h : pb s ≤ j
          · rw [if_pos h, if_pos h, Function.update_of_ne (by omega), if_pos (by omega)]
          · rw [if_neg h, if_neg h]
      · rw [Function.update_of_ne hji]
        by_cases h : j < i
        · rw [if_pos h, if_pos (by omega)]
        · rw [if_neg h, if_neg (by omega)])
  exact ⟨p, e, hp.congr (fun i hi => if_pos hi)⟩

/-- **C75**: `partitions_p_slow(n)` returns the numbers of partitions of `0, 1, ..., n - 1`. -/
theorem C75_partitions_slow (n : Nat) (hn : 0 < n) :
    partitionsSlow n = some ((List.range n).map (fun i => ((Fintype.card (Nat.Partition i) : Nat) : α))) := by
  obtain ⟨p, e, h⟩ := slow_rep (α := α) n hn
  rw [e, h.eq_map]; rfl

/-! ### generating functions -/

/-- The first `n` numbers of partitions as a polynomial. -/
noncomputable def partPoly (α : Type) [CommRing α] (n : Nat) : Polynomial α := ∑ j ∈ Finset.range n, C ((part j : Nat) : α) * X ^ j

theorem partPoly_coeff (n i : Nat) (hi : i < n) : (partPoly α n).coeff i = ((part i : Nat) : α) := by
  rw [partPoly, Polynomial.finsetSum_coeff]
  simp only [Polynomial.coeff_C_mul, Polynomial.coeff_X_pow, mul_ite, mul_one, mul_zero]
  rw [Finset.sum_ite_eq, if_pos (Finset.mem_range.mpr hi)]

theorem part_euler (n M : Nat) (hM : n ≤ M) : Agree n (partPoly α n * eulerPoly α M) 1 := by
  intro i hi
  rw [mul_comm, Polynomial.coeff_mul, Finset.Nat.sum_antidiagonal_eq_sum_range_succ_mk, Polynomial.coeff_one]
  have h := part_sum (α := α) i
  rw [show (if i = 0 then (1 : α) else 0) = if i = 0 then 1 else 0 from rfl] at h
  rw [← h]
  refine Finset.sum_congr rfl (fun m hm => ?_)
  have := Finset.mem_range.mp hm
  show (eulerPoly α M).coeff m * (partPoly α n).coeff (i - m) = _
  rw [euler_coeff M m (by omega), partPoly_coeff n (i - m) (by omega)]; rfl

theorem agree_expand {n : Nat} {A B : Polynomial α} (h : Agree n A B) : Agree n (Polynomial.expand α 2 A) (Polynomial.expand α 2 B) := by
  intro i hi
  rw [Polynomial.coeff_expand (by omega), Polynomial.coeff_expand (by omega)]
  by_cases hd : 2 ∣ i
  · rw [if_pos hd, if_pos hd, h _ (by omega)]
  · rw [if_neg hd, if_neg hd]

/-- Partitions into distinct parts. -/
theorem distinct_agree (n M : Nat) (hM : n ≤ M) : Agree n (partPoly α n * Polynomial.expand α 2 (eulerPoly α M))
    (∏ j ∈ Finset.range M, (1 + X ^ (j + 1) : Polynomial α)) := by
  rw [← distinct_prod, ← mul_assoc]
  have := (part_euler (α := α) n M hM).mul_right (∏ j ∈ Finset.range M, (1 + X ^ (j + 1) : Polynomial α))
  rwa [one_mul] at this

theorem half_sum (i : Nat) (f : Nat → Nat → α) : (∑ k ∈ Finset.range (i + 1), if 2 ∣ k then f (k / 2) (i - k) else 0) =
    ∑ m ∈ Finset.range (i + 1), if 2 * m ≤ i then f m (i - 2 * m) else 0 := by
  rw [← Finset.sum_filter, ← Finset.sum_filter]
  refine Finset.sum_nbij' (fun k => k / 2) (fun m => 2 * m) ?_ ?_ ?_ ?_ ?_
  · intro k hk; simp only [Finset.mem_filter, Finset.mem_range] at hk ⊢; omega
  · intro k hk; simp only [Finset.mem_filter, Finset.mem_range] at hk ⊢; omega
  · intro k hk; simp only [Finset.mem_filter, Finset.mem_range] at hk; omega
  · intro k hk; omega
  · intro k hk
    simp only [Finset.mem_filter, Finset.mem_range] at hk
    rw [show 2 * (k / 2) = k by omega]

theorem distinct_rec (i : Nat) : ((part i : Nat) : α) +
    (∑ s ∈ Finset.Ico 1 (i + 2), (if 2 * pa s ≤ i then (-1) ^ s * ((part (i - 2 * pa s) : Nat) : α) else 0) +
    ∑ s ∈ Finset.Ico 1 (i + 2), (if 2 * pb s ≤ i then (-1) ^ s * ((part (i - 2 * pb s) : Nat) : α) else 0)) =
      (((Nat.Partition.distincts i).card : Nat) : α) := by
  have h := distinct_agree (α := α) (i + 1) (i + 1) (le_refl _) i (by omega)
  rw [distinct_coeff (i + 1) i (by omega), mul_comm, Polynomial.coeff_mul, Finset.Nat.sum_antidiagonal_eq_sum_range_succ_mk] at h
  rw [← h]
  have e : ∀ k ∈ Finset.range (i + 1), (Polynomial.expand α 2 (eulerPoly α (i + 1))).coeff k * (partPoly α (i + 1)).coeff (i - k) =
      if 2 ∣ k then (fun m r => pent α m * ((part r : Nat) : α)) (k / 2) (i - k) else 0 := by
    intro k hk
    have := Finset.mem_range.mp hk
    rw [partPoly_coeff _ _ (by omega), Polynomial.coeff_expand (by omega)]
    by_cases hd : 2 ∣ k
    · rw [if_pos hd, if_pos hd, euler_coeff _ _ (by omega)]
    · rw [if_neg hd, if_neg hd, zero_mul]
  show _ = ∑ k ∈ Finset.range (i + 1), (Polynomial.expand α 2 (eulerPoly α (i + 1))).coeff k * (partPoly α (i + 1)).coeff (i - k)
  rw [(Finset.sum_congr rfl e).trans (half_sum i (fun m r => pent α m * ((part r : Nat) : α)))]
  have h2 := pent_sum i (i + 2) (by omega) (fun m => if 2 * m ≤ i then ((part (i - 2 * m) : Nat) : α) else 0)
  simp only [mul_ite, mul_zero] at h2
  rw [h2, if_pos (by omega), Nat.sub_zero]
  congr 2
  · refine Finset.sum_congr rfl (fun s _ => ?_)
    by_cases h : 2 * pa s ≤ i
    · rw [if_pos h, if_pos (by omega)]
    · rw [if_neg h, ite_self]
  · refine Finset.sum_congr rfl (fun s _ => ?_)
    by_cases h : 2 * pb s ≤ i
    · rw [if_pos h, if_pos (by omega)]
    · rw [if_neg h, ite_self]

theorem distinctLoop_spec (n : Nat) : ∀ (i : Nat) (q : List α), i ≤ n →
    Rep q n (fun j => if j < i then ((part j : Nat) : α) else (((Nat.Partition.distincts j).card : Nat) : α)) →
    ∃ q', distinctLoop i q = some q' ∧ Rep q' n (fun j => (((Nat.Partition.distincts j).card : Nat) : α)) := by
  intro i
  induction i with
  | zero => intro q _ h; exact ⟨q, rfl, h.congr (fun j _ => if_neg (by omega))⟩
  | succ i ih =>
    intro q hi hr
    obtain ⟨p1, e1, r1⟩ := pentLoop_spec n i 6 4 false (fun t => 2 * pa t) (fun t => 2 * (3 * t + 1)) (by omega) (fun t => by rw [pa]; ring) (fun t => by ring)
      (fun t => by omega) (fun s => (-1 : α) ^ s) (fun t a => by
        rcases Nat.even_or_odd t with ht | ht
        · have := Nat.even_iff.mp ht
          rw [ht.neg_one_pow, if_pos (by simp; omega)]; ring
        · have := Nat.odd_iff.mp ht
          rw [ht.neg_one_pow, if_neg (by simp; omega)]; ring) (i + 1) 1 q _ (by show i + 1 < _ + (i + 1); first | (show i + 1 < 1 + (i + 1); omega) | (show i + 1 < 2 + (i + 1); omega) | (show i + 1 < 4 + (i + 1); omega)) (by decide) (by omega) hr
    obtain ⟨p2, e2, r2⟩ := pentLoop_spec n i 6 4 true (fun t => 2 * pb t) (fun t => 2 * (3 * t + 2)) (by omega) (fun t => by rw [pb]; ring) (fun t => by ring)
      (fun t => by omega) (fun s => (-1 : α) ^ s) (fun t a => by
        rcases Nat.even_or_odd t with ht | ht
        · have := Nat.even_iff.mp ht
          rw [ht.neg_one_pow, if_pos (by simp; omega)]; ring
        · have := Nat.odd_iff.mp ht
          rw [ht.neg_one_pow, if_neg (by simp; omega)]; ring) (i + 1) 1 p1 _ (by show i + 1 < _ + (i + 1); first | (show i + 1 < 1 + (i + 1); omega) | (show i + 1 < 2 + (i + 1); omega) | (show i + 1 < 4 + (i + 1); omega)) (by decide) (by omega) r1
    obtain ⟨q', eq', hq'⟩ := ih p2 (by omega) (r2.congr (fun j hj => by
      rw [Function.update_idem]
      by_cases hji : j = i
      · subst hji
        rw [Function.update_self, Function.update_self, if_pos (by omega), if_neg (by omega), ← distinct_rec j, add_assoc,
          show 1 + (j + 1) = j + 2 by omega]
        congr 2
        · refine Finset.sum_congr rfl (fun s hs => ?_)
          have := le_pa s
          have := Finset.mem_Ico.mp hs
          by_cases h : 2 * pa s ≤ j
          · rw [if_pos h, if_pos h, if_pos (by omega)]
          · rw [if_neg h, if_neg h]
        · refine Finset.sum_congr rfl (fun s hs => ?_)
          have := le_pb s
          have := Finset.mem_Ico.mp hs
          by_cases h : 2 * pb s ≤ j
          · rw [if_pos h, if_pos h, Function.update_of_ne (by omega), if_pos (by omega)]
          · rw [if_neg h, if_neg h]
      · rw [Function.update_of_ne hji]
        by_cases h : j < i
        · rw [if_pos h, if_pos (by omega)]
        · rw [if_neg h, if_neg (by omega)]))
    refine ⟨q', ?_, hq'⟩
    rw [distinctLoop, Option.bind_eq_bind, show pentLoop i 6 4 false (i + 1) 8 2 q = some p1 from e1, Option.bind_some,
      show pentLoop i 6 4 true (i + 1) 10 4 p1 = some p2 from e2, Option.bind_some, eq']

/-- **C75**: `partitions_p_distinct_slow(n)` returns the numbers of partitions of `0, 1, ..., n - 1` into distinct parts. -/
theorem C75_distinct_slow (n : Nat) (hn : 0 < n) :
    partitionsDistinctSlow n = some ((List.range n).map (fun i => (((Nat.Partition.distincts i).card : Nat) : α))) := by
  obtain ⟨p, e, h⟩ := slow_rep (α := α) n hn
  obtain ⟨q, e', h'⟩ := distinctLoop_spec n n p (le_refl n) (h.congr (fun i hi => (if_pos hi).symm))
  rw [partitionsDistinctSlow, e, Option.bind_eq_bind, Option.bind_some, e', h'.eq_map]

end Ring

/-! ### the series versions -/

section Series
variable {α : Type} [CommRing α] [DecidableEq α] [Quo α] [Nontrivial α]

theorem list_of_at {l : List α} {n : Nat} {g : Nat → α} (hl : l.length = n) (h : ∀ i, i < n → at' l i = g i) : l = (List.range n).map g :=
  Rep.eq_map ⟨hl, fun i hi => by
    have := Polynom.rd_at (v := l) (i := i) (by omega)
    rw [h i hi] at this; exact this⟩

theorem euler_agree {n : Nat} {e : List α} (h : Rep e n (pent α)) (M : Nat) (hM : n ≤ M) : Agree n (poly (Series.mk e e.length).p) (eulerPoly α M) := by
  have hl := h.len
  have hi := Series.mk_is e e.length
  rw [hl] at hi ⊢
  refine hi.agree.trans (fun i hi => ?_)
  rw [euler_coeff M i (by omega), poly_coeff]
  have := Polynom.rd_at (v := e) (i := i) (by omega)
  rw [h.rd hi] at this
  exact (Option.some.inj this).symm

theorem pent_zero : pent α 0 = 1 := by
  have := pent_pos (α := α) 0
  simpa [pentagonal] using this

theorem agree_at_zero {n : Nat} {l : List α} {M : Nat} (h : Agree n (poly l) (eulerPoly α M)) (hn : 0 < n) (hM : n ≤ M) : at' l 0 = 1 := by
  have := h 0 hn
  rwa [poly_coeff, euler_coeff M 0 (by omega), pent_zero] at this

/-- **C75**: `partitions_p(n)` returns the numbers of partitions of `0, 1, ..., n - 1`, whatever the multiplication
threshold. -/
theorem C75_partitions (thr n : Nat) (hn : 0 < n) (hd : DivBy (1 : α)) :
    partitions thr n = some ((List.range n).map (fun i => ((Fintype.card (Nat.Partition i) : Nat) : α))) := by
  obtain ⟨e, h1, h2⟩ := euler_rep (α := α) n hn
  have ha := euler_agree h2 n (le_refl n)
  have hmk := Series.mk_is e e.length
  have hl := h2.len
  obtain ⟨r, er, hN, hw, hr⟩ := Series.C60_inverse_ring thr (Series.mk e e.length) hmk.wf (by rw [hmk.1]; omega)
    (by rw [agree_at_zero ha hn (le_refl n)]; exact hd)
  have hlN : (Series.mk e e.length).N = n := hl
  rw [hlN] at hN hr
  rw [partitions, h1, Option.bind_eq_bind, Option.bind_some]
  rw [er, Option.bind_eq_bind, Option.bind_some]
  refine congrArg some (list_of_at (by rw [hw, hN]) (fun i hi => ?_))
  have hc : Agree n (poly r.p) (partPoly α n) := by
    have hp := part_euler (α := α) n n (le_refl n)
    refine Agree.cancel (u := eulerPoly α n) (v := partPoly α n) (by rwa [mul_comm] at hp) ?_
    refine Agree.trans ?_ hp.symm
    rw [mul_comm]
    exact (ha.symm.mul_right _).trans hr
  have := hc i hi
  rw [poly_coeff, partPoly_coeff n i hi] at this
  exact this

/-- **C75**: `partitions_p_distinct(n)` returns the numbers of partitions of `0, 1, ..., n - 1` into distinct parts. -/
theorem C75_partitions_distinct (thr n : Nat) (hn : 0 < n) (hd : DivBy (1 : α)) :
    partitionsDistinct thr n = some ((List.range n).map (fun i => (((Nat.Partition.distincts i).card : Nat) : α))) := by
  obtain ⟨e, h1, h2⟩ := euler_rep (α := α) n hn
  have ha := euler_agree h2 n (le_refl n)
  have hmk := Series.mk_is e e.length
  have hl := h2.len
  rw [partitionsDistinct, h1, Option.bind_eq_bind, Option.bind_some]
  simp only []
  obtain ⟨a, ea, hia⟩ := Series.C60_sub_pow (Series.mk e e.length) 2 (by omega)
  have hlN : (Series.mk e e.length).N = n := hl
  rw [hlN] at hia
  obtain ⟨t, et, hN, hw, ht⟩ := Series.C60_div_ring thr a (Series.mk e e.length) hmk.wf (by rw [hia.1]; omega) (by rw [hmk.1, hl, hia.1])
    (by rw [agree_at_zero ha hn (le_refl n)]; exact hd)
  rw [hia.1] at hN ht
  rw [show Series.subPow (Series.mk e e.length) 2 = some a from ea, Option.bind_eq_bind, Option.bind_some, et, Option.bind_some]
  refine congrArg some (list_of_at (by rw [hw, hN]) (fun i hi => ?_))
  have hp := part_euler (α := α) n n (le_refl n)
  have hc : Agree n (poly t.p) (∏ j ∈ Finset.range n, (1 + X ^ (j + 1) : Polynomial α)) := by
    refine Agree.cancel (u := eulerPoly α n) (v := partPoly α n) (by rwa [mul_comm] at hp) ?_
    rw [mul_comm (∏ j ∈ Finset.range n, (1 + X ^ (j + 1) : Polynomial α)), distinct_prod]
    exact ((ha.symm.mul_left _).trans ht).trans (hia.agree.trans (agree_expand ha))
  have := hc i hi
  rwa [poly_coeff, distinct_coeff n i hi] at this

/-- **C75**: `partitions_p_distinct_odd(n)` returns the numbers of partitions of `0, 1, ..., n - 1` into distinct odd parts. -/
theorem C75_partitions_distinct_odd (thr n : Nat) (hn : 0 < n) (hd : DivBy (1 : α)) :
    partitionsDistinctOdd thr n = some ((List.range n).map (fun i => (((Nat.Partition.oddDistincts i).card : Nat) : α))) := by
  obtain ⟨e, h1, h2⟩ := euler_rep (α := α) n hn
  have ha := euler_agree h2 n (le_refl n)
  have ha2 := euler_agree h2 (2 * n) (by omega)
  have hmk := Series.mk_is e e.length
  have hl := h2.len
  rw [partitionsDistinctOdd, h1, Option.bind_eq_bind, Option.bind_some]
  simp only []
  obtain ⟨b, eb, hib⟩ := Series.C60_sub_pow (Series.mk e e.length) 2 (by omega)
  have him := Series.C60_sub_mul (Series.mk e e.length) hmk.wf (-1 : α)
  have hlN : (Series.mk e e.length).N = n := hl
  rw [hlN] at hib him
  have hb : Agree n (poly b.p) (Polynomial.expand α 2 (eulerPoly α n)) := hib.agree.trans (agree_expand ha)
  have hb0 : at' b.p 0 = 1 := by
    have := hb 0 hn
    rwa [poly_coeff, Polynomial.coeff_expand (by omega), if_pos (by omega), Nat.zero_div, euler_coeff n 0 hn, pent_zero] at this
  obtain ⟨t, et, hN, hw, ht⟩ := Series.C60_div_ring thr (Series.subMul (Series.mk e e.length) (-1)) b hib.wf (by rw [him.1]; omega) (by rw [hib.1, him.1])
    (by rw [hb0]; exact hd)
  rw [him.1] at hN ht
  rw [show Series.subPow (Series.mk e e.length) 2 = some b from eb, Option.bind_eq_bind, Option.bind_some, et, Option.bind_some]
  refine congrArg some (list_of_at (by rw [hw, hN]) (fun i hi => ?_))
  have hp := part_euler (α := α) n n (le_refl n)
  have hp2 := agree_expand hp
  rw [map_mul, map_one] at hp2
  have hc : Agree n (poly t.p) (∏ j ∈ Finset.range (2 * n), (if Even j then 1 + X ^ (j + 1) else 1 : Polynomial α)) := by
    refine Agree.cancel (u := Polynomial.expand α 2 (eulerPoly α n)) (v := Polynomial.expand α 2 (partPoly α n)) (by rwa [mul_comm] at hp2) ?_
    rw [mul_comm (∏ j ∈ Finset.range (2 * n), (if Even j then 1 + X ^ (j + 1) else 1 : Polynomial α)), ← odd_prod]
    refine ((hb.symm.mul_left _).trans ht).trans (him.agree.trans ?_)
    exact ha2.comp_left (by simp)
  have := hc i hi
  rwa [poly_coeff, odd_coeff (2 * n) i (by omega)] at this

/-- **C75**: over the integers and over any field the element one divides everything, as the theorems above assume. -/
theorem C75_divides : DivBy (1 : Int) ∧ ∀ (F : Type) [Field F], DivBy (1 : F) :=
  ⟨divBy_int.1, fun _ _ => divBy_field 1 one_ne_zero⟩

end Series

example : (eulerFunction 16 : Option (List Int)) = some [1, -1, -1, 0, 0, 1, 0, 1, 0, 0, 0, 0, -1, 0, 0, -1] := by decide +kernel
example : (partitionsSlow 10 : Option (List Int)) = some [1, 1, 2, 3, 5, 7, 11, 15, 22, 30] ∧
    (partitions 2 10 : Option (List Int)) = some [1, 1, 2, 3, 5, 7, 11, 15, 22, 30] := by decide +kernel
example : (partitionsDistinctSlow 10 : Option (List Int)) = some [1, 1, 1, 2, 2, 3, 4, 5, 6, 8] ∧
    (partitionsDistinct 2 10 : Option (List Int)) = some [1, 1, 1, 2, 2, 3, 4, 5, 6, 8] := by decide +kernel
example : (partitionsDistinctOdd 2 12 : Option (List Int)) = some [1, 1, 0, 1, 1, 1, 1, 1, 2, 2, 2, 2] := by decide +kernel

end Altruct.Counting
