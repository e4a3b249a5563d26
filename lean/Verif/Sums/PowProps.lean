/-
C71: sums of powers (`sum_pow`, `sum_powx`), discrete integrals of polynomials (`polynom_sum`) and the sums of
`sequences.h`.
-/
import Verif.Sums.PowModel
import Verif.Sums.Props
import Verif.Polynom.MulProps
import Verif.Polynom.DivProps
import Verif.Recurrence.BernProps
import Verif.Base.Props
import Mathlib.NumberTheory.ArithmeticFunction.Misc

namespace Altruct.Sums

open Altruct.Polynom hiding range
open Finset (range Icc)

/-- `operator /` is exact on multiples of `b`: this holds in fields for `b ≠ 0`, and for integers. -/
def Exact {α : Type} [CommRing α] [Quo α] (b : α) : Prop := b ≠ 0 ∧ ∀ a : α, Quo.quo (b * a) b = a

theorem exact_field {α : Type} [Field α] (b : α) (h : b ≠ 0) : Exact b :=
  ⟨h, fun a => mul_div_cancel_left₀ a h⟩

theorem exact_int (b : Int) (h : b ≠ 0) : Exact b := ⟨h, fun a => Int.mul_tdiv_cancel_left a h⟩

section
variable {α : Type} [CommRing α] [DecidableEq α] [Quo α]

theorem cdiv_exact {a b c : α} (h : Exact b) (e : a = b * c) : cdiv a b = some c := by
  rw [cdiv, if_neg h.1, e, h.2]

theorem two_sum (n : Nat) : (n : α) * ((n : α) + 1) = 2 * ∑ k ∈ Icc 1 n, (k : α) ^ 1 := by
  induction n with
  | zero => simp
  | succ n ih =>
    rw [Finset.sum_Icc_succ_top (by omega)]; push_cast at ih ⊢; linear_combination ih

theorem six_sum (n : Nat) : (n : α) * ((n : α) + 1) * ((n : α) * 2 + 1) = 6 * ∑ k ∈ Icc 1 n, (k : α) ^ 2 := by
  induction n with
  | zero => simp
  | succ n ih =>
    rw [Finset.sum_Icc_succ_top (by omega)]; push_cast at ih ⊢; linear_combination ih

theorem cube_sum (n : Nat) : ∑ k ∈ Icc 1 n, (k : α) ^ 3 = (∑ k ∈ Icc 1 n, (k : α) ^ 1) * ∑ k ∈ Icc 1 n, (k : α) ^ 1 := by
  induction n with
  | zero => simp
  | succ n ih =>
    have h := two_sum (α := α) n
    rw [Finset.sum_Icc_succ_top (by omega), Finset.sum_Icc_succ_top (by omega), ih]
    push_cast at h ⊢
    linear_combination (-(n : α) - 1) * (-h)

/-- **C71**: `sum_pow(p, n)` with `p ≤ 3` needs only exact division by 2 and by 6 (so it works for integers); it is
`1^p + ... + n^p`. -/
theorem C71_sum_pow_small (p n : Nat) (B : List α) (hp : p ≤ 3) (hB : B ≠ []) (h2 : p = 1 ∨ p = 3 → Exact (2 : α))
    (h6 : p = 2 → Exact (6 : α)) : sumPowB p n B = some (∑ k ∈ Icc 1 n, (k : α) ^ p) := by
  obtain ⟨b, B, rfl⟩ := List.exists_cons_of_ne_nil hB
  have e0 : rd (b :: B) 0 = some b := rfl
  rw [sumPowB, e0]
  simp only [Option.bind_eq_bind, Option.bind_some, Int.cast_natCast]
  interval_cases p
  · simp
  · simp only [one_ne_zero, if_false, if_true]
    exact cdiv_exact (h2 (Or.inl rfl)) (two_sum n)
  · simp only [if_true, show (2 : Nat) ≠ 0 by decide, show (2 : Nat) ≠ 1 by decide, if_false]
    exact cdiv_exact (h6 rfl) (six_sum n)
  · simp only [if_true, show (3 : Nat) ≠ 0 by decide, show (3 : Nat) ≠ 1 by decide, show (3 : Nat) ≠ 2 by decide, if_false]
    rw [cdiv_exact (h2 (Or.inr rfl)) (two_sum n), Option.bind_some, cube_sum]

example : sumPowB 3 100 [(1 : Int)] = some 25502500 := by decide +kernel

end

section field
variable {α : Type} [Field α] [DecidableEq α]

/-- The property of Bernoulli numbers used by Faulhaber's formula: `Σ_{k<m} C(m,k) B_k = m` for `m ≤ L`. -/
def BernTable (b : List α) (L : Nat) : Prop :=
  L ≤ b.length ∧ ∀ m, m ≤ L → ∑ k ∈ range m, ((m.choose k : Nat) : α) * b.getD k 0 = (m : α)

/-- Faulhaber's sum. -/
def faul (b : List α) (p : Nat) (x : α) : α :=
  ∑ j ∈ range (p + 1), (((p + 1).choose j : Nat) : α) * b.getD j 0 * x ^ (p + 1 - j)

theorem faul_step (b : List α) (p : Nat) (hb : BernTable b (p + 1)) (x : α) :
    faul b p (x + 1) - faul b p x = ((p + 1 : Nat) : α) * (x + 1) ^ p := by
  have h1 : ∀ j ∈ range (p + 1), (((p + 1).choose j : Nat) : α) * b.getD j 0 * (x + 1) ^ (p + 1 - j)
      - (((p + 1).choose j : Nat) : α) * b.getD j 0 * x ^ (p + 1 - j) =
      ∑ s ∈ range (p + 1), if j < s + 1 then (((p + 1).choose (s + 1) : Nat) : α) * x ^ (p - s) * ((((s + 1).choose j : Nat) : α) * b.getD j 0) else 0 := by
    intro j hj
    rw [Finset.mem_range] at hj
    rw [← mul_sub, add_pow, Finset.sum_range_succ]
    have e1 : x ^ (p + 1 - j) * 1 ^ (p + 1 - j - (p + 1 - j)) * (((p + 1 - j).choose (p + 1 - j) : Nat) : α) = x ^ (p + 1 - j) := by simp
    rw [e1, add_sub_cancel_right, ← Finset.sum_filter]
    have e2 : (range (p + 1)).filter (fun s => j < s + 1) = Finset.Ico j (p + 1) := by
      ext s; simp; omega
    rw [e2, Finset.mul_sum, ← Finset.sum_range_reflect, Finset.sum_Ico_eq_sum_range]
    apply Finset.sum_congr rfl
    intro i hi
    rw [Finset.mem_range] at hi
    have e3 : (p + 1).choose (j + i + 1) * (j + i + 1).choose j = (p + 1).choose j * (p + 1 - j).choose (i + 1) := by
      rw [Nat.choose_mul (by omega)]
      congr 2
      omega
    have e4 : (p + 1 - j).choose (p + 1 - j - 1 - i) = (p + 1 - j).choose (i + 1) := by
      rw [← Nat.choose_symm (show i + 1 ≤ p + 1 - j by omega)]
      congr 1; omega
    have e5 : p - (j + i) = p + 1 - j - 1 - i := by omega
    rw [one_pow, mul_one, e4, e5]
    have e6 := congrArg (Nat.cast (R := α)) e3
    push_cast at e6
    linear_combination (-(b.getD j 0) * x ^ (p + 1 - j - 1 - i)) * e6
  rw [faul, faul, ← Finset.sum_sub_distrib, Finset.sum_congr rfl h1, Finset.sum_comm]
  have h2 : ∀ s ∈ range (p + 1), (∑ j ∈ range (p + 1), if j < s + 1 then (((p + 1).choose (s + 1) : Nat) : α) * x ^ (p - s) * ((((s + 1).choose j : Nat) : α) * b.getD j 0) else 0)
      = ((p + 1 : Nat) : α) * (x ^ (p - s) * 1 ^ (s) * ((p.choose (p - s) : Nat) : α)) := by
    intro s hs
    rw [Finset.mem_range] at hs
    rw [← Finset.sum_filter]
    have e2 : (range (p + 1)).filter (fun j => j < s + 1) = range (s + 1) := by ext j; simp; omega
    rw [e2, ← Finset.mul_sum, hb.2 (s + 1) (by omega), Nat.choose_symm (show s ≤ p by omega)]
    have e3 := congrArg (Nat.cast (R := α)) (Nat.add_one_mul_choose_eq p s)
    push_cast at e3 ⊢
    linear_combination (-(x ^ (p - s))) * e3
  rw [Finset.sum_congr rfl h2, ← Finset.mul_sum, add_pow, ← Finset.sum_range_reflect]
  congr 1
  apply Finset.sum_congr rfl
  intro i hi
  rw [Finset.mem_range] at hi
  have e1 : p + 1 - 1 - i = p - i := by omega
  have e2 : p - (p - i) = i := by omega
  rw [e1, e2]

theorem faul_zero (b : List α) (p : Nat) : faul b p 0 = 0 := by
  rw [faul]
  apply Finset.sum_eq_zero
  intro j hj
  rw [Finset.mem_range] at hj
  rw [zero_pow (by omega), mul_zero]

/-- Faulhaber's formula. -/
theorem faulhaber (b : List α) (p : Nat) (hb : BernTable b (p + 1)) (n : Nat) :
    faul b p (n : α) = ((p + 1 : Nat) : α) * ∑ k ∈ Icc 1 n, (k : α) ^ p := by
  induction n with
  | zero => simp [faul_zero]
  | succ n ih =>
    have h := faul_step b p hb (n : α)
    rw [Finset.sum_Icc_succ_top (by omega), mul_add, ← ih]
    push_cast at h ⊢
    linear_combination h

theorem powLoop_spec (b : List α) (p : Nat) (hb : p + 1 ≤ b.length) (hinv : ∀ i, i < p + 1 → ((i + 1 : Nat) : α) ≠ 0) (n : α) :
    ∀ (c k : Nat) (r : α), c + k = p + 1 →
    powLoop p n b c k (n ^ k) (((p + 1).choose k : Nat) : α) r =
      some (r + ∑ j ∈ range c, (((p + 1).choose j : Nat) : α) * b.getD j 0 * n ^ (p + 1 - j)) := by
  intro c
  induction c with
  | zero => intro k r _; simp [powLoop]
  | succ c ih =>
    intro k r hck
    rw [powLoop]
    have e1 : cdiv ((((p + 1).choose k : Nat) : α) * (((p : Int) - k + 1 : Int) : α)) ((k + 1 : Nat) : α) = some (((p + 1).choose (k + 1) : Nat) : α) := by
      apply cdiv_exact (exact_field _ (hinv k (by omega)))
      have h1 := congrArg (Nat.cast (R := α)) (Nat.choose_succ_right_eq (p + 1) k)
      push_cast [Nat.cast_sub (show k ≤ p + 1 by omega)] at h1 ⊢
      linear_combination -h1
    have e2 : rd b (p - k) = some (b.getD (p - k) 0) := by
      rw [rd, List.getD_eq_getElem?_getD, List.getElem?_eq_getElem (by omega)]; rfl
    simp only [e1, e2, Option.bind_eq_bind, Option.bind_some]
    rw [← pow_succ, ih (k + 1) _ (by omega), Finset.sum_range_succ]
    have e3 : p - k = c := by omega
    have e4 : k + 1 = p + 1 - c := by omega
    have e5 : (p + 1).choose (k + 1) = (p + 1).choose c := by
      rw [e4, Nat.choose_symm (by omega)]
    rw [e5, e3, e4]
    congr 1
    ring

/-- **C71**: in a field where `1, ..., p + 1` are not zero, and with a table of Bernoulli numbers up to `p`,
`sum_pow(p, n, B)` is `1^p + ... + n^p`. -/
theorem C71_sum_pow_table (p n : Nat) (B : List α) (hB : BernTable B (p + 1)) (hinv : ∀ i, i < p + 1 → ((i + 1 : Nat) : α) ≠ 0) :
    sumPowB p n B = some (∑ k ∈ Icc 1 n, (k : α) ^ p) := by
  have hne : B ≠ [] := by
    intro h; have := hB.1; rw [h] at this; simp at this
  have two : 2 ≤ p + 1 → Exact (2 : α) := fun h => exact_field _ (by have := hinv 1 (by omega); norm_num at this; exact this)
  have six : 3 ≤ p + 1 → Exact (6 : α) := fun h => exact_field _ (by
    have h2 := hinv 1 (by omega)
    have h3 := hinv 2 (by omega)
    norm_num at h2 h3
    rw [show (6 : α) = 2 * 3 by norm_num]
    exact mul_ne_zero h2 h3)
  by_cases hp : p ≤ 3
  · exact C71_sum_pow_small p n B hp hne (fun h => two (by omega)) (fun h => six (by omega))
  obtain ⟨b, B, rfl⟩ := List.exists_cons_of_ne_nil hne
  have e0 : rd (b :: B) 0 = some b := rfl
  rw [sumPowB, e0]
  simp only [Option.bind_eq_bind, Option.bind_some, Int.cast_natCast]
  rw [if_neg (by omega), if_neg (by omega), if_neg (by omega), if_neg (by omega)]
  have e1 := powLoop_spec (b :: B) p hB.1 hinv (n : α) (p + 1) 0 0 rfl
  rw [pow_zero, Nat.choose_zero_right, Nat.cast_one, zero_add] at e1
  rw [e1, Option.bind_some]
  exact cdiv_exact (exact_field _ (hinv p (by omega))) (faulhaber _ p hB n)

theorem bernTable_mono {b : List α} {L M : Nat} (h : BernTable b L) (hM : M ≤ L) : BernTable b M :=
  ⟨by have := h.1; omega, fun m hm => h.2 m (by omega)⟩

theorem sumPow_spec (P p n : Nat) (B : List α) (hp : p ≤ P) (hinv : ∀ i, i < P + P / 2 + 1 → ((i + 1 : Nat) : α) ≠ 0)
    (hB : BernTable B B.length) : ∃ B', sumPow p n B = some (∑ k ∈ Icc 1 n, (k : α) ^ p, B') ∧ BernTable B' B'.length := by
  rw [sumPow]
  by_cases h : B.length < p + 1
  · rw [if_pos h]
    obtain ⟨b, e, hl, hb⟩ := Recurrence.C55_bernoulli_recurrence (α := α) (max p (B.length + B.length / 2)) (fun i hi => hinv i (by omega))
    have hb' : BernTable b b.length := ⟨le_refl _, fun m hm => hb m (by omega)⟩
    rw [e]
    simp only [Option.bind_eq_bind, Option.bind_some]
    rw [C71_sum_pow_table p n b (bernTable_mono hb' (by omega)) (fun i hi => hinv i (by omega))]
    exact ⟨b, rfl, hb'⟩
  · rw [if_neg h]
    simp only [Option.bind_eq_bind, Option.bind_some]
    rw [C71_sum_pow_table p n B (bernTable_mono hB (by omega)) (fun i hi => hinv i (by omega))]
    exact ⟨B, rfl, hB⟩

/-- **C71**: whatever calls `sum_pow(p, n)` were made before (they grow the static table), every call with `p ≤ P`
returns `1^p + ... + n^p`, in every field in which `1, ..., 3P/2 + 1` are not zero. -/
theorem C71_sum_pow (P : Nat) (hinv : ∀ i, i < P + P / 2 + 1 → ((i + 1 : Nat) : α) ≠ 0) (cs : List (Nat × Nat)) (hc : ∀ c ∈ cs, c.1 ≤ P) :
    sumPowCalls (cs.map fun c => (c.1, (c.2 : Int))) [] = some (cs.map fun c => ∑ k ∈ Icc 1 c.2, ((k : Nat) : α) ^ c.1) := by
  have key : ∀ (cs : List (Nat × Nat)) (B : List α), (∀ c ∈ cs, c.1 ≤ P) → BernTable B B.length →
      sumPowCalls (cs.map fun c => (c.1, (c.2 : Int))) B = some (cs.map fun c => ∑ k ∈ Icc 1 c.2, ((k : Nat) : α) ^ c.1) := by
    intro cs
    induction cs with
    | nil => intro B _ _; rfl
    | cons c cs ih =>
      intro B hc hB
      obtain ⟨B', e, hB'⟩ := sumPow_spec P c.1 c.2 B (hc c List.mem_cons_self) hinv hB
      rw [List.map_cons, sumPowCalls, e]
      simp only [Option.bind_eq_bind, Option.bind_some]
      rw [ih B' (fun c h => hc c (List.mem_cons_of_mem _ h)) hB', Option.bind_some, List.map_cons]
  exact key cs [] hc ⟨le_refl _, fun m hm => by simp at hm; subst hm; simp⟩

/-- **C71**: over the rationals there is no condition. -/
theorem C71_sum_pow_rat (cs : List (Nat × Nat)) :
    sumPowCalls (cs.map fun c => (c.1, (c.2 : Int))) [] = some (cs.map fun c => ∑ k ∈ Icc 1 c.2, ((k : Nat) : Rat) ^ c.1) := by
  have : ∀ cs : List (Nat × Nat), ∃ P, ∀ c ∈ cs, c.1 ≤ P := by
    intro cs
    induction cs with
    | nil => exact ⟨0, by simp⟩
    | cons c cs ih =>
      obtain ⟨P, h⟩ := ih
      refine ⟨max c.1 P, fun d hd => ?_⟩
      rcases List.mem_cons.mp hd with rfl | hd
      · exact le_max_left _ _
      · exact le_trans (h d hd) (le_max_right _ _)
  obtain ⟨P, h⟩ := this cs
  exact C71_sum_pow P (fun i _ => Nat.cast_ne_zero.mpr (Nat.succ_ne_zero i)) cs h

example : sumPowCalls [(5, 10), (2, 3), (6, 4)] [] = some [(220825 : Rat), 14, 4890] := by decide +kernel

end field

theorem bernInner_some {α : Type} [CommRing α] [DecidableEq α] [Quo α] : ∀ (j : Nat) (a : List α), j < a.length →
    ∃ a', Recurrence.bernInner j a = some a' ∧ a'.length = a.length := by
  intro j
  induction j with
  | zero => intro a _; exact ⟨a, rfl, rfl⟩
  | succ j ih =>
    intro a h
    rw [Recurrence.bernInner, rd_at (show j < a.length by omega), rd_at h]
    simp only [Option.bind_eq_bind, Option.bind_some]
    rw [wr_eq (by omega), Option.bind_some]
    obtain ⟨a', e, hl⟩ := ih (a.set j ((at' a j - at' a (j + 1)) * ((j + 1 : Nat) : α))) (by rw [List.length_set]; omega)
    exact ⟨a', e, by rw [hl, List.length_set]⟩

theorem bernOuter_some {α : Type} [CommRing α] [DecidableEq α] [Quo α] (N : Nat) (hN : ∀ i, i < N → ((i + 1 : Nat) : α) ≠ 0) :
    ∀ (k m : Nat) (a b : List α), m + k = N → a.length = N → b.length = N →
    ∃ b', Recurrence.bernOuter k m a b = some b' ∧ b'.length = N := by
  intro k
  induction k with
  | zero => intro m a b _ _ h; exact ⟨b, rfl, h⟩
  | succ k ih =>
    intro m a b h ha hb
    rw [Recurrence.bernOuter]
    simp only [cdiv, if_neg (hN m (by omega)), Option.bind_eq_bind, Option.bind_some]
    rw [wr_eq (by omega), Option.bind_some]
    obtain ⟨a', e, hl⟩ := bernInner_some m (a.set m (Quo.quo 1 ((m + 1 : Nat) : α))) (by rw [List.length_set]; omega)
    rw [List.length_set] at hl
    rw [e, Option.bind_some, rd_at (by omega), Option.bind_some, wr_eq (by omega), Option.bind_some]
    exact ih (m + 1) a' _ (by omega) (by omega) (by rw [List.length_set]; exact hb)

/-- **C71**: for integers, calls with `p ≤ 3` are exact in any order (the Bernoulli table then contains rounded values,
but it is not used). -/
theorem C71_sum_pow_int (cs : List (Nat × Nat)) (hc : ∀ c ∈ cs, c.1 ≤ 3) :
    sumPowCalls (cs.map fun c => (c.1, (c.2 : Int))) [] = some (cs.map fun c => ∑ k ∈ Icc 1 c.2, ((k : Nat) : Int) ^ c.1) := by
  have key : ∀ (cs : List (Nat × Nat)) (B : List Int), (∀ c ∈ cs, c.1 ≤ 3) →
      sumPowCalls (cs.map fun c => (c.1, (c.2 : Int))) B = some (cs.map fun c => ∑ k ∈ Icc 1 c.2, ((k : Nat) : Int) ^ c.1) := by
    intro cs
    induction cs with
    | nil => intro B _; rfl
    | cons c cs ih =>
      intro B hc
      have e : ∃ B', sumPow c.1 c.2 B = some (∑ k ∈ Icc 1 c.2, ((k : Nat) : Int) ^ c.1, B') := by
        have h2 : c.1 = 1 ∨ c.1 = 3 → Exact (2 : Int) := fun _ => exact_int 2 (by decide)
        have h6 : c.1 = 2 → Exact (6 : Int) := fun _ => exact_int 6 (by decide)
        rw [sumPow]
        by_cases h : B.length < c.1 + 1
        · rw [if_pos h]
          obtain ⟨b, e, hl⟩ := bernOuter_some (α := Int) (max c.1 (B.length + B.length / 2) + 1) (fun i _ => by omega) _ 0 _ _ (Nat.zero_add _)
            (List.length_replicate) (List.length_replicate (a := (0 : Int)))
          rw [Recurrence.bernoulliB, e]
          simp only [Option.bind_eq_bind, Option.bind_some]
          rw [C71_sum_pow_small c.1 c.2 b (hc c List.mem_cons_self) (by intro h; rw [h] at hl; simp at hl) h2 h6]
          exact ⟨b, rfl⟩
        · rw [if_neg h]
          simp only [Option.bind_eq_bind, Option.bind_some]
          rw [C71_sum_pow_small c.1 c.2 B (hc c List.mem_cons_self) (by intro h'; rw [h'] at h; simp at h) h2 h6]
          exact ⟨B, rfl⟩
      obtain ⟨B', e⟩ := e
      rw [List.map_cons, sumPowCalls, e]
      simp only [Option.bind_eq_bind, Option.bind_some]
      rw [ih B' (fun c h => hc c (List.mem_cons_of_mem _ h)), Option.bind_some, List.map_cons]
  exact key cs [] hc

example : sumPowCalls [(1, 4), (3, 3), (2, 10)] [] = some [(10 : Int), 36, 385] := by decide +kernel

/-- Integers with `p > 3` give a wrong sum (the documentation asks for a field there): `1 + 16` is not 21. -/
theorem C71_sum_pow_int_needs : ∃ r, sumPowCalls [(4, 2)] [] = some [(r : Int)] ∧ r ≠ 1 ^ 4 + 2 ^ 4 := by
  refine ⟨_, rfl, ?_⟩
  decide +kernel

section powx
variable {α : Type} [CommRing α] [DecidableEq α] [Quo α]

open Polynomial in
/-- `Σ_{k ≤ n} k^m X^k`. -/
noncomputable def gsum (α : Type) [CommRing α] (m n : Nat) : α[X] := ∑ k ∈ range (n + 1), C ((k : α) ^ m) * X ^ k

open Polynomial in
theorem gsum_succ (m n : Nat) : gsum α (m + 1) n = X * Polynomial.derivative (gsum α m n) := by
  rw [gsum, gsum, Polynomial.derivative_sum, Finset.mul_sum]
  apply Finset.sum_congr rfl
  intro k _
  rw [Polynomial.derivative_C_mul_X_pow]
  cases k with
  | zero => simp
  | succ k =>
    rw [show k + 1 - 1 = k from rfl, pow_succ, C_mul, pow_succ X k]
    ring

open Polynomial in
theorem gsum_zero (n : Nat) : (X - 1) * gsum α 0 n = X ^ n * X - 1 := by
  rw [← pow_succ, ← mul_geom_sum, gsum]
  simp

open Polynomial in
theorem powx_step (m n : Nat) (p q : α[X]) (h : (X - 1) ^ (m + 1) * gsum α m n = X ^ n * p - q) :
    (X - 1) ^ (m + 2) * gsum α (m + 1) n =
      X ^ n * ((X ^ 2 - X) * Polynomial.derivative p - (C (n : α) + C (((m + 1 : Nat) : α) - n) * X) * p)
        - ((X ^ 2 - X) * Polynomial.derivative q - (C 0 + C (((m + 1 : Nat) : α) - 0) * X) * q) := by
  have hd := congrArg (Polynomial.derivative) h
  have hx : (X : α[X]) * Polynomial.derivative (X ^ n) = C (n : α) * X ^ n := by
    rw [Polynomial.derivative_X_pow]
    cases n with
    | zero => simp
    | succ n => rw [show n + 1 - 1 = n from rfl, pow_succ]; ring
  rw [Polynomial.derivative_mul, Polynomial.derivative_sub, Polynomial.derivative_mul, Polynomial.derivative_pow,
    Polynomial.derivative_sub, Polynomial.derivative_X, Polynomial.derivative_one, sub_zero, mul_one, show m + 1 - 1 = m from rfl] at hd
  rw [gsum_succ, sub_zero, C_sub, C_0]
  linear_combination (X * (X - 1)) * hd - (C ((m + 1 : Nat) : α) * X) * h + ((X - 1) * p) * hx

theorem poly3 (a b c : α) : poly [a, b, c] = Polynomial.C a + Polynomial.C b * Polynomial.X + Polynomial.C c * Polynomial.X ^ 2 := by
  rw [poly]
  simp [Finset.sum_range_succ, at']

theorem poly2 (a b : α) : poly [a, b] = Polynomial.C a + Polynomial.C b * Polynomial.X := by
  rw [poly]
  simp [Finset.sum_range_succ, at']

theorem times_poly (thr : Nat) (a b : List α) : ∃ r, Polynom.times thr a b = some r ∧ poly r = poly a * poly b :=
  C37_times thr a none (some b)

theorem minus_poly (a b : List α) : poly (Polynom.minus a b) = poly a - poly b := (C37_add a none (some b)).2.2

open Polynomial in
theorem powxLoop_spec (thr n : Nat) : ∀ (c m : Nat) (p q : List α), (X - 1) ^ (m + 1) * gsum α m n = X ^ n * poly p - poly q →
    ∃ p' q', powxLoop thr (n : α) c (m + 1) p q = some (p', q') ∧
      (X - 1) ^ (m + c + 1) * gsum α (m + c) n = X ^ n * poly p' - poly q' := by
  intro c
  induction c with
  | zero => intro m p q h; exact ⟨p, q, rfl, h⟩
  | succ c ih =>
    intro m p q h
    rw [powxLoop]
    obtain ⟨a1, e1, h1⟩ := times_poly thr [(0 : α), -1, 1] (Polynom.derivative p)
    obtain ⟨b1, f1, g1⟩ := times_poly thr [(n : α), ((m + 1 : Nat) : α) - n] p
    obtain ⟨a2, e2, h2⟩ := times_poly thr [(0 : α), -1, 1] (Polynom.derivative q)
    obtain ⟨b2, f2, g2⟩ := times_poly thr [(0 : α), ((m + 1 : Nat) : α) - 0] q
    simp only [e1, f1, e2, f2, Option.bind_eq_bind, Option.bind_some]
    have := ih (m + 1) (Polynom.minus a1 b1) (Polynom.minus a2 b2) (by
      rw [minus_poly, minus_poly, h1, h2, g1, g2, C37_derivative, C37_derivative, poly3, poly2, poly2]
      rw [powx_step m n _ _ h]
      simp only [C_0, C_neg, C_1]
      ring)
    rw [show m + (c + 1) = m + 1 + c by omega]
    exact this

/-- **C71**: `sum_powx(m, x, n)` is `Σ_{k=1}^n k^m x^k`, for `n ≥ 0`, in every ring where the division by
`(x - 1)^(m+1)` is exact (fields with `x ≠ 1`, integers with `x ≠ 1`). -/
theorem C71_sum_powx (thr m n : Nat) (x : α) (h : Exact ((x - 1) ^ (m + 1))) :
    sumPowx thr m x n = some (∑ k ∈ Icc 1 n, (k : α) ^ m * x ^ k) := by
  rw [sumPowx]
  obtain ⟨p, q, e, hpq⟩ := powxLoop_spec (α := α) thr n m 0 [0, 1] [1] (by
    rw [zero_add, pow_one, gsum_zero, poly2]
    simp [poly, at'])
  rw [zero_add] at e hpq
  simp only [Int.cast_natCast, e, Option.bind_eq_bind, Option.bind_some]
  rw [Base.C04_powT, show ((m : Int) + 1) = ((m + 1 : Nat) : Int) by push_cast; rfl, Base.C04_powT, C37_eval, C37_eval]
  have hv := congrArg (Polynomial.eval x) hpq
  simp only [Polynomial.eval_mul, Polynomial.eval_sub, Polynomial.eval_pow, Polynomial.eval_X, Polynomial.eval_one] at hv
  rw [cdiv_exact h hv.symm, Option.bind_some, gsum, Polynomial.eval_finsetSum]
  congr 1
  rw [Finset.range_eq_Ico, Finset.sum_eq_sum_Ico_succ_bot (by omega)]
  simp only [Polynomial.eval_mul, Polynomial.eval_C, Polynomial.eval_pow, Polynomial.eval_X, Nat.cast_zero, pow_zero, mul_one]
  have : Finset.Ico (0 + 1) (n + 1) = Icc 1 n := by ext i; rw [Finset.mem_Ico, Finset.mem_Icc]; omega
  rw [this]
  by_cases hm : m = 0
  · subst hm; simp
  · rw [if_neg hm, zero_pow hm]; ring

example : sumPowx 5 3 (2 : Int) 4 = some (2 + 8 * 4 + 27 * 8 + 64 * 16) := by decide +kernel
example : Exact (((2 : Int) - 1) ^ (3 + 1)) := exact_int _ (by decide)

end powx

section psum
variable {α : Type} [Field α] [DecidableEq α]

open Polynomial in
/-- Faulhaber's polynomial. -/
noncomputable def faulP (b : List α) (p l : Nat) : α[X] :=
  ∑ j ∈ range l, C ((((p + 1).choose j : Nat) : α) * b.getD j 0) * X ^ (p + 1 - j)

theorem faulP_eval (b : List α) (p : Nat) (x : α) : (faulP b p (p + 1)).eval x = faul b p x := by
  rw [faulP, faul, Polynomial.eval_finsetSum]
  simp

open Polynomial in
theorem poly_put_add (s : List α) (i : Nat) (v : α) : poly (put s i (at' s i + v)) = poly s + C v * X ^ i := by
  ext j
  rw [poly_coeff, at'_put, Polynomial.coeff_add, poly_coeff, Polynomial.coeff_C_mul, Polynomial.coeff_X_pow]
  by_cases h : j = i
  · rw [if_pos h, if_pos h, h, mul_one]
  · rw [if_neg h, if_neg h, mul_zero, add_zero]

open Polynomial in
theorem psInner_spec (m : Nat) (b : List α) (hb : m + 1 ≤ b.length) (hinv : ∀ i, i < m + 1 → ((i + 1 : Nat) : α) ≠ 0) (c0 : α) :
    ∀ (n k : Nat) (s : List α), n + k = m + 1 → ∃ s', psInner m b n k (c0 * (((m + 1).choose k : Nat) : α)) s = some s' ∧
      poly s' + C c0 * faulP b m k = poly s + C c0 * faulP b m (m + 1) := by
  intro n
  induction n with
  | zero => intro k s h; exact ⟨s, rfl, by rw [show k = m + 1 by omega]⟩
  | succ n ih =>
    intro k s h
    rw [psInner, rd_at (by omega)]
    have e1 : cdiv (c0 * (((m + 1).choose k : Nat) : α) * ((m + 1 - k : Nat) : α)) ((k + 1 : Nat) : α) = some (c0 * (((m + 1).choose (k + 1) : Nat) : α)) := by
      apply cdiv_exact (exact_field _ (hinv k (by omega)))
      have h1 := congrArg (Nat.cast (R := α)) (Nat.choose_succ_right_eq (m + 1) k)
      push_cast only [Nat.cast_mul] at h1
      linear_combination (-c0) * h1
    simp only [e1, Option.bind_eq_bind, Option.bind_some]
    obtain ⟨s', e, hs⟩ := ih (k + 1) (put s (m + 1 - k) (at' s (m + 1 - k) + c0 * (((m + 1).choose k : Nat) : α) * at' b k)) (by omega)
    refine ⟨s', e, ?_⟩
    rw [poly_put_add] at hs
    rw [faulP, Finset.sum_range_succ, ← faulP] at hs
    simp only [C_mul] at hs
    have : b.getD k 0 = at' b k := rfl
    rw [this] at hs
    linear_combination hs

open Polynomial in
theorem psOuter_spec (p b : List α) (L : Nat) (hb : L ≤ b.length) (hinv : ∀ i, i < L → ((i + 1 : Nat) : α) ≠ 0) :
    ∀ (m : Nat) (s : List α), m ≤ L → ∃ s', psOuter p b m s = some s' ∧
      poly s' = poly s + ∑ i ∈ range m, C (at' p i / ((i + 1 : Nat) : α)) * faulP b i (i + 1) := by
  intro m
  induction m with
  | zero => intro s _; exact ⟨s, rfl, by simp⟩
  | succ m ih =>
    intro s hm
    rw [psOuter]
    have e1 : cdiv (at' p m) ((m + 1 : Nat) : α) = some (at' p m / ((m + 1 : Nat) : α)) := by
      apply cdiv_exact (exact_field _ (hinv m (by omega)))
      rw [mul_div_cancel₀ _ (hinv m (by omega))]
    rw [e1, Finset.sum_range_succ]
    simp only [Option.bind_eq_bind, Option.bind_some]
    generalize at' p m / ((m + 1 : Nat) : α) = c0
    by_cases hc : c0 = 0
    · rw [if_pos hc, Option.bind_some]
      obtain ⟨s', e, hs⟩ := ih s (by omega)
      exact ⟨s', e, by rw [hs, hc, C_0, zero_mul, add_zero]⟩
    · rw [if_neg hc]
      obtain ⟨s1, e, hs⟩ := psInner_spec m b (by omega) (fun i hi => hinv i (by omega)) c0 (m + 1) 0 s rfl
      rw [Nat.choose_zero_right, Nat.cast_one, mul_one] at e
      rw [e, Option.bind_some]
      obtain ⟨s', e', hs'⟩ := ih s1 (by omega)
      refine ⟨s', e', ?_⟩
      rw [hs']
      have : faulP b m 0 = 0 := by simp [faulP]
      rw [this, mul_zero, add_zero] at hs
      rw [hs]
      ring

/-- **C71**: in a field where `1, ..., deg p + 1` are not zero, `polynom_sum(p)` is the polynomial `s` with
`s(0) = 0` and `s(x + 1) - s(x) = p(x + 1)` for all `x`; so `s(n) = p(1) + ... + p(n)`. -/
theorem C71_polynom_sum (p : List α) (hinv : ∀ i, i < (poly p).natDegree + 1 → ((i + 1 : Nat) : α) ≠ 0) :
    ∃ s, polynomSum p = some s ∧ (poly s).eval 0 = 0 ∧
      (∀ x, (poly s).eval (x + 1) = (poly s).eval x + (poly p).eval (x + 1)) ∧
      ∀ n : Nat, Polynom.eval s (n : α) = ∑ k ∈ Icc 1 n, Polynom.eval p (k : α) := by
  rw [← C37_deg] at hinv
  rw [polynomSum]
  obtain ⟨b, e, hl, hb⟩ := Recurrence.C55_bernoulli_recurrence (α := α) (Polynom.deg p) hinv
  have hb' : BernTable b (Polynom.deg p + 1) := ⟨by omega, hb⟩
  rw [e]
  simp only [Option.bind_eq_bind, Option.bind_some]
  obtain ⟨s, es, hs⟩ := psOuter_spec p b (Polynom.deg p + 1) (by omega) hinv (Polynom.deg p + 1) [0] (le_refl _)
  have h0 : poly [(0 : α)] = 0 := by simp [poly, at']
  rw [h0, zero_add] at hs
  have hev : ∀ x, (poly s).eval x = ∑ i ∈ range (Polynom.deg p + 1), at' p i / ((i + 1 : Nat) : α) * faul b i x := by
    intro x
    rw [hs, Polynomial.eval_finsetSum]
    apply Finset.sum_congr rfl
    intro i _
    rw [Polynomial.eval_mul, Polynomial.eval_C, faulP_eval]
  have hz : (poly s).eval 0 = 0 := by
    rw [hev]
    exact Finset.sum_eq_zero fun i _ => by rw [faul_zero, mul_zero]
  have hst : ∀ x, (poly s).eval (x + 1) = (poly s).eval x + (poly p).eval (x + 1) := by
    intro x
    rw [← sub_eq_iff_eq_add', hev, hev, ← Finset.sum_sub_distrib, Polynomial.eval_eq_sum_range, ← C37_deg]
    apply Finset.sum_congr rfl
    intro i hi
    rw [Finset.mem_range] at hi
    rw [← mul_sub, faul_step b i (bernTable_mono hb' (by omega)), poly_coeff, ← mul_assoc, div_mul_cancel₀ _ (hinv i hi)]
  refine ⟨s, es, hz, hst, ?_⟩
  intro n
  induction n with
  | zero => rw [C37_eval, Nat.cast_zero, hz]; simp
  | succ n ih =>
    rw [Finset.sum_Icc_succ_top (by omega), ← ih, C37_eval, C37_eval, C37_eval]
    push_cast
    exact hst _

example : polynomSum [(1 : Rat), 2, 3] = some [0, 5/2, 5/2, 1] := by decide +kernel

end psum

section seq
variable {α : Type} [CommRing α] [DecidableEq α] [Quo α]

/-- **C71**: triangular numbers are `1 + ... + n`, pyramidal numbers `1 + 4 + ... + n²`, tetrahedral numbers the sums
of the triangular ones. -/
theorem C71_sequences (n : Nat) (h2 : Exact (2 : α)) (h6 : Exact (6 : α)) :
    triangular (n : Int) = some (∑ k ∈ Icc 1 n, (k : α)) ∧
    pyramidal (n : Int) = some (∑ k ∈ Icc 1 n, (k : α) ^ 2) ∧
    tetrahedral (n : Int) = some (∑ k ∈ Icc 1 n, ∑ j ∈ Icc 1 k, (j : α)) := by
  have e := two_sum (α := α)
  simp only [pow_one] at e
  refine ⟨cdiv_exact h2 ?_, cdiv_exact h6 ?_, cdiv_exact h6 ?_⟩
  · simp only [Int.cast_natCast]; exact e n
  · simp only [Int.cast_natCast]; exact six_sum n
  · simp only [Int.cast_natCast]
    induction n with
    | zero => simp
    | succ n ih =>
      have e' := e (n + 1)
      rw [Finset.sum_Icc_succ_top (by omega)]
      push_cast at ih e' ⊢
      linear_combination ih + 3 * e'

/-- The centered polyhedral numbers have their closed forms, with exact divisions: in each case the division has no
remainder. -/
theorem C71_polyhedral (n : Int) :
    (∃ r : Int, octahedral n = some r ∧ 3 * r = n * (2 * n ^ 2 + 1)) ∧
    (∃ r : Int, dodecahedral n = some r ∧ 2 * r = n * (3 * n - 1) * (3 * n - 2)) ∧
    (∃ r : Int, icosahedral n = some r ∧ 2 * r = n * (5 * n ^ 2 - 5 * n + 2)) := by
  have key : ∀ (a b : Int), b ≠ 0 → b ∣ a → ∃ r, cdiv a b = some r ∧ b * r = a := by
    intro a b hb ⟨c, hc⟩
    exact ⟨c, cdiv_exact (exact_int b hb) hc, hc.symm⟩
  refine ⟨?_, ?_, ?_⟩
  · obtain ⟨r, e, h⟩ := key (n * (n * n * 2 + 1)) 3 (by decide) (by
      rcases (by omega : n % 3 = 0 ∨ n % 3 = 1 ∨ n % 3 = 2) with h | h | h <;>
        exact Int.dvd_of_emod_eq_zero (by simp [Int.mul_emod, Int.add_emod, h]))
    exact ⟨r, e, by rw [h]; ring⟩
  · obtain ⟨r, e, h⟩ := key (n * (n * 3 - 1) * (n * 3 - 2)) 2 (by decide) (by
      rcases (by omega : n % 2 = 0 ∨ n % 2 = 1) with h | h <;>
        exact Int.dvd_of_emod_eq_zero (by simp [Int.mul_emod, Int.sub_emod, h]))
    exact ⟨r, e, by rw [h]; ring⟩
  · obtain ⟨r, e, h⟩ := key (n * (n * (n - 1) * 5 + 2)) 2 (by decide) (by
      rcases (by omega : n % 2 = 0 ∨ n % 2 = 1) with h | h <;>
        exact Int.dvd_of_emod_eq_zero (by simp [Int.mul_emod, Int.add_emod, Int.sub_emod, h]))
    exact ⟨r, e, by rw [h]; ring⟩

theorem sum_int_nat (h : Int → α) (n : Nat) : ∑ k ∈ Icc (1 : Int) n, h k = ∑ k ∈ Icc 1 n, h (k : Int) := by
  induction n with
  | zero => simp
  | succ n ih =>
    rw [Finset.sum_Icc_succ_top (by omega), ← ih]
    have := sum_step h (k := ((n + 1 : Nat) : Int)) (by push_cast; omega)
    rw [← this, show (((n + 1 : Nat) : Int) - 1) = n by push_cast; ring]
    ring

theorem sigma_sum (e n : Nat) : ∑ k ∈ Icc 1 n, (k : α) ^ e * ((n / k : Nat) : α) = ∑ i ∈ Icc 1 n, ((ArithmeticFunction.sigma e i : Nat) : α) := by
  have h1 : ∀ i ∈ Icc 1 n, ((ArithmeticFunction.sigma e i : Nat) : α) = ∑ d ∈ Icc 1 n, if d ∣ i then (d : α) ^ e else 0 := by
    intro i hi
    rw [Finset.mem_Icc] at hi
    rw [ArithmeticFunction.sigma_apply, ← Finset.sum_filter]
    push_cast
    apply Finset.sum_congr _ fun _ _ => rfl
    ext d
    simp only [Nat.mem_divisors, Finset.mem_filter, Finset.mem_Icc]
    constructor
    · intro ⟨h, _⟩
      have := Nat.le_of_dvd (by omega) h
      have := Nat.pos_of_dvd_of_pos h (by omega)
      exact ⟨⟨by omega, by omega⟩, h⟩
    · intro ⟨_, h⟩
      exact ⟨h, by omega⟩
  rw [Finset.sum_congr rfl h1, Finset.sum_comm]
  apply Finset.sum_congr rfl
  intro d _
  rw [← Finset.sum_filter, Finset.sum_const, nsmul_eq_mul, mul_comm]
  congr 2
  rw [← Nat.Ioc_filter_dvd_card_eq_div]
  rfl

/-- **C71**: `sum_sigma0/1/2(n)` are the sums of the numbers, sums and sums of squares of divisors of `1, ..., n`;
`sq` stands for `sqrtT` and only has to be positive. -/
theorem C71_sum_sigma {sq : Int → Int} (n : Nat) (hsq : 1 ≤ (n : Int) → 0 < sq n) :
    sumSigma0 sq n = some (∑ i ∈ Icc 1 n, ((ArithmeticFunction.sigma 0 i : Nat) : α)) ∧
    (Exact (2 : α) → sumSigma1 sq n = some (∑ i ∈ Icc 1 n, ((ArithmeticFunction.sigma 1 i : Nat) : α))) ∧
    (Exact (6 : α) → sumSigma2 sq n = some (∑ i ∈ Icc 1 n, ((ArithmeticFunction.sigma 2 i : Nat) : α))) := by
  have key : ∀ (e : Nat) (f sf : Int → α), (∀ k, f k = (k : α) ^ e) → (∀ x : Nat, sf x = ∑ k ∈ Icc 1 x, (k : α) ^ e) →
      sumSqrt2mF sq f sf (fun k => (k : α)) n = some (∑ i ∈ Icc 1 n, ((ArithmeticFunction.sigma e i : Nat) : α)) := by
    intro e f sf hf hsf
    rw [C43_sum_sqrt2m_f hsq f _ sf (fun x hx => by
      lift x to Nat using hx
      rw [hsf, sum_int_nat]
      exact Finset.sum_congr rfl fun k _ => by rw [hf, Int.cast_natCast]), sum_int_nat, ← sigma_sum]
    congr 1
    apply Finset.sum_congr rfl
    intro k _
    rw [hf, Int.cast_natCast, ← Int.natCast_div, Int.cast_natCast]
  refine ⟨?_, ?_, ?_⟩
  · exact key 0 _ _ (fun k => (pow_zero _).symm) (fun x => by simp)
  · intro h
    rw [sumSigma1, if_neg h.1]
    exact key 1 _ _ (fun k => (pow_one _).symm) (fun x => by
      rw [← h.2 (∑ k ∈ Icc 1 x, (k : α) ^ 1), ← two_sum]; simp)
  · intro h
    rw [sumSigma2, if_neg h.1]
    exact key 2 _ _ (fun k => (pow_two _).symm) (fun x => by
      rw [← h.2 (∑ k ∈ Icc 1 x, (k : α) ^ 2), ← six_sum]; simp)

example : sumSigma2 (fun _ => 3) 10 = some (469 : Int) := by decide +kernel

end seq

end Altruct.Sums
