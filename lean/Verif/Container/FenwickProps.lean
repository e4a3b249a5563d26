/-
C18: Fenwick tree.
-/
import Verif.Container.FenwickModel
import Mathlib.Data.Nat.Bitwise
import Mathlib.Algebra.BigOperators.Intervals
import Mathlib.Order.Interval.Finset.Nat
import Mathlib.Tactic.Ring
import Mathlib.Tactic.Abel
import Mathlib.Tactic.Linarith

namespace Altruct.Fenwick

/-! ### The low bit -/

theorem and_compl (n m : Nat) (h : m < 2 ^ n) : m &&& (2 ^ n - (m + 1)) = 0 := by
  apply Nat.eq_of_testBit_eq
  intro i
  rw [Nat.testBit_and, Nat.testBit_two_pow_sub_succ h, Nat.zero_testBit]
  cases m.testBit i <;> simp

theorem exists_odd_part (i : Nat) (hi : 0 < i) : ∃ k m, i = 2 ^ k * (2 * m + 1) := by
  induction i using Nat.strong_induction_on with
  | _ i ih =>
    by_cases h : i % 2 = 0
    · obtain ⟨k, m, e⟩ := ih (i / 2) (by omega) (by omega)
      refine ⟨k + 1, m, ?_⟩
      rw [pow_succ, mul_comm (2 ^ k) 2, mul_assoc, ← e]; omega
    · exact ⟨0, i / 2, by omega⟩

theorem loBit_eq (k m : Nat) (h : 2 ^ k * (2 * m + 1) < 2 ^ 64) : loBit (2 ^ k * (2 * m + 1)) = 2 ^ k := by
  have hk : k < 64 := by
    by_contra hc
    have : 2 ^ 64 ≤ 2 ^ k := Nat.pow_le_pow_right (by norm_num) (by omega)
    have : 2 ^ k ≤ 2 ^ k * (2 * m + 1) := Nat.le_mul_of_pos_right _ (by omega)
    omega
  obtain ⟨d, hd⟩ := Nat.exists_eq_add_of_lt hk
  have e64 : (2 : Nat) ^ 64 = 2 ^ k * (2 * 2 ^ d) := by
    rw [hd, pow_succ, pow_add]; ring
  have hpos : 0 < 2 ^ k * (2 * m + 1) := by positivity
  unfold loBit
  rw [Nat.mod_eq_of_lt (by omega)]
  rw [e64] at h ⊢
  have hlt : 2 * m + 1 < 2 * 2 ^ d := lt_of_mul_lt_mul_left h (Nat.zero_le _)
  rw [← Nat.mul_sub]
  have hm : m < 2 ^ d := by omega
  have e1 : 2 * 2 ^ d - (2 * m + 1) = 2 * (2 ^ d - (m + 1)) + 1 := by omega
  rw [e1]
  have e2 : ∀ x, 2 ^ k * x = x <<< k := fun x => by rw [Nat.shiftLeft_eq, mul_comm]
  rw [e2, e2, ← Nat.shiftLeft_and_distrib, ← e2]
  have e3 : (2 * m + 1) &&& (2 * (2 ^ d - (m + 1)) + 1) = 1 := by
    apply Nat.eq_of_testBit_eq
    intro i
    rw [Nat.testBit_and]
    cases i with
    | zero => simp [Nat.testBit_zero]
    | succ i =>
      rw [Nat.testBit_succ, Nat.testBit_succ, Nat.testBit_succ]
      rw [show (2 * m + 1) / 2 = m by omega, show (2 * (2 ^ d - (m + 1)) + 1) / 2 = 2 ^ d - (m + 1) by omega,
        ← Nat.testBit_and, and_compl d m hm]
  rw [e3, mul_one]

theorem loBit_pos_le (i : Nat) (hi : 0 < i) (h : i < 2 ^ 64) : 0 < loBit i ∧ loBit i ≤ i := by
  obtain ⟨k, m, rfl⟩ := exists_odd_part i hi
  rw [loBit_eq k m h]
  exact ⟨by positivity, Nat.le_mul_of_pos_right _ (by omega)⟩

/-- Node `i` of the tree covers the (one-based) position `j`. -/
def Covers (i j : Nat) : Prop := i - loBit i < j ∧ j ≤ i

theorem covers_next (i j : Nat) (hj : 0 < j) (hji : j < i) (hi : i < 2 ^ 64) :
    Covers i j ↔ Covers i (j + loBit j) := by
  obtain ⟨s, a, rfl⟩ := exists_odd_part j hj
  obtain ⟨t, b, rfl⟩ := exists_odd_part i (by omega)
  unfold Covers
  rw [loBit_eq s a (by omega), loBit_eq t b hi]
  have e1 : 2 ^ t * (2 * b + 1) - 2 ^ t = 2 ^ t * (2 * b) := by
    rw [Nat.mul_add, Nat.mul_one, Nat.add_sub_cancel]
  have e2 : 2 ^ s * (2 * a + 1) + 2 ^ s = 2 ^ s * (2 * a + 2) := by ring
  rw [e1, e2]
  rcases Nat.le_total s t with hst | hst
  · obtain ⟨c, rfl⟩ := Nat.exists_eq_add_of_le hst
    have hp : 0 < 2 ^ s := by positivity
    rw [pow_add, mul_assoc, mul_assoc] at *
    generalize 2 ^ c = c at *
    rw [Nat.mul_lt_mul_left hp] at *
    rw [Nat.mul_le_mul_left_iff hp, Nat.mul_lt_mul_left hp, Nat.mul_le_mul_left_iff hp]
    have : c * (2 * b) = 2 * (c * b) := by ring
    rw [this]
    omega
  · obtain ⟨c, rfl⟩ := Nat.exists_eq_add_of_le hst
    have hp : 0 < 2 ^ t := by positivity
    rw [pow_add, mul_assoc, mul_assoc] at *
    rw [Nat.mul_lt_mul_left hp] at *
    rw [Nat.mul_le_mul_left_iff hp, Nat.mul_lt_mul_left hp, Nat.mul_le_mul_left_iff hp]
    cases c with
    | zero => simp only [pow_zero, one_mul] at *; omega
    | succ c =>
      have h1 : 2 ^ (c + 1) * (2 * a + 1) = 2 * (2 ^ c * (2 * a + 1)) := by rw [pow_succ]; ring
      have h2 : 2 ^ (c + 1) * (2 * a + 2) = 2 * (2 ^ c * (2 * a + 2)) := by rw [pow_succ]; ring
      rw [h1] at *
      rw [h2]
      omega

/-! ### The loops, for a commutative monoid -/

section
variable {T : Type*} [AddCommMonoid T]

open Classical in
theorem addLoop_spec (val : T) (fuel n : Nat) (hn : n ≤ 2 ^ 63) (v : List T) (g : Nat → T) (hv : Rep v n g)
    (j : Nat) (hj : 0 < j) (hf : n < j + fuel) (hf0 : 0 < fuel) :
    ∃ v', addLoop (fun x y => x + y) val fuel v j = some v' ∧
      Rep v' n (fun i => if Covers i j then g i + val else g i) := by
  induction fuel generalizing v g j with
  | zero =>
    omega
  | succ fuel ih =>
    rw [addLoop, hv.len]
    by_cases hjn : j < n
    · obtain ⟨l1, l2⟩ := loBit_pos_le j hj (by omega)
      rw [if_pos hjn, hv.rd hjn]
      simp only [Option.bind_eq_bind, Option.bind_some, hv.wr hjn]
      rw [Nat.mod_eq_of_lt (by omega)]
      obtain ⟨v', e, r⟩ := ih _ _ (hv.set j (g j + val)) (j + loBit j) (by omega) (by omega) (by omega)
      refine ⟨v', e, r.congr ?_⟩
      intro i hi
      by_cases hij : i = j
      · subst hij
        have c1 : Covers i i := ⟨by omega, le_rfl⟩
        have c2 : ¬ Covers i (i + loBit i) := fun h => by have := h.2; omega
        simp [c1, c2]
      · rw [Function.update_of_ne hij]
        by_cases hlt : i < j
        · have c1 : ¬ Covers i j := fun h => by have := h.2; omega
          have c2 : ¬ Covers i (j + loBit j) := fun h => by have := h.2; omega
          simp [c1, c2]
        · simp only [covers_next i j hj (by omega) (by omega)]
    · rw [if_neg hjn]
      refine ⟨v, rfl, hv.congr ?_⟩
      intro i hi
      have c1 : ¬ Covers i j := fun h => by have := h.2; omega
      simp [c1]

/-- The tree `v` stores the sums of the values `a 0, a 1, …`. -/
def Tree (v : List T) (n : Nat) (a : Nat → T) : Prop :=
  ∃ g, Rep v n g ∧ ∀ i, 0 < i → i < n → g i = ∑ j ∈ Finset.Ioc (i - loBit i) i, a (j - 1)

theorem add_spec (n : Nat) (hn : n ≤ 2 ^ 63) (v : List T) (a : Nat → T) (hv : Tree v n a) (p : Nat) (val : T) :
    ∃ v', add (fun x y => x + y) v p val = some v' ∧
      Tree v' n (Function.update a p (a p + val)) := by
  classical
  obtain ⟨g, hr, hg⟩ := hv
  obtain ⟨v', e, r⟩ := addLoop_spec val (v.length + 1) n hn v g hr (p + 1) (by omega) (by rw [hr.len]; omega) (by omega)
  refine ⟨v', e, _, r, ?_⟩
  intro i h0 hi
  rw [hg i h0 hi]
  by_cases hc : Covers i (p + 1)
  · rw [if_pos hc]
    have hm : p + 1 ∈ Finset.Ioc (i - loBit i) i := by rw [Finset.mem_Ioc]; exact hc
    rw [← Finset.add_sum_erase _ _ hm, ← Finset.add_sum_erase _ _ hm]
    have : ∑ j ∈ (Finset.Ioc (i - loBit i) i).erase (p + 1), Function.update a p (a p + val) (j - 1) =
        ∑ j ∈ (Finset.Ioc (i - loBit i) i).erase (p + 1), a (j - 1) := by
      apply Finset.sum_congr rfl
      intro j hj
      rw [Finset.mem_erase, Finset.mem_Ioc] at hj
      rw [Function.update_of_ne (by omega)]
    rw [this]
    simp only [Nat.add_sub_cancel, Function.update_self]
    abel
  · rw [if_neg hc]
    apply Finset.sum_congr rfl
    intro j hj
    rw [Finset.mem_Ioc] at hj
    rw [Function.update_of_ne]
    rintro rfl
    apply hc
    constructor <;> omega

theorem sumLoop_spec (v : List T) (n : Nat) (hn : n ≤ 2 ^ 64) (a : Nat → T) (hv : Tree v n a) (fuel : Nat) (r : T)
    (i : Nat) (hi : i < n) (hf : i < fuel) :
    sumLoop (fun x y => x + y) v fuel r i = some (r + ∑ j ∈ Finset.Ioc 0 i, a (j - 1)) := by
  obtain ⟨g, hr, hg⟩ := hv
  induction fuel generalizing r i with
  | zero => omega
  | succ fuel ih =>
    rw [sumLoop]
    by_cases h0 : i > 0
    · obtain ⟨l1, l2⟩ := loBit_pos_le i h0 (by omega)
      rw [if_pos h0, hr.rd hi]
      simp only [Option.bind_eq_bind, Option.bind_some]
      rw [ih _ _ (by omega) (by omega), hg i h0 hi, add_assoc]
      congr 2
      rw [add_comm, Finset.sum_Ioc_consecutive _ (by omega) (by omega)]
    · have : i = 0 := by omega
      subst this
      rw [if_neg h0]; simp

theorem getSum_spec (v : List T) (n : Nat) (hn : n ≤ 2 ^ 64) (a : Nat → T) (hv : Tree v n a) (i : Nat) (hi : i + 1 < n) :
    getSum (fun x y => x + y) v i 0 = some (∑ j ∈ Finset.range (i + 1), a j) := by
  rw [getSum, sumLoop_spec v n hn a hv _ 0 _ hi (by omega), zero_add]
  congr 1
  rw [Finset.range_eq_Ico, Finset.sum_Ico_eq_sum_range]
  have : Finset.Ioc 0 (i + 1) = Finset.Ico 1 (i + 2) := by ext; simp; omega
  rw [this, Finset.sum_Ico_eq_sum_range]
  apply Finset.sum_congr (by simp)
  intro k _
  congr 1; omega

theorem mk_tree (sz : Nat) : Tree (mk sz (0 : T)) (sz + 1) (fun _ => 0) :=
  ⟨_, Rep.replicate _ _, fun i _ _ => by simp⟩

end

/-! ### Histories -/

/-- Specification: the values added at indices `≤ i` since the last `reset`, in order. -/
def valuesUpTo {T : Type*} (i : Nat) (acc : List T) : List (Op T) → List T
  | [] => acc
  | .add j x :: h => valuesUpTo i (if j ≤ i then acc ++ [x] else acc) h
  | .reset :: h => valuesUpTo i [] h

theorem run_spec {T : Type*} [AddCommMonoid T] (n : Nat) (hn : n ≤ 2 ^ 63) (h : List (Op T)) (v : List T)
    (a : Nat → T) (hv : Tree v n a) (acc : Nat → List T)
    (hacc : ∀ i, (acc i).sum = ∑ j ∈ Finset.range (i + 1), a j) :
    ∃ v' a', run (fun x y => x + y) 0 v h = some v' ∧ Tree v' n a' ∧
      ∀ i, (valuesUpTo i (acc i) h).sum = ∑ j ∈ Finset.range (i + 1), a' j := by
  induction h generalizing v a acc with
  | nil => exact ⟨v, a, rfl, hv, hacc⟩
  | cons op h ih =>
    cases op with
    | add p x =>
      obtain ⟨v1, e1, t1⟩ := add_spec n hn v a hv p x
      obtain ⟨v2, a2, e2, t2, s2⟩ := ih v1 _ t1 (fun i => if p ≤ i then acc i ++ [x] else acc i) (by
        intro i
        by_cases hp : p ≤ i
        · rw [if_pos hp, List.sum_append, hacc]
          have hm : p ∈ Finset.range (i + 1) := by simp; omega
          rw [← Finset.add_sum_erase _ _ hm, ← Finset.add_sum_erase _ _ hm]
          have : ∑ j ∈ (Finset.range (i + 1)).erase p, Function.update a p (a p + x) j =
              ∑ j ∈ (Finset.range (i + 1)).erase p, a j := by
            apply Finset.sum_congr rfl
            intro j hj
            rw [Finset.mem_erase] at hj
            rw [Function.update_of_ne hj.1]
          rw [this]
          simp only [Function.update_self, List.sum_singleton]
          abel
        · rw [if_neg hp, hacc]
          apply Finset.sum_congr rfl
          intro j hj
          rw [Finset.mem_range] at hj
          rw [Function.update_of_ne (by omega)])
      exact ⟨v2, a2, by simp only [run, step, e1, Option.bind_some, e2], t2, s2⟩
    | reset =>
      have hl : v.length = n := by obtain ⟨g, r, -⟩ := hv; exact r.len
      have t1 : Tree (reset v (0 : T)) n (fun _ => 0) :=
        ⟨_, by rw [reset, hl]; exact Rep.replicate _ _, fun i _ _ => by simp⟩
      obtain ⟨v2, a2, e2, t2, s2⟩ := ih _ _ t1 (fun i => []) (by simp)
      exact ⟨v2, a2, by simp only [run, step, Option.bind_some, e2], t2, s2⟩

/-- C18: for every associative commutative operation `f` with neutral element `id`, every
size and every history of `add` (at any index) and `reset` calls, `get_sum(i)` at every
index `i < sz` is the combination of all values added at indices `≤ i` since the last
reset; no access is out of bounds and all loops terminate. -/
theorem C18_fenwick {T : Type*} (f : T → T → T) (id : T)
    (assoc : ∀ x y z, f (f x y) z = f x (f y z)) (comm : ∀ x y, f x y = f y x) (hid : ∀ x, f id x = x)
    (sz : Nat) (hsz : sz < 2 ^ 63) (h : List (Op T)) :
    ∃ v, run f id (mk sz id) h = some v ∧
      ∀ i, i < sz → getSum f v i id = some ((valuesUpTo i [] h).foldr f id) := by
  let _ : Add T := ⟨f⟩
  let _ : Zero T := ⟨id⟩
  let _ : AddCommMonoid T :=
    { add := f, zero := id, add_assoc := assoc, add_comm := comm, zero_add := hid,
      add_zero := fun x => by change f x id = x; rw [comm]; exact hid x,
      nsmul := nsmulRec }
  obtain ⟨v, a, e, t, s⟩ := run_spec (sz + 1) (by omega) h (mk sz id) _ (mk_tree sz) (fun _ => []) (by simp)
  refine ⟨v, e, fun i hi => ?_⟩
  have := getSum_spec v (sz + 1) (by omega) a t i (by omega)
  rw [← s i] at this
  exact this

example : (run (· + ·) 0 (mk 5 0) [.add 1 10, .add 4 7, .reset, .add 0 3, .add 2 5, .add 7 100]).bind
    (fun v => getSum (· + ·) v 3 0) = some 8 := by decide +kernel

end Altruct.Fenwick
