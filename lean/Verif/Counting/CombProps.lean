/-
C73: exponents of primes in factorials, binomials and multinomials; multinomial coefficients.
-/
import Verif.Counting.Model
import Verif.Sums.PowProps
import Mathlib.NumberTheory.Padics.PadicVal.Basic
import Mathlib.Data.Nat.Choose.Factorization
import Mathlib.Data.Nat.Multiplicity

namespace Altruct.Counting

open Altruct.Polynom (Quo cdiv)
open Altruct.Sums (Exact cdiv_exact exact_int exact_field)
open scoped Nat

/-! ### exponents of primes -/

theorem fpeLoop_spec (p : Nat) (hp : 2 ≤ p) : ∀ (fuel n e : Nat), n < fuel →
    fpeLoop p fuel n e = some (e + ∑ i ∈ Finset.Ico 1 (n + 1), n / p ^ i) := by
  intro fuel
  induction fuel with
  | zero => intro n e h; omega
  | succ fuel ih =>
    intro n e h
    rw [fpeLoop, if_neg (by omega)]
    by_cases h0 : 0 < n / p
    · have hlt : n / p < n := Nat.div_lt_self (by
        rcases Nat.eq_zero_or_pos n with rfl | h
        · simp at h0
        · exact h) (by omega)
      rw [if_pos h0, ih _ _ (by omega)]
      congr 1
      rw [add_assoc]
      congr 1
      rw [Finset.sum_eq_sum_Ico_succ_bot (by omega : 1 < n + 1), pow_one]
      congr 1
      have e1 : ∑ i ∈ Finset.Ico (1 + 1) (n + 1), n / p ^ i = ∑ i ∈ Finset.Ico 1 n, n / p / p ^ i := by
        rw [← Finset.sum_Ico_add' (fun i => n / p ^ i) 1 n 1]
        refine Finset.sum_congr rfl (fun i _ => ?_)
        rw [Nat.div_div_eq_div_mul, pow_succ']
      rw [e1]
      refine Finset.sum_subset (Finset.Ico_subset_Ico_right (by omega)) (fun i hi hni => ?_)
      rw [Finset.mem_Ico] at hi hni
      apply Nat.div_eq_of_lt
      calc n / p < i := by omega
        _ < p ^ i := Nat.lt_pow_self (by omega)
    · rw [if_neg h0]
      congr 1
      rw [Finset.sum_eq_zero, add_zero]
      intro i hi
      rw [Finset.mem_Ico] at hi
      have : n / p ^ i ≤ n / p := Nat.div_le_div_left (Nat.le_self_pow (by omega) p) (by omega)
      exact Nat.le_zero.mp (this.trans (Nat.le_of_not_lt h0))

/-- **C73**: `factorial_prime_exponent(n, p)` is the exponent of the prime `p` in `n!`. -/
theorem C73_factorial_prime_exponent (n p : Nat) (hp : p.Prime) :
    factorialPrimeExponent n p = some ((n !).factorization p) := by
  rw [factorialPrimeExponent, fpeLoop_spec p hp.two_le _ _ _ (by omega), zero_add]
  congr 1
  have := Fact.mk hp
  rw [Nat.factorization_def _ hp]
  refine (padicValNat_factorial (b := n + 1) ?_).symm
  calc Nat.log p n ≤ n := Nat.log_le_self p n
    _ < n + 1 := by omega

/-- For `p = 1` the loop does not end, for `p = 0` it divides by zero. -/
theorem C73_not_prime (n : Nat) (hn : 0 < n) : (∀ fuel e, fpeLoop 1 fuel n e = none) ∧ factorialPrimeExponent n 0 = none := by
  constructor
  · intro fuel
    induction fuel with
    | zero => intro e; rfl
    | succ fuel ih => intro e; rw [fpeLoop, if_neg (by decide), Nat.div_one, if_pos hn, ih]
  · rw [factorialPrimeExponent, fpeLoop, if_pos rfl]

example : factorialPrimeExponent 100 5 = some 24 := by decide +kernel

/-- **C73**: `binomial_prime_exponent(n, k, p)` is the exponent of `p` in the binomial coefficient. -/
theorem C73_binomial_prime_exponent (n k p : Nat) (hp : p.Prime) (hk : k ≤ n) :
    binomialPrimeExponent n k p = some (((n.choose k).factorization p : Nat) : Int) := by
  rw [binomialPrimeExponent, C73_factorial_prime_exponent _ _ hp, C73_factorial_prime_exponent _ _ hp,
    C73_factorial_prime_exponent _ _ hp]
  simp only [Option.bind_eq_bind, Option.bind_some]
  congr 1
  have h := congrArg (fun x => Nat.factorization x p) (Nat.choose_mul_factorial_mul_factorial hk)
  rw [Nat.factorization_mul (Nat.mul_ne_zero (Nat.choose_pos hk).ne' (Nat.factorial_ne_zero _)) (Nat.factorial_ne_zero _),
    Nat.factorization_mul (Nat.choose_pos hk).ne' (Nat.factorial_ne_zero _)] at h
  simp only [Finsupp.coe_add, Pi.add_apply] at h
  omega

example : binomialPrimeExponent 10 3 2 = some 3 := by decide +kernel

/-- The multinomial coefficient `(k1 + ... + kl)! / (k1! ... kl!)`. -/
def multi (ks : List Nat) : Nat := (ks.sum) ! / (ks.map Nat.factorial).prod

theorem prod_fac_dvd (ks : List Nat) : (ks.map Nat.factorial).prod ∣ (ks.sum) ! := by
  induction ks with
  | nil => simp
  | cons k ks ih =>
    rw [List.map_cons, List.prod_cons, List.sum_cons]
    exact (Nat.mul_dvd_mul_left _ ih).trans (Nat.factorial_mul_factorial_dvd_factorial_add _ _)

theorem prod_fac_pos (ks : List Nat) : 0 < (ks.map Nat.factorial).prod := by
  induction ks with
  | nil => simp
  | cons k ks ih => rw [List.map_cons, List.prod_cons]; exact Nat.mul_pos (Nat.factorial_pos _) ih

theorem multi_mul (ks : List Nat) : (ks.map Nat.factorial).prod * multi ks = (ks.sum) ! :=
  Nat.mul_div_cancel' (prod_fac_dvd ks)

theorem mpeLoop_spec (p : Nat) (hp : p.Prime) : ∀ (ks : List Nat) (e n : Nat),
    mpeLoop p ks e n = some (e + ((ks.map Nat.factorial).prod).factorization p, n + ks.sum) := by
  intro ks
  induction ks with
  | nil => intro e n; simp [mpeLoop]
  | cons k ks ih =>
    intro e n
    rw [mpeLoop, C73_factorial_prime_exponent _ _ hp, Option.bind_eq_bind, Option.bind_some, ih, List.map_cons,
      List.prod_cons, Nat.factorization_mul (Nat.factorial_ne_zero _) (prod_fac_pos ks).ne', List.sum_cons]
    simp only [Finsupp.coe_add, Pi.add_apply, add_assoc]

/-- **C73**: `multinomial_prime_exponent` is the exponent of `p` in the multinomial coefficient. -/
theorem C73_multinomial_prime_exponent (ks : List Nat) (p : Nat) (hp : p.Prime) :
    multinomialPrimeExponent ks p = some (((multi ks).factorization p : Nat) : Int) := by
  rw [multinomialPrimeExponent, mpeLoop_spec p hp]
  simp only [Option.bind_eq_bind, Option.bind_some, zero_add]
  rw [C73_factorial_prime_exponent _ _ hp, Option.bind_some]
  congr 1
  have h0 : multi ks ≠ 0 := by
    intro h
    have := multi_mul ks
    rw [h, mul_zero] at this
    exact (Nat.factorial_pos _).ne this
  rw [← multi_mul ks, Nat.factorization_mul (prod_fac_pos ks).ne' h0]
  simp only [Finsupp.coe_add, Pi.add_apply]
  push_cast
  ring

example : multinomialPrimeExponent [3, 2, 5] 2 = some 3 := by decide +kernel

/-! ### multinomials -/

section
variable {α : Type} [CommRing α] [DecidableEq α] [Quo α]

theorem asc_head (a c : Nat) : (a + 1).ascFactorial (c + 1) = (a + 1) * (a + 1 + 1).ascFactorial c := by
  rw [Nat.ascFactorial_succ, Nat.succ_ascFactorial]

theorem multInner_spec : ∀ (c a b : Nat) (num den : α),
    multInner c (a : α) num (b : α) den = (((a + c : Nat) : α), num * ((a + 1).ascFactorial c : Nat), ((b + c : Nat) : α),
      den * ((b + 1).ascFactorial c : Nat)) := by
  intro c
  induction c with
  | zero => intro a b num den; simp [multInner]
  | succ c ih =>
    intro a b num den
    have := ih (a + 1) (b + 1) (num * ((a : α) + 1)) (den * ((b : α) + 1))
    push_cast at this
    rw [multInner, this, asc_head, asc_head]
    push_cast
    refine Prod.ext (by simp; ring) (Prod.ext (by simp; ring) (Prod.ext (by simp; ring) (by simp; ring)))

theorem multLoop_spec : ∀ (ks : List Nat) (a b : Nat),
    multLoop ks (a : α) ((a ! : Nat) : α) (b : α) = ((((a + ks.sum) ! : Nat) : α), ((b * (ks.map Nat.factorial).prod : Nat) : α)) := by
  intro ks
  induction ks with
  | nil => intro a b; simp [multLoop]
  | cons k ks ih =>
    intro a b
    have h := multInner_spec k a 0 ((a ! : Nat) : α) (b : α)
    rw [Nat.cast_zero] at h
    rw [multLoop, h]
    simp only []
    have e1 : ((a ! : Nat) : α) * (((a + 1).ascFactorial k : Nat) : α) = (((a + k) ! : Nat) : α) := by
      rw [← Nat.cast_mul, Nat.factorial_mul_ascFactorial]
    have e2 : (b : α) * ((Nat.ascFactorial (0 + 1) k : Nat) : α) = ((b * k ! : Nat) : α) := by
      rw [zero_add, Nat.one_ascFactorial, Nat.cast_mul]
    rw [e1, e2, ih (a + k) (b * k !), List.map_cons, List.prod_cons, List.sum_cons, mul_assoc, add_assoc]

/-- **C73**: `multinomial(k1, ..., kl)` is the multinomial coefficient, in any ring where the product of the factorials can be
divided by. -/
theorem C73_multinomial (ks : List Nat) (h : Exact (((ks.map Nat.factorial).prod : Nat) : α)) :
    multinomial ks = some ((multi ks : Nat) : α) := by
  have hs := multLoop_spec (α := α) ks 0 1
  simp only [Nat.cast_zero, Nat.factorial_zero, Nat.cast_one, zero_add, one_mul] at hs
  rw [multinomial, hs]
  simp only []
  apply cdiv_exact h
  rw [← Nat.cast_mul, multi_mul]

/-- **C73**: in particular for integers. -/
theorem C73_multinomial_int (ks : List Nat) : multinomial ks = some ((multi ks : Nat) : Int) :=
  C73_multinomial ks (exact_int _ (by have := (prod_fac_pos ks).ne'; exact_mod_cast this))

example : multinomial [3, 2, 5] = some (2520 : Int) := by decide +kernel

/-- The number of distinct arrangements of the elements of a list: `n! / ∏ (multiplicity)!`. -/
def arrangements {β : Type} [DecidableEq β] (l : List β) : Nat :=
  l.length ! / ∏ x ∈ l.toFinset, (l.count x) !

/-- Equal elements stand next to each other. -/
def Grouped {β : Type} (l : List β) : Prop := ∀ a x y b, l = a ++ x :: y :: b → y ≠ x → y ∉ a

theorem grouped_of_sorted {β : Type} [LinearOrder β] (l : List β) (h : l.Pairwise (· ≤ ·)) : Grouped l := by
  rintro a x y b rfl hne hm
  rw [List.pairwise_append] at h
  have h1 := h.2.2 y hm x (by simp)
  have h2 := (List.pairwise_cons.mp h.2.1).1 y (by simp)
  exact hne (le_antisymm h1 h2)

theorem prod_count_snoc {β : Type} [DecidableEq β] (l : List β) (x : β) :
    ∏ y ∈ (l ++ [x]).toFinset, ((l ++ [x]).count y) ! = (l.count x + 1) * ∏ y ∈ l.toFinset, (l.count y) ! := by
  have hc : ∀ y, (l ++ [x]).count y = l.count y + if x = y then 1 else 0 := by
    intro y; rw [List.count_append, List.count_singleton]; simp
  by_cases hx : x ∈ l
  · have e1 : (l ++ [x]).toFinset = l.toFinset := by
      ext y; simp only [List.mem_toFinset, List.mem_append, List.mem_singleton]
      exact ⟨fun h => h.elim id (fun h => h ▸ hx), Or.inl⟩
    rw [e1, ← Finset.mul_prod_erase _ _ (List.mem_toFinset.mpr hx), ← Finset.mul_prod_erase (l.toFinset) _ (List.mem_toFinset.mpr hx),
      hc, if_pos rfl, Nat.factorial_succ, mul_assoc]
    congr 2
    refine Finset.prod_congr rfl (fun y hy => ?_)
    rw [hc, if_neg (Ne.symm (Finset.ne_of_mem_erase hy)), add_zero]
  · have e1 : (l ++ [x]).toFinset = insert x l.toFinset := by
      ext y; simp only [List.mem_toFinset, List.mem_append, List.mem_singleton, Finset.mem_insert]; tauto
    have hx' : x ∉ l.toFinset := fun h => hx (List.mem_toFinset.mp h)
    rw [e1, Finset.prod_insert hx', hc, if_pos rfl, List.count_eq_zero_of_not_mem hx]
    simp only [zero_add, Nat.factorial_one]
    congr 1
    refine Finset.prod_congr rfl (fun y hy => ?_)
    rw [hc, if_neg (fun h : x = y => hx' (h ▸ hy)), add_zero]

theorem elemLoop_spec {β : Type} [DecidableEq β] : ∀ (l : List β) (pre : List β) (prev : β), Grouped (pre ++ prev :: l) →
    elemLoop prev l ((pre.length + 1 : Nat) : α) (((pre ++ [prev]).count prev : Nat) : α) (((pre.length + 1) ! : Nat) : α)
      ((∏ y ∈ (pre ++ [prev]).toFinset, ((pre ++ [prev]).count y) ! : Nat) : α) =
    ((((pre ++ prev :: l).length ! : Nat) : α), ((∏ y ∈ (pre ++ prev :: l).toFinset, ((pre ++ prev :: l).count y) ! : Nat) : α)) := by
  intro l
  induction l with
  | nil => intro pre prev _; simp [elemLoop]
  | cons x l ih =>
    intro pre prev h
    have h' : Grouped ((pre ++ [prev]) ++ x :: l) := by simpa using h
    have := ih (pre ++ [prev]) x h'
    have e0 : pre ++ [prev] ++ x :: l = pre ++ prev :: x :: l := by simp
    rw [e0] at this
    rw [← this, elemLoop]
    have e1 : (pre ++ [prev]).length = pre.length + 1 := by simp
    have e2 : (if prev = x then (((pre ++ [prev]).count prev : Nat) : α) + 1 else 1) =
        (((pre ++ [prev]).count x + 1 : Nat) : α) := by
      by_cases hx : prev = x
      · rw [if_pos hx, hx]; push_cast; rfl
      · rw [if_neg hx]
        have : x ∉ pre ++ [prev] := by
          rw [List.mem_append, List.mem_singleton, not_or]
          exact ⟨h pre prev x l rfl (Ne.symm hx), Ne.symm hx⟩
        rw [List.count_eq_zero_of_not_mem this]; simp
    have e3 : (pre ++ [prev] ++ [x]).count x = (pre ++ [prev]).count x + 1 := by
      rw [List.count_append, List.count_singleton_self]
    rw [e2, prod_count_snoc (pre ++ [prev]) x, e1, e3, Nat.factorial_succ (pre.length + 1)]
    push_cast
    congr 1 <;> ring

theorem prod_count_dvd {β : Type} [DecidableEq β] (l : List β) : (∏ x ∈ l.toFinset, (l.count x) !) ∣ l.length ! := by
  have := Nat.prod_factorial_dvd_factorial_sum l.toFinset (fun x => l.count x)
  rwa [List.sum_toFinset_count_eq_length] at this

/-- **C73**: `elements_multinomial` of a list where equal elements are adjacent is the number `n! / ∏ (multiplicity)!` of its
distinct arrangements. -/
theorem C73_elements_multinomial {β : Type} [DecidableEq β] (l : List β) (hg : Grouped l)
    (h : Exact ((∏ x ∈ l.toFinset, (l.count x) ! : Nat) : α)) : elementsMultinomial l = some ((arrangements l : Nat) : α) := by
  cases l with
  | nil => simp [elementsMultinomial, arrangements]
  | cons x l =>
    have := elemLoop_spec (α := α) l [] x hg
    simp only [List.length_nil, zero_add, List.nil_append, List.count_singleton_self, Nat.factorial_one, Nat.cast_one,
      List.toFinset_cons, List.toFinset_nil, insert_empty_eq, Finset.prod_singleton] at this
    rw [elementsMultinomial, this]
    simp only []
    have e0 : (insert x l.toFinset) = (x :: l).toFinset := List.toFinset_cons.symm
    rw [e0]
    apply cdiv_exact h
    rw [← Nat.cast_mul, arrangements, Nat.mul_div_cancel' (prod_count_dvd _)]

/-- **C73**: for a sorted list and integers nothing else is needed. -/
theorem C73_elements_multinomial_int {β : Type} [LinearOrder β] (l : List β) (hs : l.Pairwise (· ≤ ·)) :
    elementsMultinomial l = some ((arrangements l : Nat) : Int) :=
  C73_elements_multinomial l (grouped_of_sorted l hs) (exact_int _ (by
    have := Finset.prod_ne_zero_iff.mpr (fun x (_ : x ∈ l.toFinset) => Nat.factorial_ne_zero (l.count x))
    exact_mod_cast this))

example : elementsMultinomial [1, 1, 2, 2, 2, 5] = some (60 : Int) := by decide +kernel
example : arrangements [1, 1, 2, 2, 2, 5] = 60 := by decide +kernel

/-- **C73** (negative): unsorted elements give a wrong value. -/
theorem C73_elements_unsorted : elementsMultinomial [1, 2, 1] = some (6 : Int) ∧ arrangements [1, 2, 1] = 3 := by decide +kernel

end

end Altruct.Counting
