/-
C116: the sums of `k^L` times the generalised totient.
-/
import Verif.SumPhi.Props
import Verif.Sums.PowProps
import Verif.Polynom.DivProps

namespace Altruct.SumPhi

open Altruct.Maps
open Altruct.Dirichlet (Right Extends prefixSum prefixSum_zero prefixSum_succ conv hyperbola)
open Altruct.Polynom (Quo cdiv poly C37_times C37_eval C38_div_scalar)
open Polynomial (X C)

variable {α : Type} [Field α] [DecidableEq α]

theorem poly_two (a b : α) : poly [a, b] = C a + C b * X := by
  ext i
  rw [Polynom.poly_coeff, Polynomial.coeff_add, Polynomial.coeff_C, Polynomial.coeff_C_mul_X]
  match i with
  | 0 => simp [Polynom.at']
  | 1 => simp [Polynom.at']
  | i + 2 => simp [Polynom.at']

theorem poly_one (a : α) : poly [a] = C a := by
  ext i
  rw [Polynom.poly_coeff, Polynomial.coeff_C]
  match i with
  | 0 => simp [Polynom.at']
  | i + 1 => simp [Polynom.at']

theorem powPoly_spec (thr : Nat) : ∀ (fuel : Nat) (r x : List α) (y : Nat), y ≤ fuel →
    ∃ p, powPoly thr fuel r x y = some p ∧ poly p = poly r * poly x ^ y := by
  intro fuel
  induction fuel with
  | zero =>
    intro r x y hy
    have : y = 0 := by omega
    subst this
    exact ⟨r, by rw [powPoly]; simp, by rw [pow_zero, mul_one]⟩
  | succ fuel ih =>
    intro r x y hy
    rw [powPoly.eq_def]
    by_cases h0 : 0 < y
    · obtain ⟨x2, ex, hx⟩ := C37_times thr x none none
      simp only [Option.getD_none] at hx
      have hstep : ∃ r2, (if y % 2 ≠ 0 then Polynom.mul thr r none (some x) none else some r) = some r2 ∧ poly r2 * poly x ^ (2 * (y / 2)) = poly r * poly x ^ y := by
        by_cases hy2 : y % 2 ≠ 0
        · obtain ⟨r2, er, hr⟩ := C37_times thr r none (some x)
          simp only [Option.getD_none, Option.getD_some] at hr
          refine ⟨r2, by rw [if_pos hy2, er], ?_⟩
          rw [hr, mul_assoc, ← pow_succ', show 2 * (y / 2) + 1 = y by omega]
        · exact ⟨r, by rw [if_neg hy2], by rw [show 2 * (y / 2) = y by omega]⟩
      obtain ⟨r2, er, hr⟩ := hstep
      obtain ⟨p, ep, hp⟩ := ih r2 x2 (y / 2) (by omega)
      refine ⟨p, ?_, ?_⟩
      · simp only [if_pos h0]
        rw [er, Option.bind_some, ex, Option.bind_some, ep]
      · rw [hp, hx, ← hr, ← pow_two, ← pow_mul]
    · have : y = 0 := by omega
      subst this
      exact ⟨r, by simp, by rw [pow_zero, mul_one]⟩

theorem multichoose_step (n i : Nat) : Nat.multichoose n (i + 1) * (i + 1) = Nat.multichoose n i * (n + i) := by
  rw [Nat.multichoose_eq, Nat.multichoose_eq]
  by_cases h : n + i = 0
  · have h1 : n = 0 := by omega
    have h2 : i = 0 := by omega
    subst h1 h2
    simp
  · obtain ⟨m, hm⟩ : ∃ m, n + i = m + 1 := ⟨n + i - 1, by omega⟩
    rw [show n + (i + 1) - 1 = m + 1 by omega, show n + i - 1 = m by omega, hm, mul_comm (m.choose i)]
    exact (Nat.add_one_mul_choose_eq m i).symm

theorem gPhi_spec (thr : Nat) : ∀ (c i : Nat) (g : List α), (∀ j, j < i + c → ((j + 1 : Nat) : α) ≠ 0) →
    (∀ n : Nat, (poly g).eval (n : α) = ((Nat.multichoose n i : Nat) : α)) → (poly g).natDegree ≤ i →
    ∃ g', gPhi thr c i g = some g' ∧ (∀ n : Nat, (poly g').eval (n : α) = ((Nat.multichoose n (i + c) : Nat) : α)) ∧ (poly g').natDegree ≤ i + c := by
  intro c
  induction c with
  | zero => intro i g _ h1 h2; exact ⟨g, rfl, h1, h2⟩
  | succ c ih =>
    intro i g hinv h1 h2
    have hne : ((i + 1 : Nat) : α) ≠ 0 := hinv i (by omega)
    obtain ⟨q, eq, hq⟩ := C38_div_scalar [((i : Nat) : α), 1] none ((i + 1 : Nat) : α) hne
    rw [Option.getD_none, poly_two] at hq
    obtain ⟨g2, eg, hg⟩ := C37_times thr g none (some q)
    simp only [Option.getD_none, Option.getD_some] at hg
    have hdq : (poly q).natDegree ≤ 1 := by
      rw [← Polynomial.natDegree_C_mul hne, hq]
      refine (Polynomial.natDegree_add_le _ _).trans ?_
      rw [Polynomial.natDegree_C]
      exact max_le (by omega) (Polynomial.natDegree_C_mul_le 1 X |>.trans Polynomial.natDegree_X_le)
    obtain ⟨g', e, k1, k2⟩ := ih (i + 1) g2 (fun j hj => hinv j (by omega)) (fun n => by
      have hev := congrArg (Polynomial.eval (n : α)) hq
      simp only [Polynomial.eval_mul, Polynomial.eval_C, Polynomial.eval_add, Polynomial.eval_X, one_mul] at hev
      rw [hg, Polynomial.eval_mul, h1]
      apply mul_right_cancel₀ hne
      rw [mul_assoc, mul_comm _ (((i + 1 : Nat)) : α), hev, ← Nat.cast_mul, multichoose_step]
      push_cast
      ring) (by
      rw [hg]
      exact Polynomial.natDegree_mul_le.trans (by omega))
    refine ⟨g', ?_, ?_, by omega⟩
    · rw [gPhi, eq, Option.bind_some, eg, Option.bind_some, e]
    · intro n
      rw [k1, show i + 1 + c = i + (c + 1) by omega]

theorem values_spec (U : Nat) (hU : 1 ≤ U) (sq : Nat → Nat) (t s M : Nat → α) (hM0 : M 0 = 0) (h10 : s 1 - s 0 = 1) (fuel : Nat) :
    ∀ (vn : List Nat) (N : Nat) (mm : SqrtMap α) (m : Nat → Option α), (∀ n ∈ vn, n ≤ fuel) →
    (∀ n ∈ vn, ∀ k, 1 ≤ k → k ≤ n → 1 ≤ sq k ∧ sq k * sq k ≤ k) →
    (∀ n, ∑ k ∈ Finset.Icc (1 : Nat) n, (s k - s (k - 1)) * M (n / k) = t n) → Inv mm U N m → Right M m →
    values sq t s fuel vn mm = some (vn.map M) := by
  intro vn
  induction vn with
  | nil => intro _ _ _ _ _ _ _ _; rfl
  | cons k vn ih =>
    intro N mm m hf hsq hM hI hR
    obtain ⟨s1, e1, i1⟩ := hI.resetMax 0 hU k
    obtain ⟨s2, m2, e2, i2, hR2, _⟩ := sumMS_spec k U hU sq (fun n => some (t n)) t s M (hsq k (List.mem_cons_self ..)) (fun _ _ _ => rfl) (fun n _ _ => hM n)
      (by rw [h10]; exact one_ne_zero) (fun a => by rw [h10, one_mul]; exact div_one a) fuel k s1 _ (hf k (List.mem_cons_self ..)) ⟨1, le_refl 1, (Nat.div_one k).symm⟩ i1
      (fun j v hj => by
        by_cases hjU : j ≤ U
        · rw [if_pos hjU] at hj
          exact hR j v hj
        · rw [if_neg hjU] at hj
          exact absurd hj (by simp))
    have e3 := ih k s2 m2 (fun n hn => hf n (List.mem_cons_of_mem _ hn)) (fun n hn => hsq n (List.mem_cons_of_mem _ hn)) hM i2 hR2
    have hk : (if k = 0 then 0 else M k) = M k := by
      by_cases h : k = 0
      · rw [if_pos h, h, hM0]
      · rw [if_neg h]
    rw [values, e1, Option.bind_some, e2, Option.bind_some, e3, Option.bind_some, hk]
    rfl

/-- **C116**: `sum_g_L(g, L, vn, U)` is the list of the sums of `k^L F(k)` up to the elements of `vn`, where `F` is the function whose sums over
divisors are the values of the polynomial `g`. -/
theorem C116_sum_g_L (lim thr : Nat) (sq cb : Nat → Nat) (fuel : Nat) (g : List α) (L : Nat) (vn : List Nat) (U : Int) (F : Nat → α) (N B : Nat)
    (hF : ∀ k : Nat, 1 ≤ k → ∑ d ∈ k.divisors, F d = Polynom.eval g (k : α))
    (hinv : ∀ i, i < L + (poly g).natDegree + 1 → ((i + 1 : Nat) : α) ≠ 0)
    (hN : N ∈ vn ∧ ∀ n ∈ vn, n ≤ N) (hf : N ≤ fuel ∧ L ≤ fuel) (hsq : ∀ k, 1 ≤ k → k ≤ N → 1 ≤ sq k ∧ sq k * sq k ≤ k)
    (hB : B = if U ≤ 0 then cb N * cb N else U.toNat) (hB1 : 1 ≤ B) (hlim : 2 * B ≤ lim + 1) :
    sumGL lim thr sq cb fuel g L vn U = some (vn.map fun n : Nat => ∑ k ∈ Finset.Icc (1 : Nat) n, (k : α) ^ L * F k) := by
  obtain ⟨p, ep, hp⟩ := powPoly_spec thr fuel [1] [0, 1] L hf.2 (α := α)
  have hpX : poly p = X ^ L := by
    rw [hp, poly_one, poly_two]
    simp
  have hpe : ∀ n : Nat, Polynom.eval p (n : α) = (n : α) ^ L := fun n => by rw [C37_eval, hpX]; simp
  obtain ⟨s, es, _, _, hs⟩ := Sums.C71_polynom_sum p (fun i hi => hinv i (by rw [hpX, Polynomial.natDegree_X_pow] at hi; omega))
  obtain ⟨pg, epg, hpg⟩ := C37_times thr p none (some g)
  simp only [Option.getD_none, Option.getD_some] at hpg
  obtain ⟨t, et, _, _, ht⟩ := Sums.C71_polynom_sum pg (fun i hi => hinv i (by
    rw [hpg, hpX] at hi
    have h1 := Polynomial.natDegree_mul_le (p := (X : Polynomial α) ^ L) (q := poly g)
    rw [Polynomial.natDegree_X_pow] at h1
    omega))
  have hpge : ∀ n : Nat, Polynom.eval pg (n : α) = (n : α) ^ L * Polynom.eval g (n : α) := fun n => by
    rw [C37_eval, hpg, hpX, C37_eval]; simp
  have hmax : vn.max? = some N := List.max?_eq_some_iff.mpr hN
  obtain ⟨s0, e0, i0⟩ := Inv.init (0 : α) B N hB1
  obtain ⟨s1, G, e1, i1, hG, _⟩ := moebiusMap_spec lim B N s0 _ (fun n => Polynom.eval g (n : α)) hB1 i0 hlim (div_one (1 : α))
  have hGF : ∀ k, 1 ≤ k → k < B → G k = F k := divisors_unique (fun k h1 h2 => by rw [hG k h1 h2, hF k h1])
  obtain ⟨s2, e2, i2⟩ := inv_set i1 hB1 (Or.inl (Nat.zero_le B)) (0 : α)
  obtain ⟨s3, e3, i3⟩ := partialSums_spec B N s2 _ (fun n => Polynom.eval p (n : α)) G hB1 i2 (Function.update_self ..)
    (fun k h1 h2 => by rw [Function.update_of_ne (by omega), if_pos h2])
  have hsd : ∀ k : Nat, 1 ≤ k → Polynom.eval s (k : α) - Polynom.eval s ((k - 1 : Nat) : α) = (k : α) ^ L := fun k hk => by
    obtain ⟨j, rfl⟩ : ∃ j, k = j + 1 := ⟨k - 1, by omega⟩
    rw [hs, Nat.add_sub_cancel, hs, Finset.sum_Icc_succ_top (by omega), add_sub_cancel_left, hpe]
  have h10 : Polynom.eval s ((1 : Nat) : α) - Polynom.eval s ((0 : Nat) : α) = 1 := by
    have := hsd 1 (le_refl 1)
    rw [this]; simp
  have hv := values_spec B hB1 sq (fun n => Polynom.eval t (n : α)) (fun n => Polynom.eval s (n : α)) (prefixSum fun k : Nat => (k : α) ^ L * F k) (prefixSum_zero _) h10 fuel
    vn N s3 _ (fun n hn => (hN.2 n hn).trans hf.1) (fun n hn k h1 h2 => hsq k h1 (h2.trans (hN.2 n hn)))
    (fun n => by
      have h1 : ∑ k ∈ Finset.Icc (1 : Nat) n, (Polynom.eval s (k : α) - Polynom.eval s ((k - 1 : Nat) : α)) * prefixSum (fun k : Nat => (k : α) ^ L * F k) (n / k) =
          ∑ k ∈ Finset.Icc (1 : Nat) n, (k : α) ^ L * prefixSum (fun k : Nat => (k : α) ^ L * F k) (n / k) :=
        Finset.sum_congr rfl fun k hk => by rw [hsd k (Finset.mem_Icc.mp hk).1]
      rw [h1, hyperbola (fun k : Nat => (k : α) ^ L) (fun k : Nat => (k : α) ^ L * F k), ht]
      apply Finset.sum_congr rfl
      intro j hj
      rw [Finset.mem_Icc] at hj
      rw [hpge, ← hF j hj.1, conv, ← Nat.sum_div_divisors j F, Finset.mul_sum]
      apply Finset.sum_congr rfl
      intro d hd
      rw [← mul_assoc, ← mul_pow, ← Nat.cast_mul, Nat.mul_div_cancel' (Nat.dvd_of_mem_divisors hd)])
    i3
    (fun k v hk => by
      by_cases hkB : k < B
      · rw [if_pos hkB] at hk
        rw [← Option.some.inj hk]
        apply Finset.sum_congr rfl
        intro j hj
        rw [Finset.mem_Icc] at hj
        change Polynom.eval p (j : α) * G j = (j : α) ^ L * F j
        rw [hpe, hGF j hj.1 (by omega)]
      · rw [if_neg hkB, Function.update_of_ne (by omega), if_neg hkB] at hk
        exact absurd hk (by simp))
  rw [sumGL, ep, Option.bind_some, es, Option.bind_some, Polynom.times, epg, Option.bind_some, et, Option.bind_some, hmax, Option.bind_some]
  simp only [← hB]
  rw [e0, Option.bind_some, e1, Option.bind_some, e2, Option.bind_some, e3, Option.bind_some, hv]
  rfl

/-- **C116**: `sum_phi_D_L(D, L, vn, U)` is the list of the sums of `k^L` times the number of choices `a_1 ≤ ... ≤ a_D ≤ k` with
`gcd(a_1, ..., a_D, k) = 1`, over the `k` up to the elements of `vn`; in a field where `1, ..., L + D + 1` are not zero, for any sieving bound. -/
theorem C116_sum_phi_D_L (lim thr : Nat) (sq cb : Nat → Nat) (fuel D L : Nat) (vn : List Nat) (U : Int) (N B : Nat)
    (hinv : ∀ i, i < L + D + 1 → ((i + 1 : Nat) : α) ≠ 0)
    (hN : N ∈ vn ∧ ∀ n ∈ vn, n ≤ N) (hf : N ≤ fuel ∧ L ≤ fuel) (hsq : ∀ k, 1 ≤ k → k ≤ N → 1 ≤ sq k ∧ sq k * sq k ≤ k)
    (hB : B = if U ≤ 0 then cb N * cb N else U.toNat) (hB1 : 1 ≤ B) (hlim : 2 * B ≤ lim + 1) :
    sumPhiDL lim thr sq cb fuel D L vn U = some (vn.map fun n : Nat => ∑ k ∈ Finset.Icc (1 : Nat) n, (k : α) ^ L * ((eulerPhi D k : Nat) : α)) := by
  obtain ⟨g, eg, hg, hd⟩ := gPhi_spec thr D 0 [(1 : α)] (fun j hj => hinv j (by omega)) (fun n => by rw [poly_one]; simp) (by rw [poly_one]; simp)
  rw [Nat.zero_add] at hd
  rw [sumPhiDL, eg, Option.bind_some]
  exact C116_sum_g_L lim thr sq cb fuel g L vn U (fun k => ((eulerPhi D k : Nat) : α)) N B (fun k hk => by
    rw [C37_eval, hg, Nat.zero_add, ← sum_eulerPhi D k hk, Nat.cast_sum]) (fun i hi => hinv i (by omega)) hN hf hsq hB hB1 hlim

/-- **C116**: the same for one argument. -/
theorem C116_single (lim thr : Nat) (sq cb : Nat → Nat) (fuel D L n : Nat) (U : Int) (B : Nat)
    (hinv : ∀ i, i < L + D + 1 → ((i + 1 : Nat) : α) ≠ 0) (hf : n ≤ fuel ∧ L ≤ fuel) (hsq : ∀ k, 1 ≤ k → k ≤ n → 1 ≤ sq k ∧ sq k * sq k ≤ k)
    (hB : B = if U ≤ 0 then cb n * cb n else U.toNat) (hB1 : 1 ≤ B) (hlim : 2 * B ≤ lim + 1) :
    sumPhiDL1 lim thr sq cb fuel D L n U = some (∑ k ∈ Finset.Icc (1 : Nat) n, (k : α) ^ L * ((eulerPhi D k : Nat) : α)) := by
  rw [sumPhiDL1, C116_sum_phi_D_L lim thr sq cb fuel D L [n] U n B hinv ⟨List.mem_singleton.mpr rfl, fun k hk => by rw [List.mem_singleton.mp hk]⟩ hf hsq hB hB1 hlim]
  rfl

/-- **C116**: one number gives Euler's function, none the indicator of `1`. -/
theorem C116_dimension (n : Nat) (hn : 1 ≤ n) : eulerPhi 0 n = (if n = 1 then 1 else 0) ∧ eulerPhi 1 n = Nat.totient n := by
  have h0 : ∀ k, 1 ≤ k → k < n + 1 → ((eulerPhi 0 k : Nat) : Int) = if k = 1 then 1 else 0 :=
    divisors_unique (U := n + 1) (F := fun k => ((eulerPhi 0 k : Nat) : Int)) (G := fun k => if k = 1 then (1 : Int) else 0) (fun k h1 _ => by
      rw [← Nat.cast_sum, sum_eulerPhi 0 k h1, Nat.multichoose_zero_right, Finset.sum_ite_eq', if_pos (Nat.one_mem_divisors.mpr (by omega))]
      rfl)
  have h1 : ∀ k, 1 ≤ k → k < n + 1 → ((eulerPhi 1 k : Nat) : Int) = ((Nat.totient k : Nat) : Int) :=
    divisors_unique (U := n + 1) (F := fun k => ((eulerPhi 1 k : Nat) : Int)) (G := fun k => ((Nat.totient k : Nat) : Int)) (fun k h1 _ => by
      rw [← Nat.cast_sum, sum_eulerPhi 1 k h1, Nat.multichoose_one_right, ← Nat.cast_sum, Nat.sum_totient])
  refine ⟨?_, by exact_mod_cast h1 n hn (by omega)⟩
  have := h0 n hn (by omega)
  by_cases h : n = 1
  · rw [if_pos h] at this ⊢; exact_mod_cast this
  · rw [if_neg h] at this ⊢; exact_mod_cast this

/-- No argument at all: the largest element of an empty range is read. -/
theorem C116_empty (lim thr : Nat) (sq cb : Nat → Nat) (fuel : Nat) (g : List α) (L : Nat) (U : Int) : sumGL lim thr sq cb fuel g L [] U = none := by
  rw [sumGL]
  cases powPoly thr fuel [(1 : α)] [0, 1] L with
  | none => rfl
  | some p =>
    rw [Option.bind_some]
    cases Sums.polynomSum p with
    | none => rfl
    | some s =>
      rw [Option.bind_some]
      cases Polynom.times thr p g with
      | none => rfl
      | some pg =>
        rw [Option.bind_some]
        cases Sums.polynomSum pg with
        | none => rfl
        | some t => rfl

example : sumPhiDL (α := Rat) 100 8 Nat.sqrt cbrt 30 2 1 [10, 5, 10] 0 = some [∑ k ∈ Finset.Icc (1 : Nat) 10, (k : Rat) * (eulerPhi 2 k : Nat), 118, ∑ k ∈ Finset.Icc (1 : Nat) 10, (k : Rat) * (eulerPhi 2 k : Nat)] := by
  decide +kernel

/-- The hypotheses are met for rational numbers. -/
example : sumPhiDL (α := Rat) 100 8 Nat.sqrt cbrt 30 2 1 [10, 5, 10] 7 = some ([10, 5, 10].map fun n : Nat => ∑ k ∈ Finset.Icc (1 : Nat) n, (k : Rat) ^ 1 * ((eulerPhi 2 k : Nat) : Rat)) :=
  C116_sum_phi_D_L 100 8 Nat.sqrt cbrt 30 2 1 [10, 5, 10] 7 10 7 (fun i _ => Nat.cast_ne_zero.mpr (by omega)) (by decide) (by decide)
    (fun k h _ => ⟨Nat.sqrt_pos.mpr h, Nat.sqrt_le k⟩) (by decide) (by decide) (by decide)

end Altruct.SumPhi
