/-
C115: the sums of the totient.
-/
import Verif.SumPhi.SumM
import Verif.SumPhi.Spec
import Verif.Dirichlet.Props

namespace Altruct.SumPhi

open Altruct.Maps
open Altruct.Dirichlet (Right Extends prefixSum prefixSum_zero prefixSum_succ conv hyperbola)
open Altruct.Polynom (Quo cdiv)

variable {α : Type} [CommRing α] [DecidableEq α] [Quo α]

theorem moebiusMap_spec [Nontrivial α] (lim U N : Nat) (mm : SqrtMap α) (m : Nat → Option α) (f : Nat → α) (hU : 1 ≤ U) (hI : Inv mm U N m)
    (hlim : 2 * U ≤ lim + 1) (hquo : Quo.quo 1 (1 : α) = 1) :
    ∃ (mm' : SqrtMap α) (G : Nat → α), moebiusMap lim mm f U = some mm' ∧ Inv mm' U N (fun k => if k < U then some (G k) else m k) ∧
      (∀ k, 1 ≤ k → k < U → ∑ d ∈ k.divisors, G d = f k) ∧ ∀ v, m 0 = some v → G 0 = v := by
  obtain ⟨hlo, hmx, cl, tl, ch, th, r1, r2, r3, r4, h1, h2⟩ := hI
  obtain ⟨h', G, e, r', hG, hk⟩ := Dirichlet.C52_moebius_transform lim U (U + 1) mm.tblLo tl f r2 hU (by omega) hlim hquo
  refine ⟨{ mm with tblLo := h', cntLo := List.replicate U 1 ++ mm.cntLo.drop U }, G, by rw [moebiusMap, e, Option.bind_some], ⟨hlo, hmx, fun k => if k < U then 1 else cl k, G, ch, th, ⟨?_, fun i hi => ?_⟩, r', r3, r4,
    fun k hkU => ?_, fun k hkU hkey => ?_⟩, hG, fun v hv => ?_⟩
  · have := r1.len
    simp only [List.length_append, List.length_replicate, List.length_drop]
    omega
  · by_cases hiU : i < U
    · rw [List.getElem?_append_left (by simpa using hiU), List.getElem?_replicate, if_pos hiU, if_pos hiU]
    · rw [List.getElem?_append_right (by simp; omega), List.length_replicate, List.getElem?_drop, if_neg hiU, show U + (i - U) = i by omega, r1.get i hi]
  · by_cases hkl : k < U
    · simp only [if_pos hkl]
      exact ⟨rfl, fun v hv => Option.some.inj hv⟩
    · simp only [if_neg hkl]
      rw [hk k (Or.inr (by omega))]
      exact h1 k hkU
  · simp only [if_neg (show ¬ k < U by omega)]
    exact h2 k hkU hkey
  · rw [hk 0 (Or.inl rfl)]
    exact (h1 0 (by omega)).2 v hv

omit [DecidableEq α] [Quo α] in
theorem partialSums_spec (U N : Nat) (mm : SqrtMap α) (m : Nat → Option α) (p G : Nat → α) (hU : 1 ≤ U) (hI : Inv mm U N m) (h0 : m 0 = some 0)
    (hG : ∀ k, 1 ≤ k → k < U → m k = some (G k)) :
    ∃ mm', partialSums p U mm = some mm' ∧ Inv mm' U N (fun k => if k < U then some (prefixSum (fun k => p k * G k) k) else m k) := by
  obtain ⟨mm', e, hI'⟩ := forUp_spec (body := fun k (mm : SqrtMap α) => (mm.el (k - 1)).bind fun a => (mm.el k).bind fun b => mm.set k (a + p k * b))
    (fun j mm => Inv mm U N (fun k => if k < j then some (prefixSum (fun k => p k * G k) k) else m k))
    (a := 1) (n := U) (s := mm) hU
    (by
      have : (fun k => if k < 1 then some (prefixSum (fun k => p k * G k) k) else m k) = m := by
        funext k
        by_cases hk : k < 1
        · rw [if_pos hk, show k = 0 by omega, prefixSum_zero, h0]
        · rw [if_neg hk]
      rw [this]
      exact hI)
    (fun j mm hj hjU hI => by
      have e1 := inv_el hI hU (Or.inl (show j - 1 ≤ U by omega)) (v := prefixSum (fun k => p k * G k) (j - 1)) (if_pos (show j - 1 < j by omega))
      have e2 := inv_el hI hU (Or.inl (show j ≤ U by omega)) (v := G j) ((if_neg (show ¬ j < j by omega)).trans (hG j hj hjU))
      obtain ⟨s', e3, h3⟩ := inv_set hI hU (Or.inl (show j ≤ U by omega)) (prefixSum (fun k => p k * G k) (j - 1) + p j * G j)
      refine ⟨s', by rw [e1, Option.bind_some, e2, Option.bind_some, e3], ?_⟩
      have : (fun k => if k < j + 1 then some (prefixSum (fun k => p k * G k) k) else m k) =
          Function.update (fun k => if k < j then some (prefixSum (fun k => p k * G k) k) else m k) j (some (prefixSum (fun k => p k * G k) (j - 1) + p j * G j)) := by
        funext k
        by_cases hk : k = j
        · subst hk
          rw [Function.update_self, if_pos (by omega)]
          obtain ⟨i, rfl⟩ : ∃ i, k = i + 1 := ⟨k - 1, by omega⟩
          rw [prefixSum_succ, Nat.add_sub_cancel]
        · rw [Function.update_of_ne hk]
          by_cases hkj : k < j
          · rw [if_pos hkj, if_pos (by omega)]
          · rw [if_neg hkj, if_neg (by omega)]
      rw [this]
      exact h3)
  exact ⟨mm', e, hI'⟩

omit [DecidableEq α] [Quo α] in
theorem fillTable_spec (U N : Nat) (mm : SqrtMap α) (m : Nat → Option α) (phi : List Int) (F : Nat → Int) (hU : 1 ≤ U) (hI : Inv mm U N m) (h0 : m 0 = some 0)
    (hF : ∀ k, 1 ≤ k → k < U → phi[k]? = some (F k)) :
    ∃ mm', fillTable phi U mm = some mm' ∧ Inv mm' U N (fun k => if k < U then some (prefixSum (fun k => ((F k : Int) : α)) k) else m k) := by
  obtain ⟨mm', e, hI'⟩ := forUp_spec (body := fun k (mm : SqrtMap α) => (mm.el (k - 1)).bind fun a => (rd phi k).bind fun x => mm.set k (a + (x : α)))
    (fun j mm => Inv mm U N (fun k => if k < j then some (prefixSum (fun k => ((F k : Int) : α)) k) else m k))
    (a := 1) (n := U) (s := mm) hU
    (by
      have : (fun k => if k < 1 then some (prefixSum (fun k => ((F k : Int) : α)) k) else m k) = m := by
        funext k
        by_cases hk : k < 1
        · rw [if_pos hk, show k = 0 by omega, prefixSum_zero, h0]
        · rw [if_neg hk]
      rw [this]
      exact hI)
    (fun j mm hj hjU hI => by
      have e1 := inv_el hI hU (Or.inl (show j - 1 ≤ U by omega)) (v := prefixSum (fun k => ((F k : Int) : α)) (j - 1)) (if_pos (show j - 1 < j by omega))
      obtain ⟨s', e3, h3⟩ := inv_set hI hU (Or.inl (show j ≤ U by omega)) (prefixSum (fun k => ((F k : Int) : α)) (j - 1) + ((F j : Int) : α))
      refine ⟨s', by rw [e1, Option.bind_some, rd, hF j hj hjU, Option.bind_some, e3], ?_⟩
      have : (fun k => if k < j + 1 then some (prefixSum (fun k => ((F k : Int) : α)) k) else m k) =
          Function.update (fun k => if k < j then some (prefixSum (fun k => ((F k : Int) : α)) k) else m k) j (some (prefixSum (fun k => ((F k : Int) : α)) (j - 1) + ((F j : Int) : α))) := by
        funext k
        by_cases hk : k = j
        · subst hk
          rw [Function.update_self, if_pos (by omega)]
          obtain ⟨i, rfl⟩ : ∃ i, k = i + 1 := ⟨k - 1, by omega⟩
          rw [prefixSum_succ, Nat.add_sub_cancel]
        · rw [Function.update_of_ne hk]
          by_cases hkj : k < j
          · rw [if_pos hkj, if_pos (by omega)]
          · rw [if_neg hkj, if_neg (by omega)]
      rw [this]
      exact h3)
  exact ⟨mm', e, hI'⟩

omit [DecidableEq α] [Quo α] in
theorem totient_conv (j : Nat) : conv (fun _ => (1 : α)) (fun k => ((Nat.totient k : Nat) : α)) j = (j : α) := by
  rw [conv]
  simp only [one_mul]
  rw [Nat.sum_div_divisors j (fun d => ((Nat.totient d : Nat) : α)), ← Nat.cast_sum, Nat.sum_totient]

omit [DecidableEq α] [Quo α] in
theorem two_mul_sum (i : Nat) : 2 * ∑ j ∈ Finset.Icc 1 i, (j : α) = (i : α) * ((i : α) + 1) := by
  induction i with
  | zero => simp
  | succ i ih =>
    rw [Finset.sum_Icc_succ_top (by omega), mul_add, ih]
    push_cast
    ring

/-- **C115**: `sum_phi(n)` fills the map with `phi(1) + ... + phi(n / k)` for every `k` from `1` to `n`, with and without a table of `phi` below
`icbrt(n)^2`. -/
theorem C115_sum_phi [Nontrivial α] (hq1 : ∀ a : α, Quo.quo a 1 = a) (h2 : (2 : α) ≠ 0) (hq2 : ∀ a : α, Quo.quo (2 * a) 2 = a)
    (lim : Nat) (sq cb : Nat → Nat) (fuel n : Nat) (hn : 1 ≤ n) (hf : n ≤ fuel)
    (hsq : ∀ k, 1 ≤ k → k ≤ n → 1 ≤ sq k ∧ sq k * sq k ≤ k) (hcb : 1 ≤ cb n ∧ cb n * cb n * cb n ≤ n) (hlim : 2 * (cb n * cb n) ≤ lim + 1)
    (phi : Option (List Int)) (hphi : ∀ l, phi = some l → ∀ k, 1 ≤ k → k < cb n * cb n → l[k]? = some (Nat.totient k : Int)) :
    ∃ mm, sumPhi lim sq cb fuel n phi = some mm ∧ ∀ k, 1 ≤ k → k ≤ n →
      mm.count (n / k) = some 1 ∧ mm.el (n / k) = some ((∑ i ∈ Finset.Icc 1 (n / k), Nat.totient i : Nat) : α) := by
  set U := cb n * cb n with hU
  have hU1 : 1 ≤ U := Nat.mul_pos hcb.1 hcb.1
  have hUn : U ≤ n := le_trans (Nat.le_mul_of_pos_right U hcb.1) hcb.2
  let F : Nat → α := fun k => ((Nat.totient k : Nat) : α)
  obtain ⟨s0, e0, i0⟩ := Inv.init (0 : α) U n hU1
  obtain ⟨s1, e1, i1⟩ := inv_set i0 hU1 (Or.inl (Nat.zero_le U)) (0 : α)
  have key : ∃ s2 m2, fillLow lim phi U s1 = some s2 ∧ Inv s2 U n m2 ∧
      (∀ k, k < U → m2 k = some (prefixSum F k)) ∧ ∀ k, U ≤ k → m2 k = none := by
    cases phi with
    | some l =>
      obtain ⟨s2, e2, i2⟩ := fillTable_spec U n s1 _ l (fun k => (Nat.totient k : Int)) hU1 i1 (Function.update_self ..) (hphi l rfl)
      refine ⟨s2, _, e2, i2, fun k hk => ?_, fun k hk => ?_⟩
      · rw [if_pos hk]
        simp [F]
      · rw [if_neg (by omega), Function.update_of_ne (by omega)]
    | none =>
      obtain ⟨s2, G, e2, i2, hG, hG0⟩ := moebiusMap_spec lim U n s1 _ (fun n => (n : α)) hU1 i1 hlim (hq1 1)
      have hGF : ∀ k, 1 ≤ k → k < U → G k = F k := divisors_unique (fun k h1 h2 => by
        rw [hG k h1 h2, ← Nat.cast_sum, Nat.sum_totient])
      obtain ⟨s3, e3, i3⟩ := partialSums_spec U n s2 _ (fun _ => 1) G hU1 i2 (by rw [if_pos (by omega), hG0 0 (Function.update_self ..)])
        (fun k h1 h2 => by rw [if_pos h2])
      refine ⟨s3, _, by rw [fillLow, e2, Option.bind_some, e3], i3, fun k hk => ?_, fun k hk => ?_⟩
      · rw [if_pos hk]
        congr 1
        apply Finset.sum_congr rfl
        intro j hj
        rw [Finset.mem_Icc] at hj
        change 1 * G j = F j
        rw [one_mul, hGF j hj.1 (by omega)]
      · rw [if_neg (by omega), if_neg (by omega), Function.update_of_ne (by omega)]
  obtain ⟨s2, m2, e2, i2, hlow, hhigh⟩ := key
  have hT : ∀ i : Nat, tri i = some (∑ j ∈ Finset.Icc 1 i, (j : α)) := fun i => by
    rw [tri, cdiv, if_neg h2, ← two_mul_sum, hq2]
  have h10 : ((1 : Nat) : α) - ((0 : Nat) : α) = 1 := by simp
  obtain ⟨s3, m3, e3, i3, _, _, _, hall⟩ := sumMS_spec n U hU1 sq tri (fun i => ∑ j ∈ Finset.Icc 1 i, (j : α)) (fun n => (n : α)) (prefixSum F) hsq
    (fun i _ _ => hT i)
    (fun i _ _ => by
      have hone : ∑ k ∈ Finset.Icc 1 i, (((k : Nat) : α) - ((k - 1 : Nat) : α)) * prefixSum F (i / k) = ∑ k ∈ Finset.Icc 1 i, 1 * prefixSum F (i / k) :=
        Finset.sum_congr rfl (fun k hk => by
          rw [Finset.mem_Icc] at hk
          obtain ⟨j, rfl⟩ : ∃ j, k = j + 1 := ⟨k - 1, by omega⟩
          simp)
      rw [hone, hyperbola (fun _ => 1) F]
      exact Finset.sum_congr rfl (fun j _ => totient_conv j))
    (by rw [h10]; exact one_ne_zero) (fun a => by rw [h10, one_mul, hq1]) fuel n s2 m2 hf ⟨1, le_refl 1, (Nat.div_one n).symm⟩ i2
    (fun k v hk => by
      by_cases hkU : k < U
      · rw [hlow k hkU] at hk
        exact (Option.some.inj hk).symm
      · rw [hhigh k (by omega)] at hk
        exact absurd hk (by simp))
  refine ⟨s3, ?_, fun k h1 hk => ?_⟩
  · rw [sumPhi]
    simp only [← hU]
    rw [e0, Option.bind_some, e1, Option.bind_some, e2, Option.bind_some, e3, Option.bind_some]
  · have hm := hall (hhigh n hUn) k h1 hk
    refine ⟨by rw [inv_count 0 i3 hU1 (Or.inr ⟨k, h1, rfl⟩), hm]; rfl, ?_⟩
    rw [inv_el i3 hU1 (Or.inr ⟨k, h1, rfl⟩) hm, prefixSum]
    push_cast
    rfl

/-- `n = 0` divides by zero. -/
theorem C115_zero (lim : Nat) (sq cb : Nat → Nat) (fuel : Nat) (phi : Option (List Int)) (h : cb 0 = 0) : sumPhi (α := α) lim sq cb fuel 0 phi = none := by
  rw [sumPhi, SqrtMap.mk', SqrtMap.resetMax]
  simp [h]

/-- The integer cube root, for the examples. -/
def cbrt (n : Nat) : Nat := ((List.range (n + 1)).filter fun k => k * k * k ≤ n).length - 1

example : (sumPhi (α := Int) 100 Nat.sqrt cbrt 30 30 none).bind (fun mm => [1, 2, 3, 4, 5, 6, 7, 10, 15, 30].mapM fun k => mm.el (30 / k)) =
    some [278, 72, 32, 18, 12, 10, 6, 4, 2, 1] := by decide +kernel

example : (sumPhi (α := Int) 100 Nat.sqrt cbrt 30 30 (some [0, 1, 1, 2, 2, 4, 2, 6, 4])).bind (fun mm => [1, 2, 3, 4, 5, 6, 7, 10, 15, 30].mapM fun k => mm.el (30 / k)) =
    some [278, 72, 32, 18, 12, 10, 6, 4, 2, 1] := by decide +kernel

/-- The hypotheses are met for integers. -/
example : ∃ mm, sumPhi (α := Int) 100 Nat.sqrt cbrt 30 30 none = some mm ∧ ∀ k, 1 ≤ k → k ≤ 30 →
    mm.count (30 / k) = some 1 ∧ mm.el (30 / k) = some ((∑ i ∈ Finset.Icc 1 (30 / k), Nat.totient i : Nat) : Int) :=
  C115_sum_phi (fun a => Int.tdiv_one a) (by decide) (fun a => Int.mul_tdiv_cancel_left a (by decide)) 100 Nat.sqrt cbrt 30 30 (by decide) (le_refl _)
    (fun k h _ => ⟨Nat.sqrt_pos.mpr h, Nat.sqrt_le k⟩) (by decide +kernel) (by decide +kernel) none (fun l h => by simp at h)

end Altruct.SumPhi
