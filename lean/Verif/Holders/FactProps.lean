/-
C124: `factorial_holder`.
-/
import Verif.Holders.FactModel
import Verif.Ranges.Props
import Mathlib.Data.Nat.Choose.Basic
import Mathlib.Algebra.Field.ZMod

set_option linter.unusedSectionVars false

namespace Altruct.Holders

open Altruct.Polynom (Quo cdiv)
open scoped Nat

variable {α : Type} [Field α] [DecidableEq α]

/-- **C124**: in a field where the factorials below `sz` are not zero (characteristic 0, or at least `sz`), the holder gives
the factorials, their inverses, the inverses (0 for 0) and the binomial coefficients; an index not below `sz` is an
exception, and `bin(n, k)` with `k > n` is 0 for every `n`. -/
theorem C124_factorial_holder (sz : Nat) (h1 : 1 ≤ sz) (h0 : (((sz - 1)! : Nat) : α) ≠ 0) :
    ∃ h : FactHolder α, FactHolder.make sz = some h ∧ h.sz = sz ∧
      (∀ k, k < sz → h.factAt k = some ((k ! : Nat) : α) ∧ h.ifactAt k = some ((k ! : Nat) : α)⁻¹ ∧
        h.invAt k = some ((k : Nat) : α)⁻¹) ∧
      (∀ k, sz ≤ k → h.factAt k = none ∧ h.ifactAt k = none ∧ h.invAt k = none) ∧
      (∀ n k, n < sz → h.bin n k = some ((n.choose k : Nat) : α)) ∧
      (∀ n k, n < k → h.bin n k = some 0) := by
  have e : (max 1 (sz - 1))! = (sz - 1)! := by
    rcases Nat.le_total 1 (sz - 1) with h | h
    · rw [max_eq_right h]
    · rw [max_eq_left h, show sz - 1 = (if sz - 1 = 0 then 0 else 1) by split_ifs <;> omega]; split_ifs <;> rfl
  have rf := Ranges.C61_factorials (List.replicate sz (1 : α))
  rw [List.length_replicate] at rf
  obtain ⟨w, ew, rw'⟩ := Ranges.C61_inv_factorials (List.replicate sz (1 : α)) (sz - 1) (by rw [List.length_replicate]; omega)
    (by rw [List.length_replicate, e]; exact h0)
  rw [List.length_replicate] at rw'
  have hnz : ∀ i, i < sz → ((i ! : Nat) : α) ≠ 0 := by
    intro i hi h
    apply h0
    obtain ⟨q, hq⟩ := Nat.factorial_dvd_factorial (show i ≤ sz - 1 by omega)
    rw [hq, Nat.cast_mul, h, zero_mul]
  obtain ⟨u, eu, ru⟩ : ∃ u, Ranges.inversesFromIfact w = some u ∧ Rep u sz (fun i => ((i : Nat) : α)⁻¹) := by
    cases w with
    | nil => have := rw'.len; simp at this; omega
    | cons x w =>
      have hwl := rw'.len
      rw [List.length_cons] at hwl
      have hg2 : Rep w w.length (fun i => (((i + 1)! : Nat) : α)⁻¹) :=
        ⟨rfl, fun i hi => by have := rw'.get (i + 1) (by omega); rwa [List.getElem?_cons_succ] at this⟩
      have := Ranges.fromIfactLoop_spec w 0 _ hg2
      simp only [Nat.factorial_zero, Nat.cast_one, zero_add] at this
      refine ⟨_, rfl, by rw [List.length_cons, this.len, hwl], fun i hi => ?_⟩
      cases i with
      | zero => simp
      | succ i =>
        rw [List.getElem?_cons_succ, this.get i (by omega)]
        congr 1
        rw [Nat.factorial_succ, Nat.cast_mul, mul_inv, mul_assoc, inv_mul_cancel₀ (hnz i (by omega)), mul_one]
  refine ⟨⟨sz, Ranges.factorials (List.replicate sz (1 : α)), w, u⟩, ?_, rfl, fun k hk => ⟨rf.rd hk, rw'.rd hk, ru.rd hk⟩, fun k hk => ?_, fun n k hn => ?_, fun n k hk => ?_⟩
  · rw [FactHolder.make]
    rw [if_neg (by omega), rf.rd (show sz - 1 < sz by omega), Option.bind_some, ew, Option.bind_some, eu, Option.map_some]
  · exact ⟨List.getElem?_eq_none (by rw [rf.len]; exact hk), List.getElem?_eq_none (by rw [rw'.len]; exact hk), List.getElem?_eq_none (by rw [ru.len]; exact hk)⟩
  · rw [FactHolder.bin]
    by_cases hk : k > n
    · rw [if_pos hk, Nat.choose_eq_zero_of_lt hk, Nat.cast_zero]
    · rw [if_neg hk, rf.rd hn, Option.bind_some, rw'.rd (show n - k < sz by omega), Option.bind_some, rw'.rd (show k < sz by omega), Option.map_some]
      congr 1
      have hc := Nat.choose_mul_factorial_mul_factorial (show k ≤ n by omega)
      have hc' : ((n ! : Nat) : α) = ((n.choose k : Nat) : α) * ((k ! : Nat) : α) * (((n - k)! : Nat) : α) := by
        rw [← hc]; push_cast; rfl
      rw [hc']
      have a := hnz k (by omega)
      have b := hnz (n - k) (by omega)
      field_simp
  · rw [FactHolder.bin, if_pos hk]

/-- **C124** (negative): a holder of size 0 reads before its table. -/
theorem C124_empty : (FactHolder.make 0 : Option (FactHolder ℚ)) = none := rfl

/-- **C124** (negative): when `sz` exceeds the characteristic, the division by the last factorial is by zero. -/
theorem C124_characteristic : (FactHolder.make 4 : Option (FactHolder (ZMod 2))).isNone = true := by decide +kernel

example : ((FactHolder.make 6 : Option (FactHolder ℚ)).bind fun h => h.bin 5 2) = some 10 := by decide +kernel
example : (((6 - 1)! : Nat) : ℚ) ≠ 0 := by norm_num [Nat.factorial]

end Altruct.Holders
