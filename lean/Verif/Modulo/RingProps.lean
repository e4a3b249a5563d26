/-
C08: `modulo<>` is the ring of integers modulo `M`.
-/
import Verif.Modulo.InvProps

namespace Altruct.Modulo

/-- Specification: the exact integer value of an expression. -/
def Expr.exact : Expr → Int
  | .const v => v
  | .add a b => a.exact + b.exact
  | .sub a b => a.exact - b.exact
  | .neg a => - a.exact
  | .mul a b => a.exact * b.exact
  | .pow a n => a.exact ^ n

theorem normU_eq (v M : Nat) : normU v M = v % M := by
  rw [normU]; split
  · rw [Nat.mod_eq_of_lt]; assumption
  · rfl

theorem normS_eq (w : Nat) (v : Int) (M : Nat) (hM : 0 < M) (hMw : M < 2 ^ w) :
    (normS w v M : Int) = v % M := by
  rw [normS]
  split
  · rename_i h
    rw [normU_eq, C06_neg w _ M hMw (Nat.mod_lt _ hM)]
    push_cast
    rw [Int.toNat_of_nonneg (by omega)]
    exact ((Int.mod_modEq (-v) M).neg).trans (by rw [neg_neg])
  · rename_i h
    rw [normU_eq]; push_cast; rw [Int.toNat_of_nonneg (by omega)]

theorem powModLoop_eq (w M : Nat) (hw : w = 8 ∨ w = 16 ∨ w = 32 ∨ w = 64) (hM : 0 < M)
    (hMw : M < 2 ^ w) (r x : Nat) (y : Int) (hr : r < M) (hx : x < M) :
    powModLoop w M r x y = (r * x ^ y.toNat) % M := by
  fun_induction powModLoop w M r x y with
  | case1 r x y h ih =>
    obtain ⟨n, rfl⟩ := Int.eq_ofNat_of_zero_le (by omega : 0 ≤ y)
    have e1 : mulU w x x M = (x * x) % M := mulU_eq w x x M hw hMw hx (by omega)
    have e2 : mulU w r x M = (r * x) % M := mulU_eq w r x M hw hMw hr (by omega)
    have ed : ((n : Int).tdiv 2).toNat = n / 2 := by
      rw [Int.tdiv_eq_ediv_of_nonneg (by omega)]; omega
    have em : ((n : Int).tmod 2) = ((n % 2 : Nat) : Int) := by
      rw [Int.tmod_eq_emod_of_nonneg (by omega)]; omega
    have hn := Nat.div_add_mod n 2
    rw [em] at ih ⊢
    rw [ed] at ih
    simp only [Int.toNat_natCast] at ih ⊢
    have ex : ∀ k, (x * x) ^ k = x ^ (2 * k) := fun k => by rw [← pow_two, ← pow_mul]
    by_cases hp : n % 2 = 0
    · simp only [hp, Nat.cast_zero, ne_eq, not_true_eq_false, if_false, dite_false] at ih ⊢
      rw [ih hr (by rw [e1]; exact Nat.mod_lt _ hM), e1]
      conv_rhs => rw [← hn, hp, add_zero, ← ex]
      rw [Nat.mul_mod, ← Nat.pow_mod, ← Nat.mul_mod]
    · have hp1 : n % 2 = 1 := by omega
      simp only [hp1, Nat.cast_one, ne_eq, one_ne_zero, not_false_eq_true, if_true, dite_true] at ih ⊢
      rw [ih (by rw [e2]; exact Nat.mod_lt _ hM) (by rw [e1]; exact Nat.mod_lt _ hM), e1, e2]
      conv_rhs => rw [← hn, hp1, pow_succ, ← ex]
      rw [Nat.mul_mod, ← Nat.pow_mod, Nat.mod_mod, ← Nat.mul_mod]
      congr 1; ring
  | case2 r x y h =>
    have : y.toNat = 0 := by omega
    rw [this]; simp [Nat.mod_eq_of_lt hr]

/-- C08: `modulo_power`. -/
theorem C08_modulo_power (w M x : Nat) (y : Int) (hw : w = 8 ∨ w = 16 ∨ w = 32 ∨ w = 64)
    (hM : 0 < M) (hMw : M < 2 ^ w) (hx : x < M) :
    powMod w M x y = x ^ y.toNat % M := by
  rw [powMod, normU_eq, powModLoop_eq w M hw hM hMw _ x y (Nat.mod_lt _ hM) hx, Nat.mod_mul_mod,
    one_mul]

/-- C08: every expression over `modulo<>` evaluates to the canonical representative of
its exact integer value, for every modulus, every word type, every expression. -/
theorem C08_ring (w M : Nat) (hw : w = 8 ∨ w = 16 ∨ w = 32 ∨ w = 64) (hM : 0 < M) (hMw : M < 2 ^ w)
    (e : Expr) : (evalMod w M e : Int) = e.exact % M := by
  have lt : ∀ e, (evalMod w M e : Int) = e.exact % M → evalMod w M e < M := by
    intro e h
    have := Int.emod_lt_of_pos e.exact (by omega : (0 : Int) < M)
    omega
  induction e with
  | const v => exact normS_eq w v M hM hMw
  | add a b iha ihb =>
    rw [evalMod, C06_add w _ _ M hMw (lt a iha) (lt b ihb)]
    push_cast
    rw [iha, ihb, ← Int.add_emod]; rfl
  | sub a b iha ihb =>
    rw [evalMod, C06_sub w _ _ M hMw (lt a iha) (lt b ihb), iha, ihb, ← Int.sub_emod]; rfl
  | neg a iha =>
    rw [evalMod, C06_neg w _ M hMw (lt a iha), iha]
    exact (Int.mod_modEq a.exact M).neg
  | mul a b iha ihb =>
    rw [evalMod, C06_mul w _ _ M hw hMw (lt a iha) (lt b ihb)]
    push_cast
    rw [iha, ihb, ← Int.mul_emod]; rfl
  | pow a n iha =>
    rw [evalMod, C08_modulo_power w M _ _ hw hM hMw (lt a iha)]
    push_cast
    rw [iha, Int.toNat_natCast]
    exact (Int.mod_modEq a.exact M).pow n

example : evalMod 32 1000000007 (.pow (.sub (.const 3) (.mul (.const (-7)) (.const 5))) 2) = 1444 := by
  decide +kernel

/-- A caveat of the `INSTANCE` storage: the one-argument constructor (modulo.h:205)
keeps the value as it is, so `moduloX<uint32_t>(1, 3) + 7` is `5`, not a residue. -/
theorem C08_instance_unnormalised : addU 32 1 7 3 = 5 := by decide

end Altruct.Modulo
