/-
C06, C07, C08: modular arithmetic primitives on machine words.
-/
import Verif.Modulo.Model
import Mathlib.Tactic.Ring
import Mathlib.Tactic.Linarith
import Mathlib.Tactic.NormNum
import Mathlib.Tactic.Positivity
import Mathlib.Data.Int.ModEq
import Mathlib.Data.Nat.ModEq
import Mathlib.Data.Int.GCD

namespace Altruct.Modulo

/-! ## C06 unsigned primitives -/

theorem subW_eq (w x y : Nat) (h1 : y ≤ x) (h2 : x < 2 ^ w) : subW w x y = x - y := by
  rw [subW, show x + (2 ^ w - y) = (x - y) + 2 ^ w by omega, Nat.add_mod_right, Nat.mod_eq_of_lt]
  omega

theorem addU_eq (w x y M : Nat) (hM : M < 2 ^ w) (hx : x < M) (hy : y ≤ M) :
    addU w x y M = if x + y < M then x + y else x + y - M := by
  rw [addU, addW]
  by_cases h : x + y < 2 ^ w
  · rw [Nat.mod_eq_of_lt h]
    simp only [ge_iff_le, not_le.mpr h, decide_false, true_and]
    split
    · rfl
    · rw [subW_eq _ _ _ (by omega) h]
  · have e : (x + y) % 2 ^ w = x + y - 2 ^ w := by
      rw [Nat.mod_eq_sub_mod (by omega), Nat.mod_eq_of_lt (by omega)]
    have h' : 2 ^ w ≤ x + y := not_lt.mp h
    simp only [e, ge_iff_le, h', decide_true, Bool.true_eq_false, false_and, if_false]
    rw [if_neg (by omega), subW, show x + y - 2 ^ w + (2 ^ w - M) = x + y - M by omega,
      Nat.mod_eq_of_lt (by omega)]

theorem addU_mod (w x y M : Nat) (hM : M < 2 ^ w) (hx : x < M) (hy : y ≤ M) :
    addU w x y M = (x + y) % M := by
  rw [addU_eq w x y M hM hx hy]
  split
  · rw [Nat.mod_eq_of_lt]; assumption
  · rw [Nat.mod_eq_sub_mod (by omega), Nat.mod_eq_of_lt (by omega)]

/-- C06: `modulo_add` on unsigned words of any width is exact for every modulus,
also when `x + y` wraps around. -/
theorem C06_add (w x y M : Nat) (hM : M < 2 ^ w) (hx : x < M) (hy : y < M) :
    addU w x y M = (x + y) % M := addU_mod w x y M hM hx hy.le

/-- C06: `modulo_sub` is exact. -/
theorem C06_sub (w x y M : Nat) (hM : M < 2 ^ w) (hx : x < M) (hy : y < M) :
    (subU w x y M : Int) = ((x : Int) - y) % M := by
  rw [subU, subW_eq _ _ _ hy.le hM, addU_mod w x _ M hM hx (by omega)]
  push_cast [Nat.cast_sub hy.le]
  rw [show (x : Int) + (M - y) = x - y + M by ring, Int.add_emod_right]

/-- C06: `modulo_neg` is exact. -/
theorem C06_neg (w v M : Nat) (hM : M < 2 ^ w) (hv : v < M) :
    (negU w v M : Int) = (-(v : Int)) % M := by
  rw [negU]
  split
  · subst_vars; simp
  · rw [subW_eq _ _ _ hv.le hM, Nat.cast_sub hv.le, ← Int.add_emod_right,
      show -(v : Int) + M = M - v by ring, Int.emod_eq_of_lt (by omega) (by omega)]

theorem mulLongLoop_eq (w M r x y : Nat) (hM : M < 2 ^ w) (hr : r < M) (hx : x < M) :
    mulLongLoop w M r x y = (r + x * y) % M := by
  fun_induction mulLongLoop w M r x y with
  | case1 r x y h ih =>
    have hM0 : 0 < M := by omega
    have e1 : addU w x x M = (x + x) % M := addU_mod w x x M hM hx hx.le
    have e2 : addU w r x M = (r + x) % M := addU_mod w r x M hM hr hx.le
    have hy := Nat.div_add_mod y 2
    by_cases hp : y % 2 = 1
    · simp only [hp, if_true, dite_true] at ih ⊢
      rw [ih (by rw [e2]; exact Nat.mod_lt _ hM0) (by rw [e1]; exact Nat.mod_lt _ hM0), e1, e2]
      conv_rhs => rw [← hy, hp]
      rw [Nat.add_mod, Nat.mul_mod, Nat.mod_mod, Nat.mod_mod, ← Nat.mul_mod, ← Nat.add_mod]
      congr 1; ring
    · simp only [hp, if_false, dite_false] at ih ⊢
      have hp0 : y % 2 = 0 := by omega
      rw [ih hr (by rw [e1]; exact Nat.mod_lt _ hM0), e1]
      conv_rhs => rw [← hy, hp0]
      rw [Nat.add_mod, Nat.mul_mod, Nat.mod_mod, ← Nat.mul_mod, ← Nat.add_mod]
      congr 1; ring
  | case2 r x y h =>
    have : y = 0 := by omega
    subst this
    simp [Nat.mod_eq_of_lt hr]

/-- C06: the shift-and-add multiplication is exact for every word width, every
modulus, every residue `x` and every word `y`. -/
theorem C06_mul_long (w x y M : Nat) (hM : M < 2 ^ w) (hx : x < M) :
    mulLong w x y M = (x * y) % M := by
  rw [mulLong, mulLongLoop_eq w M 0 x y hM (by omega) hx]; simp

theorem mulU_eq (w x y M : Nat) (hw : w = 8 ∨ w = 16 ∨ w = 32 ∨ w = 64) (hM : M < 2 ^ w)
    (hx : x < M) (hy : y < 2 ^ w) : mulU w x y M = (x * y) % M := by
  rcases hw with rfl | rfl | rfl | rfl
  · have : x * y < 2 ^ 8 * 2 ^ 8 := Nat.mul_lt_mul'' (by omega) hy
    simp only [mulU, mulNarrow, mulW]
    norm_num
    rw [Nat.mod_eq_of_lt (by omega : M < 4294967296),
      Nat.mod_eq_of_lt (by omega : x * y < 4294967296)]
  · have : x * y < 2 ^ 16 * 2 ^ 16 := Nat.mul_lt_mul'' (by omega) hy
    simp only [mulU, mulNarrow, mulW]
    norm_num
    rw [Nat.mod_eq_of_lt (by omega : M < 4294967296),
      Nat.mod_eq_of_lt (by omega : x * y < 4294967296)]
  · have : x * y < 2 ^ 32 * 2 ^ 32 := Nat.mul_lt_mul'' (by omega) hy
    simp only [mulU, mul32, mulW]
    norm_num
    rw [Nat.mod_eq_of_lt (by omega : x * y < 18446744073709551616)]
  · simp only [mulU, mul64, if_true]
    split
    · rename_i h
      have hx' : x < 2 ^ 32 := by omega
      have hy' : y < 2 ^ 32 := by omega
      have : x * y < 2 ^ 32 * 2 ^ 32 := Nat.mul_lt_mul'' hx' hy'
      rw [mulW, Nat.mod_eq_of_lt hy', Nat.mod_eq_of_lt (by omega : x * y < 2 ^ 64)]
    · exact C06_mul_long 64 x y M hM hx

/-- C06: `modulo_mul` on `uint8_t`, `uint16_t`, `uint32_t` and `uint64_t` is exact for
every modulus and all residues. -/
theorem C06_mul (w x y M : Nat) (hw : w = 8 ∨ w = 16 ∨ w = 32 ∨ w = 64) (hM : M < 2 ^ w)
    (hx : x < M) (hy : y < M) : mulU w x y M = (x * y) % M :=
  mulU_eq w x y M hw hM hx (by omega)

/-- A modulus above `2^63`, where the sums really wrap. -/
example : let M := 2 ^ 64 - 59
    addU 64 (M - 1) (M - 2) M = M - 3 ∧ mulU 64 (M - 1) (M - 2) M = 2 ∧
    (M - 1) + (M - 2) ≥ 2 ^ 64 := by decide +kernel

/-- C06, signed: `modulo_add` on signed words is exact as long as `x + y` is
representable, in particular for every modulus up to `2^(w-2)`. -/
theorem C06_add_signed_partial (w : Nat) (x y M : Int) (hM : M ≤ 2 ^ (w - 2)) (hw : 2 ≤ w)
    (hx : 0 ≤ x) (hxM : x < M) (hy : 0 ≤ y) (hyM : y ≤ M) :
    addS w x y M = some ((x + y) % M) := by
  have hp : (2 : Int) ^ (w - 1) = 2 * 2 ^ (w - 2) := by
    rw [← pow_succ', show w - 2 + 1 = w - 1 by omega]
  rw [addS, sw, if_pos (by constructor <;> omega), Option.bind_eq_bind, Option.bind_some]
  split
  · rw [Int.emod_eq_of_lt (by omega) (by omega)]
  · rw [sw, if_pos (by constructor <;> omega), ← Int.sub_emod_right,
      Int.emod_eq_of_lt (by omega) (by omega)]

/-- What is missing in `C06_add_signed_partial` is really missing in the code: for a
larger signed modulus the sum of two residues overflows (undefined behaviour). -/
theorem C06_add_signed_overflow (w : Nat) (M : Int) (hM : 2 ^ (w - 2) < M) (hw : 2 ≤ w) :
    addS w (M - 1) (M - 1) M = none := by
  have hp : (2 : Int) ^ (w - 1) = 2 * 2 ^ (w - 2) := by
    rw [← pow_succ', show w - 2 + 1 = w - 1 by omega]
  rw [addS, sw, if_neg (by omega)]; rfl

/-- C06, signed: `modulo_sub`. -/
theorem C06_sub_signed_partial (w : Nat) (x y M : Int) (hM : M ≤ 2 ^ (w - 2)) (hw : 2 ≤ w)
    (hx : 0 ≤ x) (hxM : x < M) (hy : 0 ≤ y) (hyM : y < M) :
    subS w x y M = some ((x - y) % M) := by
  have hp : (2 : Int) ^ (w - 1) = 2 * 2 ^ (w - 2) := by
    rw [← pow_succ', show w - 2 + 1 = w - 1 by omega]
  rw [subS, sw, if_pos (by constructor <;> omega), Option.bind_eq_bind, Option.bind_some,
    C06_add_signed_partial w x (M - y) M hM hw hx hxM (by omega) (by omega),
    show x + (M - y) = x - y + M by ring, Int.add_emod_right]

/-- C06, signed: `modulo_neg` never overflows. -/
theorem C06_neg_signed (w : Nat) (v M : Int) (hM : M < 2 ^ (w - 1)) (hv : 0 ≤ v) (hvM : v < M) :
    negS w v M = some ((-v) % M) := by
  rw [negS]
  split
  · subst_vars; simp
  · rw [sw, if_pos (by constructor <;> omega), ← Int.add_emod_right, show -v + M = M - v by ring,
      Int.emod_eq_of_lt (by omega) (by omega)]

theorem toU_nonneg (w : Nat) (v : Int) (h0 : 0 ≤ v) (h : v < 2 ^ w) : toU w v = v.toNat := by
  rw [toU, Int.emod_eq_of_lt h0 h]

/-- C06, signed: `modulo_mul` goes through the unsigned type and never overflows. -/
theorem mulS_eq (w : Nat) (x y M : Int) (hw : w = 8 ∨ w = 16 ∨ w = 32 ∨ w = 64)
    (hM : M < 2 ^ (w - 1)) (hx : 0 ≤ x) (hxM : x < M) (hy : 0 ≤ y) (hyM : y < 2 ^ (w - 1)) :
    mulS w x y M = (x * y) % M := by
  have hp : (2 : Int) ^ (w - 1) < 2 ^ w := by
    rcases hw with rfl | rfl | rfl | rfl <;> norm_num
  obtain ⟨x, rfl⟩ := Int.eq_ofNat_of_zero_le hx
  obtain ⟨y, rfl⟩ := Int.eq_ofNat_of_zero_le hy
  obtain ⟨M, rfl⟩ := Int.eq_ofNat_of_zero_le (by omega : 0 ≤ M)
  have hM' : M < 2 ^ (w - 1) := by exact_mod_cast hM
  have hy' : y < 2 ^ w := by exact_mod_cast (lt_trans hyM hp)
  have hp' : 2 ^ (w - 1) < 2 ^ w := by exact_mod_cast hp
  have hx' : x < M := by exact_mod_cast hxM
  rw [mulS, toU_nonneg _ _ hx (by omega), toU_nonneg _ _ hy (by omega),
    toU_nonneg _ _ (by omega) (by omega)]
  simp only [Int.toNat_natCast]
  rw [mulU_eq w x y M hw (by omega) hx' hy', toS, if_pos]
  · push_cast; rfl
  · have := Nat.mod_lt (x * y) (by omega : 0 < M)
    omega

theorem C06_mul_signed (w : Nat) (x y M : Int) (hw : w = 8 ∨ w = 16 ∨ w = 32 ∨ w = 64)
    (hM : M < 2 ^ (w - 1)) (hx : 0 ≤ x) (hxM : x < M) (hy : 0 ≤ y) (hyM : y < M) :
    mulS w x y M = (x * y) % M := mulS_eq w x y M hw hM hx hxM hy (by omega)

example : addS 32 5 6 7 = some 4 ∧ subS 32 3 6 7 = some 4 ∧ mulS 64 (2 ^ 62) 2 (2 ^ 63 - 25) = 25 := by
  decide +kernel

end Altruct.Modulo
