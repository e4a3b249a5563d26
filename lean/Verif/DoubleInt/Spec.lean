/-
Specification of C122 and C123: the number a `double_int` stands for.
-/
import Verif.DoubleInt.Model

namespace Altruct.DoubleInt

/-- The words are words. -/
def Ok (w : Nat) : (k : Nat) → DI k → Prop
  | 0, (x : Nat) => x < 2 ^ w
  | k + 1, x => Ok w k x.1 ∧ Ok w k x.2

/-- The unsigned number. -/
def val (w : Nat) : (k : Nat) → DI k → Nat
  | 0, (x : Nat) => x
  | k + 1, x => val w k x.1 * 2 ^ bits w k + val w k x.2

/-- The signed number (two's complement). -/
def sval (w k : Nat) (x : DI k) : Int :=
  if 2 ^ (bits w k - 1) ≤ val w k x then (val w k x : Int) - (2 ^ bits w k : Nat) else val w k x

end Altruct.DoubleInt
