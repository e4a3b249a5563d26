/-
Property C70, and C69: the products of `pga.h` and `clifford3.h` are those of Mathlib's Clifford and exterior algebras.
-/
import Verif.Pga.Value
import Verif.Clifford.Props
import Mathlib.LinearAlgebra.CliffordAlgebra.Basic
import Mathlib.LinearAlgebra.ExteriorAlgebra.Basic
import Mathlib.Algebra.BigOperators.Fin

namespace Altruct.Pga

variable {R : Type} [CommRing R]

open CliffordAlgebra

/-- The quadratic form of the documentation: `e0` is null and `e1`, `e2`, `e3` are positive. -/
noncomputable def form (R : Type) [CommRing R] : QuadraticForm R (Fin 4 → R) := QuadraticMap.weightedSumSquares R ![(0 : R), 1, 1, 1]

/-- The basis vectors in the Clifford algebra. -/
noncomputable def gen (R : Type) [CommRing R] (i : Fin 4) : CliffordAlgebra (form R) := ι (form R) (Pi.single i 1)

theorem gen_sq (i : Fin 4) : gen R i * gen R i = algebraMap R _ (![(0 : R), 1, 1, 1] i) := by
  unfold gen
  rw [ι_sq_scalar]
  congr 1
  fin_cases i <;> simp [form, QuadraticMap.weightedSumSquares_apply, Fin.sum_univ_four]

theorem gen_anti (i j : Fin 4) (h : i ≠ j) : gen R i * gen R j = -(gen R j * gen R i) := by
  unfold gen
  apply ι_mul_ι_comm_of_isOrtho
  rw [QuadraticMap.isOrtho_def]
  fin_cases i <;> fin_cases j <;> simp_all [form, QuadraticMap.weightedSumSquares_apply, Fin.sum_univ_four]

theorem gens : Gens (gen R 0) (gen R 1) (gen R 2) (gen R 3) where
  anti01 := gen_anti 1 0 (by decide)
  anti02 := gen_anti 2 0 (by decide)
  anti03 := gen_anti 3 0 (by decide)
  anti12 := gen_anti 2 1 (by decide)
  anti13 := gen_anti 3 1 (by decide)
  anti23 := gen_anti 3 2 (by decide)
  sq0 := by simp [gen_sq]
  sq1 := by simp [gen_sq]
  sq2 := by simp [gen_sq]
  sq3 := by simp [gen_sq]

/-- The geometric product is the product of Mathlib's Clifford algebra of the documented quadratic form. -/
theorem C70_clifford (a b : MV R) :
    value (gen R 0) (gen R 1) (gen R 2) (gen R 3) (a.mul b) =
      value (gen R 0) (gen R 1) (gen R 2) (gen R 3) a * value (gen R 0) (gen R 1) (gen R 2) (gen R 3) b :=
  C70_product_universal gens a b

/-- The basis vectors in the exterior algebra. -/
noncomputable def egen (R : Type) [CommRing R] (i : Fin 4) : ExteriorAlgebra R (Fin 4 → R) := ExteriorAlgebra.ι R (Pi.single i 1)

theorem egen_anti (i j : Fin 4) : egen R i * egen R j = -(egen R j * egen R i) :=
  eq_neg_of_add_eq_zero_left (ExteriorAlgebra.ι_add_mul_swap _ _)

theorem extGens : ExtGens (egen R 0) (egen R 1) (egen R 2) (egen R 3) where
  anti01 := egen_anti 1 0
  anti02 := egen_anti 2 0
  anti03 := egen_anti 3 0
  anti12 := egen_anti 2 1
  anti13 := egen_anti 3 1
  anti23 := egen_anti 3 2
  sq0 := ExteriorAlgebra.ι_sq_zero _
  sq1 := ExteriorAlgebra.ι_sq_zero _
  sq2 := ExteriorAlgebra.ι_sq_zero _
  sq3 := ExteriorAlgebra.ι_sq_zero _

/-- The wedge product is the product of Mathlib's exterior algebra. -/
theorem C70_exterior (a b : MV R) :
    value (egen R 0) (egen R 1) (egen R 2) (egen R 3) (a.wedge b) =
      value (egen R 0) (egen R 1) (egen R 2) (egen R 3) a * value (egen R 0) (egen R 1) (egen R 2) (egen R 3) b :=
  C70_wedge_universal extGens a b

end Altruct.Pga

namespace Altruct.Clifford

variable {R : Type} [CommRing R]

open CliffordAlgebra

/-- The quadratic form of `clifford3.h`: three positive basis vectors. -/
noncomputable def form (R : Type) [CommRing R] : QuadraticForm R (Fin 3 → R) := QuadraticMap.weightedSumSquares R ![(1 : R), 1, 1]

/-- The basis vectors in the Clifford algebra. -/
noncomputable def gen (R : Type) [CommRing R] (i : Fin 3) : CliffordAlgebra (form R) := ι (form R) (Pi.single i 1)

theorem gen_sq (i : Fin 3) : gen R i * gen R i = 1 := by
  unfold gen
  have h : form R (Pi.single i 1) = 1 := by
    fin_cases i <;> simp [form, QuadraticMap.weightedSumSquares_apply, Fin.sum_univ_three]
  rw [ι_sq_scalar, h, map_one]

theorem gen_anti (i j : Fin 3) (h : i ≠ j) : gen R i * gen R j = -(gen R j * gen R i) := by
  unfold gen
  apply ι_mul_ι_comm_of_isOrtho
  rw [QuadraticMap.isOrtho_def]
  fin_cases i <;> fin_cases j <;> simp_all [form, QuadraticMap.weightedSumSquares_apply, Fin.sum_univ_three]

/-- The product of multivectors is the product of Mathlib's Clifford algebra of three positive basis vectors. -/
theorem C69_clifford (a b : Multi R) :
    value (gen R 0) (gen R 1) (gen R 2) (a.mul b) = value (gen R 0) (gen R 1) (gen R 2) a * value (gen R 0) (gen R 1) (gen R 2) b :=
  C69_universal _ _ _ ⟨gen_sq 0, gen_sq 1, gen_sq 2, gen_anti 1 0 (by decide), gen_anti 2 0 (by decide), gen_anti 2 1 (by decide)⟩ a b

end Altruct.Clifford
