/-
Property C70, part three: the sandwich product of `pga.h`.
-/
import Verif.Pga.Laws
import Mathlib.Tactic.LinearCombination

namespace Altruct.Pga

section ring
variable {R : Type} [CommRing R]

/-! ### the sandwich product -/

theorem sand_0 (a : MV R) (b : B0 R) : sandM_0 a b = (b.mv.mul a).mul b.mv.rev := by
  simp only [sandM_0, sand0_0, sand1_0, sandE_0, sande_0, sand3_0, sand4_0, B0.norm2, B0.diff2]
  pga_ext
theorem sand_1 (a : MV R) (b : B1 R) : sandM_1 a b = -((b.mv.mul a).mul b.mv.rev) := by
  simp only [sandM_1, sand0_1, sand1_1, sandE_1, sande_1, sand3_1, sand4_1, B1.norm2, B1.diff2]
  pga_ext
theorem sand_E (a : MV R) (b : BE R) : sandM_E a b = (b.mv.mul a).mul b.mv.rev := by
  simp only [sandM_E, sand0_E, sand1_E, sandE_E, sande_E, sand3_E, sand4_E, BE.norm2, BE.diff2]
  pga_ext
theorem sand_e (a : MV R) (b : Be R) : sandM_e a b = (b.mv.mul a).mul b.mv.rev := by
  simp only [sandM_e, sand0_e, sand1_e, sandE_e, sande_e, sand3_e, sand4_e, Be.norm2, Be.diff2]
  pga_ext
theorem sand_3 (a : MV R) (b : B3 R) : sandM_3 a b = -((b.mv.mul a).mul b.mv.rev) := by
  simp only [sandM_3, sand0_3, sand1_3, sandE_3, sande_3, sand3_3, sand4_3, B3.norm2, B3.diff2]
  pga_ext
theorem sand_4 (a : MV R) (b : B4 R) : sandM_4 a b = (b.mv.mul a).mul b.mv.rev := by
  simp only [sandM_4, sand0_4, sand1_4, sandE_4, sande_4, sand3_4, sand4_4, B4.norm2, B4.diff2]
  pga_ext
theorem sand_02E (a : MV R) (b : B02E R) : sandM_02E a b = (b.mv.mul a).mul b.mv.rev := by
  simp only [sandM_02E, sand0_02E, sand1_02E, sandE_02E, sande_02E, sand3_02E, sand4_02E, B0.norm2, B0.diff2, BE.norm2, BE.diff2, B02E.norm2, B02E.diff2, B02E.mv]
  pga_ext
theorem sand_02e (a : MV R) (b : B02e R) : sandM_02e a b = (b.mv.mul a).mul b.mv.rev := by
  simp only [sandM_02e, sand0_02e, sand1_02e, sandE_02e, sande_02e, sand3_02e, sand4_02e, B0.norm2, B0.diff2, Be.norm2, Be.diff2, B02e.norm2, B02e.diff2, B02e.mv]
  pga_ext
theorem sand_22 (a : MV R) (b : B22 R) (h : (b.b2E.biE ⬝ b.b2e.bie) = 0) : sandM_22 a b = (b.mv.mul a).mul b.mv.rev := by
  simp only [V3.dot] at h
  simp only [sandM_22, sand0_22, sand1_22, sandE_22, sande_22, sand3_22, sand4_22, sande_E, BE.norm2, BE.diff2, Be.norm2, Be.diff2, B22.norm2, B22.diff2, B22.mv]
  pga_ext
  · linear_combination (2 * a.b2E.biE.x) * h
  · linear_combination (2 * a.b2E.biE.y) * h
  · linear_combination (2 * a.b2E.biE.z) * h
  · linear_combination (2 * a.b0.s) * h
theorem sand_2E4 (a : MV R) (b : B2E4 R) : sandM_2E4 a b = (b.mv.mul a).mul b.mv.rev := by
  simp only [sandM_2E4, sand0_2E4, sand1_2E4, sandE_2E4, sande_2E4, sand3_2E4, sand4_2E4, sande_E, BE.norm2, BE.diff2, B4.norm2, B4.diff2, B2E4.norm2, B2E4.diff2, B2E4.mv]
  pga_ext
theorem sand_2e4 (a : MV R) (b : B2e4 R) : sandM_2e4 a b = (b.mv.mul a).mul b.mv.rev := by
  simp only [sandM_2e4, sand0_2e4, sand1_2e4, sandE_2e4, sande_2e4, sand3_2e4, sand4_2e4, Be.norm2, Be.diff2, B4.norm2, B4.diff2, B2e4.norm2, B2e4.diff2, B2e4.mv]
  pga_ext
theorem sand_024 (a : MV R) (b : B024 R) (h : (b.b02.b2E.biE ⬝ b.b24.b2e.bie) = b.b02.b0.s * b.b24.b4.e0123) : sandM_024 a b = (b.mv.mul a).mul b.mv.rev := by
  simp only [V3.dot] at h
  simp only [sandM_024, sand0_024, sand1_024, sandE_024, sande_024, sand3_024, sand4_024, B0.norm2, B0.diff2, BE.norm2, BE.diff2, Be.norm2, Be.diff2, B4.norm2, B4.diff2, B02E.norm2, B02E.diff2, B2e4.norm2, B2e4.diff2, B024.norm2, B024.diff2, B024.mv]
  pga_ext
  · linear_combination (2 * a.b2E.biE.x) * h
  · linear_combination (2 * a.b2E.biE.y) * h
  · linear_combination (2 * a.b2E.biE.z) * h
  · linear_combination (2 * a.b0.s) * h
theorem sand_13 (a : MV R) (b : B13 R) (h : (b.b1.v ⬝ b.b3.triP) + b.b1.e0 * b.b3.e123 = 0) : sandM_13 a b = -((b.mv.mul a).mul b.mv.rev) := by
  simp only [V3.dot] at h
  simp only [sandM_13, sand0_13, sand1_13, sandE_13, sande_13, sand3_13, sand4_13, B1.norm2, B1.diff2, B3.norm2, B3.diff2, B13.norm2, B13.diff2, B13.mv]
  pga_ext
  · linear_combination (-2 * a.b2E.biE.x) * h
  · linear_combination (-2 * a.b2E.biE.y) * h
  · linear_combination (-2 * a.b2E.biE.z) * h
  · linear_combination (-2 * a.b0.s) * h

/-- The sandwich product by an even blade `b` is `b * a * rev(b)`; for lines and motors the blade has to be orthogonal: `b * rev(b)` has no
pseudoscalar part. -/
theorem C70_sandwich_even (a : MV R) : (∀ b : B0 R, sandM_0 a b = (b.mv.mul a).mul b.mv.rev) ∧ (∀ b : BE R, sandM_E a b = (b.mv.mul a).mul b.mv.rev) ∧
    (∀ b : Be R, sandM_e a b = (b.mv.mul a).mul b.mv.rev) ∧ (∀ b : B4 R, sandM_4 a b = (b.mv.mul a).mul b.mv.rev) ∧
    (∀ b : B02E R, sandM_02E a b = (b.mv.mul a).mul b.mv.rev) ∧ (∀ b : B02e R, sandM_02e a b = (b.mv.mul a).mul b.mv.rev) ∧
    (∀ b : B22 R, (b.b2E.biE ⬝ b.b2e.bie) = 0 → sandM_22 a b = (b.mv.mul a).mul b.mv.rev) ∧ (∀ b : B2E4 R, sandM_2E4 a b = (b.mv.mul a).mul b.mv.rev) ∧
    (∀ b : B2e4 R, sandM_2e4 a b = (b.mv.mul a).mul b.mv.rev) ∧
    (∀ b : B024 R, (b.b02.b2E.biE ⬝ b.b24.b2e.bie) = b.b02.b0.s * b.b24.b4.e0123 → sandM_024 a b = (b.mv.mul a).mul b.mv.rev) :=
  ⟨sand_0 a, sand_E a, sand_e a, sand_4 a, sand_02E a, sand_02e a, sand_22 a, sand_2E4 a, sand_2e4 a, sand_024 a⟩

/-- The sandwich product by an odd blade `b` is `- b * a * rev(b)`; for sums of a plane and a point the blade has to be orthogonal. -/
theorem C70_sandwich_odd (a : MV R) : (∀ b : B1 R, sandM_1 a b = -((b.mv.mul a).mul b.mv.rev)) ∧ (∀ b : B3 R, sandM_3 a b = -((b.mv.mul a).mul b.mv.rev)) ∧
    (∀ b : B13 R, (b.b1.v ⬝ b.b3.triP) + b.b1.e0 * b.b3.e123 = 0 → sandM_13 a b = -((b.mv.mul a).mul b.mv.rev)) := ⟨sand_1 a, sand_3 a, sand_13 a⟩

end ring

end Altruct.Pga
