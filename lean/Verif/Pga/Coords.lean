/-
The coordinates of the products of `pga.h`.  The right-hand sides are the multiplication tables of the basis elements.
-/
import Verif.Pga.Value

namespace Altruct.Pga

variable {R : Type} [CommRing R]

macro "unfold_mul" : tactic => `(tactic| (
  simp only [MV.mul, mulR0, mulR1, mulRE, mulRe, mulR3, mulR4,
    mul0_0, mul0_1, mul0_E, mul0_e, mul0_3, mul0_4, mul1_0, mul1_1, mul1_E, mul1_e, mul1_3, mul1_4, mulE_0, mulE_1, mulE_E, mulE_e, mulE_3, mulE_4, mule_0, mule_1, mule_E, mule_e, mule_3, mule_4, mul3_0, mul3_1, mul3_E, mul3_e, mul3_3, mul3_4, mul4_0, mul4_1, mul4_E, mul4_e, mul4_3, mul4_4,
    MV.add_b0_s, MV.add_b1_e0, MV.add_b1_v, MV.add_b2E_biE, MV.add_b2e_bie, MV.add_b3_e123, MV.add_b3_triP, MV.add_b4_e0123,
    MV.zero_b0_s, MV.zero_b1_e0, MV.zero_b1_v, MV.zero_b2E_biE, MV.zero_b2e_bie, MV.zero_b3_e123, MV.zero_b3_triP, MV.zero_b4_e0123,
    V3.add_x, V3.add_y, V3.add_z, V3.sub_x, V3.sub_y, V3.sub_z, V3.neg_x, V3.neg_y, V3.neg_z, V3.mul_x, V3.mul_y, V3.mul_z,
    V3.smul_x, V3.smul_y, V3.smul_z, V3.zero_x, V3.zero_y, V3.zero_z, V3.cross_x, V3.cross_y, V3.cross_z, V3.dot,
    mk0, mk1, mk1s, mk1v, mkE, mke, mk3, mk3v, mk4, add_zero, zero_add]
  try ring))

theorem mul_b0_s (a b : MV R) : (a.mul b).b0.s = a.b0.s * b.b0.s + a.b1.v.x * b.b1.v.x + a.b1.v.y * b.b1.v.y + a.b1.v.z * b.b1.v.z - a.b2E.biE.x * b.b2E.biE.x - a.b2E.biE.y * b.b2E.biE.y - a.b2E.biE.z * b.b2E.biE.z - a.b3.e123 * b.b3.e123 := by
  unfold_mul
theorem mul_b1_e0 (a b : MV R) : (a.mul b).b1.e0 = a.b0.s * b.b1.e0 + a.b1.e0 * b.b0.s + a.b2E.biE.x * b.b3.triP.x + a.b2E.biE.y * b.b3.triP.y + a.b2E.biE.z * b.b3.triP.z + a.b2e.bie.x * b.b1.v.x + a.b2e.bie.y * b.b1.v.y + a.b2e.bie.z * b.b1.v.z + a.b3.e123 * b.b4.e0123 + a.b3.triP.x * b.b2E.biE.x + a.b3.triP.y * b.b2E.biE.y + a.b3.triP.z * b.b2E.biE.z - a.b1.v.x * b.b2e.bie.x - a.b1.v.y * b.b2e.bie.y - a.b1.v.z * b.b2e.bie.z - a.b4.e0123 * b.b3.e123 := by
  unfold_mul
theorem mul_b1_v_x (a b : MV R) : (a.mul b).b1.v.x = a.b0.s * b.b1.v.x + a.b1.v.x * b.b0.s + a.b1.v.z * b.b2E.biE.y + a.b2E.biE.z * b.b1.v.y - a.b1.v.y * b.b2E.biE.z - a.b2E.biE.x * b.b3.e123 - a.b2E.biE.y * b.b1.v.z - a.b3.e123 * b.b2E.biE.x := by
  unfold_mul
theorem mul_b1_v_y (a b : MV R) : (a.mul b).b1.v.y = a.b0.s * b.b1.v.y + a.b1.v.x * b.b2E.biE.z + a.b1.v.y * b.b0.s + a.b2E.biE.x * b.b1.v.z - a.b1.v.z * b.b2E.biE.x - a.b2E.biE.y * b.b3.e123 - a.b2E.biE.z * b.b1.v.x - a.b3.e123 * b.b2E.biE.y := by
  unfold_mul
theorem mul_b1_v_z (a b : MV R) : (a.mul b).b1.v.z = a.b0.s * b.b1.v.z + a.b1.v.y * b.b2E.biE.x + a.b1.v.z * b.b0.s + a.b2E.biE.y * b.b1.v.x - a.b1.v.x * b.b2E.biE.y - a.b2E.biE.x * b.b1.v.y - a.b2E.biE.z * b.b3.e123 - a.b3.e123 * b.b2E.biE.z := by
  unfold_mul
theorem mul_b2E_biE_x (a b : MV R) : (a.mul b).b2E.biE.x = a.b0.s * b.b2E.biE.x + a.b1.v.x * b.b3.e123 + a.b1.v.y * b.b1.v.z + a.b2E.biE.x * b.b0.s + a.b2E.biE.z * b.b2E.biE.y + a.b3.e123 * b.b1.v.x - a.b1.v.z * b.b1.v.y - a.b2E.biE.y * b.b2E.biE.z := by
  unfold_mul
theorem mul_b2E_biE_y (a b : MV R) : (a.mul b).b2E.biE.y = a.b0.s * b.b2E.biE.y + a.b1.v.y * b.b3.e123 + a.b1.v.z * b.b1.v.x + a.b2E.biE.x * b.b2E.biE.z + a.b2E.biE.y * b.b0.s + a.b3.e123 * b.b1.v.y - a.b1.v.x * b.b1.v.z - a.b2E.biE.z * b.b2E.biE.x := by
  unfold_mul
theorem mul_b2E_biE_z (a b : MV R) : (a.mul b).b2E.biE.z = a.b0.s * b.b2E.biE.z + a.b1.v.x * b.b1.v.y + a.b1.v.z * b.b3.e123 + a.b2E.biE.y * b.b2E.biE.x + a.b2E.biE.z * b.b0.s + a.b3.e123 * b.b1.v.z - a.b1.v.y * b.b1.v.x - a.b2E.biE.x * b.b2E.biE.y := by
  unfold_mul
theorem mul_b2e_bie_x (a b : MV R) : (a.mul b).b2e.bie.x = a.b0.s * b.b2e.bie.x + a.b1.e0 * b.b1.v.x + a.b1.v.z * b.b3.triP.y + a.b2E.biE.z * b.b2e.bie.y + a.b2e.bie.x * b.b0.s + a.b2e.bie.z * b.b2E.biE.y + a.b3.triP.x * b.b3.e123 + a.b3.triP.y * b.b1.v.z - a.b1.v.x * b.b1.e0 - a.b1.v.y * b.b3.triP.z - a.b2E.biE.x * b.b4.e0123 - a.b2E.biE.y * b.b2e.bie.z - a.b2e.bie.y * b.b2E.biE.z - a.b3.e123 * b.b3.triP.x - a.b3.triP.z * b.b1.v.y - a.b4.e0123 * b.b2E.biE.x := by
  unfold_mul
theorem mul_b2e_bie_y (a b : MV R) : (a.mul b).b2e.bie.y = a.b0.s * b.b2e.bie.y + a.b1.e0 * b.b1.v.y + a.b1.v.x * b.b3.triP.z + a.b2E.biE.x * b.b2e.bie.z + a.b2e.bie.x * b.b2E.biE.z + a.b2e.bie.y * b.b0.s + a.b3.triP.y * b.b3.e123 + a.b3.triP.z * b.b1.v.x - a.b1.v.y * b.b1.e0 - a.b1.v.z * b.b3.triP.x - a.b2E.biE.y * b.b4.e0123 - a.b2E.biE.z * b.b2e.bie.x - a.b2e.bie.z * b.b2E.biE.x - a.b3.e123 * b.b3.triP.y - a.b3.triP.x * b.b1.v.z - a.b4.e0123 * b.b2E.biE.y := by
  unfold_mul
theorem mul_b2e_bie_z (a b : MV R) : (a.mul b).b2e.bie.z = a.b0.s * b.b2e.bie.z + a.b1.e0 * b.b1.v.z + a.b1.v.y * b.b3.triP.x + a.b2E.biE.y * b.b2e.bie.x + a.b2e.bie.y * b.b2E.biE.x + a.b2e.bie.z * b.b0.s + a.b3.triP.x * b.b1.v.y + a.b3.triP.z * b.b3.e123 - a.b1.v.x * b.b3.triP.y - a.b1.v.z * b.b1.e0 - a.b2E.biE.x * b.b2e.bie.y - a.b2E.biE.z * b.b4.e0123 - a.b2e.bie.x * b.b2E.biE.y - a.b3.e123 * b.b3.triP.z - a.b3.triP.y * b.b1.v.x - a.b4.e0123 * b.b2E.biE.z := by
  unfold_mul
theorem mul_b3_e123 (a b : MV R) : (a.mul b).b3.e123 = a.b0.s * b.b3.e123 + a.b1.v.x * b.b2E.biE.x + a.b1.v.y * b.b2E.biE.y + a.b1.v.z * b.b2E.biE.z + a.b2E.biE.x * b.b1.v.x + a.b2E.biE.y * b.b1.v.y + a.b2E.biE.z * b.b1.v.z + a.b3.e123 * b.b0.s := by
  unfold_mul
theorem mul_b3_triP_x (a b : MV R) : (a.mul b).b3.triP.x = a.b0.s * b.b3.triP.x + a.b1.v.x * b.b4.e0123 + a.b1.v.y * b.b2e.bie.z + a.b2E.biE.z * b.b3.triP.y + a.b2e.bie.z * b.b1.v.y + a.b3.e123 * b.b2e.bie.x + a.b3.triP.x * b.b0.s + a.b3.triP.z * b.b2E.biE.y - a.b1.e0 * b.b2E.biE.x - a.b1.v.z * b.b2e.bie.y - a.b2E.biE.x * b.b1.e0 - a.b2E.biE.y * b.b3.triP.z - a.b2e.bie.x * b.b3.e123 - a.b2e.bie.y * b.b1.v.z - a.b3.triP.y * b.b2E.biE.z - a.b4.e0123 * b.b1.v.x := by
  unfold_mul
theorem mul_b3_triP_y (a b : MV R) : (a.mul b).b3.triP.y = a.b0.s * b.b3.triP.y + a.b1.v.y * b.b4.e0123 + a.b1.v.z * b.b2e.bie.x + a.b2E.biE.x * b.b3.triP.z + a.b2e.bie.x * b.b1.v.z + a.b3.e123 * b.b2e.bie.y + a.b3.triP.x * b.b2E.biE.z + a.b3.triP.y * b.b0.s - a.b1.e0 * b.b2E.biE.y - a.b1.v.x * b.b2e.bie.z - a.b2E.biE.y * b.b1.e0 - a.b2E.biE.z * b.b3.triP.x - a.b2e.bie.y * b.b3.e123 - a.b2e.bie.z * b.b1.v.x - a.b3.triP.z * b.b2E.biE.x - a.b4.e0123 * b.b1.v.y := by
  unfold_mul
theorem mul_b3_triP_z (a b : MV R) : (a.mul b).b3.triP.z = a.b0.s * b.b3.triP.z + a.b1.v.x * b.b2e.bie.y + a.b1.v.z * b.b4.e0123 + a.b2E.biE.y * b.b3.triP.x + a.b2e.bie.y * b.b1.v.x + a.b3.e123 * b.b2e.bie.z + a.b3.triP.y * b.b2E.biE.x + a.b3.triP.z * b.b0.s - a.b1.e0 * b.b2E.biE.z - a.b1.v.y * b.b2e.bie.x - a.b2E.biE.x * b.b3.triP.y - a.b2E.biE.z * b.b1.e0 - a.b2e.bie.x * b.b1.v.y - a.b2e.bie.z * b.b3.e123 - a.b3.triP.x * b.b2E.biE.y - a.b4.e0123 * b.b1.v.z := by
  unfold_mul
theorem mul_b4_e0123 (a b : MV R) : (a.mul b).b4.e0123 = a.b0.s * b.b4.e0123 + a.b1.e0 * b.b3.e123 + a.b1.v.x * b.b3.triP.x + a.b1.v.y * b.b3.triP.y + a.b1.v.z * b.b3.triP.z + a.b2E.biE.x * b.b2e.bie.x + a.b2E.biE.y * b.b2e.bie.y + a.b2E.biE.z * b.b2e.bie.z + a.b2e.bie.x * b.b2E.biE.x + a.b2e.bie.y * b.b2E.biE.y + a.b2e.bie.z * b.b2E.biE.z + a.b4.e0123 * b.b0.s - a.b3.e123 * b.b1.e0 - a.b3.triP.x * b.b1.v.x - a.b3.triP.y * b.b1.v.y - a.b3.triP.z * b.b1.v.z := by
  unfold_mul

macro "unfold_wedge" : tactic => `(tactic| (
  simp only [MV.wedge, wedgeR0, wedgeR1, wedgeRE, wedgeRe, wedgeR3, wedgeR4,
    wedge0_0, wedge0_1, wedge0_E, wedge0_e, wedge0_3, wedge0_4, wedge1_0, wedge1_1, wedge1_E, wedge1_e, wedge1_3, wedge1_4, wedgeE_0, wedgeE_1, wedgeE_E, wedgeE_e, wedgeE_3, wedgeE_4, wedgee_0, wedgee_1, wedgee_E, wedgee_e, wedgee_3, wedgee_4, wedge3_0, wedge3_1, wedge3_E, wedge3_e, wedge3_3, wedge3_4, wedge4_0, wedge4_1, wedge4_E, wedge4_e, wedge4_3, wedge4_4,
    MV.add_b0_s, MV.add_b1_e0, MV.add_b1_v, MV.add_b2E_biE, MV.add_b2e_bie, MV.add_b3_e123, MV.add_b3_triP, MV.add_b4_e0123,
    MV.zero_b0_s, MV.zero_b1_e0, MV.zero_b1_v, MV.zero_b2E_biE, MV.zero_b2e_bie, MV.zero_b3_e123, MV.zero_b3_triP, MV.zero_b4_e0123,
    V3.add_x, V3.add_y, V3.add_z, V3.sub_x, V3.sub_y, V3.sub_z, V3.neg_x, V3.neg_y, V3.neg_z, V3.mul_x, V3.mul_y, V3.mul_z,
    V3.smul_x, V3.smul_y, V3.smul_z, V3.zero_x, V3.zero_y, V3.zero_z, V3.cross_x, V3.cross_y, V3.cross_z, V3.dot,
    mk0, mk1, mk1s, mk1v, mkE, mke, mk3, mk3v, mk4, add_zero, zero_add]
  try ring))

theorem wedge_b0_s (a b : MV R) : (a.wedge b).b0.s = a.b0.s * b.b0.s := by
  unfold_wedge
theorem wedge_b1_e0 (a b : MV R) : (a.wedge b).b1.e0 = a.b0.s * b.b1.e0 + a.b1.e0 * b.b0.s := by
  unfold_wedge
theorem wedge_b1_v_x (a b : MV R) : (a.wedge b).b1.v.x = a.b0.s * b.b1.v.x + a.b1.v.x * b.b0.s := by
  unfold_wedge
theorem wedge_b1_v_y (a b : MV R) : (a.wedge b).b1.v.y = a.b0.s * b.b1.v.y + a.b1.v.y * b.b0.s := by
  unfold_wedge
theorem wedge_b1_v_z (a b : MV R) : (a.wedge b).b1.v.z = a.b0.s * b.b1.v.z + a.b1.v.z * b.b0.s := by
  unfold_wedge
theorem wedge_b2E_biE_x (a b : MV R) : (a.wedge b).b2E.biE.x = a.b0.s * b.b2E.biE.x + a.b1.v.y * b.b1.v.z + a.b2E.biE.x * b.b0.s - a.b1.v.z * b.b1.v.y := by
  unfold_wedge
theorem wedge_b2E_biE_y (a b : MV R) : (a.wedge b).b2E.biE.y = a.b0.s * b.b2E.biE.y + a.b1.v.z * b.b1.v.x + a.b2E.biE.y * b.b0.s - a.b1.v.x * b.b1.v.z := by
  unfold_wedge
theorem wedge_b2E_biE_z (a b : MV R) : (a.wedge b).b2E.biE.z = a.b0.s * b.b2E.biE.z + a.b1.v.x * b.b1.v.y + a.b2E.biE.z * b.b0.s - a.b1.v.y * b.b1.v.x := by
  unfold_wedge
theorem wedge_b2e_bie_x (a b : MV R) : (a.wedge b).b2e.bie.x = a.b0.s * b.b2e.bie.x + a.b1.e0 * b.b1.v.x + a.b2e.bie.x * b.b0.s - a.b1.v.x * b.b1.e0 := by
  unfold_wedge
theorem wedge_b2e_bie_y (a b : MV R) : (a.wedge b).b2e.bie.y = a.b0.s * b.b2e.bie.y + a.b1.e0 * b.b1.v.y + a.b2e.bie.y * b.b0.s - a.b1.v.y * b.b1.e0 := by
  unfold_wedge
theorem wedge_b2e_bie_z (a b : MV R) : (a.wedge b).b2e.bie.z = a.b0.s * b.b2e.bie.z + a.b1.e0 * b.b1.v.z + a.b2e.bie.z * b.b0.s - a.b1.v.z * b.b1.e0 := by
  unfold_wedge
theorem wedge_b3_e123 (a b : MV R) : (a.wedge b).b3.e123 = a.b0.s * b.b3.e123 + a.b1.v.x * b.b2E.biE.x + a.b1.v.y * b.b2E.biE.y + a.b1.v.z * b.b2E.biE.z + a.b2E.biE.x * b.b1.v.x + a.b2E.biE.y * b.b1.v.y + a.b2E.biE.z * b.b1.v.z + a.b3.e123 * b.b0.s := by
  unfold_wedge
theorem wedge_b3_triP_x (a b : MV R) : (a.wedge b).b3.triP.x = a.b0.s * b.b3.triP.x + a.b1.v.y * b.b2e.bie.z + a.b2e.bie.z * b.b1.v.y + a.b3.triP.x * b.b0.s - a.b1.e0 * b.b2E.biE.x - a.b1.v.z * b.b2e.bie.y - a.b2E.biE.x * b.b1.e0 - a.b2e.bie.y * b.b1.v.z := by
  unfold_wedge
theorem wedge_b3_triP_y (a b : MV R) : (a.wedge b).b3.triP.y = a.b0.s * b.b3.triP.y + a.b1.v.z * b.b2e.bie.x + a.b2e.bie.x * b.b1.v.z + a.b3.triP.y * b.b0.s - a.b1.e0 * b.b2E.biE.y - a.b1.v.x * b.b2e.bie.z - a.b2E.biE.y * b.b1.e0 - a.b2e.bie.z * b.b1.v.x := by
  unfold_wedge
theorem wedge_b3_triP_z (a b : MV R) : (a.wedge b).b3.triP.z = a.b0.s * b.b3.triP.z + a.b1.v.x * b.b2e.bie.y + a.b2e.bie.y * b.b1.v.x + a.b3.triP.z * b.b0.s - a.b1.e0 * b.b2E.biE.z - a.b1.v.y * b.b2e.bie.x - a.b2E.biE.z * b.b1.e0 - a.b2e.bie.x * b.b1.v.y := by
  unfold_wedge
theorem wedge_b4_e0123 (a b : MV R) : (a.wedge b).b4.e0123 = a.b0.s * b.b4.e0123 + a.b1.e0 * b.b3.e123 + a.b1.v.x * b.b3.triP.x + a.b1.v.y * b.b3.triP.y + a.b1.v.z * b.b3.triP.z + a.b2E.biE.x * b.b2e.bie.x + a.b2E.biE.y * b.b2e.bie.y + a.b2E.biE.z * b.b2e.bie.z + a.b2e.bie.x * b.b2E.biE.x + a.b2e.bie.y * b.b2E.biE.y + a.b2e.bie.z * b.b2E.biE.z + a.b4.e0123 * b.b0.s - a.b3.e123 * b.b1.e0 - a.b3.triP.x * b.b1.v.x - a.b3.triP.y * b.b1.v.y - a.b3.triP.z * b.b1.v.z := by
  unfold_wedge

macro "unfold_dot" : tactic => `(tactic| (
  simp only [MV.dot, dotR0, dotR1, dotRE, dotRe, dotR3, dotR4,
    dot0_0, dot0_1, dot0_E, dot0_e, dot0_3, dot0_4, dot1_0, dot1_1, dot1_E, dot1_e, dot1_3, dot1_4, dotE_0, dotE_1, dotE_E, dotE_e, dotE_3, dotE_4, dote_0, dote_1, dote_E, dote_e, dote_3, dote_4, dot3_0, dot3_1, dot3_E, dot3_e, dot3_3, dot3_4, dot4_0, dot4_1, dot4_E, dot4_e, dot4_3, dot4_4,
    MV.add_b0_s, MV.add_b1_e0, MV.add_b1_v, MV.add_b2E_biE, MV.add_b2e_bie, MV.add_b3_e123, MV.add_b3_triP, MV.add_b4_e0123,
    MV.zero_b0_s, MV.zero_b1_e0, MV.zero_b1_v, MV.zero_b2E_biE, MV.zero_b2e_bie, MV.zero_b3_e123, MV.zero_b3_triP, MV.zero_b4_e0123,
    V3.add_x, V3.add_y, V3.add_z, V3.sub_x, V3.sub_y, V3.sub_z, V3.neg_x, V3.neg_y, V3.neg_z, V3.mul_x, V3.mul_y, V3.mul_z,
    V3.smul_x, V3.smul_y, V3.smul_z, V3.zero_x, V3.zero_y, V3.zero_z, V3.cross_x, V3.cross_y, V3.cross_z, V3.dot,
    mk0, mk1, mk1s, mk1v, mkE, mke, mk3, mk3v, mk4, add_zero, zero_add]
  try ring))

theorem dot_b0_s (a b : MV R) : (a.dot b).b0.s = a.b0.s * b.b0.s + a.b1.v.x * b.b1.v.x + a.b1.v.y * b.b1.v.y + a.b1.v.z * b.b1.v.z - a.b2E.biE.x * b.b2E.biE.x - a.b2E.biE.y * b.b2E.biE.y - a.b2E.biE.z * b.b2E.biE.z - a.b3.e123 * b.b3.e123 := by
  unfold_dot
theorem dot_b1_e0 (a b : MV R) : (a.dot b).b1.e0 = a.b0.s * b.b1.e0 + a.b1.e0 * b.b0.s + a.b2E.biE.x * b.b3.triP.x + a.b2E.biE.y * b.b3.triP.y + a.b2E.biE.z * b.b3.triP.z + a.b2e.bie.x * b.b1.v.x + a.b2e.bie.y * b.b1.v.y + a.b2e.bie.z * b.b1.v.z + a.b3.e123 * b.b4.e0123 + a.b3.triP.x * b.b2E.biE.x + a.b3.triP.y * b.b2E.biE.y + a.b3.triP.z * b.b2E.biE.z - a.b1.v.x * b.b2e.bie.x - a.b1.v.y * b.b2e.bie.y - a.b1.v.z * b.b2e.bie.z - a.b4.e0123 * b.b3.e123 := by
  unfold_dot
theorem dot_b1_v_x (a b : MV R) : (a.dot b).b1.v.x = a.b0.s * b.b1.v.x + a.b1.v.x * b.b0.s + a.b1.v.z * b.b2E.biE.y + a.b2E.biE.z * b.b1.v.y - a.b1.v.y * b.b2E.biE.z - a.b2E.biE.x * b.b3.e123 - a.b2E.biE.y * b.b1.v.z - a.b3.e123 * b.b2E.biE.x := by
  unfold_dot
theorem dot_b1_v_y (a b : MV R) : (a.dot b).b1.v.y = a.b0.s * b.b1.v.y + a.b1.v.x * b.b2E.biE.z + a.b1.v.y * b.b0.s + a.b2E.biE.x * b.b1.v.z - a.b1.v.z * b.b2E.biE.x - a.b2E.biE.y * b.b3.e123 - a.b2E.biE.z * b.b1.v.x - a.b3.e123 * b.b2E.biE.y := by
  unfold_dot
theorem dot_b1_v_z (a b : MV R) : (a.dot b).b1.v.z = a.b0.s * b.b1.v.z + a.b1.v.y * b.b2E.biE.x + a.b1.v.z * b.b0.s + a.b2E.biE.y * b.b1.v.x - a.b1.v.x * b.b2E.biE.y - a.b2E.biE.x * b.b1.v.y - a.b2E.biE.z * b.b3.e123 - a.b3.e123 * b.b2E.biE.z := by
  unfold_dot
theorem dot_b2E_biE_x (a b : MV R) : (a.dot b).b2E.biE.x = a.b0.s * b.b2E.biE.x + a.b1.v.x * b.b3.e123 + a.b2E.biE.x * b.b0.s + a.b3.e123 * b.b1.v.x := by
  unfold_dot
theorem dot_b2E_biE_y (a b : MV R) : (a.dot b).b2E.biE.y = a.b0.s * b.b2E.biE.y + a.b1.v.y * b.b3.e123 + a.b2E.biE.y * b.b0.s + a.b3.e123 * b.b1.v.y := by
  unfold_dot
theorem dot_b2E_biE_z (a b : MV R) : (a.dot b).b2E.biE.z = a.b0.s * b.b2E.biE.z + a.b1.v.z * b.b3.e123 + a.b2E.biE.z * b.b0.s + a.b3.e123 * b.b1.v.z := by
  unfold_dot
theorem dot_b2e_bie_x (a b : MV R) : (a.dot b).b2e.bie.x = a.b0.s * b.b2e.bie.x + a.b1.v.z * b.b3.triP.y + a.b2e.bie.x * b.b0.s + a.b3.triP.y * b.b1.v.z - a.b1.v.y * b.b3.triP.z - a.b2E.biE.x * b.b4.e0123 - a.b3.triP.z * b.b1.v.y - a.b4.e0123 * b.b2E.biE.x := by
  unfold_dot
theorem dot_b2e_bie_y (a b : MV R) : (a.dot b).b2e.bie.y = a.b0.s * b.b2e.bie.y + a.b1.v.x * b.b3.triP.z + a.b2e.bie.y * b.b0.s + a.b3.triP.z * b.b1.v.x - a.b1.v.z * b.b3.triP.x - a.b2E.biE.y * b.b4.e0123 - a.b3.triP.x * b.b1.v.z - a.b4.e0123 * b.b2E.biE.y := by
  unfold_dot
theorem dot_b2e_bie_z (a b : MV R) : (a.dot b).b2e.bie.z = a.b0.s * b.b2e.bie.z + a.b1.v.y * b.b3.triP.x + a.b2e.bie.z * b.b0.s + a.b3.triP.x * b.b1.v.y - a.b1.v.x * b.b3.triP.y - a.b2E.biE.z * b.b4.e0123 - a.b3.triP.y * b.b1.v.x - a.b4.e0123 * b.b2E.biE.z := by
  unfold_dot
theorem dot_b3_e123 (a b : MV R) : (a.dot b).b3.e123 = a.b0.s * b.b3.e123 + a.b3.e123 * b.b0.s := by
  unfold_dot
theorem dot_b3_triP_x (a b : MV R) : (a.dot b).b3.triP.x = a.b0.s * b.b3.triP.x + a.b1.v.x * b.b4.e0123 + a.b3.triP.x * b.b0.s - a.b4.e0123 * b.b1.v.x := by
  unfold_dot
theorem dot_b3_triP_y (a b : MV R) : (a.dot b).b3.triP.y = a.b0.s * b.b3.triP.y + a.b1.v.y * b.b4.e0123 + a.b3.triP.y * b.b0.s - a.b4.e0123 * b.b1.v.y := by
  unfold_dot
theorem dot_b3_triP_z (a b : MV R) : (a.dot b).b3.triP.z = a.b0.s * b.b3.triP.z + a.b1.v.z * b.b4.e0123 + a.b3.triP.z * b.b0.s - a.b4.e0123 * b.b1.v.z := by
  unfold_dot
theorem dot_b4_e0123 (a b : MV R) : (a.dot b).b4.e0123 = a.b0.s * b.b4.e0123 + a.b4.e0123 * b.b0.s := by
  unfold_dot

macro "unfold_join" : tactic => `(tactic| (
  simp only [MV.join, joinR0, joinR1, joinRE, joinRe, joinR3, joinR4,
    join0_0, join0_1, join0_E, join0_e, join0_3, join0_4, join1_0, join1_1, join1_E, join1_e, join1_3, join1_4, joinE_0, joinE_1, joinE_E, joinE_e, joinE_3, joinE_4, joine_0, joine_1, joine_E, joine_e, joine_3, joine_4, join3_0, join3_1, join3_E, join3_e, join3_3, join3_4, join4_0, join4_1, join4_E, join4_e, join4_3, join4_4,
    MV.add_b0_s, MV.add_b1_e0, MV.add_b1_v, MV.add_b2E_biE, MV.add_b2e_bie, MV.add_b3_e123, MV.add_b3_triP, MV.add_b4_e0123,
    MV.zero_b0_s, MV.zero_b1_e0, MV.zero_b1_v, MV.zero_b2E_biE, MV.zero_b2e_bie, MV.zero_b3_e123, MV.zero_b3_triP, MV.zero_b4_e0123,
    V3.add_x, V3.add_y, V3.add_z, V3.sub_x, V3.sub_y, V3.sub_z, V3.neg_x, V3.neg_y, V3.neg_z, V3.mul_x, V3.mul_y, V3.mul_z,
    V3.smul_x, V3.smul_y, V3.smul_z, V3.zero_x, V3.zero_y, V3.zero_z, V3.cross_x, V3.cross_y, V3.cross_z, V3.dot,
    mk0, mk1, mk1s, mk1v, mkE, mke, mk3, mk3v, mk4, add_zero, zero_add]
  try ring))

theorem join_b0_s (a b : MV R) : (a.join b).b0.s = a.b0.s * b.b4.e0123 + a.b2E.biE.x * b.b2e.bie.x + a.b2E.biE.y * b.b2e.bie.y + a.b2E.biE.z * b.b2e.bie.z + a.b2e.bie.x * b.b2E.biE.x + a.b2e.bie.y * b.b2E.biE.y + a.b2e.bie.z * b.b2E.biE.z + a.b3.e123 * b.b1.e0 + a.b3.triP.x * b.b1.v.x + a.b3.triP.y * b.b1.v.y + a.b3.triP.z * b.b1.v.z + a.b4.e0123 * b.b0.s - a.b1.e0 * b.b3.e123 - a.b1.v.x * b.b3.triP.x - a.b1.v.y * b.b3.triP.y - a.b1.v.z * b.b3.triP.z := by
  unfold_join
theorem join_b1_e0 (a b : MV R) : (a.join b).b1.e0 = a.b1.e0 * b.b4.e0123 + a.b2e.bie.x * b.b3.triP.x + a.b2e.bie.y * b.b3.triP.y + a.b2e.bie.z * b.b3.triP.z + a.b3.triP.x * b.b2e.bie.x + a.b3.triP.y * b.b2e.bie.y + a.b3.triP.z * b.b2e.bie.z + a.b4.e0123 * b.b1.e0 := by
  unfold_join
theorem join_b1_v_x (a b : MV R) : (a.join b).b1.v.x = a.b1.v.x * b.b4.e0123 + a.b2E.biE.z * b.b3.triP.y + a.b3.triP.y * b.b2E.biE.z + a.b4.e0123 * b.b1.v.x - a.b2E.biE.y * b.b3.triP.z - a.b2e.bie.x * b.b3.e123 - a.b3.e123 * b.b2e.bie.x - a.b3.triP.z * b.b2E.biE.y := by
  unfold_join
theorem join_b1_v_y (a b : MV R) : (a.join b).b1.v.y = a.b1.v.y * b.b4.e0123 + a.b2E.biE.x * b.b3.triP.z + a.b3.triP.z * b.b2E.biE.x + a.b4.e0123 * b.b1.v.y - a.b2E.biE.z * b.b3.triP.x - a.b2e.bie.y * b.b3.e123 - a.b3.e123 * b.b2e.bie.y - a.b3.triP.x * b.b2E.biE.z := by
  unfold_join
theorem join_b1_v_z (a b : MV R) : (a.join b).b1.v.z = a.b1.v.z * b.b4.e0123 + a.b2E.biE.y * b.b3.triP.x + a.b3.triP.x * b.b2E.biE.y + a.b4.e0123 * b.b1.v.z - a.b2E.biE.x * b.b3.triP.y - a.b2e.bie.z * b.b3.e123 - a.b3.e123 * b.b2e.bie.z - a.b3.triP.y * b.b2E.biE.x := by
  unfold_join
theorem join_b2E_biE_x (a b : MV R) : (a.join b).b2E.biE.x = a.b2E.biE.x * b.b4.e0123 + a.b3.e123 * b.b3.triP.x + a.b4.e0123 * b.b2E.biE.x - a.b3.triP.x * b.b3.e123 := by
  unfold_join
theorem join_b2E_biE_y (a b : MV R) : (a.join b).b2E.biE.y = a.b2E.biE.y * b.b4.e0123 + a.b3.e123 * b.b3.triP.y + a.b4.e0123 * b.b2E.biE.y - a.b3.triP.y * b.b3.e123 := by
  unfold_join
theorem join_b2E_biE_z (a b : MV R) : (a.join b).b2E.biE.z = a.b2E.biE.z * b.b4.e0123 + a.b3.e123 * b.b3.triP.z + a.b4.e0123 * b.b2E.biE.z - a.b3.triP.z * b.b3.e123 := by
  unfold_join
theorem join_b2e_bie_x (a b : MV R) : (a.join b).b2e.bie.x = a.b2e.bie.x * b.b4.e0123 + a.b3.triP.y * b.b3.triP.z + a.b4.e0123 * b.b2e.bie.x - a.b3.triP.z * b.b3.triP.y := by
  unfold_join
theorem join_b2e_bie_y (a b : MV R) : (a.join b).b2e.bie.y = a.b2e.bie.y * b.b4.e0123 + a.b3.triP.z * b.b3.triP.x + a.b4.e0123 * b.b2e.bie.y - a.b3.triP.x * b.b3.triP.z := by
  unfold_join
theorem join_b2e_bie_z (a b : MV R) : (a.join b).b2e.bie.z = a.b2e.bie.z * b.b4.e0123 + a.b3.triP.x * b.b3.triP.y + a.b4.e0123 * b.b2e.bie.z - a.b3.triP.y * b.b3.triP.x := by
  unfold_join
theorem join_b3_e123 (a b : MV R) : (a.join b).b3.e123 = a.b3.e123 * b.b4.e0123 + a.b4.e0123 * b.b3.e123 := by
  unfold_join
theorem join_b3_triP_x (a b : MV R) : (a.join b).b3.triP.x = a.b3.triP.x * b.b4.e0123 + a.b4.e0123 * b.b3.triP.x := by
  unfold_join
theorem join_b3_triP_y (a b : MV R) : (a.join b).b3.triP.y = a.b3.triP.y * b.b4.e0123 + a.b4.e0123 * b.b3.triP.y := by
  unfold_join
theorem join_b3_triP_z (a b : MV R) : (a.join b).b3.triP.z = a.b3.triP.z * b.b4.e0123 + a.b4.e0123 * b.b3.triP.z := by
  unfold_join
theorem join_b4_e0123 (a b : MV R) : (a.join b).b4.e0123 = a.b4.e0123 * b.b4.e0123 := by
  unfold_join

end Altruct.Pga
