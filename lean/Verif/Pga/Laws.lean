/-
Property C70, part two: the laws of the products of `pga.h`, and the sandwich product.
-/
import Verif.Pga.Coords
import Mathlib.Tactic.IntervalCases

namespace Altruct.Pga

section ring
variable {R : Type} [CommRing R]

/-! ### the specification -/

/-- The generators. -/
def e0 : MV R := mk1 1 0
def e1 : MV R := mk1 0 ⟨1, 0, 0⟩
def e2 : MV R := mk1 0 ⟨0, 1, 0⟩
def e3 : MV R := mk1 0 ⟨0, 0, 1⟩

/-- The part of a given grade: the number of generators in the product. -/
def MV.grade (k : ℕ) (a : MV R) : MV R :=
  match k with
  | 0 => a.b0.mv
  | 1 => a.b1.mv
  | 2 => a.b2E.mv + a.b2e.mv
  | 3 => a.b3.mv
  | 4 => a.b4.mv
  | _ => 0

/-! ### coordinates -/

theorem MV.ext16 {a b : MV R} (h0 : a.b0.s = b.b0.s) (h1 : a.b1.e0 = b.b1.e0) (h2 : a.b1.v.x = b.b1.v.x) (h3 : a.b1.v.y = b.b1.v.y) (h4 : a.b1.v.z = b.b1.v.z) (h5 : a.b2E.biE.x = b.b2E.biE.x) (h6 : a.b2E.biE.y = b.b2E.biE.y) (h7 : a.b2E.biE.z = b.b2E.biE.z) (h8 : a.b2e.bie.x = b.b2e.bie.x) (h9 : a.b2e.bie.y = b.b2e.bie.y) (h10 : a.b2e.bie.z = b.b2e.bie.z) (h11 : a.b3.e123 = b.b3.e123) (h12 : a.b3.triP.x = b.b3.triP.x) (h13 : a.b3.triP.y = b.b3.triP.y) (h14 : a.b3.triP.z = b.b3.triP.z) (h15 : a.b4.e0123 = b.b4.e0123) : a = b := by
  rcases a with ⟨⟨a0⟩, ⟨a1, ⟨a2, a3, a4⟩⟩, ⟨⟨a5, a6, a7⟩⟩, ⟨⟨a8, a9, a10⟩⟩, ⟨a11, ⟨a12, a13, a14⟩⟩, ⟨a15⟩⟩
  rcases b with ⟨⟨b0⟩, ⟨b1, ⟨b2, b3, b4⟩⟩, ⟨⟨b5, b6, b7⟩⟩, ⟨⟨b8, b9, b10⟩⟩, ⟨b11, ⟨b12, b13, b14⟩⟩, ⟨b15⟩⟩
  simp only at h0 h1 h2 h3 h4 h5 h6 h7 h8 h9 h10 h11 h12 h13 h14 h15
  subst h0 h1 h2 h3 h4 h5 h6 h7 h8 h9 h10 h11 h12 h13 h14 h15
  rfl

macro "pga_ext" : tactic => `(tactic| (
  apply MV.ext16 <;>
  simp only [MV.add_b0_s, MV.add_b1_e0, MV.add_b1_v, MV.add_b2E_biE, MV.add_b2e_bie, MV.add_b3_e123, MV.add_b3_triP, MV.add_b4_e0123,
    MV.sub_b0_s, MV.sub_b1_e0, MV.sub_b1_v, MV.sub_b2E_biE, MV.sub_b2e_bie, MV.sub_b3_e123, MV.sub_b3_triP, MV.sub_b4_e0123,
    MV.neg_b0_s, MV.neg_b1_e0, MV.neg_b1_v, MV.neg_b2E_biE, MV.neg_b2e_bie, MV.neg_b3_e123, MV.neg_b3_triP, MV.neg_b4_e0123,
    MV.smul_b0_s, MV.smul_b1_e0, MV.smul_b1_v, MV.smul_b2E_biE, MV.smul_b2e_bie, MV.smul_b3_e123, MV.smul_b3_triP, MV.smul_b4_e0123,
    MV.zero_b0_s, MV.zero_b1_e0, MV.zero_b1_v, MV.zero_b2E_biE, MV.zero_b2e_bie, MV.zero_b3_e123, MV.zero_b3_triP, MV.zero_b4_e0123,
    V3.add_x, V3.add_y, V3.add_z, V3.sub_x, V3.sub_y, V3.sub_z, V3.neg_x, V3.neg_y, V3.neg_z, V3.mul_x, V3.mul_y, V3.mul_z,
    V3.smul_x, V3.smul_y, V3.smul_z, V3.zero_x, V3.zero_y, V3.zero_z, V3.cross_x, V3.cross_y, V3.cross_z, V3.dot, V3.abs2,
    mk0, mk1, mk1s, mk1v, mkE, mke, mk3, mk3s, mk3v, mk4, MV.rev, MV.dual, B0.mv, B1.mv, BE.mv, Be.mv, B3.mv, B4.mv,
    mul_b0_s, mul_b1_e0, mul_b1_v_x, mul_b1_v_y, mul_b1_v_z, mul_b2E_biE_x, mul_b2E_biE_y, mul_b2E_biE_z, mul_b2e_bie_x, mul_b2e_bie_y, mul_b2e_bie_z, mul_b3_e123, mul_b3_triP_x, mul_b3_triP_y, mul_b3_triP_z, mul_b4_e0123,
    wedge_b0_s, wedge_b1_e0, wedge_b1_v_x, wedge_b1_v_y, wedge_b1_v_z, wedge_b2E_biE_x, wedge_b2E_biE_y, wedge_b2E_biE_z, wedge_b2e_bie_x, wedge_b2e_bie_y, wedge_b2e_bie_z, wedge_b3_e123, wedge_b3_triP_x, wedge_b3_triP_y, wedge_b3_triP_z, wedge_b4_e0123,
    dot_b0_s, dot_b1_e0, dot_b1_v_x, dot_b1_v_y, dot_b1_v_z, dot_b2E_biE_x, dot_b2E_biE_y, dot_b2E_biE_z, dot_b2e_bie_x, dot_b2e_bie_y, dot_b2e_bie_z, dot_b3_e123, dot_b3_triP_x, dot_b3_triP_y, dot_b3_triP_z, dot_b4_e0123,
    join_b0_s, join_b1_e0, join_b1_v_x, join_b1_v_y, join_b1_v_z, join_b2E_biE_x, join_b2E_biE_y, join_b2E_biE_z, join_b2e_bie_x, join_b2e_bie_y, join_b2e_bie_z, join_b3_e123, join_b3_triP_x, join_b3_triP_y, join_b3_triP_z, join_b4_e0123,
    e0, e1, e2, e3, mul_zero, zero_mul, add_zero, zero_add, sub_zero, zero_sub, neg_zero] <;> (try ring)))

set_option maxHeartbeats 2000000 in
theorem mul_assoc' (a b c : MV R) : (a.mul b).mul c = a.mul (b.mul c) := by pga_ext

theorem mul_distrib (a b c : MV R) : a.mul (b + c) = a.mul b + a.mul c ∧ (a + b).mul c = a.mul c + b.mul c := by
  constructor <;> pga_ext

/-- Multivectors are a ring under `+` and `*`. -/
theorem C70_ring (a b c : MV R) :
    (a.mul b).mul c = a.mul (b.mul c) ∧ (mk0 1).mul a = a ∧ a.mul (mk0 1) = a ∧
    a.mul (b + c) = a.mul b + a.mul c ∧ (a + b).mul c = a.mul c + b.mul c ∧
    a + b = b + a ∧ (a + b) + c = a + (b + c) ∧ a + 0 = a ∧ a + -a = 0 ∧ a - b = a + -b := by
  refine ⟨mul_assoc' a b c, ?_, ?_, (mul_distrib a b c).1, (mul_distrib a b c).2, ?_, ?_, ?_, ?_, ?_⟩ <;> pga_ext

/-- `e0` squares to zero, the other generators to one, and any two anticommute. -/
theorem C70_generators :
    (e0 : MV R).mul e0 = 0 ∧ (e1 : MV R).mul e1 = mk0 1 ∧ (e2 : MV R).mul e2 = mk0 1 ∧ (e3 : MV R).mul e3 = mk0 1 ∧
    (e1 : MV R).mul e0 = -(e0.mul e1) ∧ (e2 : MV R).mul e0 = -(e0.mul e2) ∧ (e3 : MV R).mul e0 = -(e0.mul e3) ∧
    (e2 : MV R).mul e1 = -(e1.mul e2) ∧ (e3 : MV R).mul e1 = -(e1.mul e3) ∧ (e3 : MV R).mul e2 = -(e2.mul e3) := by
  refine ⟨?_, ?_, ?_, ?_, ?_, ?_, ?_, ?_, ?_, ?_⟩ <;> pga_ext

set_option maxHeartbeats 2000000 in
/-- Every multivector is the documented combination of products of the generators. -/
theorem C70_basis (m : MV R) :
    m = mk0 m.b0.s + ((e0 : MV R) * m.b1.e0 + (e1 : MV R) * m.b1.v.x + (e2 : MV R) * m.b1.v.y + (e3 : MV R) * m.b1.v.z) +
      ((e2 : MV R).mul (e3 : MV R) * m.b2E.biE.x + (e3 : MV R).mul (e1 : MV R) * m.b2E.biE.y + (e1 : MV R).mul (e2 : MV R) * m.b2E.biE.z) +
      ((e0 : MV R).mul (e1 : MV R) * m.b2e.bie.x + (e0 : MV R).mul (e2 : MV R) * m.b2e.bie.y + (e0 : MV R).mul (e3 : MV R) * m.b2e.bie.z) +
      (((e1 : MV R).mul e2).mul (e3 : MV R) * m.b3.e123 + ((e0 : MV R).mul e3).mul (e2 : MV R) * m.b3.triP.x + ((e0 : MV R).mul e1).mul (e3 : MV R) * m.b3.triP.y + ((e0 : MV R).mul e2).mul (e1 : MV R) * m.b3.triP.z) +
      (((e0 : MV R).mul e1).mul e2).mul (e3 : MV R) * m.b4.e0123 := by
  pga_ext

set_option maxHeartbeats 2000000 in
/-- All four products are bilinear. -/
theorem C70_bilinear (a b c : MV R) (t : R) :
    a.mul (b + c * t) = a.mul b + a.mul c * t ∧ (a + b * t).mul c = a.mul c + b.mul c * t ∧
    a.wedge (b + c * t) = a.wedge b + a.wedge c * t ∧ (a + b * t).wedge c = a.wedge c + b.wedge c * t ∧
    a.dot (b + c * t) = a.dot b + a.dot c * t ∧ (a + b * t).dot c = a.dot c + b.dot c * t ∧
    a.join (b + c * t) = a.join b + a.join c * t ∧ (a + b * t).join c = a.join c + b.join c * t := by
  refine ⟨?_, ?_, ?_, ?_, ?_, ?_, ?_, ?_⟩ <;> pga_ext

/-- A multivector is the sum of its parts of the grades zero to four. -/
theorem C70_grades (a : MV R) : a = a.grade 0 + a.grade 1 + a.grade 2 + a.grade 3 + a.grade 4 := by
  simp only [MV.grade]
  pga_ext

set_option maxHeartbeats 4000000 in
/-- The wedge and the dot product of parts of the grades `r` and `s` are the parts of the geometric product of the grades `r + s` and
`|r - s|`.  With `C70_bilinear` and `C70_grades` this determines the two products. -/
theorem C70_graded (a b : MV R) (r s : ℕ) (hr : r ≤ 4) (hs : s ≤ 4) :
    (a.grade r).wedge (b.grade s) = ((a.grade r).mul (b.grade s)).grade (r + s) ∧
    (a.grade r).dot (b.grade s) = ((a.grade r).mul (b.grade s)).grade (if r ≤ s then s - r else r - s) := by
  interval_cases r <;> interval_cases s <;> (constructor <;> simp +decide only [MV.grade, if_true, if_false] <;> pga_ext)

/-- The join is the dual of the wedge product of the duals, and the dual is its own inverse. -/
theorem C70_join (a b : MV R) : a.join b = (a.dual.wedge b.dual).dual ∧ a.dual.dual = a ∧ (a + b).dual = a.dual + b.dual := by
  refine ⟨?_, ?_, ?_⟩ <;> pga_ext

/-- `rev` is the anti-automorphism that keeps the generators. -/
theorem C70_reverse (a b : MV R) : (a.mul b).rev = b.rev.mul a.rev ∧ (a + b).rev = a.rev + b.rev ∧
    (e0 : MV R).rev = e0 ∧ (e1 : MV R).rev = e1 ∧ (e2 : MV R).rev = e2 ∧ (e3 : MV R).rev = e3 ∧ (mk0 1 : MV R).rev = mk0 1 := by
  refine ⟨?_, ?_, ?_, ?_, ?_, ?_, ?_⟩ <;> pga_ext

end ring

end Altruct.Pga

