/-
Property C70, part one: the geometric product and the wedge product of `pga.h` are those of the Clifford algebra Cl(3, 0, 1) and of
the exterior algebra.
-/
import Verif.Pga.Model
import Mathlib.Algebra.Algebra.Basic
import Mathlib.Tactic.Ring
import Mathlib.Tactic.NoncommRing
import Mathlib.Tactic.Module

namespace Altruct.Pga

variable {R : Type} [CommRing R]

/-! ### the specification -/

/-- The element that the documentation says a multivector stands for, in an algebra with elements `f0`, `f1`, `f2`, `f3`. -/
def value {A : Type} [Ring A] [Algebra R A] (f0 f1 f2 f3 : A) (m : MV R) : A :=
  m.b0.s • (1 : A) + (m.b1.e0 • f0 + m.b1.v.x • f1 + m.b1.v.y • f2 + m.b1.v.z • f3) +
  (m.b2E.biE.x • (f2 * f3) + m.b2E.biE.y • (f3 * f1) + m.b2E.biE.z • (f1 * f2)) +
  (m.b2e.bie.x • (f0 * f1) + m.b2e.bie.y • (f0 * f2) + m.b2e.bie.z • (f0 * f3)) +
  (m.b3.e123 • (f1 * f2 * f3) + m.b3.triP.x • (f0 * f3 * f2) + m.b3.triP.y • (f0 * f1 * f3) + m.b3.triP.z • (f0 * f2 * f1)) +
  m.b4.e0123 • (f0 * f1 * f2 * f3)

/-- Any two of the elements anticommute. -/
structure Anti {A : Type} [Ring A] (f0 f1 f2 f3 : A) : Prop where
  anti01 : f1 * f0 = -(f0 * f1)
  anti02 : f2 * f0 = -(f0 * f2)
  anti03 : f3 * f0 = -(f0 * f3)
  anti12 : f2 * f1 = -(f1 * f2)
  anti13 : f3 * f1 = -(f1 * f3)
  anti23 : f3 * f2 = -(f2 * f3)

/-- The generators of the geometric algebra: `f0` squares to zero and the others to one. -/
structure Gens {A : Type} [Ring A] (f0 f1 f2 f3 : A) : Prop extends Anti f0 f1 f2 f3 where
  sq0 : f0 * f0 = 0
  sq1 : f1 * f1 = 1
  sq2 : f2 * f2 = 1
  sq3 : f3 * f3 = 1

/-- The generators of the exterior algebra: all of them square to zero. -/
structure ExtGens {A : Type} [Ring A] (f0 f1 f2 f3 : A) : Prop extends Anti f0 f1 f2 f3 where
  sq0 : f0 * f0 = 0
  sq1 : f1 * f1 = 0
  sq2 : f2 * f2 = 0
  sq3 : f3 * f3 = 0

/-! ### coordinates -/

@[simp] theorem V3.add_x (a b : V3 R) : (a + b).x = a.x + b.x := rfl
@[simp] theorem V3.add_y (a b : V3 R) : (a + b).y = a.y + b.y := rfl
@[simp] theorem V3.add_z (a b : V3 R) : (a + b).z = a.z + b.z := rfl
@[simp] theorem V3.sub_x (a b : V3 R) : (a - b).x = a.x - b.x := rfl
@[simp] theorem V3.sub_y (a b : V3 R) : (a - b).y = a.y - b.y := rfl
@[simp] theorem V3.sub_z (a b : V3 R) : (a - b).z = a.z - b.z := rfl
@[simp] theorem V3.neg_x (a : V3 R) : (-a).x = -a.x := rfl
@[simp] theorem V3.neg_y (a : V3 R) : (-a).y = -a.y := rfl
@[simp] theorem V3.neg_z (a : V3 R) : (-a).z = -a.z := rfl
@[simp] theorem V3.mul_x (a : V3 R) (t : R) : (a * t).x = a.x * t := rfl
@[simp] theorem V3.mul_y (a : V3 R) (t : R) : (a * t).y = a.y * t := rfl
@[simp] theorem V3.mul_z (a : V3 R) (t : R) : (a * t).z = a.z * t := rfl
@[simp] theorem V3.smul_x (t : R) (a : V3 R) : (t * a).x = t * a.x := rfl
@[simp] theorem V3.smul_y (t : R) (a : V3 R) : (t * a).y = t * a.y := rfl
@[simp] theorem V3.smul_z (t : R) (a : V3 R) : (t * a).z = t * a.z := rfl
@[simp] theorem V3.zero_x : (0 : V3 R).x = 0 := rfl
@[simp] theorem V3.zero_y : (0 : V3 R).y = 0 := rfl
@[simp] theorem V3.zero_z : (0 : V3 R).z = 0 := rfl
@[simp] theorem V3.cross_x (a b : V3 R) : (a ⨯ b).x = a.y * b.z - a.z * b.y := rfl
@[simp] theorem V3.cross_y (a b : V3 R) : (a ⨯ b).y = a.z * b.x - a.x * b.z := rfl
@[simp] theorem V3.cross_z (a b : V3 R) : (a ⨯ b).z = a.x * b.y - a.y * b.x := rfl

@[simp] theorem MV.add_b0_s (a b : MV R) : (a + b).b0.s = a.b0.s + b.b0.s := rfl
@[simp] theorem MV.sub_b0_s (a b : MV R) : (a - b).b0.s = a.b0.s - b.b0.s := rfl
@[simp] theorem MV.neg_b0_s (a : MV R) : (-a).b0.s = -a.b0.s := rfl
@[simp] theorem MV.smul_b0_s (a : MV R) (t : R) : (a * t).b0.s = a.b0.s * t := rfl
@[simp] theorem MV.zero_b0_s : (0 : MV R).b0.s = 0 := rfl
@[simp] theorem MV.add_b1_e0 (a b : MV R) : (a + b).b1.e0 = a.b1.e0 + b.b1.e0 := rfl
@[simp] theorem MV.sub_b1_e0 (a b : MV R) : (a - b).b1.e0 = a.b1.e0 - b.b1.e0 := rfl
@[simp] theorem MV.neg_b1_e0 (a : MV R) : (-a).b1.e0 = -a.b1.e0 := rfl
@[simp] theorem MV.smul_b1_e0 (a : MV R) (t : R) : (a * t).b1.e0 = a.b1.e0 * t := rfl
@[simp] theorem MV.zero_b1_e0 : (0 : MV R).b1.e0 = 0 := rfl
@[simp] theorem MV.add_b1_v (a b : MV R) : (a + b).b1.v = a.b1.v + b.b1.v := rfl
@[simp] theorem MV.sub_b1_v (a b : MV R) : (a - b).b1.v = a.b1.v - b.b1.v := rfl
@[simp] theorem MV.neg_b1_v (a : MV R) : (-a).b1.v = -a.b1.v := rfl
@[simp] theorem MV.smul_b1_v (a : MV R) (t : R) : (a * t).b1.v = a.b1.v * t := rfl
@[simp] theorem MV.zero_b1_v : (0 : MV R).b1.v = 0 := rfl
@[simp] theorem MV.add_b2E_biE (a b : MV R) : (a + b).b2E.biE = a.b2E.biE + b.b2E.biE := rfl
@[simp] theorem MV.sub_b2E_biE (a b : MV R) : (a - b).b2E.biE = a.b2E.biE - b.b2E.biE := rfl
@[simp] theorem MV.neg_b2E_biE (a : MV R) : (-a).b2E.biE = -a.b2E.biE := rfl
@[simp] theorem MV.smul_b2E_biE (a : MV R) (t : R) : (a * t).b2E.biE = a.b2E.biE * t := rfl
@[simp] theorem MV.zero_b2E_biE : (0 : MV R).b2E.biE = 0 := rfl
@[simp] theorem MV.add_b2e_bie (a b : MV R) : (a + b).b2e.bie = a.b2e.bie + b.b2e.bie := rfl
@[simp] theorem MV.sub_b2e_bie (a b : MV R) : (a - b).b2e.bie = a.b2e.bie - b.b2e.bie := rfl
@[simp] theorem MV.neg_b2e_bie (a : MV R) : (-a).b2e.bie = -a.b2e.bie := rfl
@[simp] theorem MV.smul_b2e_bie (a : MV R) (t : R) : (a * t).b2e.bie = a.b2e.bie * t := rfl
@[simp] theorem MV.zero_b2e_bie : (0 : MV R).b2e.bie = 0 := rfl
@[simp] theorem MV.add_b3_e123 (a b : MV R) : (a + b).b3.e123 = a.b3.e123 + b.b3.e123 := rfl
@[simp] theorem MV.sub_b3_e123 (a b : MV R) : (a - b).b3.e123 = a.b3.e123 - b.b3.e123 := rfl
@[simp] theorem MV.neg_b3_e123 (a : MV R) : (-a).b3.e123 = -a.b3.e123 := rfl
@[simp] theorem MV.smul_b3_e123 (a : MV R) (t : R) : (a * t).b3.e123 = a.b3.e123 * t := rfl
@[simp] theorem MV.zero_b3_e123 : (0 : MV R).b3.e123 = 0 := rfl
@[simp] theorem MV.add_b3_triP (a b : MV R) : (a + b).b3.triP = a.b3.triP + b.b3.triP := rfl
@[simp] theorem MV.sub_b3_triP (a b : MV R) : (a - b).b3.triP = a.b3.triP - b.b3.triP := rfl
@[simp] theorem MV.neg_b3_triP (a : MV R) : (-a).b3.triP = -a.b3.triP := rfl
@[simp] theorem MV.smul_b3_triP (a : MV R) (t : R) : (a * t).b3.triP = a.b3.triP * t := rfl
@[simp] theorem MV.zero_b3_triP : (0 : MV R).b3.triP = 0 := rfl
@[simp] theorem MV.add_b4_e0123 (a b : MV R) : (a + b).b4.e0123 = a.b4.e0123 + b.b4.e0123 := rfl
@[simp] theorem MV.sub_b4_e0123 (a b : MV R) : (a - b).b4.e0123 = a.b4.e0123 - b.b4.e0123 := rfl
@[simp] theorem MV.neg_b4_e0123 (a : MV R) : (-a).b4.e0123 = -a.b4.e0123 := rfl
@[simp] theorem MV.smul_b4_e0123 (a : MV R) (t : R) : (a * t).b4.e0123 = a.b4.e0123 * t := rfl
@[simp] theorem MV.zero_b4_e0123 : (0 : MV R).b4.e0123 = 0 := rfl

section
variable {A : Type} [Ring A] [Algebra R A] (f0 f1 f2 f3 : A)

theorem value_add (a b : MV R) : value f0 f1 f2 f3 (a + b) = value f0 f1 f2 f3 a + value f0 f1 f2 f3 b := by
  simp only [value, MV.add_b0_s, MV.add_b1_e0, MV.add_b1_v, MV.add_b2E_biE, MV.add_b2e_bie, MV.add_b3_e123, MV.add_b3_triP, MV.add_b4_e0123,
    V3.add_x, V3.add_y, V3.add_z]
  module

theorem value_parts (a : MV R) : value f0 f1 f2 f3 a =
    ((value f0 f1 f2 f3 a.b0.mv + value f0 f1 f2 f3 a.b2E.mv) + (value f0 f1 f2 f3 a.b2e.mv + value f0 f1 f2 f3 a.b4.mv)) +
    (value f0 f1 f2 f3 a.b1.mv + value f0 f1 f2 f3 a.b3.mv) := by
  simp only [value, B0.mv, B1.mv, BE.mv, Be.mv, B3.mv, B4.mv, mk0, mk1, mkE, mke, mk3, mk4, V3.zero_x, V3.zero_y, V3.zero_z]
  module
end

section
variable {A : Type} [Ring A] [Algebra R A] {f0 f1 f2 f3 : A}

macro "pga_mul" h:ident : tactic => `(tactic| (
  obtain ⟨⟨h01, h02, h03, h12, h13, h23⟩, h0, h1, h2, h3⟩ := $h
  have k0 : ∀ x, f0 * (f0 * x) = 0 := fun x => by rw [← mul_assoc, h0, zero_mul]
  have k1 : ∀ x, f1 * (f1 * x) = x := fun x => by rw [← mul_assoc, h1, one_mul]
  have k2 : ∀ x, f2 * (f2 * x) = x := fun x => by rw [← mul_assoc, h2, one_mul]
  have k3 : ∀ x, f3 * (f3 * x) = x := fun x => by rw [← mul_assoc, h3, one_mul]
  have k01 : ∀ x, f1 * (f0 * x) = -(f0 * (f1 * x)) := fun x => by rw [← mul_assoc, h01, neg_mul, mul_assoc]
  have k02 : ∀ x, f2 * (f0 * x) = -(f0 * (f2 * x)) := fun x => by rw [← mul_assoc, h02, neg_mul, mul_assoc]
  have k03 : ∀ x, f3 * (f0 * x) = -(f0 * (f3 * x)) := fun x => by rw [← mul_assoc, h03, neg_mul, mul_assoc]
  have k12 : ∀ x, f2 * (f1 * x) = -(f1 * (f2 * x)) := fun x => by rw [← mul_assoc, h12, neg_mul, mul_assoc]
  have k13 : ∀ x, f3 * (f1 * x) = -(f1 * (f3 * x)) := fun x => by rw [← mul_assoc, h13, neg_mul, mul_assoc]
  have k23 : ∀ x, f3 * (f2 * x) = -(f2 * (f3 * x)) := fun x => by rw [← mul_assoc, h23, neg_mul, mul_assoc]
  simp only [value, B0.mv, B1.mv, BE.mv, Be.mv, B3.mv, B4.mv, mk0, mk1, mk1s, mk1v, mkE, mke, mk3, mk3v, mk4, V3.dot,
    MV.add_b0_s, MV.add_b1_e0, MV.add_b1_v, MV.add_b2E_biE, MV.add_b2e_bie, MV.add_b3_e123, MV.add_b3_triP, MV.add_b4_e0123,
    MV.zero_b0_s, MV.zero_b1_e0, MV.zero_b1_v, MV.zero_b2E_biE, MV.zero_b2e_bie, MV.zero_b3_e123, MV.zero_b3_triP, MV.zero_b4_e0123,
    V3.add_x, V3.add_y, V3.add_z, V3.sub_x, V3.sub_y, V3.sub_z, V3.neg_x, V3.neg_y, V3.neg_z, V3.mul_x, V3.mul_y, V3.mul_z,
    V3.smul_x, V3.smul_y, V3.smul_z, V3.zero_x, V3.zero_y, V3.zero_z, V3.cross_x, V3.cross_y, V3.cross_z, zero_smul, zero_add, add_zero]
  simp only [mul_add, add_mul, mul_assoc, smul_mul_assoc, mul_smul_comm, one_mul, mul_one, h0, h1, h2, h3, h01, h02, h03, h12, h13, h23,
    k0, k1, k2, k3, k01, k02, k03, k12, k13, k23, mul_neg, neg_mul, neg_neg, smul_neg, mul_zero, zero_mul, smul_zero, neg_zero, zero_add, add_zero]
  try generalize f0 * (f1 * (f2 * f3)) = g0123
  try generalize f0 * (f1 * f2) = g012
  try generalize f0 * (f1 * f3) = g013
  try generalize f0 * (f2 * f3) = g023
  try generalize f1 * (f2 * f3) = g123
  try generalize f0 * f1 = g01
  try generalize f0 * f2 = g02
  try generalize f0 * f3 = g03
  try generalize f1 * f2 = g12
  try generalize f1 * f3 = g13
  try generalize f2 * f3 = g23
  all_goals module))

theorem value_mul0_0 (h : Gens f0 f1 f2 f3) (a : B0 R) (b : B0 R) :
    value f0 f1 f2 f3 (mul0_0 a b) = value f0 f1 f2 f3 a.mv * value f0 f1 f2 f3 b.mv := by
  unfold mul0_0; pga_mul h
theorem value_mul0_1 (h : Gens f0 f1 f2 f3) (a : B0 R) (b : B1 R) :
    value f0 f1 f2 f3 (mul0_1 a b) = value f0 f1 f2 f3 a.mv * value f0 f1 f2 f3 b.mv := by
  unfold mul0_1; pga_mul h
theorem value_mul0_E (h : Gens f0 f1 f2 f3) (a : B0 R) (b : BE R) :
    value f0 f1 f2 f3 (mul0_E a b) = value f0 f1 f2 f3 a.mv * value f0 f1 f2 f3 b.mv := by
  unfold mul0_E; pga_mul h
theorem value_mul0_e (h : Gens f0 f1 f2 f3) (a : B0 R) (b : Be R) :
    value f0 f1 f2 f3 (mul0_e a b) = value f0 f1 f2 f3 a.mv * value f0 f1 f2 f3 b.mv := by
  unfold mul0_e; pga_mul h
theorem value_mul0_3 (h : Gens f0 f1 f2 f3) (a : B0 R) (b : B3 R) :
    value f0 f1 f2 f3 (mul0_3 a b) = value f0 f1 f2 f3 a.mv * value f0 f1 f2 f3 b.mv := by
  unfold mul0_3; pga_mul h
theorem value_mul0_4 (h : Gens f0 f1 f2 f3) (a : B0 R) (b : B4 R) :
    value f0 f1 f2 f3 (mul0_4 a b) = value f0 f1 f2 f3 a.mv * value f0 f1 f2 f3 b.mv := by
  unfold mul0_4; pga_mul h
theorem value_mul1_0 (h : Gens f0 f1 f2 f3) (a : B1 R) (b : B0 R) :
    value f0 f1 f2 f3 (mul1_0 a b) = value f0 f1 f2 f3 a.mv * value f0 f1 f2 f3 b.mv := by
  unfold mul1_0; pga_mul h
theorem value_mul1_1 (h : Gens f0 f1 f2 f3) (a : B1 R) (b : B1 R) :
    value f0 f1 f2 f3 (mul1_1 a b) = value f0 f1 f2 f3 a.mv * value f0 f1 f2 f3 b.mv := by
  unfold mul1_1; pga_mul h
theorem value_mul1_E (h : Gens f0 f1 f2 f3) (a : B1 R) (b : BE R) :
    value f0 f1 f2 f3 (mul1_E a b) = value f0 f1 f2 f3 a.mv * value f0 f1 f2 f3 b.mv := by
  unfold mul1_E; pga_mul h
theorem value_mul1_e (h : Gens f0 f1 f2 f3) (a : B1 R) (b : Be R) :
    value f0 f1 f2 f3 (mul1_e a b) = value f0 f1 f2 f3 a.mv * value f0 f1 f2 f3 b.mv := by
  unfold mul1_e; pga_mul h
theorem value_mul1_3 (h : Gens f0 f1 f2 f3) (a : B1 R) (b : B3 R) :
    value f0 f1 f2 f3 (mul1_3 a b) = value f0 f1 f2 f3 a.mv * value f0 f1 f2 f3 b.mv := by
  unfold mul1_3; pga_mul h
theorem value_mul1_4 (h : Gens f0 f1 f2 f3) (a : B1 R) (b : B4 R) :
    value f0 f1 f2 f3 (mul1_4 a b) = value f0 f1 f2 f3 a.mv * value f0 f1 f2 f3 b.mv := by
  unfold mul1_4; pga_mul h
theorem value_mulE_0 (h : Gens f0 f1 f2 f3) (a : BE R) (b : B0 R) :
    value f0 f1 f2 f3 (mulE_0 a b) = value f0 f1 f2 f3 a.mv * value f0 f1 f2 f3 b.mv := by
  unfold mulE_0; pga_mul h
theorem value_mulE_1 (h : Gens f0 f1 f2 f3) (a : BE R) (b : B1 R) :
    value f0 f1 f2 f3 (mulE_1 a b) = value f0 f1 f2 f3 a.mv * value f0 f1 f2 f3 b.mv := by
  unfold mulE_1; pga_mul h
theorem value_mulE_E (h : Gens f0 f1 f2 f3) (a : BE R) (b : BE R) :
    value f0 f1 f2 f3 (mulE_E a b) = value f0 f1 f2 f3 a.mv * value f0 f1 f2 f3 b.mv := by
  unfold mulE_E; pga_mul h
theorem value_mulE_e (h : Gens f0 f1 f2 f3) (a : BE R) (b : Be R) :
    value f0 f1 f2 f3 (mulE_e a b) = value f0 f1 f2 f3 a.mv * value f0 f1 f2 f3 b.mv := by
  unfold mulE_e; pga_mul h
theorem value_mulE_3 (h : Gens f0 f1 f2 f3) (a : BE R) (b : B3 R) :
    value f0 f1 f2 f3 (mulE_3 a b) = value f0 f1 f2 f3 a.mv * value f0 f1 f2 f3 b.mv := by
  unfold mulE_3; pga_mul h
theorem value_mulE_4 (h : Gens f0 f1 f2 f3) (a : BE R) (b : B4 R) :
    value f0 f1 f2 f3 (mulE_4 a b) = value f0 f1 f2 f3 a.mv * value f0 f1 f2 f3 b.mv := by
  unfold mulE_4; pga_mul h
theorem value_mule_0 (h : Gens f0 f1 f2 f3) (a : Be R) (b : B0 R) :
    value f0 f1 f2 f3 (mule_0 a b) = value f0 f1 f2 f3 a.mv * value f0 f1 f2 f3 b.mv := by
  unfold mule_0; pga_mul h
theorem value_mule_1 (h : Gens f0 f1 f2 f3) (a : Be R) (b : B1 R) :
    value f0 f1 f2 f3 (mule_1 a b) = value f0 f1 f2 f3 a.mv * value f0 f1 f2 f3 b.mv := by
  unfold mule_1; pga_mul h
theorem value_mule_E (h : Gens f0 f1 f2 f3) (a : Be R) (b : BE R) :
    value f0 f1 f2 f3 (mule_E a b) = value f0 f1 f2 f3 a.mv * value f0 f1 f2 f3 b.mv := by
  unfold mule_E; pga_mul h
theorem value_mule_e (h : Gens f0 f1 f2 f3) (a : Be R) (b : Be R) :
    value f0 f1 f2 f3 (mule_e a b) = value f0 f1 f2 f3 a.mv * value f0 f1 f2 f3 b.mv := by
  unfold mule_e; pga_mul h
theorem value_mule_3 (h : Gens f0 f1 f2 f3) (a : Be R) (b : B3 R) :
    value f0 f1 f2 f3 (mule_3 a b) = value f0 f1 f2 f3 a.mv * value f0 f1 f2 f3 b.mv := by
  unfold mule_3; pga_mul h
theorem value_mule_4 (h : Gens f0 f1 f2 f3) (a : Be R) (b : B4 R) :
    value f0 f1 f2 f3 (mule_4 a b) = value f0 f1 f2 f3 a.mv * value f0 f1 f2 f3 b.mv := by
  unfold mule_4; pga_mul h
theorem value_mul3_0 (h : Gens f0 f1 f2 f3) (a : B3 R) (b : B0 R) :
    value f0 f1 f2 f3 (mul3_0 a b) = value f0 f1 f2 f3 a.mv * value f0 f1 f2 f3 b.mv := by
  unfold mul3_0; pga_mul h
theorem value_mul3_1 (h : Gens f0 f1 f2 f3) (a : B3 R) (b : B1 R) :
    value f0 f1 f2 f3 (mul3_1 a b) = value f0 f1 f2 f3 a.mv * value f0 f1 f2 f3 b.mv := by
  unfold mul3_1; pga_mul h
theorem value_mul3_E (h : Gens f0 f1 f2 f3) (a : B3 R) (b : BE R) :
    value f0 f1 f2 f3 (mul3_E a b) = value f0 f1 f2 f3 a.mv * value f0 f1 f2 f3 b.mv := by
  unfold mul3_E; pga_mul h
theorem value_mul3_e (h : Gens f0 f1 f2 f3) (a : B3 R) (b : Be R) :
    value f0 f1 f2 f3 (mul3_e a b) = value f0 f1 f2 f3 a.mv * value f0 f1 f2 f3 b.mv := by
  unfold mul3_e; pga_mul h
theorem value_mul3_3 (h : Gens f0 f1 f2 f3) (a : B3 R) (b : B3 R) :
    value f0 f1 f2 f3 (mul3_3 a b) = value f0 f1 f2 f3 a.mv * value f0 f1 f2 f3 b.mv := by
  unfold mul3_3; pga_mul h
theorem value_mul3_4 (h : Gens f0 f1 f2 f3) (a : B3 R) (b : B4 R) :
    value f0 f1 f2 f3 (mul3_4 a b) = value f0 f1 f2 f3 a.mv * value f0 f1 f2 f3 b.mv := by
  unfold mul3_4; pga_mul h
theorem value_mul4_0 (h : Gens f0 f1 f2 f3) (a : B4 R) (b : B0 R) :
    value f0 f1 f2 f3 (mul4_0 a b) = value f0 f1 f2 f3 a.mv * value f0 f1 f2 f3 b.mv := by
  unfold mul4_0; pga_mul h
theorem value_mul4_1 (h : Gens f0 f1 f2 f3) (a : B4 R) (b : B1 R) :
    value f0 f1 f2 f3 (mul4_1 a b) = value f0 f1 f2 f3 a.mv * value f0 f1 f2 f3 b.mv := by
  unfold mul4_1; pga_mul h
theorem value_mul4_E (h : Gens f0 f1 f2 f3) (a : B4 R) (b : BE R) :
    value f0 f1 f2 f3 (mul4_E a b) = value f0 f1 f2 f3 a.mv * value f0 f1 f2 f3 b.mv := by
  unfold mul4_E; pga_mul h
theorem value_mul4_e (h : Gens f0 f1 f2 f3) (a : B4 R) (b : Be R) :
    value f0 f1 f2 f3 (mul4_e a b) = value f0 f1 f2 f3 a.mv * value f0 f1 f2 f3 b.mv := by
  unfold mul4_e; pga_mul h
theorem value_mul4_3 (h : Gens f0 f1 f2 f3) (a : B4 R) (b : B3 R) :
    value f0 f1 f2 f3 (mul4_3 a b) = value f0 f1 f2 f3 a.mv * value f0 f1 f2 f3 b.mv := by
  unfold mul4_3; pga_mul h
theorem value_mul4_4 (h : Gens f0 f1 f2 f3) (a : B4 R) (b : B4 R) :
    value f0 f1 f2 f3 (mul4_4 a b) = value f0 f1 f2 f3 a.mv * value f0 f1 f2 f3 b.mv := by
  unfold mul4_4; pga_mul h

/-- In every algebra with such generators the geometric product of the code is the product of the algebra. -/
theorem C70_product_universal (h : Gens f0 f1 f2 f3) (a b : MV R) :
    value f0 f1 f2 f3 (a.mul b) = value f0 f1 f2 f3 a * value f0 f1 f2 f3 b := by
  rw [value_parts f0 f1 f2 f3 a, value_parts f0 f1 f2 f3 b]
  unfold MV.mul mulR0 mulR1 mulRE mulRe mulR3 mulR4
  simp only [value_add, value_mul0_0 h, value_mul0_1 h, value_mul0_E h, value_mul0_e h, value_mul0_3 h, value_mul0_4 h, value_mul1_0 h, value_mul1_1 h, value_mul1_E h, value_mul1_e h, value_mul1_3 h, value_mul1_4 h, value_mulE_0 h, value_mulE_1 h, value_mulE_E h, value_mulE_e h, value_mulE_3 h, value_mulE_4 h, value_mule_0 h, value_mule_1 h, value_mule_E h, value_mule_e h, value_mule_3 h, value_mule_4 h, value_mul3_0 h, value_mul3_1 h, value_mul3_E h, value_mul3_e h, value_mul3_3 h, value_mul3_4 h, value_mul4_0 h, value_mul4_1 h, value_mul4_E h, value_mul4_e h, value_mul4_3 h, value_mul4_4 h]
  noncomm_ring
end

section
variable {A : Type} [Ring A] [Algebra R A] {f0 f1 f2 f3 : A}

macro "pga_wedge" h:ident : tactic => `(tactic| (
  obtain ⟨⟨h01, h02, h03, h12, h13, h23⟩, h0, h1, h2, h3⟩ := $h
  have k0 : ∀ x, f0 * (f0 * x) = 0 := fun x => by rw [← mul_assoc, h0, zero_mul]
  have k1 : ∀ x, f1 * (f1 * x) = 0 := fun x => by rw [← mul_assoc, h1, zero_mul]
  have k2 : ∀ x, f2 * (f2 * x) = 0 := fun x => by rw [← mul_assoc, h2, zero_mul]
  have k3 : ∀ x, f3 * (f3 * x) = 0 := fun x => by rw [← mul_assoc, h3, zero_mul]
  have k01 : ∀ x, f1 * (f0 * x) = -(f0 * (f1 * x)) := fun x => by rw [← mul_assoc, h01, neg_mul, mul_assoc]
  have k02 : ∀ x, f2 * (f0 * x) = -(f0 * (f2 * x)) := fun x => by rw [← mul_assoc, h02, neg_mul, mul_assoc]
  have k03 : ∀ x, f3 * (f0 * x) = -(f0 * (f3 * x)) := fun x => by rw [← mul_assoc, h03, neg_mul, mul_assoc]
  have k12 : ∀ x, f2 * (f1 * x) = -(f1 * (f2 * x)) := fun x => by rw [← mul_assoc, h12, neg_mul, mul_assoc]
  have k13 : ∀ x, f3 * (f1 * x) = -(f1 * (f3 * x)) := fun x => by rw [← mul_assoc, h13, neg_mul, mul_assoc]
  have k23 : ∀ x, f3 * (f2 * x) = -(f2 * (f3 * x)) := fun x => by rw [← mul_assoc, h23, neg_mul, mul_assoc]
  simp only [value, B0.mv, B1.mv, BE.mv, Be.mv, B3.mv, B4.mv, mk0, mk1, mk1s, mk1v, mkE, mke, mk3, mk3v, mk4, V3.dot,
    MV.add_b0_s, MV.add_b1_e0, MV.add_b1_v, MV.add_b2E_biE, MV.add_b2e_bie, MV.add_b3_e123, MV.add_b3_triP, MV.add_b4_e0123,
    MV.zero_b0_s, MV.zero_b1_e0, MV.zero_b1_v, MV.zero_b2E_biE, MV.zero_b2e_bie, MV.zero_b3_e123, MV.zero_b3_triP, MV.zero_b4_e0123,
    V3.add_x, V3.add_y, V3.add_z, V3.sub_x, V3.sub_y, V3.sub_z, V3.neg_x, V3.neg_y, V3.neg_z, V3.mul_x, V3.mul_y, V3.mul_z,
    V3.smul_x, V3.smul_y, V3.smul_z, V3.zero_x, V3.zero_y, V3.zero_z, V3.cross_x, V3.cross_y, V3.cross_z, zero_smul, zero_add, add_zero]
  simp only [mul_add, add_mul, mul_assoc, smul_mul_assoc, mul_smul_comm, one_mul, mul_one, h0, h1, h2, h3, h01, h02, h03, h12, h13, h23,
    k0, k1, k2, k3, k01, k02, k03, k12, k13, k23, mul_neg, neg_mul, neg_neg, smul_neg, mul_zero, zero_mul, smul_zero, neg_zero, zero_add, add_zero]
  try generalize f0 * (f1 * (f2 * f3)) = g0123
  try generalize f0 * (f1 * f2) = g012
  try generalize f0 * (f1 * f3) = g013
  try generalize f0 * (f2 * f3) = g023
  try generalize f1 * (f2 * f3) = g123
  try generalize f0 * f1 = g01
  try generalize f0 * f2 = g02
  try generalize f0 * f3 = g03
  try generalize f1 * f2 = g12
  try generalize f1 * f3 = g13
  try generalize f2 * f3 = g23
  all_goals module))

theorem value_wedge0_0 (h : ExtGens f0 f1 f2 f3) (a : B0 R) (b : B0 R) :
    value f0 f1 f2 f3 (wedge0_0 a b) = value f0 f1 f2 f3 a.mv * value f0 f1 f2 f3 b.mv := by
  unfold wedge0_0; pga_wedge h
theorem value_wedge0_1 (h : ExtGens f0 f1 f2 f3) (a : B0 R) (b : B1 R) :
    value f0 f1 f2 f3 (wedge0_1 a b) = value f0 f1 f2 f3 a.mv * value f0 f1 f2 f3 b.mv := by
  unfold wedge0_1; pga_wedge h
theorem value_wedge0_E (h : ExtGens f0 f1 f2 f3) (a : B0 R) (b : BE R) :
    value f0 f1 f2 f3 (wedge0_E a b) = value f0 f1 f2 f3 a.mv * value f0 f1 f2 f3 b.mv := by
  unfold wedge0_E; pga_wedge h
theorem value_wedge0_e (h : ExtGens f0 f1 f2 f3) (a : B0 R) (b : Be R) :
    value f0 f1 f2 f3 (wedge0_e a b) = value f0 f1 f2 f3 a.mv * value f0 f1 f2 f3 b.mv := by
  unfold wedge0_e; pga_wedge h
theorem value_wedge0_3 (h : ExtGens f0 f1 f2 f3) (a : B0 R) (b : B3 R) :
    value f0 f1 f2 f3 (wedge0_3 a b) = value f0 f1 f2 f3 a.mv * value f0 f1 f2 f3 b.mv := by
  unfold wedge0_3; pga_wedge h
theorem value_wedge0_4 (h : ExtGens f0 f1 f2 f3) (a : B0 R) (b : B4 R) :
    value f0 f1 f2 f3 (wedge0_4 a b) = value f0 f1 f2 f3 a.mv * value f0 f1 f2 f3 b.mv := by
  unfold wedge0_4; pga_wedge h
theorem value_wedge1_0 (h : ExtGens f0 f1 f2 f3) (a : B1 R) (b : B0 R) :
    value f0 f1 f2 f3 (wedge1_0 a b) = value f0 f1 f2 f3 a.mv * value f0 f1 f2 f3 b.mv := by
  unfold wedge1_0; pga_wedge h
theorem value_wedge1_1 (h : ExtGens f0 f1 f2 f3) (a : B1 R) (b : B1 R) :
    value f0 f1 f2 f3 (wedge1_1 a b) = value f0 f1 f2 f3 a.mv * value f0 f1 f2 f3 b.mv := by
  unfold wedge1_1; pga_wedge h
theorem value_wedge1_E (h : ExtGens f0 f1 f2 f3) (a : B1 R) (b : BE R) :
    value f0 f1 f2 f3 (wedge1_E a b) = value f0 f1 f2 f3 a.mv * value f0 f1 f2 f3 b.mv := by
  unfold wedge1_E; pga_wedge h
theorem value_wedge1_e (h : ExtGens f0 f1 f2 f3) (a : B1 R) (b : Be R) :
    value f0 f1 f2 f3 (wedge1_e a b) = value f0 f1 f2 f3 a.mv * value f0 f1 f2 f3 b.mv := by
  unfold wedge1_e; pga_wedge h
theorem value_wedge1_3 (h : ExtGens f0 f1 f2 f3) (a : B1 R) (b : B3 R) :
    value f0 f1 f2 f3 (wedge1_3 a b) = value f0 f1 f2 f3 a.mv * value f0 f1 f2 f3 b.mv := by
  unfold wedge1_3; pga_wedge h
theorem value_wedge1_4 (h : ExtGens f0 f1 f2 f3) (a : B1 R) (b : B4 R) :
    value f0 f1 f2 f3 (wedge1_4 a b) = value f0 f1 f2 f3 a.mv * value f0 f1 f2 f3 b.mv := by
  unfold wedge1_4; pga_wedge h
theorem value_wedgeE_0 (h : ExtGens f0 f1 f2 f3) (a : BE R) (b : B0 R) :
    value f0 f1 f2 f3 (wedgeE_0 a b) = value f0 f1 f2 f3 a.mv * value f0 f1 f2 f3 b.mv := by
  unfold wedgeE_0; pga_wedge h
theorem value_wedgeE_1 (h : ExtGens f0 f1 f2 f3) (a : BE R) (b : B1 R) :
    value f0 f1 f2 f3 (wedgeE_1 a b) = value f0 f1 f2 f3 a.mv * value f0 f1 f2 f3 b.mv := by
  unfold wedgeE_1; pga_wedge h
theorem value_wedgeE_E (h : ExtGens f0 f1 f2 f3) (a : BE R) (b : BE R) :
    value f0 f1 f2 f3 (wedgeE_E a b) = value f0 f1 f2 f3 a.mv * value f0 f1 f2 f3 b.mv := by
  unfold wedgeE_E; pga_wedge h
theorem value_wedgeE_e (h : ExtGens f0 f1 f2 f3) (a : BE R) (b : Be R) :
    value f0 f1 f2 f3 (wedgeE_e a b) = value f0 f1 f2 f3 a.mv * value f0 f1 f2 f3 b.mv := by
  unfold wedgeE_e; pga_wedge h
theorem value_wedgeE_3 (h : ExtGens f0 f1 f2 f3) (a : BE R) (b : B3 R) :
    value f0 f1 f2 f3 (wedgeE_3 a b) = value f0 f1 f2 f3 a.mv * value f0 f1 f2 f3 b.mv := by
  unfold wedgeE_3; pga_wedge h
theorem value_wedgeE_4 (h : ExtGens f0 f1 f2 f3) (a : BE R) (b : B4 R) :
    value f0 f1 f2 f3 (wedgeE_4 a b) = value f0 f1 f2 f3 a.mv * value f0 f1 f2 f3 b.mv := by
  unfold wedgeE_4; pga_wedge h
theorem value_wedgee_0 (h : ExtGens f0 f1 f2 f3) (a : Be R) (b : B0 R) :
    value f0 f1 f2 f3 (wedgee_0 a b) = value f0 f1 f2 f3 a.mv * value f0 f1 f2 f3 b.mv := by
  unfold wedgee_0; pga_wedge h
theorem value_wedgee_1 (h : ExtGens f0 f1 f2 f3) (a : Be R) (b : B1 R) :
    value f0 f1 f2 f3 (wedgee_1 a b) = value f0 f1 f2 f3 a.mv * value f0 f1 f2 f3 b.mv := by
  unfold wedgee_1; pga_wedge h
theorem value_wedgee_E (h : ExtGens f0 f1 f2 f3) (a : Be R) (b : BE R) :
    value f0 f1 f2 f3 (wedgee_E a b) = value f0 f1 f2 f3 a.mv * value f0 f1 f2 f3 b.mv := by
  unfold wedgee_E; pga_wedge h
theorem value_wedgee_e (h : ExtGens f0 f1 f2 f3) (a : Be R) (b : Be R) :
    value f0 f1 f2 f3 (wedgee_e a b) = value f0 f1 f2 f3 a.mv * value f0 f1 f2 f3 b.mv := by
  unfold wedgee_e; pga_wedge h
theorem value_wedgee_3 (h : ExtGens f0 f1 f2 f3) (a : Be R) (b : B3 R) :
    value f0 f1 f2 f3 (wedgee_3 a b) = value f0 f1 f2 f3 a.mv * value f0 f1 f2 f3 b.mv := by
  unfold wedgee_3; pga_wedge h
theorem value_wedgee_4 (h : ExtGens f0 f1 f2 f3) (a : Be R) (b : B4 R) :
    value f0 f1 f2 f3 (wedgee_4 a b) = value f0 f1 f2 f3 a.mv * value f0 f1 f2 f3 b.mv := by
  unfold wedgee_4; pga_wedge h
theorem value_wedge3_0 (h : ExtGens f0 f1 f2 f3) (a : B3 R) (b : B0 R) :
    value f0 f1 f2 f3 (wedge3_0 a b) = value f0 f1 f2 f3 a.mv * value f0 f1 f2 f3 b.mv := by
  unfold wedge3_0; pga_wedge h
theorem value_wedge3_1 (h : ExtGens f0 f1 f2 f3) (a : B3 R) (b : B1 R) :
    value f0 f1 f2 f3 (wedge3_1 a b) = value f0 f1 f2 f3 a.mv * value f0 f1 f2 f3 b.mv := by
  unfold wedge3_1; pga_wedge h
theorem value_wedge3_E (h : ExtGens f0 f1 f2 f3) (a : B3 R) (b : BE R) :
    value f0 f1 f2 f3 (wedge3_E a b) = value f0 f1 f2 f3 a.mv * value f0 f1 f2 f3 b.mv := by
  unfold wedge3_E; pga_wedge h
theorem value_wedge3_e (h : ExtGens f0 f1 f2 f3) (a : B3 R) (b : Be R) :
    value f0 f1 f2 f3 (wedge3_e a b) = value f0 f1 f2 f3 a.mv * value f0 f1 f2 f3 b.mv := by
  unfold wedge3_e; pga_wedge h
theorem value_wedge3_3 (h : ExtGens f0 f1 f2 f3) (a : B3 R) (b : B3 R) :
    value f0 f1 f2 f3 (wedge3_3 a b) = value f0 f1 f2 f3 a.mv * value f0 f1 f2 f3 b.mv := by
  unfold wedge3_3; pga_wedge h
theorem value_wedge3_4 (h : ExtGens f0 f1 f2 f3) (a : B3 R) (b : B4 R) :
    value f0 f1 f2 f3 (wedge3_4 a b) = value f0 f1 f2 f3 a.mv * value f0 f1 f2 f3 b.mv := by
  unfold wedge3_4; pga_wedge h
theorem value_wedge4_0 (h : ExtGens f0 f1 f2 f3) (a : B4 R) (b : B0 R) :
    value f0 f1 f2 f3 (wedge4_0 a b) = value f0 f1 f2 f3 a.mv * value f0 f1 f2 f3 b.mv := by
  unfold wedge4_0; pga_wedge h
theorem value_wedge4_1 (h : ExtGens f0 f1 f2 f3) (a : B4 R) (b : B1 R) :
    value f0 f1 f2 f3 (wedge4_1 a b) = value f0 f1 f2 f3 a.mv * value f0 f1 f2 f3 b.mv := by
  unfold wedge4_1; pga_wedge h
theorem value_wedge4_E (h : ExtGens f0 f1 f2 f3) (a : B4 R) (b : BE R) :
    value f0 f1 f2 f3 (wedge4_E a b) = value f0 f1 f2 f3 a.mv * value f0 f1 f2 f3 b.mv := by
  unfold wedge4_E; pga_wedge h
theorem value_wedge4_e (h : ExtGens f0 f1 f2 f3) (a : B4 R) (b : Be R) :
    value f0 f1 f2 f3 (wedge4_e a b) = value f0 f1 f2 f3 a.mv * value f0 f1 f2 f3 b.mv := by
  unfold wedge4_e; pga_wedge h
theorem value_wedge4_3 (h : ExtGens f0 f1 f2 f3) (a : B4 R) (b : B3 R) :
    value f0 f1 f2 f3 (wedge4_3 a b) = value f0 f1 f2 f3 a.mv * value f0 f1 f2 f3 b.mv := by
  unfold wedge4_3; pga_wedge h
theorem value_wedge4_4 (h : ExtGens f0 f1 f2 f3) (a : B4 R) (b : B4 R) :
    value f0 f1 f2 f3 (wedge4_4 a b) = value f0 f1 f2 f3 a.mv * value f0 f1 f2 f3 b.mv := by
  unfold wedge4_4; pga_wedge h

/-- In every algebra with anticommuting generators of square zero the wedge product of the code is the product of the algebra. -/
theorem C70_wedge_universal (h : ExtGens f0 f1 f2 f3) (a b : MV R) :
    value f0 f1 f2 f3 (a.wedge b) = value f0 f1 f2 f3 a * value f0 f1 f2 f3 b := by
  rw [value_parts f0 f1 f2 f3 a, value_parts f0 f1 f2 f3 b]
  unfold MV.wedge wedgeR0 wedgeR1 wedgeRE wedgeRe wedgeR3 wedgeR4
  simp only [value_add, value_wedge0_0 h, value_wedge0_1 h, value_wedge0_E h, value_wedge0_e h, value_wedge0_3 h, value_wedge0_4 h, value_wedge1_0 h, value_wedge1_1 h, value_wedge1_E h, value_wedge1_e h, value_wedge1_3 h, value_wedge1_4 h, value_wedgeE_0 h, value_wedgeE_1 h, value_wedgeE_E h, value_wedgeE_e h, value_wedgeE_3 h, value_wedgeE_4 h, value_wedgee_0 h, value_wedgee_1 h, value_wedgee_E h, value_wedgee_e h, value_wedgee_3 h, value_wedgee_4 h, value_wedge3_0 h, value_wedge3_1 h, value_wedge3_E h, value_wedge3_e h, value_wedge3_3 h, value_wedge3_4 h, value_wedge4_0 h, value_wedge4_1 h, value_wedge4_E h, value_wedge4_e h, value_wedge4_3 h, value_wedge4_4 h]
  noncomm_ring
end

end Altruct.Pga
