/-
Property C70, part four: inverses, and planes, lines, points and motions of space.
-/
import Verif.Pga.Sandwich
import Mathlib.Algebra.Order.Field.Basic
import Mathlib.Algebra.Order.Ring.Rat
import Mathlib.Tactic.FieldSimp
import Mathlib.Tactic.Linarith

namespace Altruct.Pga

section ring
variable {R : Type} [CommRing R]

theorem V3.ext' {a b : V3 R} (hx : a.x = b.x) (hy : a.y = b.y) (hz : a.z = b.z) : a = b := V3.ext hx hy hz

macro "v3_ext" : tactic => `(tactic| (
  apply V3.ext' <;> simp only [V3.add_x, V3.add_y, V3.add_z, V3.sub_x, V3.sub_y, V3.sub_z, V3.neg_x, V3.neg_y, V3.neg_z, V3.mul_x, V3.mul_y, V3.mul_z,
    V3.smul_x, V3.smul_y, V3.smul_z, V3.zero_x, V3.zero_y, V3.zero_z, V3.cross_x, V3.cross_y, V3.cross_z, V3.dot, V3.abs2] <;> (try ring)))

/-! ### incidence -/

/-- The wedge product of a plane and a point measures the distance: it is zero exactly when the point is on the plane `n · P = d`. -/
theorem C70_point_on_plane (n P : V3 R) (d : R) : (plane n d).mv.wedge (point1 P).mv = mk4 (d - (n ⬝ P)) := by
  simp only [plane, point1]
  pga_ext

/-- The wedge product of two planes is a line; it goes through each common point of the planes, along the cross product of the normals. -/
theorem C70_meet_planes (n m Q : V3 R) (d k : R) (h1 : (n ⬝ Q) = d) (h2 : (m ⬝ Q) = k) :
    (plane n d).mv.wedge (plane m k).mv = (line (n ⨯ m) Q).mv := by
  subst h1 h2
  simp only [plane, line, B22.mv]
  pga_ext

/-- The wedge product of a plane and a line is their common point, with the homogeneous coordinate `n · l` (zero when they are parallel). -/
theorem C70_meet_line (n l P : V3 R) (d : R) :
    (plane n d).mv.wedge (line l P).mv = (point (P * (n ⬝ l) + l * (d - (n ⬝ P))) (n ⬝ l)).mv := by
  simp only [plane, line, point, B22.mv]
  pga_ext

/-- The join of two points is the line through both. -/
theorem C70_join_points (P Q : V3 R) : (point1 P).mv.join (point1 Q).mv = (line (P - Q) P).mv ∧ line (P - Q) P = line (P - Q) Q := by
  constructor
  · simp only [point1, line, B22.mv]
    pga_ext
  · simp only [line, B22.mk.injEq, Be.mk.injEq, true_and]
    v3_ext

/-- The join of a line and a point is the plane that contains them; it is zero exactly when the point is on the line. -/
theorem C70_join_line (l P Q : V3 R) :
    (line l P).mv.join (point1 Q).mv = (plane (l ⨯ (Q - P)) ((l ⨯ (Q - P)) ⬝ Q)).mv ∧ ((l ⨯ (Q - P)) ⬝ Q) = ((l ⨯ (Q - P)) ⬝ P) := by
  constructor
  · simp only [point1, line, plane, B22.mv]
    pga_ext
  · simp only [V3.dot, V3.cross_x, V3.cross_y, V3.cross_z, V3.sub_x, V3.sub_y, V3.sub_z]
    ring

/-! ### motions -/

/-- Reflecting a point in the plane `n · X = d` with a unit normal (as a projective point, up to the factor `-1`). -/
theorem C70_reflect (n P : V3 R) (d : R) (hn : n.abs2 = 1) :
    sandM_1 (point1 P).mv (plane n d) = -(point1 (P - n * (2 * ((n ⬝ P) - d)))).mv := by
  simp only [V3.abs2] at hn
  simp only [sandM_1, sand0_1, sand1_1, sandE_1, sande_1, sand3_1, sand4_1, B1.norm2, B1.diff2, plane, point1]
  apply MV.ext16 <;>
  simp only [MV.add_b0_s, MV.add_b1_e0, MV.add_b1_v, MV.add_b2E_biE, MV.add_b2e_bie, MV.add_b3_e123, MV.add_b3_triP, MV.add_b4_e0123,
    MV.sub_b0_s, MV.sub_b1_e0, MV.sub_b1_v, MV.sub_b2E_biE, MV.sub_b2e_bie, MV.sub_b3_e123, MV.sub_b3_triP, MV.sub_b4_e0123,
    MV.neg_b0_s, MV.neg_b1_e0, MV.neg_b1_v, MV.neg_b2E_biE, MV.neg_b2e_bie, MV.neg_b3_e123, MV.neg_b3_triP, MV.neg_b4_e0123,
    MV.smul_b0_s, MV.smul_b1_e0, MV.smul_b1_v, MV.smul_b2E_biE, MV.smul_b2e_bie, MV.smul_b3_e123, MV.smul_b3_triP, MV.smul_b4_e0123,
    V3.add_x, V3.add_y, V3.add_z, V3.sub_x, V3.sub_y, V3.sub_z, V3.neg_x, V3.neg_y, V3.neg_z, V3.mul_x, V3.mul_y, V3.mul_z,
    V3.smul_x, V3.smul_y, V3.smul_z, V3.zero_x, V3.zero_y, V3.zero_z, V3.cross_x, V3.cross_y, V3.cross_z, V3.dot, V3.abs2,
    mk0, mk1, mk1s, mk1v, mkE, mke, mk3, mk3s, mk3v, mk4, B0.mv, B1.mv, BE.mv, Be.mv, B3.mv, B4.mv, mul_zero, zero_mul, add_zero, zero_add, sub_zero,
    zero_sub, neg_zero, hn] <;> (try ring)

/-- The even part of a multivector. -/
def MV.even (a : MV R) : B024 R := ⟨⟨a.b0, a.b2E⟩, ⟨a.b2e, a.b4⟩⟩

/-- A motor is orthogonal when `b * rev(b)` has no pseudoscalar part. -/
def B024.Orthogonal (b : B024 R) : Prop := (b.b02.b2E.biE ⬝ b.b24.b2e.bie) = b.b02.b0.s * b.b24.b4.e0123

/-- Motors compose: the product of two orthogonal motors is an orthogonal motor, its sandwich product applies the right factor first, and its
norm is the product of the norms. -/
theorem C70_compose (b c : B024 R) (hb : b.Orthogonal) (hc : c.Orthogonal) :
    (b.mv.mul c.mv).even.mv = b.mv.mul c.mv ∧ (b.mv.mul c.mv).even.Orthogonal ∧
    (∀ a, sandM_024 a (b.mv.mul c.mv).even = sandM_024 (sandM_024 a c) b) ∧
    (b.mv.mul c.mv).even.norm2 = b.norm2 * c.norm2 := by
  have e : (b.mv.mul c.mv).even.mv = b.mv.mul c.mv := by
    simp only [MV.even, B024.mv]
    pga_ext
  have o : (b.mv.mul c.mv).even.Orthogonal := by
    unfold B024.Orthogonal at hb hc ⊢
    simp only [V3.dot] at hb hc ⊢
    simp only [MV.even, mul_b0_s, mul_b2E_biE_x, mul_b2E_biE_y, mul_b2E_biE_z, mul_b2e_bie_x, mul_b2e_bie_y, mul_b2e_bie_z, mul_b4_e0123, B024.mv,
      mul_zero, zero_mul, add_zero, sub_zero, V3.zero_x, V3.zero_y, V3.zero_z]
    linear_combination (c.b02.b0.s ^ 2 + c.b02.b2E.biE.x ^ 2 + c.b02.b2E.biE.y ^ 2 + c.b02.b2E.biE.z ^ 2) * hb +
      (b.b02.b0.s ^ 2 + b.b02.b2E.biE.x ^ 2 + b.b02.b2E.biE.y ^ 2 + b.b02.b2E.biE.z ^ 2) * hc
  refine ⟨e, o, fun a => ?_, ?_⟩
  · rw [sand_024 _ _ o, sand_024 _ _ hc, sand_024 _ _ hb, e, (C70_reverse b.mv c.mv).1]
    simp only [mul_assoc']
  · simp only [MV.even, B024.norm2, B02E.norm2, B2e4.norm2, B0.norm2, BE.norm2, Be.norm2, B4.norm2, V3.abs2, mul_b0_s, mul_b2E_biE_x, mul_b2E_biE_y,
      mul_b2E_biE_z, B024.mv, mul_zero, zero_mul, add_zero, sub_zero, V3.zero_x, V3.zero_y, V3.zero_z]
    ring

/-- The product of two planes is an orthogonal motor. -/
theorem C70_two_planes (p q : B1 R) : (p.mv.mul q.mv).even.mv = p.mv.mul q.mv ∧ (p.mv.mul q.mv).even.Orthogonal := by
  constructor
  · simp only [MV.even, B024.mv]
    pga_ext
  · unfold B024.Orthogonal
    simp only [V3.dot, MV.even, mul_b0_s, mul_b2E_biE_x, mul_b2E_biE_y, mul_b2E_biE_z, mul_b2e_bie_x, mul_b2e_bie_y, mul_b2e_bie_z, mul_b4_e0123, B1.mv, mk1,
      mul_zero, zero_mul, add_zero, sub_zero, zero_add, zero_sub, neg_zero, V3.zero_x, V3.zero_y, V3.zero_z]
    ring

/-- Rotation by the rotor with the scalar part `c` and the axis `-s u`, where `u` is a unit vector and `c² + s² = 1`: Rodrigues' formula for the angle
with the cosine `c² - s²` and the sine `2 c s`. -/
theorem C70_rotate (u P : V3 R) (c s : R) (hu : u.abs2 = 1) (hc : c * c + s * s = 1) :
    sandM_02E (point1 P).mv ⟨⟨c⟩, ⟨u * -s⟩⟩ =
      (point1 (P * (c * c - s * s) + (u ⨯ P) * (2 * c * s) + u * ((u ⬝ P) * (1 - (c * c - s * s))))).mv := by
  simp only [V3.abs2] at hu
  simp only [sandM_02E, sand0_02E, sand1_02E, sandE_02E, sande_02E, sand3_02E, sand4_02E, B02E.norm2, B02E.diff2, B0.norm2, BE.norm2, B0.diff2, BE.diff2, point1]
  pga_ext
  · linear_combination s ^ 2 * hu + hc
  · linear_combination (P.x * s ^ 2) * hu - (u.x * (u.x * P.x + u.y * P.y + u.z * P.z)) * hc
  · linear_combination (P.y * s ^ 2) * hu - (u.y * (u.x * P.x + u.y * P.y + u.z * P.z)) * hc
  · linear_combination (P.z * s ^ 2) * hu - (u.z * (u.x * P.x + u.y * P.y + u.z * P.z)) * hc

end ring

section field
variable {K : Type} [Field K] [LinearOrder K] [IsStrictOrderedRing K]

/-- Translating points, planes and lines. -/
theorem C70_translate (t : V3 K) : ∃ T, translator t = some T ∧ (∀ P, sandM_02e (point1 P).mv T = (point1 (P + t)).mv) ∧
    (∀ n d, sandM_02e (plane n d).mv T = (plane n (d + (n ⬝ t))).mv) ∧ (∀ l P, sandM_02e (line l P).mv T = (line l (P + t)).mv) := by
  have h2 : (2 : K) ≠ 0 := two_ne_zero
  have h : ∀ x : K, x / 2 * 2 = x := fun x => div_mul_cancel₀ x h2
  refine ⟨⟨⟨1⟩, ⟨⟨t.x / 2, t.y / 2, t.z / 2⟩⟩⟩, ?_, ?_, ?_, ?_⟩
  · simp only [translator, V3.sdiv, if_neg h2]; rfl
  all_goals
    intros
    simp only [sandM_02e, sand0_02e, sand1_02e, sandE_02e, sande_02e, sand3_02e, sand4_02e, B02e.norm2, B02e.diff2, B0.norm2, Be.norm2, B0.diff2, Be.diff2,
      point1, plane, line, B22.mv]
    pga_ext

/-- The rotor along an axis: with the half angle's cosine and sine it rotates about the axis by the angle (Rodrigues' formula). -/
theorem C70_rotor (sq : K → K) (eps : K) (n : V3 K) (c s : K) (he : 0 ≤ eps) (hs : sq n.abs2 * sq n.abs2 = n.abs2) (hn : eps < sq n.abs2) (hc : c * c + s * s = 1) :
    ∃ u : V3 K, u * sq n.abs2 = n ∧ u.abs2 = 1 ∧ ∃ r, rotor sq eps n c s = some r ∧ ∀ P, sandM_02E (point1 P).mv r =
      (point1 (P * (c * c - s * s) + (u ⨯ P) * (2 * c * s) + u * ((u ⬝ P) * (1 - (c * c - s * s))))).mv := by
  have h0 : sq n.abs2 ≠ 0 := (lt_of_le_of_lt he hn).ne'
  have hu : (⟨n.x / sq n.abs2, n.y / sq n.abs2, n.z / sq n.abs2⟩ : V3 K).abs2 = 1 := by
    have hN : n.abs2 = n.x * n.x + n.y * n.y + n.z * n.z := rfl
    generalize sq n.abs2 = q at h0 hs
    rw [hN] at hs
    simp only [V3.abs2]
    field_simp
    linear_combination -hs
  refine ⟨⟨n.x / sq n.abs2, n.y / sq n.abs2, n.z / sq n.abs2⟩, ?_, hu, ⟨⟨c⟩, ⟨(⟨n.x / sq n.abs2, n.y / sq n.abs2, n.z / sq n.abs2⟩ : V3 K) * -s⟩⟩, ?_, ?_⟩
  · apply V3.ext' <;> simp only [V3.mul_x, V3.mul_y, V3.mul_z] <;> exact div_mul_cancel₀ _ h0
  · simp only [rotor, V3.unit, if_pos hn, V3.sdiv, if_neg h0]; rfl
  · exact fun P => C70_rotate _ P c s hu hc

end field

/-! ### inverses -/

section inverse
variable {K : Type} [Field K] [DecidableEq K]

theorem sdiv_zero (a : MV K) : a.sdiv 0 = none := if_pos rfl

/-- The value of a successful division: `a / t` times `t` is `a`. -/
theorem sdiv_spec (a : MV K) (t : K) (h : t ≠ 0) : ∃ q, a.sdiv t = some q ∧ q = a * t⁻¹ := by
  refine ⟨_, if_neg h, ?_⟩
  apply MV.ext16 <;> simp only [MV.smul_b0_s, MV.smul_b1_e0, MV.smul_b1_v, MV.smul_b2E_biE, MV.smul_b2e_bie, MV.smul_b3_e123, MV.smul_b3_triP, MV.smul_b4_e0123,
    V3.mul_x, V3.mul_y, V3.mul_z, div_eq_mul_inv]

theorem mul_smul' (a b : MV K) (t : K) : a.mul (b * t) = a.mul b * t ∧ (a * t).mul b = a.mul b * t := by
  constructor <;> pga_ext

theorem inv_of (a r : MV K) (n : K) (h1 : a.mul r = mk0 n) (h2 : r.mul a = mk0 n) :
    (n = 0 → r.sdiv n = none) ∧ (n ≠ 0 → ∃ i, r.sdiv n = some i ∧ a.mul i = mk0 1 ∧ i.mul a = mk0 1) := by
  refine ⟨fun h => h ▸ sdiv_zero r, fun h => ?_⟩
  obtain ⟨q, hq, eq⟩ := sdiv_spec r n h
  have e : mk0 n * n⁻¹ = mk0 1 := by
    apply MV.ext16 <;> simp only [MV.smul_b0_s, MV.smul_b1_e0, MV.smul_b1_v, MV.smul_b2E_biE, MV.smul_b2e_bie, MV.smul_b3_e123, MV.smul_b3_triP,
      MV.smul_b4_e0123, V3.mul_x, V3.mul_y, V3.mul_z, mk0, V3.zero_x, V3.zero_y, V3.zero_z, zero_mul, mul_inv_cancel₀ h]
  exact ⟨q, hq, by rw [eq, (mul_smul' a r _).1, h1, e], by rw [eq, (mul_smul' r a _).2, h2, e]⟩

/-- What `inv()` promises: nothing is returned when the norm is zero, and otherwise the two-sided inverse. -/
def InverseOf (a : MV K) (n : K) (i : Option (MV K)) : Prop :=
  (n = 0 → i = none) ∧ (n ≠ 0 → ∃ v, i = some v ∧ a.mul v = mk0 1 ∧ v.mul a = mk0 1)

set_option maxHeartbeats 4000000 in
/-- The inverses of blades, rotors, translators and of the other composite blades without a condition. -/
theorem C70_inverse : (∀ a : B0 K, InverseOf a.mv a.norm2 a.inv) ∧ (∀ a : B1 K, InverseOf a.mv a.norm2 a.inv) ∧ (∀ a : BE K, InverseOf a.mv a.norm2 a.inv) ∧
    (∀ a : Be K, InverseOf a.mv a.norm2 a.inv) ∧ (∀ a : B3 K, InverseOf a.mv a.norm2 a.inv) ∧ (∀ a : B4 K, InverseOf a.mv a.norm2 a.inv) ∧
    (∀ a : B02E K, InverseOf a.mv a.norm2 a.inv) ∧ (∀ a : B02e K, InverseOf a.mv a.norm2 a.inv) ∧ (∀ a : B2E4 K, InverseOf a.mv a.norm2 a.inv) ∧
    (∀ a : B2e4 K, InverseOf a.mv a.norm2 a.inv) := by
  refine ⟨?_, ?_, ?_, ?_, ?_, ?_, ?_, ?_, ?_, ?_⟩ <;> intro a <;> apply inv_of <;>
    simp only [B0.norm2, B1.norm2, BE.norm2, Be.norm2, B3.norm2, B4.norm2, B02E.norm2, B02e.norm2, B2E4.norm2, B2e4.norm2, B02E.mv, B02e.mv, B2E4.mv, B2e4.mv] <;>
    pga_ext

/-- The inverse of a line, when its two parts are perpendicular (as those of `line(l, P)` are). -/
theorem C70_inverse_line (a : B22 K) (h : (a.b2E.biE ⬝ a.b2e.bie) = 0) : InverseOf a.mv a.norm2 a.inv := by
  simp only [V3.dot] at h
  apply inv_of <;> simp only [B22.norm2, BE.norm2, Be.norm2, B22.mv] <;> pga_ext <;> linear_combination (-2) * h

/-- The inverse of every even multivector. -/
theorem C70_inverse_motor (a : B024 K) : InverseOf a.mv a.norm2 a.inv := by
  constructor
  · intro h
    simp only [B024.inv, h, if_true]; rfl
  · intro h
    simp only [B024.inv, if_neg h, Option.bind_eq_bind, Option.bind_some]
    have hN : a.norm2 = a.b02.b0.s * a.b02.b0.s + (a.b02.b2E.biE.x * a.b02.b2E.biE.x + a.b02.b2E.biE.y * a.b02.b2E.biE.y + a.b02.b2E.biE.z * a.b02.b2E.biE.z) := by
      simp only [B024.norm2, B02E.norm2, B2e4.norm2, B0.norm2, BE.norm2, Be.norm2, B4.norm2, V3.abs2]; ring
    generalize a.norm2 = N at h hN
    refine (inv_of a.mv _ N ?_ ?_).2 h <;> simp only [B024.mv] <;> pga_ext <;> (try field_simp) <;> (try rw [hN]) <;> (try ring)

/-- The inverse of every odd multivector. -/
theorem C70_inverse_odd (a : B13 K) : InverseOf a.mv a.norm2 a.inv := by
  constructor
  · intro h
    simp only [B13.inv, h, if_true]; rfl
  · intro h
    simp only [B13.inv, if_neg h, Option.bind_eq_bind, Option.bind_some]
    have hN : a.norm2 = (a.b1.v.x * a.b1.v.x + a.b1.v.y * a.b1.v.y + a.b1.v.z * a.b1.v.z) + a.b3.e123 * a.b3.e123 := by
      simp only [B13.norm2, B1.norm2, B3.norm2, V3.abs2]
    generalize a.norm2 = N at h hN
    refine (inv_of a.mv _ N ?_ ?_).2 h <;> simp only [B13.mv] <;> pga_ext <;> (try field_simp) <;> (try rw [hN]) <;> (try ring)

end inverse

/-! ### concrete cases -/

/-- Without the condition the inverse of a line is wrong. -/
theorem C70_inverse_line_needs : ∃ (a : B22 ℚ) (i : MV ℚ), a.inv = some i ∧ a.mv.mul i ≠ mk0 1 :=
  ⟨⟨⟨⟨1, 0, 0⟩⟩, ⟨⟨1, 0, 0⟩⟩⟩, ⟨⟨0⟩, ⟨0, 0⟩, ⟨⟨-1, 0, 0⟩⟩, ⟨⟨-1, 0, 0⟩⟩, ⟨0, 0⟩, ⟨0⟩⟩, by decide +kernel, by decide +kernel⟩

/-- Without the condition the sandwich product by a motor is not `b * a * rev(b)`. -/
theorem C70_sandwich_needs : ∃ (a : MV ℚ) (b : B024 ℚ), sandM_024 a b ≠ (b.mv.mul a).mul b.mv.rev :=
  ⟨mkE ⟨1, 0, 0⟩, ⟨⟨⟨1⟩, ⟨0⟩⟩, ⟨⟨0⟩, ⟨1⟩⟩⟩, by decide +kernel⟩

-- the point (1, 2, 3) moved by (4, 5, 6)
example : (translator (⟨4, 5, 6⟩ : V3 ℚ)).map (fun T => sandM_02e (point1 ⟨1, 2, 3⟩).mv T) = some (point1 ⟨5, 7, 9⟩).mv := by decide +kernel

-- a quarter turn about the z axis: cos = 3/5 and sin = 4/5 of the half angle give cos = -7/25 and sin = 24/25
example : (rotor (fun _ => (2 : ℚ)) 0 ⟨0, 0, 2⟩ (3/5) (4/5)).map (fun r => sandM_02E (point1 ⟨1, 0, 3⟩).mv r) = some (point1 ⟨-7/25, 24/25, 3⟩).mv := by
  decide +kernel

-- orthogonal motors exist that are neither rotations nor translations: a screw motion
example : (⟨⟨⟨1⟩, ⟨⟨0, 0, 1⟩⟩⟩, ⟨⟨⟨0, 0, 2⟩⟩, ⟨2⟩⟩⟩ : B024 ℚ).Orthogonal := by unfold B024.Orthogonal; decide +kernel

-- a product of multivectors
example : (⟨⟨1⟩, ⟨2, ⟨3, 4, 5⟩⟩, ⟨⟨6, 7, 8⟩⟩, ⟨⟨9, 10, 11⟩⟩, ⟨12, ⟨13, 14, 15⟩⟩, ⟨16⟩⟩ : MV ℚ).mul (mk1 1 ⟨2, 0, 0⟩) =
    ⟨⟨6⟩, ⟨19, ⟨2, -16, 14⟩⟩, ⟨⟨24, 10, -8⟩⟩, ⟨⟨1, 26, -33⟩⟩, ⟨12, ⟨-38, -29, 12⟩⟩, ⟨-38⟩⟩ := by decide +kernel

end Altruct.Pga
