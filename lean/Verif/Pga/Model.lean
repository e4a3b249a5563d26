/-
Model of `pga.h`: plane-based geometric algebra, the Clifford algebra Cl(3, 0, 1).

The coefficients are in a commutative ring or a field; a division by zero is `none`.  The C++ operators choose their result
type from the static types of the operands (`zero`, the blades and their sums).  The model writes every result in the widest type,
`MV`, with the parts that the C++ type does not have set to zero, so the choice of the result type (lines 370-535) is not modelled.
-/
import Mathlib.Algebra.Field.Basic

namespace Altruct.Pga

/-- vector3d.h:10-17 `vector3d`, without the payload. -/
@[ext] structure V3 (R : Type) where
  x : R
  y : R
  z : R
deriving DecidableEq

/-- pga.h:118-131 `blade0`, scalars. -/
@[ext] structure B0 (R : Type) where
  s : R
deriving DecidableEq
/-- pga.h:133-146 `blade1`, vectors: planes. -/
@[ext] structure B1 (R : Type) where
  e0 : R
  v : V3 R
deriving DecidableEq
/-- pga.h:148-161 `blade2E`, bivectors without `e0`. -/
@[ext] structure BE (R : Type) where
  biE : V3 R
deriving DecidableEq
/-- pga.h:163-176 `blade2e`, bivectors with `e0`. -/
@[ext] structure Be (R : Type) where
  bie : V3 R
deriving DecidableEq
/-- pga.h:178-191 `blade3`, trivectors: points. -/
@[ext] structure B3 (R : Type) where
  e123 : R
  triP : V3 R
deriving DecidableEq
/-- pga.h:193-206 `blade4`, pseudoscalars. -/
@[ext] structure B4 (R : Type) where
  e0123 : R
deriving DecidableEq

/-- pga.h:210-220 `blade02E`: rotors. -/
structure B02E (R : Type) where
  b0 : B0 R
  b2E : BE R
deriving DecidableEq
/-- pga.h:222-232 `blade02e`: translators. -/
structure B02e (R : Type) where
  b0 : B0 R
  b2e : Be R
deriving DecidableEq
/-- pga.h:234-244 `blade22`: lines. -/
structure B22 (R : Type) where
  b2E : BE R
  b2e : Be R
deriving DecidableEq
/-- pga.h:246-256 `blade2E4`. -/
structure B2E4 (R : Type) where
  b2E : BE R
  b4 : B4 R
deriving DecidableEq
/-- pga.h:258-268 `blade2e4`. -/
structure B2e4 (R : Type) where
  b2e : Be R
  b4 : B4 R
deriving DecidableEq
/-- pga.h:270-290 `blade024`, the even part: motors. -/
structure B024 (R : Type) where
  b02 : B02E R
  b24 : B2e4 R
deriving DecidableEq
/-- pga.h:292-305 `blade13`, the odd part. -/
structure B13 (R : Type) where
  b1 : B1 R
  b3 : B3 R
deriving DecidableEq

/-- pga.h:307-322 `multivector`: all the parts. -/
@[ext] structure MV (R : Type) where
  b0 : B0 R
  b1 : B1 R
  b2E : BE R
  b2e : Be R
  b3 : B3 R
  b4 : B4 R
deriving DecidableEq

section ring
variable {R : Type} [CommRing R]

/-- vector3d.h:37 `operator +`. -/
instance : Add (V3 R) := ⟨fun a b => ⟨a.x + b.x, a.y + b.y, a.z + b.z⟩⟩
/-- vector3d.h:38 `operator -`. -/
instance : Sub (V3 R) := ⟨fun a b => ⟨a.x - b.x, a.y - b.y, a.z - b.z⟩⟩
/-- vector3d.h:36 unary minus. -/
instance : Neg (V3 R) := ⟨fun a => ⟨-a.x, -a.y, -a.z⟩⟩
/-- vector3d.h:42 `operator *` by a scalar. -/
instance : HMul (V3 R) R (V3 R) := ⟨fun a t => ⟨a.x * t, a.y * t, a.z * t⟩⟩
/-- vector3d.h:59-62 a scalar times a vector. -/
instance : HMul R (V3 R) (V3 R) := ⟨fun t a => ⟨t * a.x, t * a.y, t * a.z⟩⟩
/-- pga.h:64 `make_zero_vec`. -/
instance : Zero (V3 R) := ⟨⟨0, 0, 0⟩⟩
/-- vector3d.h:47 `operator &`, the dot product. -/
def V3.dot (a v : V3 R) : R := a.x * v.x + a.y * v.y + a.z * v.z
/-- vector3d.h:48 `operator ^`, the cross product. -/
def V3.cross (a v : V3 R) : V3 R := ⟨a.y * v.z - a.z * v.y, a.z * v.x - a.x * v.z, a.x * v.y - a.y * v.x⟩
/-- vector3d.h:56 `abs2()`. -/
def V3.abs2 (a : V3 R) : R := a.x * a.x + a.y * a.y + a.z * a.z
@[inherit_doc] infixl:70 " ⬝ " => V3.dot
@[inherit_doc] infixl:70 " ⨯ " => V3.cross

/-- pga.h:123 the scalar constructor. -/
def mk0 (s : R) : MV R := ⟨⟨s⟩, ⟨0, 0⟩, ⟨0⟩, ⟨0⟩, ⟨0, 0⟩, ⟨0⟩⟩
/-- pga.h:138 the constructor with both parts. -/
def mk1 (e0 : R) (v : V3 R) : MV R := ⟨⟨0⟩, ⟨e0, v⟩, ⟨0⟩, ⟨0⟩, ⟨0, 0⟩, ⟨0⟩⟩
/-- pga.h:138 the constructor from the `e0` part. -/
def mk1s (e0 : R) : MV R := mk1 e0 0
/-- pga.h:138 the constructor from the vector part. -/
def mk1v (v : V3 R) : MV R := mk1 0 v
/-- pga.h:153 the constructor. -/
def mkE (biE : V3 R) : MV R := ⟨⟨0⟩, ⟨0, 0⟩, ⟨biE⟩, ⟨0⟩, ⟨0, 0⟩, ⟨0⟩⟩
/-- pga.h:168 the constructor. -/
def mke (bie : V3 R) : MV R := ⟨⟨0⟩, ⟨0, 0⟩, ⟨0⟩, ⟨bie⟩, ⟨0, 0⟩, ⟨0⟩⟩
/-- pga.h:183 the constructor with both parts. -/
def mk3 (e123 : R) (triP : V3 R) : MV R := ⟨⟨0⟩, ⟨0, 0⟩, ⟨0⟩, ⟨0⟩, ⟨e123, triP⟩, ⟨0⟩⟩
/-- pga.h:183 the constructor from the `e123` part. -/
def mk3s (e123 : R) : MV R := mk3 e123 0
/-- pga.h:183 the constructor from the vector part. -/
def mk3v (triP : V3 R) : MV R := mk3 0 triP
/-- pga.h:198 the constructor. -/
def mk4 (e0123 : R) : MV R := ⟨⟨0⟩, ⟨0, 0⟩, ⟨0⟩, ⟨0⟩, ⟨0, 0⟩, ⟨e0123⟩⟩

/-- A blade as a multivector. -/
def B0.mv (a : B0 R) : MV R := mk0 a.s
/-- A blade as a multivector. -/
def B1.mv (a : B1 R) : MV R := mk1 a.e0 a.v
/-- A blade as a multivector. -/
def BE.mv (a : BE R) : MV R := mkE a.biE
/-- A blade as a multivector. -/
def Be.mv (a : Be R) : MV R := mke a.bie
/-- A blade as a multivector. -/
def B3.mv (a : B3 R) : MV R := mk3 a.e123 a.triP
/-- A blade as a multivector. -/
def B4.mv (a : B4 R) : MV R := mk4 a.e0123

/-- pga.h:116 `zero`. -/
instance : Zero (MV R) := ⟨⟨⟨0⟩, ⟨0, 0⟩, ⟨0⟩, ⟨0⟩, ⟨0, 0⟩, ⟨0⟩⟩⟩
/-- pga.h:84, 99 and 536-551 `operator +`, of all combinations of types. -/
instance : Add (MV R) := ⟨fun a b => ⟨⟨a.b0.s + b.b0.s⟩, ⟨a.b1.e0 + b.b1.e0, a.b1.v + b.b1.v⟩, ⟨a.b2E.biE + b.b2E.biE⟩, ⟨a.b2e.bie + b.b2e.bie⟩,
  ⟨a.b3.e123 + b.b3.e123, a.b3.triP + b.b3.triP⟩, ⟨a.b4.e0123 + b.b4.e0123⟩⟩⟩
/-- pga.h:85, 100 and 553-568 `operator -`, of all combinations of types.  When the left operand has no part of some kind and the right
one has (`zero - b`, line 555), the C++ code returns a reference to a dead temporary; that is not modelled. -/
instance : Sub (MV R) := ⟨fun a b => ⟨⟨a.b0.s - b.b0.s⟩, ⟨a.b1.e0 - b.b1.e0, a.b1.v - b.b1.v⟩, ⟨a.b2E.biE - b.b2E.biE⟩, ⟨a.b2e.bie - b.b2e.bie⟩,
  ⟨a.b3.e123 - b.b3.e123, a.b3.triP - b.b3.triP⟩, ⟨a.b4.e0123 - b.b4.e0123⟩⟩⟩
/-- pga.h:83, 98 unary minus. -/
instance : Neg (MV R) := ⟨fun a => ⟨⟨-a.b0.s⟩, ⟨-a.b1.e0, -a.b1.v⟩, ⟨-a.b2E.biE⟩, ⟨-a.b2e.bie⟩, ⟨-a.b3.e123, -a.b3.triP⟩, ⟨-a.b4.e0123⟩⟩⟩
/-- pga.h:86, 101 `operator *` by a scalar. -/
instance : HMul (MV R) R (MV R) := ⟨fun a t => ⟨⟨a.b0.s * t⟩, ⟨a.b1.e0 * t, a.b1.v * t⟩, ⟨a.b2E.biE * t⟩, ⟨a.b2e.bie * t⟩,
  ⟨a.b3.e123 * t, a.b3.triP * t⟩, ⟨a.b4.e0123 * t⟩⟩⟩

/-- A composite blade as a multivector (lines 276-282 and the constructors of `multivector`). -/
def B02E.mv (a : B02E R) : MV R := ⟨a.b0, ⟨0, 0⟩, a.b2E, ⟨0⟩, ⟨0, 0⟩, ⟨0⟩⟩
/-- A composite blade as a multivector. -/
def B02e.mv (a : B02e R) : MV R := ⟨a.b0, ⟨0, 0⟩, ⟨0⟩, a.b2e, ⟨0, 0⟩, ⟨0⟩⟩
/-- A composite blade as a multivector. -/
def B22.mv (a : B22 R) : MV R := ⟨⟨0⟩, ⟨0, 0⟩, a.b2E, a.b2e, ⟨0, 0⟩, ⟨0⟩⟩
/-- A composite blade as a multivector. -/
def B2E4.mv (a : B2E4 R) : MV R := ⟨⟨0⟩, ⟨0, 0⟩, a.b2E, ⟨0⟩, ⟨0, 0⟩, a.b4⟩
/-- A composite blade as a multivector. -/
def B2e4.mv (a : B2e4 R) : MV R := ⟨⟨0⟩, ⟨0, 0⟩, ⟨0⟩, a.b2e, ⟨0, 0⟩, a.b4⟩
/-- A composite blade as a multivector. -/
def B024.mv (a : B024 R) : MV R := ⟨a.b02.b0, ⟨0, 0⟩, a.b02.b2E, a.b24.b2e, ⟨0, 0⟩, a.b24.b4⟩
/-- A composite blade as a multivector. -/
def B13.mv (a : B13 R) : MV R := ⟨⟨0⟩, a.b1, ⟨0⟩, ⟨0⟩, a.b3, ⟨0⟩⟩

/-- pga.h:127. -/
def B0.norm2 (a : B0 R) : R := a.s * a.s
/-- pga.h:129. -/
def B0.diff2 (a : B0 R) : R := a.norm2
/-- pga.h:142. -/
def B1.norm2 (a : B1 R) : R := a.v.abs2
/-- pga.h:144. -/
def B1.diff2 (a : B1 R) : R := a.norm2
/-- pga.h:157. -/
def BE.norm2 (a : BE R) : R := a.biE.abs2
/-- pga.h:159. -/
def BE.diff2 (a : BE R) : R := -a.norm2
/-- pga.h:172. -/
def Be.norm2 (_ : Be R) : R := 0
/-- pga.h:174. -/
def Be.diff2 (a : Be R) : R := a.norm2
/-- pga.h:187. -/
def B3.norm2 (a : B3 R) : R := a.e123 * a.e123
/-- pga.h:189. -/
def B3.diff2 (a : B3 R) : R := -a.norm2
/-- pga.h:202. -/
def B4.norm2 (_ : B4 R) : R := 0
/-- pga.h:204. -/
def B4.diff2 (a : B4 R) : R := a.norm2
/-- pga.h:111 `norm2` of a composite blade. -/
def B02E.norm2 (a : B02E R) : R := a.b0.norm2 + a.b2E.norm2
/-- pga.h:113 `diff2` of a composite blade. -/
def B02E.diff2 (a : B02E R) : R := a.b0.diff2 + a.b2E.diff2
/-- pga.h:111. -/
def B02e.norm2 (a : B02e R) : R := a.b0.norm2 + a.b2e.norm2
/-- pga.h:113. -/
def B02e.diff2 (a : B02e R) : R := a.b0.diff2 + a.b2e.diff2
/-- pga.h:111. -/
def B22.norm2 (a : B22 R) : R := a.b2E.norm2 + a.b2e.norm2
/-- pga.h:113. -/
def B22.diff2 (a : B22 R) : R := a.b2E.diff2 + a.b2e.diff2
/-- pga.h:111. -/
def B2E4.norm2 (a : B2E4 R) : R := a.b2E.norm2 + a.b4.norm2
/-- pga.h:113. -/
def B2E4.diff2 (a : B2E4 R) : R := a.b2E.diff2 + a.b4.diff2
/-- pga.h:111. -/
def B2e4.norm2 (a : B2e4 R) : R := a.b2e.norm2 + a.b4.norm2
/-- pga.h:113. -/
def B2e4.diff2 (a : B2e4 R) : R := a.b2e.diff2 + a.b4.diff2
/-- pga.h:111. -/
def B024.norm2 (a : B024 R) : R := a.b02.norm2 + a.b24.norm2
/-- pga.h:113. -/
def B024.diff2 (a : B024 R) : R := a.b02.diff2 + a.b24.diff2
/-- pga.h:111. -/
def B13.norm2 (a : B13 R) : R := a.b1.norm2 + a.b3.norm2
/-- pga.h:113. -/
def B13.diff2 (a : B13 R) : R := a.b1.diff2 + a.b3.diff2

/-- pga.h:126, 141, 156, 171, 186, 201 and 110 `rev()`. -/
def MV.rev (a : MV R) : MV R := ⟨⟨a.b0.s⟩, ⟨a.b1.e0, a.b1.v⟩, ⟨-a.b2E.biE⟩, ⟨-a.b2e.bie⟩, ⟨-a.b3.e123, -a.b3.triP⟩, ⟨a.b4.e0123⟩⟩

/-- pga.h:355-368 `operator !`, the dual. -/
def MV.dual (a : MV R) : MV R :=
  ⟨⟨a.b4.e0123⟩, ⟨a.b3.e123, a.b3.triP⟩, ⟨a.b2e.bie⟩, ⟨a.b2E.biE⟩, ⟨a.b1.e0, a.b1.v⟩, ⟨a.b0.s⟩⟩

/-! ### the products of blades -/

/-- pga.h:573 `blade0 * blade0`. -/
def mul0_0 (a : B0 R) (b : B0 R) : MV R := mk0 (a.s * b.s)
/-- pga.h:574 `blade0 * blade1`. -/
def mul0_1 (a : B0 R) (b : B1 R) : MV R := mk1 (a.s * b.e0) (a.s * b.v)
/-- pga.h:575 `blade0 * blade2E`. -/
def mul0_E (a : B0 R) (b : BE R) : MV R := mkE (a.s * b.biE)
/-- pga.h:576 `blade0 * blade2e`. -/
def mul0_e (a : B0 R) (b : Be R) : MV R := mke (a.s * b.bie)
/-- pga.h:577 `blade0 * blade3`. -/
def mul0_3 (a : B0 R) (b : B3 R) : MV R := mk3 (a.s * b.e123) (a.s * b.triP)
/-- pga.h:578 `blade0 * blade4`. -/
def mul0_4 (a : B0 R) (b : B4 R) : MV R := mk4 (a.s * b.e0123)
/-- pga.h:579 `blade1 * blade0`. -/
def mul1_0 (a : B1 R) (b : B0 R) : MV R := mk1 (a.e0 * b.s) (a.v * b.s)
/-- pga.h:580 `blade1 * blade1`. -/
def mul1_1 (a : B1 R) (b : B1 R) : MV R := mk0 (a.v ⬝ b.v) + mkE (a.v ⨯ b.v) + mke (a.e0 * b.v - a.v * b.e0)
/-- pga.h:581 `blade1 * blade2E`. -/
def mul1_E (a : B1 R) (b : BE R) : MV R := mk1v (-(a.v ⨯ b.biE)) + mk3 (a.v ⬝ b.biE) (-a.e0 * b.biE)
/-- pga.h:582 `blade1 * blade2e`. -/
def mul1_e (a : B1 R) (b : Be R) : MV R := mk1s (-(a.v ⬝ b.bie)) + mk3v (a.v ⨯ b.bie)
/-- pga.h:583 `blade1 * blade3`. -/
def mul1_3 (a : B1 R) (b : B3 R) : MV R := mkE (a.v * b.e123) + mke (-(a.v ⨯ b.triP)) + mk4 (a.e0 * b.e123 + (a.v ⬝ b.triP))
/-- pga.h:584 `blade1 * blade4`. -/
def mul1_4 (a : B1 R) (b : B4 R) : MV R := mk3v (a.v * b.e0123)
/-- pga.h:585 `blade2E * blade0`. -/
def mulE_0 (a : BE R) (b : B0 R) : MV R := mkE (a.biE * b.s)
/-- pga.h:586 `blade2E * blade1`. -/
def mulE_1 (a : BE R) (b : B1 R) : MV R := mk1v (-(a.biE ⨯ b.v)) + mk3 (a.biE ⬝ b.v) (a.biE * -b.e0)
/-- pga.h:587 `blade2E * blade2E`. -/
def mulE_E (a : BE R) (b : BE R) : MV R := mk0 (-(a.biE ⬝ b.biE)) + mkE (-(a.biE ⨯ b.biE))
/-- pga.h:588 `blade2E * blade2e`. -/
def mulE_e (a : BE R) (b : Be R) : MV R := mke (-(a.biE ⨯ b.bie)) + mk4 (a.biE ⬝ b.bie)
/-- pga.h:589 `blade2E * blade3`. -/
def mulE_3 (a : BE R) (b : B3 R) : MV R := mk1 (a.biE ⬝ b.triP) (a.biE * -b.e123) + mk3v (-(a.biE ⨯ b.triP))
/-- pga.h:590 `blade2E * blade4`. -/
def mulE_4 (a : BE R) (b : B4 R) : MV R := mke (a.biE * -b.e0123)
/-- pga.h:591 `blade2e * blade0`. -/
def mule_0 (a : Be R) (b : B0 R) : MV R := mke (a.bie * b.s)
/-- pga.h:592 `blade2e * blade1`. -/
def mule_1 (a : Be R) (b : B1 R) : MV R := mk1s (a.bie ⬝ b.v) + mk3v (-(a.bie ⨯ b.v))
/-- pga.h:593 `blade2e * blade2E`. -/
def mule_E (a : Be R) (b : BE R) : MV R := mke (-(a.bie ⨯ b.biE)) + mk4 (a.bie ⬝ b.biE)
/-- pga.h:594 `blade2e * blade2e`. -/
def mule_e (a : Be R) (b : Be R) : MV R := (0 : MV R)
/-- pga.h:595 `blade2e * blade3`. -/
def mule_3 (a : Be R) (b : B3 R) : MV R := mk3v (a.bie * -b.e123)
/-- pga.h:596 `blade2e * blade4`. -/
def mule_4 (a : Be R) (b : B4 R) : MV R := (0 : MV R)
/-- pga.h:597 `blade3 * blade0`. -/
def mul3_0 (a : B3 R) (b : B0 R) : MV R := mk3 (a.e123 * b.s) (a.triP * b.s)
/-- pga.h:598 `blade3 * blade1`. -/
def mul3_1 (a : B3 R) (b : B1 R) : MV R := mkE (a.e123 * b.v) + mke (a.triP ⨯ b.v) + mk4 (-a.e123 * b.e0 - (a.triP ⬝ b.v))
/-- pga.h:599 `blade3 * blade2E`. -/
def mul3_E (a : B3 R) (b : BE R) : MV R := mk1 (a.triP ⬝ b.biE) (-a.e123 * b.biE) + mk3v (-(a.triP ⨯ b.biE))
/-- pga.h:600 `blade3 * blade2e`. -/
def mul3_e (a : B3 R) (b : Be R) : MV R := mk3v (a.e123 * b.bie)
/-- pga.h:601 `blade3 * blade3`. -/
def mul3_3 (a : B3 R) (b : B3 R) : MV R := mk0 (-a.e123 * b.e123) + mke (a.triP * b.e123 - a.e123 * b.triP)
/-- pga.h:602 `blade3 * blade4`. -/
def mul3_4 (a : B3 R) (b : B4 R) : MV R := mk1s (a.e123 * b.e0123)
/-- pga.h:603 `blade4 * blade0`. -/
def mul4_0 (a : B4 R) (b : B0 R) : MV R := mk4 (a.e0123 * b.s)
/-- pga.h:604 `blade4 * blade1`. -/
def mul4_1 (a : B4 R) (b : B1 R) : MV R := mk3v (-a.e0123 * b.v)
/-- pga.h:605 `blade4 * blade2E`. -/
def mul4_E (a : B4 R) (b : BE R) : MV R := mke (-a.e0123 * b.biE)
/-- pga.h:606 `blade4 * blade2e`. -/
def mul4_e (a : B4 R) (b : Be R) : MV R := (0 : MV R)
/-- pga.h:607 `blade4 * blade3`. -/
def mul4_3 (a : B4 R) (b : B3 R) : MV R := mk1s (-a.e0123 * b.e123)
/-- pga.h:608 `blade4 * blade4`. -/
def mul4_4 (a : B4 R) (b : B4 R) : MV R := (0 : MV R)
/-- pga.h:618 `blade0 ^ blade0`. -/
def wedge0_0 (a : B0 R) (b : B0 R) : MV R := mk0 (a.s * b.s)
/-- pga.h:619 `blade0 ^ blade1`. -/
def wedge0_1 (a : B0 R) (b : B1 R) : MV R := mk1 (a.s * b.e0) (a.s * b.v)
/-- pga.h:620 `blade0 ^ blade2E`. -/
def wedge0_E (a : B0 R) (b : BE R) : MV R := mkE (a.s * b.biE)
/-- pga.h:621 `blade0 ^ blade2e`. -/
def wedge0_e (a : B0 R) (b : Be R) : MV R := mke (a.s * b.bie)
/-- pga.h:622 `blade0 ^ blade3`. -/
def wedge0_3 (a : B0 R) (b : B3 R) : MV R := mk3 (a.s * b.e123) (a.s * b.triP)
/-- pga.h:623 `blade0 ^ blade4`. -/
def wedge0_4 (a : B0 R) (b : B4 R) : MV R := mk4 (a.s * b.e0123)
/-- pga.h:624 `blade1 ^ blade0`. -/
def wedge1_0 (a : B1 R) (b : B0 R) : MV R := mk1 (a.e0 * b.s) (a.v * b.s)
/-- pga.h:625 `blade1 ^ blade1`. -/
def wedge1_1 (a : B1 R) (b : B1 R) : MV R := mkE (a.v ⨯ b.v) + mke (a.e0 * b.v - a.v * b.e0)
/-- pga.h:626 `blade1 ^ blade2E`. -/
def wedge1_E (a : B1 R) (b : BE R) : MV R := mk3 (a.v ⬝ b.biE) (-a.e0 * b.biE)
/-- pga.h:627 `blade1 ^ blade2e`. -/
def wedge1_e (a : B1 R) (b : Be R) : MV R := mk3v (a.v ⨯ b.bie)
/-- pga.h:628 `blade1 ^ blade3`. -/
def wedge1_3 (a : B1 R) (b : B3 R) : MV R := mk4 ((a.e0 * b.e123 + (a.v ⬝ b.triP)))
/-- pga.h:629 `blade1 ^ blade4`. -/
def wedge1_4 (a : B1 R) (b : B4 R) : MV R := (0 : MV R)
/-- pga.h:630 `blade2E ^ blade0`. -/
def wedgeE_0 (a : BE R) (b : B0 R) : MV R := mkE (a.biE * b.s)
/-- pga.h:631 `blade2E ^ blade1`. -/
def wedgeE_1 (a : BE R) (b : B1 R) : MV R := mk3 (a.biE ⬝ b.v) (a.biE * -b.e0)
/-- pga.h:632 `blade2E ^ blade2E`. -/
def wedgeE_E (a : BE R) (b : BE R) : MV R := (0 : MV R)
/-- pga.h:633 `blade2E ^ blade2e`. -/
def wedgeE_e (a : BE R) (b : Be R) : MV R := mk4 (a.biE ⬝ b.bie)
/-- pga.h:634 `blade2E ^ blade3`. -/
def wedgeE_3 (a : BE R) (b : B3 R) : MV R := (0 : MV R)
/-- pga.h:635 `blade2E ^ blade4`. -/
def wedgeE_4 (a : BE R) (b : B4 R) : MV R := (0 : MV R)
/-- pga.h:636 `blade2e ^ blade0`. -/
def wedgee_0 (a : Be R) (b : B0 R) : MV R := mke (a.bie * b.s)
/-- pga.h:637 `blade2e ^ blade1`. -/
def wedgee_1 (a : Be R) (b : B1 R) : MV R := mk3v (-(a.bie ⨯ b.v))
/-- pga.h:638 `blade2e ^ blade2E`. -/
def wedgee_E (a : Be R) (b : BE R) : MV R := mk4 (a.bie ⬝ b.biE)
/-- pga.h:639 `blade2e ^ blade2e`. -/
def wedgee_e (a : Be R) (b : Be R) : MV R := (0 : MV R)
/-- pga.h:640 `blade2e ^ blade3`. -/
def wedgee_3 (a : Be R) (b : B3 R) : MV R := (0 : MV R)
/-- pga.h:641 `blade2e ^ blade4`. -/
def wedgee_4 (a : Be R) (b : B4 R) : MV R := (0 : MV R)
/-- pga.h:642 `blade3 ^ blade0`. -/
def wedge3_0 (a : B3 R) (b : B0 R) : MV R := mk3 (a.e123 * b.s) (a.triP * b.s)
/-- pga.h:643 `blade3 ^ blade1`. -/
def wedge3_1 (a : B3 R) (b : B1 R) : MV R := mk4 (-a.e123 * b.e0 - (a.triP ⬝ b.v))
/-- pga.h:644 `blade3 ^ blade2E`. -/
def wedge3_E (a : B3 R) (b : BE R) : MV R := (0 : MV R)
/-- pga.h:645 `blade3 ^ blade2e`. -/
def wedge3_e (a : B3 R) (b : Be R) : MV R := (0 : MV R)
/-- pga.h:646 `blade3 ^ blade3`. -/
def wedge3_3 (a : B3 R) (b : B3 R) : MV R := (0 : MV R)
/-- pga.h:647 `blade3 ^ blade4`. -/
def wedge3_4 (a : B3 R) (b : B4 R) : MV R := (0 : MV R)
/-- pga.h:648 `blade4 ^ blade0`. -/
def wedge4_0 (a : B4 R) (b : B0 R) : MV R := mk4 (a.e0123 * b.s)
/-- pga.h:649 `blade4 ^ blade1`. -/
def wedge4_1 (a : B4 R) (b : B1 R) : MV R := (0 : MV R)
/-- pga.h:650 `blade4 ^ blade2E`. -/
def wedge4_E (a : B4 R) (b : BE R) : MV R := (0 : MV R)
/-- pga.h:651 `blade4 ^ blade2e`. -/
def wedge4_e (a : B4 R) (b : Be R) : MV R := (0 : MV R)
/-- pga.h:652 `blade4 ^ blade3`. -/
def wedge4_3 (a : B4 R) (b : B3 R) : MV R := (0 : MV R)
/-- pga.h:653 `blade4 ^ blade4`. -/
def wedge4_4 (a : B4 R) (b : B4 R) : MV R := (0 : MV R)
/-- pga.h:663 `blade0 & blade0`. -/
def dot0_0 (a : B0 R) (b : B0 R) : MV R := mk0 (a.s * b.s)
/-- pga.h:664 `blade0 & blade1`. -/
def dot0_1 (a : B0 R) (b : B1 R) : MV R := mk1 (a.s * b.e0) (a.s * b.v)
/-- pga.h:665 `blade0 & blade2E`. -/
def dot0_E (a : B0 R) (b : BE R) : MV R := mkE (a.s * b.biE)
/-- pga.h:666 `blade0 & blade2e`. -/
def dot0_e (a : B0 R) (b : Be R) : MV R := mke (a.s * b.bie)
/-- pga.h:667 `blade0 & blade3`. -/
def dot0_3 (a : B0 R) (b : B3 R) : MV R := mk3 (a.s * b.e123) (a.s * b.triP)
/-- pga.h:668 `blade0 & blade4`. -/
def dot0_4 (a : B0 R) (b : B4 R) : MV R := mk4 (a.s * b.e0123)
/-- pga.h:669 `blade1 & blade0`. -/
def dot1_0 (a : B1 R) (b : B0 R) : MV R := mk1 (a.e0 * b.s) (a.v * b.s)
/-- pga.h:670 `blade1 & blade1`. -/
def dot1_1 (a : B1 R) (b : B1 R) : MV R := mk0 (a.v ⬝ b.v)
/-- pga.h:671 `blade1 & blade2E`. -/
def dot1_E (a : B1 R) (b : BE R) : MV R := mk1v (-(a.v ⨯ b.biE))
/-- pga.h:672 `blade1 & blade2e`. -/
def dot1_e (a : B1 R) (b : Be R) : MV R := mk1s (-(a.v ⬝ b.bie))
/-- pga.h:673 `blade1 & blade3`. -/
def dot1_3 (a : B1 R) (b : B3 R) : MV R := mkE (a.v * b.e123) + mke (-(a.v ⨯ b.triP))
/-- pga.h:674 `blade1 & blade4`. -/
def dot1_4 (a : B1 R) (b : B4 R) : MV R := mk3v (a.v * b.e0123)
/-- pga.h:675 `blade2E & blade0`. -/
def dotE_0 (a : BE R) (b : B0 R) : MV R := mkE (a.biE * b.s)
/-- pga.h:676 `blade2E & blade1`. -/
def dotE_1 (a : BE R) (b : B1 R) : MV R := mk1v (-(a.biE ⨯ b.v))
/-- pga.h:677 `blade2E & blade2E`. -/
def dotE_E (a : BE R) (b : BE R) : MV R := mk0 (-(a.biE ⬝ b.biE))
/-- pga.h:678 `blade2E & blade2e`. -/
def dotE_e (a : BE R) (b : Be R) : MV R := (0 : MV R)
/-- pga.h:679 `blade2E & blade3`. -/
def dotE_3 (a : BE R) (b : B3 R) : MV R := mk1 (a.biE ⬝ b.triP) (a.biE * -b.e123)
/-- pga.h:680 `blade2E & blade4`. -/
def dotE_4 (a : BE R) (b : B4 R) : MV R := mke (a.biE * -b.e0123)
/-- pga.h:681 `blade2e & blade0`. -/
def dote_0 (a : Be R) (b : B0 R) : MV R := mke (a.bie * b.s)
/-- pga.h:682 `blade2e & blade1`. -/
def dote_1 (a : Be R) (b : B1 R) : MV R := mk1s (a.bie ⬝ b.v)
/-- pga.h:683 `blade2e & blade2E`. -/
def dote_E (a : Be R) (b : BE R) : MV R := (0 : MV R)
/-- pga.h:684 `blade2e & blade2e`. -/
def dote_e (a : Be R) (b : Be R) : MV R := (0 : MV R)
/-- pga.h:685 `blade2e & blade3`. -/
def dote_3 (a : Be R) (b : B3 R) : MV R := (0 : MV R)
/-- pga.h:686 `blade2e & blade4`. -/
def dote_4 (a : Be R) (b : B4 R) : MV R := (0 : MV R)
/-- pga.h:687 `blade3 & blade0`. -/
def dot3_0 (a : B3 R) (b : B0 R) : MV R := mk3 (a.e123 * b.s) (a.triP * b.s)
/-- pga.h:688 `blade3 & blade1`. -/
def dot3_1 (a : B3 R) (b : B1 R) : MV R := mkE (a.e123 * b.v) + mke (a.triP ⨯ b.v)
/-- pga.h:689 `blade3 & blade2E`. -/
def dot3_E (a : B3 R) (b : BE R) : MV R := mk1 (a.triP ⬝ b.biE) (-a.e123 * b.biE)
/-- pga.h:690 `blade3 & blade2e`. -/
def dot3_e (a : B3 R) (b : Be R) : MV R := (0 : MV R)
/-- pga.h:691 `blade3 & blade3`. -/
def dot3_3 (a : B3 R) (b : B3 R) : MV R := mk0 (-a.e123 * b.e123)
/-- pga.h:692 `blade3 & blade4`. -/
def dot3_4 (a : B3 R) (b : B4 R) : MV R := mk1s (a.e123 * b.e0123)
/-- pga.h:693 `blade4 & blade0`. -/
def dot4_0 (a : B4 R) (b : B0 R) : MV R := mk4 (a.e0123 * b.s)
/-- pga.h:694 `blade4 & blade1`. -/
def dot4_1 (a : B4 R) (b : B1 R) : MV R := mk3v (-a.e0123 * b.v)
/-- pga.h:695 `blade4 & blade2E`. -/
def dot4_E (a : B4 R) (b : BE R) : MV R := mke (-a.e0123 * b.biE)
/-- pga.h:696 `blade4 & blade2e`. -/
def dot4_e (a : B4 R) (b : Be R) : MV R := (0 : MV R)
/-- pga.h:697 `blade4 & blade3`. -/
def dot4_3 (a : B4 R) (b : B3 R) : MV R := mk1s (-a.e0123 * b.e123)
/-- pga.h:698 `blade4 & blade4`. -/
def dot4_4 (a : B4 R) (b : B4 R) : MV R := (0 : MV R)
/-- pga.h:708 `blade0 | blade0`. -/
def join0_0 (a : B0 R) (b : B0 R) : MV R := (0 : MV R)
/-- pga.h:709 `blade0 | blade1`. -/
def join0_1 (a : B0 R) (b : B1 R) : MV R := (0 : MV R)
/-- pga.h:710 `blade0 | blade2E`. -/
def join0_E (a : B0 R) (b : BE R) : MV R := (0 : MV R)
/-- pga.h:711 `blade0 | blade2e`. -/
def join0_e (a : B0 R) (b : Be R) : MV R := (0 : MV R)
/-- pga.h:712 `blade0 | blade3`. -/
def join0_3 (a : B0 R) (b : B3 R) : MV R := (0 : MV R)
/-- pga.h:713 `blade0 | blade4`. -/
def join0_4 (a : B0 R) (b : B4 R) : MV R := mk0 (a.s * b.e0123)
/-- pga.h:714 `blade1 | blade0`. -/
def join1_0 (a : B1 R) (b : B0 R) : MV R := (0 : MV R)
/-- pga.h:715 `blade1 | blade1`. -/
def join1_1 (a : B1 R) (b : B1 R) : MV R := (0 : MV R)
/-- pga.h:716 `blade1 | blade2E`. -/
def join1_E (a : B1 R) (b : BE R) : MV R := (0 : MV R)
/-- pga.h:717 `blade1 | blade2e`. -/
def join1_e (a : B1 R) (b : Be R) : MV R := (0 : MV R)
/-- pga.h:718 `blade1 | blade3`. -/
def join1_3 (a : B1 R) (b : B3 R) : MV R := mk0 (-a.e0 * b.e123 - (a.v ⬝ b.triP))
/-- pga.h:719 `blade1 | blade4`. -/
def join1_4 (a : B1 R) (b : B4 R) : MV R := mk1 (a.e0 * b.e0123) (a.v * b.e0123)
/-- pga.h:720 `blade2E | blade0`. -/
def joinE_0 (a : BE R) (b : B0 R) : MV R := (0 : MV R)
/-- pga.h:721 `blade2E | blade1`. -/
def joinE_1 (a : BE R) (b : B1 R) : MV R := (0 : MV R)
/-- pga.h:722 `blade2E | blade2E`. -/
def joinE_E (a : BE R) (b : BE R) : MV R := (0 : MV R)
/-- pga.h:723 `blade2E | blade2e`. -/
def joinE_e (a : BE R) (b : Be R) : MV R := mk0 (a.biE ⬝ b.bie)
/-- pga.h:724 `blade2E | blade3`. -/
def joinE_3 (a : BE R) (b : B3 R) : MV R := mk1v (-(a.biE ⨯ b.triP))
/-- pga.h:725 `blade2E | blade4`. -/
def joinE_4 (a : BE R) (b : B4 R) : MV R := mkE (a.biE * b.e0123)
/-- pga.h:726 `blade2e | blade0`. -/
def joine_0 (a : Be R) (b : B0 R) : MV R := (0 : MV R)
/-- pga.h:727 `blade2e | blade1`. -/
def joine_1 (a : Be R) (b : B1 R) : MV R := (0 : MV R)
/-- pga.h:728 `blade2e | blade2E`. -/
def joine_E (a : Be R) (b : BE R) : MV R := mk0 (a.bie ⬝ b.biE)
/-- pga.h:729 `blade2e | blade2e`. -/
def joine_e (a : Be R) (b : Be R) : MV R := (0 : MV R)
/-- pga.h:730 `blade2e | blade3`. -/
def joine_3 (a : Be R) (b : B3 R) : MV R := mk1 (a.bie ⬝ b.triP) (a.bie * -b.e123)
/-- pga.h:731 `blade2e | blade4`. -/
def joine_4 (a : Be R) (b : B4 R) : MV R := mke (a.bie * b.e0123)
/-- pga.h:732 `blade3 | blade0`. -/
def join3_0 (a : B3 R) (b : B0 R) : MV R := (0 : MV R)
/-- pga.h:733 `blade3 | blade1`. -/
def join3_1 (a : B3 R) (b : B1 R) : MV R := mk0 (a.e123 * b.e0 + (a.triP ⬝ b.v))
/-- pga.h:734 `blade3 | blade2E`. -/
def join3_E (a : B3 R) (b : BE R) : MV R := mk1v (a.triP ⨯ b.biE)
/-- pga.h:735 `blade3 | blade2e`. -/
def join3_e (a : B3 R) (b : Be R) : MV R := mk1 (a.triP ⬝ b.bie) (-a.e123 * b.bie)
/-- pga.h:736 `blade3 | blade3`. -/
def join3_3 (a : B3 R) (b : B3 R) : MV R := mkE (a.triP * -b.e123 + a.e123 * b.triP) + mke ((a.triP ⨯ b.triP))
/-- pga.h:737 `blade3 | blade4`. -/
def join3_4 (a : B3 R) (b : B4 R) : MV R := mk3 (a.e123 * b.e0123) (a.triP * b.e0123)
/-- pga.h:738 `blade4 | blade0`. -/
def join4_0 (a : B4 R) (b : B0 R) : MV R := mk0 (a.e0123 * b.s)
/-- pga.h:739 `blade4 | blade1`. -/
def join4_1 (a : B4 R) (b : B1 R) : MV R := mk1 (a.e0123 * b.e0) (a.e0123 * b.v)
/-- pga.h:740 `blade4 | blade2E`. -/
def join4_E (a : B4 R) (b : BE R) : MV R := mkE (a.e0123 * b.biE)
/-- pga.h:741 `blade4 | blade2e`. -/
def join4_e (a : B4 R) (b : Be R) : MV R := mke (a.e0123 * b.bie)
/-- pga.h:742 `blade4 | blade3`. -/
def join4_3 (a : B4 R) (b : B3 R) : MV R := mk3 (a.e0123 * b.e123) (a.e0123 * b.triP)
/-- pga.h:743 `blade4 | blade4`. -/
def join4_4 (a : B4 R) (b : B4 R) : MV R := mk4 (a.e0123 * b.e0123)
/-- pga.h:782 `blade0 % blade0`. -/
def sand0_0 (a : B0 R) (b : B0 R) : MV R := a.mv * b.norm2
/-- pga.h:783 `blade0 % blade1`. -/
def sand0_1 (a : B0 R) (b : B1 R) : MV R := a.mv * -b.norm2
/-- pga.h:784 `blade0 % blade2E`. -/
def sand0_E (a : B0 R) (b : BE R) : MV R := a.mv * b.norm2
/-- pga.h:785 `blade0 % blade2e`. -/
def sand0_e (a : B0 R) (b : Be R) : MV R := a.mv * b.norm2
/-- pga.h:786 `blade0 % blade3`. -/
def sand0_3 (a : B0 R) (b : B3 R) : MV R := a.mv * -b.norm2
/-- pga.h:787 `blade0 % blade4`. -/
def sand0_4 (a : B0 R) (b : B4 R) : MV R := a.mv * b.norm2
/-- pga.h:788 `blade0 % blade02E`. -/
def sand0_02E (a : B0 R) (b : B02E R) : MV R := a.mv * b.norm2
/-- pga.h:789 `blade0 % blade02e`. -/
def sand0_02e (a : B0 R) (b : B02e R) : MV R := a.mv * b.norm2
/-- pga.h:790 `blade0 % blade22`. -/
def sand0_22 (a : B0 R) (b : B22 R) : MV R := a.mv * b.norm2
/-- pga.h:791 `blade0 % blade2E4`. -/
def sand0_2E4 (a : B0 R) (b : B2E4 R) : MV R := a.mv * b.norm2
/-- pga.h:792 `blade0 % blade2e4`. -/
def sand0_2e4 (a : B0 R) (b : B2e4 R) : MV R := a.mv * b.norm2
/-- pga.h:793 `blade0 % blade024`. -/
def sand0_024 (a : B0 R) (b : B024 R) : MV R := a.mv * b.norm2
/-- pga.h:794 `blade0 % blade13`. -/
def sand0_13 (a : B0 R) (b : B13 R) : MV R := a.mv * -b.norm2
/-- pga.h:796 `blade1 % blade0`. -/
def sand1_0 (a : B1 R) (b : B0 R) : MV R := a.mv * b.norm2
/-- pga.h:797 `blade1 % blade1`. -/
def sand1_1 (a : B1 R) (b : B1 R) : MV R := a.mv * b.norm2 - b.mv * (a.v ⬝ b.v) * (2 : R)
/-- pga.h:798 `blade1 % blade2E`. -/
def sand1_E (a : B1 R) (b : BE R) : MV R := mk1 (a.e0 * b.norm2) (a.v * b.diff2 + b.biE * ((a.v ⬝ b.biE) * (2 : R)))
/-- pga.h:799 `blade1 % blade2e`. -/
def sand1_e (a : B1 R) (b : Be R) : MV R := (0 : MV R)
/-- pga.h:800 `blade1 % blade3`. -/
def sand1_3 (a : B1 R) (b : B3 R) : MV R := mk1 (a.e0 * b.norm2 + b.e123 * (a.v ⬝ b.triP) * (2 : R)) (a.v * b.diff2)
/-- pga.h:801 `blade1 % blade4`. -/
def sand1_4 (a : B1 R) (b : B4 R) : MV R := (0 : MV R)
/-- pga.h:802-805 `blade1 % blade02E`. -/
def sand1_02E (a : B1 R) (b : B02E R) : MV R :=
  let c2 : R := (2 : R)
  let av_x_bbiE := (a.v ⨯ b.b2E.biE)
  let av_o_bbiE := (a.v ⬝ b.b2E.biE)
  mk1 (a.e0 * b.norm2) (a.v * b.diff2 + (b.b2E.biE * av_o_bbiE + b.b0.s * av_x_bbiE) * c2)
/-- pga.h:806-808 `blade1 % blade02e`. -/
def sand1_02e (a : B1 R) (b : B02e R) : MV R := mk1 (a.e0 * b.norm2 + b.b0.s * (a.v ⬝ b.b2e.bie) * (2 : R)) (a.v * b.diff2)
/-- pga.h:809-812 `blade1 % blade22`. -/
def sand1_22 (a : B1 R) (b : B22 R) : MV R :=
  let c2 : R := (2 : R)
  let av_x_bbiE := (a.v ⨯ b.b2E.biE)
  let av_o_bbiE := (a.v ⬝ b.b2E.biE)
  mk1 (a.e0 * b.norm2 + (b.b2e.bie ⬝ av_x_bbiE) * c2) (a.v * b.diff2 + b.b2E.biE * (av_o_bbiE * c2))
/-- pga.h:813-816 `blade1 % blade2E4`. -/
def sand1_2E4 (a : B1 R) (b : B2E4 R) : MV R :=
  let av_o_bbiE_c2 := (a.v ⬝ b.b2E.biE) * (2 : R)
  mk1 (a.e0 * b.norm2 + b.b4.e0123 * av_o_bbiE_c2) (a.v * b.diff2 + b.b2E.biE * av_o_bbiE_c2)
/-- pga.h:817-819 `blade1 % blade2e4`. -/
def sand1_2e4 (a : B1 R) (b : B2e4 R) : MV R := (0 : MV R)
/-- pga.h:820-823 `blade1 % blade024`. -/
def sand1_024 (a : B1 R) (b : B024 R) : MV R :=
  let bs := b.b02.b0.s
  let b0123 := b.b24.b4.e0123
  let bbiE := b.b02.b2E.biE
  let bbie := b.b24.b2e.bie
  let c2 : R := 2
  let av_x_bbiE := (a.v ⨯ bbiE)
  let av_o_bbiE := (a.v ⬝ bbiE)
  mk1 (a.e0 * b.norm2 + (bs * (a.v ⬝ bbie) + b0123 * av_o_bbiE + (bbie ⬝ av_x_bbiE)) * c2) (a.v * b.diff2 + (bbiE * av_o_bbiE + bs * av_x_bbiE) * c2)
/-- pga.h:824-827 `blade1 % blade13`. -/
def sand1_13 (a : B1 R) (b : B13 R) : MV R :=
  let b0 := b.b1.e0
  let b123 := b.b3.e123
  let bv := b.b1.v
  let btriP := b.b3.triP
  let c2 : R := 2
  let av_x_bv := (a.v ⨯ bv)
  let av_o_bv := (a.v ⬝ bv)
  mk1 (a.e0 * b.norm2 + (-b0 * av_o_bv + b123 * (a.v ⬝ btriP) - (btriP ⬝ av_x_bv)) * c2) (a.v * b.diff2 + (b123 * av_x_bv - bv * av_o_bv) * c2)
/-- pga.h:829 `blade2E % blade0`. -/
def sandE_0 (a : BE R) (b : B0 R) : MV R := a.mv * b.norm2
/-- pga.h:830 `blade2E % blade1`. -/
def sandE_1 (a : BE R) (b : B1 R) : MV R := mkE (a.biE * b.diff2 - b.v * ((a.biE ⬝ b.v) * (2 : R))) + mke (b.e0 * (2 : R) * (a.biE ⨯ b.v))
/-- pga.h:831 `blade2E % blade2E`. -/
def sandE_E (a : BE R) (b : BE R) : MV R := mkE (a.biE * b.diff2 + b.biE * ((a.biE ⬝ b.biE) * (2 : R)))
/-- pga.h:832 `blade2E % blade2e`. -/
def sandE_e (a : BE R) (b : Be R) : MV R := (0 : MV R)
/-- pga.h:833 `blade2E % blade3`. -/
def sandE_3 (a : BE R) (b : B3 R) : MV R := mkE (a.biE * b.diff2) + mke (b.e123 * (2 : R) * (a.biE ⨯ b.triP))
/-- pga.h:834 `blade2E % blade4`. -/
def sandE_4 (a : BE R) (b : B4 R) : MV R := (0 : MV R)
/-- pga.h:835-838 `blade2E % blade02E`. -/
def sandE_02E (a : BE R) (b : B02E R) : MV R :=
  let c2 : R := (2 : R)
  let abiE_x_bbiE := (a.biE ⨯ b.b2E.biE)
  let abiE_o_bbiE := (a.biE ⬝ b.b2E.biE)
  mkE (a.biE * b.diff2 + (b.b2E.biE * abiE_o_bbiE + b.b0.s * abiE_x_bbiE) * c2)
/-- pga.h:839-841 `blade2E % blade02e`. -/
def sandE_02e (a : BE R) (b : B02e R) : MV R := mkE (a.biE * b.diff2) + mke (b.b0.s * (2 : R) * (a.biE ⨯ b.b2e.bie))
/-- pga.h:842-846 `blade2E % blade22`. -/
def sandE_22 (a : BE R) (b : B22 R) : MV R :=
  let abiE_o_bbiE_c2 := (a.biE ⬝ b.b2E.biE) * (2 : R)
  let abiE_o_bbie_c2 := (a.biE ⬝ b.b2e.bie) * (2 : R)
  mkE (a.biE * b.diff2 + b.b2E.biE * abiE_o_bbiE_c2) + mke (b.b2E.biE * abiE_o_bbie_c2 + b.b2e.bie * abiE_o_bbiE_c2)
/-- pga.h:847-850 `blade2E % blade2E4`. -/
def sandE_2E4 (a : BE R) (b : B2E4 R) : MV R :=
  let c2 : R := (2 : R)
  let abiE_x_bbiE := (a.biE ⨯ b.b2E.biE)
  let abiE_o_bbiE := (a.biE ⬝ b.b2E.biE)
  mkE (a.biE * b.diff2 + b.b2E.biE * (abiE_o_bbiE * c2)) + mke (-c2 * b.b4.e0123 * abiE_x_bbiE)
/-- pga.h:851-853 `blade2E % blade2e4`. -/
def sandE_2e4 (a : BE R) (b : B2e4 R) : MV R := (0 : MV R)
/-- pga.h:854-858 `blade2E % blade024`. -/
def sandE_024 (a : BE R) (b : B024 R) : MV R :=
  let bs := b.b02.b0.s
  let b0123 := b.b24.b4.e0123
  let bbiE := b.b02.b2E.biE
  let bbie := b.b24.b2e.bie
  let c2 : R := 2
  let abiE_x_bbiE := (a.biE ⨯ bbiE)
  let abiE_o_bbiE := (a.biE ⬝ bbiE)
  let abiE_x_bbie := (a.biE ⨯ bbie)
  let abiE_o_bbie := (a.biE ⬝ bbie)
  mkE (a.biE * b.diff2 + (bbiE * abiE_o_bbiE + bs * abiE_x_bbiE) * c2) + mke ((a.biE * (b0123 * bs * -c2) + bbiE * abiE_o_bbie + bs * abiE_x_bbie + bbie * abiE_o_bbiE - b0123 * abiE_x_bbiE) * c2)
/-- pga.h:859-863 `blade2E % blade13`. -/
def sandE_13 (a : BE R) (b : B13 R) : MV R :=
  let b0 := b.b1.e0
  let b123 := b.b3.e123
  let bv := b.b1.v
  let btriP := b.b3.triP
  let c2 : R := 2
  let abiE_x_bv := (a.biE ⨯ bv)
  let abiE_o_bv := (a.biE ⬝ bv)
  let abiE_x_btriP := (a.biE ⨯ btriP)
  let abiE_o_btriP := (a.biE ⬝ btriP)
  mkE (a.biE * b.diff2 + (b123 * abiE_x_bv - bv * abiE_o_bv) * c2) + mke ((a.biE * (b0 * b123 * -c2) - btriP * abiE_o_bv + b0 * abiE_x_bv - bv * abiE_o_btriP + b123 * abiE_x_btriP) * c2)
/-- pga.h:865 `blade2e % blade0`. -/
def sande_0 (a : Be R) (b : B0 R) : MV R := a.mv * b.norm2
/-- pga.h:866 `blade2e % blade1`. -/
def sande_1 (a : Be R) (b : B1 R) : MV R := mke (a.bie * -b.diff2 + b.v * (a.bie ⬝ b.v) * (2 : R))
/-- pga.h:867 `blade2e % blade2E`. -/
def sande_E (a : Be R) (b : BE R) : MV R := mke (a.bie * b.diff2 + b.biE * ((a.bie ⬝ b.biE) * (2 : R)))
/-- pga.h:868 `blade2e % blade2e`. -/
def sande_e (a : Be R) (b : Be R) : MV R := (0 : MV R)
/-- pga.h:869 `blade2e % blade3`. -/
def sande_3 (a : Be R) (b : B3 R) : MV R := a.mv * b.norm2
/-- pga.h:870 `blade2e % blade4`. -/
def sande_4 (a : Be R) (b : B4 R) : MV R := (0 : MV R)
/-- pga.h:871-874 `blade2e % blade02E`. -/
def sande_02E (a : Be R) (b : B02E R) : MV R :=
  let c2 : R := (2 : R)
  let abie_x_bbiE := (a.bie ⨯ b.b2E.biE)
  let abie_o_bbiE := (a.bie ⬝ b.b2E.biE)
  mke (a.bie * b.diff2 + (b.b0.s * abie_x_bbiE + b.b2E.biE * abie_o_bbiE) * c2)
/-- pga.h:875 `blade2e % blade02e`. -/
def sande_02e (a : Be R) (b : B02e R) : MV R := a.mv * b.norm2
/-- pga.h:876 `blade2e % blade22`. -/
def sande_22 (a : Be R) (b : B22 R) : MV R := sande_E a b.b2E
/-- pga.h:877 `blade2e % blade2E4`. -/
def sande_2E4 (a : Be R) (b : B2E4 R) : MV R := sande_E a b.b2E
/-- pga.h:878 `blade2e % blade2e4`. -/
def sande_2e4 (a : Be R) (b : B2e4 R) : MV R := (0 : MV R)
/-- pga.h:879-882 `blade2e % blade024`. -/
def sande_024 (a : Be R) (b : B024 R) : MV R :=
  let bs := b.b02.b0.s
  let b0123 := b.b24.b4.e0123
  let bbiE := b.b02.b2E.biE
  let bbie := b.b24.b2e.bie
  let c2 : R := 2
  let abie_x_bbiE := (a.bie ⨯ bbiE)
  let abie_o_bbiE := (a.bie ⬝ bbiE)
  mke (a.bie * b.diff2 + (bs * abie_x_bbiE + bbiE * abie_o_bbiE) * c2)
/-- pga.h:883-886 `blade2e % blade13`. -/
def sande_13 (a : Be R) (b : B13 R) : MV R :=
  let b0 := b.b1.e0
  let b123 := b.b3.e123
  let bv := b.b1.v
  let btriP := b.b3.triP
  let c2 : R := 2
  let abie_x_bv := (a.bie ⨯ bv)
  let abie_o_bv := (a.bie ⬝ bv)
  mke (a.bie * -b.diff2 + (bv * abie_o_bv - b123 * abie_x_bv) * c2)
/-- pga.h:888 `blade3 % blade0`. -/
def sand3_0 (a : B3 R) (b : B0 R) : MV R := a.mv * b.norm2
/-- pga.h:889 `blade3 % blade1`. -/
def sand3_1 (a : B3 R) (b : B1 R) : MV R := mk3 (a.e123 * -b.norm2) (a.triP * -b.diff2 + b.v * (((a.triP ⬝ b.v) + a.e123 * b.e0) * (2 : R)))
/-- pga.h:890 `blade3 % blade2E`. -/
def sand3_E (a : B3 R) (b : BE R) : MV R := mk3 (a.e123 * b.norm2) (a.triP * b.diff2 + b.biE * ((a.triP ⬝ b.biE) * (2 : R)))
/-- pga.h:891 `blade3 % blade2e`. -/
def sand3_e (a : B3 R) (b : Be R) : MV R := (0 : MV R)
/-- pga.h:892 `blade3 % blade3`. -/
def sand3_3 (a : B3 R) (b : B3 R) : MV R := mk3 (a.e123 * -b.norm2) (a.triP * -b.diff2 - b.triP * (a.e123 * b.e123 * (2 : R)))
/-- pga.h:893 `blade3 % blade4`. -/
def sand3_4 (a : B3 R) (b : B4 R) : MV R := (0 : MV R)
/-- pga.h:894-897 `blade3 % blade02E`. -/
def sand3_02E (a : B3 R) (b : B02E R) : MV R :=
  let c2 : R := (2 : R)
  let bs := b.b0.s
  let bbiE := b.b2E.biE
  mk3 (a.e123 * b.norm2) (a.triP * b.diff2 + (bbiE * (a.triP ⬝ bbiE) + bs * (a.triP ⨯ bbiE)) * c2)
/-- pga.h:898-901 `blade3 % blade02e`. -/
def sand3_02e (a : B3 R) (b : B02e R) : MV R :=
  let c2 : R := (2 : R)
  let bs := b.b0.s
  let bbie := b.b2e.bie
  mk3 (a.e123 * b.norm2) (a.triP * b.diff2 - bbie * (a.e123 * bs * c2))
/-- pga.h:902-905 `blade3 % blade22`. -/
def sand3_22 (a : B3 R) (b : B22 R) : MV R :=
  let c2 : R := (2 : R)
  let bbiE := b.b2E.biE
  let bbie := b.b2e.bie
  mk3 (a.e123 * b.norm2) (a.triP * b.diff2 + (bbiE * (a.triP ⬝ bbiE) + a.e123 * (bbiE ⨯ bbie)) * c2)
/-- pga.h:906-909 `blade3 % blade2E4`. -/
def sand3_2E4 (a : B3 R) (b : B2E4 R) : MV R :=
  let c2 : R := (2 : R)
  let bbiE := b.b2E.biE
  let b0123 := b.b4.e0123
  mk3 (a.e123 * b.norm2) (a.triP * b.diff2 + bbiE * (((a.triP ⬝ bbiE) - a.e123 * b0123) * c2))
/-- pga.h:910-912 `blade3 % blade2e4`. -/
def sand3_2e4 (a : B3 R) (b : B2e4 R) : MV R := (0 : MV R)
/-- pga.h:913-916 `blade3 % blade024`. -/
def sand3_024 (a : B3 R) (b : B024 R) : MV R :=
  let bs := b.b02.b0.s
  let b0123 := b.b24.b4.e0123
  let bbiE := b.b02.b2E.biE
  let bbie := b.b24.b2e.bie
  let c2 : R := 2
  let atriP_x_bbiE := (a.triP ⨯ bbiE)
  let atriP_o_bbiE := (a.triP ⬝ bbiE)
  mk3 (a.e123 * b.norm2) (a.triP * b.diff2 + (bbiE * (atriP_o_bbiE - a.e123 * b0123) - bbie * (a.e123 * bs) + bs * atriP_x_bbiE + a.e123 * (bbiE ⨯ bbie)) * c2)
/-- pga.h:917-920 `blade3 % blade13`. -/
def sand3_13 (a : B3 R) (b : B13 R) : MV R :=
  let b0 := b.b1.e0
  let b123 := b.b3.e123
  let bv := b.b1.v
  let btriP := b.b3.triP
  let c2 : R := 2
  let atriP_x_bv := (a.triP ⨯ bv)
  let atriP_o_bv := (a.triP ⬝ bv)
  mk3 (a.e123 * -b.norm2) (a.triP * -b.diff2 + (bv * (atriP_o_bv + a.e123 * b0) - btriP * (a.e123 * b123) - b123 * atriP_x_bv - a.e123 * (bv ⨯ btriP)) * c2)
/-- pga.h:922 `blade4 % blade0`. -/
def sand4_0 (a : B4 R) (b : B0 R) : MV R := a.mv * b.norm2
/-- pga.h:923 `blade4 % blade1`. -/
def sand4_1 (a : B4 R) (b : B1 R) : MV R := a.mv * b.norm2
/-- pga.h:924 `blade4 % blade2E`. -/
def sand4_E (a : B4 R) (b : BE R) : MV R := a.mv * b.norm2
/-- pga.h:925 `blade4 % blade2e`. -/
def sand4_e (a : B4 R) (b : Be R) : MV R := a.mv * b.norm2
/-- pga.h:926 `blade4 % blade3`. -/
def sand4_3 (a : B4 R) (b : B3 R) : MV R := a.mv * b.norm2
/-- pga.h:927 `blade4 % blade4`. -/
def sand4_4 (a : B4 R) (b : B4 R) : MV R := a.mv * b.norm2
/-- pga.h:928 `blade4 % blade02E`. -/
def sand4_02E (a : B4 R) (b : B02E R) : MV R := a.mv * b.norm2
/-- pga.h:929 `blade4 % blade02e`. -/
def sand4_02e (a : B4 R) (b : B02e R) : MV R := a.mv * b.norm2
/-- pga.h:930 `blade4 % blade22`. -/
def sand4_22 (a : B4 R) (b : B22 R) : MV R := a.mv * b.norm2
/-- pga.h:931 `blade4 % blade2E4`. -/
def sand4_2E4 (a : B4 R) (b : B2E4 R) : MV R := a.mv * b.norm2
/-- pga.h:932 `blade4 % blade2e4`. -/
def sand4_2e4 (a : B4 R) (b : B2e4 R) : MV R := a.mv * b.norm2
/-- pga.h:933 `blade4 % blade024`. -/
def sand4_024 (a : B4 R) (b : B024 R) : MV R := a.mv * b.norm2
/-- pga.h:934 `blade4 % blade13`. -/
def sand4_13 (a : B4 R) (b : B13 R) : MV R := a.mv * b.norm2

/-! ### the products of multivectors -/

/-- pga.h:612-613 `multivector * blade`. -/
def mulR0 (a : MV R) (b : B0 R) : MV R :=
  ((mul0_0 a.b0 b + mulE_0 a.b2E b) + (mule_0 a.b2e b + mul4_0 a.b4 b)) + (mul1_0 a.b1 b + mul3_0 a.b3 b)
/-- pga.h:612-613 `multivector * blade`. -/
def mulRE (a : MV R) (b : BE R) : MV R :=
  ((mul0_E a.b0 b + mulE_E a.b2E b) + (mule_E a.b2e b + mul4_E a.b4 b)) + (mul1_E a.b1 b + mul3_E a.b3 b)
/-- pga.h:612-613 `multivector * blade`. -/
def mulRe (a : MV R) (b : Be R) : MV R :=
  ((mul0_e a.b0 b + mulE_e a.b2E b) + (mule_e a.b2e b + mul4_e a.b4 b)) + (mul1_e a.b1 b + mul3_e a.b3 b)
/-- pga.h:612-613 `multivector * blade`. -/
def mulR4 (a : MV R) (b : B4 R) : MV R :=
  ((mul0_4 a.b0 b + mulE_4 a.b2E b) + (mule_4 a.b2e b + mul4_4 a.b4 b)) + (mul1_4 a.b1 b + mul3_4 a.b3 b)
/-- pga.h:612-613 `multivector * blade`. -/
def mulR1 (a : MV R) (b : B1 R) : MV R :=
  ((mul0_1 a.b0 b + mulE_1 a.b2E b) + (mule_1 a.b2e b + mul4_1 a.b4 b)) + (mul1_1 a.b1 b + mul3_1 a.b3 b)
/-- pga.h:612-613 `multivector * blade`. -/
def mulR3 (a : MV R) (b : B3 R) : MV R :=
  ((mul0_3 a.b0 b + mulE_3 a.b2E b) + (mule_3 a.b2e b + mul4_3 a.b4 b)) + (mul1_3 a.b1 b + mul3_3 a.b3 b)
/-- pga.h:614-615 `multivector * multivector`. -/
def MV.mul (a b : MV R) : MV R :=
  ((mulR0 a b.b0 + mulRE a b.b2E) + (mulRe a b.b2e + mulR4 a b.b4)) + (mulR1 a b.b1 + mulR3 a b.b3)
/-- pga.h:657-658 `multivector ^ blade`. -/
def wedgeR0 (a : MV R) (b : B0 R) : MV R :=
  ((wedge0_0 a.b0 b + wedgeE_0 a.b2E b) + (wedgee_0 a.b2e b + wedge4_0 a.b4 b)) + (wedge1_0 a.b1 b + wedge3_0 a.b3 b)
/-- pga.h:657-658 `multivector ^ blade`. -/
def wedgeRE (a : MV R) (b : BE R) : MV R :=
  ((wedge0_E a.b0 b + wedgeE_E a.b2E b) + (wedgee_E a.b2e b + wedge4_E a.b4 b)) + (wedge1_E a.b1 b + wedge3_E a.b3 b)
/-- pga.h:657-658 `multivector ^ blade`. -/
def wedgeRe (a : MV R) (b : Be R) : MV R :=
  ((wedge0_e a.b0 b + wedgeE_e a.b2E b) + (wedgee_e a.b2e b + wedge4_e a.b4 b)) + (wedge1_e a.b1 b + wedge3_e a.b3 b)
/-- pga.h:657-658 `multivector ^ blade`. -/
def wedgeR4 (a : MV R) (b : B4 R) : MV R :=
  ((wedge0_4 a.b0 b + wedgeE_4 a.b2E b) + (wedgee_4 a.b2e b + wedge4_4 a.b4 b)) + (wedge1_4 a.b1 b + wedge3_4 a.b3 b)
/-- pga.h:657-658 `multivector ^ blade`. -/
def wedgeR1 (a : MV R) (b : B1 R) : MV R :=
  ((wedge0_1 a.b0 b + wedgeE_1 a.b2E b) + (wedgee_1 a.b2e b + wedge4_1 a.b4 b)) + (wedge1_1 a.b1 b + wedge3_1 a.b3 b)
/-- pga.h:657-658 `multivector ^ blade`. -/
def wedgeR3 (a : MV R) (b : B3 R) : MV R :=
  ((wedge0_3 a.b0 b + wedgeE_3 a.b2E b) + (wedgee_3 a.b2e b + wedge4_3 a.b4 b)) + (wedge1_3 a.b1 b + wedge3_3 a.b3 b)
/-- pga.h:659-660 `multivector ^ multivector`. -/
def MV.wedge (a b : MV R) : MV R :=
  ((wedgeR0 a b.b0 + wedgeRE a b.b2E) + (wedgeRe a b.b2e + wedgeR4 a b.b4)) + (wedgeR1 a b.b1 + wedgeR3 a b.b3)
/-- pga.h:702-703 `multivector & blade`. -/
def dotR0 (a : MV R) (b : B0 R) : MV R :=
  ((dot0_0 a.b0 b + dotE_0 a.b2E b) + (dote_0 a.b2e b + dot4_0 a.b4 b)) + (dot1_0 a.b1 b + dot3_0 a.b3 b)
/-- pga.h:702-703 `multivector & blade`. -/
def dotRE (a : MV R) (b : BE R) : MV R :=
  ((dot0_E a.b0 b + dotE_E a.b2E b) + (dote_E a.b2e b + dot4_E a.b4 b)) + (dot1_E a.b1 b + dot3_E a.b3 b)
/-- pga.h:702-703 `multivector & blade`. -/
def dotRe (a : MV R) (b : Be R) : MV R :=
  ((dot0_e a.b0 b + dotE_e a.b2E b) + (dote_e a.b2e b + dot4_e a.b4 b)) + (dot1_e a.b1 b + dot3_e a.b3 b)
/-- pga.h:702-703 `multivector & blade`. -/
def dotR4 (a : MV R) (b : B4 R) : MV R :=
  ((dot0_4 a.b0 b + dotE_4 a.b2E b) + (dote_4 a.b2e b + dot4_4 a.b4 b)) + (dot1_4 a.b1 b + dot3_4 a.b3 b)
/-- pga.h:702-703 `multivector & blade`. -/
def dotR1 (a : MV R) (b : B1 R) : MV R :=
  ((dot0_1 a.b0 b + dotE_1 a.b2E b) + (dote_1 a.b2e b + dot4_1 a.b4 b)) + (dot1_1 a.b1 b + dot3_1 a.b3 b)
/-- pga.h:702-703 `multivector & blade`. -/
def dotR3 (a : MV R) (b : B3 R) : MV R :=
  ((dot0_3 a.b0 b + dotE_3 a.b2E b) + (dote_3 a.b2e b + dot4_3 a.b4 b)) + (dot1_3 a.b1 b + dot3_3 a.b3 b)
/-- pga.h:704-705 `multivector & multivector`. -/
def MV.dot (a b : MV R) : MV R :=
  ((dotR0 a b.b0 + dotRE a b.b2E) + (dotRe a b.b2e + dotR4 a b.b4)) + (dotR1 a b.b1 + dotR3 a b.b3)
/-- pga.h:747-748 `multivector | blade`. -/
def joinR0 (a : MV R) (b : B0 R) : MV R :=
  ((join0_0 a.b0 b + joinE_0 a.b2E b) + (joine_0 a.b2e b + join4_0 a.b4 b)) + (join1_0 a.b1 b + join3_0 a.b3 b)
/-- pga.h:747-748 `multivector | blade`. -/
def joinRE (a : MV R) (b : BE R) : MV R :=
  ((join0_E a.b0 b + joinE_E a.b2E b) + (joine_E a.b2e b + join4_E a.b4 b)) + (join1_E a.b1 b + join3_E a.b3 b)
/-- pga.h:747-748 `multivector | blade`. -/
def joinRe (a : MV R) (b : Be R) : MV R :=
  ((join0_e a.b0 b + joinE_e a.b2E b) + (joine_e a.b2e b + join4_e a.b4 b)) + (join1_e a.b1 b + join3_e a.b3 b)
/-- pga.h:747-748 `multivector | blade`. -/
def joinR4 (a : MV R) (b : B4 R) : MV R :=
  ((join0_4 a.b0 b + joinE_4 a.b2E b) + (joine_4 a.b2e b + join4_4 a.b4 b)) + (join1_4 a.b1 b + join3_4 a.b3 b)
/-- pga.h:747-748 `multivector | blade`. -/
def joinR1 (a : MV R) (b : B1 R) : MV R :=
  ((join0_1 a.b0 b + joinE_1 a.b2E b) + (joine_1 a.b2e b + join4_1 a.b4 b)) + (join1_1 a.b1 b + join3_1 a.b3 b)
/-- pga.h:747-748 `multivector | blade`. -/
def joinR3 (a : MV R) (b : B3 R) : MV R :=
  ((join0_3 a.b0 b + joinE_3 a.b2E b) + (joine_3 a.b2e b + join4_3 a.b4 b)) + (join1_3 a.b1 b + join3_3 a.b3 b)
/-- pga.h:749-750 `multivector | multivector`. -/
def MV.join (a b : MV R) : MV R :=
  ((joinR0 a b.b0 + joinRE a b.b2E) + (joinRe a b.b2e + joinR4 a b.b4)) + (joinR1 a b.b1 + joinR3 a b.b3)
/-- pga.h:937-938 `multivector % blade`. -/
def sandM_0 (a : MV R) (b : B0 R) : MV R :=
  ((sand0_0 a.b0 b + sandE_0 a.b2E b) + (sande_0 a.b2e b + sand4_0 a.b4 b)) + (sand1_0 a.b1 b + sand3_0 a.b3 b)
/-- pga.h:937-938 `multivector % blade`. -/
def sandM_1 (a : MV R) (b : B1 R) : MV R :=
  ((sand0_1 a.b0 b + sandE_1 a.b2E b) + (sande_1 a.b2e b + sand4_1 a.b4 b)) + (sand1_1 a.b1 b + sand3_1 a.b3 b)
/-- pga.h:937-938 `multivector % blade`. -/
def sandM_E (a : MV R) (b : BE R) : MV R :=
  ((sand0_E a.b0 b + sandE_E a.b2E b) + (sande_E a.b2e b + sand4_E a.b4 b)) + (sand1_E a.b1 b + sand3_E a.b3 b)
/-- pga.h:937-938 `multivector % blade`. -/
def sandM_e (a : MV R) (b : Be R) : MV R :=
  ((sand0_e a.b0 b + sandE_e a.b2E b) + (sande_e a.b2e b + sand4_e a.b4 b)) + (sand1_e a.b1 b + sand3_e a.b3 b)
/-- pga.h:937-938 `multivector % blade`. -/
def sandM_3 (a : MV R) (b : B3 R) : MV R :=
  ((sand0_3 a.b0 b + sandE_3 a.b2E b) + (sande_3 a.b2e b + sand4_3 a.b4 b)) + (sand1_3 a.b1 b + sand3_3 a.b3 b)
/-- pga.h:937-938 `multivector % blade`. -/
def sandM_4 (a : MV R) (b : B4 R) : MV R :=
  ((sand0_4 a.b0 b + sandE_4 a.b2E b) + (sande_4 a.b2e b + sand4_4 a.b4 b)) + (sand1_4 a.b1 b + sand3_4 a.b3 b)
/-- pga.h:937-938 `multivector % blade`. -/
def sandM_02E (a : MV R) (b : B02E R) : MV R :=
  ((sand0_02E a.b0 b + sandE_02E a.b2E b) + (sande_02E a.b2e b + sand4_02E a.b4 b)) + (sand1_02E a.b1 b + sand3_02E a.b3 b)
/-- pga.h:937-938 `multivector % blade`. -/
def sandM_02e (a : MV R) (b : B02e R) : MV R :=
  ((sand0_02e a.b0 b + sandE_02e a.b2E b) + (sande_02e a.b2e b + sand4_02e a.b4 b)) + (sand1_02e a.b1 b + sand3_02e a.b3 b)
/-- pga.h:937-938 `multivector % blade`. -/
def sandM_22 (a : MV R) (b : B22 R) : MV R :=
  ((sand0_22 a.b0 b + sandE_22 a.b2E b) + (sande_22 a.b2e b + sand4_22 a.b4 b)) + (sand1_22 a.b1 b + sand3_22 a.b3 b)
/-- pga.h:937-938 `multivector % blade`. -/
def sandM_2E4 (a : MV R) (b : B2E4 R) : MV R :=
  ((sand0_2E4 a.b0 b + sandE_2E4 a.b2E b) + (sande_2E4 a.b2e b + sand4_2E4 a.b4 b)) + (sand1_2E4 a.b1 b + sand3_2E4 a.b3 b)
/-- pga.h:937-938 `multivector % blade`. -/
def sandM_2e4 (a : MV R) (b : B2e4 R) : MV R :=
  ((sand0_2e4 a.b0 b + sandE_2e4 a.b2E b) + (sande_2e4 a.b2e b + sand4_2e4 a.b4 b)) + (sand1_2e4 a.b1 b + sand3_2e4 a.b3 b)
/-- pga.h:937-938 `multivector % blade`. -/
def sandM_024 (a : MV R) (b : B024 R) : MV R :=
  ((sand0_024 a.b0 b + sandE_024 a.b2E b) + (sande_024 a.b2e b + sand4_024 a.b4 b)) + (sand1_024 a.b1 b + sand3_024 a.b3 b)
/-- pga.h:937-938 `multivector % blade`. -/
def sandM_13 (a : MV R) (b : B13 R) : MV R :=
  ((sand0_13 a.b0 b + sandE_13 a.b2E b) + (sande_13 a.b2e b + sand4_13 a.b4 b)) + (sand1_13 a.b1 b + sand3_13 a.b3 b)

/-! ### planes, lines and points -/

/-- pga.h:942-946 `plane(n, d)`. -/
def plane (n : V3 R) (d : R) : B1 R := ⟨d, n⟩
/-- pga.h:948-952 `line(l, P)`. -/
def line (l P : V3 R) : B22 R := ⟨⟨l⟩, ⟨l ⨯ P⟩⟩
/-- pga.h:954-958 `point(P, h)`. -/
def point (P : V3 R) (h : R) : B3 R := ⟨h, -P⟩
/-- pga.h:959-963 `point(P)`. -/
def point1 (P : V3 R) : B3 R := ⟨1, -P⟩

end ring

section field
variable {K : Type} [Field K] [DecidableEq K]

/-- vector3d.h:43 `operator /` by a scalar. -/
def V3.sdiv (a : V3 K) (t : K) : Option (V3 K) := if t = 0 then none else some ⟨a.x / t, a.y / t, a.z / t⟩

/-- pga.h:87, 102 `operator /` by a scalar. -/
def MV.sdiv (a : MV K) (t : K) : Option (MV K) := if t = 0 then none else
  some ⟨⟨a.b0.s / t⟩, ⟨a.b1.e0 / t, ⟨a.b1.v.x / t, a.b1.v.y / t, a.b1.v.z / t⟩⟩, ⟨⟨a.b2E.biE.x / t, a.b2E.biE.y / t, a.b2E.biE.z / t⟩⟩,
    ⟨⟨a.b2e.bie.x / t, a.b2e.bie.y / t, a.b2e.bie.z / t⟩⟩, ⟨a.b3.e123 / t, ⟨a.b3.triP.x / t, a.b3.triP.y / t, a.b3.triP.z / t⟩⟩, ⟨a.b4.e0123 / t⟩⟩

/-- pga.h:130 `inv()`. -/
def B0.inv (a : B0 K) : Option (MV K) := a.mv.rev.sdiv a.norm2
/-- pga.h:145 `inv()`. -/
def B1.inv (a : B1 K) : Option (MV K) := a.mv.rev.sdiv a.norm2
/-- pga.h:160 `inv()`. -/
def BE.inv (a : BE K) : Option (MV K) := a.mv.rev.sdiv a.norm2
/-- pga.h:175 `inv()`. -/
def Be.inv (a : Be K) : Option (MV K) := a.mv.rev.sdiv a.norm2
/-- pga.h:190 `inv()`. -/
def B3.inv (a : B3 K) : Option (MV K) := a.mv.rev.sdiv a.norm2
/-- pga.h:205 `inv()`. -/
def B4.inv (a : B4 K) : Option (MV K) := a.mv.rev.sdiv a.norm2
/-- pga.h:219 `inv()`. -/
def B02E.inv (a : B02E K) : Option (MV K) := a.mv.rev.sdiv a.norm2
/-- pga.h:231 `inv()`. -/
def B02e.inv (a : B02e K) : Option (MV K) := a.mv.rev.sdiv a.norm2
/-- pga.h:243 `inv()`. -/
def B22.inv (a : B22 K) : Option (MV K) := a.mv.rev.sdiv a.norm2
/-- pga.h:255 `inv()`. -/
def B2E4.inv (a : B2E4 K) : Option (MV K) := a.mv.rev.sdiv a.norm2
/-- pga.h:267 `inv()`. -/
def B2e4.inv (a : B2e4 K) : Option (MV K) := a.mv.rev.sdiv a.norm2
/-- pga.h:286-289 `inv()`. -/
def B024.inv (a : B024 K) : Option (MV K) := do
  let n2 := a.norm2
  let t ← (if n2 = 0 then none else some (((a.b02.b2E.biE ⬝ a.b24.b2e.bie) - (a.b02.b0.s * a.b24.b4.e0123)) * 2 / n2))
  (a.mv.rev + (mke a.b02.b2E.biE + mk4 a.b02.b0.s) * t).sdiv n2
/-- pga.h:301-304 `inv()`. -/
def B13.inv (a : B13 K) : Option (MV K) := do
  let n2 := a.norm2
  let t ← (if n2 = 0 then none else some (((a.b1.v ⬝ a.b3.triP) + (a.b1.e0 * a.b3.e123)) * 2 / n2))
  (mk1 (a.b1.e0 - a.b3.e123 * t) a.b1.v + mk3 (-a.b3.e123) (a.b1.v * t - a.b3.triP)).sdiv n2

/-- pga.h:967-973 `translator(t)`. -/
def translator (t : V3 K) : Option (B02e K) := do
  let ht ← t.sdiv 2
  some ⟨⟨1⟩, ⟨ht⟩⟩

/-- vector3d.h:53 `unit()` with the default arguments; `sq` stands for `sqrtT` and `eps` for the comparison tolerance. -/
def V3.unit [LinearOrder K] (sq : K → K) (eps : K) (a : V3 K) : Option (V3 K) :=
  if eps < sq a.abs2 then a.sdiv (sq a.abs2) else some ⟨0, 0, 0⟩

/-- pga.h:975-979 `rotor(n, cos_a2, sin_a2)`. -/
def rotor [LinearOrder K] (sq : K → K) (eps : K) (n : V3 K) (c s : K) : Option (B02E K) := do
  let u ← n.unit sq eps
  some ⟨⟨c⟩, ⟨u * -s⟩⟩

end field

end Altruct.Pga
