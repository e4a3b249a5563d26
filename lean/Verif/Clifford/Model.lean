/-
Model of `clifford3.h`: the geometric algebra of three-dimensional space.

The coefficients are in a commutative ring or a field; `sq` stands for `sqrtT`.  A division by zero is `none`.
-/
import Mathlib.Algebra.Field.Basic

namespace Altruct.Clifford

/-- clifford3.h:20-24 `rotor`, the even part. -/
@[ext] structure Rotor (R : Type) where
  s : R
  yz : R
  zx : R
  xy : R
deriving DecidableEq

/-- clifford3.h:116-120 `vector`, the odd part. -/
@[ext] structure Vector (R : Type) where
  x : R
  y : R
  z : R
  w : R
deriving DecidableEq

/-- clifford3.h:247-251 `multivector`. -/
@[ext] structure Multi (R : Type) where
  r : Rotor R
  v : Vector R
deriving DecidableEq

section ring
variable {R : Type} [CommRing R]

/-- clifford3.h:27 `rotor(T s)`. -/
def Rotor.ofScalar (s : R) : Rotor R := ⟨s, 0, 0, 0⟩
/-- clifford3.h:50 `operator +`. -/
def Rotor.add (a b : Rotor R) : Rotor R := ⟨a.s + b.s, a.yz + b.yz, a.zx + b.zx, a.xy + b.xy⟩
/-- clifford3.h:51 `operator -`. -/
def Rotor.sub (a b : Rotor R) : Rotor R := ⟨a.s - b.s, a.yz - b.yz, a.zx - b.zx, a.xy - b.xy⟩
/-- clifford3.h:52 unary minus. -/
def Rotor.neg (a : Rotor R) : Rotor R := ⟨-a.s, -a.yz, -a.zx, -a.xy⟩
/-- clifford3.h:53-58 `operator *`. -/
def Rotor.mul (a r : Rotor R) : Rotor R :=
  ⟨a.s * r.s - a.yz * r.yz - a.zx * r.zx - a.xy * r.xy,
   a.s * r.yz + a.yz * r.s - a.zx * r.xy + a.xy * r.zx,
   a.s * r.zx + a.yz * r.xy + a.zx * r.s - a.xy * r.yz,
   a.s * r.xy - a.yz * r.zx + a.zx * r.yz + a.xy * r.s⟩
/-- clifford3.h:61 `operator *` by a scalar. -/
def Rotor.smul (a : Rotor R) (t : R) : Rotor R := ⟨a.s * t, a.yz * t, a.zx * t, a.xy * t⟩
/-- clifford3.h:66 `rev()`. -/
def Rotor.rev (a : Rotor R) : Rotor R := ⟨a.s, -a.yz, -a.zx, -a.xy⟩
/-- clifford3.h:67 `conj()`. -/
def Rotor.conj (a : Rotor R) : Rotor R := ⟨a.s, -a.yz, -a.zx, -a.xy⟩
/-- clifford3.h:68 `abs2()`. -/
def Rotor.abs2 (a : Rotor R) : R := a.s * a.s + a.xy * a.xy + a.yz * a.yz + a.zx * a.zx

/-- clifford3.h:147 `operator +`. -/
def Vector.add (a b : Vector R) : Vector R := ⟨a.x + b.x, a.y + b.y, a.z + b.z, a.w + b.w⟩
/-- clifford3.h:148 `operator -`. -/
def Vector.sub (a b : Vector R) : Vector R := ⟨a.x - b.x, a.y - b.y, a.z - b.z, a.w - b.w⟩
/-- clifford3.h:149 unary minus. -/
def Vector.neg (a : Vector R) : Vector R := ⟨-a.x, -a.y, -a.z, -a.w⟩
/-- clifford3.h:151-156 `operator *` by a rotor. -/
def Vector.mulR (a : Vector R) (r : Rotor R) : Vector R :=
  ⟨a.x * r.s - a.y * r.xy + a.z * r.zx - a.w * r.yz,
   a.x * r.xy + a.y * r.s - a.z * r.yz - a.w * r.zx,
   -a.x * r.zx + a.y * r.yz + a.z * r.s - a.w * r.xy,
   a.x * r.yz + a.y * r.zx + a.z * r.xy + a.w * r.s⟩
/-- clifford3.h:159-164 `operator *` by a vector. -/
def Vector.mul (a v : Vector R) : Rotor R :=
  ⟨a.x * v.x + a.y * v.y + a.z * v.z - a.w * v.w,
   a.x * v.w + a.y * v.z - a.z * v.y + a.w * v.x,
   -a.x * v.z + a.y * v.w + a.z * v.x + a.w * v.y,
   a.x * v.y - a.y * v.x + a.z * v.w + a.w * v.z⟩
/-- clifford3.h:167 `operator *` by a scalar. -/
def Vector.smul (a : Vector R) (t : R) : Vector R := ⟨a.x * t, a.y * t, a.z * t, a.w * t⟩
/-- clifford3.h:172 `rev()`. -/
def Vector.rev (a : Vector R) : Vector R := ⟨a.x, a.y, a.z, -a.w⟩
/-- clifford3.h:173 `conj()`. -/
def Vector.conj (a : Vector R) : Vector R := ⟨-a.x, -a.y, -a.z, a.w⟩
/-- clifford3.h:174 `abs2()`. -/
def Vector.abs2 (a : Vector R) : R := a.x * a.x + a.y * a.y + a.z * a.z + a.w * a.w
/-- clifford3.h:186-192 a rotor times a vector. -/
def Rotor.mulV (r : Rotor R) (v : Vector R) : Vector R :=
  ⟨r.s * v.x - r.yz * v.w - r.zx * v.z + r.xy * v.y,
   r.s * v.y + r.yz * v.z - r.zx * v.w - r.xy * v.x,
   r.s * v.z - r.yz * v.y + r.zx * v.x - r.xy * v.w,
   r.s * v.w + r.yz * v.x + r.zx * v.y + r.xy * v.z⟩
/-- clifford3.h:177 `reflect(v)`. -/
def Vector.reflect (a v : Vector R) : Vector R := (v.neg.mul a).mulV v.rev
/-- clifford3.h:178 `rotate(r)`. -/
def Vector.rotate (a : Vector R) (r : Rotor R) : Vector R := (r.mulV a).mulR r.rev

/-- clifford3.h:254 a rotor as a multivector. -/
def Multi.ofR (r : Rotor R) : Multi R := ⟨r, ⟨0, 0, 0, 0⟩⟩
/-- clifford3.h:255 a vector as a multivector. -/
def Multi.ofV (v : Vector R) : Multi R := ⟨Rotor.ofScalar 0, v⟩
/-- clifford3.h:292 `operator +`. -/
def Multi.add (a b : Multi R) : Multi R := ⟨a.r.add b.r, a.v.add b.v⟩
/-- clifford3.h:293 `operator -`. -/
def Multi.sub (a b : Multi R) : Multi R := ⟨a.r.sub b.r, a.v.sub b.v⟩
/-- clifford3.h:295 unary minus. -/
def Multi.neg (a : Multi R) : Multi R := ⟨a.r.neg, a.v.neg⟩
/-- clifford3.h:274, 297 `operator *` by a rotor. -/
def Multi.mulR (a : Multi R) (r2 : Rotor R) : Multi R := ⟨a.r.mul r2, a.v.mulR r2⟩
/-- clifford3.h:300 `operator *` by a vector. -/
def Multi.mulV (a : Multi R) (v2 : Vector R) : Multi R := ⟨a.v.mul v2, a.r.mulV v2⟩
/-- clifford3.h:303 `operator *`. -/
def Multi.mul (a m : Multi R) : Multi R := ⟨(a.r.mul m.r).add (a.v.mul m.v), (a.r.mulV m.v).add (a.v.mulR m.r)⟩
/-- clifford3.h:306 `operator *` by a scalar. -/
def Multi.smul (a : Multi R) (t : R) : Multi R := ⟨a.r.smul t, a.v.smul t⟩
/-- clifford3.h:349 a rotor times a multivector. -/
def Rotor.mulM (r : Rotor R) (m : Multi R) : Multi R := ⟨r.mul m.r, r.mulV m.v⟩
/-- clifford3.h:353 a vector times a multivector. -/
def Vector.mulM (v : Vector R) (m : Multi R) : Multi R := ⟨v.mul m.v, v.mulR m.r⟩
/-- clifford3.h:317-319 `rev()`. -/
def Multi.rev (a : Multi R) : Multi R := ⟨a.r.rev, a.v.rev⟩
/-- clifford3.h:321-323 `conj()`. -/
def Multi.conj (a : Multi R) : Multi R := ⟨a.r.conj, a.v.conj⟩
/-- clifford3.h:371-376 `identityOf`. -/
def Multi.one : Multi R := Multi.ofR (Rotor.ofScalar 1)
/-- clifford3.h:379-384 `zeroOf`. -/
def Multi.zero : Multi R := Multi.ofR (Rotor.ofScalar 0)

end ring

section field
variable {K : Type} [Field K] [DecidableEq K]

/-- clifford3.h:62 `operator /` by a scalar. -/
def Rotor.sdiv (a : Rotor K) (t : K) : Option (Rotor K) := if t = 0 then none else some ⟨a.s / t, a.yz / t, a.zx / t, a.xy / t⟩
/-- clifford3.h:168 `operator /` by a scalar. -/
def Vector.sdiv (a : Vector K) (t : K) : Option (Vector K) := if t = 0 then none else some ⟨a.x / t, a.y / t, a.z / t, a.w / t⟩
/-- clifford3.h:65 `inv()`. -/
def Rotor.inv (a : Rotor K) : Option (Rotor K) := a.rev.sdiv a.abs2
/-- clifford3.h:171 `inv()`. -/
def Vector.inv (a : Vector K) : Option (Vector K) := a.rev.sdiv a.abs2
/-- clifford3.h:309-316 `inv()`. -/
def Multi.inv (a : Multi K) : Option (Multi K) :=
  if a.r.s = 0 ∧ a.r.yz = 0 ∧ a.r.zx = 0 ∧ a.r.xy = 0 then do
    let v ← a.v.inv
    some (Multi.ofV v)
  else do
    let ra ← a.r.inv
    let t := a.v.neg.mulR ra
    let ri ← (a.r.add (t.mul a.v)).inv
    let vi := ri.mulV t
    some ⟨ri, vi⟩
/-- clifford3.h:304 `operator /`. -/
def Multi.div (a m : Multi K) : Option (Multi K) := do
  let i ← m.inv
  some (a.mul i)

/-- clifford3.h:69 `abs1()`, 64 `unit()`. -/
def Rotor.unit (sq : K → K) (a : Rotor K) : Option (Rotor K) := a.sdiv (sq a.abs2)
/-- clifford3.h:175 `abs1()`, 170 `unit()`. -/
def Vector.unit (sq : K → K) (a : Vector K) : Option (Vector K) := a.sdiv (sq a.abs2)
/-- clifford3.h:200-203 `make_rotor(from, to)`. -/
def makeRotor (sq : K → K) (a b : Vector K) : Option (Rotor K) := do
  let tu ← b.unit sq
  let fu ← a.unit sq
  ((tu.mul fu).add (Rotor.ofScalar 1)).unit sq

end field

end Altruct.Clifford
