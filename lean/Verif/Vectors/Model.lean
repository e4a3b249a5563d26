/-
Model of `structure/math/galois_field_2.h`, `structure/math/vector2d.h`, `structure/math/vector3d.h` and
`structure/math/vectorNd.h`.

Words are `BitVec w`.  Coordinates are elements of a type with the operations the code uses; the theorems take
a commutative ring (exact arithmetic) and a linear order.  `near` and `unit` (tolerances and square roots of
floating-point coordinates) are not modelled.
-/
import Verif.Common.Vec
import Mathlib.Algebra.Ring.Defs
import Mathlib.Order.Defs.LinearOrder

namespace Altruct.Vectors

/-! ### galois_field_2 -/

section GF2
variable {w : Nat}

/-- galois_field_2.h:38 `operator +=` (and 32 `+`). -/
def gfAdd (a b : BitVec w) : BitVec w := a ^^^ b
/-- galois_field_2.h:39 `operator -=` (and 33 `-`). -/
def gfSub (a b : BitVec w) : BitVec w := a ^^^ b
/-- galois_field_2.h:34 unary `-`. -/
def gfNeg (a : BitVec w) : BitVec w := a
/-- galois_field_2.h:40 `operator *=` (and 35 `*`). -/
def gfMul (a b : BitVec w) : BitVec w := a &&& b
/-- galois_field_2.h:41 `operator /=` (and 36 `/`). -/
def gfDiv (a b : BitVec w) : BitVec w := a ||| ~~~b
/-- galois_field_2.h:45-49 `identityT`. -/
def gfOne : BitVec w := ~~~0#w
/-- galois_field_2.h:52-56 `zeroT`. -/
def gfZero : BitVec w := 0#w
end GF2

/-! ### vector2d -/

/-- vector2d.h:14-15: two coordinates and the payload. -/
structure V2 (α δ : Type) where
  x : α
  y : α
  data : δ

section V2
variable {α δ : Type}

/-- vector2d.h:20 `operator ==`. -/
def V2.eq [DecidableEq α] (u v : V2 α δ) : Bool := decide (u.x = v.x) && decide (u.y = v.y)
/-- vector2d.h:22 `operator <`. -/
def V2.lt [LinearOrder α] (u v : V2 α δ) : Bool := if u.x ≠ v.x then decide (u.x < v.x) else decide (u.y < v.y)
/-- vector2d.h:24 `operator <=`. -/
def V2.le [LinearOrder α] (u v : V2 α δ) : Bool := !(V2.lt v u)

variable [CommRing α]

/-- vector2d.h:27 `operator +=`. -/
def V2.addEq (u v : V2 α δ) : V2 α δ := ⟨u.x + v.x, u.y + v.y, u.data⟩
/-- vector2d.h:28 `operator -=`. -/
def V2.subEq (u v : V2 α δ) : V2 α δ := ⟨u.x - v.x, u.y - v.y, u.data⟩
/-- vector2d.h:35 `operator +`: the payload is the default one. -/
def V2.add [Inhabited δ] (u v : V2 α δ) : V2 α δ := ⟨u.x + v.x, u.y + v.y, default⟩
/-- vector2d.h:36 `operator -`. -/
def V2.sub [Inhabited δ] (u v : V2 α δ) : V2 α δ := ⟨u.x - v.x, u.y - v.y, default⟩
/-- vector2d.h:37 unary `-`. -/
def V2.neg [Inhabited δ] (u : V2 α δ) : V2 α δ := ⟨-u.x, -u.y, default⟩
/-- vector2d.h:38 `operator *`, element by element. -/
def V2.mul [Inhabited δ] (u v : V2 α δ) : V2 α δ := ⟨u.x * v.x, u.y * v.y, default⟩
/-- vector2d.h:41 `operator *` by a scalar. -/
def V2.smul [Inhabited δ] (u : V2 α δ) (t : α) : V2 α δ := ⟨u.x * t, u.y * t, default⟩
/-- vector2d.h:44 `operator &`. -/
def V2.dot (u v : V2 α δ) : α := u.x * v.x + u.y * v.y
/-- vector2d.h:45 `operator ^`. -/
def V2.cross (u v : V2 α δ) : α := u.x * v.y - u.y * v.x
/-- vector2d.h:47 `dot(v1, v2)`. -/
def V2.dotFrom [Inhabited δ] (u v1 v2 : V2 α δ) : α := V2.dot (V2.sub v1 u) (V2.sub v2 u)
/-- vector2d.h:48 `cross(v1, v2)`. -/
def V2.crossFrom [Inhabited δ] (u v1 v2 : V2 α δ) : α := V2.cross (V2.sub v1 u) (V2.sub v2 u)
/-- vector2d.h:51 `rot`. -/
def V2.rot [Inhabited δ] (u r : V2 α δ) : V2 α δ := ⟨u.x * r.x - u.y * r.y, u.y * r.x + u.x * r.y, default⟩
/-- vector2d.h:52 `irot`. -/
def V2.irot [Inhabited δ] (u r : V2 α δ) : V2 α δ := ⟨u.x * r.x + u.y * r.y, u.y * r.x - u.x * r.y, default⟩
/-- vector2d.h:53 `perp`. -/
def V2.perp [Inhabited δ] (u : V2 α δ) : V2 α δ := ⟨-u.y, u.x, default⟩
/-- vector2d.h:56 `abs2`. -/
def V2.abs2 (u : V2 α δ) : α := u.x * u.x + u.y * u.y
/-- vector2d.h:57 `diff2`. -/
def V2.diff2 (u : V2 α δ) : α := u.x * u.x - u.y * u.y

/-- What a `const T&` argument may refer to: a value elsewhere or an element of the vector that is being changed. -/
inductive Ref (α : Type) where
  | value (t : α)
  | elem (i : Nat)

/-- vector2d.h:32 `operator *= (const T& t)` with `t` read each time it is used. -/
def V2.mulEq (u : V2 α δ) (r : Ref α) : V2 α δ :=
  let get (v : V2 α δ) : α := match r with
    | .value t => t
    | .elem 0 => v.x
    | .elem _ => v.y
  let v : V2 α δ := { u with x := u.x * get u }
  { v with y := v.y * get v }
end V2

/-! ### vector3d -/

/-- vector3d.h:14-15 without the payload, which behaves as in `vector2d`. -/
structure V3 (α : Type) where
  x : α
  y : α
  z : α

section V3
variable {α : Type}

/-- vector3d.h:20 `operator ==`. -/
def V3.eq [DecidableEq α] (u v : V3 α) : Bool := decide (u.x = v.x) && decide (u.y = v.y) && decide (u.z = v.z)
/-- vector3d.h:22 `operator <`. -/
def V3.lt [LinearOrder α] (u v : V3 α) : Bool :=
  if u.x ≠ v.x then decide (u.x < v.x) else if u.y ≠ v.y then decide (u.y < v.y) else decide (u.z < v.z)
/-- vector3d.h:24 `operator <=`. -/
def V3.le [LinearOrder α] (u v : V3 α) : Bool := !(V3.lt v u)

variable [CommRing α]

/-- vector3d.h:36 unary `-`. -/
def V3.neg (u : V3 α) : V3 α := ⟨-u.x, -u.y, -u.z⟩
/-- vector3d.h:37 `operator +`. -/
def V3.add (u v : V3 α) : V3 α := ⟨u.x + v.x, u.y + v.y, u.z + v.z⟩
/-- vector3d.h:38 `operator -`. -/
def V3.sub (u v : V3 α) : V3 α := ⟨u.x - v.x, u.y - v.y, u.z - v.z⟩
/-- vector3d.h:42 `operator *` by a scalar (and 59-62 on the left). -/
def V3.smul (u : V3 α) (t : α) : V3 α := ⟨u.x * t, u.y * t, u.z * t⟩
/-- vector3d.h:47 `operator &`. -/
def V3.dot (u v : V3 α) : α := u.x * v.x + u.y * v.y + u.z * v.z
/-- vector3d.h:48 `operator ^` (and 45 `^=`). -/
def V3.cross (u v : V3 α) : V3 α := ⟨u.y * v.z - u.z * v.y, u.z * v.x - u.x * v.z, u.x * v.y - u.y * v.x⟩
/-- vector3d.h:51 `cross(v1, v2)`. -/
def V3.crossFrom (u v1 v2 : V3 α) : V3 α := V3.cross (V3.sub v1 u) (V3.sub v2 u)
/-- vector3d.h:56 `abs2`. -/
def V3.abs2 (u : V3 α) : α := u.x * u.x + u.y * u.y + u.z * u.z
end V3

/-! ### vectorNd: the array `a` is a list of `N` elements -/

section VN
variable {α : Type}

/-- vectorNd.h:38-41 the loop of `cmp` from index `i`, `c` steps left. -/
def cmpLoop [LinearOrder α] (a b : List α) : Nat → Nat → Option Int
  | 0, _ => some 0
  | c + 1, i => do
    let x ← rd a i
    let y ← rd b i
    if x < y then some (-1) else if y < x then some 1 else cmpLoop a b c (i + 1)

/-- vectorNd.h:37-43 `cmp`. -/
def cmp [LinearOrder α] (n : Nat) (a b : List α) : Option Int := cmpLoop a b n 0

/-- vectorNd.h:65-69 `for (int i = 0; i < N; i++) a[i] op= rhs.a[i];`; `same` is `v op= v`, where `rhs` is the
vector that is being changed. -/
def zipLoop (op : α → α → α) (same : Bool) (b : List α) : Nat → Nat → List α → Option (List α)
  | 0, _, a => some a
  | c + 1, i, a => do
    let x ← rd a i
    let y ← rd (if same then a else b) i
    let a ← wr a i (op x y)
    zipLoop op same b c (i + 1) a

/-- vectorNd.h:65-69 `operator += (const vectorNd&)` and the other four. -/
def opVec (op : α → α → α) (n : Nat) (same : Bool) (a b : List α) : Option (List α) := zipLoop op same b n 0 a

/-- Reading a `const T&` argument. -/
def Ref.get (a : List α) : Ref α → Option α
  | .value t => some t
  | .elem k => rd a k

/-- vectorNd.h:71-75 `for (int i = 0; i < N; i++) a[i] op= rhs;`. -/
def scalLoop (op : α → α → α) (r : Ref α) : Nat → Nat → List α → Option (List α)
  | 0, _, a => some a
  | c + 1, i, a => do
    let x ← rd a i
    let y ← r.get a
    let a ← wr a i (op x y)
    scalLoop op r c (i + 1) a

/-- vectorNd.h:71-75 `operator += (const T&)` and the other four. -/
def opScal (op : α → α → α) (n : Nat) (r : Ref α) (a : List α) : Option (List α) := scalLoop op r n 0 a

/-- vectorNd.h:59-63 `vectorNd t(*this); t op= rhs; return t;`: `rhs` refers to the old vector. -/
def opScalCopy (op : α → α → α) (n : Nat) (r : Ref α) (a : List α) : Option (List α) := do
  let y ← r.get a
  scalLoop op (.value y) n 0 a

/-- vectorNd.h:77 the loop of `abs2`. -/
def abs2Loop [CommRing α] (a : List α) : Nat → Nat → α → Option α
  | 0, _, r => some r
  | c + 1, i, r => do
    let x ← rd a i
    abs2Loop a c (i + 1) (r + x * x)

/-- vectorNd.h:77 `abs2`. -/
def abs2 [CommRing α] (n : Nat) (a : List α) : Option α := abs2Loop a n 0 0
end VN

end Altruct.Vectors
