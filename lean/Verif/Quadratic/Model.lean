/-
Model of `quadratic.h`: numbers `a + b sqrt(D)`.

The coefficient type `T` is a commutative ring.  The number `D` is a parameter of the type here; in
the code it is a member of the object (`INSTANCE`), of the class (`STATIC`) or of the type
(`CONSTANT`).  The three storage modes run the same operations; operations between instances with
different `D` (which use the left one) are not modelled.
-/
import Mathlib.Algebra.Ring.Basic
import Mathlib.Tactic.Ring

namespace Altruct.Quadratic

/-- quadratic.h:48-58 `quadratic(a, b, D)`; `operator ==` (quadratic.h:61) compares `a` and `b`. -/
@[ext] structure Quad (T : Type) (D : T) where
  a : T
  b : T
deriving DecidableEq, Repr

variable {T : Type} {D : T}

/-- quadratic.h:61 `operator ==`. -/
def eq [DecidableEq T] (x y : Quad T D) : Bool := x.a = y.a && x.b = y.b

/-- quadratic.h:63 `operator <`. -/
def lt [LT T] [DecidableEq T] [DecidableLT T] (x y : Quad T D) : Bool := x.a < y.a || (x.a = y.a && x.b < y.b)

section ring
variable [CommRing T]

/-- quadratic.h:118-124 `zeroOf`. -/
instance : Zero (Quad T D) := ⟨⟨0, 0⟩⟩
/-- quadratic.h:110-116 `identityOf`. -/
instance : One (Quad T D) := ⟨⟨1, 0⟩⟩
/-- quadratic.h:68, :78 `operator +`. -/
instance : Add (Quad T D) := ⟨fun x y => ⟨x.a + y.a, x.b + y.b⟩⟩
/-- quadratic.h:69, :79 `operator -`. -/
instance : Sub (Quad T D) := ⟨fun x y => ⟨x.a - y.a, x.b - y.b⟩⟩
/-- quadratic.h:70 unary `operator -`. -/
instance : Neg (Quad T D) := ⟨fun x => ⟨-x.a, -x.b⟩⟩
/-- quadratic.h:71, :80 `operator *`. -/
instance : Mul (Quad T D) := ⟨fun x y => ⟨x.a * y.a + x.b * y.b * D, x.a * y.b + x.b * y.a⟩⟩

/-- quadratic.h:75, :84 `operator *` by a scalar. -/
def mulScalar (x : Quad T D) (v : T) : Quad T D := ⟨x.a * v, x.b * v⟩

/-- quadratic.h:87 `conjugate()`. -/
def conjugate (x : Quad T D) : Quad T D := ⟨x.a, -x.b⟩

/-- quadratic.h:88 `norm()`. -/
def norm (x : Quad T D) : T := x.a * x.a - x.b * x.b * D

/-- quadratic.h:76, :85 `operator /` by a scalar; `quo` is the division of the coefficient type. -/
def divScalar (quo : T → T → T) (x : Quad T D) (v : T) : Quad T D := ⟨quo x.a v, quo x.b v⟩

/-- quadratic.h:72, :81 `operator /`. -/
def div (quo : T → T → T) (x y : Quad T D) : Quad T D := divScalar quo (x * conjugate y) (norm y)

/-- quadratic.h:73, :82 `operator %`. -/
def mod (quo : T → T → T) (x y : Quad T D) : Quad T D := x - y * div quo x y

@[simp] theorem add_a (x y : Quad T D) : (x + y).a = x.a + y.a := rfl
@[simp] theorem add_b (x y : Quad T D) : (x + y).b = x.b + y.b := rfl
@[simp] theorem sub_a (x y : Quad T D) : (x - y).a = x.a - y.a := rfl
@[simp] theorem sub_b (x y : Quad T D) : (x - y).b = x.b - y.b := rfl
@[simp] theorem neg_a (x : Quad T D) : (-x).a = -x.a := rfl
@[simp] theorem neg_b (x : Quad T D) : (-x).b = -x.b := rfl
@[simp] theorem mul_a (x y : Quad T D) : (x * y).a = x.a * y.a + x.b * y.b * D := rfl
@[simp] theorem mul_b (x y : Quad T D) : (x * y).b = x.a * y.b + x.b * y.a := rfl
@[simp] theorem zero_a : (0 : Quad T D).a = 0 := rfl
@[simp] theorem zero_b : (0 : Quad T D).b = 0 := rfl
@[simp] theorem one_a : (1 : Quad T D).a = 1 := rfl
@[simp] theorem one_b : (1 : Quad T D).b = 0 := rfl

/-- The operations of the class satisfy the axioms of a commutative ring (so that the generic
algorithms of base.h, such as `powT`, apply). -/
instance : CommRing (Quad T D) where
  add_assoc x y z := by ext <;> simp <;> ring
  zero_add x := by ext <;> simp
  add_zero x := by ext <;> simp
  add_comm x y := by ext <;> simp <;> ring
  mul_assoc x y z := by ext <;> simp <;> ring
  one_mul x := by ext <;> simp
  mul_one x := by ext <;> simp
  left_distrib x y z := by ext <;> simp <;> ring
  right_distrib x y z := by ext <;> simp <;> ring
  zero_mul x := by ext <;> simp
  mul_zero x := by ext <;> simp
  mul_comm x y := by ext <;> simp <;> ring
  sub_eq_add_neg x y := by ext <;> simp <;> ring
  neg_add_cancel x := by ext <;> simp
  nsmul := nsmulRec
  zsmul := zsmulRec

end ring

end Altruct.Quadratic
