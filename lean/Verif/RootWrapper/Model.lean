/-
Model of `include/altruct/structure/math/root_wrapper.h`.
-/
import Verif.Common.Vec
import Verif.Fft.Model

namespace Altruct.RootWrapper

variable {α : Type}

/-- root_wrapper.h:25-29 the members: `roots` is the number of the allocation it points to. -/
structure Wrap where
  roots : Nat
  size : Nat
  index : Nat

/-- root_wrapper.h:30 the index after `*=` (the sum of two indices below 2^30 does not overflow). -/
def mulIdx (size a b : Nat) : Nat := (a + b) &&& (size - 1)

/-- root_wrapper.h:30-31 `*=`, `*`. -/
def Wrap.mul (x y : Wrap) : Wrap := { x with index := mulIdx x.size x.index y.index }

/-- root_wrapper.h:36-38 `identityOf`. -/
def Wrap.one (x : Wrap) : Wrap := { x with index := 0 }

/-- root_wrapper.h:49 the static vector `roots`: the number of its current allocation and its elements. -/
structure Cache (α : Type) where
  gen : Nat
  tab : List α

/-- root_wrapper.h:49 its first value. -/
def Cache.init [One α] : Cache α := ⟨0, [1]⟩

/-- root_wrapper.h:32 conversion to `T`: `none` when the table it points to has been reallocated, or the index is outside. -/
def Wrap.deref (c : Cache α) (x : Wrap) : Option α := if x.roots = c.gen then rd c.tab x.index else none

/-- root_wrapper.h:46-60 `complex_root_wrapper(l)`; `rt n i` is `cplx(cos(A), sin(A))` for `A = 2 pi i / n`.  A `resize` to
a greater size reallocates (the capacity of the vector is its size). -/
def get (rt : Nat → Nat → α) (c : Cache α) (l : Nat) : Cache α × Wrap :=
  let size := Fft.powLen l c.tab.length
  if c.tab.length < l then (⟨c.gen + 1, (List.range size).map (rt size)⟩, ⟨c.gen + 1, size, 1⟩)
  else (c, ⟨c.gen, c.tab.length, 1⟩)

/-- The cache after a sequence of calls. -/
def after (rt : Nat → Nat → α) (c : Cache α) (ls : List Nat) : Cache α := ls.foldl (fun c l => (get rt c l).1) c

end Altruct.RootWrapper
