/-
Model of structure/container/bounded_contiguous_allocator.h.

A pointer is its offset from `data_`, in elements.  Whether each of the two calls of `malloc` succeeds is given by
the environment.  `none` is an access out of bounds or through a null pointer.
-/
import Verif.Common.Vec

namespace Altruct.Alloc

/-- bounded_contiguous_allocator.h:26-29 the members: `data` tells whether `data_` is not null. -/
structure State where
  capacity : Nat
  data : Bool
  available : Nat
  ptrs : Option (List Nat)

/-- bounded_contiguous_allocator.h:31-32 the constructor. -/
def init (capacity : Nat) : State := ⟨capacity, false, capacity, none⟩

/-- bounded_contiguous_allocator.h:50-53 `clear`. -/
def clear (s : State) : State := { s with ptrs := none, data := false }

/-- bounded_contiguous_allocator.h:55-63 `ensure`; `m1`, `m2` tell whether `malloc` of the data, of the pointers
succeeds. -/
def ensure (m1 m2 : Bool) (s : State) : State × Bool :=
  match s.ptrs with
  | some _ => (s, true)
  | none =>
    let s := if s.data then s else { s with data := m1 }
    if s.data = false then (s, false)
    else if m2 = false then (s, false)
    else ({ s with ptrs := some (List.range s.capacity) }, true)

/-- The outcome of an operation: nothing, a pointer, `std::bad_alloc`. -/
inductive Out where
  | unit
  | ptr (p : Nat)
  | thrown
deriving DecidableEq

/-- bounded_contiguous_allocator.h:67-70 `allocate`. -/
def allocate (m1 m2 : Bool) (s : State) (n : Nat) : Option (State × Out) :=
  let (s, ok) := ensure m1 m2 s
  if ok = false ∨ n ≠ 1 ∨ s.available < 1 then some (s, .thrown)
  else do
    let ps ← s.ptrs
    let s := { s with available := s.available - 1 }
    let p ← rd ps s.available
    some (s, .ptr p)

/-- bounded_contiguous_allocator.h:72-74 `deallocate`. -/
def deallocate (s : State) (p : Nat) : Option State := do
  let ps ← s.ptrs
  let ps ← wr ps s.available p
  some { s with ptrs := some ps, available := s.available + 1 }

/-- The operations. -/
inductive Op where
  | allocate (n : Nat) (m1 m2 : Bool)
  | deallocate (p : Nat)
  | clear

/-- One operation. -/
def step (s : State) : Op → Option (State × Out)
  | .allocate n m1 m2 => allocate m1 m2 s n
  | .deallocate p => do let s ← deallocate s p; some (s, .unit)
  | .clear => some (clear s, .unit)

/-- A history with its outcomes. -/
def run (s : State) : List Op → Option (State × List Out)
  | [] => some (s, [])
  | op :: ops => do
    let (s, o) ← step s op
    let (s, os) ← run s ops
    some (s, o :: os)

end Altruct.Alloc
