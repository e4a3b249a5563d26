/-
Property C67: what `nimber.h` computes, stated about the nim product as defined by its game-theoretic rule
(`IsNimMul` in `Verif.Nimber.Theory`): the least value that is not `a' ⊗ b ⊕ a ⊗ b' ⊕ a' ⊗ b'` for any `a' < a`, `b' < b`.

The width of the unsigned type is `2 ^ K`; 8, 16, 32 and 64 bits are `K = 3, 4, 5, 6`.
-/
import Verif.Nimber.Mul

namespace Altruct.Nimber

/-! ### the specification -/

/-- A state of the memo table that agrees with the product `f`: unset entries are zero. -/
def TableFor (f : Nat → Nat → Nat) (t : Tbl) : Prop := ∀ m n, t m n ≠ 0 → t m n = f (2 ^ m) (2 ^ n)

theorem eq_nmul {f : Nat → Nat → Nat} (hf : IsNimMul f) : f = nmul := by
  funext a b
  exact hf.unique nmul_isNimMul a b

theorem tblOK_iff {f : Nat → Nat → Nat} (hf : IsNimMul f) (t : Tbl) : TableFor f t ↔ TblOK t := by
  rw [eq_nmul hf]; rfl

/-- The rule defines exactly one product. -/
theorem C67_nim_product : ∃! f, IsNimMul f :=
  ⟨nmul, nmul_isNimMul, fun _ hf => eq_nmul hf⟩

/-- Nim sums and nim products make the natural numbers a commutative domain of characteristic two. -/
theorem C67_laws (f : Nat → Nat → Nat) (hf : IsNimMul f) :
    (∀ a b, f a b = f b a) ∧ (∀ a b c, f (f a b) c = f a (f b c)) ∧ (∀ a b c, f a (add b c) = add (f a b) (f a c)) ∧
    (∀ a, f 1 a = a) ∧ (∀ a b, f a b = 0 → a = 0 ∨ b = 0) ∧ (∀ a b c, add (add a b) c = add a (add b c)) ∧
    (∀ a b, add a b = add b a) ∧ (∀ a, add a 0 = a) ∧ (∀ a, add a a = 0) := by
  rw [eq_nmul hf]
  refine ⟨nmul_comm, nmul_assoc, nmul_xor, one_nmul, ?_, Nat.xor_assoc, Nat.xor_comm, Nat.xor_zero, Nat.xor_self⟩
  intro a b h
  by_contra hc
  push Not at hc
  exact nmul_ne_zero a b hc.1 hc.2 h

/-- The values of one word are closed under the product. -/
theorem C67_closed (f : Nat → Nat → Nat) (hf : IsNimMul f) (K a b : Nat) (ha : a < 2 ^ 2 ^ K) (hb : b < 2 ^ 2 ^ K) : f a b < 2 ^ 2 ^ K := by
  rw [eq_nmul hf]
  exact (level K).closed a b ha hb

section
variable (f : Nat → Nat → Nat) (hf : IsNimMul f) (K : Nat) (hK1 : 1 ≤ K) (hK : K ≤ 31)
include hf hK

/-- `mul` (the operator `*`) returns the nim product, for every state of the memo table that earlier calls can have left. -/
theorem C67_mul (t : Tbl) (ht : TableFor f t) (a b : Nat) (ha : a < 2 ^ 2 ^ K) (hb : b < 2 ^ 2 ^ K) (fuel : Nat) (hfu : K + 1 ≤ fuel) :
    ∃ t', mul (2 ^ K) fuel t a b = some (f a b, t') ∧ TableFor f t' := by
  obtain ⟨t', e, h⟩ := mul_full hK fuel (by omega) t ((tblOK_iff hf t).mp ht) a b ha hb
  exact ⟨t', by rw [eq_nmul hf]; exact e, (tblOK_iff hf t').mpr h⟩

omit hK in
include hK1 in
/-- `mul2`, the other multiplication algorithm, returns the nim product as well. -/
theorem C67_mul2 (a b : Nat) (ha : a < 2 ^ 2 ^ K) (hb : b < 2 ^ 2 ^ K) (fuel : Nat) (hfu : K + 1 ≤ fuel) :
    mul2 (2 ^ K) fuel a b = some (f a b) := by
  rw [eq_nmul hf]
  exact mul2_spec hK1 fuel a b K ha hb (by omega) le_rfl

omit hK in
include hK1 in
/-- `sqrt` returns the one square root. -/
theorem C67_sqrt (v : Nat) (hv : v < 2 ^ 2 ^ K) (fuel : Nat) (hfu : K + 1 ≤ fuel) :
    ∃ r, sqrt (2 ^ K) fuel v = some r ∧ r < 2 ^ 2 ^ K ∧ ∀ x, f x x = v ↔ x = r := by
  obtain ⟨r, e, h1, h2⟩ := sqrt_spec hK1 fuel v K hv (by omega) le_rfl
  refine ⟨r, e, h2, ?_⟩
  rw [eq_nmul hf]
  intro x
  constructor
  · intro hx
    by_contra hne
    have h3 := sq_xor x r
    rw [hx, h1, Nat.xor_self] at h3
    refine nmul_ne_zero _ _ ?_ ?_ h3 <;> exact fun h => hne (Nat.xor_eq_zero_iff.mp h)
  · rintro rfl; exact h1

omit hK in
/-- `lift(a, k)` multiplies by `2^(2^k - 1)`. -/
theorem C67_lift (a k : Nat) (hk : k ≤ K) (ha : a < 2 ^ 2 ^ k) : lift (2 ^ K) a k = some (f a (2 ^ (2 ^ k - 1))) := by
  rw [eq_nmul hf]
  exact lift_spec k hk a ha

include hK1

/-- `inverse` returns the inverse of a non-zero nimber, and zero for zero. -/
theorem C67_inverse (t : Tbl) (ht : TableFor f t) (v : Nat) (hv : v < 2 ^ 2 ^ K) (mf fuel : Nat) (hmf : K + 1 ≤ mf) (hfu : K + 1 ≤ fuel) :
    ∃ r t', inverse (2 ^ K) mf fuel t v = some (r, t') ∧ TableFor f t' ∧ r < 2 ^ 2 ^ K ∧ (v ≠ 0 → f v r = 1) ∧ (v = 0 → r = 0) := by
  obtain ⟨r, t', e, h1, h2, h3, h4⟩ := inverse_spec hK1 hK mf (by omega) fuel v K t hv (by omega) le_rfl ((tblOK_iff hf t).mp ht)
  exact ⟨r, t', e, (tblOK_iff hf t').mpr h1, h2, by rw [eq_nmul hf]; exact h3, h4⟩

/-- The quotient by a non-zero nimber is the one number whose product with the divisor is the dividend; dividing by zero
gives zero. -/
theorem C67_div (t : Tbl) (ht : TableFor f t) (x y : Nat) (hx : x < 2 ^ 2 ^ K) (hy : y < 2 ^ 2 ^ K) (mf fuel : Nat) (hmf : K + 1 ≤ mf)
    (hfu : K + 1 ≤ fuel) :
    ∃ q t', div (2 ^ K) mf fuel t x y = some (q, t') ∧ TableFor f t' ∧ q < 2 ^ 2 ^ K ∧ (y ≠ 0 → ∀ z, f z y = x ↔ z = q) ∧ (y = 0 → q = 0) := by
  obtain ⟨r, t1, e1, h1, h2, h3, h4⟩ := C67_inverse f hf K hK1 hK t ht y hy mf fuel hmf hfu
  obtain ⟨t2, e2, h5⟩ := C67_mul f hf K hK t1 h1 x r hx h2 mf hmf
  refine ⟨f x r, t2, ?_, h5, C67_closed f hf K x r hx h2, ?_, ?_⟩
  · rw [div, e1, Option.bind_eq_bind, Option.bind_some]; exact e2
  · intro hy0 z
    have hr := h3 hy0
    rw [eq_nmul hf] at hr ⊢
    constructor
    · rintro rfl
      rw [nmul_assoc, hr, nmul_one]
    · rintro rfl
      rw [nmul_assoc, nmul_comm r y, hr, nmul_one]
  · intro hy0
    rw [h4 hy0, eq_nmul hf, nmul_zero]

end

/-! ### histories -/

/-- The operations that use the memo table. -/
inductive Op
  | mul (a b : Nat)
  | inverse (v : Nat)
  | div (x y : Nat)

/-- nimber.h:81-88, 140-150, 168-169 one call. -/
def Op.run (w n : Nat) (t : Tbl) : Op → Option (Nat × Tbl)
  | .mul a b => Nimber.mul w n t a b
  | .inverse v => Nimber.inverse w n n t v
  | .div x y => Nimber.div w n n t x y

/-- A sequence of calls, with the table carried from each to the next. -/
def runAll (w n : Nat) : Tbl → List Op → Option (List Nat)
  | _, [] => some []
  | t, o :: os => do
    let (r, t) ← o.run w n t
    let rs ← runAll w n t os
    some (r :: rs)

/-- The operands are words. -/
def Op.Word (w : Nat) : Op → Prop
  | .mul a b => a < 2 ^ w ∧ b < 2 ^ w
  | .inverse v => v < 2 ^ w
  | .div x y => x < 2 ^ w ∧ y < 2 ^ w

/-- The result each call has to return. -/
def Op.Right (f : Nat → Nat → Nat) : Op → Nat → Prop
  | .mul a b, r => r = f a b
  | .inverse v, r => if v = 0 then r = 0 else f v r = 1
  | .div x y, r => if y = 0 then r = 0 else f r y = x

/-- Whatever calls were made before, with the table initially empty, every call returns the right result. -/
theorem C67_history (f : Nat → Nat → Nat) (hf : IsNimMul f) (K : Nat) (hK1 : 1 ≤ K) (hK : K ≤ 31) (os : List Op)
    (hw : ∀ o ∈ os, o.Word (2 ^ K)) (n : Nat) (hn : K + 1 ≤ n) :
    ∃ rs, runAll (2 ^ K) n (fun _ _ => 0) os = some rs ∧ List.Forall₂ (Op.Right f) os rs := by
  have key : ∀ (os : List Op) (t : Tbl), TableFor f t → (∀ o ∈ os, o.Word (2 ^ K)) →
      ∃ rs, runAll (2 ^ K) n t os = some rs ∧ List.Forall₂ (Op.Right f) os rs := by
    intro os
    induction os with
    | nil => intro t _ _; exact ⟨[], rfl, List.Forall₂.nil⟩
    | cons o os ih =>
      intro t ht hw
      have ho := hw o (by simp)
      obtain ⟨r, t', e, h1, h2⟩ : ∃ r t', o.run (2 ^ K) n t = some (r, t') ∧ TableFor f t' ∧ o.Right f r := by
        cases o with
        | mul a b =>
          obtain ⟨t', e, h⟩ := C67_mul f hf K hK t ht a b ho.1 ho.2 n hn
          exact ⟨_, t', e, h, rfl⟩
        | inverse v =>
          obtain ⟨r, t', e, h1, _, h3, h4⟩ := C67_inverse f hf K hK1 hK t ht v ho n n hn hn
          refine ⟨r, t', e, h1, ?_⟩
          simp only [Op.Right]
          split_ifs with h
          · exact h4 h
          · exact h3 h
        | div x y =>
          obtain ⟨r, t', e, h1, _, h3, h4⟩ := C67_div f hf K hK1 hK t ht x y ho.1 ho.2 n n hn hn
          refine ⟨r, t', e, h1, ?_⟩
          simp only [Op.Right]
          split_ifs with h
          · exact h4 h
          · exact (h3 h r).mpr rfl
      obtain ⟨rs, e2, h3⟩ := ih t' h1 (fun o h => hw o (by simp [h]))
      refine ⟨r :: rs, ?_, List.Forall₂.cons h2 h3⟩
      rw [runAll, e, Option.bind_eq_bind, Option.bind_some]
      simp only []
      rw [e2, Option.bind_eq_bind, Option.bind_some]
  exact key os _ (fun m n h => absurd rfl h) hw

/-! ### concrete cases -/

example : ((mul (2 ^ 6) 8 (fun _ _ => 0) 123456789 987654321).map (·.1)) = some 2797059340 := by decide +kernel
example : mul2 (2 ^ 6) 8 123456789 987654321 = some 2797059340 := by decide +kernel
example : sqrt (2 ^ 6) 8 123456789 = some 98433322 := by decide +kernel
example : ((inverse (2 ^ 6) 8 8 (fun _ _ => 0) 123456789).map (·.1)) = some 1665325969 := by decide +kernel
example : runAll (2 ^ 4) 6 (fun _ _ => 0) [.mul 2 3, .mul 16 16, .div 24 16, .inverse 0, .mul 24 1] = some [1, 24, 16, 0, 24] := by decide +kernel
example : ∀ o ∈ [Op.mul 2 3, .mul 16 16, .div 24 16, .inverse 0, .mul 24 1], o.Word (2 ^ 4) := by simp [Op.Word]

end Altruct.Nimber
