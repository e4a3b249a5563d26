/-
Property C69: `clifford3.h` computes in the Clifford algebra Cl(3, 0).
-/
import Verif.Clifford.Model
import Mathlib.Algebra.Algebra.Basic
import Mathlib.Algebra.Order.Field.Basic
import Mathlib.Algebra.Order.Ring.Rat
import Mathlib.Tactic.Ring
import Mathlib.Tactic.NoncommRing
import Mathlib.Tactic.Module
import Mathlib.Tactic.LinearCombination
import Mathlib.Tactic.FieldSimp
import Mathlib.Tactic.Linarith
import Mathlib.Tactic.Positivity

namespace Altruct.Clifford

section ring
variable {R : Type} [CommRing R]

/-! ### the specification -/

/-- The generators `e1`, `e2`, `e3`. -/
def e1 : Multi R := Multi.ofV ⟨1, 0, 0, 0⟩
def e2 : Multi R := Multi.ofV ⟨0, 1, 0, 0⟩
def e3 : Multi R := Multi.ofV ⟨0, 0, 1, 0⟩

/-- The element that the documentation says a multivector stands for, in an algebra with elements `f1`, `f2`, `f3`. -/
def value {A : Type} [Ring A] [Algebra R A] (f1 f2 f3 : A) (m : Multi R) : A :=
  m.r.s • 1 + m.v.x • f1 + m.v.y • f2 + m.v.z • f3 + m.r.yz • (f2 * f3) + m.r.zx • (f3 * f1) + m.r.xy • (f1 * f2) + m.v.w • (f1 * f2 * f3)

/-- Orthonormal generators. -/
structure Orthonormal {A : Type} [Ring A] (f1 f2 f3 : A) : Prop where
  sq1 : f1 * f1 = 1
  sq2 : f2 * f2 = 1
  sq3 : f3 * f3 = 1
  anti12 : f2 * f1 = -(f1 * f2)
  anti13 : f3 * f1 = -(f1 * f3)
  anti23 : f3 * f2 = -(f2 * f3)

macro "cl_ext" : tactic => `(tactic| (
  apply Multi.ext <;> (first | apply Rotor.ext | apply Vector.ext) <;>
  simp only [Multi.mul, Multi.add, Multi.sub, Multi.neg, Multi.smul, Multi.rev, Multi.conj, Multi.one, Multi.zero, Multi.ofR, Multi.ofV,
    Multi.mulR, Multi.mulV, Rotor.mulM, Vector.mulM, Rotor.smul, Vector.smul, Rotor.sub, Vector.sub,
    Rotor.mul, Rotor.add, Rotor.neg, Rotor.rev, Rotor.conj, Rotor.ofScalar, Rotor.mulV, Vector.mul, Vector.mulR, Vector.add, Vector.neg,
    Vector.rev, Vector.conj, e1, e2, e3] <;> ring))

/-- Multivectors are a ring under `+` and `*`. -/
theorem C69_ring (a b c : Multi R) :
    (a.mul b).mul c = a.mul (b.mul c) ∧ Multi.one.mul a = a ∧ a.mul Multi.one = a ∧
    a.mul (b.add c) = (a.mul b).add (a.mul c) ∧ (a.add b).mul c = (a.mul c).add (b.mul c) ∧
    a.add b = b.add a ∧ (a.add b).add c = a.add (b.add c) ∧ a.add Multi.zero = a ∧ a.add a.neg = Multi.zero ∧ a.sub b = a.add b.neg := by
  refine ⟨?_, ?_, ?_, ?_, ?_, ?_, ?_, ?_, ?_, ?_⟩ <;> cl_ext

/-- The generators are orthonormal: each squares to one and any two anticommute. -/
theorem C69_generators : (e1 : Multi R).mul e1 = Multi.one ∧ (e2 : Multi R).mul e2 = Multi.one ∧ (e3 : Multi R).mul e3 = Multi.one ∧
    (e2 : Multi R).mul e1 = (e1.mul e2).neg ∧ (e3 : Multi R).mul e1 = (e1.mul e3).neg ∧ (e3 : Multi R).mul e2 = (e2.mul e3).neg := by
  refine ⟨?_, ?_, ?_, ?_, ?_, ?_⟩ <;> cl_ext

/-- Every multivector is the documented combination of products of the generators. -/
theorem C69_basis (m : Multi R) :
    m = ((((((((Multi.one.smul m.r.s).add (e1.smul m.v.x)).add (e2.smul m.v.y)).add (e3.smul m.v.z)).add ((e2.mul e3).smul m.r.yz)).add
      ((e3.mul e1).smul m.r.zx)).add ((e1.mul e2).smul m.r.xy)).add (((e1.mul e2).mul e3).smul m.v.w)) := by
  cl_ext

/-- In every algebra with orthonormal generators the product of the code is the product of the algebra.  Together with `C69_ring`,
`C69_generators` and `C69_basis` this characterises the code's product: it is that of the Clifford algebra Cl(3, 0). -/
theorem C69_universal {A : Type} [Ring A] [Algebra R A] (f1 f2 f3 : A) (h : Orthonormal f1 f2 f3) (a b : Multi R) :
    value f1 f2 f3 (a.mul b) = value f1 f2 f3 a * value f1 f2 f3 b := by
  obtain ⟨h1, h2, h3, h12, h13, h23⟩ := h
  have k1 : ∀ x, f1 * (f1 * x) = x := fun x => by rw [← mul_assoc, h1, one_mul]
  have k2 : ∀ x, f2 * (f2 * x) = x := fun x => by rw [← mul_assoc, h2, one_mul]
  have k3 : ∀ x, f3 * (f3 * x) = x := fun x => by rw [← mul_assoc, h3, one_mul]
  have k12 : ∀ x, f2 * (f1 * x) = -(f1 * (f2 * x)) := fun x => by rw [← mul_assoc, h12, neg_mul, mul_assoc]
  have k13 : ∀ x, f3 * (f1 * x) = -(f1 * (f3 * x)) := fun x => by rw [← mul_assoc, h13, neg_mul, mul_assoc]
  have k23 : ∀ x, f3 * (f2 * x) = -(f2 * (f3 * x)) := fun x => by rw [← mul_assoc, h23, neg_mul, mul_assoc]
  simp only [value, Multi.mul, Rotor.mul, Rotor.add, Rotor.mulV, Vector.mul, Vector.mulR, Vector.add]
  simp only [mul_add, add_mul, mul_assoc, smul_mul_assoc, mul_smul_comm, one_mul, mul_one, h1, h2, h3, h12, h13, h23, k1, k2, k3, k12, k13, k23,
    mul_neg, neg_mul, neg_neg, smul_neg]
  generalize f1 * (f2 * f3) = g123
  generalize f1 * f2 = g12
  generalize f1 * f3 = g13
  generalize f2 * f3 = g23
  module

/-- The products of rotors, vectors and multivectors in all combinations agree with the product of multivectors. -/
theorem C69_mixed (a : Multi R) (r r' : Rotor R) (v v' : Vector R) :
    Multi.ofR (r.mul r') = (Multi.ofR r).mul (Multi.ofR r') ∧ Multi.ofV (r.mulV v) = (Multi.ofR r).mul (Multi.ofV v) ∧
    Multi.ofV (v.mulR r) = (Multi.ofV v).mul (Multi.ofR r) ∧ Multi.ofR (v.mul v') = (Multi.ofV v).mul (Multi.ofV v') ∧
    a.mulR r = a.mul (Multi.ofR r) ∧ a.mulV v = a.mul (Multi.ofV v) ∧ r.mulM a = (Multi.ofR r).mul a ∧ v.mulM a = (Multi.ofV v).mul a := by
  refine ⟨?_, ?_, ?_, ?_, ?_, ?_, ?_, ?_⟩ <;> cl_ext

/-- `rev` and `conj` are the anti-automorphisms that keep and negate the generators. -/
theorem C69_reverse (a b : Multi R) :
    (a.mul b).rev = b.rev.mul a.rev ∧ (a.mul b).conj = b.conj.mul a.conj ∧ (a.add b).rev = a.rev.add b.rev ∧ (a.add b).conj = a.conj.add b.conj ∧
    (e1 : Multi R).rev = e1 ∧ (e2 : Multi R).rev = e2 ∧ (e3 : Multi R).rev = e3 ∧
    (e1 : Multi R).conj = e1.neg ∧ (e2 : Multi R).conj = e2.neg ∧ (e3 : Multi R).conj = e3.neg := by
  refine ⟨?_, ?_, ?_, ?_, ?_, ?_, ?_, ?_, ?_, ?_⟩ <;> cl_ext

/-- The dot product of two vectors. -/
def dot (a b : Vector R) : R := a.x * b.x + a.y * b.y + a.z * b.z

/-- Reflecting a vector along a unit vector `v` subtracts twice its component along `v`. -/
theorem C69_reflect (u v : Vector R) (hu : u.w = 0) (hv : v.w = 0) (h1 : v.abs2 = 1) :
    u.reflect v = u.sub (v.smul (2 * dot u v)) := by
  rcases u with ⟨x, y, z, w⟩
  rcases v with ⟨a, b, c, d⟩
  simp only at hu hv
  subst hu; subst hv
  simp only [Vector.abs2] at h1
  apply Vector.ext <;> simp only [Vector.reflect, Vector.sub, Vector.smul, dot, Vector.neg, Vector.mul, Rotor.mulV, Vector.rev]
  · linear_combination x * h1
  · linear_combination y * h1
  · linear_combination z * h1
  · ring

/-- The cross product of two vectors. -/
def cross (a b : Vector R) : Vector R := ⟨a.y * b.z - a.z * b.y, a.z * b.x - a.x * b.z, a.x * b.y - a.y * b.x, 0⟩

/-- A rotation by a unit rotor keeps dot products, cross products (so orientation), volume parts and sums. -/
theorem C69_rotate (u v : Vector R) (r : Rotor R) (h1 : r.abs2 = 1) :
    dot (u.rotate r) (v.rotate r) = dot u v ∧ cross (u.rotate r) (v.rotate r) = (cross u v).rotate r ∧ (u.rotate r).w = u.w ∧
    (u.add v).rotate r = (u.rotate r).add (v.rotate r) := by
  have hs : ∀ k : R, k = 1 → k * k = 1 := by rintro k rfl; ring
  have h2 := hs _ h1
  simp only [Rotor.abs2] at h1 h2
  refine ⟨?_, ?_, ?_, ?_⟩
  · simp only [dot, Vector.rotate, Rotor.mulV, Vector.mulR, Rotor.rev]
    linear_combination (u.x * v.x + u.y * v.y + u.z * v.z) * h2
  · apply Vector.ext
    · have := congrArg (fun k => ((cross u v).rotate r).x * k) h1
      simp only [Vector.rotate, Rotor.mulV, Vector.mulR, Rotor.rev, cross] at this ⊢
      linear_combination this
    · have := congrArg (fun k => ((cross u v).rotate r).y * k) h1
      simp only [Vector.rotate, Rotor.mulV, Vector.mulR, Rotor.rev, cross] at this ⊢
      linear_combination this
    · have := congrArg (fun k => ((cross u v).rotate r).z * k) h1
      simp only [Vector.rotate, Rotor.mulV, Vector.mulR, Rotor.rev, cross] at this ⊢
      linear_combination this
    · simp only [Vector.rotate, Rotor.mulV, Vector.mulR, Rotor.rev, cross]
      ring
  · simp only [Vector.rotate, Rotor.mulV, Vector.mulR, Rotor.rev]
    linear_combination u.w * h1
  · apply Vector.ext <;> simp only [Vector.rotate, Rotor.mulV, Vector.mulR, Rotor.rev, Vector.add] <;> ring

/-- Rotating by `r` and then by `q` is rotating by `q * r`. -/
theorem C69_rotate_compose (u : Vector R) (r q : Rotor R) : (u.rotate r).rotate q = u.rotate (q.mul r) := by
  apply Vector.ext <;> simp only [Vector.rotate, Rotor.mulV, Vector.mulR, Rotor.rev, Rotor.mul] <;> ring

end ring

/-! ### inverses -/

section field
variable {K : Type} [Field K] [LinearOrder K] [IsStrictOrderedRing K]

theorem rotor_abs2_zero (r : Rotor K) : r.abs2 = 0 ↔ r = ⟨0, 0, 0, 0⟩ := by
  rcases r with ⟨s, a, b, c⟩
  simp only [Rotor.abs2, Rotor.mk.injEq]
  constructor
  · intro h
    have h1 := mul_self_nonneg s
    have h2 := mul_self_nonneg a
    have h3 := mul_self_nonneg b
    have h4 := mul_self_nonneg c
    refine ⟨?_, ?_, ?_, ?_⟩ <;> (rw [← mul_self_eq_zero]; linarith)
  · rintro ⟨rfl, rfl, rfl, rfl⟩; ring

theorem vector_abs2_zero (v : Vector K) : v.abs2 = 0 ↔ v = ⟨0, 0, 0, 0⟩ := by
  rcases v with ⟨s, a, b, c⟩
  simp only [Vector.abs2, Vector.mk.injEq]
  constructor
  · intro h
    have h1 := mul_self_nonneg s
    have h2 := mul_self_nonneg a
    have h3 := mul_self_nonneg b
    have h4 := mul_self_nonneg c
    refine ⟨?_, ?_, ?_, ?_⟩ <;> (rw [← mul_self_eq_zero]; linarith)
  · rintro ⟨rfl, rfl, rfl, rfl⟩; ring

theorem rotor_inv (r : Rotor K) (h : r.abs2 ≠ 0) : ∃ i, r.inv = some i ∧ r.mul i = Rotor.ofScalar 1 ∧ i.mul r = Rotor.ofScalar 1 := by
  refine ⟨_, if_neg h, ?_, ?_⟩ <;>
  · have hN : r.abs2 = r.s * r.s + r.xy * r.xy + r.yz * r.yz + r.zx * r.zx := rfl
    generalize r.abs2 = N at h hN
    apply Rotor.ext <;> simp only [Rotor.mul, Rotor.rev, Rotor.ofScalar] <;> field_simp <;> (try rw [hN]) <;> ring

theorem vector_inv (v : Vector K) (h : v.abs2 ≠ 0) : ∃ i, v.inv = some i ∧ v.mul i = Rotor.ofScalar 1 ∧ i.mul v = Rotor.ofScalar 1 := by
  refine ⟨_, if_neg h, ?_, ?_⟩ <;>
  · have hN : v.abs2 = v.x * v.x + v.y * v.y + v.z * v.z + v.w * v.w := rfl
    generalize v.abs2 = N at h hN
    apply Rotor.ext <;> simp only [Vector.mul, Vector.rev, Rotor.ofScalar] <;> field_simp <;> (try rw [hN]) <;> ring

/-- The inverse exists exactly when the multivector is invertible, and is then returned. -/
theorem C69_inverse (a : Multi K) :
    (∀ i, a.inv = some i → a.mul i = Multi.one ∧ i.mul a = Multi.one) ∧ ((∃ b, a.mul b = Multi.one) → ∃ i, a.inv = some i) := by
  have assoc := fun a b c : Multi K => (C69_ring a b c).1
  have onel := fun a : Multi K => (C69_ring a a a).2.1
  have oner := fun a : Multi K => (C69_ring a a a).2.2.1
  by_cases h0 : a.r.s = 0 ∧ a.r.yz = 0 ∧ a.r.zx = 0 ∧ a.r.xy = 0
  · have ea : a = Multi.ofV a.v := by
      rcases a with ⟨⟨s, x, y, z⟩, v⟩
      obtain ⟨h1, h2, h3, h4⟩ := h0
      simp only at h1 h2 h3 h4
      subst h1; subst h2; subst h3; subst h4
      rfl
    by_cases hz : a.v.abs2 = 0
    · have hn : a.v.inv = none := if_pos hz
      refine ⟨fun i hi => ?_, ?_⟩
      · rw [Multi.inv, if_pos h0, hn] at hi
        exact absurd hi (by simp)
      · rintro ⟨b, hb⟩
        rw [ea, (vector_abs2_zero a.v).mp hz] at hb
        have := congrArg (fun m => m.r.s) hb
        simp [Multi.mul, Multi.ofV, Multi.one, Multi.ofR, Rotor.add, Rotor.mul, Vector.mul, Rotor.ofScalar] at this
    · obtain ⟨i, e, h1, h2⟩ := vector_inv a.v hz
      have ei : a.inv = some (Multi.ofV i) := by rw [Multi.inv, if_pos h0, e]; rfl
      refine ⟨fun j hj => ?_, fun _ => ⟨_, ei⟩⟩
      rw [ei] at hj
      obtain rfl := Option.some.inj hj
      rw [ea, ← (C69_mixed a a.r a.r a.v i).2.2.2.1, ← (C69_mixed a a.r a.r i a.v).2.2.2.1, h1, h2]
      exact ⟨rfl, rfl⟩
  · have hr : a.r.abs2 ≠ 0 := by
      intro hz
      rw [rotor_abs2_zero] at hz
      apply h0
      rw [hz]
      exact ⟨rfl, rfl, rfl, rfl⟩
    obtain ⟨ra, e, h1, h2⟩ := rotor_inv a.r hr
    -- `(1 + t) * a` is the even part `N`
    have hN : (⟨Rotor.ofScalar 1, a.v.neg.mulR ra⟩ : Multi K).mul a = Multi.ofR (a.r.add ((a.v.neg.mulR ra).mul a.v)) := by
      have e1 : (a.v.neg.mulR ra).mulR a.r = a.v.neg := by
        have : (a.v.neg.mulR ra).mulR a.r = a.v.neg.mulR (ra.mul a.r) := by
          apply Vector.ext <;> simp only [Vector.mulR, Rotor.mul, Vector.neg] <;> ring
        rw [this, h2]
        apply Vector.ext <;> simp only [Vector.mulR, Rotor.ofScalar, Vector.neg] <;> ring
      apply Multi.ext
      · simp only [Multi.mul, Multi.ofR]
        congr 1
        apply Rotor.ext <;> simp only [Rotor.mul, Rotor.ofScalar] <;> ring
      · simp only [Multi.mul, Multi.ofR, e1]
        apply Vector.ext <;> simp only [Vector.add, Rotor.mulV, Rotor.ofScalar, Vector.neg] <;> ring
    -- `a * (1 + t')` is even as well
    generalize hNd : a.r.add ((a.v.neg.mulR ra).mul a.v) = N at hN
    by_cases hz : N.abs2 = 0
    · have hn : N.inv = none := if_pos hz
      refine ⟨fun i hi => ?_, ?_⟩
      · simp only [Multi.inv, if_neg h0, e, Option.bind_eq_bind, Option.bind_some] at hi
        rw [hNd, hn] at hi
        exact absurd hi (by simp)
      · rintro ⟨b, hb⟩
        exfalso
        have hz2 : Multi.ofR N = (Multi.zero : Multi K) := by rw [(rotor_abs2_zero N).mp hz]; rfl
        have h3 : ((⟨Rotor.ofScalar 1, a.v.neg.mulR ra⟩ : Multi K).mul a).mul b = ⟨Rotor.ofScalar 1, a.v.neg.mulR ra⟩ := by
          rw [assoc, hb, oner]
        rw [hN, hz2] at h3
        have := congrArg (fun m => m.r.s) h3
        simp [Multi.mul, Multi.zero, Multi.ofR, Rotor.add, Rotor.mul, Vector.mul, Rotor.ofScalar] at this
    · obtain ⟨ri, e', h3, h4⟩ := rotor_inv N hz
      have ei : a.inv = some ⟨ri, ri.mulV (a.v.neg.mulR ra)⟩ := by
        simp only [Multi.inv, if_neg h0, e, Option.bind_eq_bind, Option.bind_some]
        rw [hNd, e']; rfl
      refine ⟨fun j hj => ?_, fun _ => ⟨_, ei⟩⟩
      rw [ei] at hj
      obtain rfl := Option.some.inj hj
      have hj2 : (⟨ri, ri.mulV (a.v.neg.mulR ra)⟩ : Multi K) = (Multi.ofR ri).mul ⟨Rotor.ofScalar 1, a.v.neg.mulR ra⟩ := by
        generalize a.v.neg.mulR ra = t
        cl_ext
      have hleft : (⟨ri, ri.mulV (a.v.neg.mulR ra)⟩ : Multi K).mul a = Multi.one := by
        rw [hj2, assoc, hN, ← (C69_mixed a ri N a.v a.v).1, h4]; rfl
      refine ⟨?_, hleft⟩
      -- a right inverse: the conjugate argument gives some right inverse, hence equality
      obtain ⟨c, hc⟩ : ∃ c, a.mul c = Multi.one := by
        have hM : a.mul ⟨Rotor.ofScalar 1, ra.mulV a.v.neg⟩ = Multi.ofR (a.r.add (a.v.mul (ra.mulV a.v.neg))) := by
          have e1 : a.r.mulV (ra.mulV a.v.neg) = a.v.neg := by
            have : a.r.mulV (ra.mulV a.v.neg) = (a.r.mul ra).mulV a.v.neg := by
              apply Vector.ext <;> simp only [Rotor.mulV, Rotor.mul, Vector.neg] <;> ring
            rw [this, h1]
            apply Vector.ext <;> simp only [Rotor.mulV, Rotor.ofScalar, Vector.neg] <;> ring
          apply Multi.ext
          · simp only [Multi.mul, Multi.ofR]
            congr 1
            apply Rotor.ext <;> simp only [Rotor.mul, Rotor.ofScalar] <;> ring
          · simp only [Multi.mul, Multi.ofR, e1]
            apply Vector.ext <;> simp only [Vector.add, Vector.mulR, Rotor.ofScalar, Vector.neg] <;> ring
        have hMN : a.r.add (a.v.mul (ra.mulV a.v.neg)) = N := by
          rw [← hNd]
          apply Rotor.ext <;> simp only [Rotor.add, Vector.mul, Vector.mulR, Rotor.mulV, Vector.neg] <;> ring
        rw [hMN] at hM
        refine ⟨(⟨Rotor.ofScalar 1, ra.mulV a.v.neg⟩ : Multi K).mul (Multi.ofR ri), ?_⟩
        rw [← assoc, hM, ← (C69_mixed a N ri a.v a.v).1, h3]; rfl
      have : (⟨ri, ri.mulV (a.v.neg.mulR ra)⟩ : Multi K) = c := by
        have := assoc ⟨ri, ri.mulV (a.v.neg.mulR ra)⟩ a c
        rw [hleft, hc, onel, oner] at this
        exact this.symm
      rw [this, hc]

/-- `make_rotor(from, to)` turns the direction of `from` into the direction of `to`, for any two vectors that are not opposite.
`sq` is an exact square root. -/
theorem C69_make_rotor (sq : K → K) (hsq : ∀ x, 0 ≤ x → sq x * sq x = x) (a b a' b' : Vector K) (ha : a.w = 0) (hb : b.w = 0)
    (ea : a.unit sq = some a') (eb : b.unit sq = some b') (hop : a'.add b' ≠ ⟨0, 0, 0, 0⟩) :
    ∃ r, makeRotor sq a b = some r ∧ r.abs2 = 1 ∧ a'.rotate r = b' := by
  have unit_w : ∀ u u' : Vector K, u.w = 0 → u.unit sq = some u' → u'.w = 0 ∧ u'.x * u'.x + u'.y * u'.y + u'.z * u'.z = 1 := by
    intro u u' hw hu
    have hpos : 0 ≤ u.abs2 := by
      have h1 := mul_self_nonneg u.x
      have h2 := mul_self_nonneg u.y
      have h3 := mul_self_nonneg u.z
      have h4 := mul_self_nonneg u.w
      rw [Vector.abs2]; linarith
    have hs := hsq _ hpos
    rw [Vector.unit, Vector.sdiv] at hu
    split_ifs at hu with hz
    obtain rfl := Option.some.inj hu
    generalize sq u.abs2 = t at *
    simp only [Vector.abs2, hw] at hs
    constructor
    · simp [hw]
    · field_simp
      linear_combination (-1 : K) * hs
  obtain ⟨wa, na⟩ := unit_w a a' ha ea
  obtain ⟨wb, nb⟩ := unit_w b b' hb eb
  rcases a' with ⟨x, y, z, w⟩
  rcases b' with ⟨p, q, s, v⟩
  simp only at wa wb na nb
  subst wa; subst wb
  generalize hR : ((⟨p, q, s, 0⟩ : Vector K).mul ⟨x, y, z, 0⟩).add (Rotor.ofScalar 1) = r0
  have hN : r0.abs2 = 2 * (x * p + y * q + z * s) + 2 := by
    rw [← hR]
    simp only [Rotor.abs2, Rotor.add, Vector.mul, Rotor.ofScalar]
    linear_combination (x * x + y * y + z * z) * nb + na
  have hNpos : r0.abs2 ≠ 0 := by
    intro h0
    have hd : x * p + y * q + z * s = -1 := by rw [hN] at h0; linarith
    apply hop
    have e : (x + p) * (x + p) + (y + q) * (y + q) + (z + s) * (z + s) = 0 := by linear_combination na + nb + 2 * hd
    have h1 := mul_self_nonneg (x + p)
    have h2 := mul_self_nonneg (y + q)
    have h3 := mul_self_nonneg (z + s)
    apply Vector.ext <;> simp only [Vector.add]
    · rw [← mul_self_eq_zero]; linarith
    · rw [← mul_self_eq_zero]; linarith
    · rw [← mul_self_eq_zero]; linarith
    · ring
  have hNn : 0 ≤ r0.abs2 := by
    have h1 := mul_self_nonneg r0.s
    have h2 := mul_self_nonneg r0.yz
    have h3 := mul_self_nonneg r0.zx
    have h4 := mul_self_nonneg r0.xy
    rw [Rotor.abs2]; linarith
  have hs := hsq _ hNn
  have hs0 : sq r0.abs2 ≠ 0 := by
    intro h0
    rw [h0, mul_zero] at hs
    exact hNpos hs.symm
  refine ⟨⟨r0.s / sq r0.abs2, r0.yz / sq r0.abs2, r0.zx / sq r0.abs2, r0.xy / sq r0.abs2⟩, ?_, ?_, ?_⟩
  · simp only [makeRotor, eb, ea, Option.bind_eq_bind, Option.bind_some, hR, Rotor.unit, Rotor.sdiv, if_neg hs0]
  · generalize sq r0.abs2 = t at *
    rw [Rotor.abs2] at hs
    rw [Rotor.abs2]
    field_simp
    linear_combination (-1 : K) * hs
  · generalize sq r0.abs2 = t at *
    rw [hN] at hs
    have key : ∀ u : K, u / t / t = u / (2 * (x * p + y * q + z * s) + 2) := by
      intro u; rw [div_div, hs]
    have hne : 2 * (x * p + y * q + z * s) + 2 ≠ 0 := by rw [← hs]; exact mul_ne_zero hs0 hs0
    have hrot : (⟨x, y, z, 0⟩ : Vector K).rotate ⟨r0.s / t, r0.yz / t, r0.zx / t, r0.xy / t⟩ =
        ((⟨x, y, z, 0⟩ : Vector K).rotate r0).smul (1 / (t * t)) := by
      apply Vector.ext <;> simp only [Vector.rotate, Rotor.mulV, Vector.mulR, Rotor.rev, Vector.smul] <;> field_simp <;> ring
    rw [hrot, hs, ← hR]
    apply Vector.ext <;> simp only [Vector.rotate, Rotor.mulV, Vector.mulR, Rotor.rev, Vector.smul, Rotor.add, Vector.mul, Rotor.ofScalar] <;>
      rw [mul_one_div, div_eq_iff hne]
    · linear_combination ((2 * (x * p + y * q + z * s) + 2) * p - (p * p + q * q + s * s) * x) * na - x * nb
    · linear_combination ((2 * (x * p + y * q + z * s) + 2) * q - (p * p + q * q + s * s) * y) * na - y * nb
    · linear_combination ((2 * (x * p + y * q + z * s) + 2) * s - (p * p + q * q + s * s) * z) * na - z * nb
    · ring

end field

/-- clifford3.h:274 `m *= m.r`: the argument is a reference to a member that the first assignment changes. -/
def mulOwnRotor {R : Type} [CommRing R] (a : Multi R) : Multi R :=
  let r := a.r.mul a.r
  ⟨r, a.v.mulR r⟩

/-- So multiplying a multivector in place by its own even part gives a wrong product. -/
theorem C69_alias : ∃ a : Multi ℚ, mulOwnRotor a ≠ a.mulR a.r := ⟨⟨⟨2, 0, 0, 0⟩, ⟨1, 0, 0, 0⟩⟩, by decide +kernel⟩

/-- `1 + e1` has no inverse, although it is not zero. -/
example : (⟨⟨1, 0, 0, 0⟩, ⟨1, 0, 0, 0⟩⟩ : Multi ℚ).inv = none := by decide +kernel
example : (⟨⟨1, 2, 3, 4⟩, ⟨5, 6, 7, 8⟩⟩ : Multi ℚ).mul ⟨⟨1, 0, 2, 0⟩, ⟨1, 3, 0, 1⟩⟩ = ⟨⟨10, 2, 42, 16⟩, ⟨30, -14, -10, 32⟩⟩ := by decide +kernel
example : (((⟨⟨1, 2, 3, 4⟩, ⟨5, 6, 7, 8⟩⟩ : Multi ℚ).inv).map (fun i => Multi.mul ⟨⟨1, 2, 3, 4⟩, ⟨5, 6, 7, 8⟩⟩ i)) = some Multi.one := by decide +kernel
example : (⟨1, 2, 3, 0⟩ : Vector ℚ).reflect ⟨3 / 5, 4 / 5, 0, 0⟩ = ⟨-41 / 25, -38 / 25, 3, 0⟩ := by decide +kernel
example : (⟨3 / 5, 4 / 5, 0, 0⟩ : Rotor ℚ).abs2 = 1 := by decide +kernel
/-- A quarter turn about the third axis, with a square root that is exact on the values met. -/
def sq0 (x : ℚ) : ℚ := if x = 4 then 2 else if x = 9 then 3 else if x = 64 / 25 then 8 / 5 else 0
example : ((⟨2, 0, 0, 0⟩ : Vector ℚ).unit sq0, (⟨21 / 25, 72 / 25, 0, 0⟩ : Vector ℚ).unit sq0) = (some ⟨1, 0, 0, 0⟩, some ⟨7 / 25, 24 / 25, 0, 0⟩) := by
  decide +kernel
example : makeRotor sq0 (⟨2, 0, 0, 0⟩ : Vector ℚ) ⟨21 / 25, 72 / 25, 0, 0⟩ = some ⟨4 / 5, 0, 0, -3 / 5⟩ := by decide +kernel
example : (⟨1, 0, 0, 0⟩ : Vector ℚ).rotate ⟨4 / 5, 0, 0, -3 / 5⟩ = ⟨7 / 25, 24 / 25, 0, 0⟩ := by decide +kernel

end Altruct.Clifford
