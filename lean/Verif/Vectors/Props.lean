/-
Properties of `galois_field_2` (C83) and of the vectors `vector2d`, `vector3d`, `vectorNd` (C84).
-/
import Verif.Vectors.Model
import Mathlib.Data.ZMod.Basic
import Mathlib.Algebra.Field.ZMod
import Mathlib.Tactic.Ring
import Mathlib.Algebra.BigOperators.Group.List.Basic

namespace Altruct.Vectors

section GF2
variable {w : Nat}

/-- Specification: lane `i` of a word as an element of the field with two elements. -/
def lane (x : BitVec w) (i : Nat) : ZMod 2 := if x.getLsbD i then 1 else 0

/-- Specification: two words are equal exactly when all their lanes are. -/
theorem lane_ext (a b : BitVec w) : a = b ↔ ∀ i < w, lane a i = lane b i := by
  constructor
  · rintro rfl i _; rfl
  · intro h
    apply BitVec.eq_of_getLsbD_eq
    intro i hi
    have := h i hi
    simp only [lane] at this
    revert this
    cases a.getLsbD i <;> cases b.getLsbD i <;> simp

/-- C83: every operation acts on each of the `w` lanes as the operation of the field with two elements; dividing is
correct in every lane where the divisor is not zero, and gives 1 in the others. -/
theorem C83_galois_field_2 (a b : BitVec w) (i : Nat) (hi : i < w) :
    lane (gfAdd a b) i = lane a i + lane b i ∧ lane (gfSub a b) i = lane a i - lane b i ∧
    lane (gfNeg a) i = -lane a i ∧ lane (gfMul a b) i = lane a i * lane b i ∧
    (lane b i ≠ 0 → lane (gfDiv a b) i = lane a i / lane b i) ∧ (lane b i = 0 → lane (gfDiv a b) i = 1) ∧
    lane (gfOne : BitVec w) i = 1 ∧ lane (gfZero : BitVec w) i = 0 := by
  simp only [lane, gfAdd, gfSub, gfNeg, gfMul, gfDiv, gfOne, gfZero, BitVec.getLsbD_xor, BitVec.getLsbD_and,
    BitVec.getLsbD_or, BitVec.getLsbD_not, BitVec.getLsbD_zero, hi, decide_true, Bool.true_and]
  rcases Bool.eq_false_or_eq_true (a.getLsbD i) with ha | ha <;> rcases Bool.eq_false_or_eq_true (b.getLsbD i) with hb | hb <;>
    simp [ha, hb] <;> decide

/-- C83: a quotient times the divisor gives the dividend back exactly when every lane of the dividend is zero where the
divisor's is. -/
theorem C83_div_mul (a b : BitVec w) : gfMul (gfDiv a b) b = a ↔ ∀ i < w, lane b i = 0 → lane a i = 0 := by
  rw [lane_ext]
  refine forall_congr' (fun i => forall_congr' (fun hi => ?_))
  simp only [lane, gfMul, gfDiv, BitVec.getLsbD_and, BitVec.getLsbD_or, BitVec.getLsbD_not, hi, decide_true, Bool.true_and]
  cases a.getLsbD i <;> cases b.getLsbD i <;> decide

example : gfDiv 0b0100#4 0b0110#4 = 0b1101#4 ∧ gfMul (gfDiv 0b0100#4 0b0110#4) 0b0110#4 = 0b0100#4 ∧
    gfAdd 0b0110#4 0b0011#4 = 0b0101#4 ∧ lane 0b0100#4 2 = 1 := by decide +kernel
end GF2

section Order
variable {α δ : Type} [LinearOrder α]

/-- C84: `<` of `vector2d` is the lexicographic order on `(x, y)`: irreflexive, transitive, and exactly one of `u < v`,
`u == v`, `v < u` holds; `<=` is its negation with the arguments exchanged.  The payload takes no part. -/
theorem C84_order2 (u v t : V2 α δ) :
    (V2.lt u v = true ↔ u.x < v.x ∨ (u.x = v.x ∧ u.y < v.y)) ∧
    (V2.eq u v = true ↔ u.x = v.x ∧ u.y = v.y) ∧
    (V2.le u v = true ↔ V2.lt u v = true ∨ V2.eq u v = true) ∧
    (V2.lt u v = true → V2.lt v t = true → V2.lt u t = true) ∧
    (V2.lt u v = true → V2.lt v u = false) ∧
    (V2.lt u v = false → V2.lt v u = false → V2.eq u v = true) := by
  have hlt : ∀ u v : V2 α δ, V2.lt u v = true ↔ u.x < v.x ∨ (u.x = v.x ∧ u.y < v.y) := by
    intro u v
    rw [V2.lt]
    split_ifs with h
    · rw [decide_eq_true_eq]
      exact ⟨Or.inl, fun hh => hh.resolve_right (fun hc => h hc.1)⟩
    · have h' : u.x = v.x := not_not.mp h
      rw [decide_eq_true_eq]
      exact ⟨fun hh => Or.inr ⟨h', hh⟩, fun hh => (hh.resolve_left (fun hc => absurd hc (by rw [h']; exact lt_irrefl _))).2⟩
  have heq : ∀ u v : V2 α δ, V2.eq u v = true ↔ u.x = v.x ∧ u.y = v.y := by
    intro u v; simp [V2.eq]
  have hf : ∀ u v : V2 α δ, V2.lt u v = false ↔ ¬ (V2.lt u v = true) := fun u v => by simp
  refine ⟨hlt u v, heq u v, ?_, ?_, ?_, ?_⟩
  · rw [V2.le, Bool.not_eq_true', hf, hlt, hlt, heq]
    rcases lt_trichotomy u.x v.x with h | h | h
    · simp [h, h.not_gt, h.ne']
    · rcases lt_trichotomy u.y v.y with h2 | h2 | h2
      · simp [h, h2, h2.not_gt]
      · simp [h, h2]
      · simp [h, h2, h2.not_gt, h2.ne']
    · simp [h, h.not_gt, h.ne']
  · rw [hlt, hlt, hlt]
    rintro (h1 | ⟨h1, h2⟩) (h3 | ⟨h3, h4⟩)
    · exact Or.inl (h1.trans h3)
    · exact Or.inl (h3 ▸ h1)
    · exact Or.inl (h1 ▸ h3)
    · exact Or.inr ⟨h1.trans h3, h2.trans h4⟩
  · rw [hf, hlt, hlt]
    rintro (h1 | ⟨h1, h2⟩) (h3 | ⟨h3, h4⟩)
    · exact lt_asymm h1 h3
    · exact h1.ne' h3
    · exact h3.ne' h1
    · exact lt_asymm h2 h4
  · rw [hf, hf, hlt, hlt, heq]
    intro h1 h2
    push Not at h1 h2
    have hx := le_antisymm h2.1 h1.1
    exact ⟨hx, le_antisymm (h2.2 hx.symm) (h1.2 hx)⟩

/-- C84: the same for `vector3d`. -/
theorem C84_order3 (u v t : V3 α) :
    (V3.lt u v = true ↔ u.x < v.x ∨ (u.x = v.x ∧ (u.y < v.y ∨ (u.y = v.y ∧ u.z < v.z)))) ∧
    (V3.eq u v = true ↔ u.x = v.x ∧ u.y = v.y ∧ u.z = v.z) ∧
    (V3.le u v = true ↔ V3.lt u v = true ∨ V3.eq u v = true) ∧
    (V3.lt u v = true → V3.lt v t = true → V3.lt u t = true) ∧
    (V3.lt u v = true → V3.lt v u = false) ∧
    (V3.lt u v = false → V3.lt v u = false → V3.eq u v = true) := by
  have hlt : ∀ u v : V3 α, V3.lt u v = true ↔ u.x < v.x ∨ (u.x = v.x ∧ (u.y < v.y ∨ (u.y = v.y ∧ u.z < v.z))) := by
    intro u v
    rw [V3.lt]
    split_ifs with h h2
    · rw [decide_eq_true_eq]
      exact ⟨Or.inl, fun hh => hh.resolve_right (fun hc => h hc.1)⟩
    · have h' : u.x = v.x := not_not.mp h
      rw [decide_eq_true_eq, h']
      simp only [lt_irrefl, false_or, true_and]
      exact ⟨Or.inl, fun hh => hh.resolve_right (fun hc => h2 hc.1)⟩
    · have h' : u.x = v.x := not_not.mp h
      have h2' : u.y = v.y := not_not.mp h2
      rw [decide_eq_true_eq, h', h2']
      simp
  have heq : ∀ u v : V3 α, V3.eq u v = true ↔ u.x = v.x ∧ u.y = v.y ∧ u.z = v.z := by
    intro u v; simp [V3.eq, and_assoc]
  have hf : ∀ u v : V3 α, V3.lt u v = false ↔ ¬ (V3.lt u v = true) := fun u v => by simp
  have hasym : V3.lt u v = true → V3.lt v u = false := by
    rw [hf, hlt, hlt]
    rintro (h1 | ⟨h1, h2 | ⟨h2, h3⟩⟩) (h4 | ⟨h4, h5 | ⟨h5, h6⟩⟩)
    · exact lt_asymm h1 h4
    · exact h1.ne' h4
    · exact h1.ne' h4
    · exact h4.ne' h1
    · exact lt_asymm h2 h5
    · exact h2.ne' h5
    · exact h4.ne' h1
    · exact h5.ne' h2
    · exact lt_asymm h3 h6
  have htot : V3.lt u v = false → V3.lt v u = false → V3.eq u v = true := by
    rw [hf, hf, hlt, hlt, heq]
    intro h1 h2
    push Not at h1 h2
    have hx := le_antisymm h2.1 h1.1
    have hy := le_antisymm (h2.2 hx.symm).1 (h1.2 hx).1
    exact ⟨hx, hy, le_antisymm ((h2.2 hx.symm).2 hy.symm) ((h1.2 hx).2 hy)⟩
  refine ⟨hlt u v, heq u v, ?_, ?_, hasym, htot⟩
  · rw [V3.le, Bool.not_eq_true']
    constructor
    · intro h
      by_cases h2 : V3.lt u v = true
      · exact Or.inl h2
      · exact Or.inr (htot ((hf _ _).mpr h2) h)
    · rintro (h | h)
      · exact hasym h
      · obtain ⟨hx, hy, hz⟩ := (heq _ _).mp h
        rw [hf, hlt, hx, hy, hz]
        simp
  · rw [hlt, hlt, hlt]
    rintro (h1 | ⟨h1, h2⟩) (h3 | ⟨h3, h4⟩)
    · exact Or.inl (h1.trans h3)
    · exact Or.inl (h3 ▸ h1)
    · exact Or.inl (h1 ▸ h3)
    · refine Or.inr ⟨h1.trans h3, ?_⟩
      rcases h2 with h2 | ⟨h2, h5⟩ <;> rcases h4 with h4 | ⟨h4, h6⟩
      · exact Or.inl (h2.trans h4)
      · exact Or.inl (h4 ▸ h2)
      · exact Or.inl (h2 ▸ h4)
      · exact Or.inr ⟨h2.trans h4, h5.trans h6⟩
end Order

section Ring
variable {α δ : Type} [CommRing α] [Inhabited δ]

/-- C84: geometry of `vector2d`.  `dot` and `cross` are the scalar product and the oriented area; `rot` multiplies as
complex numbers, `irot` by the conjugate, so that rotating there and back scales by `abs2`; lengths multiply; `perp` is
orthogonal, of the same length and to the left.  `cross(v1, v2)` from a point does not depend on the origin. -/
theorem C84_geometry2 (u v r t : V2 α δ) :
    (V2.dot u v = V2.dot v u ∧ V2.cross u v = -V2.cross v u ∧ V2.dot u u = V2.abs2 u ∧ V2.cross u u = 0) ∧
    V2.dot u v * V2.dot u v + V2.cross u v * V2.cross u v = V2.abs2 u * V2.abs2 v ∧
    V2.irot (V2.rot u r) r = V2.smul u (V2.abs2 r) ∧ V2.rot (V2.irot u r) r = V2.smul u (V2.abs2 r) ∧
    V2.abs2 (V2.rot u r) = V2.abs2 u * V2.abs2 r ∧ V2.rot (V2.rot u r) t = V2.rot u (V2.rot r t) ∧
    V2.dot u (V2.perp u) = 0 ∧ V2.cross u (V2.perp u) = V2.abs2 u ∧ V2.abs2 (V2.perp u) = V2.abs2 u ∧
    V2.crossFrom (V2.add u t) (V2.add v t) (V2.add r t) = V2.crossFrom u v r ∧
    V2.dotFrom (V2.add u t) (V2.add v t) (V2.add r t) = V2.dotFrom u v r ∧
    V2.crossFrom u v r = V2.cross u v + V2.cross v r + V2.cross r u := by
  simp only [V2.dot, V2.cross, V2.abs2, V2.irot, V2.rot, V2.smul, V2.perp, V2.crossFrom, V2.dotFrom, V2.sub, V2.add, V2.mk.injEq]
  refine ⟨⟨?_, ?_, ?_, ?_⟩, ?_, ⟨?_, ?_, trivial⟩, ⟨?_, ?_, trivial⟩, ?_, ⟨?_, ?_, trivial⟩, ?_, ?_, ?_, ?_, ?_, ?_⟩ <;> first | ring | trivial

/-- C84: `+=` and `-=` keep the payload, the binary operators give the default one; the coordinates agree and subtraction
undoes addition. -/
theorem C84_payload2 (u v : V2 α δ) :
    (V2.addEq u v).data = u.data ∧ (V2.subEq u v).data = u.data ∧ (V2.add u v).data = default ∧
    ((V2.addEq u v).x, (V2.addEq u v).y) = ((V2.add u v).x, (V2.add u v).y) ∧ V2.subEq (V2.addEq u v) v = u ∧
    V2.sub (V2.add u v) v = ⟨u.x, u.y, default⟩ ∧ V2.add u (V2.neg u) = ⟨0, 0, default⟩ := by
  refine ⟨rfl, rfl, rfl, rfl, ?_, ?_, ?_⟩
  · simp [V2.subEq, V2.addEq]
  · simp [V2.sub, V2.add]
  · simp [V2.add, V2.neg]

omit [Inhabited δ] in
/-- C84: `v *= t` scales both coordinates when `t` is not part of `v` (or is its second coordinate). -/
theorem C84_mul_assign2 (u : V2 α δ) (t : α) :
    V2.mulEq u (.value t) = ⟨u.x * t, u.y * t, u.data⟩ ∧ V2.mulEq u (.elem 1) = ⟨u.x * u.y, u.y * u.y, u.data⟩ := ⟨rfl, rfl⟩

/-- C84: `v *= v.x` is wrong: the second coordinate is multiplied by the square of the first. -/
theorem C84_mul_assign2_alias : V2.mulEq (⟨3, 5, ()⟩ : V2 Int Unit) (.elem 0) = ⟨9, 45, ()⟩ := rfl

omit [Inhabited δ] in
/-- C84: geometry of `vector3d`: the cross product is antisymmetric, orthogonal to both factors, satisfies Lagrange's
identity and the triple product rule, and seen from a point it does not depend on the origin. -/
theorem C84_geometry3 (u v t : V3 α) :
    V3.dot u v = V3.dot v u ∧ V3.dot u u = V3.abs2 u ∧ V3.cross u v = V3.neg (V3.cross v u) ∧
    V3.dot u (V3.cross u v) = 0 ∧ V3.dot v (V3.cross u v) = 0 ∧
    V3.abs2 (V3.cross u v) + V3.dot u v * V3.dot u v = V3.abs2 u * V3.abs2 v ∧
    V3.cross u (V3.cross v t) = V3.sub (V3.smul v (V3.dot u t)) (V3.smul t (V3.dot u v)) ∧
    V3.dot u (V3.cross v t) = V3.dot (V3.cross u v) t ∧
    V3.crossFrom u v t = V3.add (V3.add (V3.cross u v) (V3.cross v t)) (V3.cross t u) ∧
    V3.sub (V3.add u v) v = u ∧ V3.add u (V3.neg u) = ⟨0, 0, 0⟩ := by
  obtain ⟨x, y, z⟩ := u
  simp only [V3.dot, V3.cross, V3.abs2, V3.neg, V3.smul, V3.crossFrom, V3.sub, V3.add, V3.mk.injEq]
  refine ⟨?_, ?_, ⟨?_, ?_, ?_⟩, ?_, ?_, ?_, ⟨?_, ?_, ?_⟩, ?_, ⟨?_, ?_, ?_⟩, ⟨?_, ?_, ?_⟩, ⟨?_, ?_, ?_⟩⟩ <;> first | ring | trivial

example : V3.cross (⟨1, 0, 0⟩ : V3 Int) ⟨0, 1, 0⟩ = ⟨0, 0, 1⟩ ∧ V2.cross (⟨1, 0, ()⟩ : V2 Int Unit) ⟨0, 1, ()⟩ = 1 ∧
    V2.rot (⟨1, 0, ()⟩ : V2 Int Unit) ⟨0, 1, ()⟩ = ⟨0, 1, ()⟩ := ⟨rfl, rfl, rfl⟩
end Ring

/-! ### vectorNd -/

section VN
variable {α : Type}

theorem drop_cons {a : List α} {i : Nat} (h : i < a.length) : a.drop i = a[i] :: a.drop (i + 1) :=
  List.drop_eq_getElem_cons h

/-- C84: `cmp` is negative, zero or positive as the left vector is less than, equal to or greater than the right one in the
lexicographic order. -/
theorem C84_cmp [LinearOrder α] (n : Nat) (a b : List α) (ha : a.length = n) (hb : b.length = n) :
    ∃ r, cmp n a b = some r ∧ (r < 0 ↔ a < b) ∧ (r = 0 ↔ a = b) ∧ (0 < r ↔ b < a) := by
  have key : ∀ c i, c + i = n → ∃ r, cmpLoop a b c i = some r ∧ (r < 0 ↔ a.drop i < b.drop i) ∧ (r = 0 ↔ a.drop i = b.drop i) ∧
      (0 < r ↔ b.drop i < a.drop i) := by
    intro c
    induction c with
    | zero =>
      intro i hi
      refine ⟨0, rfl, ?_⟩
      rw [List.drop_eq_nil_of_le (by omega), List.drop_eq_nil_of_le (by omega)]
      simp
    | succ c ih =>
      intro i hi
      obtain ⟨r, e, h1, h2, h3⟩ := ih (i + 1) (by omega)
      rw [cmpLoop, rd, rd, List.getElem?_eq_getElem (show i < a.length by omega), List.getElem?_eq_getElem (show i < b.length by omega),
        drop_cons (show i < a.length by omega), drop_cons (show i < b.length by omega)]
      simp only [Option.bind_eq_bind, Option.bind_some, List.cons_lt_cons_iff, List.cons.injEq]
      rcases lt_trichotomy (a[i]'(by omega)) (b[i]'(by omega)) with h | h | h
      · rw [if_pos h]
        exact ⟨-1, rfl, by simp [h], by simp [h.ne], by simp [h.not_gt, h.ne']⟩
      · rw [if_neg (by rw [h]; exact lt_irrefl _), if_neg (by rw [h]; exact lt_irrefl _)]
        exact ⟨r, e, by simp [h, h1], by simp [h, h2], by simp [h, h3]⟩
      · rw [if_neg h.not_gt, if_pos h]
        exact ⟨1, rfl, by simp [h.not_gt, h.ne'], by simp [h.ne'], by simp [h]⟩
  obtain ⟨r, e, h⟩ := key n 0 rfl
  exact ⟨r, e, h⟩

/-- C84: `a op= b` applies `op` element by element, also when `b` is `a` itself. -/
theorem C84_op_vec (op : α → α → α) (n : Nat) (same : Bool) (a b : List α) (ha : a.length = n) (hb : b.length = n) (hs : same = true → b = a) :
    opVec op n same a b = some (List.zipWith op a b) := by
  have key : ∀ c i (cur : List α), c + i = n → cur.length = n → cur.drop i = a.drop i → cur.take i = List.zipWith op (a.take i) (b.take i) →
      zipLoop op same b c i cur = some (List.zipWith op a b) := by
    intro c
    induction c with
    | zero =>
      intro i cur hi hl _ ht
      rw [zipLoop]
      rw [List.take_of_length_le (by omega), List.take_of_length_le (by omega), List.take_of_length_le (by omega)] at ht
      rw [ht]
    | succ c ih =>
      intro i cur hi hl hd ht
      have hci : cur[i]'(by omega) = a[i]'(by omega) := by
        have h1 := drop_cons (show i < cur.length by omega)
        have h2 := drop_cons (show i < a.length by omega)
        rw [hd, h2] at h1
        exact (List.cons.inj h1).1.symm
      have hy : rd (if same = true then cur else b) i = some (b[i]'(by omega)) := by
        split_ifs with h
        · rw [rd, List.getElem?_eq_getElem (show i < cur.length by omega), hci]
          simp only [hs h]
        · rw [rd, List.getElem?_eq_getElem]
      rw [zipLoop, hy, rd, List.getElem?_eq_getElem (show i < cur.length by omega)]
      simp only [Option.bind_eq_bind, Option.bind_some, wr, if_pos (show i < cur.length by omega)]
      apply ih (i + 1) _ (by omega) (by rw [List.length_set, hl])
      · rw [List.drop_set_of_lt (by omega)]
        have := congrArg (List.drop 1) hd
        simpa only [List.drop_drop, Nat.add_comm] using this
      · rw [List.take_succ_eq_append_getElem (show i < (cur.set i _).length by rw [List.length_set]; omega),
          List.take_succ_eq_append_getElem (show i < a.length by omega), List.take_succ_eq_append_getElem (show i < b.length by omega),
          List.zipWith_append (by rw [List.length_take, List.length_take]; omega), List.take_set_of_le (by omega), ht, List.getElem_set_self, hci]
        rfl
  exact key n 0 a rfl ha rfl (by simp)

/-- C84: `a op= t` applies `op · t` to every element when `t` is not an element of `a`; `a op t` always does. -/
theorem C84_op_scal (op : α → α → α) (n : Nat) (t : α) (a : List α) (ha : a.length = n) :
    opScal op n (.value t) a = some (a.map (op · t)) ∧
    (∀ k (hk : k < n), opScalCopy op n (.elem k) a = some (a.map (op · (a[k]'(by omega))))) ∧
    opScalCopy op n (.value t) a = some (a.map (op · t)) := by
  have key : ∀ t, ∀ c i (cur : List α), c + i = n → cur.length = n → cur.drop i = a.drop i → cur.take i = (a.take i).map (op · t) →
      scalLoop op (.value t) c i cur = some (a.map (op · t)) := by
    intro t c
    induction c with
    | zero =>
      intro i cur hi hl _ ht
      rw [scalLoop]
      rw [List.take_of_length_le (by omega), List.take_of_length_le (by omega)] at ht
      rw [ht]
    | succ c ih =>
      intro i cur hi hl hd ht
      have hci : cur[i]'(by omega) = a[i]'(by omega) := by
        have h1 := drop_cons (show i < cur.length by omega)
        have h2 := drop_cons (show i < a.length by omega)
        rw [hd, h2] at h1
        exact (List.cons.inj h1).1.symm
      rw [scalLoop, Ref.get, rd, List.getElem?_eq_getElem (show i < cur.length by omega)]
      simp only [Option.bind_eq_bind, Option.bind_some, wr, if_pos (show i < cur.length by omega)]
      apply ih (i + 1) _ (by omega) (by rw [List.length_set, hl])
      · rw [List.drop_set_of_lt (by omega)]
        have := congrArg (List.drop 1) hd
        simpa only [List.drop_drop, Nat.add_comm] using this
      · rw [List.take_succ_eq_append_getElem (show i < (cur.set i _).length by rw [List.length_set]; omega),
          List.take_succ_eq_append_getElem (show i < a.length by omega), List.map_append, List.take_set_of_le (by omega), ht,
          List.getElem_set_self, hci]
        rfl
  refine ⟨key t n 0 a rfl ha rfl (by simp), fun k hk => ?_, ?_⟩
  · rw [opScalCopy, Ref.get, rd, List.getElem?_eq_getElem (by omega)]
    exact key _ n 0 a rfl ha rfl (by simp)
  · rw [opScalCopy, Ref.get]
    exact key t n 0 a rfl ha rfl (by simp)

/-- C84: `v *= v[0]` is wrong: the elements after the first are multiplied by the square of the first one, while
`v * v[0]` is right. -/
theorem C84_op_scal_alias : opScal (· * ·) 3 (.elem 0) [3, 5, 7] = some [9, 45, 63] ∧
    opScalCopy (· * ·) 3 (.elem 0) [3, 5, 7] = some [9, 15, 21] := by decide +kernel

/-- C84: `abs2` is the sum of the squares. -/
theorem C84_abs2 [CommRing α] (n : Nat) (a : List α) (ha : a.length = n) : abs2 n a = some (a.map (fun x => x * x)).sum := by
  have key : ∀ c i r, c + i = n → abs2Loop a c i r = some (r + ((a.drop i).map (fun x => x * x)).sum) := by
    intro c
    induction c with
    | zero =>
      intro i r hi
      rw [abs2Loop, List.drop_eq_nil_of_le (by omega)]
      simp
    | succ c ih =>
      intro i r hi
      rw [abs2Loop, rd, List.getElem?_eq_getElem (show i < a.length by omega), drop_cons (show i < a.length by omega)]
      simp only [Option.bind_eq_bind, Option.bind_some]
      rw [ih (i + 1) _ (by omega), List.map_cons, List.sum_cons, add_assoc]
  rw [abs2, key n 0 0 rfl, zero_add, List.drop_zero]

example : cmp 3 [1, 2, 3] [1, 3, 0] = some (-1) ∧ opVec (· * ·) 3 true [1, 2, 3] [1, 2, 3] = some [1, 4, 9] ∧
    abs2 3 [1, 2, 3] = some (14 : Int) := by decide +kernel
end VN

end Altruct.Vectors
