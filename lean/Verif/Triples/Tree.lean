/-
The trees of the triples with `a^2 + b^2 + k = c^2`.
-/
import Verif.Triples.Lists
import Verif.Base.Props
import Mathlib.Tactic.LinearCombination
import Mathlib.Algebra.Order.BigOperators.Group.List

namespace Altruct.Triples

open Altruct.Base (C03_gcd_nonneg)

/-- A triple `0 <= a <= b`, `0 < c`, without a common divisor, with `a^2 + b^2 + k = c^2`. -/
structure IsSolution (k a b c : Int) : Prop where
  nonneg : 0 ≤ a
  sorted : a ≤ b
  pos : 0 < c
  eq : a * a + b * b + k = c * c
  prim : ∀ d : Int, d ∣ a → d ∣ b → d ∣ c → d ∣ 1

theorem isPrimitive_iff (a b c : Int) (ha : 0 ≤ a) (hb : 0 ≤ b) (hc : 0 ≤ c) :
    isPrimitive (a, b, c) = true ↔ ∀ d : Int, d ∣ a → d ∣ b → d ∣ c → d ∣ 1 := by
  have e : isPrimitive (a, b, c) = true ↔ Int.gcd (Int.gcd a b) c = 1 := by
    rw [isPrimitive, beq_iff_eq, C03_gcd_nonneg a b ha hb, C03_gcd_nonneg _ _ (by omega) hc]
    norm_cast
  rw [e]
  constructor
  · intro h d h1 h2 h3
    have := Int.dvd_coe_gcd (Int.dvd_coe_gcd h1 h2) h3
    rw [h] at this
    exact this
  · intro h
    have h1 := Int.gcd_dvd_left (Int.gcd a b : Int) c
    have := h (Int.gcd (Int.gcd a b) c) (h1.trans (Int.gcd_dvd_left a b)) (h1.trans (Int.gcd_dvd_right a b)) (Int.gcd_dvd_right _ _)
    have h2 := Int.natAbs_dvd_natAbs.2 this
    simpa using h2

/-- the three images of a triple -/
def kid0 (t : Triple) : Triple := (-2 * t.1 + 1 * t.2.1 + 2 * t.2.2, -1 * t.1 + 2 * t.2.1 + 2 * t.2.2, -2 * t.1 + 2 * t.2.1 + 3 * t.2.2)
def kid1 (t : Triple) : Triple := (1 * t.1 + -2 * t.2.1 + 2 * t.2.2, 2 * t.1 + -1 * t.2.1 + 2 * t.2.2, 2 * t.1 + -2 * t.2.1 + 3 * t.2.2)
def kid2 (t : Triple) : Triple := (2 * t.1 + 1 * t.2.1 + 2 * t.2.2, 1 * t.1 + 2 * t.2.1 + 2 * t.2.2, 2 * t.1 + 2 * t.2.1 + 3 * t.2.2)

/-- the image, if it is kept -/
def keep (n : Int) (u : Triple) : List Triple := if maxElement u ≤ n ∧ isPrimitive u = true then [u] else []

/-- what the inner loop appends -/
def kids (n : Int) (t : Triple) : List Triple :=
  keep n (kid0 t) ++ (if t.1 = t.2.1 then [] else keep n (kid1 t)) ++ (if t.1 = 0 then [] else keep n (kid2 t))

theorem generateInner_eq (n : Int) (t : Triple) (vt : List Triple) : generateInner n t matrices vt = vt ++ kids n t := by
  have s0 : ∀ (j : Nat) (m : Triple × Triple × Triple) (ms : List (Nat × Triple × Triple × Triple)) (v : List Triple),
      generateInner n t ((j, m) :: ms) v =
      generateInner n t ms (v ++ if (j = 1 ∧ t.1 = t.2.1) ∨ (j = 2 ∧ t.1 = 0) then [] else keep n (next m t)) := by
    intro j m ms v
    rw [generateInner]
    by_cases h1 : j = 1 ∧ t.1 = t.2.1
    · rw [if_pos h1, if_pos (Or.inl h1), List.append_nil]
    · rw [if_neg h1]
      by_cases h2 : j = 2 ∧ t.1 = 0
      · rw [if_pos h2, if_pos (Or.inr h2), List.append_nil]
      · rw [if_neg h2, if_neg (by tauto)]
        simp only [keep]
        split_ifs <;> simp
  rw [matrices, s0, s0, s0, generateInner, if_neg (by simp)]
  have e1 : ((1 : Nat) = 1 ∧ t.1 = t.2.1 ∨ (1 : Nat) = 2 ∧ t.1 = 0) ↔ t.1 = t.2.1 := by simp
  have e2 : ((2 : Nat) = 1 ∧ t.1 = t.2.1 ∨ (2 : Nat) = 2 ∧ t.1 = 0) ↔ t.1 = 0 := by simp
  rw [if_congr e1 rfl rfl, if_congr e2 rfl rfl]
  simp only [List.append_assoc, kids]
  rfl

/-- the triple of which a triple is the image -/
def parent (t : Triple) : Triple :=
  (min (max (2 * t.1 + t.2.1 - 2 * t.2.2) (-(2 * t.1 + t.2.1 - 2 * t.2.2))) (t.1 + 2 * t.2.1 - 2 * t.2.2), max (max (2 * t.1 + t.2.1 - 2 * t.2.2) (-(2 * t.1 + t.2.1 - 2 * t.2.2))) (t.1 + 2 * t.2.1 - 2 * t.2.2),
   3 * t.2.2 - 2 * t.1 - 2 * t.2.1)

/-- the triples of the tree: for `k <= 1` a zero leg is left out -/
structure Good (k : Int) (t : Triple) : Prop where
  sol : IsSolution k t.1 t.2.1 t.2.2
  lt : t.2.1 < t.2.2
  zero : k ≤ 1 → 0 < t.1

theorem kid_dvd (t : Triple) (d : Int) :
    (d ∣ (kid0 t).1 → d ∣ (kid0 t).2.1 → d ∣ (kid0 t).2.2 → d ∣ t.1 ∧ d ∣ t.2.1 ∧ d ∣ t.2.2) ∧
    (d ∣ (kid1 t).1 → d ∣ (kid1 t).2.1 → d ∣ (kid1 t).2.2 → d ∣ t.1 ∧ d ∣ t.2.1 ∧ d ∣ t.2.2) ∧
    (d ∣ (kid2 t).1 → d ∣ (kid2 t).2.1 → d ∣ (kid2 t).2.2 → d ∣ t.1 ∧ d ∣ t.2.1 ∧ d ∣ t.2.2) := by
  refine ⟨?_, ?_, ?_⟩
  all_goals
    rintro ⟨x, hx⟩ ⟨y, hy⟩ ⟨z, hz⟩
    simp only [kid0, kid1, kid2] at hx hy hz
  · exact ⟨⟨-2 * x - y + 2 * z, by linear_combination (-2) * hx - hy + 2 * hz⟩,
      ⟨x + 2 * y - 2 * z, by linear_combination hx + 2 * hy - 2 * hz⟩,
      ⟨-2 * x - 2 * y + 3 * z, by linear_combination (-2) * hx - 2 * hy + 3 * hz⟩⟩
  · exact ⟨⟨x + 2 * y - 2 * z, by linear_combination hx + 2 * hy - 2 * hz⟩,
      ⟨-2 * x - y + 2 * z, by linear_combination (-2) * hx - hy + 2 * hz⟩,
      ⟨-2 * x - 2 * y + 3 * z, by linear_combination (-2) * hx - 2 * hy + 3 * hz⟩⟩
  · exact ⟨⟨2 * x + y - 2 * z, by linear_combination 2 * hx + hy - 2 * hz⟩,
      ⟨x + 2 * y - 2 * z, by linear_combination hx + 2 * hy - 2 * hz⟩,
      ⟨-2 * x - 2 * y + 3 * z, by linear_combination (-2) * hx - 2 * hy + 3 * hz⟩⟩

theorem kid_good (k : Int) (t : Triple) (h : Good k t) :
    (Good k (kid0 t) ∧ t.2.2 < (kid0 t).2.2 ∧ parent (kid0 t) = t) ∧
    (Good k (kid1 t) ∧ t.2.2 < (kid1 t).2.2 ∧ parent (kid1 t) = t) ∧
    (Good k (kid2 t) ∧ t.2.2 < (kid2 t).2.2 ∧ parent (kid2 t) = t) := by
  obtain ⟨a, b, c⟩ := t
  obtain ⟨⟨h1, h2, h3, h4, h5⟩, h6, h7⟩ := h
  simp only at h1 h2 h3 h4 h5 h6 h7
  have hd := kid_dvd (a, b, c)
  refine ⟨⟨⟨⟨?_, ?_, ?_, ?_, ?_⟩, ?_, ?_⟩, ?_, ?_⟩, ⟨⟨⟨?_, ?_, ?_, ?_, ?_⟩, ?_, ?_⟩, ?_, ?_⟩, ⟨⟨⟨?_, ?_, ?_, ?_, ?_⟩, ?_, ?_⟩, ?_, ?_⟩⟩
  case refine_5 => intro d d1 d2 d3; obtain ⟨x, y, z⟩ := (hd d).1 d1 d2 d3; exact h5 d x y z
  case refine_14 => intro d d1 d2 d3; obtain ⟨x, y, z⟩ := (hd d).2.1 d1 d2 d3; exact h5 d x y z
  case refine_23 => intro d d1 d2 d3; obtain ⟨x, y, z⟩ := (hd d).2.2 d1 d2 d3; exact h5 d x y z
  case refine_4 => simp only [kid0]; linear_combination h4
  case refine_13 => simp only [kid1]; linear_combination h4
  case refine_22 => simp only [kid2]; linear_combination h4
  case refine_9 => simp only [kid0, parent, Prod.mk.injEq]; omega
  case refine_18 => simp only [kid1, parent, Prod.mk.injEq]; omega
  case refine_27 => simp only [kid2, parent, Prod.mk.injEq]; omega
  all_goals
    simp only [kid0, kid1, kid2]
    omega

theorem good_max (k n : Int) (u : Triple) (h : Good k u) : (maxElement u ≤ n ∧ isPrimitive u = true) ↔ u.2.2 ≤ n := by
  obtain ⟨a, b, c⟩ := u
  obtain ⟨⟨h1, h2, h3, h4, h5⟩, h6, h7⟩ := h
  simp only at h1 h2 h3 h4 h5 h6 h7
  rw [isPrimitive_iff a b c h1 (by omega) (by omega)]
  simp only [maxElement]
  constructor
  · rintro ⟨h, _⟩; omega
  · intro h; exact ⟨by omega, h5⟩

theorem mem_kids (k n : Int) (t u : Triple) (h : Good k t) :
    u ∈ kids n t ↔ u.2.2 ≤ n ∧ (u = kid0 t ∨ (t.1 ≠ t.2.1 ∧ u = kid1 t) ∨ (t.1 ≠ 0 ∧ u = kid2 t)) := by
  obtain ⟨⟨g0, _⟩, ⟨g1, _⟩, ⟨g2, _⟩⟩ := kid_good k t h
  have hk : ∀ v, Good k v → (u ∈ keep n v ↔ u.2.2 ≤ n ∧ u = v) := by
    intro v hv
    unfold keep
    have hm := good_max k n v hv
    split_ifs with h
    · rw [hm] at h
      rw [List.mem_singleton]
      constructor
      · rintro rfl; exact ⟨h, rfl⟩
      · rintro ⟨_, e⟩; exact e
    · rw [hm] at h
      simp only [List.not_mem_nil, false_iff, not_and]
      rintro h' rfl; exact h h'
  unfold kids
  rw [List.mem_append, List.mem_append, hk _ g0]
  by_cases h1 : t.1 = t.2.1
  · by_cases h2 : t.1 = 0
    · rw [if_pos h1, if_pos h2]; simp [h1, h2]
      omega
    · rw [if_pos h1, if_neg h2, hk _ g2]
      simp only [List.not_mem_nil, h1, h2, ne_eq, not_true, false_and, or_false, false_or, not_false_eq_true, true_and]
      rw [h1] at h2
      simp only [h2, not_false_eq_true, true_and]
      tauto
  · by_cases h2 : t.1 = 0
    · rw [if_neg h1, if_pos h2, hk _ g1]
      simp only [List.not_mem_nil, h1, h2, ne_eq, not_true, false_and, or_false, false_or, not_false_eq_true, true_and]
      rw [h2] at h1
      simp only [h1, not_false_eq_true, true_and]
      tauto
    · rw [if_neg h1, if_neg h2, hk _ g1, hk _ g2]
      simp only [h1, h2, ne_eq, not_false_eq_true, true_and]
      tauto

theorem nodup_kids (k n : Int) (t : Triple) (h : Good k t) : (kids n t).Nodup := by
  have hk : ∀ v, (keep n v).Nodup ∧ ∀ u ∈ keep n v, u = v := by
    intro v
    unfold keep
    split_ifs <;> simp
  have hk' : ∀ (p : Prop) [Decidable p] (v : Triple), (if p then [] else keep n v).Nodup ∧
      ∀ u ∈ (if p then [] else keep n v), u = v ∧ ¬ p := by
    intro p _ v
    split_ifs with hp
    · simp
    · exact ⟨(hk v).1, fun u hu => ⟨(hk v).2 u hu, hp⟩⟩
  obtain ⟨a, b, c⟩ := t
  have hpos := h.sol.nonneg
  have hs := h.sol.sorted
  simp only at hpos hs
  unfold kids
  rw [List.nodup_append, List.nodup_append]
  refine ⟨⟨(hk _).1, (hk' _ _).1, ?_⟩, (hk' _ _).1, ?_⟩
  · intro u hu v hv e
    have e1 := (hk _).2 u hu
    obtain ⟨e2, hp⟩ := (hk' _ _).2 v hv
    rw [e1, e2] at e
    simp only [kid0, kid1, Prod.mk.injEq] at e hp
    omega
  · intro u hu v hv e
    obtain ⟨e2, hp⟩ := (hk' _ _).2 v hv
    rcases List.mem_append.1 hu with hu | hu
    · have e1 := (hk _).2 u hu
      rw [e1, e2] at e
      simp only [kid0, kid2, Prod.mk.injEq] at e hp
      omega
    · obtain ⟨e1, hp1⟩ := (hk' _ _).2 u hu
      rw [e1, e2] at e
      simp only [kid1, kid2, Prod.mk.injEq] at e hp hp1
      omega

theorem kids_good (k n : Int) (t u : Triple) (h : Good k t) (hu : u ∈ kids n t) :
    Good k u ∧ t.2.2 < u.2.2 ∧ u.2.2 ≤ n ∧ parent u = t := by
  obtain ⟨⟨g0, a0, p0⟩, ⟨g1, a1, p1⟩, ⟨g2, a2, p2⟩⟩ := kid_good k t h
  rw [mem_kids k n t u h] at hu
  obtain ⟨hn, rfl | ⟨_, rfl⟩ | ⟨_, rfl⟩⟩ := hu
  · exact ⟨g0, a0, hn, p0⟩
  · exact ⟨g1, a1, hn, p1⟩
  · exact ⟨g2, a2, hn, p2⟩

/-- a triple with `a + 2 b >= 2 c` is an image of its parent -/
theorem mem_kids_parent (k n : Int) (t : Triple) (hp : Good k (parent t)) (hs : t.1 ≤ t.2.1) (hn : t.2.2 ≤ n) :
    t ∈ kids n (parent t) := by
  rw [mem_kids k n _ _ hp]
  refine ⟨hn, ?_⟩
  have h0 := hp.sol.nonneg
  obtain ⟨a, b, c⟩ := t
  simp only [parent] at h0 hs ⊢
  simp only [kid0, kid1, kid2, Prod.mk.injEq]
  rcases le_or_gt (2 * a + b - 2 * c) 0 with hx | hx
  · rcases le_or_gt (-(2 * a + b - 2 * c)) (a + 2 * b - 2 * c) with hy | hy
    · left; omega
    · right; left; omega
  · right; right; omega

/-- the parent of a triple with `a + 2 b >= 2 c` -/
theorem parent_solution (k : Int) (hk : 0 ≤ k) (t : Triple) (h : IsSolution k t.1 t.2.1 t.2.2) (hy : 2 * t.2.2 ≤ t.1 + 2 * t.2.1) :
    IsSolution k (parent t).1 (parent t).2.1 (parent t).2.2 := by
  obtain ⟨a, b, c⟩ := t
  obtain ⟨h1, h2, h3, h4, h5⟩ := h
  simp only at h1 h2 h3 h4 h5 hy
  have hab : |2 * a + b - 2 * c| * |2 * a + b - 2 * c| = (2 * a + b - 2 * c) * (2 * a + b - 2 * c) := abs_mul_abs_self _
  have hmx : max (2 * a + b - 2 * c) (-(2 * a + b - 2 * c)) = |2 * a + b - 2 * c| := rfl
  have hz : 0 < 3 * c - 2 * a - 2 * b := by
    by_contra hcon
    have : 3 * c * (3 * c) ≤ (2 * a + 2 * b) * (2 * a + 2 * b) := mul_self_le_mul_self (by omega) (by omega)
    nlinarith [mul_self_nonneg (a - b), mul_pos h3 h3]
  constructor
  · simp only [parent]; omega
  · simp only [parent]; exact min_le_max
  · simpa only [parent] using hz
  · simp only [parent, hmx]
    rcases le_total |2 * a + b - 2 * c| (a + 2 * b - 2 * c) with hle | hle
    · rw [min_eq_left hle, max_eq_right hle, hab]
      linear_combination h4
    · rw [min_eq_right hle, max_eq_left hle, hab]
      linear_combination h4
  · intro d d1 d2 d3
    simp only [parent, hmx] at d1 d2 d3
    have hxy : d ∣ 2 * a + b - 2 * c ∧ d ∣ a + 2 * b - 2 * c := by
      rcases le_total |2 * a + b - 2 * c| (a + 2 * b - 2 * c) with hle | hle
      · rw [min_eq_left hle] at d1
        rw [max_eq_right hle] at d2
        exact ⟨(dvd_abs _ _).1 d1, d2⟩
      · rw [min_eq_right hle] at d1
        rw [max_eq_left hle] at d2
        exact ⟨(dvd_abs _ _).1 d2, d1⟩
    obtain ⟨⟨x, hx⟩, ⟨y, hy⟩⟩ := hxy
    obtain ⟨z, hz⟩ := d3
    refine h5 d ⟨2 * x + y + 2 * z, ?_⟩ ⟨x + 2 * y + 2 * z, ?_⟩ ⟨2 * x + 2 * y + 3 * z, ?_⟩
    · linear_combination 2 * hx + hy + 2 * hz
    · linear_combination hx + 2 * hy + 2 * hz
    · linear_combination 2 * hx + 2 * hy + 3 * hz

/-! ### the loop over the growing vector -/

/-- the invariant of the loop -/
structure GenInv (k n : Int) (gens : List Triple) (i : Nat) (vt : List Triple) : Prop where
  le : i ≤ vt.length
  eq : vt = gens ++ (vt.take i).flatMap (kids n)
  good : ∀ t ∈ vt, Good k t
  nodup : vt.Nodup

/-- an upper bound for the number of triples below a triple -/
def weight (n : Int) (t : Triple) : Nat := 4 ^ (n - t.2.2 + 1).toNat

theorem weight_kids (k n : Int) (t : Triple) (h : Good k t) : ((kids n t).map (weight n)).sum + 1 ≤ weight n t := by
  have hlen : (kids n t).length ≤ 3 := by
    have hk : ∀ v, (keep n v).length ≤ 1 := by
      intro v
      unfold keep
      split_ifs <;> simp
    have hk' : ∀ (p : Prop) [Decidable p] (v : Triple), (if p then [] else keep n v).length ≤ 1 := by
      intro p _ v
      split_ifs
      · simp
      · exact hk v
    unfold kids
    rw [List.length_append, List.length_append]
    have := hk (kid0 t)
    have := hk' (t.1 = t.2.1) (kid1 t)
    have := hk' (t.1 = 0) (kid2 t)
    omega
  have hp : 0 < weight n t := by unfold weight; positivity
  rcases le_or_gt n t.2.2 with hn | hn
  · have : kids n t = [] := by
      rw [List.eq_nil_iff_forall_not_mem]
      intro u hu
      obtain ⟨_, h1, h2, _⟩ := kids_good k n t u h hu
      omega
    rw [this]
    simp
    omega
  · have hb : ∀ x ∈ (kids n t).map (weight n), x ≤ 4 ^ (n - t.2.2).toNat := by
      intro x hx
      obtain ⟨u, hu, rfl⟩ := List.mem_map.1 hx
      obtain ⟨_, h1, h2, _⟩ := kids_good k n t u h hu
      unfold weight
      exact Nat.pow_le_pow_right (by norm_num) (by omega)
    have hs := List.sum_le_card_nsmul _ _ hb
    rw [List.length_map, smul_eq_mul] at hs
    have e : weight n t = 4 ^ (n - t.2.2).toNat * 4 := by
      unfold weight
      rw [← pow_succ]
      congr 1
      omega
    have h1 : 0 < 4 ^ (n - t.2.2).toNat := by positivity
    rw [e]
    nlinarith

theorem generateLoop_spec (k n : Int) (gens : List Triple) (hroot : ∀ t ∈ gens, ¬ Good k (parent t)) (fuel i : Nat) (vt : List Triple)
    (hinv : GenInv k n gens i vt) (hf : ((vt.drop i).map (weight n)).sum < fuel) :
    ∃ r, generateLoop n fuel i vt = some r ∧ GenInv k n gens r.length r := by
  induction fuel generalizing i vt with
  | zero => omega
  | succ fuel ih =>
    rw [generateLoop]
    rcases Nat.lt_or_ge i vt.length with hi | hi
    · rw [List.getElem?_eq_getElem hi]
      simp only []
      have ht : vt[i] ∈ vt := List.getElem_mem hi
      have hg := hinv.good _ ht
      have hdrop : vt.drop i = vt[i] :: vt.drop (i + 1) := List.drop_eq_getElem_cons hi
      have htake : vt.take (i + 1) = vt.take i ++ [vt[i]] := by rw [List.take_succ_eq_append_getElem hi]
      rw [generateInner_eq]
      refine ih (i + 1) (vt ++ kids n vt[i]) ⟨by simp; omega, ?_, ?_, ?_⟩ ?_
      · rw [List.take_append_of_le_length (by omega), htake, List.flatMap_append, ← List.append_assoc, ← hinv.eq]
        simp
      · intro t h
        rcases List.mem_append.1 h with h | h
        · exact hinv.good t h
        · exact (kids_good k n _ _ hg h).1
      · rw [List.nodup_append]
        refine ⟨hinv.nodup, nodup_kids k n _ hg, ?_⟩
        rintro u hu v hv rfl
        obtain ⟨_, _, _, hpar⟩ := kids_good k n _ _ hg hv
        rw [hinv.eq] at hu
        rcases List.mem_append.1 hu with hu | hu
        · exact hroot u hu (by rw [hpar]; exact hg)
        · obtain ⟨w, hw, hu⟩ := List.mem_flatMap.1 hu
          obtain ⟨_, _, _, hpar'⟩ := kids_good k n _ _ (hinv.good w (List.mem_of_mem_take hw)) hu
          rw [hpar] at hpar'
          obtain ⟨j, hj, e⟩ := List.mem_iff_getElem.1 hw
          rw [List.getElem_take] at e
          rw [List.length_take] at hj
          have := (List.Nodup.getElem_inj_iff hinv.nodup (i := j) (j := i) (hi := by omega) (hj := hi)).1 (e.trans hpar'.symm)
          omega
      · rw [List.drop_append_of_le_length (by omega), List.map_append, List.sum_append]
        rw [hdrop, List.map_cons, List.sum_cons] at hf
        have := weight_kids k n _ hg
        omega
    · rw [List.getElem?_eq_none hi]
      have e : i = vt.length := le_antisymm hinv.le hi
      exact ⟨vt, rfl, e ▸ hinv⟩

theorem generate_spec (k n : Int) (gens : List Triple) (hnd : gens.Nodup) (hgood : ∀ t ∈ gens, Good k t)
    (hroot : ∀ t ∈ gens, ¬ Good k (parent t)) (hall : ∀ t, Good k t → t ∉ gens → Good k (parent t)) :
    ∃ r, generate n gens = some r ∧ r.Nodup ∧ ∀ t, t ∈ r ↔ Good k t ∧ (t.2.2 ≤ n ∨ t ∈ gens) := by
  obtain ⟨r, hr, hinv⟩ := generateLoop_spec k n gens hroot (gens.length * 4 ^ (n.toNat + 2) + 1) 0 gens
    ⟨by omega, by simp, hgood, hnd⟩ (by
      have hb : ∀ x ∈ (gens.drop 0).map (weight n), x ≤ 4 ^ (n.toNat + 2) := by
        intro x hx
        rw [List.drop_zero] at hx
        obtain ⟨u, hu, rfl⟩ := List.mem_map.1 hx
        have := (hgood u hu).sol.pos
        unfold weight
        exact Nat.pow_le_pow_right (by norm_num) (by omega)
      have hs := List.sum_le_card_nsmul _ _ hb
      rw [List.length_map, smul_eq_mul, List.drop_zero] at hs
      simp only [List.drop_zero] at hs ⊢
      omega)
  refine ⟨r, hr, hinv.nodup, fun t => ⟨fun h => ⟨hinv.good t h, ?_⟩, ?_⟩⟩
  · rw [hinv.eq, List.take_length] at h
    rcases List.mem_append.1 h with h | h
    · exact Or.inr h
    · obtain ⟨w, hw, hu⟩ := List.mem_flatMap.1 h
      exact Or.inl (kids_good k n _ _ (hinv.good w hw) hu).2.2.1
  · have key : ∀ (m : Nat) (t : Triple), t.2.2.toNat ≤ m → Good k t → t.2.2 ≤ n → t ∈ r := by
      intro m
      induction m with
      | zero => intro t hm hg _; have := hg.sol.pos; omega
      | succ m ih =>
        intro t hm hg hn
        rw [hinv.eq, List.take_length, List.mem_append]
        by_cases ht : t ∈ gens
        · exact Or.inl ht
        · right
          have hp := hall t hg ht
          have hk := mem_kids_parent k n t hp hg.sol.sorted hn
          have hlt := (kids_good k n _ _ hp hk).2.1
          exact List.mem_flatMap.2 ⟨parent t, ih _ (by omega) hp (by omega), hk⟩
    rintro ⟨hg, h | h⟩
    · exact key _ t (le_refl _) hg h
    · rw [hinv.eq]
      exact List.mem_append_left _ h

/-! ### the generators -/

theorem isGenerator_iff (k a b c : Int) (hk : 0 ≤ k) (h1 : 0 ≤ a) (h2 : a ≤ b) (h3 : 0 < c) (h4 : a * a + b * b + k = c * c) :
    isGenerator (a, b, c) = true ↔ IsSolution k a b c ∧ a + 2 * b < 2 * c := by
  have hz : 0 < 3 * c - 2 * a - 2 * b := by
    by_contra hcon
    have : 3 * c * (3 * c) ≤ (2 * a + 2 * b) * (2 * a + 2 * b) := mul_self_le_mul_self (by omega) (by omega)
    nlinarith [mul_self_nonneg (a - b), mul_pos h3 h3]
  rw [isGenerator]
  simp only [Bool.and_eq_true, minElement, next]
  rw [isPrimitive_iff a b c h1 (by omega) (by omega)]
  constructor
  · rintro ⟨⟨⟨h5, h6⟩, h7⟩, h8⟩
    have h6 := of_decide_eq_true h6
    have h8 := of_decide_eq_true h8
    exact ⟨⟨h1, h2, h3, h4, h5⟩, by omega⟩
  · rintro ⟨⟨_, _, _, _, h5⟩, hy⟩
    exact ⟨⟨⟨h5, decide_eq_true (by omega)⟩, decide_eq_true (by omega)⟩, decide_eq_true (by omega)⟩

/-- what one pair `(a, b)` gives -/
def genG (k a b : Int) : List Triple :=
  if Int.sqrt (a * a + b * b + k) * Int.sqrt (a * a + b * b + k) = a * a + b * b + k ∧
      isGenerator (a, b, Int.sqrt (a * a + b * b + k)) = true then [(a, b, Int.sqrt (a * a + b * b + k))] else []

theorem generators_eq (k : Int) (hk : 2 ≤ k) :
    generators k = (idx 0 (Int.sqrt k * 2) 0).flatMap fun a => (idx 0 (k.tdiv (max a 1) + a) a).flatMap fun b => genG k a b := by
  unfold generators
  rw [if_neg (by omega), if_neg (by omega), if_pos hk]
  rw [forTo_append (g := fun a => (idx 0 (k.tdiv (max a 1) + a) a).flatMap fun b => genG k a b)]
  · simp
  · intro a vg
    refine forTo_append _ _ (fun b s => ?_) _ _ _ _
    simp only [genG]
    split_ifs <;> simp

theorem int_sqrt_sq (c : Int) (hc : 0 ≤ c) : Int.sqrt (c * c) = c := by
  rw [Int.sqrt_eq]; omega

theorem mem_genG (k a b : Int) (hk : 0 ≤ k) (ha : 0 ≤ a) (hab : a ≤ b) (hpos : 0 < a * a + b * b + k) (x y z : Int) :
    (x, y, z) ∈ genG k a b ↔ x = a ∧ y = b ∧ IsSolution k a b z ∧ a + 2 * b < 2 * z := by
  unfold genG
  split_ifs with h
  · have hs0 : 0 ≤ Int.sqrt (a * a + b * b + k) := Int.sqrt_nonneg _
    have hs : 0 < Int.sqrt (a * a + b * b + k) := by
      rcases lt_or_eq_of_le hs0 with h' | h'
      · exact h'
      · rw [← h'] at h; omega
    have hg := (isGenerator_iff k a b _ hk ha hab hs h.1.symm).1 h.2
    rw [List.mem_singleton]
    simp only [Prod.mk.injEq]
    constructor
    · rintro ⟨e1, e2, e3⟩; rw [e3]; exact ⟨e1, e2, hg⟩
    · rintro ⟨e1, e2, e3, _⟩
      refine ⟨e1, e2, ?_⟩
      rw [e3.eq, int_sqrt_sq z (le_of_lt e3.pos)]
  · simp only [List.not_mem_nil, false_iff]
    rintro ⟨e1, e2, e3, e4⟩
    apply h
    rw [e3.eq, int_sqrt_sq z (le_of_lt e3.pos)]
    exact ⟨rfl, (isGenerator_iff k a b z hk ha hab e3.pos e3.eq).2 ⟨e3, e4⟩⟩

theorem generator_bounds (k a b c : Int) (h : IsSolution k a b c) (hy : a + 2 * b < 2 * c) :
    a * a + 6 * a + 1 ≤ 4 * k ∧ (b - a) * a ≤ k ∧ (a = 0 → b ≤ k) := by
  obtain ⟨h1, h2, h3, h4, _⟩ := h
  have hsq : (a + 2 * b + 1) * (a + 2 * b + 1) ≤ 2 * c * (2 * c) := mul_self_le_mul_self (by omega) (by omega)
  have hb : 0 ≤ a * (b - a) := mul_nonneg h1 (by omega)
  refine ⟨by nlinarith, by nlinarith, ?_⟩
  rintro rfl
  nlinarith

/-- For `k >= 2` the generators are the solutions with `a + 2 b < 2 c`: those that are not the image of a smaller solution.
Each is found once. -/
theorem C79_generators (k : Int) (hk : 2 ≤ k) :
    (generators k).Nodup ∧ ∀ a b c, (a, b, c) ∈ generators k ↔ IsSolution k a b c ∧ a + 2 * b < 2 * c := by
  have hp : ∀ a b : Int, 0 < a * a + b * b + k := fun a b => by nlinarith [mul_self_nonneg a, mul_self_nonneg b]
  rw [generators_eq k hk]
  constructor
  · refine nodup_flatMap_of _ _ (nodup_idx _ _ _) ?_ ?_
    · intro a ha
      have ha' := (mem_idx _ _ _ _).1 ha
      refine nodup_flatMap_of _ _ (nodup_idx _ _ _) ?_ ?_
      · intro b hb
        unfold genG
        split_ifs <;> simp
      · rintro b hb b' hb' ⟨x, y, z⟩ h h'
        have hb1 := (mem_idx _ _ _ _).1 hb
        have hb2 := (mem_idx _ _ _ _).1 hb'
        rw [mem_genG k a b (by omega) (by omega) (by omega) (hp a b)] at h
        rw [mem_genG k a b' (by omega) (by omega) (by omega) (hp a b')] at h'
        rw [← h.2.1, ← h'.2.1]
    · rintro a ha a' ha' ⟨x, y, z⟩ h h'
      obtain ⟨b, hb, h⟩ := List.mem_flatMap.1 h
      obtain ⟨b', hb', h'⟩ := List.mem_flatMap.1 h'
      rw [mem_idx] at ha ha' hb hb'
      rw [mem_genG k a b (by omega) (by omega) (by omega) (hp a b)] at h
      rw [mem_genG k a' b' (by omega) (by omega) (by omega) (hp a' b')] at h'
      rw [← h.1, ← h'.1]
  · intro x y z
    simp only [List.mem_flatMap]
    constructor
    · rintro ⟨a, ha, b, hb, h⟩
      rw [mem_idx] at ha hb
      rw [mem_genG k a b (by omega) (by omega) (by omega) (hp a b)] at h
      obtain ⟨rfl, rfl, h⟩ := h
      exact h
    · rintro ⟨h, hy⟩
      obtain ⟨b1, b2, b3⟩ := generator_bounds k x y z h hy
      have hx := h.nonneg
      have hs := h.sorted
      refine ⟨x, (mem_idx _ _ _ _).2 ⟨hx, ?_, by simp⟩, y, (mem_idx _ _ _ _).2 ⟨hs, ?_, by simp⟩, ?_⟩
      · obtain ⟨K, rfl⟩ := Int.eq_ofNat_of_zero_le (show 0 ≤ k by omega)
        have hlt : (K : Int) < (Int.sqrt K + 1) * (Int.sqrt K + 1) := by
          have h1 := Nat.lt_succ_sqrt K
          have h2 : Int.sqrt (K : Int) = (Nat.sqrt K : Int) := by simp [Int.sqrt]
          rw [h2]
          exact_mod_cast h1
        have hs0 : 0 ≤ Int.sqrt (K : Int) := Int.sqrt_nonneg _
        by_contra hcon
        nlinarith
      · have hm : (0 : Int) < max x 1 := by omega
        have : y - x ≤ k.tdiv (max x 1) := by
          rw [Int.tdiv_eq_ediv_of_nonneg (by omega), Int.le_ediv_iff_mul_le hm]
          rcases lt_or_eq_of_le hx with h0 | h0
          · rw [max_eq_left (by omega)]; exact b2
          · have := b3 h0.symm
            rw [← h0, max_eq_right (by omega)]
            omega
        omega
      · rw [mem_genG k x y (by omega) hx hs (hp x y)]
        exact ⟨rfl, rfl, h, hy⟩

theorem good_of_solution (k : Int) (t : Triple) (h : IsSolution k t.1 t.2.1 t.2.2) (hk : 0 ≤ k) (h0 : k ≤ 1 → 0 < t.1) : Good k t := by
  refine ⟨h, ?_, h0⟩
  have h1 := h.eq
  have h2 := h.pos
  have h3 := h.nonneg
  have h4 := h.sorted
  by_contra hcon
  have : t.2.2 * t.2.2 ≤ t.2.1 * t.2.1 := mul_self_le_mul_self (by omega) (by omega)
  have hz : 0 ≤ t.1 * t.1 := mul_self_nonneg _
  have : k = 0 := by omega
  have := h0 (by omega)
  nlinarith

/-- A solution with a zero leg exists for `k = 0` and `k = 1` only as `(0, 1, 1)` and `(0, 0, 1)`. -/
theorem zero_leg (k b c : Int) (hk : k = 0 ∨ k = 1) (h : IsSolution k 0 b c) : c = 1 ∧ b = 1 - k := by
  obtain ⟨_, h2, h3, h4, h5⟩ := h
  rcases hk with rfl | rfl
  · have e : b = c := by nlinarith
    have := h5 b (by simp) (dvd_refl b) (by rw [e])
    have h1 : b ∣ 1 := this
    have := Int.le_of_dvd (by norm_num) h1
    omega
  · have hc1 : c = 1 := by
      have hb : b < c := by nlinarith
      have : b = 0 := by
        by_contra hne
        have : 0 < b := by omega
        nlinarith
      nlinarith
    subst hc1
    refine ⟨rfl, ?_⟩
    nlinarith

/-- `generate_pythagorean_triples(n, pythagorean_triples_generators(k))` terminates.  It returns every primitive solution of
`a^2 + b^2 + k = c^2` with `0 <= a <= b` and `c <= n` exactly once; for `k = 0` and `k = 1` only those with `a > 0`.  The only
other triples in the result are generators. -/
theorem C79_generate (k n : Int) (hk : 0 ≤ k) :
    ∃ r, generate n (generators k) = some r ∧ r.Nodup ∧
      ∀ a b c, (a, b, c) ∈ r ↔ IsSolution k a b c ∧ (k ≤ 1 → 0 < a) ∧ (c ≤ n ∨ (a, b, c) ∈ generators k) := by
  have key : (generators k).Nodup ∧ (∀ t ∈ generators k, Good k t) ∧ (∀ t ∈ generators k, ¬ Good k (parent t)) ∧
      (∀ t, Good k t → t ∉ generators k → Good k (parent t)) := by
    rcases le_or_gt 2 k with h2 | h2
    · obtain ⟨hn, hm⟩ := C79_generators k h2
      refine ⟨hn, ?_, ?_, ?_⟩
      · rintro ⟨a, b, c⟩ h
        exact good_of_solution k _ ((hm a b c).1 h).1 hk (fun h => by omega)
      · rintro ⟨a, b, c⟩ h hp
        have h1 := ((hm a b c).1 h).2
        have := hp.sol.nonneg
        simp only [parent] at this
        omega
      · rintro ⟨a, b, c⟩ h hnm
        have hy : ¬ (a + 2 * b < 2 * c) := fun hy => hnm ((hm a b c).2 ⟨h.sol, hy⟩)
        exact good_of_solution k _ (parent_solution k hk _ h.sol (by simp only; omega)) hk (fun h => by omega)
    · have hk01 : k = 0 ∨ k = 1 := by omega
      have hsmall : ∀ t, Good k t → t ∉ generators k → Good k (parent t) := by
        rintro ⟨a, b, c⟩ h hnm
        have hpos := h.zero (by omega)
        have hsol := h.sol
        have hs := h.sol.sorted
        have hq := h.sol.eq
        have hc := h.sol.pos
        simp only at hpos hs hq hc
        have hy : 2 * c ≤ a + 2 * b := by
          by_contra hcon
          have : (a + 2 * b + 1) * (a + 2 * b + 1) ≤ 2 * c * (2 * c) := mul_self_le_mul_self (by omega) (by omega)
          nlinarith
        have hp := parent_solution k hk (a, b, c) hsol hy
        refine good_of_solution k _ hp hk (fun _ => ?_)
        by_contra hcon
        have h0 := hp.nonneg
        have hz : (parent (a, b, c)).1 = 0 := by omega
        rw [hz] at hp
        obtain ⟨z1, z2⟩ := zero_leg k _ _ hk01 hp
        apply hnm
        simp only [parent] at hz z1 z2
        rcases hk01 with rfl | rfl
        · have : generators 0 = [(3, 4, 5)] := by decide
          rw [this, List.mem_singleton, Prod.mk.injEq, Prod.mk.injEq]
          omega
        · have : generators 1 = [(2, 2, 3)] := by decide
          rw [this, List.mem_singleton, Prod.mk.injEq, Prod.mk.injEq]
          omega
      rcases hk01 with rfl | rfl
      · have e : generators 0 = [(3, 4, 5)] := by decide
        refine ⟨by rw [e]; simp, ?_, ?_, hsmall⟩
        · rw [e]
          intro t ht
          rw [List.mem_singleton.1 ht]
          refine ⟨⟨by decide, by decide, by decide, by decide, ?_⟩, by decide, by decide⟩
          intro d d1 d2 _
          have := Int.dvd_sub d2 d1
          simpa using this
        · rw [e]
          intro t ht
          rw [List.mem_singleton.1 ht]
          intro hp
          exact absurd hp.lt (by decide)
      · have e : generators 1 = [(2, 2, 3)] := by decide
        refine ⟨by rw [e]; simp, ?_, ?_, hsmall⟩
        · rw [e]
          intro t ht
          rw [List.mem_singleton.1 ht]
          refine ⟨⟨by decide, by decide, by decide, by decide, ?_⟩, by decide, by decide⟩
          intro d _ d2 d3
          have := Int.dvd_sub d3 d2
          simpa using this
        · rw [e]
          intro t ht
          rw [List.mem_singleton.1 ht]
          intro hp
          exact absurd (hp.zero (by decide)) (by decide)
  obtain ⟨k1, k2, k3, k4⟩ := key
  obtain ⟨r, hr, hn, hm⟩ := generate_spec k n (generators k) k1 k2 k3 k4
  refine ⟨r, hr, hn, fun a b c => ?_⟩
  rw [hm (a, b, c)]
  constructor
  · rintro ⟨hg, h⟩
    exact ⟨hg.sol, hg.zero, h⟩
  · rintro ⟨hs, h0, h⟩
    exact ⟨good_of_solution k _ hs hk h0, h⟩

/-- The solutions of `a^2 + b^2 + 7 = c^2` up to 15. -/
example : generators 7 = [(0, 3, 4), (1, 1, 3), (3, 3, 5)] ∧
    generate 15 (generators 7) = some [(0, 3, 4), (1, 1, 3), (3, 3, 5), (2, 5, 6), (5, 7, 9), (9, 9, 13), (7, 13, 15), (4, 11, 12)] ∧
    generate 30 (generators 0) = some [(3, 4, 5), (8, 15, 17), (5, 12, 13), (20, 21, 29), (7, 24, 25)] := by decide +kernel

/-- The generators are returned even when they are beyond the limit. -/
example : generate 3 (generators 7) = some [(0, 3, 4), (1, 1, 3), (3, 3, 5)] := by decide +kernel

/-- With the degenerate triple `(0, 1, 1)` as the generator the loop never ends: it is its own image. -/
theorem C79_degenerate_generator (fuel : Nat) : generateLoop 1 fuel 0 [(0, 1, 1)] = none := by
  have key : ∀ fuel i, generateLoop 1 fuel i (List.replicate (i + 1) (0, 1, 1)) = none := by
    intro fuel
    induction fuel with
    | zero => intro i; rfl
    | succ fuel ih =>
      intro i
      rw [generateLoop, List.getElem?_eq_getElem (by simp)]
      simp only [List.getElem_replicate]
      have e : generateInner 1 (0, 1, 1) matrices (List.replicate (i + 1) (0, 1, 1)) = List.replicate (i + 1 + 1) (0, 1, 1) := by
        rw [generateInner_eq, show kids 1 (0, 1, 1) = [(0, 1, 1)] by decide +kernel, List.replicate_succ' (n := i + 1)]
      rw [e]
      exact ih (i + 1)
  exact key fuel 0

end Altruct.Triples
