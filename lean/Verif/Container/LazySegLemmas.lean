/-
C21: lazy segment tree.
-/
import Verif.Container.LazySegModel
import Verif.Container.SegTreeProps
import Mathlib.Algebra.Group.Hom.Defs

namespace Altruct.LazySeg

open SegTree (Anc anc_half Cov cov_half)

/-! ### Specification -/

section Spec
variable {T M : Type*} [Monoid M]

/-- Specification: what the functors must satisfy.  `val t` is the combined value of the
elements below a node (with the pending updates of the node itself applied), `pend t` the
pending update of a node, which is still to be applied to the elements below its children. -/
structure Laws (fup : T → T → T → T) (fdown : T → T → T → T × T × T) (id : T)
    (val : T → M) (pend : T → Monoid.End M) : Prop where
  id_val : val id = 1
  id_pend : pend id = 1
  up : ∀ p l r, pend p = 1 → val (fup p l r) = val l * val r ∧ pend (fup p l r) = 1
  down_parent : ∀ p l r, val (fdown p l r).1 = val p ∧ pend (fdown p l r).1 = 1
  down_left : ∀ p l r, val (fdown p l r).2.1 = pend p (val l) ∧ pend (fdown p l r).2.1 = pend p * pend l
  down_right : ∀ p l r, val (fdown p l r).2.2 = pend p (val r) ∧ pend (fdown p l r).2.2 = pend p * pend r

/-- Specification: the functor `f` given to `update` realises the element-wise function
`g` on elements satisfying `Leaf`: if it accepts a node, it applies to the node some
(endomorphic) update that acts as `g` on every element that can be below that node; if it
rejects a node it does not change it; it accepts single elements. -/
structure Realises (Leaf : M → Prop) (val : T → M) (pend : T → Monoid.End M)
    (f : T → Bool × T) (g : M → M) : Prop where
  leaf : ∀ x, Leaf x → Leaf (g x)
  accept_leaf : ∀ t, Leaf (val t) → (f t).1 = true
  reject : ∀ t, (f t).1 = false → val (f t).2 = val t ∧ pend (f t).2 = pend t
  accept : ∀ t, (f t).1 = true → ∃ φ : Monoid.End M, val (f t).2 = φ (val t) ∧ pend (f t).2 = φ * pend t ∧
    ∀ L : List M, (∀ x ∈ L, Leaf x) → L.prod = val t → ∀ x ∈ L, φ x = g x

end Spec

variable {T M : Type*} [Monoid M] {fup : T → T → T → T} {fdown : T → T → T → T × T × T} {id : T}
  {val : T → M} {pend : T → Monoid.End M}

/-- The composition of the pending updates of `i` and all its ancestors. -/
def act (pend : T → Monoid.End M) (g : Nat → T) (i : Nat) : Monoid.End M :=
  if 0 < i then act pend g (i / 2) * pend (g i) else 1
termination_by i
decreasing_by omega

theorem act_zero (g : Nat → T) : act pend g 0 = 1 := by rw [act]; simp
theorem act_pos (g : Nat → T) {i : Nat} (h : 0 < i) : act pend g i = act pend g (i / 2) * pend (g i) := by
  rw [act, if_pos h]

theorem act_clear (g : Nat → T) (x : Nat) (h : ∀ y, 0 < y → Anc y x → pend (g y) = 1) :
    act pend g (x / 2) = 1 := by
  induction x using Nat.strong_induction_on with
  | _ x ih =>
    by_cases h0 : 0 < x / 2
    · rw [act_pos g h0, h _ h0 (anc_half.mpr (Or.inl rfl)), mul_one]
      exact ih (x / 2) (by omega) (fun y hy ha => h y hy (anc_half.mpr (Or.inr ha)))
    · rw [show x / 2 = 0 by omega, act_zero]

/-- Only the pending updates matter. -/
theorem act_congr {g g' : Nat → T} (h : ∀ i, pend (g i) = pend (g' i)) (i : Nat) :
    act pend g i = act pend g' i := by
  induction i using Nat.strong_induction_on with
  | _ i ih =>
    by_cases h0 : 0 < i
    · rw [act_pos g h0, act_pos g' h0, h, ih (i / 2) (by omega)]
    · rw [show i = 0 by omega, act_zero, act_zero]

/-- `z` is in the subtree of `x`. -/
def Sub (z x : Nat) : Prop := ∃ j, z / 2 ^ j = x

theorem sub_half {z x : Nat} : Sub z x ↔ z = x ∨ Sub (z / 2) x := by
  constructor
  · rintro ⟨j, hj⟩
    cases j with
    | zero => left; simpa using hj
    | succ j => right; exact ⟨j, by rw [← hj, Nat.div_div_eq_div_mul, ← pow_succ']⟩
  · rintro (h | ⟨j, hj⟩)
    · exact ⟨0, by simpa using h⟩
    · exact ⟨j + 1, by rw [← hj, Nat.div_div_eq_div_mul, ← pow_succ']⟩

theorem sub_le {z x : Nat} (h : Sub z x) : x ≤ z := by
  obtain ⟨j, rfl⟩ := h; exact Nat.div_le_self _ _

theorem act_update_out (g : Nat → T) (x : Nat) (t : T) (y : Nat) (hy : ¬ Sub y x) :
    act pend (Function.update g x t) y = act pend g y := by
  induction y using Nat.strong_induction_on with
  | _ y ih =>
    by_cases h0 : 0 < y
    · rw [act_pos _ h0, act_pos _ h0, ih (y / 2) (by omega) (fun hc => hy (sub_half.mpr (Or.inr hc))),
        Function.update_of_ne (fun hc => hy (sub_half.mpr (Or.inl hc)))]
    · rw [show y = 0 by omega, act_zero, act_zero]

theorem act_update_in (g : Nat → T) (x : Nat) (hx : 0 < x) (t : T) (φ : Monoid.End M)
    (ht : pend t = φ * pend (g x)) (hc : act pend g (x / 2) = 1) (y : Nat) (hy : Sub y x) :
    act pend (Function.update g x t) y = φ * act pend g y := by
  induction y using Nat.strong_induction_on with
  | _ y ih =>
    have h0 : 0 < y := lt_of_lt_of_le hx (sub_le hy)
    by_cases hyx : y = x
    · subst hyx
      rw [act_pos _ h0, act_pos _ h0, Function.update_self, ht, hc,
        act_update_out g y t (y / 2) (fun h => by have := sub_le h; omega), hc, one_mul, one_mul]
    · have hs : Sub (y / 2) x := (sub_half.mp hy).resolve_left hyx
      rw [act_pos _ h0, act_pos _ h0, ih (y / 2) (by omega) hs, Function.update_of_ne hyx, mul_assoc]

/-- The nodes satisfy their equation, except those in `Q`. -/
def Inv (val : T → M) (pend : T → Monoid.End M) (w : Nat) (Q : Nat → Prop) (g : Nat → T) : Prop :=
  ∀ i, 0 < i → i < w → ¬ Q i → val (g i) = pend (g i) (val (g (2 * i)) * val (g (2 * i + 1)))

/-- The tree state: node equations except in `Q`, nothing pending at the nodes `C`,
elements `a`. -/
structure Tree (val : T → M) (pend : T → Monoid.End M) (v : List T) (w : Nat) (Q C : Nat → Prop)
    (a : Nat → M) : Prop where
  ex : ∃ g, Rep v (2 * w) g ∧ val (g 0) = 1 ∧ pend (g 0) = 1 ∧ Inv val pend w Q g ∧
    (∀ i, 0 < i → i < w → C i → pend (g i) = 1) ∧
    ∀ j, j < w → act pend g ((w + j) / 2) (val (g (w + j))) = a j

theorem Tree.size {v : List T} {w : Nat} {Q C : Nat → Prop} {a : Nat → M} (h : Tree val pend v w Q C a) :
    size v = w := by
  obtain ⟨g, r, -⟩ := h.ex
  unfold LazySeg.size; rw [r.len]; omega

theorem Tree.len {v : List T} {w : Nat} {Q C : Nat → Prop} {a : Nat → M} (h : Tree val pend v w Q C a) :
    v.length = 2 * w := by
  obtain ⟨g, r, -⟩ := h.ex
  exact r.len

theorem Tree.mono {v : List T} {w : Nat} {Q Q' C C' : Nat → Prop} {a a' : Nat → M} (h : Tree val pend v w Q C a)
    (hq : ∀ i, 0 < i → i < w → Q i → Q' i) (hc : ∀ i, 0 < i → i < w → C' i → C i)
    (ha : ∀ i, i < w → a i = a' i) : Tree val pend v w Q' C' a' := by
  obtain ⟨g, r, z, z', inv, cl, el⟩ := h.ex
  exact ⟨g, r, z, z', fun i h0 hi hn => inv i h0 hi (fun hh => hn (hq i h0 hi hh)),
    fun i h0 hi hh => cl i h0 hi (hc i h0 hi hh), fun j hj => by rw [el j hj, ha j hj]⟩

/-- Closed upwards. -/
def UpClosed (C : Nat → Prop) : Prop := ∀ i, 0 < i / 2 → C i → C (i / 2)

/-- update_down keeps the elements and clears the node. -/
theorem updateDown_spec (law : Laws fup fdown id val pend) {v : List T} {w : Nat} {Q C : Nat → Prop} {a : Nat → M}
    (h : Tree val pend v w Q C a) (hC : UpClosed C) (x : Nat) (h0 : 0 < x) (hx : x < w) :
    ∃ v', updateDown fdown v x = some v' ∧ Tree val pend v' w Q (fun j => C j ∨ j = x) a := by
  obtain ⟨g, r, z, z', inv, cl, el⟩ := h.ex
  generalize hd : fdown (g x) (g (2 * x)) (g (2 * x + 1)) = d
  have hp := law.down_parent (g x) (g (2 * x)) (g (2 * x + 1))
  have hl := law.down_left (g x) (g (2 * x)) (g (2 * x + 1))
  have hr := law.down_right (g x) (g (2 * x)) (g (2 * x + 1))
  rw [hd] at hp hl hr
  let g' := Function.update (Function.update (Function.update g x d.1) (2 * x) d.2.1) (2 * x + 1) d.2.2
  have r' : Rep (((v.set x d.1).set (2 * x) d.2.1).set (2 * x + 1) d.2.2) (2 * w) g' :=
    ((r.set _ _).set _ _).set _ _
  have gx : g' x = d.1 := by
    simp only [g']
    rw [Function.update_of_ne (by omega), Function.update_of_ne (by omega), Function.update_self]
  have gl : g' (2 * x) = d.2.1 := by
    simp only [g']
    rw [Function.update_of_ne (by omega), Function.update_self]
  have gr : g' (2 * x + 1) = d.2.2 := by simp only [g']; rw [Function.update_self]
  have go : ∀ y, y ≠ x → y ≠ 2 * x → y ≠ 2 * x + 1 → g' y = g y := by
    intro y h1 h2 h3
    simp only [g']
    rw [Function.update_of_ne h3, Function.update_of_ne h2, Function.update_of_ne h1]
  have hact : ∀ y, y ≠ x → act pend g' y = act pend g y := by
    intro y
    induction y using Nat.strong_induction_on with
    | _ y ih =>
      intro hy
      by_cases hy0 : 0 < y
      · rw [act_pos g' hy0, act_pos g hy0]
        by_cases hyx : y / 2 = x
        · rw [hyx, act_pos g' h0, act_pos g h0, gx, hp.2, mul_one, ih (x / 2) (by omega) (by omega)]
          have : y = 2 * x ∨ y = 2 * x + 1 := by omega
          rcases this with rfl | rfl
          · rw [gl, hl.2, mul_assoc]
          · rw [gr, hr.2, mul_assoc]
        · rw [ih (y / 2) (by omega) hyx, go y hy (by omega) (by omega)]
      · rw [show y = 0 by omega, act_zero, act_zero]
  have hactx : act pend g' x = act pend g (x / 2) := by
    rw [act_pos g' h0, gx, hp.2, mul_one, hact (x / 2) (by omega)]
  refine ⟨_, ?_, ⟨g', r', ?_, ?_, ?_, ?_, ?_⟩⟩
  · unfold updateDown
    rw [Nat.add_zero, r.rd (by omega), r.rd (by omega), r.rd (by omega)]
    simp only [hd]
    rw [r.wr (by omega), Option.bind_some, (r.set _ _).wr (by omega), Option.bind_some,
      ((r.set _ _).set _ _).wr (by omega)]
  · rw [go 0 (by omega) (by omega) (by omega)]; exact z
  · rw [go 0 (by omega) (by omega) (by omega)]; exact z'
  · intro i hi0 hi hQ
    have e := inv i hi0 hi hQ
    by_cases hix : i = x
    · subst hix
      rw [gx, gl, gr, hp.1, hp.2, hl.1, hr.1, e]
      simp
    · have hii : g' (2 * i) = g (2 * i) ∨ (2 * i = x) := by
        by_cases h1 : 2 * i = x
        · exact Or.inr h1
        · exact Or.inl (go _ h1 (by omega) (by omega))
      have vl : val (g' (2 * i)) = val (g (2 * i)) := by
        rcases hii with h1 | h1
        · rw [h1]
        · rw [h1, gx, hp.1]
      have vr : val (g' (2 * i + 1)) = val (g (2 * i + 1)) := by
        by_cases h1 : 2 * i + 1 = x
        · rw [h1, gx, hp.1]
        · rw [go _ h1 (by omega) (by omega)]
      rw [vl, vr]
      by_cases h1 : i = 2 * x
      · rw [h1] at e ⊢
        rw [gl, hl.1, hl.2, e]; rfl
      · by_cases h2 : i = 2 * x + 1
        · rw [h2] at e ⊢
          rw [gr, hr.1, hr.2, e]; rfl
        · rw [go i hix h1 h2, e]
  · intro i hi0 hi hc
    by_cases hix : i = x
    · subst hix; rw [gx, hp.2]
    · have hci : C i := hc.resolve_right hix
      by_cases h1 : i / 2 = x
      · have hcx : pend (g x) = 1 := by
          rw [← h1]; exact cl _ (by omega) (by omega) (hC i (by omega) hci)
        have : i = 2 * x ∨ i = 2 * x + 1 := by omega
        rcases this with rfl | rfl
        · rw [gl, hl.2, hcx, one_mul]; exact cl _ hi0 hi hci
        · rw [gr, hr.2, hcx, one_mul]; exact cl _ hi0 hi hci
      · rw [go i hix (by omega) (by omega)]; exact cl i hi0 hi hci
  · intro j hj
    rw [← el j hj]
    by_cases h1 : (w + j) / 2 = x
    · rw [h1, hactx, act_pos g h0]
      have : w + j = 2 * x ∨ w + j = 2 * x + 1 := by omega
      rcases this with h2 | h2
      · rw [h2, gl, hl.1]; rfl
      · rw [h2, gr, hr.1]; rfl
    · rw [hact _ h1]
      by_cases h2 : w + j = x
      · omega
      · rw [go _ h2 (by omega) (by omega)]

/-- update_up restores the equation of a node with nothing pending. -/
theorem updateUp_spec (law : Laws fup fdown id val pend) {v : List T} {w : Nat} {Q C : Nat → Prop} {a : Nat → M}
    (h : Tree val pend v w Q C a) (x : Nat) (h0 : 0 < x) (hx : x < w) (hc : C x) :
    ∃ v', updateUp fup v x = some v' ∧ Tree val pend v' w (fun j => (Q j ∧ j ≠ x) ∨ j = x / 2) C a := by
  obtain ⟨g, r, z, z', inv, cl, el⟩ := h.ex
  have hu := law.up (g x) (g (2 * x)) (g (2 * x + 1)) (cl x h0 hx hc)
  have hpe : ∀ y, pend (Function.update g x (fup (g x) (g (2 * x)) (g (2 * x + 1))) y) = pend (g y) := by
    intro y
    by_cases hy : y = x
    · subst hy; rw [Function.update_self, hu.2, cl y h0 hx hc]
    · rw [Function.update_of_ne hy]
  refine ⟨_, ?_, ⟨_, r.set x (fup (g x) (g (2 * x)) (g (2 * x + 1))), ?_, ?_, ?_, ?_, ?_⟩⟩
  · unfold updateUp
    rw [Nat.add_zero, r.rd (by omega), r.rd (by omega), r.rd (by omega)]
    exact r.wr (by omega) _
  · rw [Function.update_of_ne (by omega)]; exact z
  · rw [hpe]; exact z'
  · intro i hi0 hi hn
    rw [hpe]
    by_cases hix : i = x
    · subst hix
      rw [Function.update_self, Function.update_of_ne (by omega), Function.update_of_ne (by omega), hu.1,
        cl i h0 hx hc]
      rfl
    · have : i ≠ x / 2 := fun hc => hn (Or.inr hc)
      rw [Function.update_of_ne hix, Function.update_of_ne (by omega), Function.update_of_ne (by omega)]
      exact inv i hi0 hi (fun hq => hn (Or.inl ⟨hq, hix⟩))
  · intro i hi0 hi hci
    rw [hpe]; exact cl i hi0 hi hci
  · intro j hj
    rw [act_congr hpe, Function.update_of_ne (by omega)]
    exact el j hj

theorem updateToRoot_spec (law : Laws fup fdown id val pend) (x : Nat) :
    ∀ {v : List T} {w : Nat} {Q C : Nat → Prop} {a : Nat → M}, Tree val pend v w Q C a →
    x < 2 * w → (∀ y, 0 < y → Anc y x → C y) →
    ∃ v', updateToRoot fup v x = some v' ∧ Tree val pend v' w (fun j => Q j ∧ ¬ Anc j x) C a := by
  induction x using Nat.strong_induction_on with
  | _ x ih =>
    intro v w Q C a h hx hC
    rw [updateToRoot]
    by_cases h0 : 0 < x / 2
    · rw [if_pos h0]
      obtain ⟨v1, e1, t1⟩ := updateUp_spec law h (x / 2) h0 (by omega) (hC _ h0 (anc_half.mpr (Or.inl rfl)))
      obtain ⟨v2, e2, t2⟩ := ih (x / 2) (by omega) t1 (by omega)
        (fun y hy ha => hC y hy (anc_half.mpr (Or.inr ha)))
      refine ⟨v2, by rw [e1, Option.bind_some, e2], t2.mono ?_ (fun _ _ _ h => h) (fun _ _ => rfl)⟩
      rintro j hj0 hj ⟨h1 | h1, h2⟩
      · refine ⟨h1.1, fun hc => ?_⟩
        rcases anc_half.mp hc with hc | hc
        · exact h1.2 hc
        · exact h2 hc
      · exact absurd (anc_half.mpr (Or.inl h1)) h2
    · rw [if_neg h0]
      refine ⟨v, rfl, h.mono ?_ (fun _ _ _ h => h) (fun _ _ => rfl)⟩
      intro j hj0 hj hq
      refine ⟨hq, ?_⟩
      rintro ⟨k, hk⟩
      have : x / 2 ^ (k + 1) ≤ x / 2 := by
        rw [pow_succ', ← Nat.div_div_eq_div_mul]; exact Nat.div_le_self _ _
      omega

/-! ### Propagation from the root -/

theorem heightLoop_spec (sz h : Nat) (hs : 0 < sz) (hh : h = 0 ∨ 2 ^ (h - 1) ≤ sz) :
    ∃ d, heightLoop sz h = d + 1 ∧ 2 ^ d ≤ sz ∧ sz < 2 ^ (d + 1) := by
  fun_induction heightLoop sz h with
  | case1 h hle ih => exact ih (Or.inr (by simpa using hle))
  | case2 h hgt =>
    cases h with
    | zero => simp at hgt; omega
    | succ d => exact ⟨d, rfl, by simpa using hh, by omega⟩

theorem calcHeight_spec (sz : Nat) (hs : 0 < sz) : 2 ^ calcHeight sz ≤ sz ∧ sz < 2 ^ (calcHeight sz + 1) := by
  obtain ⟨d, h1, h2, h3⟩ := heightLoop_spec sz 0 hs (Or.inl rfl)
  have : calcHeight sz = d := by rw [calcHeight, h1]; rfl
  rw [this]; exact ⟨h2, h3⟩

theorem calcHeight_zero : calcHeight 0 = 0 := by
  rw [calcHeight, heightLoop]; simp

theorem fromRootLoop_spec (law : Laws fup fdown id val pend) (x : Nat) {w : Nat} (hx : x < 2 * w) (h : Nat)
    (hh : h = 0 ∨ 2 ^ h ≤ x) : ∀ {v : List T} {Q C : Nat → Prop} {a : Nat → M}, Tree val pend v w Q C a →
    UpClosed C → (∀ j, h ≤ j → 0 < x / 2 ^ (j + 1) → C (x / 2 ^ (j + 1))) →
    ∃ v' C', fromRootLoop fdown x h v = some v' ∧ Tree val pend v' w Q C' a ∧ UpClosed C' ∧
      ∀ y, 0 < y → (C' y ↔ C y ∨ Anc y x) := by
  induction h with
  | zero =>
    intro v Q C a t hC hp
    refine ⟨v, C, rfl, t, hC, fun y hy => ⟨Or.inl, ?_⟩⟩
    rintro (h | ⟨j, hj⟩)
    · exact h
    · rw [← hj]; exact hp j (by omega) (by omega)
  | succ h ih =>
    intro v Q C a t hC hp
    have hle : 2 ^ (h + 1) ≤ x := by rcases hh with h0 | h0 <;> [omega; exact h0]
    have hpos : 0 < x / 2 ^ (h + 1) := Nat.div_pos hle (Nat.two_pow_pos _)
    have hlt : x / 2 ^ (h + 1) < w := by
      have : x / 2 ^ (h + 1) ≤ x / 2 := by
        rw [pow_succ', ← Nat.div_div_eq_div_mul]; exact Nat.div_le_self _ _
      omega
    obtain ⟨v1, e1, t1⟩ := updateDown_spec law t hC _ hpos hlt
    have hC1 : UpClosed (fun j => C j ∨ j = x / 2 ^ (h + 1)) := by
      rintro i hi (hc | rfl)
      · exact Or.inl (hC i hi hc)
      · left
        rw [Nat.div_div_eq_div_mul, ← pow_succ] at hi ⊢
        exact hp (h + 1) (le_refl _) hi
    obtain ⟨v2, C2, e2, t2, u2, c2⟩ := ih (Or.inr (le_trans (Nat.pow_le_pow_right (by omega) (by omega)) hle)) t1 hC1 (by
      intro j hj hpos'
      by_cases hjh : j = h
      · right; rw [hjh]
      · left; exact hp j (by omega) hpos')
    refine ⟨v2, C2, by rw [fromRootLoop, e1, Option.bind_some, e2], t2, u2, fun y hy => ?_⟩
    rw [c2 y hy]
    constructor
    · rintro ((h1 | h1) | h1)
      · exact Or.inl h1
      · exact Or.inr ⟨h, h1.symm⟩
      · exact Or.inr h1
    · rintro (h1 | h1)
      · exact Or.inl (Or.inl h1)
      · exact Or.inr h1

theorem updateFromRoot_spec (law : Laws fup fdown id val pend) (x : Nat) {w : Nat} (hx : x < 2 * w)
    {v : List T} {Q C : Nat → Prop} {a : Nat → M} (t : Tree val pend v w Q C a) (hC : UpClosed C) :
    ∃ v' C', updateFromRoot fdown v x = some v' ∧ Tree val pend v' w Q C' a ∧ UpClosed C' ∧
      ∀ y, 0 < y → (C' y ↔ C y ∨ Anc y x) := by
  unfold updateFromRoot
  by_cases h0 : x = 0
  · subst h0
    rw [calcHeight_zero]
    exact fromRootLoop_spec law 0 hx 0 (Or.inl rfl) t hC (by intro j _ h; simp at h)
  · obtain ⟨h1, h2⟩ := calcHeight_spec x (by omega)
    refine fromRootLoop_spec law x hx (calcHeight x) (Or.inr h1) t hC ?_
    intro j hj hpos
    exfalso
    have : x < 2 ^ (j + 1) := lt_of_lt_of_le h2 (Nat.pow_le_pow_right (by omega) (by omega))
    rw [Nat.div_eq_of_lt this] at hpos
    omega

/-- The strict ancestors of `top`: the nodes with `n` strictly inside their range. -/
def Cut (n y : Nat) : Prop := ∃ h, n / 2 ^ h = y ∧ n % 2 ^ h ≠ 0

theorem topLoop_spec (n : Nat) (hn : 0 < n) : topLoop n % 2 = 1 ∧ topLoop n ≤ n ∧ 0 < topLoop n ∧
    ∀ y, 0 < y → (Anc y (topLoop n) ↔ Cut n y) := by
  fun_induction topLoop n with
  | case1 i h ih =>
    obtain ⟨h1, h2, h3, h4⟩ := ih (by omega)
    refine ⟨h1, by omega, h3, fun y hy => ?_⟩
    rw [h4 y hy]
    constructor
    · rintro ⟨k, hk, hk'⟩
      refine ⟨k + 1, by rw [← hk, Nat.div_div_eq_div_mul, ← pow_succ'], ?_⟩
      have : i % 2 ^ (k + 1) = i % 2 + 2 * (i / 2 % 2 ^ k) := by
        rw [pow_succ', Nat.mod_mul]
      omega
    · rintro ⟨k, hk, hk'⟩
      cases k with
      | zero => simp [Nat.mod_one] at hk'
      | succ k =>
        refine ⟨k, by rw [← hk, Nat.div_div_eq_div_mul, ← pow_succ'], ?_⟩
        have : i % 2 ^ (k + 1) = i % 2 + 2 * (i / 2 % 2 ^ k) := by
          rw [pow_succ', Nat.mod_mul]
        omega
  | case2 i h =>
    refine ⟨by omega, le_refl _, hn, fun y hy => ?_⟩
    constructor
    · rintro ⟨k, hk⟩
      refine ⟨k + 1, hk, ?_⟩
      have : i % 2 ^ (k + 1) = i % 2 + 2 * (i / 2 % 2 ^ k) := by
        rw [pow_succ', Nat.mod_mul]
      omega
    · rintro ⟨k, hk, hk'⟩
      cases k with
      | zero => simp [Nat.mod_one] at hk'
      | succ k => exact ⟨k, hk⟩

theorem anc_pred {t y : Nat} (h : t % 2 = 1) : Anc y (t - 1) ↔ Anc y t := by
  rw [anc_half, anc_half (x := t), show (t - 1) / 2 = t / 2 by omega]

/-- The nodes cleared by propagate_down. -/
def Cuts (w b e y : Nat) : Prop := Cut (w + b) y ∨ Cut (w + e) y

theorem propagateDown_spec (law : Laws fup fdown id val pend) {w : Nat} (hw : 0 < w) {v : List T} {Q : Nat → Prop}
    {a : Nat → M} (t : Tree val pend v w Q (fun _ => False) a) (b e : Nat) (hb : b ≤ w) (he : e ≤ w) :
    ∃ v' C, propagateDown fdown v b e = some v' ∧ Tree val pend v' w Q C a ∧ UpClosed C ∧
      ∀ y, 0 < y → (C y ↔ Cuts w b e y) := by
  obtain ⟨o1, l1, p1, a1⟩ := topLoop_spec (w + b) (by omega)
  obtain ⟨o2, l2, p2, a2⟩ := topLoop_spec (w + e) (by omega)
  obtain ⟨v1, C1, e1, t1, u1, c1⟩ := updateFromRoot_spec law (top v b) (by rw [top, t.size]; omega) t
    (fun i _ h => h.elim)
  obtain ⟨v2, C2, e2, t2, u2, c2⟩ := updateFromRoot_spec law (top v1 e - 1) (by rw [top, t1.size]; omega) t1 u1
  refine ⟨v2, C2, by rw [propagateDown, e1, Option.bind_some, e2], t2, u2, fun y hy => ?_⟩
  rw [c2 y hy, c1 y hy, top, top, t.size, t1.size, anc_pred o2, a1 y hy, a2 y hy]
  simp [Cuts]

theorem propagateUp_spec (law : Laws fup fdown id val pend) {w : Nat} (hw : 0 < w) {v : List T} {Q C : Nat → Prop}
    {a : Nat → M} (b e : Nat) (t : Tree val pend v w Q C a) (hb : b ≤ w) (he : e ≤ w)
    (hC : ∀ y, 0 < y → (C y ↔ Cuts w b e y)) :
    ∃ v', propagateUp fup v b e = some v' ∧ Tree val pend v' w (fun j => Q j ∧ ¬ Cuts w b e j) C a := by
  obtain ⟨o1, l1, p1, a1⟩ := topLoop_spec (w + b) (by omega)
  obtain ⟨o2, l2, p2, a2⟩ := topLoop_spec (w + e) (by omega)
  have ht : top v b = topLoop (w + b) := by rw [top, t.size]
  obtain ⟨v1, e1, t1⟩ := updateToRoot_spec law (top v b) t (by rw [ht]; omega) (by
    intro y hy ha
    rw [ht, a1 y hy] at ha
    exact (hC y hy).mpr (Or.inl ha))
  have ht1 : top v1 e = topLoop (w + e) := by rw [top, t1.size]
  obtain ⟨v2, e2, t2⟩ := updateToRoot_spec law (top v1 e - 1) t1 (by rw [ht1]; omega) (by
    intro y hy ha
    rw [ht1, anc_pred o2, a2 y hy] at ha
    exact (hC y hy).mpr (Or.inr ha))
  refine ⟨v2, by rw [propagateUp, e1, Option.bind_some, e2], t2.mono ?_ (fun _ _ _ h => h) (fun _ _ => rfl)⟩
  rintro j hj - ⟨⟨h1, h2⟩, h3⟩
  refine ⟨h1, ?_⟩
  rw [ht, a1 j hj] at h2
  rw [ht1, anc_pred o2, a2 j hj] at h3
  rintro (h | h)
  · exact h2 h
  · exact h3 h

end Altruct.LazySeg
