/-
The Hungarian algorithm finds optimal assignments.
-/
import Verif.Hungarian.Phase
import Verif.Hungarian.Spec
import Mathlib.Algebra.BigOperators.Fin
import Mathlib.Algebra.Order.BigOperators.Group.Finset
import Mathlib.Data.Fintype.EquivFin
import Mathlib.Tactic.Linarith

namespace Altruct.Hungarian

/-- The objects that the interface can build. -/
inductive Reach : Obj → Prop
  | empty : Reach empty
  | resize {h h' n} : Reach h → resize h n = some h' → Reach h'
  | set {h h' x y v} : Reach h → setCost h x y v = some h' → Reach h'
  | max {h h' r} : Reach h → calcMax h = some (r, h') → Reach h'
  | min {h h' r} : Reach h → calcMin h = some (r, h') → Reach h'

/-- The sizes of the vectors. -/
structure WF (h : Obj) : Prop where
  n : h.n ≤ 2 ^ h.logSZ
  c : h.c.length = 2 ^ h.logSZ * 2 ^ h.logSZ
  S : h.st.S.length = 2 ^ h.logSZ
  T : h.st.T.length = 2 ^ h.logSZ
  lx : h.st.lx.length = 2 ^ h.logSZ
  ly : h.st.ly.length = 2 ^ h.logSZ
  slack : h.st.slack.length = 2 ^ h.logSZ
  slackx : h.st.slackx.length = 2 ^ h.logSZ
  prev : h.st.prev.length = 2 ^ h.logSZ
  q : h.st.q.length = 2 ^ h.logSZ
  xy : h.st.xy.length = 2 ^ h.logSZ
  yx : h.st.yx.length = 2 ^ h.logSZ

/-- The sizes, except on the new object, whose vectors are empty. -/
def WF0 (h : Obj) : Prop := h = empty ∨ WF h

theorem growLog_spec {n : Nat} : ∀ fuel l, n ≤ fuel + l → ∃ l', growLog n (fuel + 1) l = some l' ∧ n ≤ 2 ^ l' := by
  intro fuel
  induction fuel with
  | zero =>
    intro l h
    have := Nat.lt_two_pow_self (n := l)
    exact ⟨l, by rw [growLog, if_neg (by omega)], by omega⟩
  | succ fuel ih =>
    intro l h
    rw [growLog]
    by_cases hc : 2 ^ l < n
    · rw [if_pos hc]; exact ih (l + 1) (by omega)
    · rw [if_neg hc]; exact ⟨l, rfl, by omega⟩

theorem resizeV_length (v : List Int) (m : Nat) : (resizeV v m).length = m := by
  rw [resizeV, List.length_append, List.length_take, List.length_replicate]; omega

theorem resize_spec (h : Obj) (n : Nat) : ∃ h', resize h n = some h' ∧ h'.n = n ∧ WF h' := by
  obtain ⟨l, e, hl⟩ := growLog_spec (n := n) (n + 1) h.logSZ (by omega)
  refine ⟨_, by rw [resize, e]; rfl, rfl, hl, ?_, ?_, ?_, ?_, ?_, ?_, ?_, ?_, ?_, ?_, ?_⟩ <;> exact resizeV_length _ _

theorem index_lt {sz n x y : Nat} (hn : n ≤ sz) (hx : x < n) (hy : y < n) : x * sz + y < sz * sz := by
  have : (x + 1) * sz ≤ sz * sz := Nat.mul_le_mul_right _ (by omega)
  rw [Nat.add_mul] at this
  omega

theorem index_inj {sz x y x' y' : Nat} (hy : y < sz) (hy' : y' < sz) (h : x * sz + y = x' * sz + y') : x = x' ∧ y = y' := by
  have h1 : (x * sz + y) / sz = x := by rw [Nat.mul_comm, Nat.mul_add_div (by omega), Nat.div_eq_of_lt hy, Nat.add_zero]
  have h2 : (x' * sz + y') / sz = x' := by rw [Nat.mul_comm, Nat.mul_add_div (by omega), Nat.div_eq_of_lt hy', Nat.add_zero]
  rw [h] at h1
  have h3 : x = x' := by omega
  subst h3
  exact ⟨rfl, by omega⟩

/-- Every cost can be read. -/
theorem WF.cost {h : Obj} (hw : WF h) {x y : Nat} (hx : x < h.n) (hy : y < h.n) : cost h x y = some (h.c.getD (x * 2 ^ h.logSZ + y) 0) := by
  have := index_lt hw.n hx hy
  rw [Hungarian.cost, costAt, rd, List.getD_eq_getElem?_getD, List.getElem?_eq_getElem (by rw [hw.c]; exact this), Option.getD_some]

theorem WF.set {h : Obj} (hw : WF h) {x y : Nat} (hx : x < h.n) (hy : y < h.n) (v : Int) :
    ∃ h', setCost h x y v = some h' ∧ h'.n = h.n ∧ h'.logSZ = h.logSZ ∧ h'.st = h.st ∧ WF h' ∧
      ∀ x' y', x' < h.n → y' < h.n → Hungarian.cost h' x' y' = if x' = x ∧ y' = y then some v else Hungarian.cost h x' y' := by
  have hi := index_lt hw.n hx hy
  refine ⟨{ h with c := h.c.set (x * 2 ^ h.logSZ + y) v }, by rw [setCost, wr, if_pos (by rw [hw.c]; exact hi)]; rfl, rfl, rfl, rfl,
    ⟨hw.n, by rw [List.length_set]; exact hw.c, hw.S, hw.T, hw.lx, hw.ly, hw.slack, hw.slackx, hw.prev, hw.q, hw.xy, hw.yx⟩, fun x' y' hx' hy' => ?_⟩
  rw [Hungarian.cost, costAt, rd]
  simp only
  by_cases hc : x' = x ∧ y' = y
  · obtain ⟨rfl, rfl⟩ := hc
    rw [List.getElem?_set_self (by rw [hw.c]; exact hi), if_pos ⟨rfl, rfl⟩]
  · have hn := hw.n
    rw [if_neg hc, List.getElem?_set_ne (fun he => hc (by
      have := index_inj (show y < 2 ^ h.logSZ by omega) (show y' < 2 ^ h.logSZ by omega) he
      exact ⟨this.1.symm, this.2.symm⟩))]
    rfl

/-- Visiting the whole matrix and setting every element. -/
theorem sweep_spec {h0 : Obj} {n : Nat} (hn : h0.n = n) (hw : WF h0) {m0 v : Nat → Nat → Int} (hm : ∀ x y, x < n → y < n → cost h0 x y = some (m0 x y))
    {f : Nat → Nat → Obj → Option Obj} (hf : ∀ x y h, x < n → y < n → cost h x y = some (m0 x y) → f x y h = setCost h x y (v x y)) {N : Obj → Nat} (hN : ∀ h : Obj, h.n = n → N h = n) :
    ∃ h', forUp (fun x h => forUp (fun y h => f x y h) 0 (N h) h) 0 n h0 = some h' ∧ h'.n = n ∧ h'.logSZ = h0.logSZ ∧ h'.st = h0.st ∧ WF h' ∧
      ∀ x y, x < n → y < n → cost h' x y = some (v x y) := by
  obtain ⟨h', e, h1, h2, h3, h4, h5⟩ := forUp_spec (body := fun x h => forUp (fun y h => f x y h) 0 (N h) h)
    (fun k h => h.n = n ∧ h.logSZ = h0.logSZ ∧ h.st = h0.st ∧ WF h ∧ ∀ x y, x < n → y < n → cost h x y = some (if x < k then v x y else m0 x y)) (a := 0) (n := n) (s := h0) (Nat.zero_le _)
    ⟨hn, rfl, rfl, hw, fun x y hx hy => by rw [if_neg (by omega)]; exact hm x y hx hy⟩ (by
      rintro x h _ hx ⟨h1, h2, h3, h4, h5⟩
      show ∃ s', forUp _ 0 (N h) h = some s' ∧ _
      rw [hN h h1]
      obtain ⟨h', e, g1, g2, g3, g4, g5⟩ := forUp_spec (body := fun y h => f x y h)
        (fun k h => h.n = n ∧ h.logSZ = h0.logSZ ∧ h.st = h0.st ∧ WF h ∧
          ∀ x' y', x' < n → y' < n → cost h x' y' = some (if x' < x ∨ (x' = x ∧ y' < k) then v x' y' else m0 x' y')) (a := 0) (n := n) (s := h) (Nat.zero_le _)
        ⟨h1, h2, h3, h4, fun x' y' hx' hy' => by rw [h5 x' y' hx' hy']; simp⟩ (by
          rintro y h _ hy ⟨g1, g2, g3, g4, g5⟩
          obtain ⟨h', e, k1, k2, k3, k4, k5⟩ := g4.set (by rw [g1]; exact hx) (by rw [g1]; exact hy) (v x y)
          refine ⟨h', ?_, by rw [k1, g1], by rw [k2, g2], by rw [k3, g3], k4, fun x' y' hx' hy' => ?_⟩
          · show f x y h = some h'
            rw [hf x y h hx hy (by rw [g5 x y hx hy]; simp)]; exact e
          · rw [k5 x' y' (by rw [g1]; exact hx') (by rw [g1]; exact hy'), g5 x' y' hx' hy']
            by_cases hc : x' = x ∧ y' = y
            · rw [if_pos hc, if_pos (Or.inr ⟨hc.1, by omega⟩), hc.1, hc.2]
            · rw [if_neg hc]
              refine congrArg some (if_congr ?_ rfl rfl)
              omega)
      refine ⟨h', e, g1, g2, g3, g4, fun x' y' hx' hy' => ?_⟩
      rw [g5 x' y' hx' hy']
      refine congrArg some (if_congr ?_ rfl rfl)
      omega)
  exact ⟨h', e, h1, h2, h3, h4, fun x y hx hy => by rw [h5 x y hx hy, if_pos hx]⟩

theorem rowMax_spec {n sz : Nat} {c : List Int} {w : Nat → Nat → Int} (hc : ∀ x y, x < n → y < n → costAt sz c x y = some (w x y)) {x : Nat} (hx : x < n) :
    ∃ m, rowMax n sz c x = some m ∧ ∀ y, y < n → w x y ≤ m := by
  rw [rowMax, hc x 0 hx (by omega), Option.bind_some]
  obtain ⟨m, e, h⟩ := forUp_spec (body := fun y m => (costAt sz c x y).map fun w => max m w) (fun k m => ∀ y, y < k → w x y ≤ m) (a := 0) (n := n) (s := w x 0) (Nat.zero_le _)
    (fun y hy => by omega) (by
      intro y m _ hy hm
      rw [hc x y hx hy]
      refine ⟨_, rfl, fun y' hy' => ?_⟩
      rcases Nat.lt_or_ge y' y with h1 | h1
      · exact le_trans (hm y' h1) (le_max_left _ _)
      · rw [show y' = y by omega]; exact le_max_right _ _)
  exact ⟨m, e, h⟩

theorem calcImpl_spec {h : Obj} (hw : WF h) {w : Nat → Nat → Int} (hc : ∀ x y, x < h.n → y < h.n → costAt (2 ^ h.logSZ) h.c x y = some (w x y)) :
    ∃ st, calcImpl h.n (2 ^ h.logSZ) h.c h.st = some st ∧ Between (2 ^ h.logSZ) h.n w h.n st := by
  have hn := hw.n
  obtain ⟨xy, e1, h1⟩ := fillN_spec hn (-1) hw.xy
  obtain ⟨yx, e2, h2⟩ := fillN_spec hn (-1) hw.yx
  obtain ⟨ly, e3, h3⟩ := fillN_spec hn 0 hw.ly
  have hm : ∀ x, ∃ m, x < h.n → rowMax h.n (2 ^ h.logSZ) h.c x = some m ∧ ∀ y, y < h.n → w x y ≤ m := by
    intro x
    by_cases hx : x < h.n
    · obtain ⟨m, e, hm⟩ := rowMax_spec hc hx
      exact ⟨m, fun _ => ⟨e, hm⟩⟩
    · exact ⟨0, fun hcc => absurd hcc hx⟩
  choose M hM using hm
  obtain ⟨lx, e4, h4⟩ := updN_spec hn (f := fun x _ => rowMax h.n (2 ^ h.logSZ) h.c x) (f' := M) (fun i hi => (hM i hi).1) (repN_self hn hw.lx)
  rw [calcImpl, e1, Option.bind_some, e2, Option.bind_some, e3, Option.bind_some, e4, Option.bind_some]
  exact forUp_spec (body := fun _ st => phase h.n (2 ^ h.logSZ) h.c st) (fun k st => Between (2 ^ h.logSZ) h.n w k st) (Nat.zero_le _)
    ⟨hw.S, hw.T, hw.slack, hw.slackx, hw.prev, hw.q, M, _, _, _, h4, h3, h1, h2, fun x y hx hy => by have := (hM x hx).2 y hy; simpa using this, fun x hx => Or.inl rfl,
      fun y hy => Or.inl rfl, fun x hx => by simp⟩ (fun k st _ hk hb => phase_spec hn hc hk hb)

/-- What `calc_max_cost` returns and leaves. -/
theorem calcMax_spec {h : Obj} (hw : WF h) {m : Nat → Nat → Int} (hm : ∀ x y, x < h.n → y < h.n → cost h x y = some (m x y)) :
    ∃ r h', ∃ σ : Equiv.Perm (Fin h.n), calcMax h = some (r, h') ∧ h'.n = h.n ∧ h'.logSZ = h.logSZ ∧ h'.c = h.c ∧ WF h' ∧ r = total h.n m σ ∧ Maximal h.n m σ ∧
      ∀ x : Fin h.n, (matchesX h')[(x : Nat)]? = some ((σ x : Nat) : Int) ∧ (matchesY h')[(σ x : Nat)]? = some ((x : Nat) : Int) := by
  obtain ⟨st, e, hb⟩ := calcImpl_spec hw hm
  obtain ⟨lx, ly, xy, yx, hlx, hly, hxy, hyx, hmat⟩ := hb.mat
  have h1 : ∀ x : Fin h.n, ∃ y : Fin h.n, xy x = ((y : Nat) : Int) ∧ yx y = ((x : Nat) : Int) ∧ m x y = lx x + ly y := by
    intro x
    rcases hmat.m1 x x.2 with h2 | ⟨y, h2, h3, h4, h5⟩
    · have := (hmat.exp x x.2).mp h2
      omega
    · exact ⟨⟨y, h2⟩, h3, h4, h5⟩
  choose f hf1 hf2 hf3 using h1
  have hinj : Function.Injective f := by
    intro x x' e
    have g1 := hf2 x
    have g2 := hf2 x'
    rw [e] at g1
    exact Fin.ext (by omega)
  let σ : Equiv.Perm (Fin h.n) := Equiv.ofBijective f (Finite.injective_iff_bijective.mp hinj)
  have hσ : ∀ x, σ x = f x := fun x => rfl
  obtain ⟨r, e2, h2⟩ := forUp_spec (body := fun x r => (rd st.xy x).bind fun v => (ix v).bind fun y => (costAt (2 ^ h.logSZ) h.c x y).map fun w => r + w)
    (fun k r => r = ∑ x ∈ Finset.range k, m x (xy x).toNat) (a := 0) (n := h.n) (s := 0) (Nat.zero_le _) (by simp) (by
      rintro x r _ hx rfl
      rw [hxy.rd hx, Option.bind_some]
      have g1 := hf1 ⟨x, hx⟩
      simp only at g1
      rw [g1, ix_nat, Option.bind_some]
      have := hm x (f ⟨x, hx⟩) hx (f ⟨x, hx⟩).2
      rw [cost] at this
      rw [this, Finset.sum_range_succ, g1]
      exact ⟨_, rfl, rfl⟩)
  have hr : r = total h.n m σ := by
    rw [h2, Finset.sum_range, total]
    refine Finset.sum_congr rfl fun x _ => ?_
    rw [hf1 x]; rfl
  refine ⟨r, { h with st := st }, σ, by rw [calcMax, e, Option.bind_some, e2]; rfl, rfl, rfl, rfl,
    ⟨hw.n, hw.c, hb.S, hb.T, hlx.len, hly.len, hb.slack, hb.slackx, hb.prev, hb.q, hxy.len, hyx.len⟩, hr, fun τ => ?_, fun x => ⟨?_, ?_⟩⟩
  · have g1 : total h.n m σ = ∑ x : Fin h.n, lx x + ∑ x : Fin h.n, ly x := by
      rw [total, ← Equiv.sum_comp σ (fun x : Fin h.n => ly x), ← Finset.sum_add_distrib]
      exact Finset.sum_congr rfl fun x _ => hf3 x
    have g2 : total h.n m τ ≤ ∑ x : Fin h.n, lx x + ∑ x : Fin h.n, ly x := by
      rw [total, ← Equiv.sum_comp τ (fun x : Fin h.n => ly x), ← Finset.sum_add_distrib]
      exact Finset.sum_le_sum fun x _ => hmat.feas x (τ x) x.2 (τ x).2
    rw [g1]; exact g2
  · show st.xy[(x : Nat)]? = _
    rw [hxy.get x x.2, hf1 x]; rfl
  · show st.yx[((f x : Fin h.n) : Nat)]? = _
    rw [hyx.get _ (f x).2, hf2 x]

theorem negate_spec {h : Obj} (hw : WF h) {m : Nat → Nat → Int} (hm : ∀ x y, x < h.n → y < h.n → cost h x y = some (m x y)) :
    ∃ h', negateCost h = some h' ∧ h'.n = h.n ∧ h'.logSZ = h.logSZ ∧ h'.st = h.st ∧ WF h' ∧ ∀ x y, x < h.n → y < h.n → cost h' x y = some (-m x y) :=
  sweep_spec (n := h.n) rfl hw hm (v := fun x y => -m x y) (f := fun x y h => (cost h x y).bind fun v => setCost h x y (-v)) (fun x y h hx hy e => by rw [e]; rfl)
    (N := fun h => h.n) (fun h e => e)

/-- What `calc_min_cost` returns and leaves. -/
theorem calcMin_spec {h : Obj} (hw : WF h) {m : Nat → Nat → Int} (hm : ∀ x y, x < h.n → y < h.n → cost h x y = some (m x y)) :
    ∃ r h', ∃ σ : Equiv.Perm (Fin h.n), calcMin h = some (r, h') ∧ h'.n = h.n ∧ WF h' ∧ (∀ x y, x < h.n → y < h.n → cost h' x y = some (m x y)) ∧ r = total h.n m σ ∧ Minimal h.n m σ ∧
      ∀ x : Fin h.n, (matchesX h')[(x : Nat)]? = some ((σ x : Nat) : Int) ∧ (matchesY h')[(σ x : Nat)]? = some ((x : Nat) : Int) := by
  obtain ⟨⟨n1, l1, c1, s1⟩, e1, hn1, hl1, _, hw1, hc1⟩ := negate_spec hw hm
  obtain ⟨n, l, c, s⟩ := h
  simp only at hn1 hl1
  subst hn1 hl1
  obtain ⟨r, h2, σ, e2, hn2, hl2, hcc2, hw2, hr, hmax, hmt⟩ := calcMax_spec hw1 (m := fun x y => -m x y) hc1
  simp only at hn2 hl2 hcc2
  obtain ⟨h3, e3, hn3, hl3, hst, hw3, hc3⟩ := negate_spec hw2 (m := fun x y => -m x y) (fun x y hx hy => by
    rw [hn2] at hx hy
    have := hc1 x y hx hy
    rw [cost] at this ⊢
    rw [hl2, hcc2]; exact this)
  have hneg : ∀ τ, total n1 (fun x y => -m x y) τ = -total n1 m τ := fun τ => by rw [total, total, Finset.sum_neg_distrib]
  refine ⟨-r, h3, σ, by rw [calcMin, e1, Option.bind_some, e2, Option.bind_some, e3]; rfl, by rw [hn3, hn2], hw3, fun x y hx hy => ?_, ?_, fun τ => ?_, ?_⟩
  · rw [hc3 x y (by rw [hn2]; exact hx) (by rw [hn2]; exact hy), neg_neg]
  · rw [hr, hneg, neg_neg]
  · have := hmax τ
    rw [hneg, hneg] at this
    linarith
  · rw [matchesX, matchesY, hst]; exact hmt

theorem WF.exists_cost {h : Obj} (hw : WF h) : ∃ m : Nat → Nat → Int, ∀ x y, x < h.n → y < h.n → Hungarian.cost h x y = some (m x y) :=
  ⟨_, fun _ _ hx hy => hw.cost hx hy⟩

theorem WF0_reach {h : Obj} (hr : Reach h) : WF0 h := by
  induction hr with
  | empty => exact Or.inl rfl
  | @resize h h' n _ e _ =>
    obtain ⟨h2, e2, _, hw⟩ := resize_spec h n
    rw [e2] at e
    obtain rfl := Option.some.inj e
    exact Or.inr hw
  | @set h h' x y v _ e ih =>
    rw [setCost] at e
    obtain ⟨c, e1, rfl⟩ := Option.map_eq_some_iff.mp e
    rw [wr] at e1
    split at e1
    · next hlt =>
      obtain rfl := Option.some.inj e1
      rcases ih with rfl | hw
      · simp [Hungarian.empty] at hlt
      · exact Or.inr ⟨hw.n, by rw [List.length_set]; exact hw.c, hw.S, hw.T, hw.lx, hw.ly, hw.slack, hw.slackx, hw.prev, hw.q, hw.xy, hw.yx⟩
    · exact absurd e1 (by simp)
  | @max h h' r _ e ih =>
    rcases ih with rfl | hw
    · have : calcMax Hungarian.empty = some (0, Hungarian.empty) := rfl
      rw [this] at e
      obtain ⟨-, rfl⟩ := Prod.mk.inj (Option.some.inj e)
      exact Or.inl rfl
    · obtain ⟨m, hm⟩ := hw.exists_cost
      obtain ⟨r2, h2, σ, e2, _, _, _, hw2, _⟩ := calcMax_spec hw hm
      rw [e2] at e
      obtain ⟨-, rfl⟩ := Prod.mk.inj (Option.some.inj e)
      exact Or.inr hw2
  | @min h h' r _ e ih =>
    rcases ih with rfl | hw
    · have : calcMin Hungarian.empty = some (-0, Hungarian.empty) := rfl
      rw [this] at e
      obtain ⟨-, rfl⟩ := Prod.mk.inj (Option.some.inj e)
      exact Or.inl rfl
    · obtain ⟨m, hm⟩ := hw.exists_cost
      obtain ⟨r2, h2, σ, e2, _, hw2, _⟩ := calcMin_spec hw hm
      rw [e2] at e
      obtain ⟨-, rfl⟩ := Prod.mk.inj (Option.some.inj e)
      exact Or.inr hw2

/-- **C107.** The documented usage: after `resize(n)` on any object, every cost that is set can be read back. -/
theorem C107_load {h0 : Obj} (hr : Reach h0) (n : Nat) (m : Nat → Nat → Int) :
    ∃ h, load h0 n m = some h ∧ h.n = n ∧ Reach h ∧ ∀ x y, x < n → y < n → cost h x y = some (m x y) := by
  obtain ⟨h1, e1, hn1, hw1⟩ := resize_spec h0 n
  obtain ⟨m0, hm0⟩ := hw1.exists_cost
  rw [hn1] at hm0
  obtain ⟨h2, e2, hn2, _, _, hw2, hc2⟩ := sweep_spec (n := n) hn1 hw1 hm0 (v := m) (f := fun x y h => setCost h x y (m x y)) (fun x y h _ _ _ => rfl) (N := fun _ => n) (fun _ _ => rfl)
  have hreach : ∀ (k : Nat) (f : Nat → Obj → Option Obj), (∀ x h h', Reach h → f x h = some h' → Reach h') → ∀ a h h', Reach h → forN f k a h = some h' → Reach h' := by
    intro k f hf
    induction k with
    | zero => intro a h h' hr e; rw [forN] at e; exact (Option.some.inj e) ▸ hr
    | succ k ih =>
      intro a h h' hr e
      rw [forN] at e
      cases e3 : f a h with
      | none => rw [e3] at e; exact absurd e (by simp)
      | some s => rw [e3] at e; exact ih _ _ _ (hf a h s hr e3) e
  refine ⟨h2, by rw [load, e1, Option.bind_some]; exact e2, hn2, ?_, hc2⟩
  refine hreach _ _ (fun x h h' hrh e => ?_) 0 h1 h2 (Reach.resize hr e1) e2
  exact hreach _ _ (fun y h h' hrh e => Reach.set hrh e) 0 h h' hrh e

/-- **C107.** `calc_max_cost` returns the largest total of an assignment; the two match vectors are that assignment and its inverse; the costs are not changed. -/
theorem C107_maximum {h : Obj} (hr : Reach h) {n : Nat} (hn : h.n = n) {m : Nat → Nat → Int} (hm : ∀ x y, x < n → y < n → cost h x y = some (m x y)) :
    ∃ r h', ∃ σ : Equiv.Perm (Fin n), calcMax h = some (r, h') ∧ r = total n m σ ∧ Maximal n m σ ∧
      (∀ x : Fin n, (matchesX h')[(x : Nat)]? = some ((σ x : Nat) : Int) ∧ (matchesY h')[(σ x : Nat)]? = some ((x : Nat) : Int)) ∧
      ∀ x y, x < n → y < n → cost h' x y = some (m x y) := by
  subst hn
  rcases WF0_reach hr with rfl | hw
  · exact ⟨0, empty, Equiv.refl _, rfl, (Fin.sum_univ_zero _).symm, fun τ => by rw [show τ = Equiv.refl _ from Equiv.ext fun x => x.elim0], fun x => x.elim0, fun x y hx => absurd hx (by simp [empty])⟩
  · obtain ⟨r, h', σ, e, h1, h2, h3, _, h4, h5, h6⟩ := calcMax_spec hw hm
    exact ⟨r, h', σ, e, h4, h5, h6, fun x y hx hy => by have := hm x y hx hy; rw [cost] at this ⊢; rw [h2, h3]; exact this⟩

/-- **C107.** `calc_min_cost` returns the smallest total; the costs are restored. -/
theorem C107_minimum {h : Obj} (hr : Reach h) {n : Nat} (hn : h.n = n) {m : Nat → Nat → Int} (hm : ∀ x y, x < n → y < n → cost h x y = some (m x y)) :
    ∃ r h', ∃ σ : Equiv.Perm (Fin n), calcMin h = some (r, h') ∧ r = total n m σ ∧ Minimal n m σ ∧
      (∀ x : Fin n, (matchesX h')[(x : Nat)]? = some ((σ x : Nat) : Int) ∧ (matchesY h')[(σ x : Nat)]? = some ((x : Nat) : Int)) ∧
      ∀ x y, x < n → y < n → cost h' x y = some (m x y) := by
  subst hn
  rcases WF0_reach hr with rfl | hw
  · exact ⟨-0, empty, Equiv.refl _, rfl, (Fin.sum_univ_zero _).symm, fun τ => by rw [show τ = Equiv.refl _ from Equiv.ext fun x => x.elim0], fun x => x.elim0, fun x y hx => absurd hx (by simp [empty])⟩
  · obtain ⟨r, h', σ, e, _, _, h2, h4, h5, h6⟩ := calcMin_spec hw hm
    exact ⟨r, h', σ, e, h4, h5, h6, h2⟩

/-- **C107.** The match vectors are longer than `n` unless `n` is a power of two: for three workers the fourth element is 0. -/
theorem C107_match_vectors_padded : (((load empty 3 fun x y => if x = y then 1 else 0).bind calcMax).map fun r => matchesX r.2) = some [0, 1, 2, 0] := by decide +kernel

/-- **C107.** Growing the object moves the costs set before: the cost 7 of (1, 0) is at (0, 2) after `resize(3)`. -/
theorem C107_resize_moves_costs : ((load empty 2 fun x y => if x = 1 ∧ y = 0 then 7 else 0).bind fun h => (resize h 3).bind fun h =>
    (cost h 1 0).bind fun a => (cost h 0 2).map fun b => (a, b)) = some (0, 7) := by decide +kernel

/-- A matrix that needs new labels. -/
example : (((load empty 4 fun x y => (([[7, 4, 3, 9], [6, 8, 5, 2], [9, 4, 4, 1], [3, 8, 7, 4]] : List (List Int)).getD x []).getD y 0).bind calcMax).map fun r => (r.1, matchesX r.2)) =
    some (33, [3, 1, 0, 2]) := by decide +kernel

example : (((load empty 4 fun x y => (([[7, 4, 3, 9], [6, 8, 5, 2], [9, 4, 4, 1], [3, 8, 7, 4]] : List (List Int)).getD x []).getD y 0).bind calcMin).map fun r => (r.1, matchesX r.2)) =
    some (12, [2, 3, 1, 0]) := by decide +kernel

/-- The hypotheses are met. -/
example : ∃ h, load empty 4 (fun x y => (x * 3 + y * y : Int)) = some h ∧ h.n = 4 ∧ Reach h ∧ ∀ x y, x < 4 → y < 4 → cost h x y = some (x * 3 + y * y : Int) :=
  C107_load Reach.empty 4 _

end Altruct.Hungarian
