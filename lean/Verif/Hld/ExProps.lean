/-
C120: `parent(u, k)` and `walk` of `heavy_light_decomposition_ex`.
-/
import Verif.Hld.ExSpec
import Verif.Hld.Props

namespace Altruct.Hld

open GraphAlg Forest Relation

variable {g : List (List Nat)} {up : Nat → Int} {dep : Nat → Nat}

/-! ### Steps and ways up -/

theorem Steps.unique {f : Nat → Int} : ∀ {k a b c : Nat}, Steps f k a b → Steps f k a c → b = c := by
  intro k
  induction k with
  | zero => intro a b c h1 h2; exact (h1 : a = b).symm.trans h2
  | succ k ih =>
    rintro a b c ⟨q, h1, h2⟩ ⟨q', h1', h2'⟩
    have : q = q' := by rw [h1] at h1'; omega
    subst this
    exact ih h2 h2'

/-- `l` are the nodes on the way up from `w` to `a`, without `a`. -/
def Way (up : Nat → Int) (a : Nat) : Nat → List Nat → Prop
  | w, [] => w = a
  | w, x :: l => x = w ∧ ∃ q : Nat, up w = (q : Int) ∧ Way up a q l

theorem way_of_below {a w : Nat} (h : Below up a w) : ∃ l, Way up a w l := by
  induction h using ReflTransGen.head_induction_on with
  | refl => exact ⟨[], rfl⟩
  | head h1 _ ih => obtain ⟨l, hl⟩ := ih; exact ⟨_ :: l, rfl, _, h1, hl⟩

theorem below_of_way {a : Nat} : ∀ {l : List Nat} {w : Nat}, Way up a w l → Below up a w := by
  intro l
  induction l with
  | nil => intro w h; cases h; exact ReflTransGen.refl
  | cons x l ih => rintro w ⟨_, q, h1, h2⟩; exact ReflTransGen.head h1 (ih h2)

theorem steps_below : ∀ {k w x : Nat}, Steps up k w x → Below up x w := by
  intro k
  induction k with
  | zero => intro w x h; cases h; exact ReflTransGen.refl
  | succ k ih => rintro w x ⟨q, h1, h2⟩; exact ReflTransGen.head h1 (ih h2)

theorem steps_dep (R : Rooted g up dep) : ∀ {k w x : Nat}, w < g.length → Steps up k w x → x < g.length ∧ dep w = dep x + k := by
  intro k
  induction k with
  | zero => intro w x hw h; cases h; exact ⟨hw, rfl⟩
  | succ k ih =>
    rintro w x hw ⟨q, h1, h2⟩
    obtain ⟨r1, r2, _⟩ := R.ne hw h1
    obtain ⟨i1, i2⟩ := ih r1 h2
    exact ⟨i1, by omega⟩

theorem way_steps {a : Nat} : ∀ {l : List Nat} {w : Nat}, Way up a w l → Steps up l.length w a := by
  intro l
  induction l with
  | nil => intro w h; exact h
  | cons x l ih => rintro w ⟨_, q, h1, h2⟩; exact ⟨q, h1, ih h2⟩

/-- The way splits at every node reached from `w`. -/
theorem way_split {a : Nat} : ∀ {m : Nat} {l : List Nat} {w x : Nat}, Way up a w l → m ≤ l.length → Steps up m w x → Way up a x (l.drop m) ∧ Way up x w (l.take m) := by
  intro m
  induction m with
  | zero => intro l w x h _ hs; cases hs; exact ⟨by simpa using h, by simp [Way]⟩
  | succ m ih =>
    intro l w x h hm hs
    cases l with
    | nil => simp at hm
    | cons y l =>
      obtain ⟨h1, q, h2, h3⟩ := h
      obtain ⟨q', h2', hs'⟩ := hs
      have : q = q' := by rw [h2] at h2'; omega
      subst this
      obtain ⟨i1, i2⟩ := ih h3 (by simpa using hm) hs'
      exact ⟨i1, h1, q, h2, i2⟩

/-- The elements of a way are reached by steps. -/
theorem way_get {a : Nat} : ∀ {l : List Nat} {w i y : Nat}, Way up a w l → l[i]? = some y → Steps up i w y := by
  intro l
  induction l with
  | nil => intro w i y _ h; simp at h
  | cons x l ih =>
    rintro w i y ⟨h1, q, h2, h3⟩ h
    cases i with
    | zero => simp at h; exact (h ▸ h1 : y = w).symm
    | succ i => exact ⟨q, h2, ih h3 (by simpa using h)⟩

/-! ### What the object knows -/

/-- The facts about the members that the proofs use. -/
structure Ready (g : List (List Nat)) (up : Nat → Int) (dep : Nat → Nat) (x : Ex) (pos size : Nat → Nat) (chain : Nat → Int) : Prop where
  R : Rooted g up dep
  depth : ∀ u, u < g.length → lcaDepth x.lca (u : Int) = some (dep u : Int)
  common : ∀ u v, u < g.length → v < g.length → (∃ a : Nat, lcaAncestor x.lca u v = some (a : Int) ∧ Below up a u ∧ Below up a v ∧ ∀ b, Below up b u → Below up b v → Below up b a) ∨
    (lcaAncestor x.lca u v = some (-1) ∧ ∀ b, Below up b u → ¬ Below up b v)
  hld : ∀ u, u < g.length → x.hld.position u = some (pos u : Int) ∧ pos u + size u ≤ g.length ∧ x.hld.node (pos u) = some (u : Int) ∧ x.hld.subtreeSize u = some (size u) ∧ x.hld.parent u = some (chain u)
  one : ∀ u, u < g.length → 1 ≤ size u
  chains : ∀ u, u < g.length → ∃ k top, Steps up k u top ∧ up top = chain u ∧ (∀ i ≤ k, ∃ x, x < g.length ∧ Steps up i u x ∧ pos x + i = pos u) ∧
      ∀ q : Nat, chain u = (q : Int) → q < g.length ∧ 2 * size u < size q

variable {x : Ex} {pos size : Nat → Nat} {chain : Nat → Int}

theorem Ready.chainOf (h : Ready g up dep x pos size chain) {u : Nat} (hu : u < g.length) : x.chain (u : Int) = some (chain u) := by
  rw [Ex.chain, if_neg (by omega), Int.toNat_natCast, (h.hld u hu).2.2.2.2]

theorem Ready.positionOf (h : Ready g up dep x pos size chain) {u : Nat} (hu : u < g.length) : x.position (u : Int) = some (pos u : Int) := by
  rw [Ex.position, if_neg (by omega), Int.toNat_natCast, (h.hld u hu).1]

/-- The depth of the parent of a chain; the parent is a node, or -1. -/
theorem Ready.chainDepth (h : Ready g up dep x pos size chain) {u : Nat} (hu : u < g.length) : ∃ k : Nat, lcaDepth x.lca (chain u) = some ((dep u : Int) - k - 1) ∧
    k ≤ dep u ∧ (∀ i ≤ k, ∃ y, y < g.length ∧ Steps up i u y ∧ pos y + i = pos u) ∧
    ((chain u = -1 ∧ dep u = k) ∨ ∃ q : Nat, chain u = (q : Int) ∧ q < g.length ∧ Steps up (k + 1) u q ∧ 2 * size u < size q) := by
  obtain ⟨k, top, h1, h2, h3, h4⟩ := h.chains u hu
  obtain ⟨t1, t2⟩ := steps_dep h.R hu h1
  rcases h.R.depth top t1 with ⟨d1, d2⟩ | ⟨q, d1, d2, d3⟩
  · refine ⟨k, ?_, by omega, h3, Or.inl ⟨h2 ▸ d1, by omega⟩⟩
    rw [← h2, d1, lcaDepth, if_pos (by omega)]
    congr 1; omega
  · refine ⟨k, ?_, by omega, h3, Or.inr ⟨q, h2 ▸ d1, d2, Steps.snoc h1 d1, (h4 q (h2 ▸ d1)).2⟩⟩
    rw [← h2, d1, h.depth q d2]
    congr 1; omega

/-! ### `parent(u, k)` -/

theorem kthLoop_spec (h : Ready g up dep x pos size chain) : ∀ (fuel u m y : Nat), u < g.length → Steps up m u y → g.length < 2 ^ fuel * size u →
    kthLoop x (dep y : Int) fuel (u : Int) = some (y : Int) := by
  intro fuel
  induction fuel with
  | zero =>
    intro u m y hu _ hf
    have := (h.hld u hu).2.1
    omega
  | succ fuel ih =>
    intro u m y hu hs hf
    obtain ⟨y1, y2⟩ := steps_dep h.R hu hs
    obtain ⟨k, c1, c2, c3, c4⟩ := h.chainDepth hu
    rw [kthLoop, h.chainOf hu, Option.bind_some, c1, Option.bind_some]
    by_cases hm : m ≤ k
    · obtain ⟨z, z1, z2, z3⟩ := c3 m hm
      have : z = y := z2.unique hs
      subst this
      rw [if_pos (by omega), h.positionOf hu, Option.bind_some, h.depth u hu, Option.bind_some, show (pos u : Int) - ((dep u : Int) - dep z) = (pos z : Int) by omega]
      exact (h.hld z z1).2.2.1
    · rw [if_neg (by omega)]
      rcases c4 with ⟨_, c5⟩ | ⟨q, c5, c6, c7, c8⟩
      · omega
      · rw [c5]
        obtain ⟨l, hl⟩ := way_of_below (steps_below hs)
        have hlen : l.length = m := by
          have := (steps_dep h.R hu (way_steps hl)).2
          omega
        have := way_steps (way_split hl (by omega : k + 1 ≤ l.length) c7).1
        refine ih q _ y c6 this (lt_of_lt_of_le hf ?_)
        rw [pow_succ, Nat.mul_assoc]
        exact Nat.mul_le_mul_left _ (by omega)

theorem steps_exists (R : Rooted g up dep) : ∀ (k u : Nat), u < g.length → k ≤ dep u → ∃ y, Steps up k u y := by
  intro k
  induction k with
  | zero => intro u _ _; exact ⟨u, rfl⟩
  | succ k ih =>
    intro u hu hk
    rcases R.depth u hu with ⟨_, d2⟩ | ⟨q, d1, d2, d3⟩
    · omega
    · obtain ⟨y, hy⟩ := ih q d2 (by omega)
      exact ⟨y, q, d1, hy⟩

theorem Ready.parentK (h : Ready g up dep x pos size chain) {fuel u : Nat} (hu : u < g.length) (hf : g.length < 2 ^ fuel) (k : Int) :
    (∀ m y : Nat, k = (m : Int) → Steps up m u y → x.parentK fuel (u : Int) k = some (y : Int)) ∧
    ((∀ m y : Nat, k = (m : Int) → ¬ Steps up m u y) → x.parentK fuel (u : Int) k = some (-1)) := by
  rw [Ex.parentK, h.depth u hu, Option.bind_some]
  constructor
  · rintro m y rfl hs
    obtain ⟨y1, y2⟩ := steps_dep h.R hu hs
    rw [if_neg (by omega), show (dep u : Int) - m = (dep y : Int) by omega]
    exact kthLoop_spec h fuel u m y hu hs (lt_of_lt_of_le hf (Nat.le_mul_of_pos_right _ (h.one u hu)))
  · intro hn
    refine if_pos ?_
    by_contra hc
    obtain ⟨m, rfl⟩ : ∃ m : Nat, k = (m : Int) := ⟨k.toNat, by omega⟩
    obtain ⟨y, hy⟩ := steps_exists h.R m u hu (by omega)
    exact hn m y rfl hy

/-! ### `walk` -/

/-- A list of nodes as pairs of the position of the node and its index from `s` on. -/
def indexFrom (pos : Nat → Nat) (s : Nat) (l : List Nat) : List (Int × Int) := (l.zipIdx s).map fun p => ((pos p.1 : Int), (p.2 : Int))

theorem indexFrom_append (s : Nat) (l r : List Nat) : indexFrom pos s (l ++ r) = indexFrom pos s l ++ indexFrom pos (s + l.length) r := by
  rw [indexFrom, List.zipIdx_append, List.map_append]; rfl

theorem indexFrom_get (s : Nat) (l : List Nat) (i : Nat) : (indexFrom pos s l)[i]? = l[i]?.map fun y => ((pos y : Int), ((s + i : Nat) : Int)) := by
  rw [indexFrom, List.getElem?_map, List.getElem?_zipIdx]
  cases l[i]? <;> rfl

theorem indexFrom_length (s : Nat) (l : List Nat) : (indexFrom pos s l).length = l.length := by simp [indexFrom]

/-- One round: the next node, and the nodes passed, which lie at consecutive positions. -/
theorem climbStep_spec (h : Ready g up dep x pos size chain) {a w : Nat} {l : List Nat} (hw : w < g.length) (ha : a < g.length) (hl : Way up a w l) (hne : w ≠ a) :
    ∃ (p len : Nat), climbStep x (a : Int) (w : Int) = some ((p : Int), (len : Int), (pos w : Int) + 1) ∧ 1 ≤ len ∧ len ≤ l.length ∧ p < g.length ∧ dep w = dep p + len ∧
      Way up a p (l.drop len) ∧ (∀ i y, i < len → l[i]? = some y → pos y + i = pos w) ∧ (p = a ∨ 2 * size w < size p) := by
  obtain ⟨k, c1, c2, c3, c4⟩ := h.chainDepth hw
  have hs := way_steps hl
  obtain ⟨-, hd⟩ := steps_dep h.R hw hs
  have hlen : 1 ≤ l.length := by
    cases l with
    | nil => exact absurd hl hne
    | cons y l => simp
  have hpos : ∀ i y, i ≤ k → l[i]? = some y → pos y + i = pos w := by
    intro i y hi hy
    obtain ⟨z, z1, z2, z3⟩ := c3 i hi
    rw [← z2.unique (way_get hl hy)]
    exact z3
  rw [climbStep, h.chainOf hw, Option.bind_some, c1, Option.bind_some, h.depth a ha, Option.bind_some]
  simp only
  by_cases hc : (dep w : Int) - k - 1 < dep a
  · rw [if_pos hc, h.depth w hw, Option.bind_some, h.depth a ha, Option.bind_some, h.positionOf hw, Option.map_some]
    refine ⟨a, l.length, ?_, hlen, le_refl _, ha, hd, ?_, fun i y hi hy => hpos i y (by omega) hy, Or.inl rfl⟩
    · rw [show (dep w : Int) - dep a = (l.length : Int) by omega]
    · exact (way_split hl (le_refl _) hs).1
  · rw [if_neg hc]
    rcases c4 with ⟨_, c5⟩ | ⟨q, c5, c6, c7, c8⟩
    · omega
    · obtain ⟨-, hq⟩ := steps_dep h.R hw c7
      rw [c5, h.depth w hw, Option.bind_some, h.depth q c6, Option.bind_some, h.positionOf hw, Option.map_some]
      refine ⟨q, k + 1, ?_, by omega, by omega, c6, hq, (way_split hl (by omega) c7).1, fun i y hi hy => hpos i y (by omega) hy, Or.inr c8⟩
      rw [show (dep w : Int) - dep q = ((k + 1 : Nat) : Int) by omega]

theorem fuel_step {n fuel s s' : Nat} (hf : n < 2 ^ (fuel + 1) * s) (h : 2 * s < s') : n < 2 ^ fuel * s' := by
  refine lt_of_lt_of_le hf ?_
  rw [pow_succ, Nat.mul_assoc]
  exact Nat.mul_le_mul_left _ (by omega)

theorem fromU_spec (h : Ready g up dep x pos size chain) {u a : Nat} (hu : u < g.length) (ha : a < g.length) (uv : Int) : ∀ (fuel w : Nat) (l : List Nat), w < g.length → Way up a w l →
    (w = a ∨ g.length < 2 ^ fuel * size w) → dep w ≤ dep u → ∃ segs, fromU x u a uv (fuel + 1) (w : Int) = some segs ∧ segs.length ≤ fuel ∧
      (∀ s ∈ segs, s.Fits ∧ s.pathLength = uv) ∧ (segs.flatMap Seg.pairs).Perm (indexFrom pos (dep u - dep w) l) := by
  intro fuel
  induction fuel with
  | zero =>
    intro w l hw hl hf _
    have hwa : w = a := by
      rcases hf with hf | hf
      · exact hf
      · have := (h.hld w hw).2.1
        omega
    have hl0 : l = [] := by
      have := (steps_dep h.R hw (way_steps hl)).2
      subst hwa
      exact List.eq_nil_of_length_eq_zero (by omega)
    subst hl0
    exact ⟨[], by rw [fromU, if_pos (by omega)], le_refl _, by simp, List.Perm.refl _⟩
  | succ fuel ih =>
    intro w l hw hl hf hwu
    by_cases hwa : w = a
    · have hl0 : l = [] := by
        have := (steps_dep h.R hw (way_steps hl)).2
        subst hwa
        exact List.eq_nil_of_length_eq_zero (by omega)
      subst hl0
      exact ⟨[], by rw [fromU, if_pos (by omega)], Nat.zero_le _, by simp, List.Perm.refl _⟩
    · obtain ⟨p, len, e, l1, l2, p1, p2, p3, p4, p5⟩ := climbStep_spec h hw ha hl hwa
      obtain ⟨segs, i1, i2, i3, i4⟩ := ih p (l.drop len) p1 p3 (p5.imp_right (fuel_step (hf.resolve_left hwa))) (by omega)
      refine ⟨⟨(pos w : Int) + 1 - len, (pos w : Int) + 1, (dep u : Int) - dep w + len - 1, (dep u : Int) - dep w, uv, true⟩ :: segs, ?_, ?_, ?_, ?_⟩
      · rw [fromU, if_neg (by omega), e, Option.bind_some, h.depth u hu, Option.bind_some, h.depth w hw, Option.bind_some, i1, Option.map_some]
      · rw [List.length_cons]; omega
      · intro s hs
        rcases List.mem_cons.mp hs with rfl | hs
        · refine ⟨⟨by simp only; omega, ?_⟩, rfl⟩
          simp only [if_true]
          omega
        · exact i3 s hs
      · rw [List.flatMap_cons]
        conv_rhs => rw [← List.take_append_drop len l, indexFrom_append, List.length_take, min_eq_left l2, show dep u - dep w + len = dep u - dep p by omega]
        refine List.Perm.append ?_ i4
        refine List.Perm.trans (List.Perm.of_eq ?_) (List.reverse_perm _)
        apply List.ext_getElem?
        intro i
        have hlen : (indexFrom pos (dep u - dep w) (l.take len)).length = len := by rw [indexFrom_length, List.length_take, min_eq_left l2]
        by_cases hi : i < len
        · rw [List.getElem?_reverse (by omega), hlen, indexFrom_get, List.getElem?_take, if_pos (by omega), Seg.pairs]
          obtain ⟨y, hy⟩ : ∃ y, l[len - 1 - i]? = some y := ⟨_, List.getElem?_eq_getElem (by omega)⟩
          have := p4 _ y (by omega) hy
          rw [hy, List.getElem?_map, List.getElem?_range (by simp only; omega)]
          simp only [Option.map_some, if_true, Option.some.injEq, Prod.mk.injEq]
          omega
        · rw [List.getElem?_eq_none (by simp [Seg.pairs]; omega), List.getElem?_eq_none (by rw [List.length_reverse]; omega)]

theorem fromV_spec (h : Ready g up dep x pos size chain) {v a : Nat} (hv : v < g.length) (ha : a < g.length) (uv : Nat) : ∀ (fuel w : Nat) (l : List Nat), w < g.length → Way up a w l →
    (w = a ∨ g.length < 2 ^ fuel * size w) → dep w ≤ dep v → dep v - dep w + l.length ≤ uv → ∃ segs, fromV x v a uv (fuel + 1) (w : Int) = some segs ∧ segs.length ≤ fuel ∧
      (∀ s ∈ segs, s.Fits ∧ s.pathLength = uv) ∧ (segs.flatMap Seg.pairs).Perm (indexFrom pos (uv - (dep v - dep w) - l.length) l.reverse) := by
  intro fuel
  induction fuel with
  | zero =>
    intro w l hw hl hf _ _
    have hwa : w = a := by
      rcases hf with hf | hf
      · exact hf
      · have := (h.hld w hw).2.1
        omega
    have hl0 : l = [] := by
      have := (steps_dep h.R hw (way_steps hl)).2
      subst hwa
      exact List.eq_nil_of_length_eq_zero (by omega)
    subst hl0
    exact ⟨[], by rw [fromV, if_pos (by omega)], le_refl _, by simp, List.Perm.refl _⟩
  | succ fuel ih =>
    intro w l hw hl hf hwv huv
    by_cases hwa : w = a
    · have hl0 : l = [] := by
        have := (steps_dep h.R hw (way_steps hl)).2
        subst hwa
        exact List.eq_nil_of_length_eq_zero (by omega)
      subst hl0
      exact ⟨[], by rw [fromV, if_pos (by omega)], Nat.zero_le _, by simp, List.Perm.refl _⟩
    · obtain ⟨p, len, e, l1, l2, p1, p2, p3, p4, p5⟩ := climbStep_spec h hw ha hl hwa
      have hdl : (l.drop len).length = l.length - len := List.length_drop
      obtain ⟨segs, i1, i2, i3, i4⟩ := ih p (l.drop len) p1 p3 (p5.imp_right (fuel_step (hf.resolve_left hwa))) (by omega) (by omega)
      refine ⟨⟨(pos w : Int) + 1 - len, (pos w : Int) + 1, (uv : Int) - ((dep v : Int) - dep w) - len, (uv : Int) - ((dep v : Int) - dep w) - 1, uv, false⟩ :: segs, ?_, ?_, ?_, ?_⟩
      · rw [fromV, if_neg (by omega), e, Option.bind_some, h.depth v hv, Option.bind_some, h.depth w hw, Option.bind_some, i1, Option.map_some]
      · rw [List.length_cons]; omega
      · intro s hs
        rcases List.mem_cons.mp hs with rfl | hs
        · refine ⟨⟨by simp only; omega, ?_⟩, rfl⟩
          simp only [Bool.false_eq_true, if_false]
          omega
        · exact i3 s hs
      · rw [List.flatMap_cons]
        have hrev : l.reverse = (l.drop len).reverse ++ (l.take len).reverse := by rw [← List.reverse_append, List.take_append_drop]
        rw [hrev, indexFrom_append, List.length_reverse, hdl]
        rw [hdl, show uv - (dep v - dep p) - (l.length - len) = uv - (dep v - dep w) - l.length by omega] at i4
        refine List.Perm.trans List.perm_append_comm (List.Perm.append i4 (List.Perm.of_eq ?_))
        apply List.ext_getElem?
        intro i
        have htl : (l.take len).length = len := by rw [List.length_take, min_eq_left l2]
        by_cases hi : i < len
        · rw [indexFrom_get, List.getElem?_reverse (by omega), htl, List.getElem?_take, if_pos (by omega), Seg.pairs]
          obtain ⟨y, hy⟩ : ∃ y, l[len - 1 - i]? = some y := ⟨_, List.getElem?_eq_getElem (by omega)⟩
          have := p4 _ y (by omega) hy
          rw [hy, List.getElem?_map, List.getElem?_range (by simp only; omega)]
          simp only [Option.map_some, Bool.false_eq_true, if_false, Option.some.injEq, Prod.mk.injEq]
          omega
        · rw [List.getElem?_eq_none (by simp [Seg.pairs]; omega), List.getElem?_eq_none (by rw [indexFrom_length, List.length_reverse]; omega)]

/-! ### The path -/

theorem way_dep (R : Rooted g up dep) {a w y : Nat} {l : List Nat} (hw : w < g.length) (hl : Way up a w l) (hy : y ∈ l) :
    Below up y w ∧ dep a < dep y ∧ dep y ≤ dep w ∧ y < g.length := by
  obtain ⟨i, hi⟩ := List.mem_iff_getElem?.mp hy
  have h1 := way_get hl hi
  have h2 := (List.getElem?_eq_some_iff.mp hi).1
  obtain ⟨d1, d2⟩ := steps_dep R hw h1
  have d3 := (steps_dep R hw (way_steps hl)).2
  exact ⟨steps_below h1, by omega, by omega, d1⟩

theorem way_nodup (R : Rooted g up dep) {a : Nat} : ∀ {l : List Nat} {w : Nat}, w < g.length → Way up a w l → l.Nodup := by
  intro l
  induction l with
  | nil => intros; exact List.nodup_nil
  | cons x l ih =>
    rintro w hw ⟨h1, q, h2, h3⟩
    obtain ⟨r1, r2, _⟩ := R.ne hw h2
    refine List.nodup_cons.mpr ⟨fun hc => ?_, ih r1 h3⟩
    have := (way_dep R r1 h3 hc).2.2.1
    rw [h1] at this
    omega

theorem below_dep (R : Rooted g up dep) {a w : Nat} (hw : w < g.length) (h : Below up a w) : dep a ≤ dep w ∧ a < g.length := by
  obtain ⟨l, hl⟩ := way_of_below h
  obtain ⟨h1, h2⟩ := steps_dep R hw (way_steps hl)
  exact ⟨by omega, h1⟩

theorem way_chain (R : Rooted g up dep) {a : Nat} {T : List Nat} (hT : (a :: T).IsChain (Edge g)) : ∀ {l : List Nat} {w : Nat}, w < g.length → Way up a w l →
    (l ++ a :: T).IsChain (Edge g) ∧ (l ++ a :: T).head? = some w ∧ edgesOf up (l ++ a :: T) = l ++ edgesOf up (a :: T) := by
  intro l
  induction l with
  | nil => intro w _ h; cases h; exact ⟨hT, rfl, rfl⟩
  | cons x l ih =>
    rintro w hw ⟨rfl, q, h2, h3⟩
    obtain ⟨r1, r2, _⟩ := R.ne hw h2
    obtain ⟨i1, i2, i3⟩ := ih r1 h3
    refine ⟨?_, rfl, ?_⟩
    · cases hL : l ++ a :: T with
      | nil => simp at hL
      | cons y L =>
        rw [hL] at i1 i2
        simp only [List.head?_cons, Option.some.injEq] at i2
        subst i2
        rw [List.cons_append, hL]
        exact List.isChain_cons_cons.mpr ⟨(R.edge x y hw r1).mpr (Or.inl h2), i1⟩
    · rw [List.cons_append, List.cons_append, ← i3]
      cases hL : l ++ a :: T with
      | nil => simp at hL
      | cons y L =>
        rw [hL] at i2
        simp only [List.head?_cons, Option.some.injEq] at i2
        subst i2
        rw [edgesOf, List.tail_cons, List.zipWith_cons_cons, lower, if_pos h2]
        rfl

theorem edgesOf_snoc (v q : Nat) : ∀ (L : List Nat), L.getLast? = some q → edgesOf up (L ++ [v]) = edgesOf up L ++ [lower up q v] := by
  intro L
  induction L with
  | nil => intro h; simp at h
  | cons y L ih =>
    intro h
    cases L with
    | nil => simp at h; subst h; rfl
    | cons z L =>
      have := ih (by rwa [List.getLast?_cons_cons] at h)
      simp only [edgesOf, List.cons_append, List.tail_cons, List.zipWith_cons_cons] at this ⊢
      rw [this]

theorem way_reverse (R : Rooted g up dep) {a : Nat} : ∀ {l : List Nat} {w : Nat}, w < g.length → Way up a w l →
    (a :: l.reverse).IsChain (Edge g) ∧ (a :: l.reverse).getLast? = some w ∧ edgesOf up (a :: l.reverse) = l.reverse := by
  intro l
  induction l with
  | nil => intro w _ h; cases h; exact ⟨List.IsChain.singleton _, rfl, rfl⟩
  | cons x l ih =>
    rintro w hw ⟨rfl, q, h2, h3⟩
    obtain ⟨r1, r2, _⟩ := R.ne hw h2
    obtain ⟨i1, i2, i3⟩ := ih r1 h3
    rw [List.reverse_cons, ← List.cons_append]
    refine ⟨?_, List.getLast?_concat, ?_⟩
    · refine List.isChain_append.mpr ⟨i1, List.IsChain.singleton _, fun y hy z hz => ?_⟩
      rw [i2] at hy
      simp only [Option.mem_def, Option.some.injEq, List.head?_cons] at hy hz
      subst hy hz
      exact (R.edge _ _ r1 hw).mpr (Or.inr h2)
    · rw [edgesOf_snoc x q _ i2, i3, lower, if_neg ?_]
      intro hc
      have := (R.ne r1 hc).2.1
      omega

theorem reach_of_below (R : Rooted g up dep) {a w : Nat} (hw : w < g.length) (h : Below up a w) : Reach g w a ∧ Reach g a w := by
  obtain ⟨l, hl⟩ := way_of_below h
  clear h
  induction l generalizing w with
  | nil => cases hl; exact ⟨ReflTransGen.refl, ReflTransGen.refl⟩
  | cons x l ih =>
    obtain ⟨_, q, h2, h3⟩ := hl
    obtain ⟨r1, _, _⟩ := R.ne hw h2
    obtain ⟨i1, i2⟩ := ih r1 h3
    exact ⟨ReflTransGen.head ((R.edge w q hw r1).mpr (Or.inl h2)) i1, ReflTransGen.tail i2 ((R.edge q w r1 hw).mpr (Or.inr h2))⟩

theorem root_of (R : Rooted g up dep) : ∀ (d w : Nat), w < g.length → dep w = d → ∃ r, Below up r w ∧ up r = -1 := by
  intro d
  induction d with
  | zero =>
    intro w hw hd
    rcases R.depth w hw with ⟨d1, _⟩ | ⟨q, _, _, d3⟩
    · exact ⟨w, ReflTransGen.refl, d1⟩
    · omega
  | succ d ih =>
    intro w hw hd
    rcases R.depth w hw with ⟨_, d2⟩ | ⟨q, d1, d2, d3⟩
    · omega
    · obtain ⟨r, h1, h2⟩ := ih q d2 (by omega)
      exact ⟨r, ReflTransGen.head d1 h1, h2⟩

theorem reach_symm (R : Rooted g up dep) {u v : Nat} (h : Reach g u v) : Reach g v u := by
  induction h with
  | refl => exact ReflTransGen.refl
  | tail _ e ih => exact ReflTransGen.head (R.sym _ _ e) ih

/-- Two nodes of one tree have a common ancestor. -/
theorem common_of_reach (R : Rooted g up dep) {u v : Nat} (hu : u < g.length) (hv : v < g.length) (h : Reach g u v) : ∃ b, Below up b u ∧ Below up b v := by
  obtain ⟨r, h1, h2⟩ := root_of R _ u hu rfl
  obtain ⟨s, h3, h4⟩ := root_of R _ v hv rfl
  have hr := (below_dep R hu h1).2
  have hs := (below_dep R hv h3).2
  have k1 := reach_of_below R hu h1
  have k2 := reach_of_below R hv h3
  have e1 := (R.least r hr).mp h2 s ((k1.2.trans h).trans k2.1)
  have e2 := (R.least s hs).mp h4 r ((k2.2.trans (reach_symm R h)).trans k1.1)
  have : r = s := by omega
  subst this
  exact ⟨r, h1, h3⟩

theorem Ready.walk (h : Ready g up dep x pos size chain) {u v : Nat} (hu : u < g.length) (hv : v < g.length) (huv : Reach g u v) :
    ∃ l, IsPath g u v l ∧ ∀ fuel, g.length < 2 ^ fuel →
      (∃ segs, x.walkNodes (fuel + 1) u v = some (segs, (l.length : Int)) ∧ segs.length ≤ 2 * fuel + 1 ∧ (∀ s ∈ segs, s.Fits ∧ s.pathLength = l.length) ∧
        (segs.flatMap Seg.pairs).Perm (indexed pos l)) ∧
      ∃ segs, x.walkEdges (fuel + 1) u v = some (segs, (l.length : Int) - 1) ∧ segs.length ≤ 2 * fuel ∧ (∀ s ∈ segs, s.Fits ∧ s.pathLength = (l.length : Int) - 1) ∧
        (segs.flatMap Seg.pairs).Perm (indexed pos (edgesOf up l)) := by
  obtain ⟨b, b1, b2⟩ := common_of_reach h.R hu hv huv
  rcases h.common u v hu hv with ⟨a, e, a1, a2, a3⟩ | ⟨_, hn⟩
  swap
  · exact absurd b2 (hn b b1)
  obtain ⟨A, hA⟩ := way_of_below a1
  obtain ⟨B, hB⟩ := way_of_below a2
  have ha := (below_dep h.R hu a1).2
  have dA := (steps_dep h.R hu (way_steps hA)).2
  have dB := (steps_dep h.R hv (way_steps hB)).2
  obtain ⟨r1, r2, r3⟩ := way_reverse h.R hv hB
  obtain ⟨c1, c2, c3⟩ := way_chain h.R r1 hu hA
  rw [r3] at c3
  have hdist : lcaDistance x.lca u v = some (((A.length + B.length : Nat)) : Int) := by
    unfold lcaDistance
    rw [e, Option.bind_eq_bind, Option.bind_some, if_neg (by omega), h.depth u hu, h.depth a ha, h.depth v hv]
    show some _ = _
    congr 1
    push_cast
    omega
  have hlen : (A ++ a :: B.reverse).length = A.length + B.length + 1 := by simp; omega
  refine ⟨A ++ a :: B.reverse, ⟨c2, ?_, c1, ?_⟩, fun fuel hf => ⟨?_, ?_⟩⟩
  · rw [List.getLast?_append, r2]
    rfl
  · refine List.nodup_append.mpr ⟨way_nodup h.R hu hA, List.nodup_cons.mpr ⟨fun hc => ?_, (List.reverse_perm B).nodup_iff.mpr (way_nodup h.R hv hB)⟩, ?_⟩
    · have := (way_dep h.R hv hB (List.mem_reverse.mp hc)).2.1
      omega
    · rintro y hy z hz rfl
      obtain ⟨y1, y2, _, _⟩ := way_dep h.R hu hA hy
      rcases List.mem_cons.mp hz with rfl | hz
      · omega
      · obtain ⟨z1, _⟩ := way_dep h.R hv hB (List.mem_reverse.mp hz)
        have := (below_dep h.R ha (a3 y y1 z1)).1
        omega
  · have hfu : ∀ w, w < g.length → w = a ∨ g.length < 2 ^ fuel * size w := fun w hw => Or.inr (lt_of_lt_of_le hf (Nat.le_mul_of_pos_right _ (h.one w hw)))
    obtain ⟨s1, i1, i2, i3, i4⟩ := fromU_spec h hu ha (((A.length + B.length + 1 : Nat)) : Int) fuel u A hu hA (hfu u hu) (le_refl _)
    obtain ⟨s2, j1, j2, j3, j4⟩ := fromV_spec h hv ha (A.length + B.length + 1) fuel v B hv hB (hfu v hv) (le_refl _) (by omega)
    refine ⟨s1 ++ s2 ++ [⟨pos a, (pos a : Int) + 1, (dep u : Int) - dep a, (dep u : Int) - dep a, (((A.length + B.length + 1 : Nat)) : Int), false⟩], ?_, ?_, ?_, ?_⟩
    · rw [Ex.walkNodes, Ex.walk, e, Option.bind_some, hdist, Option.bind_some]
      simp only [if_true]
      rw [show ((A.length + B.length : Nat) : Int) + 1 = ((A.length + B.length + 1 : Nat) : Int) by push_cast; rfl, i1, Option.bind_some, j1, Option.bind_some,
        atA, h.positionOf ha, Option.bind_some, h.depth u hu, Option.bind_some, h.depth a ha, Option.map_some, Option.map_some, hlen]
    · simp only [List.length_append, List.length_singleton]
      omega
    · intro s hs
      rw [hlen]
      rcases List.mem_append.mp hs with hs | hs
      · rcases List.mem_append.mp hs with hs | hs
        · exact i3 s hs
        · exact j3 s hs
      · rw [List.mem_singleton.mp hs]
        refine ⟨⟨by simp only; omega, ?_⟩, rfl⟩
        simp only [Bool.false_eq_true, if_false]
        omega
    · rw [List.flatMap_append, List.flatMap_append]
      have hx : indexed pos (A ++ a :: B.reverse) = indexFrom pos 0 A ++ (indexFrom pos A.length [a] ++ indexFrom pos (A.length + 1) B.reverse) := by
        show indexFrom pos 0 (A ++ ([a] ++ B.reverse)) = _
        rw [indexFrom_append, indexFrom_append, Nat.zero_add]; rfl
      rw [hx, List.append_assoc]
      rw [Nat.sub_self] at i4
      rw [Nat.sub_self, Nat.sub_zero, show A.length + B.length + 1 - B.length = A.length + 1 by omega] at j4
      refine List.Perm.append i4 (List.Perm.trans List.perm_append_comm (List.Perm.append (List.Perm.of_eq ?_) j4))
      simp only [List.flatMap_cons, List.flatMap_nil, List.append_nil, Seg.pairs, indexFrom]
      rw [show ((pos a : Int) + 1 - pos a).toNat = 1 by omega]
      simp
      omega
  · have hfu : ∀ w, w < g.length → w = a ∨ g.length < 2 ^ fuel * size w := fun w hw => Or.inr (lt_of_lt_of_le hf (Nat.le_mul_of_pos_right _ (h.one w hw)))
    obtain ⟨s1, i1, i2, i3, i4⟩ := fromU_spec h hu ha (((A.length + B.length : Nat)) : Int) fuel u A hu hA (hfu u hu) (le_refl _)
    obtain ⟨s2, j1, j2, j3, j4⟩ := fromV_spec h hv ha (A.length + B.length) fuel v B hv hB (hfu v hv) (le_refl _) (by omega)
    have hl1 : ((A ++ a :: B.reverse).length : Int) - 1 = ((A.length + B.length : Nat) : Int) := by rw [hlen]; push_cast; omega
    rw [hl1, c3]
    refine ⟨s1 ++ s2, ?_, ?_, ?_, ?_⟩
    · rw [Ex.walkEdges, Ex.walk, e, Option.bind_some, hdist, Option.bind_some]
      simp only [Bool.false_eq_true, if_false, Int.add_zero]
      rw [i1, Option.bind_some, j1, Option.bind_some]
    · rw [List.length_append]
      omega
    · intro s hs
      rcases List.mem_append.mp hs with hs | hs
      · exact i3 s hs
      · exact j3 s hs
    · rw [List.flatMap_append]
      have hx : indexed pos (A ++ B.reverse) = indexFrom pos 0 A ++ indexFrom pos A.length B.reverse := by
        show indexFrom pos 0 (A ++ B.reverse) = _
        rw [indexFrom_append, Nat.zero_add]
      rw [hx]
      rw [Nat.sub_self] at i4
      rw [Nat.sub_self, Nat.sub_zero, show A.length + B.length - B.length = A.length by omega] at j4
      exact List.Perm.append i4 j4

/-! ### The object after its constructor -/

theorem dep_of {F : Forest} (T : Tr g up dep F) : ∀ (d v : Nat), v < g.length → dep v = d → depF 0 F v = dep v := by
  intro d
  induction d with
  | zero =>
    intro v hv hd
    obtain ⟨⟨q, v', b⟩, hc, rfl⟩ := List.mem_map.mp (by rw [Chain.calls_pre F T.full (-1)]; exact (T.lt v).mpr hv : v ∈ (F.calls (-1)).map (fun c => c.2.1))
    have hup := T.calls _ _ _ hc
    rcases dep_calls T.isDfs.nodup T.full (-1) 0 q v' b hc with ⟨_, h2⟩ | ⟨w, _, h2, _⟩
    · rw [h2, hd]
    · have : dep v' = dep w + 1 := (T.R.ne hv (hup.trans h2)).2.1
      simp only at hd
      omega
  | succ d ih =>
    intro v hv hd
    obtain ⟨⟨q, v', b⟩, hc, rfl⟩ := List.mem_map.mp (by rw [Chain.calls_pre F T.full (-1)]; exact (T.lt v).mpr hv : v ∈ (F.calls (-1)).map (fun c => c.2.1))
    have hup := T.calls _ _ _ hc
    simp only at hd hv ⊢
    rcases dep_calls T.isDfs.nodup T.full (-1) 0 q v' b hc with ⟨h1, _⟩ | ⟨w, _, h2, h3⟩
    · rcases T.R.depth v' hv with ⟨_, d2⟩ | ⟨q', d1, _, _⟩
      · omega
      · omega
    · obtain ⟨w1, w2, _⟩ := T.R.ne hv (hup.trans h2)
      rw [h3, ih w w1 (by omega)]
      omega

theorem ready_of (R : Rooted g up dep) (hm : (g.length : Int) < intMax) : ∃ (g' : List (List Nat)) (x : Ex) (pos size : Nat → Nat) (chain : Nat → Int),
    (∃ fuel0, ∀ fuel ≥ fuel0, buildEx fuel g = some (g', x)) ∧ Ready g up dep x pos size chain := by
  obtain ⟨F, hD, hmin, hr⟩ := dfs_exists g R.valid
  have T : Tr g up dep F := ⟨R, hD, full_of_calls (fun q v b hc => hD.answers q v b hc),
    fun x => by rw [(C95_dfs_all R.valid hD).mem_iff, List.mem_range], hmin⟩
  obtain ⟨t, ht, f1, hf1⟩ := lcaBuild_of R.valid hm hD hr
  obtain ⟨g', h, pos, size, chain, ⟨f2, hf2⟩, -, -, h1, -, h2, h3⟩ := C119_heavy_light R
  refine ⟨g', ⟨t, h⟩, pos, size, chain, ⟨f1 + f2, fun fuel hf => ?_⟩, R, fun u hu => ?_, fun u v hu hv => ?_, h1, fun u hu => ?_, h3⟩
  · rw [buildEx, hf1 fuel (by omega), Option.bind_some, hf2 fuel (by omega), Option.map_some]
  · rw [lcaDepth_spec ht T.full ((T.lt u).mpr hu) hu, dep_of T _ u hu rfl]
  · rcases lcaAncestor_spec ht T.full hD.nodup ((T.lt u).mpr hu) hu ((T.lt v).mpr hv) hv with ⟨a, e, a1, a2, a3⟩ | ⟨e, hn⟩
    · refine Or.inl ⟨a, e, (T.below hu).mp a1, (T.below hv).mp a2, fun b b1 b2 => ?_⟩
      have ha := (below_dep R hu ((T.below hu).mp a1)).2
      exact (T.below ha).mp (a3 b ((T.below hu).mpr b1) ((T.below hv).mpr b2))
    · exact Or.inr ⟨e, fun b b1 b2 => hn b ((T.below hu).mpr b1) ((T.below hv).mpr b2)⟩
  · have := (h2 u u hu hu).mp ReflTransGen.refl
    omega

/-- **C120**: `parent(u, k)` is the node `k` steps above `u`, and -1 when there is no such node (also for negative `k`).  The loop takes at
most `log2 n + 1` rounds. -/
theorem C120_parent (R : Rooted g up dep) (hm : (g.length : Int) < intMax) : ∃ (g' : List (List Nat)) (x : Ex),
    (∃ fuel0, ∀ fuel ≥ fuel0, buildEx fuel g = some (g', x)) ∧ ∀ (fuel u : Nat) (k : Int), u < g.length → g.length < 2 ^ fuel →
      (∀ m y : Nat, k = (m : Int) → Steps up m u y → x.parentK fuel u k = some (y : Int)) ∧
      ((∀ m y : Nat, k = (m : Int) → ¬ Steps up m u y) → x.parentK fuel u k = some (-1)) := by
  obtain ⟨g', x, pos, size, chain, hb, h⟩ := ready_of R hm
  exact ⟨g', x, hb, fun fuel u k hu hf => h.parentK hu hf k⟩

/-- **C120**: for `u` and `v` in one tree, the calls that `walk_nodes` makes stand for the positions of the nodes of the path from `u` to `v`,
each once and with its index on the path, and those that `walk_edges` makes for the positions of the lower nodes of its
edges.  The result, also an argument of every call, is the number of nodes or edges.  There are at most
`2 * log2 n + 3` calls. -/
theorem C120_walk (R : Rooted g up dep) (hm : (g.length : Int) < intMax) : ∃ (g' : List (List Nat)) (x : Ex) (pos : Nat → Nat),
    (∃ fuel0, ∀ fuel ≥ fuel0, buildEx fuel g = some (g', x)) ∧ (∀ u, u < g.length → x.position u = some (pos u : Int)) ∧
    ∀ u v, u < g.length → v < g.length → Reach g u v → ∃ l, IsPath g u v l ∧ ∀ fuel, g.length < 2 ^ fuel →
      (∃ segs, x.walkNodes (fuel + 1) u v = some (segs, (l.length : Int)) ∧ segs.length ≤ 2 * fuel + 1 ∧ (∀ s ∈ segs, s.Fits ∧ s.pathLength = l.length) ∧
        (segs.flatMap Seg.pairs).Perm (indexed pos l)) ∧
      ∃ segs, x.walkEdges (fuel + 1) u v = some (segs, (l.length : Int) - 1) ∧ segs.length ≤ 2 * fuel ∧ (∀ s ∈ segs, s.Fits ∧ s.pathLength = (l.length : Int) - 1) ∧
        (segs.flatMap Seg.pairs).Perm (indexed pos (edgesOf up l)) := by
  obtain ⟨g', x, pos, size, chain, hb, h⟩ := ready_of R hm
  exact ⟨g', x, pos, hb, fun u hu => h.positionOf hu, fun u v hu hv huv => h.walk hu hv huv⟩

/-- **C120** (finding): for nodes of different trees `walk_nodes` reads `positions[-1]`; `walk_edges` calls the visitor for both whole ways
to the roots, with path bounds that are negative, and returns -1. -/
theorem C120_apart : (buildEx 40 [[1], [0], []]).map (fun r => (r.2.walkNodes 5 1 2, r.2.walkEdges 5 1 2)) =
    some (none, some ([⟨0, 2, 1, 0, -1, true⟩, ⟨2, 3, -2, -2, -1, false⟩], -1)) := by decide +kernel

example : ∃ (g' : List (List Nat)) (x : Ex), ∃ fuel0, ∀ fuel ≥ fuel0, buildEx fuel tree = some (g', x) := by
  obtain ⟨g', x, _, h, _⟩ := C120_walk tree_rooted (by decide)
  exact ⟨g', x, h⟩

/-- From 1 over 0 and 2 to 4 in the tree of C119. -/
example : (buildEx 60 tree).map (fun r => (r.2.walkNodes 5 1 4, r.2.walkEdges 5 1 4, r.2.parentK 5 4 2, r.2.parentK 5 4 3)) =
    some (some ([⟨4, 5, 0, 0, 4, true⟩, ⟨3, 4, 3, 3, 4, false⟩, ⟨1, 2, 2, 2, 4, false⟩, ⟨0, 1, 1, 1, 4, false⟩], 4),
      some ([⟨4, 5, 0, 0, 3, true⟩, ⟨3, 4, 2, 2, 3, false⟩, ⟨1, 2, 1, 1, 3, false⟩], 3), some 0, some (-1)) := by decide +kernel

end Altruct.Hld
