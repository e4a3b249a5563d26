/-
C119: the heavy-light decomposition.
-/
import Verif.Hld.Run
import Mathlib.Algebra.Order.BigOperators.Group.List
import Mathlib.Data.List.Perm.Subperm

namespace Altruct.Hld

open GraphAlg Forest Relation

variable {g : List (List Nat)} {up : Nat → Int} {dep : Nat → Nat}

/-! ### The heavy child comes first -/

theorem heavyLoop_spec {n : Nat} {parents : List Int} {sizes : List Nat} {size : Nat → Nat} (hp : Rep parents n up) (hs : Rep sizes n size) {u : Nat} (hu : u < n) (L : List Nat)
    (hL : ∀ w ∈ L, w < n) : ∀ (es : List Nat) (i : Nat) (s : Nat × Nat), L.drop i = es →
    (∀ (j w : Nat), j < i → L[j]? = some w → (w : Int) ≠ up u → size w ≤ s.2) → (s = (0, 0) ∨ ∃ w, L[s.1]? = some w ∧ (w : Int) ≠ up u ∧ size w = s.2) →
    ∃ s', heavyLoop parents sizes u es i s = some s' ∧ (∀ w ∈ L, (w : Int) ≠ up u → size w ≤ s'.2) ∧ (s' = (0, 0) ∨ ∃ w, L[s'.1]? = some w ∧ (w : Int) ≠ up u ∧ size w = s'.2) := by
  intro es
  induction es with
  | nil =>
    intro i s hd h1 h2
    refine ⟨s, rfl, fun w hw hne => ?_, h2⟩
    obtain ⟨j, hj⟩ := List.mem_iff_getElem?.mp hw
    have hl : L.length ≤ i := List.drop_eq_nil_iff.mp hd
    have := (List.getElem?_eq_some_iff.mp hj).1
    exact h1 j w (by omega) hj hne
  | cons v es ih =>
    intro i s hd h1 h2
    have hi : L[i]? = some v := by
      have := congrArg List.head? hd
      rwa [List.head?_drop] at this
    have hd' : L.drop (i + 1) = es := by
      rw [← List.tail_drop, hd]; rfl
    have hv : v < n := hL v (List.mem_of_getElem? hi)
    rw [heavyLoop, hp.rd hu, Option.bind_some, hs.rd hv, Option.bind_some]
    by_cases h : (v : Int) ≠ up u ∧ s.2 < size v
    · rw [if_pos h]
      refine ih (i + 1) (i, size v) hd' (fun j w hj hw hne => ?_) (Or.inr ⟨v, hi, h.1, rfl⟩)
      by_cases hji : j = i
      · subst hji
        rw [hi] at hw
        cases hw
        exact le_refl _
      · exact le_trans (h1 j w (by omega) hw hne) (le_of_lt h.2)
    · rw [if_neg h]
      refine ih (i + 1) s hd' (fun j w hj hw hne => ?_) h2
      by_cases hji : j = i
      · subst hji
        rw [hi] at hw
        cases hw
        by_contra hc
        exact h ⟨hne, by omega⟩
      · exact h1 j w (by omega) hw hne

/-- The lists `es` before and `es'` after: the same edges, a largest child before the other ones. -/
def Heavy (up : Nat → Int) (size : Nat → Nat) (u : Nat) (es es' : List Nat) : Prop :=
  es'.Perm es ∧ ∀ h rest, es'.filter (fun w : Nat => decide ((w : Int) ≠ up u)) = h :: rest → ∀ w ∈ rest, size w ≤ size h

theorem swapFirst_spec {es : List Nat} {i a b : Nat} (ha : es[0]? = some a) (hb : es[i]? = some b) : ∃ es', swapFirst es i = some es' ∧ es'.Perm es ∧ es'[0]? = some b := by
  obtain ⟨h0, ha'⟩ := List.getElem?_eq_some_iff.mp ha
  obtain ⟨hi, hb'⟩ := List.getElem?_eq_some_iff.mp hb
  refine ⟨(es.set 0 b).set i a, ?_, ?_, ?_⟩
  · rw [swapFirst, rd, ha, Option.bind_some, rd, hb, Option.bind_some, wr, if_pos h0, Option.bind_some, wr, if_pos (by rw [List.length_set]; exact hi)]
  · rw [← ha', ← hb']
    exact List.set_set_perm h0 hi
  · by_cases h : i = 0
    · subst h
      rw [List.getElem?_set_self (by rw [List.length_set]; exact hi), ← ha, hb]
    · rw [List.getElem?_set_ne h, List.getElem?_set_self h0]

theorem heavyStep_spec {n : Nat} {parents : List Int} {sizes : List Nat} {size : Nat → Nat} (hp : Rep parents n up) (hs : Rep sizes n size) (h1 : ∀ x, x < n → 1 ≤ size x)
    {u : Nat} (hu : u < n) {G : List (List Nat)} {es : List Nat} (hes : G[u]? = some es) (hlt : ∀ w ∈ es, w < n) (hnd : es.Nodup) :
    ∃ es', heavyStep parents sizes u G = some (G.set u es') ∧ Heavy up size u es es' := by
  have huG : u < G.length := (List.getElem?_eq_some_iff.mp hes).1
  rw [heavyStep, rd, hes, Option.bind_some]
  by_cases hl : es.length < 2
  · rw [if_pos hl]
    refine ⟨es, ?_, List.Perm.refl _, fun h rest e w hw => ?_⟩
    · congr 1
      apply List.ext_getElem?
      intro j
      by_cases hj : u = j
      · subst hj; rw [List.getElem?_set_self huG, hes]
      · rw [List.getElem?_set_ne hj]
    · have := List.length_filter_le (fun w : Nat => decide ((w : Int) ≠ up u)) es
      rw [e, List.length_cons] at this
      have := List.length_pos_of_mem hw
      omega
  · rw [if_neg hl]
    obtain ⟨⟨hi, hz⟩, e1, m1, m2⟩ := heavyLoop_spec hp hs hu es hlt es 0 (0, 0) rfl (fun j w hj => by omega) (Or.inl rfl)
    -- there is a child, since at most one of the two neighbours is the parent
    have hchild : ∃ w ∈ es, (w : Int) ≠ up u := by
      by_contra hc
      push Not at hc
      match es, hl, hnd, hc with
      | a :: b :: l, _, hnd, hc =>
        have e1 := hc a (by simp)
        have e2 := hc b (by simp)
        have : a = b := by omega
        subst this
        simp at hnd
      | [a], hl, _, _ => simp at hl
      | [], hl, _, _ => simp at hl
    obtain ⟨c, hc1, hc2⟩ := hchild
    have hpos : 1 ≤ hz := le_trans (h1 c (hlt c hc1)) (m1 c hc1 hc2)
    obtain ⟨w, hw1, hw2, hw3⟩ := m2.resolve_left (fun h => by cases h; omega)
    obtain ⟨a, ha⟩ : ∃ a, es[0]? = some a := ⟨_, List.getElem?_eq_getElem (by omega)⟩
    obtain ⟨es', e2, p1, p2⟩ := swapFirst_spec ha hw1
    refine ⟨es', ?_, p1, fun h rest e x hx => ?_⟩
    · rw [e1, Option.bind_some, e2, Option.bind_some, wr, if_pos huG]
    · obtain ⟨l, rfl⟩ : ∃ l, es' = w :: l := by
        cases es' with
        | nil => simp at p2
        | cons y l => simp at p2; exact ⟨l, by rw [p2]⟩
      rw [List.filter_cons_of_pos (by simpa using hw2)] at e
      obtain ⟨e3, e4⟩ := List.cons.inj e
      subst e3
      rw [← e4] at hx
      obtain ⟨hx1, hx2⟩ := List.mem_filter.mp hx
      rw [hw3]
      exact m1 x (p1.mem_iff.mp (List.mem_cons_of_mem _ hx1)) (by simpa using hx2)

theorem heavy_all (R : Rooted g up dep) {parents : List Int} {sizes : List Nat} {size : Nat → Nat} (hp : Rep parents g.length up) (hs : Rep sizes g.length size)
    (h1 : ∀ x, x < g.length → 1 ≤ size x) : ∃ g', forUp (heavyStep parents sizes) 0 g.length g = some g' ∧ g'.length = g.length ∧
      ∀ (u : Nat) (es : List Nat), g[u]? = some es → ∃ es', g'[u]? = some es' ∧ Heavy up size u es es' := by
  obtain ⟨g', e, k1, k2, k3⟩ := forUp_spec (body := heavyStep parents sizes) (fun i G => G.length = g.length ∧ (∀ j, i ≤ j → G[j]? = g[j]?) ∧
      ∀ (u : Nat) (es : List Nat), u < i → g[u]? = some es → ∃ es', G[u]? = some es' ∧ Heavy up size u es es') (a := 0) (n := g.length) (s := g) (Nat.zero_le _)
    ⟨rfl, fun _ _ => rfl, fun u es hu => by omega⟩ (by
      rintro i G _ hi ⟨k1, k2, k3⟩
      obtain ⟨es, hes⟩ : ∃ es, g[i]? = some es := ⟨_, List.getElem?_eq_getElem hi⟩
      obtain ⟨es', e, hH⟩ := heavyStep_spec hp hs h1 hi (G := G) (es := es) (by rw [k2 i (le_refl _), hes]) (fun w hw => R.valid i w ⟨es, hes, hw⟩) (R.nodup i es hes)
      refine ⟨_, e, by rw [List.length_set]; exact k1, fun j hj => by rw [List.getElem?_set_ne (by omega)]; exact k2 j (by omega), fun u es0 hu he => ?_⟩
      by_cases hui : u = i
      · subst hui
        rw [hes] at he
        cases he
        exact ⟨es', List.getElem?_set_self (by rw [k1]; exact hi), hH⟩
      · rw [List.getElem?_set_ne (Ne.symm hui)]
        exact k3 u es0 (by omega) he)
  exact ⟨g', e, k1, fun u es hu => k3 u es (List.getElem?_eq_some_iff.mp hu).1 hu⟩

theorem rooted_perm (R : Rooted g up dep) {g' : List (List Nat)} (hl : g'.length = g.length) (h : ∀ (u : Nat) (es : List Nat), g[u]? = some es → ∃ es', g'[u]? = some es' ∧ es'.Perm es) :
    Rooted g' up dep := by
  have hback : ∀ (u : Nat) (es' : List Nat), g'[u]? = some es' → ∃ es, g[u]? = some es ∧ es'.Perm es := by
    intro u es' he
    have hu := (List.getElem?_eq_some_iff.mp he).1
    obtain ⟨es'', e, hp⟩ := h u g[u] (List.getElem?_eq_getElem (by omega))
    rw [he] at e
    cases e
    exact ⟨_, List.getElem?_eq_getElem (by omega), hp⟩
  have hedge : ∀ x y, Edge g' x y ↔ Edge g x y := by
    intro x y
    constructor
    · rintro ⟨l, h1, h2⟩
      obtain ⟨es, h3, h4⟩ := hback x l h1
      exact ⟨es, h3, h4.mem_iff.mp h2⟩
    · rintro ⟨l, h1, h2⟩
      obtain ⟨es, h3, h4⟩ := h x l h1
      exact ⟨es, h3, h4.mem_iff.mpr h2⟩
  have hreach : ∀ x y, Reach g' x y ↔ Reach g x y := by
    intro x y
    have : Edge g' = Edge g := by funext x y; exact propext (hedge x y)
    rw [Reach, Reach, this]
  refine ⟨fun u v he => by rw [hl]; exact R.valid u v ((hedge u v).mp he), fun v l he => ?_, fun x y hx hy => by rw [hedge]; exact R.edge x y (by omega) (by omega),
    fun v hv => by simp only [hreach]; exact R.least v (by omega), fun v hv => by rw [hl]; exact R.depth v (by omega)⟩
  obtain ⟨es, h1, h2⟩ := hback v l he
  exact h2.nodup_iff.mpr (R.nodup v es h1)

/-! ### Light nodes -/

/-- All top nodes but the first have less than half of the nodes below their parent. -/
def Light (size : Nat → Nat) : Forest → Prop
  | .nil => True
  | .skip _ r => Light size r
  | .node v cs r => (∀ w ∈ cs.heads.tail, 2 * size w < size v) ∧ Light size cs ∧ Light size r

theorem light_of {size : Nat → Nat} (hh : ∀ (u : Nat) (es : List Nat), g[u]? = some es → ∀ h rest, es.filter (fun w : Nat => decide ((w : Int) ≠ up u)) = h :: rest → ∀ w ∈ rest, size w ≤ size h) :
    ∀ (F : Forest) (p : Int), Good g up p F → Full F → F.pre.Nodup → (∀ x ∈ F.pre, size x = (subtree F x).length) → Light size F := by
  intro F
  induction F with
  | nil => intros; trivial
  | skip _ _ _ => intro p _ hf; exact hf.elim
  | node v cs r ih1 ih2 =>
    intro p hG hf hn hsz
    obtain ⟨_, ⟨es, hes, hheads⟩, hG1, hG2⟩ := hG
    obtain ⟨n1, n2, n3, n4, n5⟩ := nodup_node hn
    have hsn := fun u => subtree_node (u := u) hn
    have hszc : ∀ x ∈ cs.pre, size x = (subtree cs x).length := fun x hx => by rw [hsz x (by simp [pre, hx]), (hsn x).1 hx]
    refine ⟨fun w hw => ?_, ih1 v hG1 hf.1 n3 hszc, ih2 p hG2 hf.2 n4 (fun x hx => by rw [hsz x (by simp [pre, hx]), (hsn x).2 hx])⟩
    cases hcs : cs.heads with
    | nil => rw [hcs] at hw; simp at hw
    | cons h rest =>
      rw [hcs, List.tail_cons] at hw
      have hle := hh v es hes h rest (by rw [hheads, hcs]) w hw
      have hsum := sum_heads hf.1 n3
      rw [List.map_congr_left (g := size) (fun x hx => (hszc x (head_pre hf.1 hx)).symm), hcs, List.map_cons, List.sum_cons] at hsum
      have hw2 : size w ≤ (rest.map size).sum := List.le_sum_of_mem (List.mem_map_of_mem hw)
      have hv : size v = cs.pre.length + 1 := by rw [hsz v (by simp [pre]), subtree, if_pos rfl]; simp
      omega

/-! ### Chains -/

theorem chain_local {size : Nat → Nat} : ∀ (F : Forest) (p c : Int), Good g up p F → Full F → F.pre.Nodup → Light size F → p ≠ -2 →
    (∀ w ∈ (if c = -2 then F.heads else F.heads.tail), ∀ q : Nat, p = (q : Int) → 2 * size w < size q) →
    ∀ (v : Nat) (t : Int), (v, t) ∈ tops p c F → (t = up v ∧ ∀ q : Nat, up v = (q : Int) → 2 * size v < size q) ∨
      (∃ q : Nat, q ∈ F.pre ∧ up v = (q : Int) ∧ (q, t) ∈ tops p c F ∧ F.pre.idxOf v = F.pre.idxOf q + 1) ∨
      (c ≠ -2 ∧ t = c ∧ F.pre.idxOf v = 0 ∧ up v = p) := by
  intro F
  induction F with
  | nil => intro p c _ _ _ _ _ _ v t h; simp [tops] at h
  | skip _ _ _ => intro p c _ hf; exact hf.elim
  | node a cs r ih1 ih2 =>
    intro p c hG hf hn hL hp hlight v t hvt
    obtain ⟨hup, -, hG1, hG2⟩ := hG
    obtain ⟨n1, n2, n3, n4, n5⟩ := nodup_node hn
    obtain ⟨l1, l2, l3⟩ := hL
    have ht0 : (if c = -2 then p else c) ≠ -2 := by split <;> assumption
    have hmem : ∀ {x : Nat} {s p' c' : Int} {G : Forest}, Full G → (x, s) ∈ tops p' c' G → x ∈ G.pre := fun {x s p' c' G} hG h => by
      rw [← tops_fst hG p' c']; exact List.mem_map_of_mem (f := Prod.fst) h
    have ic : ∀ x ∈ cs.pre, (node a cs r).pre.idxOf x = cs.pre.idxOf x + 1 := fun x hx => by
      rw [pre, List.cons_append, List.idxOf_cons_ne _ (show a ≠ x from fun hc => n1 (hc ▸ hx)), List.idxOf_append_of_mem hx]
    have ir : ∀ x ∈ r.pre, (node a cs r).pre.idxOf x = r.pre.idxOf x + cs.pre.length + 1 := fun x hx => by
      rw [pre, List.cons_append, List.idxOf_cons_ne _ (show a ≠ x from fun hc => n2 (hc ▸ hx)), List.idxOf_append_of_notMem (fun hc => n5 x hc hx)]
      omega
    have ia : (node a cs r).pre.idxOf a = 0 := by simp [pre]
    have hvt' := hvt
    rw [tops, List.mem_cons, List.mem_append] at hvt'
    rcases hvt' with h | h | h
    · cases h
      by_cases hc : c = -2
      · left
        rw [if_pos hc]
        refine ⟨hup.symm, fun q hq => hlight _ (by rw [if_pos hc]; simp [Forest.heads]) q (hup ▸ hq)⟩
      · right; right
        rw [if_neg hc]
        exact ⟨hc, rfl, ia, hup⟩
    · have hvc := hmem hf.1 h
      rcases ih1 a _ hG1 hf.1 n3 l2 (by omega) (fun w hw q hq => by
          rw [if_neg ht0] at hw
          have : a = q := by omega
          subst this
          exact l1 w hw) v t h with h1 | ⟨q, hq, h2, h3, h4⟩ | ⟨_, h2, h3, h4⟩
      · exact Or.inl h1
      · refine Or.inr (Or.inl ⟨q, by simp [pre, hq], h2, ?_, ?_⟩)
        · rw [tops, List.mem_cons, List.mem_append]; exact Or.inr (Or.inl h3)
        · rw [ic v hvc, ic q hq, h4]
      · refine Or.inr (Or.inl ⟨a, by simp [pre], h4, ?_, ?_⟩)
        · rw [tops, h2]; exact List.mem_cons_self
        · rw [ic v hvc, h3, ia]
    · have hvr := hmem hf.2 h
      rcases ih2 p (-2) hG2 hf.2 n4 l3 hp (fun w hw q hq => by
          rw [if_pos rfl] at hw
          refine hlight w ?_ q hq
          split
          · simp [Forest.heads, hw]
          · simpa [Forest.heads] using hw) v t h with h1 | ⟨q, hq, h2, h3, h4⟩ | ⟨h1, _⟩
      · exact Or.inl h1
      · refine Or.inr (Or.inl ⟨q, by simp [pre, hq], h2, ?_, ?_⟩)
        · rw [tops, List.mem_cons, List.mem_append]; exact Or.inr (Or.inr h3)
        · rw [ir v hvr, ir q hq, h4]; omega
      · exact absurd rfl h1

theorem Steps.snoc {f : Nat → Int} : ∀ {k a b c : Nat}, Steps f k a b → f b = (c : Int) → Steps f (k + 1) a c := by
  intro k
  induction k with
  | zero => intro a b c h1 h2; cases h1; exact ⟨c, h2, rfl⟩
  | succ k ih => intro a b c ⟨q, h1, h2⟩ h3; exact ⟨q, h1, ih h2 h3⟩

/-- **C119**: for a forest, the constructor of `heavy_light_decomposition` ends without an access out of bounds and leaves every
adjacency list with the same edges in some order.  `position` numbers the nodes, `node` is its inverse, and the nodes
of the subtree of `u` are those at the `subtree_size(u)` positions from `position(u)` on.  The chain of `u` from its
top node down to `u` takes consecutive positions, `parent(u)` is the parent of the top node, and the subtree of `u` has
less than half of the nodes of the subtree of `parent(u)`. -/
theorem C119_heavy_light (R : Rooted g up dep) : ∃ (g' : List (List Nat)) (h : Hld) (pos size : Nat → Nat) (chain : Nat → Int),
    (∃ fuel0, ∀ fuel ≥ fuel0, build fuel g = some (g', h)) ∧
    g'.length = g.length ∧ (∀ (u : Nat) (es : List Nat), g[u]? = some es → ∃ es', g'[u]? = some es' ∧ es'.Perm es) ∧
    (∀ u, u < g.length → h.position u = some (pos u : Int) ∧ pos u + size u ≤ g.length ∧ h.node (pos u) = some (u : Int) ∧ h.subtreeSize u = some (size u) ∧ h.parent u = some (chain u)) ∧
    (∀ i, i < g.length → ∃ u, u < g.length ∧ pos u = i) ∧
    (∀ u x, u < g.length → x < g.length → (Below up u x ↔ pos u ≤ pos x ∧ pos x < pos u + size u)) ∧
    ∀ u, u < g.length → ∃ k top, Steps up k u top ∧ up top = chain u ∧ (∀ i ≤ k, ∃ x, x < g.length ∧ Steps up i u x ∧ pos x + i = pos u) ∧
      ∀ q : Nat, chain u = (q : Int) → q < g.length ∧ 2 * size u < size q := by
  -- the first traversal
  obtain ⟨F1, hD1, hm1, hr1⟩ := dfs_exists g R.valid
  have T1 : Tr g up dep F1 := ⟨R, hD1, full_of_calls (fun q v b hc => hD1.answers q v b hc),
    fun x => by rw [(C95_dfs_all R.valid hD1).mem_iff, List.mem_range], hm1⟩
  have hn1 := hD1.nodup
  obtain ⟨parents, sizes, fp, fs, e1, hp, hs, ha, -⟩ := run1 R F1 (-1) T1.good T1.full hn1 (fun x hx => (T1.lt x).mp hx) _ _ _ _ (Rep.replicate g.length (-1)) (Rep.replicate g.length 1) (fun _ _ => rfl)
  have hp : Rep parents g.length up := hp.congr fun x hx => (ha x ((T1.lt x).mpr hx)).1
  obtain ⟨f1, hf1⟩ := hr1 _ (visit1 g) _ _ ((feed_run_root visit1_enter visit1_leave F1 T1.full _).trans e1)
  -- the heavy children
  have hsz1 : ∀ x, x < g.length → fs x = (subtree F1 x).length := fun x hx => (ha x ((T1.lt x).mpr hx)).2
  obtain ⟨g', e2, hl, hheavy⟩ := heavy_all R hp hs (fun x hx => by
    obtain ⟨_, l, _, _, e⟩ := subtree_split T1.full hn1 ((T1.lt x).mpr hx)
    rw [hsz1 x hx, e]; simp)
  have hperm : ∀ (u : Nat) (es : List Nat), g[u]? = some es → ∃ es', g'[u]? = some es' ∧ es'.Perm es := fun u es hu => by
    obtain ⟨es', h1, h2⟩ := hheavy u es hu
    exact ⟨es', h1, h2.1⟩
  have R' := rooted_perm R hl hperm
  -- the second traversal
  obtain ⟨F, hD, hm, hr⟩ := dfs_exists g' R'.valid
  have T : Tr g' up dep F := ⟨R', hD, full_of_calls (fun q v b hc => hD.answers q v b hc),
    fun x => by rw [(C95_dfs_all R'.valid hD).mem_iff, List.mem_range], hm⟩
  have hn := hD.nodup
  have hlt : ∀ x, x ∈ F.pre ↔ x < g.length := fun x => by rw [T.lt, hl]
  have hlen : F.pre.length = g.length := by rw [(C95_dfs_all R'.valid hD).length_eq, List.length_range, hl]
  obtain ⟨w, fp', fq, fn, e3, -, -, w1, w2, w3, w4, w5, w6, -, -⟩ := run2 g.length F (-1) (-2) T.full hn (fun x hx => (hlt x).mp hx) 0 _ _ _ _ _ _ hp
    (Rep.replicate g.length (-1)) (Rep.replicate g.length (-1)) (by omega)
  obtain ⟨f2, hf2⟩ := hr _ visit2 _ _ ((feed_run_root visit2_enter visit2_leave F T.full _).trans e3)
  -- the sizes are the same in both traversals
  have hanc : ∀ u x, u < g.length → x < g.length → (F.Anc u x ↔ Below up u x) := fun u x _ hx => T.below (by omega)
  have hsame : ∀ x, x < g.length → fs x = (subtree F x).length := by
    intro x hx
    rw [hsz1 x hx]
    refine ((List.perm_ext_iff_of_nodup (subtree_nodup T1.full hn1 x) (subtree_nodup T.full hn x)).mpr fun y => ?_).length_eq
    rw [mem_subtree T1.full hn1, mem_subtree T.full hn]
    constructor
    · intro h
      have hy := (T1.lt y).mp (anc_mem_right h)
      exact (hanc x y hx hy).mpr ((T1.below hy).mp h)
    · intro h
      have hy := (hlt y).mp (anc_mem_right h)
      exact (T1.below hy).mpr ((hanc x y hx hy).mp h)
  have hlight := light_of (g := g') (up := up) (size := fs) (fun u es hu h rest e w hw => by
    have hul := (List.getElem?_eq_some_iff.mp hu).1
    obtain ⟨es', h1, h2⟩ := hheavy u g[u] (List.getElem?_eq_getElem (by omega))
    rw [hu] at h1
    cases h1
    exact h2.2 h rest e w hw) F (-1) T.good T.full hn (fun x hx => hsame x ((hlt x).mp hx))
  have hchain := chain_local (g := g') (up := up) (size := fs) F (-1) (-2) T.good T.full hn hlight (by omega) (fun w _ q hq => by omega)
  have htop : ∀ v, v < g.length → (v, fp' v) ∈ tops (-1) (-2) F := by
    intro v hv
    obtain ⟨⟨v', t⟩, h1, h2⟩ := List.mem_map.mp (by rw [tops_fst T.full]; exact (hlt v).mpr hv : v ∈ (tops (-1) (-2) F).map Prod.fst)
    simp only at h2
    subst h2
    rw [w4 _ t h1]
    exact h1
  have hpos : ∀ u, u < g.length → F.pre.idxOf u < F.pre.length := fun u hu => List.idxOf_lt_length_of_mem ((hlt u).mpr hu)
  have hfn : ∀ u, u < g.length → fn (F.pre.idxOf u) = (u : Int) := fun u hu => by
    have := w6 (F.pre.idxOf u) u (by rw [List.getElem?_eq_getElem (hpos u hu), List.getElem_idxOf])
    rwa [Nat.zero_add] at this
  refine ⟨g', ⟨w.parents, w.positions, w.nodes, sizes⟩, fun u => F.pre.idxOf u, fs, fp', ⟨f1 + f2, fun fuel hfu => ?_⟩, hl, hperm, fun u hu => ⟨?_, ?_, ?_, ?_, ?_⟩, fun i hi => ?_,
    fun u x hu hx => ?_, ?_⟩
  · rw [build, hf1 fuel (by omega), Option.bind_some, e2, Option.bind_some, hf2 fuel (by omega), Option.map_some]
  · rw [Hld.position, w2.rd hu, w5 u ((hlt u).mpr hu), Nat.zero_add]
  · obtain ⟨A, l, B, e1, e2⟩ := subtree_split T.full hn ((hlt u).mpr hu)
    have := congrArg List.length e1
    have hA : F.pre.idxOf u ≤ A.length := by
      rw [e1, e2]
      by_cases hm : u ∈ A
      · rw [List.append_assoc, List.idxOf_append_of_mem hm]; exact List.idxOf_le_length
      · rw [List.append_assoc, List.idxOf_append_of_notMem hm]; simp
    beta_reduce
    rw [hsame u hu, ← hlen, this, List.length_append, List.length_append]
    omega
  · rw [Hld.node, if_neg (by omega), Int.toNat_natCast, w3.rd (by rw [← hlen]; exact hpos u hu), hfn u hu]
  · rw [Hld.subtreeSize, hs.rd hu]
  · rw [Hld.parent, w1.rd hu]
  · have hi' : i < F.pre.length := by omega
    exact ⟨F.pre[i], (hlt _).mp (List.getElem_mem hi'), hn.idxOf_getElem i hi'⟩
  · rw [← hanc u x hu hx, subtree_interval T.full hn ((hlt u).mpr hu) ((hlt x).mpr hx), hsame u hu]
  · have main : ∀ (m u : Nat), F.pre.idxOf u ≤ m → u < g.length → ∃ k top, Steps up k u top ∧ up top = fp' u ∧
        (∀ i ≤ k, ∃ x, x < g.length ∧ Steps up i u x ∧ F.pre.idxOf x + i = F.pre.idxOf u) ∧ ∀ q : Nat, fp' u = (q : Int) → q < g.length ∧ 2 * fs u < fs q := by
      intro m
      induction m with
      | zero =>
        intro u hm hu
        rcases hchain u _ (htop u hu) with ⟨h1, h2⟩ | ⟨q, _, _, _, h4⟩ | ⟨h1, _⟩
        · refine ⟨0, u, rfl, h1.symm, fun i hi => ⟨u, hu, ?_, by omega⟩, fun q hq => ⟨(R.ne hu (h1 ▸ hq)).1, h2 q (h1 ▸ hq)⟩⟩
          rw [show i = 0 by omega]; rfl
        · omega
        · exact absurd rfl h1
      | succ m ih =>
        intro u hm hu
        rcases hchain u _ (htop u hu) with ⟨h1, h2⟩ | ⟨q, hq, h2, h3, h4⟩ | ⟨h1, _⟩
        · refine ⟨0, u, rfl, h1.symm, fun i hi => ⟨u, hu, ?_, by omega⟩, fun q hq => ⟨(R.ne hu (h1 ▸ hq)).1, h2 q (h1 ▸ hq)⟩⟩
          rw [show i = 0 by omega]; rfl
        · have hql := (hlt q).mp hq
          have hfq : fp' q = fp' u := w4 q _ h3
          obtain ⟨k, top, s1, s2, s3, s4⟩ := ih q (by omega) hql
          refine ⟨k + 1, top, ⟨q, h2, s1⟩, s2.trans hfq, fun i hi => ?_, fun q' hq' => ?_⟩
          · rcases i with _ | i
            · exact ⟨u, hu, rfl, by omega⟩
            · obtain ⟨x, x1, x2, x3⟩ := s3 i (by omega)
              exact ⟨x, x1, ⟨q, h2, x2⟩, by omega⟩
          · obtain ⟨b1, b2⟩ := s4 q' (by rw [hfq, hq'])
            refine ⟨b1, ?_⟩
            have hle : fs u ≤ fs q := by
              rw [hsame u hu, hsame q hql]
              refine (List.subperm_of_subset (subtree_nodup T.full hn u) fun y hy => ?_).length_le
              rw [mem_subtree T.full hn] at hy ⊢
              have hyl := (hlt y).mp (anc_mem_right hy)
              exact (hanc q y hql hyl).mpr (ReflTransGen.tail ((hanc u y hu hyl).mp hy) h2)
            omega
        · exact absurd rfl h1
    exact fun u hu => main _ u (le_refl _) hu

/-- **C119**: every way up over whole chains is short: `k` calls of `parent` in a row need a forest of at least `2 ^ k` nodes. -/
theorem C119_log (R : Rooted g up dep) : ∃ (g' : List (List Nat)) (h : Hld), (∃ fuel0, ∀ fuel ≥ fuel0, build fuel g = some (g', h)) ∧
    ∀ k u x, u < g.length → Steps (fun w => (h.parent w).getD (-1)) k u x → 2 ^ k ≤ g.length := by
  obtain ⟨g', h, pos, size, chain, hb, -, -, h1, -, h2, h3⟩ := C119_heavy_light R
  refine ⟨g', h, hb, ?_⟩
  have main : ∀ k u x, u < g.length → Steps (fun w => (h.parent w).getD (-1)) k u x → x < g.length ∧ 2 ^ k * size u ≤ size x := by
    intro k
    induction k with
    | zero => intro u x hu hs; cases hs; exact ⟨hu, by omega⟩
    | succ k ih =>
      rintro u x hu ⟨q, hq, hs⟩
      beta_reduce at hq
      rw [(h1 u hu).2.2.2.2, Option.getD_some] at hq
      obtain ⟨_, _, _, _, _, hl⟩ := h3 u hu
      obtain ⟨l1, l2⟩ := hl q hq
      obtain ⟨m1, m2⟩ := ih q x l1 hs
      refine ⟨m1, le_trans ?_ m2⟩
      rw [pow_succ, Nat.mul_assoc]
      exact Nat.mul_le_mul_left _ (by omega)
  intro k u x hu hs
  obtain ⟨m1, m2⟩ := main k u x hu hs
  have h4 := (h2 u u hu hu).mp ReflTransGen.refl
  have h5 := (h1 x m1).2.1
  calc 2 ^ k = 2 ^ k * 1 := (Nat.mul_one _).symm
    _ ≤ 2 ^ k * size u := Nat.mul_le_mul_left _ (by omega)
    _ ≤ g.length := by omega

/-- **C119** (finding): the swap exchanges the targets of two edges and leaves their other members where they are, so the weight
of the edge to `a` becomes the weight of the edge to `b`. -/
theorem C119_weights {W : Type} {a b : Nat} {wa wb : W} (l r : List (Nat × W)) :
    swapTargets ((a, wa) :: l ++ (b, wb) :: r) (l.length + 1) = some ((b, wa) :: l ++ (a, wb) :: r) := by
  simp [swapTargets, rd, wr]

/-! ### Examples -/

/-- A tree: node 0 has the children 1 and 2, node 2 has the children 3 and 4. -/
def tree : List (List Nat) := [[1, 2], [0], [0, 3, 4], [2], [2]]

/-- The parents in `tree`. -/
def treeUp (v : Nat) : Int := if v = 0 then -1 else if v ≤ 2 then 0 else 2

theorem tree_rooted : Rooted tree treeUp (fun v => if v = 0 then 0 else if v ≤ 2 then 1 else 2) := by
  have hedge : ∀ x y, Edge tree x y ↔ y ∈ tree.getD x [] := by
    intro x y
    rw [Edge, List.getD_eq_getElem?_getD]
    cases h : tree[x]? with
    | none => simp
    | some l => simp
  have hr : ∀ v, v < 5 → Reach tree v 0 := by
    have e : ∀ v w, w ∈ tree.getD v [] → Reach tree v w := fun v w h => ReflTransGen.single ((hedge v w).mpr h)
    intro v hv
    have : v = 0 ∨ v = 1 ∨ v = 2 ∨ v = 3 ∨ v = 4 := by omega
    rcases this with rfl | rfl | rfl | rfl | rfl
    · exact ReflTransGen.refl
    · exact e 1 0 (by decide)
    · exact e 2 0 (by decide)
    · exact (e 3 2 (by decide)).trans (e 2 0 (by decide))
    · exact (e 4 2 (by decide)).trans (e 2 0 (by decide))
  refine ⟨?_, ?_, ?_, ?_, ?_⟩
  · intro u v h
    rw [hedge] at h
    by_cases hu : u < 5
    · exact (by decide : ∀ u < 5, ∀ v ∈ tree.getD u [], v < tree.length) u hu v h
    · rw [List.getD_eq_getElem?_getD, List.getElem?_eq_none (by simp [tree]; omega)] at h
      simp at h
  · intro v l h
    exact (by decide : ∀ l ∈ tree, l.Nodup) l (List.mem_of_getElem? h)
  · intro x y hx hy
    rw [hedge]
    exact (by decide : ∀ x < 5, ∀ y < 5, (y ∈ tree.getD x [] ↔ treeUp x = (y : Int) ∨ treeUp y = (x : Int))) x hx y hy
  · intro v hv
    constructor
    · intro h w _
      have : v = 0 := by
        by_contra hc
        simp only [treeUp, if_neg hc] at h
        split at h <;> omega
      omega
    · intro h
      have := h 0 (hr v hv)
      rw [show v = 0 by omega]
      rfl
  · intro v hv
    have : v = 0 ∨ v = 1 ∨ v = 2 ∨ v = 3 ∨ v = 4 := by
      have : tree.length = 5 := rfl
      omega
    rcases this with rfl | rfl | rfl | rfl | rfl
    · exact Or.inl ⟨rfl, rfl⟩
    · exact Or.inr ⟨0, rfl, by decide, rfl⟩
    · exact Or.inr ⟨0, rfl, by decide, rfl⟩
    · exact Or.inr ⟨2, rfl, by decide, rfl⟩
    · exact Or.inr ⟨2, rfl, by decide, rfl⟩

example : ∃ (g' : List (List Nat)) (h : Hld), (∃ fuel0, ∀ fuel ≥ fuel0, build fuel tree = some (g', h)) ∧
    ∀ k u x, u < tree.length → Steps (fun w => (h.parent w).getD (-1)) k u x → 2 ^ k ≤ tree.length := C119_log tree_rooted

/-- The heavy child 2 of the root is visited first; the chain of 0, 2, 3 takes the positions 0, 1, 2. -/
example : (build 40 tree).map (fun r => (r.1, r.2.parents, r.2.positions, r.2.nodes, r.2.sizes)) =
    some ([[2, 1], [0], [3, 0, 4], [2], [2]], [-1, 0, -1, -1, 2], [0, 4, 1, 2, 3], [0, 2, 3, 4, 1], [5, 1, 3, 1, 1]) := by decide +kernel

end Altruct.Hld
