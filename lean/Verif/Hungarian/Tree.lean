/-
The alternating tree.
-/
import Verif.Hungarian.Model
import Mathlib.Data.Finset.Card
import Mathlib.Algebra.Order.Ring.Int
import Mathlib.Order.Interval.Finset.Nat

namespace Altruct.Hungarian

/-- A vector of `sz` elements that starts with `g 0, …, g (n - 1)`. -/
structure RepN (sz n : Nat) (v : List Int) (g : Nat → Int) : Prop where
  len : v.length = sz
  get : ∀ i, i < n → v[i]? = some (g i)

section
variable {sz n : Nat} {v : List Int} {g : Nat → Int}

theorem RepN.rd (h : RepN sz n v g) {i : Nat} (hi : i < n) : rd v i = some (g i) := h.get i hi

theorem RepN.congr (h : RepN sz n v g) {g' : Nat → Int} (e : ∀ i, i < n → g i = g' i) : RepN sz n v g' :=
  ⟨h.len, fun i hi => by rw [h.get i hi, e i hi]⟩

theorem RepN.wr (hn : n ≤ sz) (h : RepN sz n v g) {i : Nat} (hi : i < n) (x : Int) :
    wr v i x = some (v.set i x) ∧ RepN sz n (v.set i x) (Function.update g i x) := by
  refine ⟨by rw [Altruct.wr, if_pos (by rw [h.len]; omega)], by rw [List.length_set, h.len], fun j hj => ?_⟩
  by_cases hij : j = i
  · subst hij
    rw [List.getElem?_set_self (by rw [h.len]; omega), Function.update_self]
  · rw [List.getElem?_set_ne (Ne.symm hij), Function.update_of_ne hij, h.get j hj]

theorem updN_spec (hn : n ≤ sz) {f : Nat → Int → Option Int} {f' : Nat → Int} (hf : ∀ i, i < n → f i (g i) = some (f' i)) (h : RepN sz n v g) :
    ∃ v', updN f n v = some v' ∧ RepN sz n v' f' := by
  obtain ⟨v', e, h'⟩ := forUp_spec (body := fun i v => (Altruct.rd v i).bind fun x => (f i x).bind fun x => Altruct.wr v i x)
    (fun k v => RepN sz n v (fun i => if i < k then f' i else g i)) (a := 0) (n := n) (s := v) (Nat.zero_le _)
    (h.congr fun i _ => by rw [if_neg (by omega)]) (by
      intro i v _ hi hv
      refine ⟨_, ?_, (hv.wr hn hi (f' i)).2.congr fun j hj => ?_⟩
      · rw [hv.rd hi, Option.bind_some, if_neg (by omega), hf i hi, Option.bind_some, (hv.wr hn hi _).1]
      · by_cases hij : j = i
        · subst hij; rw [Function.update_self, if_pos (by omega)]
        · rw [Function.update_of_ne hij]
          by_cases hc : j < i
          · rw [if_pos hc, if_pos (by omega)]
          · rw [if_neg hc, if_neg (by omega)])
  exact ⟨v', e, h'.congr fun i hi => by rw [if_pos hi]⟩

theorem fillN_spec (hn : n ≤ sz) (x : Int) (hv : v.length = sz) : ∃ v', fillN x n v = some v' ∧ RepN sz n v' (fun _ => x) := by
  obtain ⟨v', e, h1, h2⟩ := forUp_spec (body := fun i v => Altruct.wr v i x) (fun k v => v.length = sz ∧ ∀ i, i < k → v[i]? = some x) (a := 0) (n := n) (s := v)
    (Nat.zero_le _) ⟨hv, fun i hi => by omega⟩ (by
      intro i v _ hi hv
      refine ⟨v.set i x, by rw [Altruct.wr, if_pos (by omega)], by rw [List.length_set]; exact hv.1, fun j hj => ?_⟩
      by_cases hij : j = i
      · subst hij; rw [List.getElem?_set_self (by omega)]
      · rw [List.getElem?_set_ne (Ne.symm hij)]; exact hv.2 j (by omega))
  exact ⟨v', e, h1, h2⟩

end

theorem forBrk_spec {σ : Type} {body : Nat → σ → Option (Bool × σ)} (P Q : Nat → σ → Prop) : ∀ (k y0 : Nat) (s : σ), P y0 s →
    (∀ y s, y0 ≤ y → y < y0 + k → P y s → (∃ s', body y s = some (false, s') ∧ P (y + 1) s') ∨ ∃ s', body y s = some (true, s') ∧ Q y s') →
    ∃ y s', forBrk body k y0 s = some (y, s') ∧ ((y = y0 + k ∧ P y s') ∨ (y < y0 + k ∧ Q y s')) := by
  intro k
  induction k with
  | zero => intro y0 s h _; exact ⟨y0, s, rfl, Or.inl ⟨rfl, h⟩⟩
  | succ k ih =>
    intro y0 s h hb
    rcases hb y0 s (le_refl _) (by omega) h with ⟨s', e, h'⟩ | ⟨s', e, h'⟩
    · obtain ⟨y, s2, e2, h2⟩ := ih (y0 + 1) s' h' (fun y s h1 h2 h3 => hb y s (by omega) (by omega) h3)
      refine ⟨y, s2, by rw [forBrk, e]; exact e2, ?_⟩
      rwa [show y0 + 1 + k = y0 + (k + 1) by omega] at h2
    · exact ⟨y0, s', by rw [forBrk, e]; rfl, Or.inr ⟨by omega, h'⟩⟩

theorem ix_nat (x : Nat) : ix (x : Int) = some x := by rw [ix, if_neg (by omega)]; rfl

/-- The state as sets and functions. -/
structure A where
  S : Finset Nat
  T : Finset Nat
  lx : Nat → Int
  ly : Nat → Int
  slack : Nat → Int
  slackx : Nat → Int
  prev : Nat → Int
  q : Nat → Int
  xy : Nat → Int
  yx : Nat → Int

/-- The indicator of a set. -/
def ind (F : Finset Nat) (x : Nat) : Int := if x ∈ F then 1 else 0

structure Rel (sz n : Nat) (st : St) (a : A) : Prop where
  S : RepN sz n st.S (ind a.S)
  T : RepN sz n st.T (ind a.T)
  lx : RepN sz n st.lx a.lx
  ly : RepN sz n st.ly a.ly
  slack : RepN sz n st.slack a.slack
  slackx : RepN sz n st.slackx a.slackx
  prev : RepN sz n st.prev a.prev
  q : RepN sz n st.q a.q
  xy : RepN sz n st.xy a.xy
  yx : RepN sz n st.yx a.yx

theorem ind_insert (F : Finset Nat) (x : Nat) : Function.update (ind F) x 1 = ind (insert x F) := by
  funext i
  by_cases h : i = x
  · subst h; rw [Function.update_self, ind, if_pos (Finset.mem_insert_self _ _)]
  · rw [Function.update_of_ne h, ind, ind]
    simp [h]

/-- Adding `x` to the tree. -/
def A.add (a : A) (w : Nat → Nat → Int) (x : Nat) (p : Int) : A :=
  { a with S := insert x a.S, prev := Function.update a.prev x p, slack := fun y => if a.lx x + a.ly y - w x y < a.slack y then a.lx x + a.ly y - w x y else a.slack y,
           slackx := fun y => if a.lx x + a.ly y - w x y < a.slack y then (x : Int) else a.slackx y }

section
variable {sz n : Nat} {c : List Int} {w : Nat → Nat → Int}

theorem addToTree_spec (hn : n ≤ sz) (hc : ∀ x y, x < n → y < n → costAt sz c x y = some (w x y)) {st : St} {a : A} (h : Rel sz n st a) {x : Nat} (hx : x < n) (p : Int) :
    ∃ st', addToTree n sz c x p st = some st' ∧ Rel sz n st' (a.add w x p) := by
  rw [addToTree, (h.S.wr hn hx 1).1, Option.bind_some, (h.prev.wr hn hx p).1, Option.bind_some]
  obtain ⟨st', e, h1⟩ := forUp_spec (body := relax sz c x) (fun k st => Rel sz n st { a.add w x p with
      slack := fun y => if y < k then (if a.lx x + a.ly y - w x y < a.slack y then a.lx x + a.ly y - w x y else a.slack y) else a.slack y
      slackx := fun y => if y < k then (if a.lx x + a.ly y - w x y < a.slack y then (x : Int) else a.slackx y) else a.slackx y }) (a := 0) (n := n)
    (s := { st with S := st.S.set x 1, prev := st.prev.set x p }) (Nat.zero_le _)
    ⟨by have := (h.S.wr hn hx 1).2; rw [ind_insert] at this; exact this, h.T, h.lx, h.ly, h.slack.congr fun i _ => by simp,
      h.slackx.congr fun i _ => by simp, (h.prev.wr hn hx p).2, h.q, h.xy, h.yx⟩ (by
      intro y st _ hy hr
      rw [relax, hr.lx.rd hx, Option.bind_some, hr.ly.rd hy, Option.bind_some, hc x y hx hy, Option.bind_some, hr.slack.rd hy, Option.bind_some]
      simp only [A.add, lt_irrefl, if_false] at hr ⊢
      by_cases hlt : a.lx x + a.ly y - w x y < a.slack y
      · rw [if_pos hlt, (hr.slack.wr hn hy _).1, Option.bind_some, (hr.slackx.wr hn hy _).1]
        refine ⟨_, rfl, hr.S, hr.T, hr.lx, hr.ly, (hr.slack.wr hn hy _).2.congr fun i hi => ?_, (hr.slackx.wr hn hy _).2.congr fun i hi => ?_, hr.prev, hr.q, hr.xy, hr.yx⟩
        · by_cases hiy : i = y
          · subst hiy; rw [Function.update_self]; simp [hlt]
          · rw [Function.update_of_ne hiy]
            simp only [show i < y + 1 ↔ i < y by omega]
        · by_cases hiy : i = y
          · subst hiy; rw [Function.update_self]; simp [hlt]
          · rw [Function.update_of_ne hiy]
            simp only [show i < y + 1 ↔ i < y by omega]
      · rw [if_neg hlt]
        refine ⟨_, rfl, hr.S, hr.T, hr.lx, hr.ly, hr.slack.congr fun i hi => ?_, hr.slackx.congr fun i hi => ?_, hr.prev, hr.q, hr.xy, hr.yx⟩
        · by_cases hiy : i = y
          · subst hiy; simp [hlt]
          · simp only [show i < y + 1 ↔ i < y by omega]
        · by_cases hiy : i = y
          · subst hiy; simp [hlt]
          · simp only [show i < y + 1 ↔ i < y by omega])
  refine ⟨st', e, h1.S, h1.T, h1.lx, h1.ly, h1.slack.congr fun i hi => ?_, h1.slackx.congr fun i hi => ?_, h1.prev, h1.q, h1.xy, h1.yx⟩
  · simp only [A.add, if_pos hi]
  · simp only [A.add, if_pos hi]

end

/-- The labels and the matching: exactly the vertices below `r` are matched. -/
structure Mat (n : Nat) (w : Nat → Nat → Int) (r : Nat) (lx ly xy yx : Nat → Int) : Prop where
  feas : ∀ x y, x < n → y < n → w x y ≤ lx x + ly y
  m1 : ∀ x, x < n → xy x = -1 ∨ ∃ y, y < n ∧ xy x = (y : Int) ∧ yx y = (x : Int) ∧ w x y = lx x + ly y
  m2 : ∀ y, y < n → yx y = -1 ∨ ∃ x, x < n ∧ yx y = (x : Int) ∧ xy x = (y : Int)
  exp : ∀ x, x < n → (xy x = -1 ↔ r ≤ x)

/-- The alternating tree. -/
structure Tree (n : Nat) (w : Nat → Nat → Int) (r : Nat) (rank : Nat → Nat) (a : A) : Prop where
  mat : Mat n w r a.lx a.ly a.xy a.yx
  rn : r < n
  rS : r ∈ a.S
  rp : a.prev r = -2
  Sn : ∀ x ∈ a.S, x < n
  Tn : ∀ y ∈ a.T, y < n
  TS : ∀ y ∈ a.T, ∃ x ∈ a.S, a.yx y = (x : Int)
  ST : ∀ x ∈ a.S, x ≠ r → ∃ y ∈ a.T, a.xy x = (y : Int) ∧ ∃ x' ∈ a.S, a.prev x = (x' : Int) ∧ rank x' < rank x ∧ w x' y = a.lx x' + a.ly y
  sl : ∀ y, y < n → y ∉ a.T → (∃ x ∈ a.S, a.slackx y = (x : Int) ∧ a.slack y = a.lx x + a.ly y - w x y) ∧ ∀ x ∈ a.S, a.slack y ≤ a.lx x + a.ly y - w x y
  rk : ∀ x ∈ a.S, rank x < a.S.card

/-- The queue holds vertices of the tree. -/
structure Que (a : A) (k : Nat) : Prop where
  card : k ≤ a.S.card
  mem : ∀ i, i < k → ∃ x ∈ a.S, a.q i = (x : Int)

section
variable {sz n r : Nat} {c : List Int} {w : Nat → Nat → Int} {rank : Nat → Nat} {a : A}

theorem card_le_of_lt {F : Finset Nat} (h : ∀ x ∈ F, x < n) : F.card ≤ n := by
  have h1 : F ⊆ Finset.range n := fun x hx => Finset.mem_range.mpr (h x hx)
  have := Finset.card_le_card h1
  rwa [Finset.card_range] at this

/-- A vertex outside the tree, matched with a vertex outside `T`. -/
theorem Tree.fresh (h : Tree n w r rank a) {y x' : Nat} (hyT : y ∉ a.T) (hyn : y < n) (hx' : a.yx y = (x' : Int)) : x' < n ∧ x' ∉ a.S ∧ a.xy x' = (y : Int) := by
  rcases h.mat.m2 y hyn with h1 | ⟨x1, h1, h2, h3⟩
  · rw [h1] at hx'; omega
  · obtain rfl : x1 = x' := by rw [h2] at hx'; omega
    refine ⟨h1, fun hS => ?_, h3⟩
    by_cases hr : x1 = r
    · subst hr
      have := (h.mat.exp x1 h1).mpr (le_refl _)
      omega
    · obtain ⟨y', h4, h5, _⟩ := h.ST x1 hS hr
      obtain rfl : y' = y := by rw [h3] at h5; omega
      exact hyT h4

/-- The state after an edge and a matched edge are added. -/
def A.grow (a : A) (w : Nat → Nat → Int) (y x' : Nat) (p : Int) (k : Nat) : A :=
  ({ a with T := insert y a.T, q := Function.update a.q k (x' : Int) } : A).add w x' p

theorem Tree.grow (h : Tree n w r rank a) {k : Nat} (hq : Que a k) {y x' x : Nat} (hyT : y ∉ a.T) (hyn : y < n) (hx' : a.yx y = (x' : Int)) (hx : x ∈ a.S)
    (ht : w x y = a.lx x + a.ly y) :
    Tree n w r (Function.update rank x' (rank x + 1)) (a.grow w y x' (x : Int) k) ∧ Que (a.grow w y x' (x : Int) k) (k + 1) ∧ k < n := by
  obtain ⟨h1, h2, h3⟩ := h.fresh hyT hyn hx'
  have hne : ∀ z ∈ a.S, z ≠ x' := fun z hz hc => h2 (hc ▸ hz)
  have hcard : (insert x' a.S).card = a.S.card + 1 := Finset.card_insert_of_notMem h2
  have hle : (insert x' a.S).card ≤ n := card_le_of_lt fun z hz => by
    rcases Finset.mem_insert.mp hz with rfl | hz
    · exact h1
    · exact h.Sn z hz
  have hSeq : (a.grow w y x' (x : Int) k).S = insert x' a.S := rfl
  have hTeq : (a.grow w y x' (x : Int) k).T = insert y a.T := rfl
  refine ⟨⟨h.mat, h.rn, Finset.mem_insert_of_mem h.rS, ?_, ?_, ?_, ?_, ?_, ?_, ?_⟩, ⟨?_, ?_⟩, ?_⟩
  · show Function.update a.prev x' (x : Int) r = -2
    rw [Function.update_of_ne (hne r h.rS)]; exact h.rp
  · rw [hSeq]
    intro z hz
    rcases Finset.mem_insert.mp hz with rfl | hz
    · exact h1
    · exact h.Sn z hz
  · rw [hTeq]
    intro z hz
    rcases Finset.mem_insert.mp hz with rfl | hz
    · exact hyn
    · exact h.Tn z hz
  · rw [hTeq, hSeq]
    intro z hz
    rcases Finset.mem_insert.mp hz with rfl | hz
    · exact ⟨x', Finset.mem_insert_self _ _, hx'⟩
    · obtain ⟨u, hu, e⟩ := h.TS z hz
      exact ⟨u, Finset.mem_insert_of_mem hu, e⟩
  · rw [hTeq, hSeq]
    intro z hz hzr
    show ∃ y' ∈ insert y a.T, a.xy z = (y' : Int) ∧ ∃ u ∈ insert x' a.S, Function.update a.prev x' (x : Int) z = (u : Int) ∧
      Function.update rank x' (rank x + 1) u < Function.update rank x' (rank x + 1) z ∧ w u y' = a.lx u + a.ly y'
    rcases Finset.mem_insert.mp hz with rfl | hz
    · refine ⟨y, Finset.mem_insert_self _ _, h3, x, Finset.mem_insert_of_mem hx, Function.update_self _ _ _, ?_, ht⟩
      rw [Function.update_self, Function.update_of_ne (hne x hx)]; omega
    · obtain ⟨y', g1, g2, u, g3, g4, g5, g6⟩ := h.ST z hz hzr
      refine ⟨y', Finset.mem_insert_of_mem g1, g2, u, Finset.mem_insert_of_mem g3, ?_, ?_, g6⟩
      · rw [Function.update_of_ne (hne z hz)]; exact g4
      · rw [Function.update_of_ne (hne z hz), Function.update_of_ne (hne u g3)]; exact g5
  · rw [hTeq, hSeq]
    intro z hzn hzT
    obtain ⟨⟨u, g1, g2, g3⟩, g4⟩ := h.sl z hzn (fun hc => hzT (Finset.mem_insert_of_mem hc))
    show (∃ x_1 ∈ insert x' a.S, (if a.lx x' + a.ly z - w x' z < a.slack z then (x' : Int) else a.slackx z) = (x_1 : Int) ∧
      (if a.lx x' + a.ly z - w x' z < a.slack z then a.lx x' + a.ly z - w x' z else a.slack z) = a.lx x_1 + a.ly z - w x_1 z) ∧
      ∀ x_1 ∈ insert x' a.S, (if a.lx x' + a.ly z - w x' z < a.slack z then a.lx x' + a.ly z - w x' z else a.slack z) ≤ a.lx x_1 + a.ly z - w x_1 z
    by_cases hlt : a.lx x' + a.ly z - w x' z < a.slack z
    · simp only [if_pos hlt]
      refine ⟨⟨x', Finset.mem_insert_self _ _, rfl, rfl⟩, fun v hv => ?_⟩
      rcases Finset.mem_insert.mp hv with rfl | hv
      · exact le_refl _
      · have := g4 v hv; omega
    · simp only [if_neg hlt]
      refine ⟨⟨u, Finset.mem_insert_of_mem g1, g2, g3⟩, fun v hv => ?_⟩
      rcases Finset.mem_insert.mp hv with rfl | hv
      · omega
      · exact g4 v hv
  · rw [hSeq, hcard]
    intro z hz
    rcases Finset.mem_insert.mp hz with rfl | hz
    · rw [Function.update_self]; have := h.rk x hx; omega
    · rw [Function.update_of_ne (hne z hz)]; have := h.rk z hz; omega
  · rw [hSeq, hcard]; have := hq.card; omega
  · rw [hSeq]
    intro i hi
    show ∃ x_1 ∈ insert x' a.S, Function.update a.q k (x' : Int) i = (x_1 : Int)
    by_cases hik : i = k
    · subst hik; exact ⟨x', Finset.mem_insert_self _ _, Function.update_self _ _ _⟩
    · obtain ⟨u, hu, e⟩ := hq.mem i (by omega)
      exact ⟨u, Finset.mem_insert_of_mem hu, by rw [Function.update_of_ne hik]; exact e⟩
  · have := hq.card; omega

theorem grow_spec (hn : n ≤ sz) (hc : ∀ x y, x < n → y < n → costAt sz c x y = some (w x y)) {st : St} (hr : Rel sz n st a) {k y x' x : Nat} (hk : k < n) (hyn : y < n)
    (hx' : x' < n) : ∃ T, wr st.T y 1 = some T ∧ ∃ st', grow n sz c (x' : Int) (x : Int) { st with T := T } k = some (st', k + 1) ∧ Rel sz n st' (a.grow w y x' (x : Int) k) := by
  refine ⟨_, (hr.T.wr hn hyn 1).1, ?_⟩
  rw [grow, (hr.q.wr hn hk _).1, Option.bind_some, ix_nat, Option.bind_some]
  obtain ⟨st', e, h⟩ := addToTree_spec hn hc (st := { st with T := st.T.set y 1, q := st.q.set k (x' : Int) })
    (a := { a with T := insert y a.T, q := Function.update a.q k (x' : Int) })
    ⟨hr.S, by have := (hr.T.wr hn hyn 1).2; rw [ind_insert] at this; exact this, hr.lx, hr.ly, hr.slack, hr.slackx, hr.prev, (hr.q.wr hn hk _).2, hr.xy, hr.yx⟩ hx' (x : Int)
  exact ⟨st', by rw [e]; rfl, h⟩

/-- A state of the search. -/
def Search (sz n : Nat) (w : Nat → Nat → Int) (r : Nat) (T0 : Finset Nat) (s : St × Nat) (a : A) : Prop :=
  Rel sz n s.1 a ∧ (∃ rank, Tree n w r rank a) ∧ Que a s.2 ∧ T0 ⊆ a.T

/-- An augmenting path is found. -/
def Found (sz n : Nat) (w : Nat → Nat → Int) (r x y : Nat) (st : St) : Prop :=
  y < n ∧ ∃ a, Rel sz n st a ∧ (∃ rank, Tree n w r rank a) ∧ x ∈ a.S ∧ a.yx y = -1 ∧ w x y = a.lx x + a.ly y

theorem ind_eq_zero {F : Finset Nat} {x : Nat} : ind F x = 0 ↔ x ∉ F := by
  rw [ind]; split <;> simp_all

theorem scan_spec (hn : n ≤ sz) (hc : ∀ x y, x < n → y < n → costAt sz c x y = some (w x y)) {T0 : Finset Nat} {s : St × Nat} (hs : Search sz n w r T0 s a) {x : Nat} (hx : x ∈ a.S) :
    ∃ y s', forBrk (scanStep n sz c x) n 0 s = some (y, s') ∧ ((y = n ∧ ∃ a', Search sz n w r T0 s' a') ∨ Found sz n w r x y s'.1) := by
  obtain ⟨y, s', e, h⟩ := forBrk_spec (body := scanStep n sz c x) (fun _ s => ∃ a, Search sz n w r T0 s a ∧ x ∈ a.S) (fun y s => Found sz n w r x y s.1) n 0 s ⟨a, hs, hx⟩ (by
    rintro y s _ hy ⟨a, ⟨hr, ⟨rank, ht⟩, hq, hT⟩, hx⟩
    have hyn : y < n := by omega
    have hxn := ht.Sn x hx
    rw [scanStep, hr.T.rd hyn, Option.bind_some]
    by_cases hyT : y ∈ a.T
    · rw [if_pos (by rw [ne_eq, ind_eq_zero]; simpa using hyT)]
      exact Or.inl ⟨s, rfl, a, ⟨hr, ⟨rank, ht⟩, hq, hT⟩, hx⟩
    · rw [if_neg (by rw [ne_eq, ind_eq_zero]; simpa using hyT), hc x y hxn hyn, Option.bind_some, hr.lx.rd hxn, Option.bind_some, hr.ly.rd hyn, Option.bind_some]
      by_cases he : w x y = a.lx x + a.ly y
      · rw [if_neg (by simpa using he), hr.yx.rd hyn, Option.bind_some]
        by_cases hv : a.yx y = -1
        · rw [if_pos hv]
          exact Or.inr ⟨s, rfl, hyn, a, hr, ⟨rank, ht⟩, hx, hv, he⟩
        · rw [if_neg hv]
          obtain ⟨x', h1, h2, h3⟩ := (ht.mat.m2 y hyn).resolve_left hv
          obtain ⟨g1, g2, g3⟩ := ht.grow hq hyT hyn h2 hx he
          obtain ⟨T, e1, st', e2, h4⟩ := grow_spec hn hc hr (x := x) g3 hyn h1
          rw [e1, Option.bind_some, h2, e2]
          exact Or.inl ⟨_, rfl, _, ⟨h4, ⟨_, g1⟩, g2, fun z hz => Finset.mem_insert_of_mem (hT hz)⟩, Finset.mem_insert_of_mem hx⟩
      · rw [if_pos (by simpa using he)]
        exact Or.inl ⟨s, rfl, a, ⟨hr, ⟨rank, ht⟩, hq, hT⟩, hx⟩)
  refine ⟨y, s', e, ?_⟩
  rcases h with ⟨h1, a', h2, _⟩ | ⟨_, h2⟩
  · exact Or.inl ⟨by omega, a', h2⟩
  · exact Or.inr h2

theorem bfs_spec (hn : n ≤ sz) (hc : ∀ x y, x < n → y < n → costAt sz c x y = some (w x y)) {T0 : Finset Nat} : ∀ (fuel k x y : Nat) (s : St × Nat) (a : A), k ≤ n → n < fuel + k →
    Search sz n w r T0 s a → y = n →
    ∃ x' y' s', bfs n sz c fuel k x y s = some (x', y', s') ∧ ((y' = n ∧ ∃ a', Search sz n w r T0 s' a') ∨ Found sz n w r x' y' s'.1) := by
  intro fuel
  induction fuel with
  | zero =>
    intro k x y s a hkn hf hs hy
    omega
  | succ fuel ih =>
    intro k x y s a hkn hf hs hy
    rw [bfs]
    by_cases hk : k < s.2
    · obtain ⟨hr, ⟨rank, ht⟩, hq, hT⟩ := id hs
      obtain ⟨x1, h1, h2⟩ := hq.mem k hk
      have h3 := hq.card
      have h4 := card_le_of_lt ht.Sn
      rw [if_pos hk, hr.q.rd (by omega), Option.bind_some, h2, ix_nat, Option.bind_some]
      obtain ⟨y1, s1, e1, h5⟩ := scan_spec hn hc hs h1
      rw [e1, Option.bind_some]
      rcases h5 with ⟨h5, a', h6⟩ | h5
      · simp only [h5, lt_irrefl, if_false]
        exact ih (k + 1) x1 n s1 a' (by omega) (by omega) h6 rfl
      · simp only [h5.1, if_true]
        exact ⟨x1, y1, s1, rfl, Or.inr h5⟩
    · rw [if_neg hk]
      exact ⟨x, y, s, rfl, Or.inl ⟨hy, a, hs⟩⟩

end

end Altruct.Hungarian
