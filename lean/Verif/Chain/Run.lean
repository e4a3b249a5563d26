/-
The chains: what the loops of `chain_decomposition` maintain.
-/
import Verif.Chain.Tour

namespace Altruct.Chain

open GraphAlg Relation

/-- The consecutive pairs of a list. -/
def adj : List Nat → List (Nat × Nat)
  | a :: b :: l => (a, b) :: adj (b :: l)
  | _ => []

abbrev Comp := List (List (List Nat))

/-- The pair is in some chain. -/
def InZ (Z : List (Nat × Comp)) (p : Nat × Nat) : Prop := ∃ z ∈ Z, ∃ ch ∈ z.2.flatten, p ∈ adj ch

/-- The first chain starts and ends at `s` and comes back over `y`. -/
def TopS (h : Option (List Nat)) (s y : Nat) : Prop := ∃ l, h = some (s :: l ++ [y, s])

theorem TopS.unique {h : Option (List Nat)} {s y s' y' : Nat} (h1 : TopS h s y) (h2 : TopS h s' y') : s = s' ∧ y = y' := by
  obtain ⟨l, rfl⟩ := h1
  obtain ⟨l', h2⟩ := h2
  have h2 := Option.some.inj h2
  rw [List.append_eq_append_iff_of_size_eq_right (by simp)] at h2
  simp at h2
  exact ⟨h2.1.1, h2.2.1⟩

/-- The tree edge above `y` is below a unit that has been processed. -/
def Cov (A : Nat → Nat → Prop) (done : List (Nat × Nat)) (y : Nat) : Prop := ∃ p ∈ done, A p.1 y ∧ p.1 ≠ y ∧ A y p.2

theorem Cov.mono {A : Nat → Nat → Prop} {done : List (Nat × Nat)} {y : Nat} (p : Nat × Nat) (h : Cov A done y) : Cov A (p :: done) y := by
  obtain ⟨q, h1, h2⟩ := h
  exact ⟨q, List.mem_cons_of_mem _ h1, h2⟩

/-- Between `t` and `x` no subtree is left upwards only over its parent: `x` is in the block below the parent of `t`. -/
def Blk (g : List (List Nat)) (par : Nat → Int) (A : Nat → Nat → Prop) (t x : Nat) : Prop :=
  A t x ∧ ∀ x' q : Nat, A t x' → A x' x → x' ≠ t → par x' = (q : Int) → ∃ s' d, Unit' g par A s' d ∧ A x' d ∧ A s' q ∧ s' ≠ q

structure Inv (g : List (List Nat)) (par : Nat → Int) (A : Nat → Nat → Prop) (ix : Nat → Nat) (done : List (Nat × Nat)) (Z : List (Nat × Comp)) (bid : Nat → Int) (m : Nat) : Prop where
  src : ∀ s d, (s, d) ∈ done → Unit' g par A s d ∧ ix s < m
  a1 : ∀ p, InZ Z p → p ∈ done ∨ (par p.1 = p.2 ∧ Cov A done p.1)
  a2 : ∀ p ∈ done, InZ Z p
  a3 : ∀ y q : Nat, Cov A done y → par y = q → InZ Z (y, q)
  vis : ∀ y, y < g.length → (bid y ≠ -1 ↔ (∃ d, (y, d) ∈ done) ∨ Cov A done y)
  root : ∀ z ∈ Z, par z.1 = -1 ∧ ix z.1 < m ∧ z.1 < g.length
  keys : (Z.map Prod.fst).Nodup
  tops : ∀ z ∈ Z, ∀ h ∈ z.2.map List.head?, ∃ s y, TopS h s y ∧ A z.1 s ∧ y < g.length ∧ par y = s ∧ (∃ d, (s, d) ∈ done) ∧ Cov A done y ∧
    ∀ s' d, Unit' g par A s' d → A y d → A s' s → s' = s
  b2 : ∀ z ∈ Z, ∀ h ∈ (z.2.map List.head?).drop 1, ∀ s y, TopS h s y → par s = -1 → ∃ y', y' ≠ y ∧ y' < g.length ∧ par y' = s
  b3 : ∀ z ∈ Z, ∀ h, (z.2.map List.head?).head? = some h → ∀ s y, TopS h s y → par s = -1 ∨ ∀ s' d, Unit' g par A s' d → A s' s → A s d → s' = s
  b5 : ∀ s d y, (s, d) ∈ done → par y = s → A y d → (∃ s' d', (s', d') ∈ done ∧ A s' s ∧ s' ≠ s ∧ A y d') ∨ ∃ z ∈ Z, ∃ h ∈ z.2.map List.head?, TopS h s y
  rng : ∀ z, Z.getLast? = some z → ∀ y, A z.1 y → bid y ≠ -1 → 0 ≤ bid y ∧ bid y < z.2.length
  grp : ∀ z ∈ Z, ∀ bi ∈ z.2, ∀ s t, TopS bi.head? s t → ∀ x, (∃ ch ∈ bi, x ∈ ch) ↔ x = s ∨ (Cov A done x ∧ Blk g par A t x)
  bidg : ∀ z, Z.getLast? = some z → ∀ y, A z.1 y → Cov A done y → (∀ d, (y, d) ∉ done) → ∃ h s t, (z.2.map List.head?)[(bid y).toNat]? = some h ∧ TopS h s t ∧ Blk g par A t y
  tord : (Z.flatMap fun z => z.2.map List.head?).Pairwise (fun h h' => ∀ s t s' t', TopS h s t → TopS h' s' t' → ix s ≤ ix s' ∧ t ≠ t')

section
variable {g : List (List Nat)} {par : Nat → Int} {A : Nat → Nat → Prop} {ix : Nat → Nat}

/-! ### One chain -/

theorem climb_spec (D : DT g par A ix) {parv bidv : List Int} {bid : Nat → Int} (hp : Rep parv g.length par) (hb : Rep bidv g.length bid) {u : Nat} (hu : bid u ≠ -1) :
    ∀ (fuel v : Nat) (acc : List Nat), A u v → ix v < fuel → ∃ (w : Nat) (l : List Nat), climb parv bidv fuel v (acc ++ [v]) = some (acc ++ l, w) ∧ A u w ∧ A w v ∧ bid w ≠ -1 ∧
      (∀ y, A w y → A y v → y ≠ w → bid y = -1) ∧ (∀ y, y ∈ l ↔ A w y ∧ A y v) ∧ l.head? = some v ∧
      (∀ a b, (a, b) ∈ adj l ↔ (par a = (b : Int) ∧ A w a ∧ A a v ∧ a ≠ w)) ∧
      (l = [w] ∨ ∃ l' y, l = l' ++ [y, w] ∧ par y = w ∧ A y v ∧ A w y) := by
  intro fuel
  induction fuel with
  | zero => intro v acc _ h; omega
  | succ fuel ih =>
    intro v acc h hf
    have hv := D.ltr h
    rw [climb, hb.rd hv, Option.bind_some]
    by_cases hbv : bid v = -1
    · rw [if_pos hbv]
      have hne : u ≠ v := by rintro rfl; exact hu hbv
      obtain ⟨q, h1, h2, h3, h4, h5⟩ := D.above h hne
      have hlt := D.ixlt h4 h2
      obtain ⟨w, l, e, k1, k2, k3, k4, k5, k6, k7, k8⟩ := ih q (acc ++ [v]) h5 (by omega)
      obtain ⟨_, _, _, h6⟩ := D.parent hv h1
      refine ⟨w, v :: l, ?_, k1, D.trans k2 h4, k3, fun y y1 y2 y3 => ?_, fun y => ?_, rfl, fun a b => ?_, ?_⟩
      · rw [hp.rd hv, Option.bind_some, h1, if_neg (by omega), Int.toNat_natCast, e]
        simp
      · rcases h6 y y2 with rfl | h7
        · exact hbv
        · exact k4 y y1 h7 y3
      · rw [List.mem_cons, k5]
        constructor
        · rintro (rfl | ⟨y1, y2⟩)
          · exact ⟨D.trans k2 h4, D.refl _ hv⟩
          · exact ⟨y1, D.trans y2 h4⟩
        · rintro ⟨y1, y2⟩
          exact (h6 y y2).imp id (fun h7 => ⟨y1, h7⟩)
      · cases l with
        | nil => simp at k6
        | cons x l =>
          rw [List.head?_cons] at k6
          cases k6
          rw [adj, List.mem_cons, k7]
          constructor
          · rintro (h7 | ⟨y1, y2, y3, y4⟩)
            · cases h7
              exact ⟨h1, D.trans k2 h4, D.refl _ hv, by rintro rfl; exact k3 hbv⟩
            · exact ⟨y1, y2, D.trans y3 h4, y4⟩
          · rintro ⟨y1, y2, y3, y4⟩
            rcases h6 a y3 with rfl | h7
            · left; rw [h1] at y1; rw [Int.natCast_inj.mp y1]
            · exact Or.inr ⟨y1, y2, h7, y4⟩
      · right
        rcases k8 with rfl | ⟨l', y, rfl, y1, y2, y3⟩
        · rw [List.head?_cons] at k6
          cases k6
          exact ⟨[], v, rfl, h1, D.refl _ hv, h4⟩
        · exact ⟨v :: l', y, rfl, y1, D.trans y2 h4, y3⟩
    · rw [if_neg hbv]
      refine ⟨v, [v], rfl, h, D.refl _ hv, hbv, fun y y1 y2 y3 => absurd (D.antisymm y2 y1) y3, fun y => ?_, rfl, fun a b => ?_, Or.inl rfl⟩
      · rw [List.mem_singleton]
        constructor
        · rintro rfl; exact ⟨D.refl _ hv, D.refl _ hv⟩
        · rintro ⟨y1, y2⟩; exact D.antisymm y2 y1
      · simp only [adj, List.not_mem_nil, false_iff]
        rintro ⟨_, y1, y2, y3⟩
        exact y3 (D.antisymm y2 y1)

theorem mark_spec {n : Nat} {w : Nat} (hw : w < n) : ∀ (l : List Nat) (bidv : List Int) (bid : Nat → Int), (∀ x ∈ l, x < n) → Rep bidv n bid →
    ∃ bidv', mark w l bidv = some bidv' ∧ Rep bidv' n (fun x => if x ∈ l then bid w else bid x) := by
  intro l
  induction l with
  | nil => intro bidv bid _ h; exact ⟨bidv, rfl, h.congr (fun _ _ => by simp)⟩
  | cons x l ih =>
    intro bidv bid hl h
    obtain ⟨bidv', e, r⟩ := ih _ _ (fun y hy => hl y (by simp [hy])) (h.set x (bid w))
    have hww : Function.update bid x (bid w) w = bid w := by
      by_cases hxw : w = x
      · rw [hxw, Function.update_self]
      · rw [Function.update_of_ne hxw]
    refine ⟨bidv', ?_, r.congr (fun y _ => ?_)⟩
    · rw [mark, h.rd hw, Option.bind_some, h.wr (hl x (by simp)), Option.bind_some, e]
    · rw [hww]
      by_cases h1 : y ∈ l
      · rw [if_pos h1, if_pos (List.mem_cons_of_mem _ h1)]
      · rw [if_neg h1]
        by_cases h2 : y = x
        · rw [if_pos (by rw [h2]; exact List.mem_cons_self), h2, Function.update_self]
        · rw [if_neg (by simp [h1, h2]), Function.update_of_ne h2]

theorem inZ_last {Z0 : List (Nat × Comp)} {r : Nat} {comp : Comp} {p : Nat × Nat} :
    InZ (Z0 ++ [(r, comp)]) p ↔ InZ Z0 p ∨ ∃ ch ∈ comp.flatten, p ∈ adj ch := by
  unfold InZ
  constructor
  · rintro ⟨z, hz, h⟩
    rcases List.mem_append.mp hz with hz | hz
    · exact Or.inl ⟨z, hz, h⟩
    · rw [List.mem_singleton] at hz; subst hz; exact Or.inr h
  · rintro (⟨z, hz, h⟩ | h)
    · exact ⟨z, List.mem_append_left _ hz, h⟩
    · exact ⟨(r, comp), by simp, h⟩

/-- A node is in one block only. -/
theorem blk_unique (D : DT g par A ix) {t t' s s' x : Nat} (h : Blk g par A t x) (h' : Blk g par A t' x) (p : par t = s) (p' : par t' = s')
    (c : ∀ a d, Unit' g par A a d → A t d → A a s → a = s) (c' : ∀ a d, Unit' g par A a d → A t' d → A a s' → a = s') : t = t' := by
  by_contra hne
  rcases D.linear h.1 h'.1 with k | k
  · obtain ⟨a, d, U, u1, u2, u3⟩ := h.2 t' s' k h'.1 (Ne.symm hne) p'
    exact u3 (c' a d U u1 u2)
  · obtain ⟨a, d, U, u1, u2, u3⟩ := h'.2 t s k h.1 hne p
    exact u3 (c a d U u1 u2)

/-- The effect of one chain on the invariant. -/
theorem addChain_spec (D : DT g par A ix) {parv bidv : List Int} {bid : Nat → Int} (hp : Rep parv g.length par) (hb : Rep bidv g.length bid)
    {done : List (Nat × Nat)} {Z0 : List (Nat × Comp)} {r : Nat} {comp : Comp} {u v fuel : Nat} (I : Inv g par A ix done (Z0 ++ [(r, comp)]) bid (ix u + 1))
    (hru : A r u) (U : Unit' g par A u v) (hcomp : ∀ s d, Unit' g par A s d → ix s < ix u → (s, d) ∈ done) (hfuel : ∀ x, x < g.length → ix x < fuel) :
    ∃ comp' bidv' bid', addChain fuel parv u v comp bidv = some (comp', bidv') ∧ Rep bidv' g.length bid' ∧
      Inv g par A ix ((u, v) :: done) (Z0 ++ [(r, comp')]) bid' (ix u + 1) := by
  have hul := D.ltl U.anc
  have hvl := D.ltr U.anc
  have hrl := (I.root (r, comp) (by simp)).1
  have hb1 := hb.set u (comp.length : Int)
  obtain ⟨w, l, e, k1, k2, k3, k4, k5, k6, k7, k8⟩ := climb_spec D hp hb1 (u := u) (by rw [Function.update_self]; omega) fuel v [u] U.anc (hfuel v hvl)
  have hwl := D.ltl k2
  obtain ⟨bidv', e2, r2⟩ := mark_spec hwl (u :: l) _ _ (fun x hx => by
    rcases List.mem_cons.mp hx with rfl | hx
    · exact hul
    · exact D.ltl ((k5 x).mp hx).2) hb1
  generalize hB : Function.update bid u (comp.length : Int) w = B at *
  have hwm : w ∈ u :: l := List.mem_cons_of_mem _ ((k5 w).mpr ⟨D.refl _ hwl, k2⟩)
  -- what is above the end of the way up has been covered before
  have habove : ∀ y, A u y → y ≠ u → A y w → Cov A done y := by
    intro y y1 y2 y3
    have hwu : w ≠ u := by rintro rfl; exact y2 (D.antisymm y3 y1)
    have hvis : bid w ≠ -1 := by rw [← hB, Function.update_of_ne hwu] at k3; exact k3
    have huw := D.ixlt k1 (Ne.symm hwu)
    rcases (I.vis w hwl).mp hvis with ⟨d, hd⟩ | ⟨⟨s, d⟩, hd, c1, c2, c3⟩
    · have := (I.src _ _ hd).2; omega
    · have hs := (I.src _ _ hd).2
      have hsu : A s u := by
        rcases D.linear c1 k1 with h | h
        · exact h
        · have h : A u s := h
          have := D.ixle h
          rw [D.ixinj (D.ltr h) hul (by omega)]; exact D.refl u hul
      refine ⟨(s, d), hd, D.trans hsu y1, ?_, D.trans y3 c3⟩
      have := D.ixlt y1 (Ne.symm y2)
      show s ≠ y
      rintro rfl
      omega
  have hcov : ∀ y, Cov A ((u, v) :: done) y ↔ Cov A done y ∨ (A u y ∧ y ≠ u ∧ A y v) := by
    intro y
    constructor
    · rintro ⟨p, hp, h1, h2, h3⟩
      rcases List.mem_cons.mp hp with rfl | hp
      · exact Or.inr ⟨h1, Ne.symm h2, h3⟩
      · exact Or.inl ⟨p, hp, h1, h2, h3⟩
    · rintro (h | ⟨h1, h2, h3⟩)
      · exact h.mono _
      · exact ⟨(u, v), by simp, h1, Ne.symm h2, h3⟩
  have hB0 : 0 ≤ B ∧ (w = u → B = comp.length) ∧ (w ≠ u → B < comp.length) := by
    by_cases hwu : w = u
    · rw [hwu, Function.update_self] at hB
      exact ⟨by omega, fun _ => hB.symm, fun h => absurd hwu h⟩
    · rw [Function.update_of_ne hwu] at hB
      obtain ⟨c1, c2⟩ := I.rng (r, comp) (by simp) w (D.trans hru k1) (by rw [hB]; exact k3)
      rw [hB] at c1 c2
      exact ⟨c1, fun h => absurd h hwu, fun _ => c2⟩
  -- the component afterwards
  have hcomp' : ∃ comp' : Comp, addChain fuel parv u v comp bidv = some (comp', bidv') ∧ (∀ ch, ch ∈ comp'.flatten ↔ ch ∈ comp.flatten ∨ ch = u :: l) ∧
      comp'.map List.head? = comp.map List.head? ++ (if w = u then [some (u :: l)] else []) ∧ B < comp'.length ∧ comp.length ≤ comp'.length ∧
      (w = u → comp' = comp ++ [[u :: l]]) ∧ (w ≠ u → ∃ bi0, comp[B.toNat]? = some bi0 ∧ comp' = comp.set B.toNat (bi0 ++ [u :: l])) := by
    unfold addChain
    rw [hb.wr hul, Option.bind_some, show [u, v] = [u] ++ [v] from rfl, e, Option.bind_some]
    rw [show mark w ([u] ++ l) _ = some bidv' from e2, Option.bind_some, r2.rd hwl, Option.bind_some, if_pos hwm]
    by_cases hwu : w = u
    · have hBc := hB0.2.1 hwu
      rw [if_pos hBc, if_neg (by omega), hBc, Int.toNat_natCast]
      refine ⟨comp ++ [[u :: l]], ?_, fun ch => by simp, ?_, by simp, by simp, fun _ => rfl, fun h => absurd hwu h⟩
      · simp [rd, wr]
      · rw [if_pos hwu]; simp
    · have hBc := hB0.2.2 hwu
      rw [if_neg (by omega), if_neg (by omega)]
      have hlt : B.toNat < comp.length := by omega
      obtain ⟨s, y, htop, _⟩ := I.tops (r, comp) (by simp) (comp[B.toNat].head?) (List.mem_map_of_mem (List.getElem_mem hlt))
      refine ⟨comp.set B.toNat (comp[B.toNat] ++ [u :: l]), ?_, fun ch => ?_, ?_, by simpa using hBc, by simp, fun h => absurd h hwu,
        fun _ => ⟨_, List.getElem?_eq_getElem hlt, rfl⟩⟩
      · simp [rd, wr, hlt]
      · constructor
        · intro h
          obtain ⟨bi, h1, h2⟩ := List.mem_flatten.mp h
          rcases List.mem_or_eq_of_mem_set h1 with h1 | rfl
          · exact Or.inl (List.mem_flatten.mpr ⟨bi, h1, h2⟩)
          · rcases List.mem_append.mp h2 with h2 | h2
            · exact Or.inl (List.mem_flatten.mpr ⟨_, List.getElem_mem hlt, h2⟩)
            · exact Or.inr (List.mem_singleton.mp h2)
        · rintro (h | rfl)
          · obtain ⟨bi, h1, h2⟩ := List.mem_flatten.mp h
            obtain ⟨i, hi, rfl⟩ := List.getElem_of_mem h1
            by_cases hiB : i = B.toNat
            · subst hiB
              exact List.mem_flatten.mpr ⟨_, List.mem_set hlt _, List.mem_append_left _ h2⟩
            · refine List.mem_flatten.mpr ⟨comp[i], List.mem_of_getElem? (i := i) ?_, h2⟩
              rw [List.getElem?_set_ne (Ne.symm hiB), List.getElem?_eq_getElem hi]
          · exact List.mem_flatten.mpr ⟨_, List.mem_set hlt _, List.mem_append_right _ (by simp)⟩
      · rw [if_neg hwu, List.append_nil, List.map_set]
        obtain ⟨l0, hl0⟩ := htop
        have : (comp[B.toNat] ++ [u :: l]).head? = comp[B.toNat].head? := by
          rw [List.head?_append, hl0]; rfl
        rw [this]
        apply List.ext_getElem
        · simp
        · intro i h1 h2
          rw [List.getElem_set]
          split
          · rename_i h; subst h; simp
          · rfl
  obtain ⟨comp', e3, hfl, hhd, hBlt, hle, hceq, hcset⟩ := hcomp'
  have hin : ∀ p, InZ (Z0 ++ [(r, comp')]) p ↔ InZ (Z0 ++ [(r, comp)]) p ∨ p ∈ adj (u :: l) := by
    intro p
    rw [inZ_last, inZ_last, or_assoc]
    refine or_congr Iff.rfl ?_
    constructor
    · rintro ⟨ch, h1, h2⟩
      rcases (hfl ch).mp h1 with h1 | rfl
      · exact Or.inl ⟨ch, h1, h2⟩
      · exact Or.inr h2
    · rintro (⟨ch, h1, h2⟩ | h2)
      · exact ⟨ch, (hfl ch).mpr (Or.inl h1), h2⟩
      · exact ⟨_, (hfl _).mpr (Or.inr rfl), h2⟩
  have hadj : ∀ a b, (a, b) ∈ adj (u :: l) ↔ ((a, b) = (u, v) ∨ (par a = (b : Int) ∧ A w a ∧ A a v ∧ a ≠ w)) := by
    intro a b
    cases l with
    | nil => simp at k6
    | cons x l =>
      rw [List.head?_cons] at k6
      cases k6
      rw [adj, List.mem_cons, k7]
  -- what a new first chain looks like
  have hnew : w = u → ∃ y, TopS (some (u :: l)) u y ∧ par y = u ∧ A y v ∧ A u y ∧ y ≠ u ∧ bid y = -1 := by
    rintro rfl
    rcases k8 with rfl | ⟨l', y, rfl, y1, y2, y3⟩
    · rw [List.head?_cons] at k6
      exact absurd (Option.some.inj k6) U.ne
    · have hyw := (D.parent (D.ltl y2) y1).1
      refine ⟨y, ⟨l', rfl⟩, y1, y2, y3, Ne.symm hyw, ?_⟩
      have := k4 y y3 y2 (Ne.symm hyw)
      rwa [Function.update_of_ne (Ne.symm hyw)] at this
  have hnot : ∀ s' y, A u y → y ≠ u → bid y = -1 → A s' u → ∀ d, Unit' g par A s' d → A y d → s' = u := by
    intro s' y y1 y2 y3 h1 d U' h2
    by_contra hne
    have hlt := D.ixlt h1 hne
    have := (I.vis y (D.ltr y1)).mpr (Or.inr ⟨(s', d), hcomp s' d U' hlt, D.trans h1 y1, ?_, h2⟩)
    · exact this y3
    · show s' ≠ y
      rintro rfl
      exact hne (D.antisymm h1 y1)
  have hmem : ∀ z, z ∈ Z0 ++ [(r, comp')] → ∃ z' ∈ Z0 ++ [(r, comp)], z'.1 = z.1 ∧ ((z.2.map List.head? = z'.2.map List.head?) ∨
      (w = u ∧ z' = (r, comp) ∧ z = (r, comp') ∧ z.2.map List.head? = comp.map List.head? ++ [some (u :: l)])) := by
    intro z hz
    rcases List.mem_append.mp hz with hz | hz
    · exact ⟨z, List.mem_append_left _ hz, rfl, Or.inl rfl⟩
    · rw [List.mem_singleton] at hz
      subst hz
      refine ⟨(r, comp), by simp, rfl, ?_⟩
      by_cases hwu : w = u
      · rw [if_pos hwu] at hhd; exact Or.inr ⟨hwu, rfl, rfl, hhd⟩
      · rw [if_neg hwu, List.append_nil] at hhd; exact Or.inl hhd
  have hold : ∀ s y, (∃ z ∈ Z0 ++ [(r, comp)], ∃ h ∈ z.2.map List.head?, TopS h s y) → ∃ z ∈ Z0 ++ [(r, comp')], ∃ h ∈ z.2.map List.head?, TopS h s y := by
    rintro s y ⟨z, hz, h, hh, ht⟩
    rcases List.mem_append.mp hz with hz | hz
    · exact ⟨z, List.mem_append_left _ hz, h, hh, ht⟩
    · rw [List.mem_singleton] at hz
      subst hz
      exact ⟨(r, comp'), by simp, h, by rw [hhd]; exact List.mem_append_left _ hh, ht⟩
  -- the blocks
  have hfresh : ∀ x, Cov A ((u, v) :: done) x → ¬ Cov A done x → A w x ∧ A x v ∧ x ≠ w := by
    intro x hx hn
    rcases (hcov x).mp hx with h | ⟨h1, h2, h3⟩
    · exact absurd h hn
    · have hxw : ¬ A x w := fun h => hn (habove x h1 h2 h)
      rcases D.linear k2 h3 with h | h
      · exact ⟨h, h3, fun e => hxw (by rw [e]; exact D.refl w hwl)⟩
      · exact absurd h hxw
  have htops : ∀ h ∈ (Z0 ++ [(r, comp)]).flatMap (fun z => z.2.map List.head?), ∀ s t, TopS h s t → par t = s ∧ (∃ d, (s, d) ∈ done) ∧ Cov A done t ∧
      ∀ s' d, Unit' g par A s' d → A t d → A s' s → s' = s := by
    intro h hh s t ht
    obtain ⟨z, hz, hh⟩ := List.mem_flatMap.mp hh
    obtain ⟨s1, t1, c1, c2, c3, c4, c5, c6, c7⟩ := I.tops z hz h hh
    obtain ⟨rfl, rfl⟩ := TopS.unique c1 ht
    exact ⟨c4, c5, c6, c7⟩
  have hw0 : w ≠ u → ∃ h0 s0 t0, (comp.map List.head?)[B.toNat]? = some h0 ∧ TopS h0 s0 t0 ∧ Blk g par A t0 w ∧ par t0 = s0 ∧ (∃ d, (s0, d) ∈ done) ∧
      ∀ s' d, Unit' g par A s' d → A t0 d → A s' s0 → s' = s0 := by
    intro hwu
    have hwu' : bid w = B := by rw [← hB, Function.update_of_ne hwu]
    obtain ⟨h0, s0, t0, c1, c2, c3⟩ := I.bidg (r, comp) (by simp) w (D.trans hru k1) (habove w k1 hwu (D.refl w hwl)) (fun d hd => by
      have := (I.src _ _ hd).2
      have := D.ixlt k1 (Ne.symm hwu)
      omega)
    rw [hwu'] at c1
    obtain ⟨d1, d2, d3, d4⟩ := htops h0 (List.mem_flatMap.mpr ⟨(r, comp), by simp, List.mem_of_getElem? c1⟩) s0 t0 c2
    exact ⟨h0, s0, t0, c1, c2, c3, d1, d2, d4⟩
  have hblkw : w ≠ u → ∀ t0, Blk g par A t0 w → ∀ x, A w x → A x v → Blk g par A t0 x := by
    intro hwu t0 hb0 x x1 x2
    refine ⟨D.trans hb0.1 x1, fun x' q y1 y2 y3 hq => ?_⟩
    by_cases hxw : A x' w
    · exact hb0.2 x' q y1 hxw y3 hq
    · have hwx' : A w x' := (D.linear x1 y2).resolve_right hxw
      have hne : w ≠ x' := by rintro rfl; exact hxw hwx'
      have hwq : A w q := ((D.parent (D.ltr hwx') hq).2.2.2 w hwx').resolve_left hne
      exact ⟨u, v, U, D.trans y2 x2, D.trans k1 hwq, fun e => hwu (D.antisymm (by rw [e]; exact hwq) k1)⟩
  have hblku : w = u → ∀ y, par y = u → A y v → A u y → y ≠ u → ∀ x, A y x → A x v → Blk g par A y x := by
    intro hwu y y1 y2 y3 y4 x x1 x2
    refine ⟨x1, fun x' q z1 z2 z3 hq => ?_⟩
    have hyq : A y q := ((D.parent (D.ltr z1) hq).2.2.2 y z1).resolve_left (Ne.symm z3)
    exact ⟨u, v, U, D.trans z2 x2, D.trans y3 hyq, fun e => y4 (D.antisymm (by rw [e]; exact hyq) y3)⟩
  have hgen : ∀ z ∈ Z0 ++ [(r, comp)], ∀ bi ∈ z.2, ∀ s t, TopS bi.head? s t →
      (w ≠ u → ∀ h0 s0 t0, (comp.map List.head?)[B.toNat]? = some h0 → TopS h0 s0 t0 → t ≠ t0) →
      ∀ x, (∃ ch ∈ bi, x ∈ ch) ↔ x = s ∨ (Cov A ((u, v) :: done) x ∧ Blk g par A t x) := by
    intro z hz bi hbi s t ht hne x
    rw [I.grp z hz bi hbi s t ht x]
    refine or_congr Iff.rfl ⟨fun h => ⟨h.1.mono _, h.2⟩, fun h => ⟨?_, h.2⟩⟩
    by_contra hn
    obtain ⟨x1, x2, x3⟩ := hfresh x h.1 hn
    obtain ⟨d1, d2, d3, d4⟩ := htops bi.head? (List.mem_flatMap.mpr ⟨z, hz, List.mem_map_of_mem hbi⟩) s t ht
    by_cases hwu : w = u
    · obtain ⟨y, t1, t2, t3, t4, t5, t6⟩ := hnew hwu
      have hyx : A y x := by
        rcases D.linear t3 x2 with k | k
        · exact k
        · rcases (D.parent (D.ltl t3) t2).2.2.2 x k with k | k
          · rw [k]; exact D.refl y (D.ltl t3)
          · exact absurd (D.antisymm (by rw [hwu] at x1; exact x1) k) (by rw [hwu] at x3; exact Ne.symm x3)
      have := blk_unique D h.2 (hblku hwu y t2 t3 t4 t5 x hyx x2) d1 t2 d4 (fun s' d U' c1 c2 => hnot s' y t4 t5 t6 c2 d U' c1)
      rw [this] at d3
      exact (I.vis y (D.ltl t3)).mpr (Or.inr d3) t6
    · obtain ⟨h0, s0, t0, c1, c2, c3, c4, c5, c6⟩ := hw0 hwu
      exact hne hwu h0 s0 t0 c1 c2 (blk_unique D h.2 (hblkw hwu t0 c3 x x1 x2) d1 c4 d4 c6)
  have htp := I.tord
  rw [List.flatMap_append, List.flatMap_singleton, List.pairwise_append] at htp
  refine ⟨comp', bidv', _, e3, r2, ?_, ?_, ?_, ?_, ?_, ?_, ?_, ?_, ?_, ?_, ?_, ?_, ?_, ?_, ?_⟩
  · intro s d h
    rcases List.mem_cons.mp h with h | h
    · cases h; exact ⟨U, by omega⟩
    · exact I.src s d h
  · rintro ⟨a, b⟩ hp
    rcases (hin _).mp hp with h | h
    · rcases I.a1 _ h with h | ⟨h1, h2⟩
      · exact Or.inl (List.mem_cons_of_mem _ h)
      · exact Or.inr ⟨h1, h2.mono _⟩
    · rcases (hadj _ _).mp h with h | ⟨h1, h2, h3, h4⟩
      · left; rw [h]; exact List.mem_cons_self
      · right
        refine ⟨h1, (hcov _).mpr (Or.inr ⟨D.trans k1 h2, ?_, h3⟩)⟩
        rintro rfl
        exact h4 (D.antisymm k1 h2)
  · intro p hp
    rw [hin]
    rcases List.mem_cons.mp hp with rfl | hp
    · exact Or.inr ((hadj _ _).mpr (Or.inl rfl))
    · exact Or.inl (I.a2 p hp)
  · intro y q hc hq
    rw [hin]
    rcases (hcov y).mp hc with h | ⟨h1, h2, h3⟩
    · exact Or.inl (I.a3 y q h hq)
    · rcases D.linear k2 h3 with h | h
      · by_cases hyw : y = w
        · exact Or.inl (I.a3 y q (habove y h1 h2 (by rw [hyw]; exact D.refl _ hwl)) hq)
        · exact Or.inr ((hadj _ _).mpr (Or.inr ⟨hq, h, h3, hyw⟩))
      · exact Or.inl (I.a3 y q (habove y h1 h2 h) hq)
  · intro y hy
    by_cases hyl : y ∈ u :: l
    · rw [if_pos hyl]
      refine ⟨fun _ => ?_, fun _ => by omega⟩
      by_cases hyu : y = u
      · exact Or.inl ⟨v, by rw [hyu]; exact List.mem_cons_self⟩
      · have := (k5 y).mp ((List.mem_cons.mp hyl).resolve_left hyu)
        exact Or.inr ((hcov y).mpr (Or.inr ⟨D.trans k1 this.1, hyu, this.2⟩))
    · rw [if_neg hyl]
      have hyu : y ≠ u := fun h => hyl (by rw [h]; exact List.mem_cons_self)
      rw [Function.update_of_ne hyu, I.vis y hy, hcov]
      constructor
      · rintro (⟨d, h⟩ | h)
        · exact Or.inl ⟨d, List.mem_cons_of_mem _ h⟩
        · exact Or.inr (Or.inl h)
      · rintro (⟨d, h⟩ | h | ⟨h1, h2, h3⟩)
        · rcases List.mem_cons.mp h with h | h
          · cases h; exact absurd rfl hyu
          · exact Or.inl ⟨d, h⟩
        · exact Or.inr h
        · right
          refine habove y h1 h2 ?_
          rcases D.linear k2 h3 with h | h
          · exact absurd (List.mem_cons_of_mem _ ((k5 y).mpr ⟨h, h3⟩)) hyl
          · exact h
  · intro z hz
    obtain ⟨z', hz', h1, _⟩ := hmem z hz
    rw [← h1]
    exact I.root z' hz'
  · have := I.keys
    simpa using this
  · intro z hz h hh
    obtain ⟨z', hz', h1, h2⟩ := hmem z hz
    have hprev : h ∈ z'.2.map List.head? → ∃ s y, TopS h s y ∧ A z.1 s ∧ y < g.length ∧ par y = s ∧ (∃ d, (s, d) ∈ (u, v) :: done) ∧ Cov A ((u, v) :: done) y ∧
        ∀ s' d, Unit' g par A s' d → A y d → A s' s → s' = s := by
      intro hh
      obtain ⟨s, y, c1, c2, c3, c4, ⟨d, c5⟩, c6, c7⟩ := I.tops z' hz' h hh
      exact ⟨s, y, c1, h1 ▸ c2, c3, c4, ⟨d, List.mem_cons_of_mem _ c5⟩, c6.mono _, c7⟩
    rcases h2 with h2 | ⟨hwu, hz1, hz2, h2⟩
    · exact hprev (h2 ▸ hh)
    · rw [h2, List.mem_append] at hh
      rcases hh with hh | hh
      · exact hprev (by rw [hz1]; exact hh)
      · rw [List.mem_singleton] at hh
        obtain ⟨y, t1, t2, t3, t4, t5, t6⟩ := hnew hwu
        refine ⟨u, y, hh ▸ t1, ?_, D.ltl t3, t2, ⟨v, by simp⟩, (hcov y).mpr (Or.inr ⟨t4, t5, t3⟩), fun s' d U' c1 c2 => hnot s' y t4 t5 t6 c2 d U' c1⟩
        rw [hz2]; exact hru
  · intro z hz h hh s y ht hs
    obtain ⟨z', hz', h1, h2⟩ := hmem z hz
    rcases h2 with h2 | ⟨hwu, hz1, hz2, h2⟩
    · exact I.b2 z' hz' h (h2 ▸ hh) s y ht hs
    · rw [h2] at hh
      by_cases hemp : comp = []
      · rw [hemp] at hh; simp at hh
      · rw [List.drop_append_of_le_length (by rw [List.length_map]; exact List.length_pos_of_ne_nil hemp), List.mem_append] at hh
        rcases hh with hh | hh
        · exact I.b2 z' hz' h (by rw [hz1]; exact hh) s y ht hs
        · rw [List.mem_singleton] at hh
          obtain ⟨y', t1, t2, t3, t4, t5, t6⟩ := hnew hwu
          rw [hh] at ht
          obtain ⟨rfl, rfl⟩ := TopS.unique ht t1
          obtain ⟨bi, comp0, rfl⟩ := List.exists_cons_of_ne_nil hemp
          obtain ⟨s0, y0, c1, c2, c3, c4, ⟨d, c5⟩, c6, _⟩ := I.tops (r, bi :: comp0) (by simp) bi.head? (by simp)
          have hrs : r = s := root_top D hs hru
          have hlt := (I.src _ _ c5).2
          have hss : s0 = s := by
            have := D.ixle c2
            simp only at this
            rw [hrs] at this
            exact D.ixinj (D.ltr c2) hul (by omega)
          refine ⟨y0, ?_, c3, by rw [c4, hss]⟩
          rintro rfl
          exact (I.vis y0 c3).mpr (Or.inr c6) t6
  · intro z hz h hh s y ht
    obtain ⟨z', hz', h1, h2⟩ := hmem z hz
    rcases h2 with h2 | ⟨hwu, hz1, hz2, h2⟩
    · exact I.b3 z' hz' h (h2 ▸ hh) s y ht
    · rw [h2] at hh
      by_cases hemp : comp = []
      · rw [hemp] at hh
        simp only [List.map_nil, List.nil_append, List.head?_cons, Option.some.injEq] at hh
        obtain ⟨y', t1, t2, t3, t4, t5, t6⟩ := hnew hwu
        rw [← hh] at ht
        obtain ⟨rfl, rfl⟩ := TopS.unique ht t1
        right
        intro s' d U' c1 c2
        by_contra hne
        have hlt := D.ixlt c1 hne
        have hd := hcomp s' d U' hlt
        have hvis := (I.vis s' (D.ltl c1)).mpr (Or.inl ⟨d, hd⟩)
        have hrs : A r s' := by
          rcases D.linear hru c1 with h | h
          · exact h
          · rw [root_top D hrl h]; exact D.refl r (D.ltl hru)
        have := I.rng (r, comp) (by simp) s' hrs hvis
        rw [hemp] at this
        simp at this
        omega
      · obtain ⟨bi, comp0, rfl⟩ := List.exists_cons_of_ne_nil hemp
        exact I.b3 z' hz' h (by rw [hz1]; exact hh) s y ht
  · intro s d y hsd hys hyd
    have hprev : (s, d) ∈ done → (∃ s' d', (s', d') ∈ (u, v) :: done ∧ A s' s ∧ s' ≠ s ∧ A y d') ∨ ∃ z ∈ Z0 ++ [(r, comp')], ∃ h ∈ z.2.map List.head?, TopS h s y := by
      intro hsd
      rcases I.b5 s d y hsd hys hyd with ⟨s', d', c1, c2⟩ | h
      · exact Or.inl ⟨s', d', List.mem_cons_of_mem _ c1, c2⟩
      · exact Or.inr (hold s y h)
    rcases List.mem_cons.mp hsd with h | h
    · cases h
      obtain ⟨y1, y2, y3, y4⟩ := D.parent (D.ltl hyd) hys
      by_cases hwu : w = u
      · right
        obtain ⟨y', t1, t2, t3, t4, t5, t6⟩ := hnew hwu
        have : y = y' := by
          rcases D.linear hyd t3 with h | h
          · rcases (D.parent (D.ltl t3) t2).2.2.2 y h with h | h
            · exact h
            · exact absurd (D.antisymm y3 h) y1
          · rcases y4 y' h with h | h
            · exact h.symm
            · exact absurd (D.antisymm h t4) t5
        subst this
        refine ⟨(r, comp'), by simp, some (u :: l), ?_, t1⟩
        rw [hhd, if_pos hwu]
        simp
      · have hyw : A y w := by
          rcases D.linear hyd k2 with h | h
          · exact h
          · rcases y4 w h with h | h
            · rw [h]; exact D.refl y (D.ltl hyd)
            · exact absurd (D.antisymm h k1) hwu
        obtain ⟨⟨s0, d0⟩, c1, c2, c3, c4⟩ := habove y y3 (Ne.symm y1) hyw
        by_cases hs0 : s0 = u
        · rw [hs0] at c1
          rcases I.b5 u d0 y c1 hys c4 with ⟨s', d', c1, c2⟩ | h
          · exact Or.inl ⟨s', d', List.mem_cons_of_mem _ c1, c2⟩
          · exact Or.inr (hold u y h)
        · exact Or.inl ⟨s0, d0, List.mem_cons_of_mem _ c1, (y4 s0 c2).resolve_left c3, hs0, c4⟩
    · exact hprev h
  · intro z hz y hy hby
    simp only [List.getLast?_append, List.getLast?_singleton, Option.some_or, Option.some.injEq] at hz
    subst hz
    simp only at hby ⊢
    by_cases hyl : y ∈ u :: l
    · rw [if_pos hyl]; exact ⟨hB0.1, hBlt⟩
    · rw [if_neg hyl] at hby ⊢
      have hyu : y ≠ u := fun h => hyl (by rw [h]; exact List.mem_cons_self)
      rw [Function.update_of_ne hyu] at hby ⊢
      have := I.rng (r, comp) (by simp) y hy hby
      simp only at this
      omega
  · intro z hz bi hbi s t ht x
    by_cases hwu : w = u
    · have hvac : w ≠ u → ∀ h0 s0 t0, (comp.map List.head?)[B.toNat]? = some h0 → TopS h0 s0 t0 → t ≠ t0 := fun h => absurd hwu h
      rcases List.mem_append.mp hz with hz | hz
      · exact hgen z (List.mem_append_left _ hz) bi hbi s t ht hvac x
      · rw [List.mem_singleton] at hz
        subst hz
        rw [hceq hwu] at hbi
        rcases List.mem_append.mp hbi with hbi | hbi
        · exact hgen (r, comp) (by simp) bi hbi s t ht hvac x
        · rw [List.mem_singleton] at hbi
          subst hbi
          obtain ⟨y, t1, t2, t3, t4, t5, t6⟩ := hnew hwu
          obtain ⟨rfl, rfl⟩ := TopS.unique ht t1
          have hone : (∃ ch ∈ [s :: l], x ∈ ch) ↔ x = s ∨ (A w x ∧ A x v) := by
            rw [← k5 x, ← List.mem_cons]
            exact ⟨fun ⟨ch, h1, h2⟩ => by rw [List.mem_singleton] at h1; subst h1; exact h2, fun h => ⟨_, by simp, h⟩⟩
          · rw [hone, hwu]
            constructor
            · rintro (h | ⟨h1, h2⟩)
              · exact Or.inl h
              · by_cases hxs : x = s
                · exact Or.inl hxs
                · right
                  refine ⟨(hcov x).mpr (Or.inr ⟨h1, hxs, h2⟩), hblku hwu t t2 t3 t4 t5 x ?_ h2⟩
                  rcases D.linear t3 h2 with k | k
                  · exact k
                  · rcases (D.parent (D.ltl t3) t2).2.2.2 x k with k | k
                    · rw [k]; exact D.refl t (D.ltl t3)
                    · exact absurd (D.antisymm h1 k) (Ne.symm hxs)
            · rintro (h | ⟨h1, h2⟩)
              · exact Or.inl h
              · right
                rcases (hcov x).mp h1 with ⟨⟨a, d⟩, c1, c2, c3, c4⟩ | ⟨c1, c2, c3⟩
                · exfalso
                  have hsa := (I.src _ _ c1).2
                  have hau : A a s := by
                    rcases D.linear c2 (D.trans t4 h2.1) with k | k
                    · exact k
                    · have k : A s a := k
                      have := D.ixle k
                      rw [D.ixinj (D.ltr k) hul (by omega)]; exact D.refl s hul
                  refine (I.vis t (D.ltl t3)).mpr (Or.inr ⟨(a, d), c1, D.trans hau t4, ?_, D.trans h2.1 c4⟩) t6
                  show a ≠ t
                  rintro rfl
                  exact t5 (D.antisymm hau t4)
                · exact ⟨c1, c3⟩
    · obtain ⟨h0, s0, t0, c1, c2, c3, c4, ⟨d0, c5⟩, c6⟩ := hw0 hwu
      obtain ⟨bi0, b1, b2⟩ := hcset hwu
      have hh0 : h0 = bi0.head? := by
        rw [List.getElem?_map, b1] at c1
        exact (Option.some.inj c1).symm
      rcases List.mem_append.mp hz with hz | hz
      · refine hgen z (List.mem_append_left _ hz) bi hbi s t ht (fun _ h1 s1 t1 e1 e2 => ?_) x
        exact (htp.2.2 bi.head? (List.mem_flatMap.mpr ⟨z, hz, List.mem_map_of_mem hbi⟩) h1 (List.mem_of_getElem? e1) s t s1 t1 ht e2).2
      · rw [List.mem_singleton] at hz
        subst hz
        rw [b2] at hbi
        obtain ⟨i, hi⟩ := List.mem_iff_getElem?.mp hbi
        by_cases hiB : B.toNat = i
        · rw [← hiB, List.getElem?_set_self (List.getElem?_eq_some_iff.mp b1).1] at hi
          obtain rfl := Option.some.inj hi
          have hb0mem : bi0 ∈ comp := List.mem_of_getElem? b1
          have hht : TopS bi0.head? s t := by
            obtain ⟨l0, hl0⟩ := hh0 ▸ c2
            rw [List.head?_append, hl0] at ht
            rw [hl0]; exact ht
          obtain ⟨rfl, rfl⟩ := TopS.unique hht (hh0 ▸ c2)
          have hg0 := I.grp (r, comp) (by simp) bi0 hb0mem s t hht
          have hsplit : (∃ ch ∈ bi0 ++ [u :: l], x ∈ ch) ↔ (∃ ch ∈ bi0, x ∈ ch) ∨ x = u ∨ (A w x ∧ A x v) := by
            rw [← k5 x, ← List.mem_cons]
            constructor
            · rintro ⟨ch, h1, h2⟩
              rcases List.mem_append.mp h1 with h1 | h1
              · exact Or.inl ⟨ch, h1, h2⟩
              · rw [List.mem_singleton] at h1; subst h1; exact Or.inr h2
            · rintro (⟨ch, h1, h2⟩ | h2)
              · exact ⟨ch, List.mem_append_left _ h1, h2⟩
              · exact ⟨_, List.mem_append_right _ (by simp), h2⟩
          rw [hsplit, hg0 x]
          constructor
          · rintro ((h | h) | h | ⟨h1, h2⟩)
            · exact Or.inl h
            · exact Or.inr ⟨h.1.mono _, h.2⟩
            · subst h
              by_cases hsx : x = s
              · exact Or.inl hsx
              · right
                obtain ⟨e1, e2, e3, e4⟩ := D.parent (D.ltl c3.1) c4
                have hsx' : A s x := by
                  rcases D.linear (D.trans e3 c3.1) k1 with k | k
                  · exact k
                  · have := D.ixle k
                    have := (I.src _ _ c5).2
                    exact absurd (D.ixinj (D.ltl k) (D.ltr k) (by omega)) hsx
                have htx : A t x := by
                  rcases D.linear c3.1 k1 with k | k
                  · exact k
                  · rcases e4 x k with k | k
                    · rw [k]; exact D.refl t (D.ltl c3.1)
                    · exact absurd (D.antisymm k hsx') hsx
                refine ⟨?_, htx, fun x' q y1 y2 y3 hq => c3.2 x' q y1 (D.trans y2 k1) y3 hq⟩
                obtain ⟨c, f1, f2⟩ := child D _ w (le_refl _) k1 (Ne.symm hwu)
                obtain ⟨f3, f4, f5, f6⟩ := D.parent (D.ltl f2) f1
                obtain ⟨a, d, U', g1, g2, g3⟩ := c3.2 c x (D.trans htx f5) f2 (by
                  rintro rfl
                  exact f3 (D.antisymm f5 htx)) f1
                exact Cov.mono _ ⟨(a, d), hcomp a d U' (D.ixlt g2 g3), g2, g3, D.trans f5 g1⟩
            · by_cases hcx : Cov A ((u, v) :: done) x
              · exact Or.inr ⟨hcx, hblkw hwu t c3 x h1 h2⟩
              · exact absurd ((hcov x).mpr (Or.inr ⟨D.trans k1 h1, fun e => hwu (D.antisymm (by rw [← e]; exact h1) k1), h2⟩)) hcx
          · rintro (h | ⟨h1, h2⟩)
            · exact Or.inl (Or.inl h)
            · by_cases hcx : Cov A done x
              · exact Or.inl (Or.inr ⟨hcx, h2⟩)
              · obtain ⟨x1, x2, _⟩ := hfresh x h1 hcx
                exact Or.inr (Or.inr ⟨x1, x2⟩)
        · rw [List.getElem?_set_ne hiB] at hi
          refine hgen (r, comp) (by simp) bi (List.mem_of_getElem? hi) s t ht (fun _ h1 s1 t1 e1 e2 => ?_) x
          have hpw := htp.2.1
          rw [List.pairwise_iff_getElem] at hpw
          have hi' : (comp.map List.head?)[i]? = some bi.head? := by rw [List.getElem?_map, hi]; rfl
          obtain ⟨q1, q2⟩ := List.getElem?_eq_some_iff.mp hi'
          obtain ⟨q3, q4⟩ := List.getElem?_eq_some_iff.mp e1
          rcases Nat.lt_or_gt_of_ne hiB with hlt | hlt
          · exact Ne.symm (hpw _ _ q3 q1 hlt s1 t1 s t (by rw [q4]; exact e2) (by rw [q2]; exact ht)).2
          · exact (hpw _ _ q1 q3 hlt s t s1 t1 (by rw [q2]; exact ht) (by rw [q4]; exact e2)).2
  · intro z hz y hy hcy hns
    simp only [List.getLast?_append, List.getLast?_singleton, Option.some_or, Option.some.injEq] at hz
    subst hz
    simp only at hy ⊢
    have hyu : y ≠ u := by rintro rfl; exact hns v (by simp)
    by_cases hyl : y ∈ u :: l
    · rw [if_pos hyl]
      have hy2 := (k5 y).mp ((List.mem_cons.mp hyl).resolve_left hyu)
      by_cases hwu : w = u
      · obtain ⟨t, t1, t2, t3, t4, t5, t6⟩ := hnew hwu
        refine ⟨some (u :: l), u, t, ?_, t1, hblku hwu t t2 t3 t4 t5 y ?_ hy2.2⟩
        · rw [hhd, if_pos hwu, hB0.2.1 hwu, Int.toNat_natCast, List.getElem?_append_right (by simp)]
          simp
        · rcases D.linear t3 hy2.2 with k | k
          · exact k
          · rcases (D.parent (D.ltl t3) t2).2.2.2 y k with k | k
            · rw [k]; exact D.refl t (D.ltl t3)
            · exact absurd (D.antisymm (by rw [← hwu]; exact hy2.1) k) (Ne.symm hyu)
      · obtain ⟨h0, s0, t0, c1, c2, c3, c4, c5, c6⟩ := hw0 hwu
        exact ⟨h0, s0, t0, by rw [hhd, if_neg hwu, List.append_nil]; exact c1, c2, hblkw hwu t0 c3 y hy2.1 hy2.2⟩
    · rw [if_neg hyl, Function.update_of_ne hyu]
      have hcd : Cov A done y := by
        by_contra hn
        obtain ⟨x1, x2, _⟩ := hfresh y hcy hn
        exact hyl (List.mem_cons_of_mem _ ((k5 y).mpr ⟨x1, x2⟩))
      obtain ⟨h, s, t, c1, c2, c3⟩ := I.bidg (r, comp) (by simp) y hy hcd (fun d hd => hns d (List.mem_cons_of_mem _ hd))
      refine ⟨h, s, t, ?_, c2, c3⟩
      rw [hhd, List.getElem?_append_left (List.getElem?_eq_some_iff.mp c1).1]
      exact c1
  · rw [List.flatMap_append, List.flatMap_singleton]
    show (_ ++ comp'.map List.head?).Pairwise _
    rw [hhd, ← List.append_assoc]
    by_cases hwu : w = u
    · rw [if_pos hwu, List.pairwise_append]
      refine ⟨by rw [List.pairwise_append]; exact htp, by simp, fun h hh h' hh' s t s' t' e1 e2 => ?_⟩
      rw [List.mem_singleton] at hh'
      obtain ⟨y, t1, t2, t3, t4, t5, t6⟩ := hnew hwu
      rw [hh'] at e2
      obtain ⟨rfl, rfl⟩ := TopS.unique e2 t1
      obtain ⟨d1, ⟨d, d2⟩, d3, d4⟩ := htops h (by rw [List.flatMap_append, List.flatMap_singleton]; exact hh) s t e1
      refine ⟨by have := (I.src _ _ d2).2; omega, ?_⟩
      rintro rfl
      exact (I.vis t (D.ltl t3)).mpr (Or.inr d3) t6
    · rw [if_neg hwu, List.append_nil, List.pairwise_append]
      exact htp

/-! ### The loops -/

theorem edgeLoop_spec (D : DT g par A ix) {parv ordv : List Int} (hp : Rep parv g.length par) (ho : Rep ordv g.length (fun v => (ix v : Int) + 1)) {Z0 : List (Nat × Comp)} {r u fuel : Nat}
    (hru : A r u) (hfuel : ∀ x, x < g.length → ix x < fuel) : ∀ (vs : List Nat) (comp : Comp) (bidv : List Int) (bid : Nat → Int) (done : List (Nat × Nat)), (∀ v ∈ vs, Edge g u v) →
    Rep bidv g.length bid → Inv g par A ix done (Z0 ++ [(r, comp)]) bid (ix u + 1) → (∀ s d, Unit' g par A s d → ix s < ix u → (s, d) ∈ done) →
    ∃ comp' bidv' bid' done', edgeLoop fuel ordv parv u vs comp bidv = some (comp', bidv') ∧ Rep bidv' g.length bid' ∧ Inv g par A ix done' (Z0 ++ [(r, comp')]) bid' (ix u + 1) ∧
      (∀ p ∈ done, p ∈ done') ∧ ∀ v ∈ vs, Unit' g par A u v → (u, v) ∈ done' := by
  intro vs
  induction vs with
  | nil => intro comp bidv bid done _ hb I _; exact ⟨comp, bidv, bid, done, rfl, hb, I, fun _ h => h, by simp⟩
  | cons v vs ih =>
    intro comp bidv bid done he hb I hc
    have hev := he v (by simp)
    have hvl := D.valid _ _ hev
    have hul := D.ltr hru
    rw [edgeLoop, hp.rd hvl, Option.bind_some, ho.rd hvl, Option.bind_some, ho.rd hul, Option.bind_some]
    by_cases hcond : par v = (u : Int) ∨ (ix v : Int) + 1 ≤ (ix u : Int) + 1
    · rw [if_pos hcond]
      obtain ⟨comp', bidv', bid', done', e, h1, h2, h3, h4⟩ := ih comp bidv bid done (fun x hx => he x (by simp [hx])) hb I hc
      refine ⟨comp', bidv', bid', done', e, h1, h2, h3, fun x hx U => ?_⟩
      rcases List.mem_cons.mp hx with rfl | hx
      · exfalso
        rcases hcond with h | h
        · exact U.notTree h
        · have := D.ixlt U.anc U.ne; omega
      · exact h4 x hx U
    · rw [if_neg hcond]
      have U : Unit' g par A u v := by
        refine ⟨hev, ?_, ?_, fun h => hcond (Or.inl h)⟩
        · rcases D.edge hev with h | h
          · exact h
          · have := D.ixle h; exact absurd (Or.inr (by omega)) hcond
        · rintro rfl; exact hcond (Or.inr (le_refl _))
      obtain ⟨comp1, bidv1, bid1, e1, hb1, I1⟩ := addChain_spec D hp hb I hru U hc hfuel
      rw [e1, Option.bind_some]
      obtain ⟨comp', bidv', bid', done', e, h1, h2, h3, h4⟩ := ih comp1 bidv1 bid1 _ (fun x hx => he x (by simp [hx])) hb1 I1 (fun s d U h => List.mem_cons_of_mem _ (hc s d U h))
      refine ⟨comp', bidv', bid', done', e, h1, h2, fun p hp => h3 p (List.mem_cons_of_mem _ hp), fun x hx U => ?_⟩
      rcases List.mem_cons.mp hx with rfl | hx
      · exact h3 _ List.mem_cons_self
      · exact h4 x hx U

theorem nodeLoop_spec (D : DT g par A ix) {parv ordv : List Int} (hp : Rep parv g.length par) (ho : Rep ordv g.length (fun v => (ix v : Int) + 1)) {fuel : Nat}
    (hfuel : ∀ x, x < g.length → ix x < fuel) : ∀ (us : List Nat) (m : Nat) (Z : List (Nat × Comp)) (bidv : List Int) (bid : Nat → Int) (done : List (Nat × Nat)),
    (∀ i u, us[i]? = some u → ix u = m + i ∧ u < g.length) → Rep bidv g.length bid → Inv g par A ix done Z bid m → (∀ s d, Unit' g par A s d → ix s < m → (s, d) ∈ done) →
    (∀ r, r < g.length → par r = -1 → ix r < m → ∃ z, Z.getLast? = some z ∧ ix r ≤ ix z.1) →
    ∃ Z' bid' done', nodeLoop fuel g ordv parv us (Z.map Prod.snd) bidv = some (Z'.map Prod.snd) ∧ Inv g par A ix done' Z' bid' (m + us.length) ∧
      ∀ s d, Unit' g par A s d → ix s < m + us.length → (s, d) ∈ done' := by
  intro us
  induction us with
  | nil => intro m Z bidv bid done _ _ I hc _; exact ⟨Z, bid, done, rfl, I, hc⟩
  | cons u us ih =>
    intro m Z bidv bid done hus hb I hc hlast
    obtain ⟨hum, hul⟩ := hus 0 u rfl
    rw [Nat.add_zero] at hum
    subst hum
    -- the component in progress
    have hstart : ∃ (Z0 : List (Nat × Comp)) (r : Nat) (comp : Comp), (if par u = -1 then Z.map Prod.snd ++ [[]] else Z.map Prod.snd) = Z0.map Prod.snd ++ [comp] ∧ A r u ∧
        Inv g par A ix done (Z0 ++ [(r, comp)]) bid (ix u + 1) ∧ ∀ r', r' < g.length → par r' = -1 → ix r' < ix u + 1 → ix r' ≤ ix r := by
      by_cases hroot : par u = -1
      · refine ⟨Z, u, [], by rw [if_pos hroot], D.refl u hul, ?_, fun r' _ _ h => by omega⟩
        have hin : ∀ p, InZ (Z ++ [(u, [])]) p ↔ InZ Z p := fun p => by rw [inZ_last]; simp
        have hZ : ∀ z ∈ Z ++ [(u, ([] : Comp))], z ∈ Z ∨ z = (u, []) := fun z hz => by simpa using hz
        refine ⟨fun s d h => ⟨(I.src s d h).1, by have := (I.src s d h).2; omega⟩, fun p h => I.a1 p ((hin p).mp h), fun p h => (hin p).mpr (I.a2 p h), fun y q h1 h2 => (hin _).mpr (I.a3 y q h1 h2), I.vis,
          fun z hz => ?_, ?_, fun z hz h hh => ?_, fun z hz h hh => ?_, fun z hz h hh => ?_, fun s d y h1 h2 h3 => ?_, fun z hz y hy hby => ?_, fun z hz bi hbi => ?_, fun z hz y hy hcy => ?_, ?_⟩
        · rcases hZ z hz with hz | rfl
          · obtain ⟨h1, h2, h3⟩ := I.root z hz; exact ⟨h1, by omega, h3⟩
          · exact ⟨hroot, Nat.lt_succ_self _, hul⟩
        · rw [List.map_append, List.nodup_append]
          refine ⟨I.keys, by simp, fun a ha b hb' => ?_⟩
          obtain ⟨z, hz, rfl⟩ := List.mem_map.mp ha
          simp only [List.map_cons, List.map_nil, List.mem_singleton] at hb'
          subst hb'
          have := (I.root z hz).2.1
          intro hc
          rw [hc] at this
          omega
        · rcases hZ z hz with hz | rfl
          · exact I.tops z hz h hh
          · simp at hh
        · rcases hZ z hz with hz | rfl
          · exact I.b2 z hz h hh
          · simp at hh
        · rcases hZ z hz with hz | rfl
          · exact I.b3 z hz h hh
          · simp at hh
        · rcases I.b5 s d y h1 h2 h3 with h | ⟨z, hz, h⟩
          · exact Or.inl h
          · exact Or.inr ⟨z, List.mem_append_left _ hz, h⟩
        · simp only [List.getLast?_append, List.getLast?_singleton, Option.some_or, Option.some.injEq] at hz
          subst hz
          have hy : A u y := hy
          exfalso
          have hix := D.ixle hy
          rcases (I.vis y (D.ltr hy)).mp hby with ⟨d, hd⟩ | ⟨⟨s, d⟩, hd, c1, c2, c3⟩
          · have := (I.src _ _ hd).2; omega
          · have h1 := (I.src _ _ hd).2
            rcases D.linear c1 hy with h | h
            · have h : A s u := h
              rw [root_top D hroot h] at h1; omega
            · have h : A u s := h
              have := D.ixle h; omega
        · rcases hZ z hz with hz | rfl
          · exact I.grp z hz bi hbi
          · simp at hbi
        · simp only [List.getLast?_append, List.getLast?_singleton, Option.some_or, Option.some.injEq] at hz
          subst hz
          have hy : A u y := hy
          exfalso
          obtain ⟨⟨s, d⟩, hd, c1, c2, c3⟩ := hcy
          have h1 := (I.src _ _ hd).2
          rcases D.linear c1 hy with h | h
          · have h : A s u := h
            rw [root_top D hroot h] at h1; omega
          · have h : A u s := h
            have := D.ixle h; omega
        · rw [List.flatMap_append, List.flatMap_singleton, List.map_nil, List.append_nil]
          exact I.tord
      · obtain ⟨r', c1, c2⟩ := root D _ u (le_refl _) hul
        have hne : r' ≠ u := by rintro rfl; exact hroot c2
        have hlt := D.ixlt c1 hne
        obtain ⟨⟨r, comp⟩, c3, c4⟩ := hlast r' (D.ltl c1) c2 hlt
        have c4 : ix r' ≤ ix r := c4
        obtain ⟨Z0, rfl⟩ : ∃ Z0, Z = Z0 ++ [(r, comp)] := by
          obtain ⟨h1, h2⟩ := List.getLast?_eq_some_iff.mp c3
          exact ⟨_, h2⟩
        obtain ⟨i1, i2, i3⟩ := I.root (r, comp) (by simp)
        simp only at i1 i2 i3
        have hru : A r u := by
          by_cases hrr : r' = r
          · rw [← hrr]; exact c1
          · exfalso
            have h1 : ix r' < ix r := lt_of_le_of_ne c4 (fun h => hrr (D.ixinj (D.ltl c1) i3 h))
            have := D.interval c1 i3 h1 (fun h => hrr (root_top D i1 h))
            omega
        refine ⟨Z0, r, comp, by rw [if_neg hroot]; simp, hru, ⟨fun s d h => ⟨(I.src s d h).1, by have := (I.src s d h).2; omega⟩, I.a1, I.a2, I.a3, I.vis,
          fun z hz => by obtain ⟨h1, h2, h3⟩ := I.root z hz; exact ⟨h1, by omega, h3⟩, I.keys, I.tops, I.b2, I.b3, I.b5, I.rng, I.grp, I.bidg, I.tord⟩, fun r2 h1 h2 h3 => ?_⟩
        have : r2 ≠ u := by rintro rfl; exact hroot h2
        have h4 : ix r2 ≠ ix u := fun h => this (D.ixinj h1 hul h)
        obtain ⟨z, h5, h6⟩ := hlast r2 h1 h2 (by omega)
        rw [c3] at h5
        cases h5
        exact h6
    obtain ⟨Z0, r, comp, hZ, hru, I1, hl1⟩ := hstart
    obtain ⟨vs, hvs⟩ : ∃ vs, g[u]? = some vs := ⟨_, List.getElem?_eq_getElem hul⟩
    obtain ⟨comp', bidv', bid', done', e, h1, h2, h3, h4⟩ := edgeLoop_spec D hp ho hru hfuel vs comp bidv bid done (fun v hv => ⟨vs, hvs, hv⟩) hb I1 hc
    have hc' : ∀ s d, Unit' g par A s d → ix s < ix u + 1 → (s, d) ∈ done' := by
      intro s d U hs
      by_cases hsu : s = u
      · subst hsu
        obtain ⟨vs', hvs', hd⟩ := U.edge
        rw [hvs] at hvs'
        cases hvs'
        exact h4 d hd U
      · have : ix s ≠ ix u := fun h => hsu (D.ixinj (D.ltl U.anc) hul h)
        exact h3 _ (hc s d U (by omega))
    obtain ⟨Z', bid2, done2, e2, I2, hc2⟩ := ih (ix u + 1) (Z0 ++ [(r, comp')]) bidv' bid' done' (fun i x hx => by
      obtain ⟨k1, k2⟩ := hus (i + 1) x (by simpa using hx)
      exact ⟨by omega, k2⟩) h1 h2 hc' (fun r' k1 k2 k3 => ⟨(r, comp'), by simp, hl1 r' k1 k2 k3⟩)
    refine ⟨Z', bid2, done2, ?_, by rw [List.length_cons]; rw [show ix u + (us.length + 1) = ix u + 1 + us.length by omega]; exact I2,
      fun s d U h => hc2 s d U (by rw [List.length_cons] at h; omega)⟩
    rw [nodeLoop, hp.rd hul, Option.bind_some]
    simp only
    rw [hZ, List.getLast?_append, List.getLast?_singleton, Option.some_or, Option.bind_some, show rd g u = some vs from hvs, Option.bind_some, e, Option.bind_some]
    simp only
    rw [List.dropLast_concat, show Z0.map Prod.snd ++ [comp'] = (Z0 ++ [(r, comp')]).map Prod.snd by simp]
    exact e2

end

/-! ### More fuel changes nothing -/

theorem climb_fuel (parv bidv : List Int) {f : Nat} : ∀ {v : Nat} {acc : List Nat} {r : List Nat × Nat} {f' : Nat}, f ≤ f' → climb parv bidv f v acc = some r → climb parv bidv f' v acc = some r := by
  induction f with
  | zero => intro v acc r f' _ h; simp [climb] at h
  | succ f ih =>
    intro v acc r f' hle h
    obtain ⟨f', rfl⟩ : ∃ k, f' = k + 1 := ⟨f' - 1, by omega⟩
    rw [climb] at h ⊢
    obtain ⟨b, h1, h2⟩ := Option.bind_eq_some_iff.mp h
    rw [h1, Option.bind_some]
    by_cases hb : b = -1
    · rw [if_pos hb] at h2 ⊢
      obtain ⟨p, h3, h4⟩ := Option.bind_eq_some_iff.mp h2
      rw [h3, Option.bind_some]
      by_cases hp : p < 0
      · rw [if_pos hp] at h4; cases h4
      · rw [if_neg hp] at h4 ⊢
        exact ih (by omega) h4
    · rw [if_neg hb] at h2 ⊢
      exact h2

theorem addChain_fuel {parv bidv : List Int} {f f' u v : Nat} {comp : Comp} {r : Comp × List Int} (hle : f ≤ f') (h : addChain f parv u v comp bidv = some r) : addChain f' parv u v comp bidv = some r := by
  unfold addChain at h ⊢
  obtain ⟨b, h1, h2⟩ := Option.bind_eq_some_iff.mp h
  obtain ⟨c, h3, h4⟩ := Option.bind_eq_some_iff.mp h2
  rw [h1, Option.bind_some, climb_fuel parv b hle h3, Option.bind_some]
  exact h4

theorem edgeLoop_fuel {parv ordv : List Int} {f f' u : Nat} (hle : f ≤ f') : ∀ {vs : List Nat} {comp : Comp} {bidv : List Int} {r : Comp × List Int},
    edgeLoop f ordv parv u vs comp bidv = some r → edgeLoop f' ordv parv u vs comp bidv = some r := by
  intro vs
  induction vs with
  | nil => intro comp bidv r h; exact h
  | cons v vs ih =>
    intro comp bidv r h
    rw [edgeLoop] at h ⊢
    obtain ⟨p, h1, h⟩ := Option.bind_eq_some_iff.mp h
    obtain ⟨ov, h2, h⟩ := Option.bind_eq_some_iff.mp h
    obtain ⟨ou, h3, h⟩ := Option.bind_eq_some_iff.mp h
    rw [h1, Option.bind_some, h2, Option.bind_some, h3, Option.bind_some]
    by_cases hc : p = (u : Int) ∨ ov ≤ ou
    · rw [if_pos hc] at h ⊢; exact ih h
    · rw [if_neg hc] at h ⊢
      obtain ⟨c, h4, h5⟩ := Option.bind_eq_some_iff.mp h
      rw [addChain_fuel hle h4, Option.bind_some]
      exact ih h5

theorem nodeLoop_fuel {g : List (List Nat)} {parv ordv : List Int} {f f' : Nat} (hle : f ≤ f') : ∀ {us : List Nat} {res : Decomposition} {bidv : List Int} {r : Decomposition},
    nodeLoop f g ordv parv us res bidv = some r → nodeLoop f' g ordv parv us res bidv = some r := by
  intro us
  induction us with
  | nil => intro res bidv r h; exact h
  | cons u us ih =>
    intro res bidv r h
    rw [nodeLoop] at h ⊢
    obtain ⟨p, h1, h⟩ := Option.bind_eq_some_iff.mp h
    obtain ⟨comp, h2, h⟩ := Option.bind_eq_some_iff.mp h
    obtain ⟨vs, h3, h⟩ := Option.bind_eq_some_iff.mp h
    obtain ⟨c, h4, h⟩ := Option.bind_eq_some_iff.mp h
    rw [h1, Option.bind_some]
    simp only
    rw [h2, Option.bind_some, h3, Option.bind_some, edgeLoop_fuel hle h4, Option.bind_some]
    exact ih h

/-- What `chain_decomposition` returns. -/
theorem chainDecomposition_spec {g : List (List Nat)} (hg : Valid g) (hsym : ∀ x y, Edge g x y → Edge g y x) :
    ∃ (par : Nat → Int) (A : Nat → Nat → Prop) (ix : Nat → Nat) (Z : List (Nat × Comp)) (bid : Nat → Int) (done : List (Nat × Nat)) (m : Nat), DT g par A ix ∧ Inv g par A ix done Z bid m ∧
      (∀ s d, Unit' g par A s d → (s, d) ∈ done) ∧ ∃ fuel0, ∀ fuel ≥ fuel0, chainDecomposition fuel g = some (Z.map Prod.snd) := by
  obtain ⟨que, ord, parv, par, A, ix, D, ho, hp, hql, hq, hix, fuel0, htour⟩ := tour_spec hg hsym
  have I0 : Inv g par A ix [] [] (fun _ => -1) 0 := by
    refine ⟨by simp, ?_, by simp, ?_, ?_, by simp, by simp, by simp, by simp, by simp, by simp, by simp, by simp, by simp, by simp⟩
    · rintro p ⟨z, hz, _⟩; simp at hz
    · rintro y q ⟨p, hp, _⟩; simp at hp
    · intro y _
      simp only [ne_eq, not_true_eq_false, List.not_mem_nil, exists_false, false_or, false_iff]
      rintro ⟨p, hp, _⟩; simp at hp
  obtain ⟨Z, bid, done, e, I, hc⟩ := nodeLoop_spec D hp ho (fuel := g.length) hix que 0 [] _ _ [] (fun i u h => by simpa using hq i u h) (Rep.replicate g.length (-1)) I0
    (fun s d _ h => absurd h (by omega)) (fun r _ _ h => absurd h (by omega))
  refine ⟨par, A, ix, Z, bid, done, _, D, I, fun s d U => hc s d U (by rw [hql]; have := hix s (D.ltl U.anc); omega), max fuel0 g.length, fun fuel hf => ?_⟩
  unfold chainDecomposition
  rw [htour fuel (by omega), Option.bind_some]
  exact nodeLoop_fuel (by omega) e

end Altruct.Chain
