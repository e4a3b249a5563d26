/-
Lowest common ancestors (C99).
-/
import Verif.GraphAlg.TopoProps
import Mathlib.Data.List.Chain
import Verif.GraphAlg.LcaModel
import Verif.Container.SegTreeProps

namespace Altruct.GraphAlg

open Forest

/-! ### The segment tree of pairs -/

/-- The lexicographic order. -/
def LexLe (a b : Int × Int) : Prop := a.1 < b.1 ∨ (a.1 = b.1 ∧ a.2 ≤ b.2)

theorem pairMin_cases (a b : Int × Int) : (pairMin a b = a ∧ LexLe a b) ∨ (pairMin a b = b ∧ LexLe b a) := by
  unfold pairMin LexLe
  split <;> [right; left] <;> exact ⟨rfl, by omega⟩

theorem LexLe.trans {a b c : Int × Int} (h1 : LexLe a b) (h2 : LexLe b c) : LexLe a c := by unfold LexLe at *; omega

theorem LexLe.antisymm {a b : Int × Int} (h1 : LexLe a b) (h2 : LexLe b a) : a = b := by
  unfold LexLe at *; exact Prod.ext (by omega) (by omega)

theorem LexLe.rfl' (a : Int × Int) : LexLe a a := by unfold LexLe; omega

theorem pairMin_assoc (a b c : Int × Int) : pairMin (pairMin a b) c = pairMin a (pairMin b c) := by
  rcases pairMin_cases a b with ⟨e1, h1⟩ | ⟨e1, h1⟩ <;> rcases pairMin_cases b c with ⟨e2, h2⟩ | ⟨e2, h2⟩ <;> rw [e1, e2]
  · rw [e1]; rcases pairMin_cases a c with ⟨e3, h3⟩ | ⟨e3, h3⟩
    · exact e3
    · rw [e3]; exact h3.antisymm (h1.trans h2)
  · exact e1.symm
  · rcases pairMin_cases a c with ⟨e3, h3⟩ | ⟨e3, h3⟩
    · rw [e3]; exact (h2.trans h1).antisymm h3
    · exact e3.symm

/-- The pairs up to the identity of the tree. -/
abbrev LV := {p : Int × Int // LexLe p (intMax, -1)}

theorem pairMin_le {a b c : Int × Int} (ha : LexLe a c) (hb : LexLe b c) : LexLe (pairMin a b) c := by
  rcases pairMin_cases a b with ⟨e, _⟩ | ⟨e, _⟩ <;> rw [e] <;> assumption

instance : Monoid LV where
  mul a b := ⟨pairMin a.1 b.1, pairMin_le a.2 b.2⟩
  one := ⟨(intMax, -1), LexLe.rfl' _⟩
  mul_assoc a b c := Subtype.ext (pairMin_assoc a.1 b.1 c.1)
  one_mul a := Subtype.ext (by
    show pairMin (intMax, -1) a.1 = a.1
    rcases pairMin_cases (intMax, -1) a.1 with ⟨e, h⟩ | ⟨e, _⟩
    · rw [e]; exact h.antisymm a.2
    · exact e)
  mul_one a := Subtype.ext (by
    show pairMin a.1 (intMax, -1) = a.1
    rcases pairMin_cases a.1 (intMax, -1) with ⟨e, _⟩ | ⟨e, h⟩
    · exact e
    · rw [e]; exact h.antisymm a.2)

theorem val_mul (a b : LV) : (a * b).1 = pairMin a.1 b.1 := rfl

theorem prod_least : ∀ l : List LV, l ≠ [] → l.prod ∈ l ∧ ∀ x ∈ l, LexLe l.prod.1 x.1 := by
  intro l
  induction l with
  | nil => simp
  | cons a l ih =>
    intro _
    rw [List.prod_cons]
    by_cases hl : l = []
    · subst hl
      rw [List.prod_nil, mul_one]
      simp [LexLe.rfl']
    · obtain ⟨h1, h2⟩ := ih hl
      rcases pairMin_cases a.1 l.prod.1 with ⟨e, h⟩ | ⟨e, h⟩
      · have : a * l.prod = a := Subtype.ext e
        rw [this]
        refine ⟨by simp, fun x hx => ?_⟩
        rcases List.mem_cons.mp hx with rfl | hx
        · exact LexLe.rfl' _
        · exact h.trans (h2 x hx)
      · have : a * l.prod = l.prod := Subtype.ext e
        rw [this]
        refine ⟨by simp [h1], fun x hx => ?_⟩
        rcases List.mem_cons.mp hx with rfl | hx
        · exact h
        · exact h2 x hx

section
variable {S T : Type} (φ : S → T)

theorem rd_map (v : List S) (i : Nat) : rd (v.map φ) i = (rd v i).map φ := by simp [rd]

theorem wr_map (v : List S) (i : Nat) (x : S) : wr (v.map φ) i (φ x) = (wr v i x).map (List.map φ) := by
  unfold wr
  rw [List.length_map]
  split
  · rw [← List.map_set]; rfl
  · rfl

theorem size_map (v : List S) : SegTree.size (v.map φ) = SegTree.size v := by simp [SegTree.size]

theorem write_map (v : List S) (i : Nat) (x : S) : SegTree.write (v.map φ) i (φ x) = (SegTree.write v i x).map (List.map φ) := by
  rw [SegTree.write, size_map, wr_map]; rfl

variable {fS : S → S → S} {fT : T → T → T} (hf : ∀ a b, φ (fS a b) = fT (φ a) (φ b))
include hf

theorem update_map (v : List S) (i : Nat) : SegTree.update fT (v.map φ) i = (SegTree.update fS v i).map (List.map φ) := by
  unfold SegTree.update
  rw [rd_map, rd_map]
  cases rd v (2 * i + 0) with
  | none => rfl
  | some a =>
    cases rd v (2 * i + 1) with
    | none => rfl
    | some b =>
      show wr _ _ (fT (φ a) (φ b)) = _
      rw [← hf, wr_map]

theorem rebuildLoop_map : ∀ (i : Nat) (v : List S), SegTree.rebuildLoop fT i (v.map φ) = (SegTree.rebuildLoop fS i v).map (List.map φ) := by
  intro i
  induction i with
  | zero => intro v; rfl
  | succ i ih =>
    intro v
    rw [SegTree.rebuildLoop, SegTree.rebuildLoop, update_map φ hf]
    cases SegTree.update fS v (i + 1) with
    | none => rfl
    | some v' => exact ih v'

theorem rebuild_map (v : List S) : SegTree.rebuild fT (v.map φ) = (SegTree.rebuild fS v).map (List.map φ) := by
  unfold SegTree.rebuild
  rw [size_map]
  split
  · rfl
  · exact rebuildLoop_map φ hf _ v

theorem takeL_map (v : List S) (tl : S) (i b : Nat) :
    SegTree.takeL fT (v.map φ) (φ tl) i b = (SegTree.takeL fS v tl i b).map φ := by
  unfold SegTree.takeL
  split
  · rw [rd_map]; cases rd v (i + b) <;> simp [hf]
  · rfl

theorem takeR_map (v : List S) (tr : S) (i e : Nat) : SegTree.takeR fT (v.map φ) (φ tr) i e = (SegTree.takeR fS v tr i e).map φ := by
  unfold SegTree.takeR
  split
  · rw [rd_map]; cases rd v (i + (e - 1)) <;> simp [hf]
  · rfl

theorem getLoop_map (v : List S) (tl tr : S) (i b e : Nat) :
    SegTree.getLoop fT (v.map φ) (φ tl) (φ tr) i b e = (SegTree.getLoop fS v tl tr i b e).map (Prod.map φ φ) := by
  induction e using Nat.strong_induction_on generalizing tl tr i b with
  | _ e ih =>
    rw [SegTree.getLoop, SegTree.getLoop]
    by_cases h : b < e
    · rw [if_pos h, if_pos h, takeL_map φ hf, takeR_map φ hf]
      cases SegTree.takeL fS v tl i b with
      | none => rfl
      | some x =>
        cases SegTree.takeR fS v tr i e with
        | none => rfl
        | some y => exact ih _ (by split <;> omega) x y _ _
    · rw [if_neg h, if_neg h]; rfl

theorem get_map (v : List S) (b e : Nat) : SegTree.get fT (v.map φ) b e = (SegTree.get fS v b e).map φ := by
  unfold SegTree.get
  rw [rd_map]
  cases rd v 0 with
  | none => rfl
  | some id =>
    have h := getLoop_map φ hf v id id (SegTree.size v) b e
    simp only [Option.map_some]
    rw [size_map, h]
    cases SegTree.getLoop fS v id id (SegTree.size v) b e with
    | none => rfl
    | some p => obtain ⟨x, y⟩ := p; simp [hf]

end

/-! ### The sequence of (level, node) -/

/-- What the visitor writes to `levels`. -/
def ent (p d : Int) : Forest → List (Int × Int)
  | nil => []
  | skip _ r => (d - 1, p) :: ent p d r
  | node v cs r => (d - 1, p) :: (ent v (d + 1) cs ++ (d, (v : Int)) :: ent p d r)

def proj (e : Int × Int × Int × Int) : Int × Int := (e.2.2.2 - 1, e.2.1)

theorem ent_events (o : Int) (F : Forest) : ∀ p d, (F.events o p d).map proj = ent p d F := by
  induction F with
  | nil => intro p d; rfl
  | skip v r ih => intro p d; simp [events, ent, proj, ih]
  | node v cs r ih1 ih2 => intro p d; simp [events, ent, proj, ih1, ih2]

theorem ent_rootEvents (F : Forest) : F.rootEvents.map proj = ent (-1) 0 F := by
  induction F with
  | nil => rfl
  | skip v r ih => simp [rootEvents, ent, proj, ih]
  | node v cs r ih1 ih2 => simp [rootEvents, ent, proj, ent_events, ih2]

/-- The steps of the visitor for such a sequence. -/
def lcaFold : List (Int × Int) → Nat × List Int × List (Int × Int) → Option (Nat × List Int × List (Int × Int))
  | [], st => some st
  | e :: l, st => (lcaStep st e).bind (lcaFold l)

theorem lcaFold_append (l l' : List (Int × Int)) (st) : lcaFold (l ++ l') st = (lcaFold l st).bind (lcaFold l') := by
  induction l generalizing st with
  | nil => rfl
  | cons e l ih =>
    rw [List.cons_append, lcaFold, lcaFold]
    cases lcaStep st e with
    | none => rfl
    | some st' => exact ih _

theorem feed_lca (evs : List (Int × Int × Int × Int)) (st) : feed lcaVisit (fun _ _ => true) evs st = lcaFold (evs.map proj) st := by
  induction evs generalizing st with
  | nil => rfl
  | cons e evs ih =>
    obtain ⟨r, p, v, d⟩ := e
    rw [feed, List.map_cons, lcaFold, lcaVisit]
    show _ = (lcaStep st (d - 1, p)).bind _
    cases lcaStep st (d - 1, p) with
    | none => rfl
    | some st' =>
      show (if v = -1 ∨ true = true then _ else _) = _
      rw [if_pos (Or.inr rfl)]
      exact ih _

/-- No node is declined. -/
def Full : Forest → Prop
  | nil => True
  | skip _ _ => False
  | node _ cs r => Full cs ∧ Full r

theorem full_of_calls {F : Forest} {p : Int} (h : ∀ q v b, (q, v, b) ∈ F.calls p → b = true) : Full F := by
  induction F generalizing p with
  | nil => trivial
  | skip v r ih => have := h p v false (by simp [calls]); cases this
  | node v cs r ih1 ih2 =>
    exact ⟨ih1 (p := v) (fun q w b hm => h q w b (by simp [calls, hm])), ih2 (p := p) (fun q w b hm => h q w b (by simp [calls, hm]))⟩

theorem ent_length {F : Forest} (h : Full F) : ∀ p d, (ent p d F).length = 2 * F.pre.length := by
  induction F with
  | nil => intro p d; rfl
  | skip v r ih => exact h.elim
  | node v cs r ih1 ih2 =>
    intro p d
    simp only [ent, pre, List.length_cons, List.length_append, ih1 h.1, ih2 h.2]
    omega

/-- The place of the last entry of `u`. -/
def cpos : Forest → Nat → Nat
  | nil, _ => 0
  | skip _ r, u => cpos r u
  | node v cs r, u => if u = v then 1 + 2 * cs.pre.length else if u ∈ cs.pre then 1 + cpos cs u else 2 + 2 * cs.pre.length + cpos r u

/-- The level of `u`, when the level of the roots is `d`. -/
def depF : Nat → Forest → Nat → Nat
  | _, nil, _ => 0
  | d, skip _ r, u => depF d r u
  | d, node v cs r, u => if u = v then d else if u ∈ cs.pre then depF (d + 1) cs u else depF d r u

theorem mem_pre_node {v u : Nat} {cs r : Forest} : u ∈ (node v cs r).pre ↔ u = v ∨ u ∈ cs.pre ∨ u ∈ r.pre := by
  simp [pre]

theorem nodup_node {v : Nat} {cs r : Forest} (h : (node v cs r).pre.Nodup) :
    v ∉ cs.pre ∧ v ∉ r.pre ∧ cs.pre.Nodup ∧ r.pre.Nodup ∧ ∀ x ∈ cs.pre, x ∉ r.pre := by
  have hn' : (v :: cs.pre ++ r.pre).Nodup := h
  rw [List.nodup_append, List.nodup_cons] at hn'
  obtain ⟨⟨h1, h2⟩, h3, h4⟩ := hn'
  exact ⟨h1, fun hc => h4 v (by simp) v hc rfl, h2, h3, fun x hx hc => h4 x (by simp [hx]) x hc rfl⟩

theorem cpos_lt {F : Forest} (h : Full F) : ∀ u ∈ F.pre, cpos F u < 2 * F.pre.length := by
  induction F with
  | nil => simp [pre]
  | skip v r ih => exact h.elim
  | node v cs r ih1 ih2 =>
    intro u hu
    have hl : (node v cs r).pre.length = 1 + cs.pre.length + r.pre.length := by simp [pre]; omega
    rw [cpos, hl]
    split
    · omega
    · split
      · have := ih1 h.1 u ‹_›; omega
      · rcases mem_pre_node.mp hu with h1 | h1 | h1
        · exact absurd h1 ‹_›
        · exact absurd h1 ‹_›
        · have := ih2 h.2 u h1; omega

section
variable {v : Nat} {cs r : Forest} {p d : Int}

theorem ent_get_zero : (ent p d (node v cs r))[0]? = some (d - 1, p) := rfl

theorem ent_get_cs (h : Full cs) {i : Nat} (hi : i < 2 * cs.pre.length) : (ent p d (node v cs r))[1 + i]? = (ent v (d + 1) cs)[i]? := by
  rw [ent, Nat.add_comm 1 i, List.getElem?_cons_succ, List.getElem?_append_left (by rw [ent_length h]; exact hi)]

theorem ent_get_close (h : Full cs) : (ent p d (node v cs r))[1 + 2 * cs.pre.length]? = some (d, (v : Int)) := by
  rw [ent, Nat.add_comm 1, List.getElem?_cons_succ, List.getElem?_append_right (by rw [ent_length h]), ent_length h, Nat.sub_self]
  rfl

theorem ent_get_r (h : Full cs) (i : Nat) : (ent p d (node v cs r))[2 + 2 * cs.pre.length + i]? = (ent p d r)[i]? := by
  rw [ent, show 2 + 2 * cs.pre.length + i = (2 * cs.pre.length + (i + 1)) + 1 by omega, List.getElem?_cons_succ,
    List.getElem?_append_right (by rw [ent_length h]; omega), ent_length h, show 2 * cs.pre.length + (i + 1) - 2 * cs.pre.length = i + 1 by omega]
  rfl

end

theorem ent_close {F : Forest} (h : Full F) : ∀ (p : Int) (d : Nat), ∀ u ∈ F.pre, (ent p d F)[cpos F u]? = some (((depF d F u : Nat) : Int), (u : Int)) := by
  induction F with
  | nil => simp [pre]
  | skip v r ih => exact h.elim
  | node v cs r ih1 ih2 =>
    intro p d u hu
    rw [cpos, depF]
    split
    · rename_i huv; subst huv
      exact ent_get_close h.1
    · split
      · rename_i hc
        rw [ent_get_cs h.1 (cpos_lt h.1 u hc)]
        have := ih1 h.1 v (d + 1) u hc
        push_cast at this
        exact this
      · rw [ent_get_r h.1]
        rcases mem_pre_node.mp hu with h1 | h1 | h1
        · exact absurd h1 ‹_›
        · exact absurd h1 ‹_›
        · exact ih2 h.2 p d u h1

theorem ent_ge {F : Forest} : ∀ p d, ∀ x ∈ ent p d F, d - 1 < x.1 ∨ x = (d - 1, p) := by
  induction F with
  | nil => simp [ent]
  | skip v r ih =>
    intro p d x hx
    rcases List.mem_cons.mp hx with h | h
    · exact Or.inr h
    · exact ih p d x h
  | node v cs r ih1 ih2 =>
    intro p d x hx
    simp only [ent, List.mem_cons, List.mem_append] at hx
    rcases hx with h | h | h | h
    · exact Or.inr h
    · rcases ih1 v (d + 1) x h with h1 | h1
      · left; omega
      · left; rw [h1]; show d - 1 < d + 1 - 1; omega
    · left; rw [h]; show d - 1 < d; omega
    · exact ih2 p d x h

theorem ent_lexLe {F : Forest} {p d : Int} {x : Int × Int} (h : x ∈ ent p d F) : LexLe (d - 1, p) x := by
  rcases ent_ge p d x h with h1 | h1
  · exact Or.inl h1
  · rw [h1]; exact LexLe.rfl' _

theorem anc_mem_right {F : Forest} {x y : Nat} (h : F.Anc y x) : x ∈ F.pre := by
  induction F with
  | nil => exact h.elim
  | skip w r ih => exact ih h
  | node w cs r ih1 ih2 =>
    rw [mem_pre_node]
    rcases h with ⟨_, h | h⟩ | h | h
    · exact Or.inl h
    · exact Or.inr (Or.inl h)
    · exact Or.inr (Or.inl (ih1 h))
    · exact Or.inr (Or.inr (ih2 h))

theorem anc_refl {F : Forest} {x : Nat} (h : x ∈ F.pre) : F.Anc x x := by
  induction F with
  | nil => simp [pre] at h
  | skip w r ih => exact ih h
  | node w cs r ih1 ih2 =>
    rcases mem_pre_node.mp h with h1 | h1 | h1
    · exact Or.inl ⟨h1, Or.inl h1⟩
    · exact Or.inr (Or.inl (ih1 h1))
    · exact Or.inr (Or.inr (ih2 h1))

theorem anc_trans {F : Forest} (hn : F.pre.Nodup) {x y z : Nat} (h1 : F.Anc x y) (h2 : F.Anc y z) : F.Anc x z := by
  induction F with
  | nil => exact h1.elim
  | skip w r ih => exact ih hn h1 h2
  | node w cs r ih1 ih2 =>
    obtain ⟨n1, n2, n3, n4, n5⟩ := nodup_node hn
    rcases h1 with ⟨rfl, h1⟩ | h1 | h1
    · left
      refine ⟨rfl, ?_⟩
      rcases h2 with ⟨_, h2⟩ | h2 | h2
      · exact h2
      · exact Or.inr (anc_mem_right h2)
      · rcases h1 with rfl | h1
        · exact absurd (anc_mem h2) n2
        · exact absurd (anc_mem h2) (n5 y h1)
    · rcases h2 with ⟨rfl, _⟩ | h2 | h2
      · exact absurd (anc_mem_right h1) n1
      · exact Or.inr (Or.inl (ih1 n3 h1 h2))
      · exact absurd (anc_mem h2) (n5 y (anc_mem_right h1))
    · rcases h2 with ⟨rfl, _⟩ | h2 | h2
      · exact absurd (anc_mem_right h1) n2
      · exact absurd (anc_mem_right h1) (n5 y (anc_mem h2))
      · exact Or.inr (Or.inr (ih2 n4 h1 h2))

theorem anc_linear {F : Forest} (hn : F.pre.Nodup) {x y z : Nat} (h1 : F.Anc x z) (h2 : F.Anc y z) : F.Anc x y ∨ F.Anc y x := by
  induction F with
  | nil => exact h1.elim
  | skip w r ih => exact ih hn h1 h2
  | node w cs r ih1 ih2 =>
    obtain ⟨n1, n2, n3, n4, n5⟩ := nodup_node hn
    rcases h1 with ⟨rfl, h1⟩ | h1 | h1
    · left
      refine Or.inl ⟨rfl, ?_⟩
      rcases h2 with ⟨h2, _⟩ | h2 | h2
      · exact Or.inl h2
      · exact Or.inr (anc_mem h2)
      · rcases h1 with rfl | h1
        · exact absurd (anc_mem_right h2) n2
        · exact absurd (anc_mem_right h2) (n5 z h1)
    · rcases h2 with ⟨rfl, _⟩ | h2 | h2
      · exact Or.inr (Or.inl ⟨rfl, Or.inr (anc_mem h1)⟩)
      · rcases ih1 n3 h1 h2 with h | h
        · exact Or.inl (Or.inr (Or.inl h))
        · exact Or.inr (Or.inr (Or.inl h))
      · exact absurd (anc_mem_right h2) (n5 z (anc_mem_right h1))
    · rcases h2 with ⟨rfl, rfl | h2⟩ | h2 | h2
      · exact absurd (anc_mem_right h1) n2
      · exact absurd (anc_mem_right h1) (n5 z h2)
      · exact absurd (anc_mem_right h1) (n5 z (anc_mem_right h2))
      · rcases ih2 n4 h1 h2 with h | h
        · exact Or.inl (Or.inr (Or.inr h))
        · exact Or.inr (Or.inr (Or.inr h))

/-- `a` is the lowest common ancestor of `u` and `v` in the forest. -/
def IsLca (F : Forest) (u v a : Nat) : Prop := F.Anc a u ∧ F.Anc a v ∧ ∀ b, F.Anc b u → F.Anc b v → F.Anc b a

/-- The least entry between the last entries of `u` and `v`. -/
theorem ent_least {F : Forest} (h : Full F) (hn : F.pre.Nodup) : ∀ (p d : Int) (u v : Nat), u ∈ F.pre → v ∈ F.pre → cpos F u ≤ cpos F v →
    ∃ x i, cpos F u ≤ i ∧ i ≤ cpos F v ∧ (ent p d F)[i]? = some x
      ∧ (∀ j, cpos F u ≤ j → j ≤ cpos F v → ∀ y, (ent p d F)[j]? = some y → LexLe x y)
      ∧ ((∃ a : Nat, IsLca F u v a ∧ x.2 = a) ∨ (x = (d - 1, p) ∧ ∀ b, F.Anc b u → ¬ F.Anc b v)) := by
  induction F with
  | nil => simp [pre]
  | skip w r ih => exact h.elim
  | node w cs r ih1 ih2 =>
    intro p d u v hu hv hle
    obtain ⟨n1, n2, n3, n4, n5⟩ := nodup_node hn
    obtain ⟨f1, f2⟩ := h
    have cw : cpos (node w cs r) w = 1 + 2 * cs.pre.length := by rw [cpos, if_pos rfl]
    have cc : ∀ x ∈ cs.pre, cpos (node w cs r) x = 1 + cpos cs x ∧ cpos cs x < 2 * cs.pre.length := fun x hx =>
      ⟨by rw [cpos, if_neg (by rintro rfl; exact n1 hx), if_pos hx], cpos_lt f1 x hx⟩
    have cr : ∀ x ∈ r.pre, cpos (node w cs r) x = 2 + 2 * cs.pre.length + cpos r x := fun x hx => by
      rw [cpos, if_neg (by rintro rfl; exact n2 hx), if_neg (fun hc => n5 x hc hx)]
    have ancc : ∀ x ∈ cs.pre, ∀ b, (node w cs r).Anc b x ↔ b = w ∨ cs.Anc b x := fun x hx b => by
      constructor
      · rintro (⟨h1, _⟩ | h1 | h1)
        · exact Or.inl h1
        · exact Or.inr h1
        · exact absurd (anc_mem_right h1) (n5 x hx)
      · rintro (h1 | h1)
        · exact Or.inl ⟨h1, Or.inr hx⟩
        · exact Or.inr (Or.inl h1)
    have ancw : ∀ b, (node w cs r).Anc b w ↔ b = w := fun b => by
      constructor
      · rintro (⟨h1, _⟩ | h1 | h1)
        · exact h1
        · exact absurd (anc_mem_right h1) n1
        · exact absurd (anc_mem_right h1) n2
      · rintro rfl; exact Or.inl ⟨rfl, Or.inl rfl⟩
    have ancr : ∀ x ∈ r.pre, ∀ b, (node w cs r).Anc b x ↔ r.Anc b x := fun x hx b => by
      constructor
      · rintro (⟨_, rfl | h1⟩ | h1 | h1)
        · exact absurd hx n2
        · exact absurd hx (n5 x h1)
        · exact absurd hx (n5 x (anc_mem_right h1))
        · exact h1
      · exact fun h1 => Or.inr (Or.inr h1)
    -- everything from the first tree, then something from the others
    have hcross : (u = w ∨ u ∈ cs.pre) → v ∈ r.pre → ∃ x i, cpos (node w cs r) u ≤ i ∧ i ≤ cpos (node w cs r) v ∧
        (ent p d (node w cs r))[i]? = some x
        ∧ (∀ j, cpos (node w cs r) u ≤ j → j ≤ cpos (node w cs r) v → ∀ y, (ent p d (node w cs r))[j]? = some y → LexLe x y)
        ∧ ((∃ a : Nat, IsLca (node w cs r) u v a ∧ x.2 = a) ∨ (x = (d - 1, p) ∧ ∀ b, (node w cs r).Anc b u → ¬ (node w cs r).Anc b v)) := by
      intro hu' hv'
      refine ⟨(d - 1, p), 2 + 2 * cs.pre.length, ?_, ?_, ?_, ?_, Or.inr ⟨rfl, ?_⟩⟩
      · rcases hu' with rfl | hu'
        · rw [cw]; omega
        · have := cc u hu'; omega
      · rw [cr v hv']; omega
      · have := ent_get_r (v := w) (r := r) (p := p) (d := d) f1 0
        rw [Nat.add_zero] at this
        rw [this]
        cases r with
        | nil => simp [pre] at hv'
        | skip _ _ => exact f2.elim
        | node _ _ _ => rfl
      · intro j _ _ y hy
        exact ent_lexLe (List.mem_of_getElem? hy)
      · intro b hb1 hb2
        rw [ancr v hv'] at hb2
        have hbr := anc_mem hb2
        rcases hu' with rfl | hu'
        · rw [ancw] at hb1; rw [hb1] at hbr; exact n2 hbr
        · rw [ancc u hu'] at hb1
          rcases hb1 with hb1 | hb1
          · rw [hb1] at hbr; exact n2 hbr
          · exact n5 b (anc_mem hb1) hbr
    have hclose : (u = w ∨ u ∈ cs.pre) → v = w → ∃ x i, cpos (node w cs r) u ≤ i ∧ i ≤ cpos (node w cs r) v ∧
        (ent p d (node w cs r))[i]? = some x
        ∧ (∀ j, cpos (node w cs r) u ≤ j → j ≤ cpos (node w cs r) v → ∀ y, (ent p d (node w cs r))[j]? = some y → LexLe x y)
        ∧ ((∃ a : Nat, IsLca (node w cs r) u v a ∧ x.2 = a) ∨ (x = (d - 1, p) ∧ ∀ b, (node w cs r).Anc b u → ¬ (node w cs r).Anc b v)) := by
      intro hu' hv'
      refine ⟨(d, (w : Int)), 1 + 2 * cs.pre.length, ?_, ?_, ent_get_close f1, ?_, Or.inl ⟨w, ?_, rfl⟩⟩
      · rw [hv', cw] at hle; exact hle
      · rw [hv', cw]
      · intro j hj1 hj2 y hy
        rw [hv', cw] at hj2
        have hj0 : 1 ≤ j := by
          rcases hu' with rfl | hu'
          · rw [cw] at hj1; omega
          · have := cc u hu'; omega
        by_cases hjc : j = 1 + 2 * cs.pre.length
        · rw [hjc, ent_get_close f1] at hy
          cases hy
          exact LexLe.rfl' _
        · obtain ⟨k, rfl⟩ : ∃ k, j = 1 + k := ⟨j - 1, by omega⟩
          rw [ent_get_cs f1 (by omega)] at hy
          have := ent_lexLe (List.mem_of_getElem? hy)
          rwa [show d + 1 - 1 = d by omega] at this
      · refine ⟨Or.inl ⟨rfl, hu'⟩, Or.inl ⟨rfl, Or.inl hv'⟩, fun b _ hb => ?_⟩
        rw [hv'] at hb
        exact hb
    rcases mem_pre_node.mp hu with hu' | hu' | hu' <;> rcases mem_pre_node.mp hv with hv' | hv' | hv'
    · exact hclose (Or.inl hu') hv'
    · have := cc v hv'
      rw [hu', cw] at hle
      omega
    · exact hcross (Or.inl hu') hv'
    · exact hclose (Or.inr hu') hv'
    · obtain ⟨cu1, cu2⟩ := cc u hu'
      obtain ⟨cv1, cv2⟩ := cc v hv'
      obtain ⟨x, i, k1, k2, k3, k4, k5⟩ := ih1 f1 n3 w (d + 1) u v hu' hv' (by omega)
      refine ⟨x, 1 + i, by omega, by omega, by rw [ent_get_cs f1 (by omega)]; exact k3, ?_, ?_⟩
      · intro j hj1 hj2 y hy
        obtain ⟨k, rfl⟩ : ∃ k, j = 1 + k := ⟨j - 1, by omega⟩
        rw [ent_get_cs f1 (by omega)] at hy
        exact k4 k (by omega) (by omega) y hy
      · left
        rcases k5 with ⟨a, ⟨a1, a2, a3⟩, hx⟩ | ⟨hx, hno⟩
        · refine ⟨a, ⟨(ancc u hu' a).mpr (Or.inr a1), (ancc v hv' a).mpr (Or.inr a2), fun b hb1 hb2 => ?_⟩, hx⟩
          rw [ancc a (anc_mem a1)]
          rw [ancc u hu'] at hb1
          rw [ancc v hv'] at hb2
          rcases hb1 with hb1 | hb1
          · exact Or.inl hb1
          · rcases hb2 with hb2 | hb2
            · exact Or.inl hb2
            · exact Or.inr (a3 b hb1 hb2)
        · refine ⟨w, ⟨(ancc u hu' w).mpr (Or.inl rfl), (ancc v hv' w).mpr (Or.inl rfl), fun b hb1 hb2 => ?_⟩, by rw [hx]⟩
          rw [ancw]
          rw [ancc u hu'] at hb1
          rw [ancc v hv'] at hb2
          rcases hb1 with hb1 | hb1
          · exact hb1
          · rcases hb2 with hb2 | hb2
            · exact hb2
            · exact absurd hb2 (hno b hb1)
    · exact hcross (Or.inr hu') hv'
    · rw [hv', cw, cr u hu'] at hle; omega
    · have := cc v hv'
      rw [cr u hu'] at hle; omega
    · rw [cr u hu', cr v hv'] at hle
      obtain ⟨x, i, k1, k2, k3, k4, k5⟩ := ih2 f2 n4 p d u v hu' hv' (by omega)
      refine ⟨x, 2 + 2 * cs.pre.length + i, by rw [cr u hu']; omega, by rw [cr v hv']; omega, by rw [ent_get_r f1]; exact k3, ?_, ?_⟩
      · intro j hj1 hj2 y hy
        rw [cr u hu'] at hj1
        rw [cr v hv'] at hj2
        obtain ⟨k, rfl⟩ : ∃ k, j = 2 + 2 * cs.pre.length + k := ⟨j - (2 + 2 * cs.pre.length), by omega⟩
        rw [ent_get_r f1] at hy
        exact k4 k (by omega) (by omega) y hy
      · rcases k5 with ⟨a, ⟨a1, a2, a3⟩, hx⟩ | ⟨hx, hno⟩
        · left
          refine ⟨a, ⟨(ancr u hu' a).mpr a1, (ancr v hv' a).mpr a2, fun b hb1 hb2 => ?_⟩, hx⟩
          rw [ancr a (anc_mem a1)]
          rw [ancr u hu'] at hb1
          rw [ancr v hv'] at hb2
          exact a3 b hb1 hb2
        · right
          refine ⟨hx, fun b hb1 hb2 => ?_⟩
          rw [ancr u hu'] at hb1
          rw [ancr v hv'] at hb2
          exact hno b hb1 hb2

/-! ### What the constructor stores -/

/-- The state: `s`, the indices `f`, the tree with the leaves `a`. -/
structure LState (n w s : Nat) (st : Nat × List Int × List (Int × Int)) (f : Nat → Int) (a : Nat → LV) : Prop where
  cnt : st.1 = s
  ind : Rep st.2.1 n f
  lev : ∃ lv : List LV, st.2.2 = lv.map Subtype.val ∧ SegTree.Tree lv w (fun _ => True) a

theorem lcaStep_spec {n w s : Nat} {st f a} (h : LState n w s st f a) {e : Int × Int} (he : e.1 < intMax) (hs : s < w)
    (hp : e.2 = -1 ∨ ∃ q : Nat, e.2 = q ∧ q < n) :
    ∃ st' f' a', lcaStep st e = some st' ∧ LState n w (s + 1) st' f' a' ∧ (∀ u : Nat, (u : Int) = e.2 → f' u = s)
      ∧ (∀ u : Nat, (u : Int) ≠ e.2 → f' u = f u) ∧ (a' s).1 = e ∧ ∀ i, i ≠ s → a' i = a i := by
  obtain ⟨s', ind, lev⟩ := st
  have hcnt : s' = s := h.cnt
  subst hcnt
  obtain ⟨lv, e1, ht⟩ := h.lev
  have e1' : lev = lv.map Subtype.val := e1
  subst e1'
  have hind : Rep ind n f := h.ind
  let x : LV := ⟨e, Or.inl he⟩
  obtain ⟨lv', e2, ht'⟩ := SegTree.write_spec ht s' hs x
  have e3 : SegTree.write (lv.map Subtype.val) s' e = some (lv'.map Subtype.val) := by
    rw [show e = Subtype.val x from rfl, write_map, e2]; rfl
  have hval : ∀ i, i ≠ s' → Function.update a s' x i = a i := fun i hi => Function.update_of_ne hi _ _
  rcases hp with hp | ⟨q, hp, hq⟩
  · refine ⟨(s' + 1, ind, lv'.map Subtype.val), f, _, ?_, ⟨rfl, hind, lv', rfl, ht'.mono (fun _ _ _ _ => trivial)⟩, fun u hu => by omega, fun _ _ => rfl,
      by rw [Function.update_self], hval⟩
    unfold lcaStep lcaIndex
    simp only
    rw [if_neg (by simpa using hp), Option.bind_some, e3]
    rfl
  · refine ⟨(s' + 1, ind.set q s', lv'.map Subtype.val), _, _, ?_, ⟨rfl, hind.set q (s' : Int), lv', rfl, ht'.mono (fun _ _ _ _ => trivial)⟩, fun u hu => ?_,
      fun u hu => Function.update_of_ne (by omega) _ _, by rw [Function.update_self], hval⟩
    · unfold lcaStep lcaIndex
      simp only
      rw [if_pos (by omega), hp, Int.toNat_natCast, hind.wr hq, Option.bind_some, e3]
      rfl
    · have : u = q := by omega
      subst this
      exact Function.update_self ..

theorem lcaFold_spec {n w : Nat} {F : Forest} (h : Full F) (hn : F.pre.Nodup) (hlt : ∀ x ∈ F.pre, x < n) :
    ∀ (p d : Int) (s : Nat) st f a, LState n w s st f a → s + 2 * F.pre.length ≤ w → d + F.pre.length < intMax →
    (p = -1 ∨ ∃ q : Nat, p = q ∧ q < n ∧ q ∉ F.pre) →
    ∃ st' f' a', lcaFold (ent p d F) st = some st' ∧ LState n w (s + 2 * F.pre.length) st' f' a'
      ∧ (∀ u ∈ F.pre, f' u = ((s + cpos F u : Nat) : Int)) ∧ (∀ u : Nat, u ∉ F.pre → (u : Int) ≠ p → f' u = f u)
      ∧ (∀ i, i < s → a' i = a i) ∧ ∀ i x, (ent p d F)[i]? = some x → (a' (s + i)).1 = x := by
  induction F with
  | nil => intro p d s st f a hst _ _ _; exact ⟨st, f, a, rfl, hst, by simp [pre], fun _ _ _ => rfl, fun _ _ => rfl, by simp [ent]⟩
  | skip v r ih => exact h.elim
  | node v cs r ih1 ih2 =>
    intro p d s st f a hst hw hd hp
    obtain ⟨n1, n2, n3, n4, n5⟩ := nodup_node hn
    obtain ⟨f1, f2⟩ := h
    have hlen : (node v cs r).pre.length = 1 + cs.pre.length + r.pre.length := by simp [pre]; omega
    rw [hlen] at hw hd
    have hv : v < n := hlt v (by simp [pre])
    have hpv : (v : Int) ≠ p := by
      rintro rfl
      rcases hp with hp | ⟨q, hp, _, hq⟩
      · omega
      · exact hq (by rw [show q = v by omega]; simp [pre])
    obtain ⟨st1, g1, a1, e1, h1, _, k1, v1, w1⟩ := lcaStep_spec hst (e := (d - 1, p)) (by show d - 1 < _; omega) (by omega)
      (hp.elim Or.inl (fun ⟨q, h1, h2, _⟩ => Or.inr ⟨q, h1, h2⟩))
    obtain ⟨st2, g2, a2, e2, h2, c2, k2, w2, v2⟩ := ih1 f1 n3 (fun x hx => hlt x (by simp [pre, hx])) v (d + 1) (s + 1) st1 g1 a1 h1 (by omega) (by omega)
      (Or.inr ⟨v, rfl, hv, n1⟩)
    obtain ⟨st3, g3, a3, e3, h3, c3, k3, v3, w3⟩ := lcaStep_spec h2 (e := (d, (v : Int))) (by show d < _; omega) (by omega) (Or.inr ⟨v, rfl, hv⟩)
    obtain ⟨st4, g4, a4, e4, h4, c4, k4, w4, v4⟩ := ih2 f2 n4 (fun x hx => hlt x (by simp [pre, hx])) p d (s + 1 + 2 * cs.pre.length + 1) st3 g3 a3 h3
      (by omega) (by omega) (hp.elim Or.inl (fun ⟨q, h1, h2, h3⟩ => Or.inr ⟨q, h1, h2, fun hc => h3 (by simp [pre, hc])⟩))
    have hnp : ∀ u ∈ (node v cs r).pre, (u : Int) ≠ p := by
      rintro u hu rfl
      rcases hp with hp | ⟨q, hp, _, hq⟩
      · omega
      · exact hq (by rw [show q = u by omega]; exact hu)
    refine ⟨st4, g4, a4, ?_, ?_, fun u hu => ?_, fun u hu hup => ?_, fun i hi => ?_, fun i x hi => ?_⟩
    · rw [ent, lcaFold, e1, Option.bind_some, lcaFold_append, e2, Option.bind_some, lcaFold, e3]
      exact e4
    · rw [hlen, show s + 2 * (1 + cs.pre.length + r.pre.length) = s + 1 + 2 * cs.pre.length + 1 + 2 * r.pre.length by omega]
      exact h4
    · rw [cpos]
      rcases mem_pre_node.mp hu with hu' | hu' | hu'
      · subst hu'
        rw [if_pos rfl, k4 u n2 (hnp u hu), c3 u rfl]
        push_cast; ring
      · have huv : u ≠ v := by rintro rfl; exact n1 hu'
        rw [if_neg huv, if_pos hu', k4 u (n5 u hu') (hnp u hu), k3 u (by show (u : Int) ≠ v; omega), c2 u hu']
        push_cast; ring
      · have huv : u ≠ v := by rintro rfl; exact n2 hu'
        rw [if_neg huv, if_neg (fun hc => n5 u hc hu'), c4 u hu']
        push_cast; ring
    · simp only [mem_pre_node, not_or] at hu
      rw [k4 u hu.2.2 hup, k3 u (by show (u : Int) ≠ v; omega), k2 u hu.2.1 (by omega), k1 u hup]
    · rw [w4 i (by omega), w3 i (by omega), w2 i (by omega), w1 i (by omega)]
    · rcases (show i = 0 ∨ (1 ≤ i ∧ i - 1 < 2 * cs.pre.length) ∨ i = 1 + 2 * cs.pre.length ∨ 2 + 2 * cs.pre.length ≤ i by omega) with h5 | h5 | h5 | h5
      · subst h5
        rw [ent_get_zero] at hi
        cases hi
        rw [Nat.add_zero, w4 s (by omega), w3 s (by omega), w2 s (by omega), v1]
      · obtain ⟨k, rfl⟩ : ∃ k, i = 1 + k := ⟨i - 1, by omega⟩
        rw [ent_get_cs f1 (by omega)] at hi
        rw [w4 _ (by omega), w3 _ (by omega), show s + (1 + k) = s + 1 + k by omega]
        exact v2 k x hi
      · subst h5
        rw [ent_get_close f1] at hi
        cases hi
        rw [w4 _ (by omega), show s + (1 + 2 * cs.pre.length) = s + 1 + 2 * cs.pre.length by omega, v3]
      · obtain ⟨k, rfl⟩ : ∃ k, i = 2 + 2 * cs.pre.length + k := ⟨i - (2 + 2 * cs.pre.length), by omega⟩
        rw [ent_get_r f1] at hi
        rw [show s + (2 + 2 * cs.pre.length + k) = s + 1 + 2 * cs.pre.length + 1 + k by omega]
        exact v4 k x hi

/-- The data of the structure for the forest `F`. -/
structure LBuilt (n : Nat) (F : Forest) (t : List Int × List (Int × Int)) : Prop where
  ind : ∃ f, Rep t.1 n f ∧ ∀ u ∈ F.pre, f u = ((cpos F u : Nat) : Int)
  lev : ∃ (lv : List LV) (k : Nat) (a : Nat → LV), t.2 = lv.map Subtype.val ∧ SegTree.Tree lv (2 ^ k) (fun _ => False) a
    ∧ 2 * F.pre.length ≤ 2 ^ k ∧ ∀ i x, (ent (-1) 0 F)[i]? = some x → (a i).1 = x

theorem lcaBuild_of {g : List (List Nat)} (hg : Valid g) (hm : (g.length : Int) < intMax) {F : Forest} (hF : IsDfs g (fun _ _ => true) (List.range g.length) F)
    (hrun : ∀ (σ : Type) (visitor : Visitor σ) (s s' : σ), feed visitor (fun _ _ => true) F.rootEvents s = some s' → ∃ fuel0, ∀ fuel, fuel0 ≤ fuel → iterativeDfs fuel g visitor (-1) s = some s') :
    ∃ t, LBuilt g.length F t ∧ ∃ fuel0, ∀ fuel, fuel0 ≤ fuel → lcaBuild fuel g = some t := by
  have hperm := C95_dfs_all hg hF
  have hlen : F.pre.length = g.length := by rw [hperm.length_eq, List.length_range]
  have hfull : Full F := full_of_calls (fun q v b hm => hF.answers q v b hm)
  obtain ⟨k, hk, ht⟩ := SegTree.mkSize_tree (T := LV) (g.length * 2 + 1)
  have hkl := (SegTree.calcPow2_spec (g.length * 2 + 1)).2
  rw [hk] at hkl
  have hmk : SegTree.mkSize (g.length * 2 + 1) (intMax, -1) = (SegTree.mkSize (g.length * 2 + 1) (1 : LV)).map Subtype.val := by
    rw [SegTree.mkSize, SegTree.mkSize, List.map_replicate]; rfl
  obtain ⟨st, f, a, e, hst, c, _, _, v⟩ := lcaFold_spec (n := g.length) (w := 2 ^ k) hfull hF.nodup (fun x hx => List.mem_range.mp (hperm.mem_iff.mp hx))
    (-1) 0 0 (0, List.replicate g.length (-1), SegTree.mkSize (g.length * 2 + 1) (intMax, -1)) _ _
    ⟨rfl, Rep.replicate _ _, _, hmk, ht.mono (fun _ _ _ h => h.elim)⟩ (by omega) (by omega) (Or.inl rfl)
  rw [Nat.zero_add] at hst
  obtain ⟨s', ind, lev⟩ := st
  have hcnt : s' = 2 * F.pre.length := hst.cnt
  obtain ⟨lv, hlv, htr⟩ := hst.lev
  have hlv' : lev = lv.map Subtype.val := hlv
  obtain ⟨lv1, e1, ht1⟩ := SegTree.write_spec htr (2 * F.pre.length) (by omega) (⟨(-1, -1), Or.inl (by show (-1 : Int) < 2147483647; omega)⟩ : LV)
  obtain ⟨lv2, e2, ht2⟩ := SegTree.rebuild_spec ht1 (Nat.two_pow_pos k)
  obtain ⟨f0, hf0⟩ := hrun _ lcaVisit _ _ (by rw [feed_lca, ent_rootEvents]; exact e)
  refine ⟨(ind, lv2.map Subtype.val), ⟨⟨f, hst.ind, fun u hu => by rw [c u hu, Nat.zero_add]⟩, lv2, k, _, rfl, ht2, by omega, fun i x hi => ?_⟩,
    f0, fun fuel hf => ?_⟩
  · have hi' := (List.getElem?_eq_some_iff.mp hi).1
    rw [ent_length hfull] at hi'
    rw [Function.update_of_ne (by omega)]
    have := v i x hi
    rwa [Nat.zero_add] at this
  · unfold lcaBuild
    rw [hf0 fuel hf]
    show (SegTree.write lev s' (-1, -1)).bind _ = _
    rw [hcnt, hlv', show ((-1, -1) : Int × Int) = Subtype.val (⟨(-1, -1), Or.inl (by show (-1 : Int) < 2147483647; omega)⟩ : LV) from rfl,
      write_map, e1]
    show (SegTree.rebuild pairMin (lv1.map Subtype.val)).bind _ = _
    rw [rebuild_map (fS := (· * ·)) (fT := pairMin) Subtype.val (fun _ _ => rfl), show SegTree.rebuild (· * ·) lv1 = some lv2 from e2]
    rfl

theorem lcaBuild_spec {g : List (List Nat)} (hg : Valid g) (hm : (g.length : Int) < intMax) :
    ∃ F t, IsDfs g (fun _ _ => true) (List.range g.length) F ∧ F.pre.Perm (List.range g.length) ∧ LBuilt g.length F t
      ∧ ∃ fuel0, ∀ fuel, fuel0 ≤ fuel → lcaBuild fuel g = some t := by
  obtain ⟨F, hF, hrun⟩ := C95_iterative_dfs g hg (-1) (Or.inl rfl) (fun _ _ => true)
  rw [if_pos rfl] at hF
  obtain ⟨t, h1, h2⟩ := lcaBuild_of hg hm hF hrun
  exact ⟨F, t, hF, C95_dfs_all hg hF, h1, h2⟩

theorem lcaDepth_spec {n : Nat} {F : Forest} {t : List Int × List (Int × Int)} (h : LBuilt n F t) (hf : Full F) {u : Nat} (hu : u ∈ F.pre) (hun : u < n) :
    lcaDepth t (u : Int) = some ((depF 0 F u : Nat) : Int) := by
  obtain ⟨f, hr, hc⟩ := h.ind
  obtain ⟨lv, k, a, hl, ht, hk, ha⟩ := h.lev
  have hlt := cpos_lt hf u hu
  have hs := ht.size
  obtain ⟨gg, r, _, _, l⟩ := ht.ex
  unfold lcaDepth
  rw [if_neg (by omega), Int.toNat_natCast, hr.rd hun, hc u hu]
  rw [Option.bind_eq_bind, Option.bind_some, if_neg (by omega), Int.toNat_natCast, SegTree.get1, hl, size_map, hs, rd_map, r.rd (by omega), Nat.add_comm, l _ (by omega)]
  show some ((a (cpos F u)).1.1) = _
  rw [ha _ _ (ent_close hf (-1) 0 u hu)]

theorem lcaAncestor_spec {n : Nat} {F : Forest} {t : List Int × List (Int × Int)} (h : LBuilt n F t) (hf : Full F) (hn : F.pre.Nodup) {u v : Nat}
    (hu : u ∈ F.pre) (hun : u < n) (hv : v ∈ F.pre) (hvn : v < n) :
    (∃ a : Nat, lcaAncestor t u v = some (a : Int) ∧ IsLca F u v a) ∨ (lcaAncestor t u v = some (-1) ∧ ∀ b, F.Anc b u → ¬ F.Anc b v) := by
  obtain ⟨f, hr, hc⟩ := h.ind
  obtain ⟨lv, k, a, hl, ht, hk, ha⟩ := h.lev
  have main : ∀ u v : Nat, u ∈ F.pre → v ∈ F.pre → cpos F u ≤ cpos F v → ∃ x, SegTree.get pairMin t.2 (cpos F u) (cpos F v + 1) = some x ∧
      ((∃ a : Nat, IsLca F u v a ∧ x.2 = a) ∨ (x.2 = -1 ∧ ∀ b, F.Anc b u → ¬ F.Anc b v)) := by
    intro u v hu hv hle
    have hltv := cpos_lt hf v hv
    have hent := ent_length hf (-1) 0
    obtain ⟨x, i, k1, k2, k3, k4, k5⟩ := ent_least hf hn (-1) 0 u v hu hv hle
    have hget := SegTree.get_spec ht (cpos F u) (cpos F v + 1) (by omega)
    have hg2 : SegTree.get pairMin t.2 (cpos F u) (cpos F v + 1) =
        some (((List.range' (cpos F u) (cpos F v + 1 - cpos F u)).map a).prod).1 := by
      rw [hl, get_map (fS := (· * ·)) (fT := pairMin) Subtype.val (fun _ _ => rfl), show SegTree.get (· * ·) lv _ _ = _ from hget]
      rfl
    obtain ⟨p1, p2⟩ := prod_least ((List.range' (cpos F u) (cpos F v + 1 - cpos F u)).map a) (by simp; omega)
    have hmem : ∀ j, cpos F u ≤ j → j ≤ cpos F v → ∃ y, (ent (-1) 0 F)[j]? = some y ∧ (a j).1 = y := fun j _ _ => by
      have hj : j < (ent (-1) 0 F).length := by omega
      exact ⟨_, List.getElem?_eq_getElem hj, ha j _ (List.getElem?_eq_getElem hj)⟩
    have hx : (((List.range' (cpos F u) (cpos F v + 1 - cpos F u)).map a).prod).1 = x := by
      obtain ⟨j, hj, ej⟩ := List.mem_map.mp p1
      rw [List.mem_range'_1] at hj
      obtain ⟨y, hy, hay⟩ := hmem j hj.1 (by omega)
      refine LexLe.antisymm ?_ ?_
      · have := p2 (a i) (List.mem_map.mpr ⟨i, List.mem_range'_1.mpr ⟨k1, by omega⟩, rfl⟩)
        rwa [ha i x k3] at this
      · rw [← ej, hay]
        exact k4 j hj.1 (by omega) y hy
    refine ⟨x, by rw [hg2, hx], ?_⟩
    rcases k5 with k5 | ⟨k5, k6⟩
    · exact Or.inl k5
    · exact Or.inr ⟨by rw [k5], k6⟩
  have estep : lcaAncestor t (u : Int) (v : Int) = (SegTree.get pairMin t.2 (if (cpos F v : Int) < cpos F u then cpos F v else cpos F u)
      ((if (cpos F v : Int) < cpos F u then cpos F u else cpos F v) + 1)).map Prod.snd := by
    unfold lcaAncestor
    rw [if_neg (by omega), Int.toNat_natCast, Int.toNat_natCast, hr.rd hun, hc u hu]
    rw [Option.bind_eq_bind, Option.bind_some, hr.rd hvn, hc v hv, Option.bind_eq_bind, Option.bind_some, if_neg (by omega)]
    by_cases hlt : (cpos F v : Int) < cpos F u
    · rw [if_pos hlt, if_pos hlt]
      have : ((cpos F u : Nat) : Int) > ((cpos F v : Nat) : Int) := hlt
      simp only [if_pos this, Int.toNat_natCast]
      cases SegTree.get pairMin t.2 (cpos F v) (cpos F u + 1) <;> rfl
    · rw [if_neg hlt, if_neg hlt]
      have : ¬ ((cpos F u : Nat) : Int) > ((cpos F v : Nat) : Int) := hlt
      simp only [if_neg this, Int.toNat_natCast]
      cases SegTree.get pairMin t.2 (cpos F u) (cpos F v + 1) <;> rfl
  rw [estep]
  by_cases hlt : (cpos F v : Int) < cpos F u
  · rw [if_pos hlt, if_pos hlt]
    obtain ⟨x, e, h1 | h1⟩ := main v u hv hu (by omega)
    · obtain ⟨b, ⟨b1, b2, b3⟩, hb⟩ := h1
      exact Or.inl ⟨b, by rw [e, Option.map_some, hb], b2, b1, fun c c1 c2 => b3 c c2 c1⟩
    · exact Or.inr ⟨by rw [e, Option.map_some, h1.1], fun b b1 b2 => h1.2 b b2 b1⟩
  · rw [if_neg hlt, if_neg hlt]
    obtain ⟨x, e, h1 | h1⟩ := main u v hu hv (by omega)
    · obtain ⟨b, hb1, hb⟩ := h1
      exact Or.inl ⟨b, by rw [e, Option.map_some, hb], hb1⟩
    · exact Or.inr ⟨by rw [e, Option.map_some, h1.1], h1.2⟩

/-! ### Levels and paths -/

theorem dep_calls {F : Forest} (hn : F.pre.Nodup) (hf : Full F) : ∀ (p : Int) (d : Nat) (q : Int) (v : Nat) (b : Bool), (q, v, b) ∈ F.calls p →
    (q = p ∧ depF d F v = d) ∨ ∃ w : Nat, w ∈ F.pre ∧ q = w ∧ depF d F v = depF d F w + 1 := by
  induction F with
  | nil => simp [calls]
  | skip _ _ _ => exact hf.elim
  | node w cs r ih1 ih2 =>
    obtain ⟨n1, n2, n3, n4, n5⟩ := nodup_node hn
    obtain ⟨f1, f2⟩ := hf
    have dw : ∀ d, depF d (node w cs r) w = d := fun d => by rw [depF, if_pos rfl]
    have dc : ∀ d, ∀ x ∈ cs.pre, depF d (node w cs r) x = depF (d + 1) cs x := fun d x hx => by
      rw [depF, if_neg (by rintro rfl; exact n1 hx), if_pos hx]
    have dr : ∀ d, ∀ x ∈ r.pre, depF d (node w cs r) x = depF d r x := fun d x hx => by
      rw [depF, if_neg (by rintro rfl; exact n2 hx), if_neg (fun hc => n5 x hc hx)]
    have hpre : ∀ {F : Forest}, Full F → ∀ p q v b, (q, v, b) ∈ F.calls p → v ∈ F.pre := by
      intro F
      induction F with
      | nil => simp [calls]
      | skip _ _ _ => exact fun h => h.elim
      | node x cs r i1 i2 =>
        intro h p q v b hm
        simp only [calls, List.cons_append, List.mem_cons, List.mem_append] at hm
        rw [mem_pre_node]
        rcases hm with hm | hm | hm
        · cases hm; exact Or.inl rfl
        · exact Or.inr (Or.inl (i1 h.1 _ _ _ _ hm))
        · exact Or.inr (Or.inr (i2 h.2 _ _ _ _ hm))
    intro p d q v b hm
    simp only [calls, List.cons_append, List.mem_cons, List.mem_append] at hm
    rcases hm with hm | hm | hm
    · cases hm; exact Or.inl ⟨rfl, dw d⟩
    · right
      have hv := hpre f1 _ _ _ _ hm
      rcases ih1 n3 f1 w (d + 1) q v b hm with ⟨h1, h2⟩ | ⟨x, h1, h2, h3⟩
      · exact ⟨w, by simp [pre], h1, by rw [dc d v hv, dw, h2]⟩
      · exact ⟨x, by simp [pre, h1], h2, by rw [dc d v hv, dc d x h1, h3]⟩
    · have hv := hpre f2 _ _ _ _ hm
      rcases ih2 n4 f2 p d q v b hm with ⟨h1, h2⟩ | ⟨x, h1, h2, h3⟩
      · exact Or.inl ⟨h1, by rw [dr d v hv, h2]⟩
      · exact Or.inr ⟨x, by simp [pre, h1], h2, by rw [dr d v hv, dr d x h1, h3]⟩

theorem par_of {g : List (List Nat)} {F : Forest} (hf : Full F) (hn : F.pre.Nodup) (ho : F.Ordered g) : ∀ (p : Int), ∀ v ∈ F.pre,
    (v ∈ F.heads ∧ (p, v, true) ∈ F.calls p ∧ ∀ a, F.Anc a v → a = v) ∨
    ∃ q : Nat, q ∈ F.pre ∧ (((q : Nat) : Int), v, true) ∈ F.calls p ∧ Edge g q v ∧ F.Anc q v ∧ ∀ a, F.Anc a v → a = v ∨ F.Anc a q := by
  induction F with
  | nil => simp [pre]
  | skip _ _ _ => exact hf.elim
  | node w cs r ih1 ih2 =>
    intro p v hv
    obtain ⟨n1, n2, n3, n4, n5⟩ := nodup_node hn
    obtain ⟨f1, f2⟩ := hf
    obtain ⟨⟨l, hl, hsub⟩, o1, o2⟩ := ho
    simp only [heads, calls, Anc, List.cons_append, List.mem_cons, List.mem_append, mem_pre_node]
    rcases mem_pre_node.mp hv with hv' | hv' | hv'
    · subst hv'
      exact Or.inl ⟨Or.inl rfl, Or.inl rfl, fun a ha => by
        rcases ha with h | h | h
        · exact h.1
        · exact absurd (anc_mem_right h) n1
        · exact absurd (anc_mem_right h) n2⟩
    · right
      rcases ih1 f1 n3 o1 w v hv' with ⟨h1, h2, h3⟩ | ⟨q, h1, h2, h3, h4, h5⟩
      · exact ⟨w, Or.inl rfl, Or.inr (Or.inl h2), ⟨l, hl, hsub.mem h1⟩, Or.inl ⟨rfl, Or.inr hv'⟩, fun a ha => by
          rcases ha with h | h | h
          · exact Or.inr (Or.inl ⟨h.1, Or.inl rfl⟩)
          · exact Or.inl (h3 a h)
          · exact absurd (anc_mem_right h) (n5 v hv')⟩
      · exact ⟨q, Or.inr (Or.inl h1), Or.inr (Or.inl h2), h3, Or.inr (Or.inl h4), fun a ha => by
          rcases ha with h | h | h
          · exact Or.inr (Or.inl ⟨h.1, Or.inr h1⟩)
          · exact (h5 a h).imp id (fun h => Or.inr (Or.inl h))
          · exact absurd (anc_mem_right h) (n5 v hv')⟩
    · have hvw : v ≠ w := by rintro rfl; exact n2 hv'
      rcases ih2 f2 n4 o2 p v hv' with ⟨h1, h2, h3⟩ | ⟨q, h1, h2, h3, h4, h5⟩
      · exact Or.inl ⟨Or.inr h1, Or.inr (Or.inr h2), fun a ha => by
          rcases ha with h | h | h
          · exact (h.2.elim hvw (fun hc => n5 v hc hv')).elim
          · exact absurd hv' (n5 v (anc_mem_right h))
          · exact h3 a h⟩
      · exact Or.inr ⟨q, Or.inr (Or.inr h1), Or.inr (Or.inr h2), h3, Or.inr (Or.inr h4), fun a ha => by
          rcases ha with h | h | h
          · exact (h.2.elim hvw (fun hc => n5 v hc hv')).elim
          · exact absurd hv' (n5 v (anc_mem_right h))
          · exact (h5 a h).imp id (fun h => Or.inr (Or.inr h))⟩

theorem anc_antisymm {F : Forest} (hn : F.pre.Nodup) {x y : Nat} (h1 : F.Anc x y) (h2 : F.Anc y x) : x = y := by
  induction F with
  | nil => exact h1.elim
  | skip w r ih => exact ih hn h1 h2
  | node w cs r ih1 ih2 =>
    obtain ⟨n1, n2, n3, n4, n5⟩ := nodup_node hn
    rcases h1 with ⟨a1, a2⟩ | a | a
    · rcases h2 with ⟨b1, b2⟩ | b | b
      · rw [a1, b1]
      · exact absurd (a1 ▸ anc_mem_right b) n1
      · exact absurd (a1 ▸ anc_mem_right b) n2
    · rcases h2 with ⟨b1, b2⟩ | b | b
      · exact absurd (b1 ▸ anc_mem_right a) n1
      · exact ih1 n3 a b
      · exact absurd (anc_mem b) (n5 y (anc_mem_right a))
    · rcases h2 with ⟨b1, b2⟩ | b | b
      · exact absurd (b1 ▸ anc_mem_right a) n2
      · exact absurd (anc_mem_right a) (n5 y (anc_mem b))
      · exact ih2 n4 a b

/-- The way up from `u` to its ancestor `a`. -/
theorem up_path {g : List (List Nat)} {F : Forest} (hf : Full F) (hn : F.pre.Nodup) (ho : F.Ordered g) : ∀ (k u a : Nat), depF 0 F u ≤ k → F.Anc a u →
    ∃ l : List Nat, l.head? = some u ∧ l.getLast? = some a ∧ l.IsChain (fun x y => Edge g y x) ∧ l.length + depF 0 F a = depF 0 F u + 1
      ∧ (∀ x ∈ l, F.Anc a x ∧ F.Anc x u) ∧ l.Pairwise (fun x y => depF 0 F y < depF 0 F x) ∧ depF 0 F a ≤ depF 0 F u
      ∧ ∀ b, F.Anc a b → F.Anc b u → b ∈ l := by
  have base : ∀ a, F.Anc a a → ∀ b, F.Anc a b → F.Anc b a → b ∈ [a] := by
    intro a ha b h1 h2
    rw [List.mem_singleton]
    exact anc_antisymm hn h2 h1
  intro k
  induction k with
  | zero =>
    intro u a hk ha
    have hu := anc_mem_right ha
    have : a = u := by
      rcases par_of hf hn ho (-1) u hu with ⟨_, _, h3⟩ | ⟨q, h1, h2, _⟩
      · exact h3 a ha
      · rcases dep_calls hn hf (-1) 0 _ _ _ h2 with ⟨h, _⟩ | ⟨w, _, _, h⟩ <;> omega
    subst this
    exact ⟨[a], rfl, rfl, by simp, by simp; omega, fun x hx => by rw [List.mem_singleton] at hx; subst hx; exact ⟨ha, ha⟩, by simp, le_refl _, base a ha⟩
  | succ k ih =>
    intro u a hk ha
    have hu := anc_mem_right ha
    by_cases hau : a = u
    · subst hau
      exact ⟨[a], rfl, rfl, by simp, by simp; omega, fun x hx => by rw [List.mem_singleton] at hx; subst hx; exact ⟨ha, ha⟩, by simp, le_refl _, base a ha⟩
    · rcases par_of hf hn ho (-1) u hu with ⟨_, _, h3⟩ | ⟨q, h1, h2, h3, h4, h5⟩
      · exact absurd (h3 a ha) hau
      · have hd : depF 0 F u = depF 0 F q + 1 := by
          rcases dep_calls hn hf (-1) 0 _ _ _ h2 with ⟨h, _⟩ | ⟨w, _, hw, h⟩
          · omega
          · rw [h, show w = q by omega]
        have haq := (h5 a ha).resolve_left hau
        obtain ⟨l, l1, l2, l3, l4, l5, l6, l7, l8⟩ := ih q a (by omega) haq
        obtain ⟨x, l, rfl⟩ : ∃ x l', l = x :: l' := by cases l with | nil => simp at l1 | cons x l => exact ⟨x, l, rfl⟩
        cases l1
        refine ⟨u :: q :: l, rfl, by rw [List.getLast?_cons_cons]; exact l2, List.isChain_cons_cons.mpr ⟨h3, l3⟩, by simp at l4 ⊢; omega, fun x hx => ?_,
          List.pairwise_cons.mpr ⟨fun x hx => ?_, l6⟩, by omega, fun b b1 b2 => ?_⟩
        · rcases List.mem_cons.mp hx with rfl | hx
          · exact ⟨ha, anc_refl hu⟩
          · exact ⟨(l5 x hx).1, anc_trans hn (l5 x hx).2 h4⟩
        · rcases List.mem_cons.mp hx with rfl | hx
          · omega
          · have := (List.pairwise_cons.mp l6).1 x hx; omega
        · rcases h5 b b2 with h | h
          · rw [h]; exact List.mem_cons_self
          · exact List.mem_cons_of_mem _ (l8 b b1 h)

theorem post_perm (F : Forest) : F.post.Perm F.pre := by
  induction F with
  | nil => rfl
  | skip _ r ih => exact ih
  | node v cs r ih1 ih2 =>
    rw [post, pre, List.cons_append]
    exact (List.perm_middle).trans ((ih1.append ih2).cons v)

theorem common_of_reach {g : List (List Nat)} {F : Forest} (hF : IsDfs g (fun _ _ => true) (List.range g.length) F)
    (hm : ∀ x, x < g.length → x ∈ F.pre) (hg : Valid g) (hsym : ∀ x y, Edge g x y → Edge g y x) {u v : Nat} (hu : u < g.length) (h : Reach g u v) :
    ∃ b, F.Anc b u ∧ F.Anc b v := by
  have hnp : F.post.Nodup := (post_perm F).nodup_iff.mpr hF.nodup
  induction h with
  | refl => exact ⟨u, anc_refl (hm u hu), anc_refl (hm u hu)⟩
  | @tail x y _ hxy ih =>
    obtain ⟨b, h1, h2⟩ := ih
    have hx : x < g.length := hg _ _ (hsym _ _ hxy)
    have hy : y < g.length := hg _ _ hxy
    have key : F.Anc y x ∨ F.Anc x y := by
      rcases hF.edges x (hm x hx) y hxy with k1 | k1 | k1
      · rcases hF.edges y (hm y hy) x (hsym _ _ hxy) with k2 | k2 | k2
        · exfalso
          obtain ⟨l1, l2, e, m1, m2⟩ := List.cons_sublist_iff.mp k1
          rw [List.singleton_sublist] at m2
          obtain ⟨l3, l4, e', m3, m4⟩ := List.cons_sublist_iff.mp k2
          rw [List.singleton_sublist] at m4
          by_cases hle : l3.length ≤ l1.length
          · have : l3 <+: l1 := List.prefix_of_prefix_length_le (e' ▸ List.prefix_append ..) (e ▸ List.prefix_append ..) hle
            have hx1 := this.subset m3
            rw [e] at hnp
            exact (List.nodup_append.mp hnp).2.2 x hx1 x m2 rfl
          · have : l1 <+: l3 := List.prefix_of_prefix_length_le (e ▸ List.prefix_append ..) (e' ▸ List.prefix_append ..) (by omega)
            have hx1 := this.subset m1
            rw [e'] at hnp
            exact (List.nodup_append.mp hnp).2.2 y hx1 y m4 rfl
        · exact Or.inr k2
        · cases k2
      · exact Or.inl k1
      · cases k1
    rcases key with k | k
    · rcases anc_linear hF.nodup h2 k with k2 | k2
      · exact ⟨b, h1, k2⟩
      · exact ⟨y, anc_trans hF.nodup k2 h1, anc_refl (hm y hy)⟩
    · exact ⟨b, h1, anc_trans hF.nodup h2 k⟩

/-! ### The theorems -/

/-- For every graph the constructor ends; the structure describes a depth-first forest `F` of all the nodes.  `depth` counts the
edges to the root; `ancestor` is the lowest common ancestor, -1 if there is none; `distance` counts the edges to it. -/
theorem C99_lca (g : List (List Nat)) (hg : Valid g) (hn : g.length < 2 ^ 31 - 1) :
    ∃ (F : Forest) (dep : Nat → Nat) (t : List Int × List (Int × Int)), IsDfs g (fun _ _ => true) (List.range g.length) F
      ∧ F.pre.Perm (List.range g.length) ∧ (∃ fuel0, ∀ fuel, fuel0 ≤ fuel → lcaBuild fuel g = some t)
      ∧ (∀ p v b, (p, v, b) ∈ F.calls (-1) → p = -1 ∧ dep v = 0 ∨ ∃ q : Nat, p = q ∧ dep v = dep q + 1)
      ∧ ∀ u, u < g.length → lcaDepth t u = some (dep u : Int) ∧ ∀ v, v < g.length →
        ((∃ a : Nat, lcaAncestor t u v = some (a : Int) ∧ IsLca F u v a ∧ dep a ≤ dep u ∧ dep a ≤ dep v
            ∧ lcaDistance t u v = some (((dep u - dep a) + (dep v - dep a) : Nat) : Int))
          ∨ (lcaAncestor t u v = some (-1) ∧ lcaDistance t u v = some (-1) ∧ ∀ b, F.Anc b u → ¬ F.Anc b v)) := by
  obtain ⟨F, t, hF, hperm, hb, hrun⟩ := lcaBuild_spec hg (by show (g.length : Int) < 2147483647; omega)
  have hfull : Full F := full_of_calls (fun q v b hm => hF.answers q v b hm)
  have hm : ∀ x, x < g.length → x ∈ F.pre := fun x hx => hperm.mem_iff.mpr (List.mem_range.mpr hx)
  have hm' : ∀ x, x ∈ F.pre → x < g.length := fun x hx => List.mem_range.mp (hperm.mem_iff.mp hx)
  refine ⟨F, depF 0 F, t, hF, hperm, hrun, fun p v b h => ?_, fun u hu => ⟨lcaDepth_spec hb hfull (hm u hu) hu, fun v hv => ?_⟩⟩
  · rcases dep_calls hF.nodup hfull (-1) 0 p v b h with h1 | ⟨w, _, h2, h3⟩
    · exact Or.inl h1
    · exact Or.inr ⟨w, h2, h3⟩
  · rcases lcaAncestor_spec hb hfull hF.nodup (hm u hu) hu (hm v hv) hv with ⟨a, h1, h2⟩ | ⟨h1, h2⟩
    · have ha := anc_mem h2.1
      obtain ⟨_, _, _, _, _, _, _, d1, _⟩ := up_path hfull hF.nodup hF.ordered _ u a (le_refl _) h2.1
      obtain ⟨_, _, _, _, _, _, _, d2, _⟩ := up_path hfull hF.nodup hF.ordered _ v a (le_refl _) h2.2.1
      refine Or.inl ⟨a, h1, h2, d1, d2, ?_⟩
      unfold lcaDistance
      rw [h1, Option.bind_eq_bind, Option.bind_some, if_neg (by omega), lcaDepth_spec hb hfull (hm u hu) hu, lcaDepth_spec hb hfull ha (hm' a ha),
        lcaDepth_spec hb hfull (hm v hv) hv]
      show some _ = some _
      congr 1
      omega
    · refine Or.inr ⟨h1, ?_, h2⟩
      unfold lcaDistance
      rw [h1]
      rfl

/-- No node: -1. -/
theorem C99_no_node (t : List Int × List (Int × Int)) (u v : Int) :
    (u < 0 → lcaDepth t u = some (-1)) ∧ (u < 0 ∨ v < 0 → lcaAncestor t u v = some (-1) ∧ lcaDistance t u v = some (-1)) := by
  refine ⟨fun h => if_pos h, fun h => ?_⟩
  have e : lcaAncestor t u v = some (-1) := if_pos h
  refine ⟨e, ?_⟩
  unfold lcaDistance
  rw [e]
  rfl

/-- A path without repeated nodes. -/
structure SimplePath (g : List (List Nat)) (u v : Nat) (l : List Nat) : Prop where
  first : l.head? = some u
  last : l.getLast? = some v
  edges : l.IsChain (Edge g)
  nodup : l.Nodup

theorem root_of {g : List (List Nat)} {F : Forest} (hf : Full F) (hn : F.pre.Nodup) (ho : F.Ordered g) : ∀ (k u : Nat), depF 0 F u ≤ k → u ∈ F.pre →
    ∃ r, F.Anc r u ∧ depF 0 F r = 0 := by
  intro k
  induction k with
  | zero => exact fun u hk hu => ⟨u, anc_refl hu, by omega⟩
  | succ k ih =>
    intro u hk hu
    rcases par_of hf hn ho (-1) u hu with ⟨_, h2, _⟩ | ⟨q, h1, h2, h3, h4, h5⟩
    · rcases dep_calls hn hf (-1) 0 _ _ _ h2 with ⟨_, h⟩ | ⟨w, _, hw, h⟩
      · exact ⟨u, anc_refl hu, h⟩
      · omega
    · rcases dep_calls hn hf (-1) 0 _ _ _ h2 with ⟨hw, h⟩ | ⟨w, _, hw, h⟩
      · omega
      · have : w = q := by omega
        subst this
        obtain ⟨r, r1, r2⟩ := ih w (by omega) h1
        exact ⟨r, anc_trans hn r1 h4, r2⟩

theorem pairwise_nodup {l : List Nat} {f : Nat → Nat} (h : l.Pairwise (fun x y => f y < f x)) : l.Nodup :=
  h.imp (fun {a b} hab hc => by subst hc; omega)

/-- The way up, turned round. -/
theorem down_path {g : List (List Nat)} {F : Forest} (hf : Full F) (hn : F.pre.Nodup) (ho : F.Ordered g) {u a : Nat} (h : F.Anc a u) :
    ∃ l : List Nat, SimplePath g a u l ∧ l.length + depF 0 F a = depF 0 F u + 1 ∧ ∀ b, F.Anc a b → F.Anc b u → b ∈ l := by
  obtain ⟨l, l1, l2, l3, l4, l5, l6, l7, l8⟩ := up_path hf hn ho _ u a (le_refl _) h
  refine ⟨l.reverse, ⟨by rw [List.head?_reverse, l2], by rw [List.getLast?_reverse, l1], ?_, List.nodup_reverse.mpr (pairwise_nodup l6)⟩,
    by rw [List.length_reverse, l4], fun b h1 h2 => List.mem_reverse.mpr (l8 b h1 h2)⟩
  rw [List.isChain_reverse]
  exact l3

/-- Undirected graphs.  Every component has a root.  Nodes of different components have no ancestor and the distance -1.  For
nodes `u` and `v` of one component there are simple paths from the root to `u`, from the root to `v` and from `u` to `v`, all
through the ancestor, and their numbers of edges are the depths and the distance. -/
theorem C99_undirected (g : List (List Nat)) (hg : Valid g) (hsym : ∀ x y, Edge g x y → Edge g y x) (hn : g.length < 2 ^ 31 - 1) :
    ∃ (t : List Int × List (Int × Int)) (root : Nat → Nat), (∃ fuel0, ∀ fuel, fuel0 ≤ fuel → lcaBuild fuel g = some t) ∧
      ∀ u v : Nat, u < g.length → v < g.length →
      (¬ Reach g u v → lcaAncestor t u v = some (-1) ∧ lcaDistance t u v = some (-1)) ∧
      (Reach g u v → root u = root v ∧ ∃ (a : Nat) (lu lv l : List Nat), SimplePath g (root u) u lu ∧ SimplePath g (root u) v lv ∧ SimplePath g u v l
        ∧ lcaAncestor t u v = some (a : Int) ∧ a ∈ lu ∧ a ∈ lv ∧ a ∈ l
        ∧ lcaDepth t u = some (((lu.length - 1 : Nat)) : Int) ∧ lcaDistance t u v = some (((l.length - 1 : Nat)) : Int)) := by
  obtain ⟨F, t, hF, hperm, hb, hrun⟩ := lcaBuild_spec hg (by show (g.length : Int) < 2147483647; omega)
  have hfull : Full F := full_of_calls (fun q v b hm => hF.answers q v b hm)
  have hm : ∀ x, x < g.length → x ∈ F.pre := fun x hx => hperm.mem_iff.mpr (List.mem_range.mpr hx)
  have hm' : ∀ x, x ∈ F.pre → x < g.length := fun x hx => List.mem_range.mp (hperm.mem_iff.mp hx)
  have hrt : ∀ u, ∃ r, u ∈ F.pre → F.Anc r u ∧ depF 0 F r = 0 := fun u => by
    by_cases hu : u ∈ F.pre
    · obtain ⟨r, hr⟩ := root_of hfull hF.nodup hF.ordered _ u (le_refl _) hu
      exact ⟨r, fun _ => hr⟩
    · exact ⟨0, fun h => absurd h hu⟩
  choose root hroot using hrt
  have hzero : ∀ r x, depF 0 F r = 0 → F.Anc x r → x = r := fun r x hr hx => by
    obtain ⟨l, l1, l2, l3, l4, l5, l6, l7, l8⟩ := up_path hfull hF.nodup hF.ordered _ r x (le_refl _) hx
    have hl : l.length = 1 ∨ l.length = 0 := by omega
    rcases hl with hl | hl
    · obtain ⟨y, rfl⟩ := List.length_eq_one_iff.mp hl
      simp at l1 l2
      rw [← l1, ← l2]
    · rw [List.length_eq_zero_iff] at hl
      subst hl; cases l1
  have hrev : ∀ x y, Reach g x y → Reach g y x := fun x y h => by
    induction h with
    | refl => exact .refl
    | tail _ h2 ih => exact Relation.ReflTransGen.head (hsym _ _ h2) ih
  refine ⟨t, root, hrun, fun u v hu hv => ⟨fun hnr => ?_, fun hr => ?_⟩⟩
  · rcases lcaAncestor_spec hb hfull hF.nodup (hm u hu) hu (hm v hv) hv with ⟨a, h1, h2⟩ | ⟨h1, h2⟩
    · exact absurd ((hrev _ _ (anc_reach hF.ordered h2.1)).trans (anc_reach hF.ordered h2.2.1)) hnr
    · refine ⟨h1, ?_⟩
      unfold lcaDistance
      rw [h1]
      rfl
  · obtain ⟨b, b1, b2⟩ := common_of_reach hF hm hg hsym hu hr
    rcases lcaAncestor_spec hb hfull hF.nodup (hm u hu) hu (hm v hv) hv with ⟨a, h1, h2⟩ | ⟨h1, h2⟩
    swap
    · exact absurd b2 (h2 b b1)
    obtain ⟨r1, r2⟩ := hroot u (hm u hu)
    obtain ⟨s1, s2⟩ := hroot v (hm v hv)
    have ra : F.Anc (root u) a := by
      rcases anc_linear hF.nodup r1 h2.1 with h | h
      · exact h
      · rw [hzero _ _ r2 h]; exact anc_refl (anc_mem r1)
    have sa : F.Anc (root v) a := by
      rcases anc_linear hF.nodup s1 h2.2.1 with h | h
      · exact h
      · rw [hzero _ _ s2 h]; exact anc_refl (anc_mem s1)
    have hrr : root u = root v := by
      rcases anc_linear hF.nodup ra sa with h | h
      · exact hzero _ _ s2 h
      · exact (hzero _ _ r2 h).symm
    rw [← hrr] at s1
    obtain ⟨lu, p1, p2, p3⟩ := down_path hfull hF.nodup hF.ordered r1
    obtain ⟨lv, q1, q2, q3⟩ := down_path hfull hF.nodup hF.ordered s1
    obtain ⟨l, l1, l2, l3, l4, l5, l6, l7, l8⟩ := up_path hfull hF.nodup hF.ordered _ u a (le_refl _) h2.1
    obtain ⟨m, m1, m2, m3, m4, m5, m6, m7, m8⟩ := up_path hfull hF.nodup hF.ordered _ v a (le_refl _) h2.2.1
    obtain ⟨m', rfl⟩ : ∃ m', m = m' ++ [a] := by
      have hne : m ≠ [] := by rintro rfl; simp at m1
      refine ⟨m.dropLast, ?_⟩
      rw [List.getLast?_eq_some_getLast hne] at m2
      rw [Option.some.injEq] at m2
      rw [← m2, List.dropLast_append_getLast hne]
    have hlst : (l ++ m'.reverse).getLast? = some v := by
      cases m' with
      | nil => simp at m1; simp [l2, m1]
      | cons x m' => simp at m1; simp [List.getLast?_append, m1]
    refine ⟨hrr, a, lu, lv, l ++ m'.reverse, p1, q1, ⟨?_, hlst, ?_, ?_⟩, h1, p3 a ra h2.1, q3 a ra h2.2.1, List.mem_append_left _ (l8 a (anc_refl (anc_mem h2.1)) h2.1), ?_, ?_⟩
    · rw [List.head?_append, l1]; rfl
    · rw [List.isChain_append]
      refine ⟨l3.imp (fun _ _ h => hsym _ _ h), ?_, fun x hx y hy => ?_⟩
      · rw [List.isChain_reverse]
        exact (List.isChain_append.mp m3).1
      · rw [l2] at hx
        cases hx
        rw [List.head?_reverse] at hy
        exact (List.isChain_append.mp m3).2.2 y hy a rfl
    · rw [List.nodup_append]
      refine ⟨pairwise_nodup l6, List.nodup_reverse.mpr (List.nodup_append.mp (pairwise_nodup m6)).1, fun x hx y hy hxy => ?_⟩
      subst hxy
      rw [List.mem_reverse] at hy
      have hxa := h2.2.2 x (l5 x hx).2 (m5 x (List.mem_append_left _ hy)).2
      have := (List.pairwise_append.mp m6).2.2 x hy a (List.mem_singleton_self a)
      rw [anc_antisymm hF.nodup hxa (l5 x hx).1] at this
      omega
    · rw [lcaDepth_spec hb hfull (hm u hu) hu]
      congr 2
      omega
    · unfold lcaDistance
      rw [h1, Option.bind_eq_bind, Option.bind_some, if_neg (by omega), lcaDepth_spec hb hfull (hm u hu) hu,
        lcaDepth_spec hb hfull (anc_mem h2.1) (hm' a (anc_mem h2.1)), lcaDepth_spec hb hfull (hm v hv) hv]
      show some _ = some _
      congr 1
      rw [List.length_append, List.length_reverse]
      rw [List.length_append, List.length_singleton] at m4
      omega

/-- A forest: there is at most one simple path between two nodes.  Then the distance is the number of edges of that path, and
the ancestor lies on it. -/
theorem C99_forest (g : List (List Nat)) (hg : Valid g) (hsym : ∀ x y, Edge g x y → Edge g y x) (hn : g.length < 2 ^ 31 - 1)
    (huniq : ∀ u v l l', SimplePath g u v l → SimplePath g u v l' → l = l') :
    ∃ t : List Int × List (Int × Int), (∃ fuel0, ∀ fuel, fuel0 ≤ fuel → lcaBuild fuel g = some t) ∧
      ∀ (u v : Nat) (l : List Nat), u < g.length → SimplePath g u v l →
        lcaDistance t u v = some (((l.length - 1 : Nat)) : Int) ∧ ∃ a : Nat, lcaAncestor t u v = some (a : Int) ∧ a ∈ l := by
  obtain ⟨t, root, hrun, h⟩ := C99_undirected g hg hsym hn
  refine ⟨t, hrun, fun u v l hu hl => ?_⟩
  have hreach : ∀ (l : List Nat) (u : Nat), u < g.length → l.head? = some u → l.IsChain (Edge g) → l.getLast? = some v → Reach g u v ∧ v < g.length := by
    intro l
    induction l with
    | nil => intro u _ h; cases h
    | cons x l ih =>
      intro u hu h1 h2 h3
      cases h1
      cases l with
      | nil => simp at h3; subst h3; exact ⟨.refl, hu⟩
      | cons y l =>
        rw [List.isChain_cons_cons] at h2
        obtain ⟨k1, k2⟩ := ih y (hg _ _ h2.1) rfl h2.2 (by rwa [List.getLast?_cons_cons] at h3)
        exact ⟨Relation.ReflTransGen.head h2.1 k1, k2⟩
  obtain ⟨hr, hv⟩ := hreach l u hu hl.first hl.edges hl.last
  obtain ⟨_, a, lu, lv, l', _, _, h3, h4, _, _, h7, _, h9⟩ := (h u v hu hv).2 hr
  rw [huniq u v l l' hl h3]
  exact ⟨h9, a, h4, h7⟩

/-! ### Examples -/

/-- Two trees: 0 - 1, 0 - 2, 2 - 3, 2 - 4 and 5 - 6. -/
example : ((lcaBuild 100 [[1, 2], [0], [0, 3, 4], [2], [2], [6], [5]]).bind fun t => (lcaAncestor t 3 4).bind fun a => (lcaAncestor t 1 4).bind fun b =>
    (lcaAncestor t 4 6).bind fun c => (lcaDistance t 3 1).bind fun d => (lcaDistance t 4 5).bind fun e => (lcaDepth t 4).map fun f => (a, b, c, d, e, f))
    = some (2, 0, -1, 3, -1, 2) := by decide +kernel
example : Valid [[1, 2], [0], [0, 3, 4], [2], [2], [6], [5]] ∧ (∀ x y, Edge [[1, 2], [0], [0, 3, 4], [2], [2], [6], [5]] x y → Edge [[1, 2], [0], [0, 3, 4], [2], [2], [6], [5]] y x) := by
  constructor
  · rintro u v ⟨l, hl, hv⟩
    rcases u with _ | _ | _ | _ | _ | _ | _ | u <;> simp at hl <;> subst hl <;> simp at hv ⊢ <;> omega
  · rintro u v ⟨l, hl, hv⟩
    rcases u with _ | _ | _ | _ | _ | _ | _ | u <;> simp at hl <;> subst hl <;> simp at hv
    · rcases hv with rfl | rfl <;> exact ⟨_, rfl, by decide⟩
    · subst hv; exact ⟨_, rfl, by decide⟩
    · rcases hv with rfl | rfl | rfl <;> exact ⟨_, rfl, by decide⟩
    all_goals subst hv; exact ⟨_, rfl, by decide⟩

/-- The unique simple paths of a tree with two nodes. -/
example : ∀ u v l l', SimplePath [[1], [0]] u v l → SimplePath [[1], [0]] u v l' → l = l' := by
  have he : ∀ x y, Edge [[1], [0]] x y → (x = 0 ∧ y = 1) ∨ (x = 1 ∧ y = 0) := by
    rintro x y ⟨l, hl, hv⟩
    rcases x with _ | _ | x <;> simp at hl <;> subst hl <;> simp at hv <;> omega
  have key : ∀ u v l, SimplePath [[1], [0]] u v l → l = if u = v then [u] else [u, v] := by
    rintro u v l ⟨h1, h2, h3, h4⟩
    match l with
    | [] => cases h1
    | [x] => simp at h1 h2; subst h1; subst h2; simp
    | [x, y] => simp at h1 h2; subst h1; subst h2; simp at h4; rw [if_neg h4]
    | x :: y :: z :: l =>
      exfalso
      simp only [List.isChain_cons_cons] at h3
      simp only [List.nodup_cons, List.mem_cons, not_or] at h4
      have a1 := he _ _ h3.1
      have a2 := he _ _ h3.2.1
      omega
  intro u v l l' h1 h2
  rw [key u v l h1, key u v l' h2]

end Altruct.GraphAlg
