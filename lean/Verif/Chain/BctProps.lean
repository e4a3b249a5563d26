/-
C132: the block-cut tree.
-/
import Verif.Chain.Blocks
import Verif.Chain.BctModel

namespace Altruct.Chain

open GraphAlg Relation

/-! ### The loops -/

theorem setAll_spec (n : Nat) (i : Int) : ∀ (b : List Nat) (idx : List Int) (f : Nat → Int), (∀ u ∈ b, u < n) → Rep idx n f →
    ∃ idx' f', setAll i b idx = some idx' ∧ Rep idx' n f' ∧ ∀ x, (x ∈ b → f' x = i) ∧ (x ∉ b → f' x = f x) := by
  intro b
  induction b with
  | nil => intro idx f _ h; exact ⟨idx, f, rfl, h, by simp⟩
  | cons u b ih =>
    intro idx f hl h
    obtain ⟨idx', f', e, r, k⟩ := ih _ _ (fun x hx => hl x (by simp [hx])) (h.set u i)
    refine ⟨idx', f', by rw [setAll, h.wr (hl u (by simp)), Option.bind_some, e], r, fun x => ?_⟩
    by_cases hx : x ∈ b
    · exact ⟨fun _ => (k x).1 hx, fun h => absurd (by simp [hx]) h⟩
    · refine ⟨fun h => ?_, fun h => ?_⟩
      · rw [(k x).2 hx, (List.mem_cons.mp h).resolve_right hx, Function.update_self]
      · rw [(k x).2 hx, Function.update_of_ne (fun e => h (by simp [e]))]

theorem bctBlocks_spec (n : Nat) : ∀ (vb : List (List Nat)) (k : Nat) (idx : List Int) (f : Nat → Int), (∀ b ∈ vb, ∀ u ∈ b, u < n) → Rep idx n f →
    ∃ idx' f', bctBlocks vb (List.replicate k []) idx = some (List.replicate (k + vb.length) [], idx') ∧ Rep idx' n f' ∧
      ∀ x, ((∀ b ∈ vb, x ∉ b) ∧ f' x = f x) ∨ ∃ i b, vb[i]? = some b ∧ x ∈ b ∧ f' x = ((k + i : Nat) : Int) := by
  intro vb
  induction vb with
  | nil => intro k idx f _ h; exact ⟨idx, f, rfl, h, by simp⟩
  | cons b vb ih =>
    intro k idx f hl h
    obtain ⟨i1, f1, e1, r1, k1⟩ := setAll_spec n k b idx f (hl b (by simp)) h
    obtain ⟨i2, f2, e2, r2, k2⟩ := ih (k + 1) i1 f1 (fun x hx => hl x (by simp [hx])) r1
    refine ⟨i2, f2, ?_, r2, fun x => ?_⟩
    · rw [bctBlocks, List.length_replicate, e1, Option.bind_some, show List.replicate k ([] : List Nat) ++ [[]] = List.replicate (k + 1) [] by rw [List.replicate_succ'], e2, List.length_cons]
      rw [show k + 1 + vb.length = k + (vb.length + 1) by omega]
    · rcases k2 x with ⟨h1, h2⟩ | ⟨i, b', h1, h2, h3⟩
      · by_cases hx : x ∈ b
        · exact Or.inr ⟨0, b, rfl, hx, by rw [h2, (k1 x).1 hx]; rfl⟩
        · exact Or.inl ⟨fun c hc => by rcases List.mem_cons.mp hc with rfl | hc <;> [exact hx; exact h1 c hc], by rw [h2, (k1 x).2 hx]⟩
      · exact Or.inr ⟨i + 1, b', by simpa using h1, h2, by rw [h3]; push_cast; omega⟩

theorem bctArts_spec (n : Nat) : ∀ (va : List Nat) (k : Nat) (idx : List Int) (f : Nat → Int), (∀ u ∈ va, u < n) → Rep idx n f →
    ∃ idx' f', bctArts va (List.replicate k []) idx = some (List.replicate (k + va.length) [], idx') ∧ Rep idx' n f' ∧
      ∀ x, (x ∉ va ∧ f' x = f x) ∨ ∃ i : Nat, va[i]? = some x ∧ f' x = ((k + i : Nat) : Int) := by
  intro va
  induction va with
  | nil => intro k idx f _ h; exact ⟨idx, f, rfl, h, by simp⟩
  | cons u va ih =>
    intro k idx f hl h
    obtain ⟨i2, f2, e2, r2, k2⟩ := ih (k + 1) _ _ (fun x hx => hl x (by simp [hx])) (h.set u k)
    refine ⟨i2, f2, ?_, r2, fun x => ?_⟩
    · rw [bctArts, List.length_replicate, h.wr (hl u (by simp)), Option.bind_some, show List.replicate k ([] : List Nat) ++ [[]] = List.replicate (k + 1) [] by rw [List.replicate_succ'], e2, List.length_cons]
      rw [show k + 1 + va.length = k + (va.length + 1) by omega]
    · rcases k2 x with ⟨h1, h2⟩ | ⟨i, h1, h3⟩
      · by_cases hx : x = u
        · exact Or.inr ⟨0, by rw [hx]; rfl, by rw [h2, hx, Function.update_self]; rfl⟩
        · exact Or.inl ⟨by simp [hx, h1], by rw [h2, Function.update_of_ne hx]⟩
      · exact Or.inr ⟨i + 1, by simpa using h1, by rw [h3]; push_cast; omega⟩

/-- A node with at most one edge. -/
def Leaf (g : List (List Nat)) (x : Nat) : Prop := ∃ vs, g[x]? = some vs ∧ vs.length ≤ 1

theorem bctLeaves_spec (g : List (List Nat)) (k : Nat) (idx : List Int) (f : Nat → Int) (h : Rep idx g.length f) :
    ∃ idx' f' N, bctLeaves g (List.replicate k []) idx = some (List.replicate N [], idx') ∧ k ≤ N ∧ Rep idx' g.length f' ∧
      (∀ x, x < g.length → ¬ Leaf g x → f' x = f x) ∧ (∀ x, x < g.length → Leaf g x → (k : Int) ≤ f' x ∧ f' x < N) ∧
      ∀ x y, x < g.length → y < g.length → Leaf g x → Leaf g y → f' x = f' y → x = y := by
  obtain ⟨⟨t', idx'⟩, e, f', N, h1, h2, h3, h4, h5, h6⟩ := forUp_spec
    (body := fun u (s : List (List Nat) × List Int) => (rd g u).bind fun vs => if vs.length ≤ 1 then (wr s.2 u s.1.length).map fun idx => (s.1 ++ [[]], idx) else some s)
    (fun i s => ∃ f' N, s.1 = List.replicate N [] ∧ k ≤ N ∧ Rep s.2 g.length f' ∧ (∀ x, x < g.length → ¬ (x < i ∧ Leaf g x) → f' x = f x) ∧
      (∀ x, x < i → Leaf g x → (k : Int) ≤ f' x ∧ f' x < N) ∧ ∀ x y, x < i → y < i → Leaf g x → Leaf g y → f' x = f' y → x = y)
    (a := 0) (n := g.length) (s := (List.replicate k [], idx)) (Nat.zero_le _) ⟨f, k, rfl, le_refl _, h, fun _ _ _ => rfl, by simp, by simp⟩ (fun i s _ hi ⟨f', N, h1, h2, h3, h4, h5, h6⟩ => by
      obtain ⟨t, ix⟩ := s
      simp only at h1 h3
      subst h1
      obtain ⟨vs, hvs⟩ : ∃ vs, g[i]? = some vs := ⟨_, List.getElem?_eq_getElem hi⟩
      rw [show rd g i = some vs from hvs, Option.bind_some]
      by_cases hl : vs.length ≤ 1
      · rw [if_pos hl]
        simp only
        rw [h3.wr hi, Option.map_some, List.length_replicate]
        refine ⟨_, rfl, _, N + 1, by simp only; rw [List.replicate_succ'], by omega, h3.set i _, fun x hx hn => ?_, fun x hx hlx => ?_, fun x y hx hy hlx hly => ?_⟩
        · have hxi : x ≠ i := by rintro rfl; exact hn ⟨by omega, vs, hvs, hl⟩
          rw [Function.update_of_ne hxi]
          exact h4 x hx (fun c => hn ⟨by omega, c.2⟩)
        · by_cases hxi : x = i
          · rw [hxi, Function.update_self]; omega
          · rw [Function.update_of_ne hxi]
            have := h5 x (by omega) hlx
            omega
        · by_cases hxi : x = i
          · by_cases hyi : y = i
            · intro _; rw [hxi, hyi]
            · rw [hxi, Function.update_self, Function.update_of_ne hyi]
              have := h5 y (by omega) hly
              intro _; omega
          · by_cases hyi : y = i
            · rw [hyi, Function.update_self, Function.update_of_ne hxi]
              have := h5 x (by omega) hlx
              intro _; omega
            · rw [Function.update_of_ne hxi, Function.update_of_ne hyi]
              exact h6 x y (by omega) (by omega) hlx hly
      · rw [if_neg hl]
        have hni : ¬ Leaf g i := by
          rintro ⟨vs', e1, e2⟩
          rw [hvs] at e1
          cases e1
          exact hl e2
        have hlt : ∀ x, x < i + 1 → Leaf g x → x < i := fun x hx hlx => by
          have : x ≠ i := by rintro rfl; exact hni hlx
          omega
        exact ⟨_, rfl, f', N, rfl, h2, h3, fun x hx hn => h4 x hx (fun c => hn ⟨by omega, c.2⟩), fun x hx hlx => h5 x (hlt x hx hlx) hlx,
          fun x y hx hy hlx hly => h6 x y (hlt x hx hlx) (hlt y hy hly) hlx hly⟩)
  simp only at h1 h3
  subst h1
  exact ⟨idx', f', N, e, h2, h3, fun x hx hn => h4 x hx (fun c => hn c.2), h5, h6⟩

theorem pushTo_spec {t : List (List Nat)} {u v : Nat} (hu : u < t.length) : ∃ t', pushTo t u v = some t' ∧ t'.length = t.length ∧ ∀ x y, Edge t' x y ↔ Edge t x y ∨ (x = u ∧ y = v) := by
  have hr : rd t u = some t[u] := List.getElem?_eq_getElem hu
  refine ⟨t.set u (t[u] ++ [v]), by rw [pushTo, hr, Option.bind_some, wr, if_pos hu], by simp, fun x y => ?_⟩
  unfold Edge
  by_cases hx : x = u
  · subst hx
    rw [List.getElem?_set_self hu]
    rw [show t[x]? = some t[x] from hr]
    simp
  · rw [List.getElem?_set_ne (Ne.symm hx)]
    simp [hx]

theorem link_spec {t : List (List Nat)} {u v : Nat} (hu : u < t.length) (hv : v < t.length) :
    ∃ t', link t u v = some t' ∧ t'.length = t.length ∧ ∀ x y, Edge t' x y ↔ Edge t x y ∨ (x = u ∧ y = v) ∨ (x = v ∧ y = u) := by
  obtain ⟨t1, e1, l1, h1⟩ := pushTo_spec (v := v) hu
  obtain ⟨t2, e2, l2, h2⟩ := pushTo_spec (t := t1) (u := v) (v := u) (by omega)
  refine ⟨t2, ?_, by omega, fun x y => by rw [h2, h1, or_assoc]⟩
  rw [link, if_neg (by omega), Int.toNat_natCast, Int.toNat_natCast, e1, Option.bind_some, e2]

theorem bctBlockEdge_spec {n : Nat} {idx : List Int} {F : Nat → Nat} (h : Rep idx n (fun u => (F u : Int))) (i : Nat) : ∀ (b : List Nat) (t : List (List Nat)), (∀ u ∈ b, u < n ∧ F u < t.length) → i < t.length →
    ∃ t', bctBlockEdge idx i b t = some t' ∧ t'.length = t.length ∧ ∀ x y, Edge t' x y ↔ Edge t x y ∨ ∃ u ∈ b, F u ≠ i ∧ ((x = F u ∧ y = i) ∨ (x = i ∧ y = F u)) := by
  intro b
  induction b with
  | nil => intro t _ _; exact ⟨t, rfl, rfl, by simp⟩
  | cons u b ih =>
    intro t hl hi
    obtain ⟨hu, hF⟩ := hl u (by simp)
    rw [bctBlockEdge, h.rd hu, Option.bind_some]
    by_cases hfi : F u = i
    · rw [if_neg (by omega), Option.bind_some]
      obtain ⟨t', e, l, k⟩ := ih t (fun x hx => hl x (by simp [hx])) hi
      refine ⟨t', e, l, fun x y => ?_⟩
      rw [k]
      simp [hfi]
    · rw [if_pos (by omega)]
      obtain ⟨t1, e1, l1, k1⟩ := link_spec hF hi
      rw [e1, Option.bind_some]
      obtain ⟨t', e, l, k⟩ := ih t1 (fun x hx => by rw [l1]; exact hl x (by simp [hx])) (by omega)
      refine ⟨t', e, by omega, fun x y => ?_⟩
      rw [k, k1]
      simp [hfi, or_assoc]

theorem bctBlockEdges_spec {n : Nat} {idx : List Int} {F : Nat → Nat} (h : Rep idx n (fun u => (F u : Int))) : ∀ (vb : List (List Nat)) (i : Nat) (t : List (List Nat)),
    (∀ b ∈ vb, ∀ u ∈ b, u < n ∧ F u < t.length) → i + vb.length ≤ t.length →
    ∃ t', bctBlockEdges idx i vb t = some t' ∧ t'.length = t.length ∧
      ∀ x y, Edge t' x y ↔ Edge t x y ∨ ∃ j b, vb[j]? = some b ∧ ∃ u ∈ b, F u ≠ i + j ∧ ((x = F u ∧ y = i + j) ∨ (x = i + j ∧ y = F u)) := by
  intro vb
  induction vb with
  | nil => intro i t _ _; exact ⟨t, rfl, rfl, by simp⟩
  | cons b vb ih =>
    intro i t hl hi
    rw [List.length_cons] at hi
    obtain ⟨t1, e1, l1, k1⟩ := bctBlockEdge_spec h i b t (hl b (by simp)) (by omega)
    obtain ⟨t2, e2, l2, k2⟩ := ih (i + 1) t1 (fun c hc u hu => by rw [l1]; exact hl c (by simp [hc]) u hu) (by omega)
    refine ⟨t2, by rw [bctBlockEdges, e1, Option.bind_some, e2], by omega, fun x y => ?_⟩
    rw [k2, k1, or_assoc]
    refine or_congr Iff.rfl ⟨?_, ?_⟩
    · rintro (h | ⟨j, c, h1, h2⟩)
      · exact ⟨0, b, rfl, by simpa using h⟩
      · exact ⟨j + 1, c, by simpa using h1, by rw [show i + (j + 1) = i + 1 + j by omega]; exact h2⟩
    · rintro ⟨j, c, h1, h2⟩
      cases j with
      | zero =>
        simp only [List.getElem?_cons_zero, Option.some.injEq] at h1
        subst h1
        exact Or.inl h2
      | succ j => exact Or.inr ⟨j, c, by simpa using h1, by rw [show i + 1 + j = i + (j + 1) by omega]; exact h2⟩

theorem bctBridges_spec {n : Nat} {idx : List Int} {F : Nat → Nat} (h : Rep idx n (fun u => (F u : Int))) : ∀ (ve : List (Nat × Nat)) (t : List (List Nat)),
    (∀ e ∈ ve, e.1 < n ∧ e.2 < n ∧ F e.1 < t.length ∧ F e.2 < t.length) →
    ∃ t', bctBridges idx ve t = some t' ∧ t'.length = t.length ∧
      ∀ x y, Edge t' x y ↔ Edge t x y ∨ ∃ e ∈ ve, (x = F e.1 ∧ y = F e.2) ∨ (x = F e.2 ∧ y = F e.1) := by
  intro ve
  induction ve with
  | nil => intro t _; exact ⟨t, rfl, rfl, by simp⟩
  | cons e ve ih =>
    intro t hl
    obtain ⟨h1, h2, h3, h4⟩ := hl e (by simp)
    obtain ⟨t1, e1, l1, k1⟩ := link_spec h3 h4
    obtain ⟨t2, e2, l2, k2⟩ := ih t1 (fun x hx => by rw [l1]; exact hl x (by simp [hx]))
    refine ⟨t2, by rw [bctBridges, h.rd h1, Option.bind_some, h.rd h2, Option.bind_some, e1, Option.bind_some, e2], by omega, fun x y => ?_⟩
    rw [k2, k1]
    simp [or_assoc]

/-! ### No edge twice -/

theorem pushTo_nodup {t t' : List (List Nat)} {u v : Nat} (h : pushTo t u v = some t') (hn : ∀ l ∈ t, l.Nodup) (hne : ¬ Edge t u v) : ∀ l ∈ t', l.Nodup := by
  unfold pushTo at h
  obtain ⟨l0, h1, h2⟩ := Option.bind_eq_some_iff.mp h
  have hu : t[u]? = some l0 := h1
  unfold wr at h2
  split at h2
  · cases h2
    intro l hl
    rcases List.mem_or_eq_of_mem_set hl with hl | rfl
    · exact hn l hl
    · refine List.nodup_append.mpr ⟨hn l0 (List.mem_of_getElem? hu), by simp, fun a ha b hb hab => ?_⟩
      rw [List.mem_singleton] at hb
      subst hb hab
      exact hne ⟨l0, hu, ha⟩
  · cases h2

theorem link_nodup {t t' : List (List Nat)} {u v : Nat} (hu : u < t.length) (h : link t u v = some t') (hn : ∀ l ∈ t, l.Nodup) (huv : u ≠ v) (h1 : ¬ Edge t u v) (h2 : ¬ Edge t v u) :
    ∀ l ∈ t', l.Nodup := by
  obtain ⟨t1, e1, l1, k1⟩ := pushTo_spec (v := v) hu
  rw [link, if_neg (by omega), Int.toNat_natCast, Int.toNat_natCast, e1, Option.bind_some] at h
  refine pushTo_nodup h (pushTo_nodup e1 hn h1) (fun hc => ?_)
  rcases (k1 v u).mp hc with hc | ⟨hc, _⟩
  · exact h2 hc
  · exact huv hc.symm

theorem bctBlockEdge_nodup {n : Nat} {idx : List Int} {F : Nat → Nat} (h : Rep idx n (fun u => (F u : Int))) (i : Nat) : ∀ (b : List Nat) (t t' : List (List Nat)), (∀ u ∈ b, u < n ∧ F u < t.length) → i < t.length →
    bctBlockEdge idx i b t = some t' → b.Nodup → (∀ u ∈ b, ∀ v ∈ b, F u ≠ i → F u = F v → u = v) → (∀ l ∈ t, l.Nodup) →
    (∀ u ∈ b, F u ≠ i → ¬ Edge t (F u) i ∧ ¬ Edge t i (F u)) → ∀ l ∈ t', l.Nodup := by
  intro b
  induction b with
  | nil => intro t t' _ _ e _ _ hn _; cases e; exact hn
  | cons u b ih =>
    intro t t' hl hi e hb hinj hn hno
    obtain ⟨hu, hF⟩ := hl u (by simp)
    rw [List.nodup_cons] at hb
    rw [bctBlockEdge, h.rd hu, Option.bind_some] at e
    by_cases hfi : F u = i
    · rw [if_neg (by omega), Option.bind_some] at e
      exact ih t t' (fun x hx => hl x (by simp [hx])) hi e hb.2 (fun x hx y hy => hinj x (by simp [hx]) y (by simp [hy])) hn (fun x hx => hno x (by simp [hx]))
    · rw [if_pos (by omega)] at e
      obtain ⟨t1, e1, l1, k1⟩ := link_spec hF hi
      rw [e1, Option.bind_some] at e
      have h0 := hno u (by simp) hfi
      refine ih t1 t' (fun x hx => by rw [l1]; exact hl x (by simp [hx])) (by omega) e hb.2 (fun x hx y hy => hinj x (by simp [hx]) y (by simp [hy])) (link_nodup hF e1 hn hfi h0.1 h0.2) (fun x hx hxi => ?_)
      have h3 := hno x (by simp [hx]) hxi
      have h4 : F x ≠ F u := fun hc => hb.1 (hinj x (by simp [hx]) u (by simp) hxi hc ▸ hx)
      constructor
      · intro hc
        rcases (k1 _ _).mp hc with hc | ⟨hc, _⟩ | ⟨hc, _⟩
        · exact h3.1 hc
        · exact h4 hc
        · exact hxi hc
      · intro hc
        rcases (k1 _ _).mp hc with hc | ⟨_, hc⟩ | ⟨_, hc⟩
        · exact h3.2 hc
        · exact hxi hc
        · exact h4 hc

theorem bctBlockEdges_nodup {n K : Nat} {idx : List Int} {F : Nat → Nat} (h : Rep idx n (fun u => (F u : Int))) (hinj : ∀ u v, u < n → v < n → K ≤ F u → F u = F v → u = v) :
    ∀ (vb : List (List Nat)) (i : Nat) (t t' : List (List Nat)), (∀ b ∈ vb, ∀ u ∈ b, u < n ∧ F u < t.length) → i + vb.length ≤ t.length → i + vb.length ≤ K →
    bctBlockEdges idx i vb t = some t' → (∀ b ∈ vb, b.Nodup) → (∀ (j : Nat) (b : List Nat), vb[j]? = some b → ∀ u ∈ b, F u ≠ i + j → K ≤ F u) → (∀ l ∈ t, l.Nodup) →
    (∀ x y, Edge t x y → x < i ∨ y < i) → ∀ l ∈ t', l.Nodup := by
  intro vb
  induction vb with
  | nil => intro i t t' _ _ _ e _ _ hn _; cases e; exact hn
  | cons b vb ih =>
    intro i t t' hl hi hK e hb hhigh hn hold
    rw [List.length_cons] at hi hK
    obtain ⟨t1, e1, l1, k1⟩ := bctBlockEdge_spec h i b t (hl b (by simp)) (by omega)
    rw [bctBlockEdges, e1, Option.bind_some] at e
    have hh : ∀ u ∈ b, F u ≠ i → K ≤ F u := fun u hu hne => hhigh 0 b rfl u hu (by simpa using hne)
    refine ih (i + 1) t1 t' (fun c hc u hu => by rw [l1]; exact hl c (by simp [hc]) u hu) (by omega) (by omega) e (fun c hc => hb c (by simp [hc]))
      (fun j c hc u hu hne => hhigh (j + 1) c (by simpa using hc) u hu (by omega))
      (bctBlockEdge_nodup h i b t t1 (hl b (by simp)) (by omega) e1 (hb b (by simp)) (fun u hu v hv hne he => hinj u v (hl b (by simp) u hu).1 (hl b (by simp) v hv).1 (hh u hu hne) he) hn
        (fun u hu hne => ?_)) (fun x y hxy => ?_)
    · have := hh u hu hne
      exact ⟨fun hc => by have := hold _ _ hc; omega, fun hc => by have := hold _ _ hc; omega⟩
    · rcases (k1 x y).mp hxy with hc | ⟨u, _, _, hc | hc⟩
      · have := hold _ _ hc; omega
      · omega
      · omega

theorem bctBridges_nodup {n K : Nat} {idx : List Int} {F : Nat → Nat} (h : Rep idx n (fun u => (F u : Int))) (hinj : ∀ u v, u < n → v < n → K ≤ F u → F u = F v → u = v) :
    ∀ (ve : List (Nat × Nat)) (t t' : List (List Nat)), (∀ e ∈ ve, e.1 < n ∧ e.2 < n ∧ F e.1 < t.length ∧ F e.2 < t.length) →
    bctBridges idx ve t = some t' → ve.Nodup → (∀ a b, (a, b) ∈ ve → (b, a) ∉ ve ∧ K ≤ F a ∧ K ≤ F b) → (∀ l ∈ t, l.Nodup) →
    (∀ e ∈ ve, ¬ Edge t (F e.1) (F e.2) ∧ ¬ Edge t (F e.2) (F e.1)) → ∀ l ∈ t', l.Nodup := by
  intro ve
  induction ve with
  | nil => intro t t' _ e _ _ hn _; cases e; exact hn
  | cons e ve ih =>
    intro t t' hl he hnd hb hn hno
    obtain ⟨h1, h2, h3, h4⟩ := hl e (by simp)
    obtain ⟨u, v⟩ := e
    obtain ⟨t1, e1, l1, k1⟩ := link_spec h3 h4
    rw [bctBridges, h.rd h1, Option.bind_some, h.rd h2, Option.bind_some, e1, Option.bind_some] at he
    rw [List.nodup_cons] at hnd
    have hbu := hb u v (by simp)
    have huv : F u ≠ F v := fun hc => by
      have := hinj u v h1 h2 hbu.2.1 hc
      subst this
      exact hbu.1 (by simp)
    have h0 := hno (u, v) (by simp)
    refine ih t1 t' (fun x hx => by rw [l1]; exact hl x (by simp [hx])) he hnd.2 (fun a b hab => ?_) (link_nodup h3 e1 hn huv h0.1 h0.2) (fun e' he' => ?_)
    · have := hb a b (by simp [hab])
      exact ⟨fun hc => this.1 (by simp [hc]), this.2⟩
    · obtain ⟨a, b⟩ := e'
      have p1 := hno (a, b) (by simp [he'])
      have p2 := hb a b (by simp [he'])
      have p3 := hl (a, b) (by simp [he'])
      have q1 : ¬ (F a = F u ∧ F b = F v) := fun ⟨x1, x2⟩ => by
        have y1 := hinj a u p3.1 h1 p2.2.1 x1
        have y2 := hinj b v p3.2.1 h2 p2.2.2 x2
        subst y1 y2
        exact hnd.1 he'
      have q2 : ¬ (F a = F v ∧ F b = F u) := fun ⟨x1, x2⟩ => by
        have y1 := hinj a v p3.1 h2 p2.2.1 x1
        have y2 := hinj b u p3.2.1 h1 p2.2.2 x2
        subst y1 y2
        exact p2.1 (by simp)
      constructor
      · intro hc
        rcases (k1 _ _).mp hc with hc | hc | hc
        · exact p1.1 hc
        · exact q1 hc
        · exact q2 hc
      · intro hc
        rcases (k1 _ _).mp hc with hc | hc | hc
        · exact p1.2 hc
        · exact q2 ⟨hc.2, hc.1⟩
        · exact q1 ⟨hc.2, hc.1⟩

/-! ### Ways in the tree and in the graph -/

section
variable {g : List (List Nat)}

theorem without_comm (hs : ∀ x y, Edge g x y → Edge g y x) (u v x y : Nat) (h : Without g u v x y) : Without g u v y x :=
  ⟨hs _ _ h.1, fun hc => h.2.2 ⟨hc.2, hc.1⟩, fun hc => h.2.1 ⟨hc.2, hc.1⟩⟩

theorem avoiding_comm (hs : ∀ x y, Edge g x y → Edge g y x) (c x y : Nat) (h : Avoiding g c x y) : Avoiding g c y x := ⟨hs _ _ h.1, h.2.2, h.2.1⟩

theorem bridge_comm (hs : ∀ x y, Edge g x y → Edge g y x) {u v : Nat} (h : Bridge g u v) : Bridge g v u :=
  ⟨hs _ _ h.1, fun hc => h.2 (rtg_symm (without_comm hs u v) (ReflTransGen.mono (fun _ _ => without_swap) _ _ hc))⟩

theorem biconnected_comm (hs : ∀ x y, Edge g x y → Edge g y x) {x y : Nat} (hb : Biconnected g x y) : Biconnected g y x :=
  ⟨fun c h1 h2 => rtg_symm (avoiding_comm hs c) (hb.1 c h2 h1), fun h => hb.2 (bridge_comm hs h)⟩

/-- Biconnected nodes are connected without any given bridge. -/
theorem biconnected_without (hs : ∀ x y, Edge g x y → Edge g y x) {x y u v : Nat} (hb : Biconnected g x y) (hxy : x ≠ y) (hbr : Bridge g u v) : ReflTransGen (Without g u v) x y := by
  by_cases hu : u ≠ x ∧ u ≠ y
  · exact ReflTransGen.mono (fun a b h => ⟨h.1, fun e => h.2.1 e.1, fun e => h.2.2 e.2⟩) _ _ (hb.1 u hu.1 hu.2)
  by_cases hv : v ≠ x ∧ v ≠ y
  · exact ReflTransGen.mono (fun a b h => ⟨h.1, fun e => h.2.2 e.2, fun e => h.2.1 e.1⟩) _ _ (hb.1 v hv.1 hv.2)
  exfalso
  have huv : u ≠ v := by rintro rfl; exact hbr.2 .refl
  have : (u = x ∧ v = y) ∨ (u = y ∧ v = x) := by omega
  rcases this with ⟨rfl, rfl⟩ | ⟨rfl, rfl⟩
  · exact hb.2 hbr
  · exact hb.2 (bridge_comm hs hbr)

theorem biconnected_reach {x y : Nat} (hb : Biconnected g x y) : Reach g x y :=
  ReflTransGen.mono (fun a b h => h.1) _ _ (hb.1 (x + y + 1) (by omega) (by omega))

/-- The last departure from `u` of a way from `u` to `v` without the edge between them. -/
theorem last_departure {u v : Nat} (huv : u ≠ v) (h : ReflTransGen (Without g u v) u v) : ∃ b, b ≠ v ∧ b ≠ u ∧ Edge g u b ∧ ReflTransGen (Avoiding g u) b v := by
  have hno : ¬ ReflTransGen (Avoiding g u) u v := fun h => by
    rcases ReflTransGen.cases_head h with h | ⟨c, h, _⟩
    · exact huv h
    · exact h.2.1 rfl
  have key : ∀ z, ReflTransGen (Without g u v) z v → ReflTransGen (Avoiding g u) z v ∨ ∃ b, b ≠ v ∧ b ≠ u ∧ Edge g u b ∧ ReflTransGen (Avoiding g u) b v := by
    intro z hz
    induction hz using ReflTransGen.head_induction_on with
    | refl => exact Or.inl .refl
    | @head z z' h1 _ ih =>
      rcases ih with ih | ih
      · have hz' : z' ≠ u := by rintro rfl; exact hno ih
        by_cases hzu : z = u
        · subst hzu
          exact Or.inr ⟨z', fun e => h1.2.1 ⟨rfl, e⟩, hz', h1.1, ih⟩
        · exact Or.inl (ReflTransGen.head ⟨h1.1, hzu, hz'⟩ ih)
      · exact Or.inr ih
  exact (key u h).resolve_left hno

theorem map_path {R Rt : Nat → Nat → Prop} {S : Nat → Nat → Prop} (hstep : ∀ b c, Rt b c → ∃ w w', S b w ∧ S c w' ∧ ReflTransGen R w w')
    (hin : ∀ a x y, S a x → S a y → ReflTransGen R x y) {a b : Nat} (h : ReflTransGen Rt a b) : ∀ x y, S a x → S b y → ReflTransGen R x y := by
  induction h with
  | refl => intro x y; exact hin a x y
  | @tail b c _ hbc ih =>
    intro x y hx hy
    obtain ⟨w, w', h1, h2, h3⟩ := hstep b c hbc
    exact ((ih x w hx h1).trans h3).trans (hin c w' y h2 hy)

end

/-- What is known about the blocks, the index and the edges of the tree. -/
structure Bct (g : List (List Nat)) (vb : List (List Nat)) (F : Nat → Nat) (t : List (List Nat)) : Prop where
  sym : ∀ x y, Edge g x y → Edge g y x
  noloop : ∀ x, ¬ Edge g x x
  big : ∀ l ∈ vb, l.Nodup ∧ 3 ≤ l.length ∧ ∀ x ∈ l, x < g.length
  bic : ∀ x y, x ≠ y → ((∃ l ∈ vb, x ∈ l ∧ y ∈ l) ↔ Biconnected g x y)
  share : ∀ (i j : Nat) (l l' : List Nat) (x y : Nat), vb[i]? = some l → vb[j]? = some l' → x ∈ l → x ∈ l' → y ∈ l → y ∈ l' → x ≠ y → i = j
  three : ∀ x y z, x ≠ y → y ≠ z → x ≠ z → Biconnected g x y → Biconnected g y z → Biconnected g x z → ∃ l ∈ vb, x ∈ l ∧ y ∈ l ∧ z ∈ l
  blk : ∀ u, u < g.length → F u < vb.length → ∃ l, vb[F u]? = some l ∧ u ∈ l
  inj : ∀ u v, u < g.length → v < g.length → vb.length ≤ F u → F u = F v → u = v
  art : ∀ u, Articulation g u → vb.length ≤ F u
  edge : ∀ a b, Edge t a b ↔ (∃ (j : Nat) (l : List Nat) (u : Nat), vb[j]? = some l ∧ u ∈ l ∧ F u ≠ j ∧ ((a = F u ∧ b = j) ∨ (a = j ∧ b = F u))) ∨
    ∃ u v, Bridge g u v ∧ a = F u ∧ b = F v

section
variable {g vb t : List (List Nat)} {F : Nat → Nat}

/-- Two blocks at a node are separated by it. -/
theorem sep (hs : ∀ x y, Edge g x y → Edge g y x) (bic : ∀ x y, x ≠ y → ((∃ l ∈ vb, x ∈ l ∧ y ∈ l) ↔ Biconnected g x y))
    (share : ∀ (i j : Nat) (l l' : List Nat) (x y : Nat), vb[i]? = some l → vb[j]? = some l' → x ∈ l → x ∈ l' → y ∈ l → y ∈ l' → x ≠ y → i = j)
    (three : ∀ x y z, x ≠ y → y ≠ z → x ≠ z → Biconnected g x y → Biconnected g y z → Biconnected g x z → ∃ l ∈ vb, x ∈ l ∧ y ∈ l ∧ z ∈ l)
    {i j u x y : Nat} {l l' : List Nat} (hi : vb[i]? = some l) (hj : vb[j]? = some l') (hij : i ≠ j) (hu : u ∈ l) (hu' : u ∈ l') (hx : x ∈ l') (hy : y ∈ l) (hxu : x ≠ u) (hyu : y ≠ u) :
    ¬ ReflTransGen (Avoiding g u) x y := by
  intro h
  by_cases hxy : x = y
  · subst hxy
    exact hij (share i j l l' u x hi hj hu hu' hy hx (Ne.symm hxu))
  have b1 : Biconnected g x u := (bic x u hxu).mp ⟨l', List.mem_of_getElem? hj, hx, hu'⟩
  have b2 : Biconnected g u y := (bic u y (Ne.symm hyu)).mp ⟨l, List.mem_of_getElem? hi, hu, hy⟩
  have b3 : Biconnected g x y := by
    refine ⟨fun c c1 c2 => ?_, fun hb => hb.2 ?_⟩
    · by_cases hcu : c = u
      · rw [hcu]; exact h
      · exact (b1.1 c c1 hcu).trans (b2.1 c hcu c2)
    · exact (biconnected_without hs b1 hxu hb).trans (biconnected_without hs b2 (Ne.symm hyu) hb)
  obtain ⟨m, hm, m1, m2, m3⟩ := three x u y hxu (Ne.symm hyu) hxy b1 b2 b3
  obtain ⟨k, hk⟩ := List.mem_iff_getElem?.mp hm
  have e1 := share k j m l' x u hk hj m1 hx m2 hu' hxu
  have e2 := share k i m l u y hk hi m2 hu m3 hy (Ne.symm hyu)
  exact hij (e2.symm.trans e1)

theorem other (l : List Nat) (h : l.Nodup) (h3 : 3 ≤ l.length) (u w : Nat) : ∃ x ∈ l, x ≠ u ∧ x ≠ w := by
  by_contra hno
  push Not at hno
  have hsub : l ⊆ [u, w] := by
    intro x hx
    by_cases hxu : x = u
    · simp [hxu]
    · simp [hno x hx hxu]
  have := (h.subperm hsub).length_le
  simp at this
  omega

/-- The nodes a node of the tree stands for. -/
def Stands (g vb : List (List Nat)) (F : Nat → Nat) (a x : Nat) : Prop := (∃ l, vb[a]? = some l ∧ x ∈ l) ∨ (F x = a ∧ x < g.length)

theorem Bct.inside (B : Bct g vb F t) {a x y : Nat} (hx : Stands g vb F a x) (hy : Stands g vb F a y) : x = y ∨ Biconnected g x y := by
  by_cases hxy : x = y
  · exact Or.inl hxy
  right
  have key : ∀ z, a < vb.length → Stands g vb F a z → ∃ l, vb[a]? = some l ∧ z ∈ l := by
    rintro z ha (h | ⟨h1, h2⟩)
    · exact h
    · rw [← h1] at ha ⊢
      exact B.blk z h2 ha
  by_cases ha : a < vb.length
  · obtain ⟨l, h1, h2⟩ := key x ha hx
    obtain ⟨l', h3, h4⟩ := key y ha hy
    rw [h1] at h3
    cases h3
    exact (B.bic x y hxy).mp ⟨l, List.mem_of_getElem? h1, h2, h4⟩
  · have hnone : vb[a]? = none := List.getElem?_eq_none (by omega)
    rcases hx with ⟨l, h, _⟩ | ⟨h1, h2⟩
    · rw [hnone] at h; cases h
    rcases hy with ⟨l, h, _⟩ | ⟨h3, h4⟩
    · rw [hnone] at h; cases h
    exact absurd (B.inj x y h2 h4 (by omega) (h1.trans h3.symm)) hxy

theorem Bct.lt (B : Bct g vb F t) {j u : Nat} {l : List Nat} (h : vb[j]? = some l) (hu : u ∈ l) : u < g.length := (B.big l (List.mem_of_getElem? h)).2.2 u hu

theorem Bct.bridge_lt (B : Bct g vb F t) {u v : Nat} (h : Bridge g u v) : u < g.length ∧ v < g.length := ⟨edge_lt h.1, edge_lt (B.sym _ _ h.1)⟩

/-- A node of the tree that stands for one node of a block stands for no other block. -/
theorem Bct.high (B : Bct g vb F t) {j u : Nat} {l : List Nat} (h : vb[j]? = some l) (hu : u ∈ l) (hF : F u ≠ j) : vb.length ≤ F u := by
  by_contra hlt
  obtain ⟨l', h1, h2⟩ := B.blk u (B.lt h hu) (by omega)
  refine hlt (B.art u ?_)
  obtain ⟨x, x1, x2, _⟩ := other l (B.big l (List.mem_of_getElem? h)).1 (B.big l (List.mem_of_getElem? h)).2.1 u u
  obtain ⟨y, y1, y2, _⟩ := other l' (B.big l' (List.mem_of_getElem? h1)).1 (B.big l' (List.mem_of_getElem? h1)).2.1 u u
  refine ⟨x, y, x2, y2, ?_, sep B.sym B.bic B.share B.three h1 h hF h2 hu x1 y1 x2 y2⟩
  exact (biconnected_reach ((B.bic x u x2).mp ⟨l, List.mem_of_getElem? h, x1, hu⟩)).trans (biconnected_reach ((B.bic u y (Ne.symm y2)).mp ⟨l', List.mem_of_getElem? h1, h2, y1⟩))

/-- Every edge of the tree is a bridge of it. -/
theorem Bct.forest (B : Bct g vb F t) {a b : Nat} (h : Edge t a b) : a ≠ b ∧ Bridge t a b := by
  have hsymt : ∀ x y, Edge t x y → Edge t y x := by
    intro x y hxy
    rw [B.edge] at hxy ⊢
    rcases hxy with ⟨j, l, u, h1, h2, h3, h4⟩ | ⟨u, v, h1, h2, h3⟩
    · exact Or.inl ⟨j, l, u, h1, h2, h3, h4.symm.imp (fun h => ⟨h.2, h.1⟩) (fun h => ⟨h.2, h.1⟩)⟩
    · exact Or.inr ⟨v, u, bridge_comm B.sym h1, h3, h2⟩
  have hblock : ∀ (j : Nat) (l : List Nat) (u : Nat), vb[j]? = some l → u ∈ l → F u ≠ j → Edge t (F u) j → F u ≠ j ∧ Bridge t (F u) j := by
    intro j l u h1 h2 h3 he
    refine ⟨h3, he, fun hc => ?_⟩
    have hhigh := B.high h1 h2 h3
    obtain ⟨b, b1, b2, b3, b4⟩ := last_departure h3 hc
    have hu := B.lt h1 h2
    obtain ⟨y, y1, y2, _⟩ := other l (B.big l (List.mem_of_getElem? h1)).1 (B.big l (List.mem_of_getElem? h1)).2.1 u u
    have hmap : ∀ x, Stands g vb F b x → x ≠ u → ReflTransGen (Avoiding g u) x y := by
      intro x hx hxu
      refine map_path (S := fun a x => Stands g vb F a x ∧ x ≠ u) (fun c d hcd => ?_) (fun a x y hx hy => ?_) b4 x y ⟨hx, hxu⟩ ⟨Or.inl ⟨l, h1, y1⟩, y2⟩
      · obtain ⟨he', hc', hd'⟩ := hcd
        rcases (B.edge c d).mp he' with ⟨j', l', w, k1, k2, k3, ⟨rfl, rfl⟩ | ⟨rfl, rfl⟩⟩ | ⟨w, w', k1, rfl, rfl⟩
        · have hwu : w ≠ u := by rintro rfl; exact hc' rfl
          exact ⟨w, w, ⟨Or.inr ⟨rfl, B.lt k1 k2⟩, hwu⟩, ⟨Or.inl ⟨l', k1, k2⟩, hwu⟩, .refl⟩
        · have hwu : w ≠ u := by rintro rfl; exact hd' rfl
          exact ⟨w, w, ⟨Or.inl ⟨l', k1, k2⟩, hwu⟩, ⟨Or.inr ⟨rfl, B.lt k1 k2⟩, hwu⟩, .refl⟩
        · have hwu : w ≠ u := by rintro rfl; exact hc' rfl
          have hwu' : w' ≠ u := by rintro rfl; exact hd' rfl
          exact ⟨w, w', ⟨Or.inr ⟨rfl, (B.bridge_lt k1).1⟩, hwu⟩, ⟨Or.inr ⟨rfl, (B.bridge_lt k1).2⟩, hwu'⟩, ReflTransGen.single ⟨k1.1, hwu, hwu'⟩⟩
      · rcases B.inside hx.1 hy.1 with e | e
        · rw [e]
        · exact e.1 u (Ne.symm hx.2) (Ne.symm hy.2)
    rcases (B.edge (F u) b).mp b3 with ⟨j', l', w, k1, k2, k3, ⟨k4, k5⟩ | ⟨k4, k5⟩⟩ | ⟨w, w', k1, k2, k3⟩
    · have huw : u = w := B.inj u w hu (B.lt k1 k2) hhigh k4
      subst huw
      obtain ⟨x, x1, x2, _⟩ := other l' (B.big l' (List.mem_of_getElem? k1)).1 (B.big l' (List.mem_of_getElem? k1)).2.1 u u
      exact sep B.sym B.bic B.share B.three h1 k1 (fun e => b1 (k5.trans e.symm)) h2 k2 x1 y1 x2 y2 (hmap x (Or.inl ⟨l', by rw [k5]; exact k1, x1⟩) x2)
    · have := (List.getElem?_eq_some_iff.mp k1).1
      omega
    · have huw : u = w := B.inj u w hu (B.bridge_lt k1).1 hhigh k2
      subst huw
      have hw' : w' ≠ u := by rintro rfl; exact k1.2 .refl
      have p1 : ReflTransGen (Without g u w') w' y := ReflTransGen.mono (fun a b h => ⟨h.1, fun e => h.2.1 e.1, fun e => h.2.2 e.2⟩) _ _ (hmap w' (Or.inr ⟨k3.symm, (B.bridge_lt k1).2⟩) hw')
      have p2 := biconnected_without B.sym ((B.bic y u y2).mp ⟨l, List.mem_of_getElem? h1, y1, h2⟩) y2 k1
      exact k1.2 (rtg_symm (without_comm B.sym u w') (p1.trans p2))
  rcases (B.edge a b).mp h with ⟨j, l, u, h1, h2, h3, ⟨rfl, rfl⟩ | ⟨rfl, rfl⟩⟩ | ⟨u, v, h1, rfl, rfl⟩
  · exact hblock _ l u h1 h2 h3 h
  · obtain ⟨k1, k2⟩ := hblock _ l u h1 h2 h3 (hsymt _ _ h)
    exact ⟨Ne.symm k1, bridge_comm hsymt k2⟩
  · obtain ⟨hu, hv⟩ := B.bridge_lt h1
    have huv : u ≠ v := by rintro rfl; exact h1.2 .refl
    refine ⟨fun e => ?_, h, fun hc => h1.2 ?_⟩
    · rcases B.inside (a := F u) (Or.inr ⟨rfl, hu⟩) (Or.inr ⟨e.symm, hv⟩) with k | k
      · exact huv k
      · exact k.2 h1
    · refine map_path (S := Stands g vb F) (fun c d hcd => ?_) (fun a x y hx hy => ?_) hc u v (Or.inr ⟨rfl, hu⟩) (Or.inr ⟨rfl, hv⟩)
      · obtain ⟨he', hc', hd'⟩ := hcd
        rcases (B.edge c d).mp he' with ⟨j', l', w, k1, k2, k3, ⟨rfl, rfl⟩ | ⟨rfl, rfl⟩⟩ | ⟨w, w', k1, rfl, rfl⟩
        · exact ⟨w, w, Or.inr ⟨rfl, B.lt k1 k2⟩, Or.inl ⟨l', k1, k2⟩, .refl⟩
        · exact ⟨w, w, Or.inl ⟨l', k1, k2⟩, Or.inr ⟨rfl, B.lt k1 k2⟩, .refl⟩
        · refine ⟨w, w', Or.inr ⟨rfl, (B.bridge_lt k1).1⟩, Or.inr ⟨rfl, (B.bridge_lt k1).2⟩, ReflTransGen.single ⟨k1.1, ?_, ?_⟩⟩
          · rintro ⟨rfl, rfl⟩; exact hc' ⟨rfl, rfl⟩
          · rintro ⟨rfl, rfl⟩; exact hd' ⟨rfl, rfl⟩
      · rcases B.inside hx hy with e | e
        · rw [e]
        · by_cases hxy : x = y
          · rw [hxy]
          · exact biconnected_without B.sym e hxy h1

/-- Nodes are connected in the tree exactly when they are in the graph. -/
theorem Bct.reach (B : Bct g vb F t) {x y : Nat} (hx : x < g.length) (hy : y < g.length) : Reach t (F x) (F y) ↔ Reach g x y := by
  constructor
  · intro h
    refine map_path (S := Stands g vb F) (fun c d hcd => ?_) (fun a x y hx hy => ?_) h x y (Or.inr ⟨rfl, hx⟩) (Or.inr ⟨rfl, hy⟩)
    · rcases (B.edge c d).mp hcd with ⟨j', l', w, k1, k2, k3, ⟨rfl, rfl⟩ | ⟨rfl, rfl⟩⟩ | ⟨w, w', k1, rfl, rfl⟩
      · exact ⟨w, w, Or.inr ⟨rfl, B.lt k1 k2⟩, Or.inl ⟨l', k1, k2⟩, .refl⟩
      · exact ⟨w, w, Or.inl ⟨l', k1, k2⟩, Or.inr ⟨rfl, B.lt k1 k2⟩, .refl⟩
      · exact ⟨w, w', Or.inr ⟨rfl, (B.bridge_lt k1).1⟩, Or.inr ⟨rfl, (B.bridge_lt k1).2⟩, ReflTransGen.single k1.1⟩
    · rcases B.inside hx hy with e | e
      · rw [e]
      · exact biconnected_reach e
  · intro h
    induction h with
    | refl => exact .refl
    | @tail b c _ hbc ih =>
      refine (ih (edge_lt hbc)).trans ?_
      by_cases hbr : Bridge g b c
      · exact ReflTransGen.single ((B.edge _ _).mpr (Or.inr ⟨b, c, hbr, rfl, rfl⟩))
      · have hbc' : b ≠ c := by rintro rfl; exact B.noloop b hbc
        obtain ⟨l, hl, m1, m2⟩ := (B.bic b c hbc').mpr ⟨fun d d1 d2 => ReflTransGen.single ⟨hbc, Ne.symm d1, Ne.symm d2⟩, hbr⟩
        obtain ⟨j, hj⟩ := List.mem_iff_getElem?.mp hl
        have p1 : ReflTransGen (Edge t) (F b) j := by
          by_cases e : F b = j
          · rw [e]
          · exact ReflTransGen.single ((B.edge _ _).mpr (Or.inl ⟨j, l, b, hj, m1, e, Or.inl ⟨rfl, rfl⟩⟩))
        have p2 : ReflTransGen (Edge t) j (F c) := by
          by_cases e : F c = j
          · rw [e]
          · exact ReflTransGen.single ((B.edge _ _).mpr (Or.inl ⟨j, l, c, hj, m2, e, Or.inr ⟨rfl, rfl⟩⟩))
        exact p1.trans p2

end

/-- `block_cut_tree`, given the results of `chain_decomposition`, `cut_vertices` and `biconnected_components` and any list of the bridges of a simple graph: it ends without an access out of bounds; the result is a forest, because every edge is a bridge of it; the nodes of the graph are connected in it as they are in the graph; the nodes of the tree that come first are the blocks, then there is one for every articulation point, and only nodes of one block are sent to the same node; the edges are those between a block and an articulation point in it, and the bridges. -/
theorem C132_block_cut_tree {g : List (List Nat)} (hg : Valid g) (hsym : ∀ x y, Edge g x y → Edge g y x) (hsimple : ∀ (u : Nat) (vs : List Nat), g[u]? = some vs → vs.Nodup ∧ u ∉ vs) :
    ∃ d fuel0, (∀ fuel ≥ fuel0, chainDecomposition fuel g = some d) ∧ ∃ vb, biconnectedComponents g d = some vb ∧
      ∀ ve : List (Nat × Nat), (∀ a b, (a, b) ∈ ve → Bridge g a b) → (∀ a b, Bridge g a b → (a, b) ∈ ve ∨ (b, a) ∈ ve) →
        ∃ va t idx, cutVertices g d ve = some va ∧ blockCutTree g ve va vb = some (t, idx) ∧ idx.length = g.length ∧ Valid t ∧
          (∀ a b, Edge t a b → Edge t b a) ∧
          (∀ a b, Edge t a b → a ≠ b ∧ Bridge t a b) ∧
          (ve.Nodup → (∀ a b, (a, b) ∈ ve → (b, a) ∉ ve) → ∀ l ∈ t, l.Nodup) ∧
          (∀ x, x < g.length → ∃ a : Nat, idx[x]? = some (a : Int) ∧ a < t.length) ∧
          (∀ (x y a b : Nat), idx[x]? = some (a : Int) → idx[y]? = some (b : Int) → (Reach t a b ↔ Reach g x y)) ∧
          (∀ (x a : Nat), idx[x]? = some (a : Int) → (∀ k, va[k]? = some x → a = vb.length + k) ∧ (a < vb.length → ∃ l, vb[a]? = some l ∧ x ∈ l) ∧
            ∀ y, idx[y]? = some (a : Int) → y ≠ x → a < vb.length) ∧
          ∀ a b, Edge t a b ↔ (∃ (i x c : Nat) (l : List Nat), vb[i]? = some l ∧ x ∈ l ∧ Articulation g x ∧ idx[x]? = some (c : Int) ∧ ((a = c ∧ b = i) ∨ (a = i ∧ b = c))) ∨
            ∃ x y, Bridge g x y ∧ idx[x]? = some (a : Int) ∧ idx[y]? = some (b : Int) := by
  obtain ⟨d, f1, e1, vb, hvb, big, bic, hpw, three⟩ := C131_biconnected_components hg hsym
  obtain ⟨d', f2, e2, hcv⟩ := C110_cut_vertices hg hsym hsimple
  obtain ⟨par, A, ix, _, _, _, _, D, _⟩ := chainDecomposition_spec hg hsym
  have : d = d' := Option.some.inj ((e1 (max f1 f2) (by omega)).symm.trans (e2 (max f1 f2) (by omega)))
  subst this
  refine ⟨d, f1, e1, vb, hvb, fun ve hv1 hv2 => ?_⟩
  obtain ⟨va, hva, hsorted, hart⟩ := hcv ve hv1 hv2
  have hnd : va.Nodup := hsorted.imp (fun h => Nat.ne_of_lt h)
  have hnoloop : ∀ x, ¬ Edge g x x := by
    rintro x ⟨vs, h1, h2⟩
    exact (hsimple x vs h1).2 h2
  have share : ∀ (i j : Nat) (l l' : List Nat) (x y : Nat), vb[i]? = some l → vb[j]? = some l' → x ∈ l → x ∈ l' → y ∈ l → y ∈ l' → x ≠ y → i = j := by
    intro i j l l' x y hi hj x1 x2 y1 y2 hxy
    obtain ⟨i1, i2⟩ := List.getElem?_eq_some_iff.mp hi
    obtain ⟨j1, j2⟩ := List.getElem?_eq_some_iff.mp hj
    rw [List.pairwise_iff_getElem] at hpw
    rcases Nat.lt_trichotomy i j with h | h | h
    · exact absurd (hpw i j i1 j1 h x y (by rw [i2]; exact x1) (by rw [j2]; exact x2) (by rw [i2]; exact y1) (by rw [j2]; exact y2)) hxy
    · exact h
    · exact absurd (hpw j i j1 i1 h x y (by rw [j2]; exact x2) (by rw [i2]; exact x1) (by rw [j2]; exact y2) (by rw [i2]; exact y1)) hxy
  have hleafart : ∀ x, Leaf g x → ¬ Articulation g x := by
    rintro x ⟨vs, h1, h2⟩ ha
    obtain ⟨y, z, hyz, ⟨l1, k1, k2⟩, l2, k3, k4⟩ := articulation_degree D ha
    rw [h1] at k1 k3
    cases k1
    cases k3
    match vs, h2, k2, k4 with
    | [w], _, k2, k4 =>
      rw [List.mem_singleton] at k2 k4
      exact hyz (k2.trans k4.symm)
  have hleafblk : ∀ x, Leaf g x → ∀ l ∈ vb, x ∉ l := by
    rintro x ⟨vs, h1, h2⟩ l hl hx
    have hw : ∃ w, w ≠ x ∧ ∀ z, Edge g x z → z = w := by
      match vs, h1, h2 with
      | [], h1, _ => exact ⟨x + 1, by omega, fun z ⟨l', k1, k2⟩ => by rw [h1] at k1; cases k1; simp at k2⟩
      | [w], h1, _ => exact ⟨w, by rintro rfl; exact hnoloop w ⟨_, h1, by simp⟩, fun z ⟨l', k1, k2⟩ => by rw [h1] at k1; cases k1; simpa using k2⟩
    obtain ⟨w, hwx, hw⟩ := hw
    obtain ⟨y, y1, y2, y3⟩ := other l (big l hl).1 (big l hl).2.1 x w
    rcases ReflTransGen.cases_head (((bic x y (Ne.symm y2)).mp ⟨l, hl, hx, y1⟩).1 w hwx (Ne.symm y3)) with h | ⟨z, h, _⟩
    · exact y2 h.symm
    · exact h.2.2 (hw z h.1)
  have hinblk : ∀ x, x < g.length → ¬ Leaf g x → ¬ Articulation g x → ∃ l ∈ vb, x ∈ l := by
    intro x hx hnl hna
    obtain ⟨vs, hvs⟩ : ∃ vs, g[x]? = some vs := ⟨_, List.getElem?_eq_getElem hx⟩
    have hlen : 2 ≤ vs.length := by
      by_contra hc
      exact hnl ⟨vs, hvs, by omega⟩
    obtain ⟨hn, hnx⟩ := hsimple x vs hvs
    match vs, hvs, hlen, hn, hnx with
    | y :: z :: vs, hvs, _, hn, hnx =>
      rw [List.nodup_cons] at hn
      have hyz : z ≠ y := by rintro rfl; exact hn.1 (by simp)
      have hxy : x ≠ y := by rintro rfl; exact hnx (by simp)
      have hxz : z ≠ x := by rintro rfl; exact hnx (by simp)
      have ey : Edge g x y := ⟨_, hvs, by simp⟩
      have ez : Edge g x z := ⟨_, hvs, by simp⟩
      by_cases hb : Bridge g x y
      · exact absurd (bridge_articulation D hb hxy ez hyz hxz) hna
      · obtain ⟨l, hl, h1, _⟩ := (bic x y hxy).mpr ⟨fun c c1 c2 => ReflTransGen.single ⟨ey, Ne.symm c1, Ne.symm c2⟩, hb⟩
        exact ⟨l, hl, h1⟩
  have hartlt : ∀ x, Articulation g x → x < g.length := fun x hx => (articulation_cases D hx).1
  obtain ⟨i1, g1, b1, r1, k1⟩ := bctBlocks_spec g.length vb 0 _ _ (fun b hb => (big b hb).2.2) (Rep.replicate g.length (-1))
  obtain ⟨i2, g2, b2, r2, k2⟩ := bctArts_spec g.length va (0 + vb.length) i1 g1 (fun u hu => hartlt u ((hart u).mp hu)) r1
  obtain ⟨i3, g3, N, b3, hN, r3, k3, k4, k5⟩ := bctLeaves_spec g (0 + vb.length + va.length) i2 g2 r2
  have hcase : ∀ x, x < g.length → (Leaf g x ∧ vb.length + va.length ≤ (g3 x).toNat ∧ (g3 x).toNat < N ∧ 0 ≤ g3 x) ∨
      (¬ Leaf g x ∧ Articulation g x ∧ ∃ i, va[i]? = some x ∧ g3 x = ((vb.length + i : Nat) : Int)) ∨
      (¬ Leaf g x ∧ ¬ Articulation g x ∧ ∃ (i : Nat) (b : List Nat), vb[i]? = some b ∧ x ∈ b ∧ g3 x = (i : Int)) := by
    intro x hx
    by_cases hl : Leaf g x
    · have := k4 x hx hl
      exact Or.inl ⟨hl, by omega, by omega, by omega⟩
    · right
      rw [k3 x hx hl]
      by_cases ha : Articulation g x
      · left
        rcases k2 x with ⟨h1, _⟩ | ⟨i, h1, h2⟩
        · exact absurd ((hart x).mpr ha) h1
        · exact ⟨hl, ha, i, h1, by rw [h2]; congr 1; omega⟩
      · right
        rcases k2 x with ⟨_, h2⟩ | ⟨i, h1, _⟩
        · rcases k1 x with ⟨h3, _⟩ | ⟨i, b, h3, h4, h5⟩
          · obtain ⟨l, hl', hxl⟩ := hinblk x hx hl ha
            exact absurd hxl (h3 l hl')
          · exact ⟨hl, ha, i, b, h3, h4, by rw [h2, h5]; congr 1; omega⟩
        · exact absurd ((hart x).mp (List.mem_of_getElem? h1)) ha
  have rF : Rep i3 g.length (fun u => (((g3 u).toNat : Nat) : Int)) := r3.congr (fun x hx => by
    rcases hcase x hx with ⟨_, _, _, h⟩ | ⟨_, _, i, _, h⟩ | ⟨_, _, i, b, _, _, h⟩ <;> omega)
  have hFlt : ∀ x, x < g.length → (g3 x).toNat < N := by
    intro x hx
    rcases hcase x hx with ⟨_, _, h, _⟩ | ⟨_, _, i, h1, h⟩ | ⟨_, _, i, b, h1, _, h⟩
    · exact h
    · have := (List.getElem?_eq_some_iff.mp h1).1; omega
    · have := (List.getElem?_eq_some_iff.mp h1).1; omega
  obtain ⟨t1, b4, l1, m1⟩ := bctBlockEdges_spec rF vb 0 (List.replicate N []) (fun b hb u hu => ⟨(big b hb).2.2 u hu, by rw [List.length_replicate]; exact hFlt u ((big b hb).2.2 u hu)⟩)
    (by rw [List.length_replicate]; omega)
  rw [List.length_replicate] at l1
  have hvelt : ∀ e ∈ ve, e.1 < g.length ∧ e.2 < g.length := fun e he => by
    have := (hv1 e.1 e.2 he).1
    exact ⟨edge_lt this, hg _ _ this⟩
  obtain ⟨t2, b5, l2, m2⟩ := bctBridges_spec rF ve t1 (fun e he => ⟨(hvelt e he).1, (hvelt e he).2, by rw [l1]; exact hFlt _ (hvelt e he).1, by rw [l1]; exact hFlt _ (hvelt e he).2⟩)
  have hempty : ∀ x y, ¬ Edge (List.replicate N ([] : List Nat)) x y := by
    rintro x y ⟨l, h1, h2⟩
    rw [List.getElem?_replicate] at h1
    split at h1
    · cases h1; simp at h2
    · cases h1
  have B : Bct g vb (fun u => (g3 u).toNat) t2 := by
    refine ⟨hsym, hnoloop, big, bic, share, three, fun u hu hlt => ?_, fun u v hu hv hle he => ?_, fun u hu => ?_, fun a b => ?_⟩
    · rcases hcase u hu with ⟨_, h, _, _⟩ | ⟨_, _, i, h1, h⟩ | ⟨_, _, i, b, h1, h2, h⟩
      · omega
      · omega
      · exact ⟨b, by simp only [h, Int.toNat_natCast]; exact h1, h2⟩
    · rcases hcase u hu with ⟨c1, c2, c3, c4⟩ | ⟨c1, c2, i, c3, c4⟩ | ⟨c1, c2, i, b, c3, c4, c5⟩
      · rcases hcase v hv with ⟨d1, d2, d3, d4⟩ | ⟨d1, d2, j, d3, d4⟩ | ⟨d1, d2, j, b', d3, d4, d5⟩
        · exact k5 u v hu hv c1 d1 (by omega)
        · have := (List.getElem?_eq_some_iff.mp d3).1; omega
        · have := (List.getElem?_eq_some_iff.mp d3).1; omega
      · have := (List.getElem?_eq_some_iff.mp c3).1
        rcases hcase v hv with ⟨d1, d2, d3, d4⟩ | ⟨d1, d2, j, d3, d4⟩ | ⟨d1, d2, j, b', d3, d4, d5⟩
        · omega
        · have hij : i = j := by omega
          subst hij
          rw [c3] at d3
          exact Option.some.inj d3
        · have := (List.getElem?_eq_some_iff.mp d3).1; omega
      · have := (List.getElem?_eq_some_iff.mp c3).1; omega
    · rcases hcase u (hartlt u hu) with ⟨c1, _⟩ | ⟨c1, c2, i, c3, c4⟩ | ⟨c1, c2, _⟩
      · exact absurd hu (hleafart u c1)
      · simp only [c4, Int.toNat_natCast]; omega
      · exact absurd hu c2
    · rw [m2, m1]
      simp only [Nat.zero_add]
      constructor
      · rintro ((h | ⟨j, l, h1, u, h2, h3, h4⟩) | ⟨⟨u, v⟩, h1, h2⟩)
        · exact absurd h (hempty a b)
        · exact Or.inl ⟨j, l, u, h1, h2, h3, h4⟩
        · rcases h2 with h2 | h2
          · exact Or.inr ⟨u, v, hv1 u v h1, h2⟩
          · exact Or.inr ⟨v, u, bridge_comm hsym (hv1 u v h1), h2⟩
      · rintro (⟨j, l, u, h1, h2, h3, h4⟩ | ⟨u, v, h1, h2⟩)
        · exact Or.inl (Or.inr ⟨j, l, h1, u, h2, h3, h4⟩)
        · rcases hv2 u v h1 with h | h
          · exact Or.inr ⟨(u, v), h, Or.inl h2⟩
          · exact Or.inr ⟨(v, u), h, Or.inr h2⟩
  have hidx : ∀ x (a : Nat), i3[x]? = some (a : Int) ↔ x < g.length ∧ (g3 x).toNat = a := by
    intro x a
    constructor
    · intro h
      obtain ⟨h1, h2⟩ := rF.eq_of h
      have h3 : (((g3 x).toNat : Nat) : Int) = (a : Int) := h2
      exact ⟨h1, Int.ofNat.inj h3⟩
    · rintro ⟨h1, rfl⟩
      exact rF.get x h1
  have hsymt : ∀ a b, Edge t2 a b → Edge t2 b a := by
    intro x y hxy
    rw [B.edge] at hxy ⊢
    rcases hxy with ⟨j, l, u, h1, h2, h3, h4⟩ | ⟨u, v, h1, h2, h3⟩
    · exact Or.inl ⟨j, l, u, h1, h2, h3, h4.symm.imp (fun h => ⟨h.2, h.1⟩) (fun h => ⟨h.2, h.1⟩)⟩
    · exact Or.inr ⟨v, u, bridge_comm hsym h1, h3, h2⟩
  refine ⟨va, t2, i3, hva, ?_, rF.len, fun a b h => edge_lt (hsymt a b h), hsymt, fun a b h => B.forest h, fun n1 n2 => ?_, fun x hx => ⟨_, rF.get x hx, by rw [l2, l1]; exact hFlt x hx⟩, fun x y a b h1 h2 => ?_, fun x a h => ?_, fun a b => ?_⟩
  · unfold blockCutTree
    rw [show ([] : List (List Nat)) = List.replicate 0 [] from rfl, b1, Option.bind_some, b2, Option.bind_some, b3, Option.bind_some, b4, Option.bind_some, b5, Option.map_some]
  · have hbhigh : ∀ u v, Bridge g u v → vb.length ≤ (g3 u).toNat := by
      intro u v hb
      have hu := edge_lt hb.1
      rcases hcase u hu with ⟨_, c2, _, _⟩ | ⟨_, c2, i, _, c4⟩ | ⟨c1, c2, _⟩
      · omega
      · omega
      · exfalso
        obtain ⟨vs, hvs⟩ : ∃ vs, g[u]? = some vs := ⟨_, List.getElem?_eq_getElem hu⟩
        have huv : u ≠ v := by rintro rfl; exact hnoloop u hb.1
        have hz : ∃ z ∈ vs, z ≠ v := by
          by_contra hc
          have hall : ∀ z ∈ vs, z = v := fun z hz => by
            by_contra hne
            exact hc ⟨z, hz, hne⟩
          refine c1 ⟨vs, hvs, ?_⟩
          have hn := (hsimple u vs hvs).1
          match vs, hn, hall with
          | [], _, _ => simp
          | [_], _, _ => simp
          | y :: z :: vs, hn, hall =>
            rw [List.nodup_cons] at hn
            exact absurd (by rw [hall y (by simp), hall z (by simp)]; simp) hn.1
        obtain ⟨z, z1, z2⟩ := hz
        have ez : Edge g u z := ⟨vs, hvs, z1⟩
        exact c2 (bridge_articulation D hb huv ez z2 (by rintro rfl; exact hnoloop z ez))
    have hn1 : ∀ l ∈ t1, l.Nodup := bctBlockEdges_nodup rF (K := vb.length) (fun u v hu hv hle he => B.inj u v hu hv hle he) vb 0 _ t1
      (fun b hb u hu => ⟨(big b hb).2.2 u hu, by rw [List.length_replicate]; exact hFlt u ((big b hb).2.2 u hu)⟩) (by rw [List.length_replicate]; omega) (by omega) b4
      (fun b hb => (big b hb).1) (fun j b h1 u h2 h3 => B.high h1 h2 (by simpa using h3)) (fun l hl => by rw [List.eq_of_mem_replicate hl]; exact List.nodup_nil) (fun x y h => absurd h (hempty x y))
    have hno : ∀ u v, Bridge g u v → ¬ Edge t1 (g3 u).toNat (g3 v).toNat := by
      intro u v hb hc
      have q1 := hbhigh u v hb
      have q2 := hbhigh v u (bridge_comm hsym hb)
      rcases (m1 _ _).mp hc with hc | ⟨j, b, h1, w, _, _, h4⟩
      · exact hempty _ _ hc
      · have := (List.getElem?_eq_some_iff.mp h1).1
        omega
    exact bctBridges_nodup rF (K := vb.length) (fun u v hu hv hle he => B.inj u v hu hv hle he) ve t1 t2
      (fun e he => ⟨(hvelt e he).1, (hvelt e he).2, by rw [l1]; exact hFlt _ (hvelt e he).1, by rw [l1]; exact hFlt _ (hvelt e he).2⟩) b5 n1
      (fun a b hab => ⟨n2 a b hab, hbhigh a b (hv1 a b hab), hbhigh b a (bridge_comm hsym (hv1 a b hab))⟩) hn1
      (fun e he => ⟨hno _ _ (hv1 e.1 e.2 he), hno _ _ (bridge_comm hsym (hv1 e.1 e.2 he))⟩)
  · obtain ⟨q1, rfl⟩ := (hidx x a).mp h1
    obtain ⟨q2, rfl⟩ := (hidx y b).mp h2
    exact B.reach q1 q2
  · obtain ⟨hx, rfl⟩ := (hidx x a).mp h
    refine ⟨fun k hk => ?_, B.blk x hx, fun y hy hyx => ?_⟩
    · have ha := (hart x).mp (List.mem_of_getElem? hk)
      rcases hcase x hx with ⟨c1, _⟩ | ⟨c1, c2, i, c3, c4⟩ | ⟨c1, c2, _⟩
      · exact absurd ha (hleafart x c1)
      · obtain ⟨p1, p2⟩ := List.getElem?_eq_some_iff.mp hk
        obtain ⟨p3, p4⟩ := List.getElem?_eq_some_iff.mp c3
        have : i = k := (hnd.getElem_inj_iff).mp (p4.trans p2.symm)
        rw [c4, this, Int.toNat_natCast]
      · exact absurd ha c2
    · obtain ⟨hy1, hy2⟩ := (hidx y _).mp hy
      by_contra hc
      exact hyx (B.inj x y hx hy1 (by omega) hy2.symm).symm
  · rw [B.edge]
    refine or_congr ⟨?_, ?_⟩ ⟨?_, ?_⟩
    · rintro ⟨j, l, u, h1, h2, h3, h4⟩
      have hu := B.lt h1 h2
      refine ⟨j, u, _, l, h1, h2, ?_, (hidx u _).mpr ⟨hu, rfl⟩, h4⟩
      have hh := B.high h1 h2 h3
      rcases hcase u hu with ⟨c1, _⟩ | ⟨c1, c2, _⟩ | ⟨c1, c2, i, b, c3, c4, c5⟩
      · exact absurd h2 (hleafblk u c1 l (List.mem_of_getElem? h1))
      · exact c2
      · have := (List.getElem?_eq_some_iff.mp c3).1; omega
    · rintro ⟨j, u, c, l, h1, h2, h3, h4, h5⟩
      obtain ⟨hu, rfl⟩ := (hidx u c).mp h4
      refine ⟨j, l, u, h1, h2, ?_, h5⟩
      have := B.art u h3
      have := (List.getElem?_eq_some_iff.mp h1).1
      omega
    · rintro ⟨u, v, h1, rfl, rfl⟩
      exact ⟨u, v, h1, (hidx u _).mpr ⟨(B.bridge_lt h1).1, rfl⟩, (hidx v _).mpr ⟨(B.bridge_lt h1).2, rfl⟩⟩
    · rintro ⟨u, v, h1, h2, h3⟩
      exact ⟨u, v, h1, ((hidx u a).mp h2).2.symm, ((hidx v b).mp h3).2.symm⟩

/-- `biconnectivity`: on every simple graph the constructor ends without an access out of bounds; the fields are the decomposition, every bridge once, the articulation points, the blocks, and a forest without repeated edges that connects the nodes as the graph does. -/
theorem C132_biconnectivity {g : List (List Nat)} (hg : Valid g) (hsym : ∀ x y, Edge g x y → Edge g y x) (hsimple : ∀ (u : Nat) (vs : List Nat), g[u]? = some vs → vs.Nodup ∧ u ∉ vs) :
    ∃ d ve va vb t idx fuel0, (∀ fuel ≥ fuel0, biconnectivity fuel g = some (d, ve, va, vb, t, idx)) ∧
      (∀ u v, (u, v) ∈ ve ↔ u < v ∧ Bridge g u v) ∧ (va.Pairwise (· < ·) ∧ ∀ c, c ∈ va ↔ Articulation g c) ∧
      (∀ x y, x ≠ y → ((∃ l ∈ vb, x ∈ l ∧ y ∈ l) ↔ Biconnected g x y)) ∧
      (∀ l ∈ t, l.Nodup) ∧ (∀ a b, Edge t a b → a ≠ b ∧ Bridge t a b) ∧ idx.length = g.length ∧
      ∀ (x y : Nat), x < g.length → y < g.length → ∃ a b : Nat, idx[x]? = some (a : Int) ∧ idx[y]? = some (b : Int) ∧ a < t.length ∧ b < t.length ∧ (Reach t a b ↔ Reach g x y) := by
  obtain ⟨d, f1, h1, hnd, h2⟩ := C109_cut_edges hg hsym
  obtain ⟨d', va, f2, h3, _, h4, h5, h6⟩ := C110_biconnectivity hg hsym hsimple
  obtain ⟨d'', f3, h7, vb, h8, _, h9, _⟩ := C131_biconnected_components hg hsym
  obtain ⟨d3, f4, h10, vb', h11, h12⟩ := C132_block_cut_tree hg hsym hsimple
  obtain rfl : d = d' := Option.some.inj ((h1 (max f1 f2) (by omega)).symm.trans (h3 (max f1 f2) (by omega)))
  obtain rfl : d = d'' := Option.some.inj ((h1 (max f1 f3) (by omega)).symm.trans (h7 (max f1 f3) (by omega)))
  obtain rfl : d = d3 := Option.some.inj ((h1 (max f1 f4) (by omega)).symm.trans (h10 (max f1 f4) (by omega)))
  obtain rfl : vb = vb' := Option.some.inj (h8.symm.trans h11)
  obtain ⟨va', t, idx, k1, k2, k3, _, _, k4, k5, k6, k7, _⟩ := h12 (cutEdges g d) (fun a b h => ((h2 a b).mp h).2) (fun a b h => by
    rcases Nat.lt_trichotomy a b with hab | rfl | hab
    · exact Or.inl ((h2 a b).mpr ⟨hab, h⟩)
    · exact absurd .refl h.2
    · exact Or.inr ((h2 b a).mpr ⟨hab, bridge_comm hsym h⟩))
  obtain rfl : va = va' := Option.some.inj (h4.symm.trans k1)
  refine ⟨d, cutEdges g d, va, vb, t, idx, f1, fun fuel hf => ?_, h2, ⟨h5, h6⟩, h9, k5 hnd (fun a b hab hba => ?_), k4, k3, fun x y hx hy => ?_⟩
  · rw [biconnectivity, h1 fuel hf, Option.bind_some, h4, Option.bind_some, h8, Option.bind_some, k2, Option.map_some]
  · have := ((h2 a b).mp hab).1
    have := ((h2 b a).mp hba).1
    omega
  · obtain ⟨a, p1, p2⟩ := k6 x hx
    obtain ⟨b, q1, q2⟩ := k6 y hy
    exact ⟨a, b, p1, q1, p2, q2, k7 x y a b p1 q1⟩

/-- The hypotheses of C132 are met by `g1` (shown beside C110); its bridges are (1, 3) and (5, 6), its articulation points 1, 3 and 5, its blocks {0, 1, 2} and {3, 4, 5}, and 7 is isolated. -/
example : blockCutTree g1 [(1, 3), (5, 6)] [1, 3, 5] [[0, 2, 1], [3, 5, 4]] =
    some ([[2], [3, 4], [0, 3], [1, 2], [1, 5], [4], []], [0, 2, 0, 3, 1, 4, 5, 6]) := by decide +kernel

/-- Two blocks that share a node: a tree of three nodes. -/
example : blockCutTree g2 [] [0] [[0, 2, 1], [0, 4, 3]] = some ([[2], [2], [0, 1]], [2, 0, 0, 1, 1]) := by decide +kernel

end Altruct.Chain
