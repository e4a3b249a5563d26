/-
2-satisfiability (C98).
-/
import Verif.GraphAlg.TarjanProps
import Verif.GraphAlg.Sat2Model
import Mathlib.Data.Nat.Bitwise

namespace Altruct.GraphAlg

/-! ### Specification -/

/-- The literal `2 * i + 1` is the variable `i`, `2 * i` its negation; `-1` is false. -/
def LitHolds (a : Nat → Bool) (u : Int) : Prop := 0 ≤ u ∧ a (u / 2).toNat = decide (u % 2 = 1)

def ClauseHolds (a : Nat → Bool) (t : Int × Int) : Prop := LitHolds a t.1 ∨ LitHolds a t.2

/-- `a` gives every variable the value that `sol` gives it, if any. -/
def Agrees (a : Nat → Bool) (sol : List Int) : Prop := ∀ i x, sol[i]? = some x → x = -1 ∨ x = if a i then 1 else 0

def Satisfiable (sol : List Int) (clauses : List (Int × Int)) : Prop := ∃ a, Agrees a sol ∧ ∀ t ∈ clauses, ClauseHolds a t

/-- Values are -1 (unassigned), 0 or 1. -/
def Values (sol : List Int) : Prop := ∀ x ∈ sol, x = -1 ∨ x = 0 ∨ x = 1

/-! ### Literals -/

theorem flip_eq (u : Nat) : u ^^^ 1 = if u % 2 = 0 then u + 1 else u - 1 := by
  split
  · exact Nat.xor_one_of_even (Nat.even_iff.mpr ‹_›)
  · exact Nat.xor_one_of_odd (Nat.odd_iff.mpr (by omega))

theorem flip_div (u : Nat) : (u ^^^ 1) / 2 = u / 2 := by rw [flip_eq]; split <;> omega

theorem flip_mod (u : Nat) : (u ^^^ 1) % 2 = 1 - u % 2 := by rw [flip_eq]; split <;> omega

theorem flip_flip (u : Nat) : (u ^^^ 1) ^^^ 1 = u := by rw [flip_eq (u ^^^ 1), flip_mod]; rw [flip_eq]; split <;> split <;> omega

theorem flip_lt {u n : Nat} (h : u < n * 2) : u ^^^ 1 < n * 2 := by rw [flip_eq]; split <;> omega

/-- The literal `u` is true under `a`. -/
def NHolds (a : Nat → Bool) (u : Nat) : Prop := a (u / 2) = decide (u % 2 = 1)

theorem nholds_flip (a : Nat → Bool) (u : Nat) : NHolds a (u ^^^ 1) ↔ ¬ NHolds a u := by
  unfold NHolds
  rw [flip_div, flip_mod]
  rcases Nat.mod_two_eq_zero_or_one u with h | h <;> rw [h] <;> cases a (u / 2) <;> simp

theorem litHolds_nat (a : Nat → Bool) (u : Nat) : LitHolds a (u : Int) ↔ NHolds a u := by
  unfold LitHolds NHolds
  have h1 : ((u : Int) / 2).toNat = u / 2 := by omega
  have h2 : ((u : Int) % 2 = 1) ↔ (u % 2 = 1) := by omega
  rw [h1]
  simp only [h2]
  constructor
  · exact fun h => h.2
  · exact fun h => ⟨by omega, h⟩

/-! ### The implication graph -/

theorem addEdge_spec {g : List (List Nat)} {u : Nat} (hu : u < g.length) (v : Nat) :
    ∃ g', addEdge g u v = some g' ∧ g'.length = g.length ∧ ∀ x y, Edge g' x y ↔ Edge g x y ∨ (x = u ∧ y = v) := by
  refine ⟨g.set u (g[u] ++ [v]), ?_, by simp, fun x y => ?_⟩
  · unfold addEdge
    rw [rd, List.getElem?_eq_getElem hu]
    show wr g u (g[u] ++ [v]) = _
    rw [wr, if_pos hu]
  · unfold Edge
    by_cases hx : x = u
    · subst hx
      rw [List.getElem?_set_self hu, List.getElem?_eq_getElem hu]
      simp
    · rw [List.getElem?_set_ne (Ne.symm hx)]
      simp [hx]

/-- The clause as two literals. -/
theorem satNorm_spec {t : Int × Int} (h1 : -1 ≤ t.1) (h2 : -1 ≤ t.2) (h : ¬ (t.1 = -1 ∧ t.2 = -1)) :
    ∃ u v : Nat, (satNorm t).1 = u ∧ (satNorm t).2 = v ∧ ((u : Int) = t.1 ∨ (u : Int) = t.2) ∧ ((v : Int) = t.1 ∨ (v : Int) = t.2)
      ∧ ∀ a, ClauseHolds a t ↔ NHolds a u ∨ NHolds a v := by
  obtain ⟨x, y⟩ := t
  simp only at h1 h2 h
  have neg : ∀ a, ¬ LitHolds a (-1) := fun a hc => by have := hc.1; omega
  by_cases hx : x = -1
  · obtain ⟨v, rfl⟩ : ∃ v : Nat, y = v := ⟨y.toNat, by omega⟩
    refine ⟨v, v, by simp [satNorm, hx], by simp [satNorm, hx], Or.inr rfl, Or.inr rfl, fun a => ?_⟩
    show LitHolds a x ∨ LitHolds a v ↔ _
    rw [hx, litHolds_nat]
    have := neg a
    tauto
  · obtain ⟨u, rfl⟩ : ∃ u : Nat, x = u := ⟨x.toNat, by omega⟩
    by_cases hy : y = -1
    · refine ⟨u, u, by simp [satNorm], by simp [satNorm, hy], Or.inl rfl, Or.inl rfl, fun a => ?_⟩
      show LitHolds a u ∨ LitHolds a y ↔ _
      rw [hy, litHolds_nat]
      have := neg a
      tauto
    · obtain ⟨v, rfl⟩ : ∃ v : Nat, y = v := ⟨y.toNat, by omega⟩
      refine ⟨u, v, by simp [satNorm], by simp [satNorm], Or.inl rfl, Or.inr rfl, fun a => ?_⟩
      show LitHolds a u ∨ LitHolds a v ↔ _
      rw [litHolds_nat, litHolds_nat]

theorem satN_spec (cs : List (Int × Int)) : ∀ n : Int, n ≤ satN cs n ∧ ∀ t ∈ cs, ∀ u : Nat, (u : Int) = t.1 ∨ (u : Int) = t.2 →
    ((u / 2 : Nat) : Int) < satN cs n := by
  induction cs with
  | nil => intro n; exact ⟨le_refl _, by simp⟩
  | cons t cs ih =>
    intro n
    obtain ⟨h1, h2⟩ := ih (max (max n (t.1.tdiv 2 + 1)) (t.2.tdiv 2 + 1))
    rw [satN]
    refine ⟨by omega, fun s hs u hu => ?_⟩
    rcases List.mem_cons.mp hs with rfl | hs
    · rcases hu with hu | hu
      · have : s.1.tdiv 2 = ((u / 2 : Nat) : Int) := by rw [← hu]; rfl
        omega
      · have : s.2.tdiv 2 = ((u / 2 : Nat) : Int) := by rw [← hu]; rfl
        omega
    · exact h2 s hs u hu

theorem satPresets_spec {sol : List Int} (hv : Values sol) {n : Nat} (hn : n ≤ sol.length) :
    ∃ g, satPresets sol n (List.replicate (n * 2) []) = some g ∧ g.length = n * 2
      ∧ ∀ x y, Edge g x y ↔ y < n * 2 ∧ x = y ^^^ 1 ∧ sol[y / 2]? = some ((y % 2 : Nat) : Int) := by
  obtain ⟨g, e, h1, h2⟩ := forUp_spec (body := fun i g => do
    let x ← rd sol i
    if x ≠ -1 then
      let u ← litIx (i * 2 + x)
      addEdge g (u ^^^ 1) u
    else some g) (fun k g => g.length = n * 2 ∧ ∀ x y, Edge g x y ↔ y < k * 2 ∧ x = y ^^^ 1 ∧ sol[y / 2]? = some ((y % 2 : Nat) : Int))
    (a := 0) (n := n) (s := List.replicate (n * 2) []) (Nat.zero_le _) ⟨by simp, fun x y => by
      unfold Edge
      constructor
      · rintro ⟨l, h1, h2⟩
        rw [List.getElem?_replicate] at h1
        split at h1
        · cases h1; simp at h2
        · cases h1
      · rintro ⟨h, _⟩; omega⟩ (fun i g _ hi ⟨hl, he⟩ => by
      have hi' : i < sol.length := by omega
      have er : rd sol i = some sol[i] := by rw [rd, List.getElem?_eq_getElem hi']
      have hx := hv sol[i] (List.getElem_mem hi')
      have hsplit : ∀ y, y < (i + 1) * 2 ↔ y < i * 2 ∨ y / 2 = i := fun y => by omega
      by_cases h : sol[i] = -1
      · refine ⟨g, ?_, hl, fun x y => ?_⟩
        · rw [er]
          show (if sol[i] ≠ -1 then _ else _) = _
          rw [if_neg (by simpa using h)]
        · rw [he, hsplit]
          constructor
          · tauto
          · rintro ⟨h1 | h1, h2, h3⟩
            · exact ⟨h1, h2, h3⟩
            · rw [h1, List.getElem?_eq_getElem hi', h] at h3
              simp only [Option.some.injEq] at h3
              omega
      · obtain ⟨b, hb, hb2⟩ : ∃ b : Nat, sol[i] = b ∧ b < 2 := by
          rcases hx with h1 | h1 | h1
          · exact absurd h1 h
          · exact ⟨0, by simpa using h1, by omega⟩
          · exact ⟨1, by simpa using h1, by omega⟩
        have hlit : litIx (i * 2 + sol[i]) = some (i * 2 + b) := by
          rw [litIx, if_pos (by omega), hb]
          congr 1
        obtain ⟨g', e', hl', he'⟩ := addEdge_spec (g := g) (u := (i * 2 + b) ^^^ 1) (by rw [hl]; exact flip_lt (by omega)) (i * 2 + b)
        refine ⟨g', ?_, by omega, fun x y => ?_⟩
        · rw [er]
          show (if sol[i] ≠ -1 then _ else _) = _
          rw [if_pos h, hlit]
          exact e'
        · rw [he', he, hsplit]
          constructor
          · rintro (h1 | ⟨h1, h2⟩)
            · tauto
            · subst h2
              refine ⟨Or.inr (by omega), h1, ?_⟩
              rw [show (i * 2 + b) / 2 = i by omega, show (i * 2 + b) % 2 = b by omega, List.getElem?_eq_getElem hi', hb]
          · rintro ⟨h1 | h1, h2, h3⟩
            · exact Or.inl ⟨h1, h2, h3⟩
            · right
              rw [h1, List.getElem?_eq_getElem hi', hb] at h3
              simp only [Option.some.injEq] at h3
              have : y = i * 2 + b := by omega
              rw [this] at h2
              exact ⟨h2, this⟩)
  exact ⟨g, e, h1, h2⟩

/-- The edges of the clauses. -/
def ClauseEdge (cs : List (Int × Int)) (x y : Nat) : Prop :=
  ∃ t ∈ cs, ∃ u v : Nat, (satNorm t).1 = u ∧ (satNorm t).2 = v ∧ ((x = u ^^^ 1 ∧ y = v) ∨ (x = v ^^^ 1 ∧ y = u))

theorem satClauses_spec {n : Nat} : ∀ (cs : List (Int × Int)) (g : List (List Nat)), g.length = n * 2 →
    (∀ t ∈ cs, -1 ≤ t.1 ∧ -1 ≤ t.2) → (∀ t ∈ cs, ∀ u : Nat, (u : Int) = t.1 ∨ (u : Int) = t.2 → u / 2 < n) →
    ((∃ t ∈ cs, t.1 = -1 ∧ t.2 = -1) ∧ satClauses cs g = some none)
    ∨ ((∀ t ∈ cs, ¬ (t.1 = -1 ∧ t.2 = -1)) ∧ ∃ g', satClauses cs g = some (some g') ∧ g'.length = n * 2
        ∧ ∀ x y, Edge g' x y ↔ Edge g x y ∨ ClauseEdge cs x y) := by
  intro cs
  induction cs with
  | nil => intro g hl _ _; exact Or.inr ⟨by simp, g, rfl, hl, fun x y => by simp [ClauseEdge]⟩
  | cons t cs ih =>
    intro g hl hlit hn
    by_cases h : t.1 = -1 ∧ t.2 = -1
    · left
      refine ⟨⟨t, by simp, h⟩, ?_⟩
      rw [satClauses, if_pos h]
    · obtain ⟨u, v, hu, hv, hu', hv', _⟩ := satNorm_spec (hlit t (by simp)).1 (hlit t (by simp)).2 h
      have hun := hn t (by simp) u hu'
      have hvn := hn t (by simp) v hv'
      obtain ⟨g1, e1, l1, d1⟩ := addEdge_spec (g := g) (u := u ^^^ 1) (by rw [hl]; exact flip_lt (by omega)) v
      obtain ⟨g2, e2, l2, d2⟩ := addEdge_spec (g := g1) (u := v ^^^ 1) (by rw [l1, hl]; exact flip_lt (by omega)) u
      have estep : satClauses (t :: cs) g = satClauses cs g2 := by
        rw [satClauses, if_neg h, hu, hv, show litIx (u : Int) = some u by simp [litIx], show litIx (v : Int) = some v by simp [litIx]]
        show (addEdge g (u ^^^ 1) v).bind _ = _
        rw [e1]
        show (addEdge g1 (v ^^^ 1) u).bind _ = _
        rw [e2]
        rfl
      rw [estep]
      rcases ih g2 (by omega) (fun s hs => hlit s (by simp [hs])) (fun s hs => hn s (by simp [hs])) with ⟨⟨s, hs, h1⟩, h2⟩ | ⟨h1, g', h2, h3, h4⟩
      · exact Or.inl ⟨⟨s, by simp [hs], h1⟩, h2⟩
      · right
        refine ⟨fun s hs => ?_, g', h2, h3, fun x y => ?_⟩
        · rcases List.mem_cons.mp hs with rfl | hs
          · exact h
          · exact h1 s hs
        · rw [h4, d2, d1]
          unfold ClauseEdge
          constructor
          · rintro (((h5 | h5) | h5) | ⟨s, hs, h5⟩)
            · exact Or.inl h5
            · exact Or.inr ⟨t, by simp, u, v, hu, hv, Or.inl h5⟩
            · exact Or.inr ⟨t, by simp, u, v, hu, hv, Or.inr h5⟩
            · exact Or.inr ⟨s, by simp [hs], h5⟩
          · rintro (h5 | ⟨s, hs, u', v', h6, h7, h5⟩)
            · exact Or.inl (Or.inl (Or.inl h5))
            · rcases List.mem_cons.mp hs with rfl | hs
              · have : u' = u := by rw [hu] at h6; omega
                have : v' = v := by rw [hv] at h7; omega
                subst u' v'
                rcases h5 with h5 | h5
                · exact Or.inl (Or.inl (Or.inr h5))
                · exact Or.inl (Or.inr h5)
              · exact Or.inr ⟨s, hs, u', v', h6, h7, h5⟩

/-! ### The assignment -/

/-- What the assignment keeps: `s0` are the given values, `rk` numbers the components in the order of processing, those before `j`
are processed. -/
structure AInv (n : Nat) (s0 s : Nat → Int) (rk : Nat → Nat) (done : Nat → Prop) : Prop where
  keep : ∀ i, s0 i ≠ -1 → s i = s0 i
  high : ∀ i, n ≤ i → s i = s0 i
  unset : ∀ u, s (u / 2) = -1 → ¬ done u
  val : ∀ i, i < n → s i = -1 ∨ ∃ b : Nat, b < 2 ∧ s i = b ∧ (s0 i ≠ -1 ∨ rk (i * 2 + b) ≤ rk ((i * 2 + b) ^^^ 1))

theorem satComp_spec {m n : Nat} (hnm : n ≤ m) {s0 : Nat → Int} {rk : Nat → Nat} {j : Nat} :
    ∀ (c : List Nat) (sol : List Int) (s : Nat → Int) (done : Nat → Prop), (∀ u ∈ c, u < n * 2 ∧ rk u = j) →
    (∀ u, u < n * 2 → rk u < j → done u) → Rep sol m s → AInv n s0 s rk done →
    ∃ sol' s', satComp c sol = some sol' ∧ Rep sol' m s' ∧ AInv n s0 s' rk (fun u => done u ∨ u ∈ c) := by
  intro c
  induction c with
  | nil => intro sol s done _ _ hr h; exact ⟨sol, s, rfl, hr, by simpa using h⟩
  | cons u c ih =>
    intro sol s done hc hj hr h
    obtain ⟨hu, hrk⟩ := hc u (by simp)
    have hu2 : u / 2 < m := by omega
    have hcond : (fun w => (done w ∨ w = u) ∨ w ∈ c) = (fun w => done w ∨ w ∈ u :: c) := by
      funext w; simp only [List.mem_cons, eq_iff_iff]; tauto
    by_cases hx : s (u / 2) = -1
    · have hs0 : s0 (u / 2) = -1 := by
        by_contra hc0
        exact hc0 ((h.keep _ hc0).symm.trans hx)
      have hflip : j ≤ rk (u ^^^ 1) := by
        by_contra hlt
        exact h.unset (u ^^^ 1) (by rw [flip_div]; exact hx) (hj _ (flip_lt hu) (by omega))
      obtain ⟨sol', s', e, hr', h'⟩ := ih (sol.set (u / 2) ((u % 2 : Nat) : Int)) _ (fun w => done w ∨ w = u)
        (fun w hw => hc w (by simp [hw])) (fun w h1 h2 => Or.inl (hj w h1 h2)) (hr.set (u / 2) _)
        { keep := fun i hi => by
            rw [Function.update_of_ne (by rintro rfl; exact hi hs0)]; exact h.keep i hi
          high := fun i hi => by
            rw [Function.update_of_ne (by omega)]; exact h.high i hi
          unset := fun w hw => by
            by_cases hwu : w / 2 = u / 2
            · rw [hwu, Function.update_self] at hw; omega
            · rw [Function.update_of_ne hwu] at hw
              rintro (h1 | h1)
              · exact h.unset w hw h1
              · exact hwu (by rw [h1])
          val := fun i hi => by
            by_cases hiu : i = u / 2
            · subst hiu
              right
              refine ⟨u % 2, by omega, by rw [Function.update_self], Or.inr ?_⟩
              rw [show u / 2 * 2 + u % 2 = u by omega, hrk]
              exact hflip
            · rw [Function.update_of_ne hiu]; exact h.val i hi }
      refine ⟨sol', s', ?_, hr', hcond ▸ h'⟩
      rw [satComp, hr.rd hu2]
      show (if s (u / 2) = -1 then _ else _) = _
      rw [if_pos hx]
      show (wr sol (u / 2) _).bind _ = _
      rw [hr.wr hu2]
      exact e
    · obtain ⟨sol', s', e, hr', h'⟩ := ih sol s (fun w => done w ∨ w = u) (fun w hw => hc w (by simp [hw]))
        (fun w h1 h2 => Or.inl (hj w h1 h2)) hr
        { keep := h.keep
          high := h.high
          val := h.val
          unset := fun w hw => by
            rintro (h1 | h1)
            · exact h.unset w hw h1
            · rw [h1] at hw; exact hx hw }
      refine ⟨sol', s', ?_, hr', hcond ▸ h'⟩
      rw [satComp, hr.rd hu2]
      show (if s (u / 2) = -1 then _ else _) = _
      rw [if_neg hx]
      exact e

theorem satAssign_spec {m n : Nat} (hnm : n ≤ m) {s0 : Nat → Int} {rk : Nat → Nat} :
    ∀ (cs : List (List Nat)) (j : Nat) (sol : List Int) (s : Nat → Int) (done : Nat → Prop),
    (∀ k c, cs[k]? = some c → ∀ u ∈ c, u < n * 2 ∧ rk u = j + k) →
    (∀ u, u < n * 2 → rk u < j → done u) → (∀ u, u < n * 2 → j ≤ rk u → u ∈ cs.flatten) → Rep sol m s → AInv n s0 s rk done →
    ∃ sol' s', satAssign cs sol = some sol' ∧ Rep sol' m s' ∧ AInv n s0 s' rk (fun u => done u ∨ u ∈ cs.flatten) := by
  intro cs
  induction cs with
  | nil => intro j sol s done _ _ _ hr h; exact ⟨sol, s, rfl, hr, by simpa using h⟩
  | cons c cs ih =>
    intro j sol s done hc hj hj2 hr h
    obtain ⟨sol1, s1, e1, hr1, h1⟩ := satComp_spec hnm c sol s done (fun u hu => hc 0 c rfl u hu) hj hr h
    obtain ⟨sol', s', e, hr', h'⟩ := ih (j + 1) sol1 s1 _ (fun k d hd u hu => by
        have := hc (k + 1) d (by simpa using hd) u hu
        exact ⟨this.1, by omega⟩)
      (fun u h2 h3 => by
        by_cases h4 : rk u < j
        · exact Or.inl (hj u h2 h4)
        · have h5 := hj2 u h2 (by omega)
          rw [List.flatten_cons, List.mem_append] at h5
          rcases h5 with h5 | h5
          · exact Or.inr h5
          · obtain ⟨d, hd, hu⟩ := List.mem_flatten.mp h5
            obtain ⟨k, hk⟩ := List.mem_iff_getElem?.mp hd
            have := (hc (k + 1) d (by simpa using hk) u hu).2
            omega)
      (fun u h2 h3 => by
        have h5 := hj2 u h2 (by omega)
        rw [List.flatten_cons, List.mem_append] at h5
        rcases h5 with h5 | h5
        · have := (hc 0 c rfl u h5).2
          omega
        · exact h5) hr1 h1
    refine ⟨sol', s', ?_, hr', ?_⟩
    · rw [satAssign, e1]; exact e
    · have : (fun u => (done u ∨ u ∈ c) ∨ u ∈ cs.flatten) = (fun u => done u ∨ u ∈ (c :: cs).flatten) := by
        funext w; simp only [List.flatten_cons, List.mem_append, eq_iff_iff]; tauto
      exact this ▸ h'

theorem satCheck_spec {n : Nat} : ∀ (cs : List (Int × Int)) (sol : List Int) (s : Nat → Int) (m : Nat), Rep sol m s → n ≤ m →
    (∀ t ∈ cs, -1 ≤ t.1 ∧ -1 ≤ t.2) → (∀ t ∈ cs, ∀ u : Nat, (u : Int) = t.1 ∨ (u : Int) = t.2 → u / 2 < n) →
    (∀ t ∈ cs, ¬ (t.1 = -1 ∧ t.2 = -1)) →
    ∃ b, satCheck cs sol = some b ∧ (b = true ↔ ∀ t ∈ cs, ∀ u v : Nat, (satNorm t).1 = u → (satNorm t).2 = v →
      s (u / 2) = ((u % 2 : Nat) : Int) ∨ s (v / 2) = ((v % 2 : Nat) : Int)) := by
  intro cs
  induction cs with
  | nil => intro sol s m _ _ _ _ _; exact ⟨true, rfl, by simp⟩
  | cons t cs ih =>
    intro sol s m hr hnm hlit hn hne
    have h := hne t (by simp)
    obtain ⟨u, v, hu, hv, hu', hv', _⟩ := satNorm_spec (hlit t (by simp)).1 (hlit t (by simp)).2 h
    have hun := hn t (by simp) u hu'
    have hvn := hn t (by simp) v hv'
    have estep : satCheck (t :: cs) sol = if s (u / 2) ≠ ((u % 2 : Nat) : Int) ∧ s (v / 2) ≠ ((v % 2 : Nat) : Int) then some false
        else satCheck cs sol := by
      rw [satCheck, if_neg h, hu, hv, show litIx (u : Int) = some u by simp [litIx], show litIx (v : Int) = some v by simp [litIx]]
      show (rd sol (u / 2)).bind _ = _
      rw [hr.rd (by omega)]
      show (rd sol (v / 2)).bind _ = _
      rw [hr.rd (by omega)]
      rfl
    rw [estep]
    obtain ⟨b, e, hb⟩ := ih sol s m hr hnm (fun s hs => hlit s (by simp [hs])) (fun s hs => hn s (by simp [hs])) (fun s hs => hne s (by simp [hs]))
    by_cases hc : s (u / 2) ≠ ((u % 2 : Nat) : Int) ∧ s (v / 2) ≠ ((v % 2 : Nat) : Int)
    · refine ⟨false, if_pos hc, ?_⟩
      simp only [Bool.false_eq_true, false_iff, not_forall]
      exact ⟨t, by simp, u, v, hu, hv, by tauto⟩
    · refine ⟨b, by rw [if_neg hc]; exact e, ?_⟩
      rw [hb]
      constructor
      · intro h1 t' ht' u' v' hu2 hv2
        rcases List.mem_cons.mp ht' with rfl | ht'
        · have : u' = u := by rw [hu] at hu2; omega
          have : v' = v := by rw [hv] at hv2; omega
          subst u' v'
          tauto
        · exact h1 t' ht' u' v' hu2 hv2
      · intro h1 t' ht'
        exact h1 t' (by simp [ht'])

/-- The literal of variable `i` with value `b`, and what the assignment makes true. -/
theorem agrees_lit {a : Nat → Bool} {sol : List Int} (ha : Agrees a sol) {u : Nat} (h : sol[u / 2]? = some ((u % 2 : Nat) : Int)) :
    NHolds a u := by
  unfold NHolds
  rcases ha _ _ h with h1 | h1
  · omega
  · cases e : a (u / 2) with
    | false => rw [e] at h1; simp at h1; simp; omega
    | true => rw [e] at h1; simp at h1; simp; omega

/-- `sat2(sol, clauses)`: the result is true exactly when the clauses can be satisfied by values that agree with the given ones.
In that case the values given are kept, every variable that occurs in a clause has a value, and every assignment that agrees with
the new `sol` satisfies all clauses. -/
theorem C98_sat2 (sol : List Int) (clauses : List (Int × Int)) (hv : Values sol) (hlit : ∀ t ∈ clauses, -1 ≤ t.1 ∧ -1 ≤ t.2) :
    ∃ (b : Bool) (sol' : List Int), (∃ fuel0, ∀ fuel, fuel0 ≤ fuel → sat2 fuel sol clauses = some (b, sol'))
      ∧ (b = true ↔ Satisfiable sol clauses)
      ∧ Values sol' ∧ (∀ (i : Nat) x, sol[i]? = some x → x ≠ -1 → sol'[i]? = some x)
      ∧ (b = true → (∀ t ∈ clauses, ∀ u : Nat, (u : Int) = t.1 ∨ (u : Int) = t.2 → sol'[u / 2]? = some 0 ∨ sol'[u / 2]? = some 1)
          ∧ ∀ a, Agrees a sol' → Agrees a sol ∧ ∀ t ∈ clauses, ClauseHolds a t) := by
  obtain ⟨hn0, hn⟩ := satN_spec clauses 0
  obtain ⟨n, hnn⟩ : ∃ n : Nat, satN clauses 0 = n := ⟨(satN clauses 0).toNat, by omega⟩
  have hn' : ∀ t ∈ clauses, ∀ u : Nat, (u : Int) = t.1 ∨ (u : Int) = t.2 → u / 2 < n := fun t ht u hu => by
    have := hn t ht u hu
    omega
  -- the extended values
  let sol0 : List Int := if sol.length < n then sol ++ List.replicate (n - sol.length) (-1) else sol
  have hlen : n ≤ sol0.length ∧ sol.length ≤ sol0.length := by
    simp only [sol0]
    split
    · simp; omega
    · omega
  have hpre : ∀ (i : Nat) x, sol[i]? = some x → sol0[i]? = some x := by
    intro i x h
    simp only [sol0]
    split
    · rw [List.getElem?_append_left (List.getElem?_eq_some_iff.mp h).1]; exact h
    · exact h
  have hpost : ∀ (i : Nat) x, sol0[i]? = some x → x = -1 ∨ sol[i]? = some x := by
    intro i x h
    simp only [sol0] at h
    split at h
    · rw [List.getElem?_append] at h
      split at h
      · exact Or.inr h
      · rw [List.getElem?_replicate] at h
        split at h
        · cases h; exact Or.inl rfl
        · cases h
    · exact Or.inr h
  have hv0 : Values sol0 := by
    intro x hx
    obtain ⟨i, hi⟩ := List.mem_iff_getElem?.mp hx
    rcases hpost i x hi with h1 | h1
    · exact Or.inl h1
    · exact hv x (List.mem_of_getElem? h1)
  have hagree : ∀ a, Agrees a sol0 ↔ Agrees a sol := fun a =>
    ⟨fun h i x hx => h i x (hpre i x hx), fun h i x hx => (hpost i x hx).elim Or.inl (h i x)⟩
  obtain ⟨g0, e0, l0, d0⟩ := satPresets_spec hv0 hlen.1
  have e1 : ∀ fuel, sat2 fuel sol clauses = (satClauses clauses g0).bind (fun r => match r with
      | none => some (false, sol0)
      | some g => do
        let scc ← tarjanScc fuel g
        let sol ← satAssign scc.reverse sol0
        let b ← satCheck clauses sol
        some (b, sol)) := by
    intro fuel
    rw [sat2, hnn, Int.toNat_natCast]
    show (satPresets sol0 n (List.replicate (n * 2) [])).bind _ = _
    rw [e0]
    rfl
  rcases satClauses_spec clauses g0 l0 hlit hn' with ⟨⟨t, ht, h1⟩, h2⟩ | ⟨hne, g, h2, hl, hE⟩
  · refine ⟨false, sol0, ⟨0, fun fuel _ => by rw [e1, h2]; rfl⟩, ?_, hv0, fun i x h _ => hpre i x h, by simp⟩
    simp only [Bool.false_eq_true, false_iff]
    rintro ⟨a, _, ha⟩
    rcases ha t ht with h3 | h3
    · have := h3.1; omega
    · have := h3.1; omega
  · -- the edges are implications
    have hgv : Valid g := by
      intro x y he
      rw [hl]
      rcases (hE x y).mp he with h3 | ⟨t, ht, u, v, hu, hv2, h3⟩
      · exact ((d0 x y).mp h3).1
      · obtain ⟨u', v', hu', hv', k1, k2, _⟩ := satNorm_spec (hlit t ht).1 (hlit t ht).2 (hne t ht)
        have : u' = u := by rw [hu'] at hu; omega
        have : v' = v := by rw [hv'] at hv2; omega
        subst u' v'
        have := hn' t ht u k1
        have := hn' t ht v k2
        rcases h3 with ⟨_, h3⟩ | ⟨_, h3⟩ <;> omega
    obtain ⟨vscc, ⟨f0, et⟩, hperm, hscc, htopo⟩ := C97_tarjan_scc g hgv
    rw [hl] at hperm
    -- ranks
    let R := vscc.reverse
    let rk : Nat → Nat := fun x => R.findIdx (fun c => decide (x ∈ c))
    have hmem : ∀ u, u < n * 2 → ∃ c ∈ R, u ∈ c := by
      intro u hu
      obtain ⟨c, hc, huc⟩ := List.mem_flatten.mp (hperm.mem_iff.mpr (List.mem_range.mpr hu))
      exact ⟨c, List.mem_reverse.mpr hc, huc⟩
    have hRnd : R.flatten.Nodup := ((List.reverse_perm vscc).flatten.trans hperm).nodup_iff.mpr List.nodup_range
    have hrkc : ∀ (k : Nat) c, R[k]? = some c → ∀ u ∈ c, u < n * 2 ∧ rk u = k := by
      intro k c hk u hu
      have hc := List.mem_of_getElem? hk
      refine ⟨List.mem_range.mp (hperm.mem_iff.mp (List.mem_flatten.mpr ⟨c, List.mem_reverse.mp hc, hu⟩)), ?_⟩
      obtain ⟨hkl, hkc⟩ := List.getElem?_eq_some_iff.mp hk
      have hle : rk u ≤ k := by
        by_contra hlt
        have h3 := List.not_of_lt_findIdx (p := fun c => decide (u ∈ c)) (xs := R) (i := k) (by simpa [rk] using hlt)
        rw [hkc] at h3
        simp [hu] at h3
      have hlt : rk u < R.length := by omega
      have h3 : u ∈ R[rk u] := by
        have := List.findIdx_getElem (p := fun c => decide (u ∈ c)) (xs := R) (w := hlt)
        simpa using this
      by_contra hne2
      have h4 := List.pairwise_iff_getElem.mp (List.nodup_flatten.mp hRnd).2 (rk u) k hlt hkl (by omega)
      exact h4 h3 (by rw [hkc]; exact hu)
    have hcomp : ∀ u, u < n * 2 → ∃ c, R[rk u]? = some c ∧ u ∈ c := by
      intro u hu
      obtain ⟨c, hc, huc⟩ := hmem u hu
      obtain ⟨k, hk⟩ := List.mem_iff_getElem?.mp hc
      exact ⟨c, by rw [(hrkc k c hk u huc).2]; exact hk, huc⟩
    have hmono : ∀ x y, x < n * 2 → y < n * 2 → Reach g x y → rk y ≤ rk x := by
      intro x y hx hy hr
      obtain ⟨c, hc, hxc⟩ := hcomp x hx
      obtain ⟨d, hd, hyd⟩ := hcomp y hy
      by_contra hlt
      obtain ⟨k1, k2⟩ := List.getElem?_eq_some_iff.mp hc
      obtain ⟨k3, k4⟩ := List.getElem?_eq_some_iff.mp hd
      -- in `vscc`, `d` stands before `c`
      have hsplit : vscc = (R.drop (rk x + 1)).reverse ++ c :: (R.take (rk x)).reverse := by
        have h3 : R = R.take (rk x) ++ c :: R.drop (rk x + 1) := by
          conv => lhs; rw [← List.take_append_drop (rk x) R]
          rw [List.drop_eq_getElem_cons k1, k2]
        have h4 := congrArg List.reverse h3
        rw [List.reverse_reverse] at h4
        rw [h4]; simp
      refine htopo _ c _ hsplit x hxc d ?_ y hyd hr
      rw [List.mem_reverse, List.mem_iff_getElem?]
      exact ⟨rk y - (rk x + 1), by rw [List.getElem?_drop, show rk x + 1 + (rk y - (rk x + 1)) = rk y by omega]; exact hd⟩
    have heq : ∀ x y, x < n * 2 → y < n * 2 → rk x = rk y → Reach g x y := by
      intro x y hx hy he
      obtain ⟨c, hc, hxc⟩ := hcomp x hx
      obtain ⟨d, hd, hyd⟩ := hcomp y hy
      rw [he, hd] at hc
      cases hc
      exact (((hscc c (List.mem_reverse.mp (List.mem_of_getElem? hd))).2 x hxc y).mp hyd).1
    -- the assignment
    let s0 : Nat → Int := fun i => sol0.getD i 0
    have hr0 : Rep sol0 sol0.length s0 := Rep.self sol0
    obtain ⟨sol', s, ea, hr, hA⟩ := satAssign_spec hlen.1 (s0 := s0) (rk := rk) R 0 sol0 s0 (fun _ => False)
      (fun k c hk u hu => by simpa using hrkc k c hk u hu) (fun u _ h3 => by omega)
      (fun u hu _ => by obtain ⟨c, hc, huc⟩ := hmem u hu; exact List.mem_flatten.mpr ⟨c, hc, huc⟩) hr0
      { keep := fun i _ => rfl
        high := fun i _ => rfl
        unset := fun u _ h3 => h3
        val := fun i hi => by
          have hi' : i < sol0.length := by omega
          have h3 : s0 i = sol0[i] := by simp [s0, List.getD_eq_getElem?_getD, List.getElem?_eq_getElem hi']
          rw [h3]
          rcases hv0 sol0[i] (List.getElem_mem hi') with h4 | h4 | h4
          · exact Or.inl h4
          · exact Or.inr ⟨0, by omega, by simpa using h4, Or.inl (by rw [h4]; omega)⟩
          · exact Or.inr ⟨1, by omega, by simpa using h4, Or.inl (by rw [h4]; omega)⟩ }
    have hset : ∀ i, i < n → ∃ b : Nat, b < 2 ∧ s i = b ∧ (s0 i ≠ -1 ∨ rk (i * 2 + b) ≤ rk ((i * 2 + b) ^^^ 1)) := by
      intro i hi
      rcases hA.val i hi with h3 | h3
      · exfalso
        refine hA.unset (i * 2) (by rw [show i * 2 / 2 = i by omega]; exact h3) (Or.inr ?_)
        obtain ⟨c, hc, huc⟩ := hmem (i * 2) (by omega)
        exact List.mem_flatten.mpr ⟨c, hc, huc⟩
      · exact h3
    have hs0 : ∀ (i : Nat) x, sol0[i]? = some x → s0 i = x := by
      intro i x h3
      simp [s0, List.getD_eq_getElem?_getD, h3]
    have hkeep : ∀ (i : Nat) x, sol0[i]? = some x → x ≠ -1 → sol'[i]? = some x := by
      intro i x h3 h4
      have hi : i < sol0.length := (List.getElem?_eq_some_iff.mp h3).1
      rw [hr.get i hi, hA.keep i (by rw [hs0 i x h3]; exact h4), hs0 i x h3]
    have hvals : Values sol' := by
      intro x hx
      obtain ⟨i, hi⟩ := List.mem_iff_getElem?.mp hx
      have hil : i < sol0.length := by rw [← hr.len]; exact (List.getElem?_eq_some_iff.mp hi).1
      rw [hr.get i hil] at hi
      cases hi
      by_cases hin : i < n
      · obtain ⟨b, hb, h3, _⟩ := hset i hin
        rw [h3]; omega
      · rw [hA.high i (by omega), hs0 i sol0[i] (List.getElem?_eq_getElem hil)]
        exact hv0 _ (List.getElem_mem hil)
    obtain ⟨b, eb, hb⟩ := satCheck_spec clauses sol' s sol0.length hr hlen.1 hlit hn' hne
    have hsound : b = true → ∀ a, Agrees a sol' → Agrees a sol ∧ ∀ t ∈ clauses, ClauseHolds a t := by
      intro hbt a ha
      refine ⟨(hagree a).mp (fun i x hx => ?_), fun t ht => ?_⟩
      · by_cases h3 : x = -1
        · exact Or.inl h3
        · exact ha i x (hkeep i x hx h3)
      · obtain ⟨u, v, hu, hv', k1, k2, k3⟩ := satNorm_spec (hlit t ht).1 (hlit t ht).2 (hne t ht)
        rw [k3]
        have hun := hn' t ht u k1
        have hvn := hn' t ht v k2
        rcases (hb.mp hbt) t ht u v hu hv' with h3 | h3
        · exact Or.inl (agrees_lit ha (by rw [hr.get _ (by omega), h3]))
        · exact Or.inr (agrees_lit ha (by rw [hr.get _ (by omega), h3]))
    refine ⟨b, sol', ⟨f0, fun fuel hf => ?_⟩, ⟨fun hbt => ?_, fun ⟨a, ha, hac⟩ => ?_⟩, hvals, fun i x h3 h4 => hkeep i x (hpre i x h3) h4,
      fun hbt => ⟨fun t ht u hu => ?_, hsound hbt⟩⟩
    · rw [e1, h2]
      show (tarjanScc fuel g).bind _ = _
      rw [et fuel hf]
      show (satAssign R sol0).bind _ = _
      rw [ea]
      show (satCheck clauses sol').bind _ = _
      rw [eb]
      rfl
    · refine ⟨fun i => decide (sol'.getD i 0 = 1), hsound hbt _ (fun i x hx => ?_)⟩
      have h3 : sol'.getD i 0 = x := by simp [List.getD_eq_getElem?_getD, hx]
      rw [h3]
      rcases hvals x (List.mem_of_getElem? hx) with h4 | h4 | h4
      · exact Or.inl h4
      · right; rw [h4]; simp
      · right; rw [h4]; simp
    · -- completeness
      have ha0 := (hagree a).mpr ha
      have himp : ∀ x y, Edge g x y → NHolds a x → NHolds a y := by
        intro x y he hx
        rcases (hE x y).mp he with h3 | ⟨t, ht, u, v, hu, hv2, h3⟩
        · obtain ⟨_, _, h4⟩ := (d0 x y).mp h3
          exact agrees_lit ha0 h4
        · obtain ⟨u', v', hu', hv', _, _, k3⟩ := satNorm_spec (hlit t ht).1 (hlit t ht).2 (hne t ht)
          have : u' = u := by rw [hu'] at hu; omega
          have : v' = v := by rw [hv'] at hv2; omega
          subst u' v'
          have h4 := (k3 a).mp (hac t ht)
          rcases h3 with ⟨rfl, rfl⟩ | ⟨rfl, rfl⟩
          · rw [nholds_flip] at hx; tauto
          · rw [nholds_flip] at hx; tauto
      have hreach : ∀ x y, Reach g x y → NHolds a x → NHolds a y := by
        intro x y hr2
        induction hr2 with
        | refl => exact id
        | tail _ he ih => exact fun hx => himp _ _ he (ih hx)
      have hrne : ∀ u, u < n * 2 → rk u ≠ rk (u ^^^ 1) := by
        intro u hu he
        have h3 := hreach _ _ (heq u _ hu (flip_lt hu) he)
        have h4 := hreach _ _ (heq _ u (flip_lt hu) hu he.symm)
        rw [nholds_flip] at h3 h4
        tauto
      -- a true literal is processed before its negation
      have htrue : ∀ u, u < n * 2 → s (u / 2) = ((u % 2 : Nat) : Int) → rk u < rk (u ^^^ 1) := by
        intro u hu h3
        refine lt_of_le_of_ne ?_ (hrne u hu)
        obtain ⟨b', hb', h4, h5⟩ := hset (u / 2) (by omega)
        have h6 : b' = u % 2 := by omega
        subst h6
        rw [show u / 2 * 2 + u % 2 = u by omega] at h5
        rcases h5 with h5 | h5
        · have h7 : sol0[u / 2]? = some ((u % 2 : Nat) : Int) := by
            rw [hr0.get _ (by omega), ← h3, hA.keep _ h5]
          exact hmono _ _ (flip_lt hu) hu (Relation.ReflTransGen.single ((hE _ _).mpr (Or.inl ((d0 _ _).mpr ⟨hu, rfl, h7⟩))))
        · exact h5
      have hfalse : ∀ u, u < n * 2 → s (u / 2) ≠ ((u % 2 : Nat) : Int) → rk (u ^^^ 1) < rk u := by
        intro u hu h3
        obtain ⟨b', hb', h4, _⟩ := hset (u / 2) (by omega)
        have := htrue (u ^^^ 1) (flip_lt hu) (by rw [flip_div, flip_mod, h4]; omega)
        rwa [flip_flip] at this
      rw [hb]
      intro t ht u v hu hv2
      obtain ⟨u', v', hu', hv', k1, k2, k3⟩ := satNorm_spec (hlit t ht).1 (hlit t ht).2 (hne t ht)
      have : u' = u := by rw [hu'] at hu; omega
      have : v' = v := by rw [hv'] at hv2; omega
      subst u' v'
      have hun := hn' t ht u k1
      have hvn := hn' t ht v k2
      by_contra hc
      push Not at hc
      have h3 := hfalse u (by omega) hc.1
      have h4 := hfalse v (by omega) hc.2
      have h5 := hmono (u ^^^ 1) v (flip_lt (by omega)) (by omega)
        (Relation.ReflTransGen.single ((hE _ _).mpr (Or.inr ⟨t, ht, u, v, hu, hv2, Or.inl ⟨rfl, rfl⟩⟩)))
      have h6 := hmono (v ^^^ 1) u (flip_lt (by omega)) (by omega)
        (Relation.ReflTransGen.single ((hE _ _).mpr (Or.inr ⟨t, ht, u, v, hu, hv2, Or.inr ⟨rfl, rfl⟩⟩)))
      omega
    · have hun := hn' t ht u hu
      obtain ⟨b', hb', h3, _⟩ := hset (u / 2) hun
      rw [hr.get _ (by omega), h3]
      rcases (show b' = 0 ∨ b' = 1 by omega) with rfl | rfl
      · exact Or.inl rfl
      · exact Or.inr rfl

/-- `sat2(clauses)`: the empty vector if the clauses cannot be satisfied; otherwise values such that every assignment that agrees
with them satisfies all clauses. -/
theorem C98_sat2_clauses (clauses : List (Int × Int)) (hlit : ∀ t ∈ clauses, -1 ≤ t.1 ∧ -1 ≤ t.2) :
    ∃ sol', (∃ fuel0, ∀ fuel, fuel0 ≤ fuel → sat2' fuel clauses = some sol') ∧ Values sol'
      ∧ (¬ Satisfiable [] clauses → sol' = [])
      ∧ (Satisfiable [] clauses → ∀ a, Agrees a sol' → ∀ t ∈ clauses, ClauseHolds a t) := by
  obtain ⟨b, sol', ⟨f0, e⟩, h1, h2, _, h4⟩ := C98_sat2 [] clauses (by simp [Values]) hlit
  refine ⟨if b then sol' else [], ⟨f0, fun fuel hf => by rw [sat2', e fuel hf]; rfl⟩, ?_, fun h => ?_, fun h a ha => ?_⟩
  · split
    · exact h2
    · simp [Values]
  · rw [if_neg (fun hc => h (h1.mp hc))]
  · have hb := h1.mpr h
    rw [if_pos hb] at ha
    exact ((h4 hb).2 a ha).2

/-! ### The hypotheses are met -/

example : sat2 100 [-1, 1] [(1, 2), (0, 3), (-1, 5), (4, 1)] = some (true, [1, 1, 1]) := by decide +kernel

example : sat2 100 [0] [(1, 2), (1, 3)] = some (false, [0, 1]) := by decide +kernel

example : Values [-1, 1] ∧ ∀ t ∈ ([(1, 2), (0, 3), (-1, 5), (4, 1)] : List (Int × Int)), -1 ≤ t.1 ∧ -1 ≤ t.2 := by
  unfold Values; decide

end Altruct.GraphAlg
