/-
Floyd-Warshall (C92).
-/
import Verif.GraphAlg.WSpec
import Verif.GraphAlg.FloydModel

namespace Altruct.GraphAlg

/-- The vector of vectors `m` is the matrix `f` with `n` rows and `n` columns. -/
structure Mat {α : Type} (m : List (List α)) (n : Nat) (f : Nat → Nat → α) : Prop where
  len : m.length = n
  row : ∀ u, u < n → ∃ r, m[u]? = some r ∧ Rep r n (f u)

/-- The matrix with one entry changed. -/
def upd2 {α : Type} (f : Nat → Nat → α) (u v : Nat) (x : α) : Nat → Nat → α :=
  fun a b => if a = u ∧ b = v then x else f a b

theorem upd2_self {α : Type} (f : Nat → Nat → α) (u v : Nat) (x : α) : upd2 f u v x u v = x := if_pos ⟨rfl, rfl⟩

theorem upd2_ne {α : Type} (f : Nat → Nat → α) (u v : Nat) (x : α) {a b : Nat} (h : ¬ (a = u ∧ b = v)) :
    upd2 f u v x a b = f a b := if_neg h

section
variable {α : Type} {m : List (List α)} {n : Nat} {f : Nat → Nat → α}

theorem Mat.rd2 (h : Mat m n f) {u v : Nat} (hu : u < n) (hv : v < n) : rd2 m u v = some (f u v) := by
  obtain ⟨r, e, hr⟩ := h.row u hu
  rw [GraphAlg.rd2, rd, e]
  exact hr.rd hv

theorem Mat.wr2 (h : Mat m n f) {u v : Nat} (hu : u < n) (hv : v < n) (x : α) :
    ∃ m', wr2 m u v x = some m' ∧ Mat m' n (upd2 f u v x) := by
  obtain ⟨r, e, hr⟩ := h.row u hu
  have hw := hr.wr hv x
  refine ⟨m.set u (r.set v x), ?_, ⟨by rw [List.length_set, h.len], fun a ha => ?_⟩⟩
  · rw [GraphAlg.wr2, rd, e]
    show (wr r v x).bind _ = _
    rw [hw]
    show wr m u (r.set v x) = _
    rw [wr, if_pos (by rw [h.len]; exact hu)]
  · by_cases hau : a = u
    · subst hau
      refine ⟨_, by rw [List.getElem?_set_self (by rw [h.len]; exact hu)], (hr.set v x).congr (fun b hb => ?_)⟩
      by_cases hbv : b = v
      · subst hbv; rw [Function.update_self, upd2_self]
      · rw [Function.update_of_ne hbv, upd2_ne _ _ _ _ (by tauto)]
    · obtain ⟨r', e', hr'⟩ := h.row a ha
      exact ⟨r', by rw [List.getElem?_set_ne (Ne.symm hau), e'], hr'.congr (fun b _ => by rw [upd2_ne _ _ _ _ (by tauto)])⟩

theorem Mat.replicate (n : Nat) (x : α) : Mat (List.replicate n (List.replicate n x)) n (fun _ _ => x) :=
  ⟨by simp, fun u hu => ⟨List.replicate n x, by simp [hu], Rep.replicate n x⟩⟩
end

/-- An entry that is set belongs to a walk, whose first step it names. -/
def Sound (g : List (List (Nat × Int))) (inf : Int) (u v : Nat) (x : Int × Int) : Prop :=
  x = (-1, inf) ∨ (u = v ∧ x = ((u : Int), 0))
    ∨ (u ≠ v ∧ ∃ (s : Nat) (w d : Int) (p : List Nat), WEdge g u s w ∧ Walk g s p v d ∧ x = ((s : Int), w + d))

/-- The interior nodes of the walk are below `k`. -/
def Below (k : Nat) (p : List Nat) : Prop := ∀ x ∈ p.tail, x < k

/-- The entry is set and at most the weight of every simple walk with interior nodes below `k`. -/
def Bound (g : List (List (Nat × Int))) (k u v : Nat) (x : Int × Int) : Prop :=
  ∀ p d, Walk g u p v d → Simple p v → Below k p → x.1 ≠ -1 ∧ x.2 ≤ d

/-- What the entries are before the main loop: nothing or an edge. -/
def First (g : List (List (Nat × Int))) (inf : Int) (u v : Nat) (x : Int × Int) : Prop :=
  x = (-1, inf) ∨ (u = v ∧ x = ((u : Int), 0)) ∨ (u ≠ v ∧ x.1 = (v : Int) ∧ WEdge g u v x.2)

section
variable {g : List (List (Nat × Int))} {inf : Int}

theorem Sound.walk {u v : Nat} {x : Int × Int} (h : Sound g inf u v x) (h1 : x.1 ≠ -1) : ∃ p, Walk g u p v x.2 := by
  rcases h with h | ⟨rfl, h⟩ | ⟨_, s, w, d, p, h2, h3, h⟩
  · rw [h] at h1; exact absurd rfl h1
  · exact ⟨[], by rw [h]; exact Walk.nil u⟩
  · exact ⟨u :: p, by rw [h]; exact Walk.cons h2 h3⟩

theorem First.sound {u v : Nat} {x : Int × Int} (h : First g inf u v x) : Sound g inf u v x := by
  rcases h with h | h | ⟨h1, h2, h3⟩
  · exact Or.inl h
  · exact Or.inr (Or.inl h)
  · exact Or.inr (Or.inr ⟨h1, v, x.2, 0, [], h3, Walk.nil v, Prod.ext h2 (by simp)⟩)

/-- Every walk without repeated nodes weighs less than `inf`. -/
def InfOk (g : List (List (Nat × Int))) (inf : Int) : Prop :=
  ∀ u p v d, u < g.length → Walk g u p v d → Simple p v → d < inf

theorem fwEdges_spec (hg : WValid g) (hn : NoNegCycle g) (hinf : InfOk g inf)
    {i : Nat} (hi : i < g.length) : ∀ (es : List (Nat × Int)) (m : List (List (Int × Int))) (f : Nat → Nat → Int × Int),
    (∀ e ∈ es, WEdge g i e.1 e.2) → Mat m g.length f → f i i = ((i : Int), 0) →
    (∀ v, v < g.length → First g inf i v (f i v)) →
    ∃ m' f', fwEdges i es m = some m' ∧ Mat m' g.length f' ∧ f' i i = ((i : Int), 0)
      ∧ (∀ v, v < g.length → First g inf i v (f' i v)) ∧ (∀ u v, u ≠ i → f' u v = f u v)
      ∧ (∀ v, (f i v).1 ≠ -1 → (f' i v).1 ≠ -1 ∧ (f' i v).2 ≤ (f i v).2)
      ∧ ∀ e ∈ es, (f' i e.1).1 ≠ -1 ∧ (f' i e.1).2 ≤ e.2 := by
  intro es
  induction es with
  | nil => intro m f _ hm hd hf; exact ⟨m, f, rfl, hm, hd, hf, fun _ _ _ => rfl, fun v h => ⟨h, le_refl _⟩, by simp⟩
  | cons e es ih =>
    intro m f hes hm hd hf
    obtain ⟨v, w⟩ := e
    have he : WEdge g i v w := hes (v, w) (by simp)
    have hv := hg _ _ _ he
    obtain ⟨m1, e1, hm1⟩ := hm.wr2 hi hv ((v : Int), min (f i v).2 w)
    have hself : i = v → 0 ≤ w := fun h => by
      subst h; exact hn i [i] w (Walk.single he)
    have hx : First g inf i v ((v : Int), min (f i v).2 w) := by
      by_cases hiv : i = v
      · subst hiv
        refine Or.inr (Or.inl ⟨rfl, ?_⟩)
        rw [hd, min_eq_left (hself rfl)]
      · refine Or.inr (Or.inr ⟨hiv, rfl, ?_⟩)
        show WEdge g i v (min (f i v).2 w)
        rcases le_total (f i v).2 w with h | h
        · rw [min_eq_left h]
          rcases hf v hv with h1 | ⟨h1, _⟩ | ⟨_, _, h1⟩
          · have := hinf i [i] v w hi (Walk.single he) (by simp [Simple, hiv])
            rw [h1] at h
            exact absurd h (by simpa using this)
          · exact absurd h1 hiv
          · exact h1
        · rw [min_eq_right h]
          exact he
    obtain ⟨m', f', e2, h1, h2, h3, h4, h5, h6⟩ := ih m1 (upd2 f i v ((v : Int), min (f i v).2 w))
      (fun e he => hes e (by simp [he])) hm1
      (by
        by_cases hiv : i = v
        · subst hiv
          rw [upd2_self, hd, min_eq_left (hself rfl)]
        · rw [upd2_ne _ _ _ _ (by tauto), hd])
      (fun u hu => by
        by_cases huv : u = v
        · subst huv; rw [upd2_self]; exact hx
        · rw [upd2_ne _ _ _ _ (by tauto)]; exact hf u hu)
    refine ⟨m', f', ?_, h1, h2, h3, fun u x hu => ?_, fun u hu => ?_, fun e he' => ?_⟩
    · rw [fwEdges, hm.rd2 hi hv]
      show (wr2 m i v ((v : Int), min (f i v).2 w)).bind _ = _
      rw [e1]
      exact e2
    · rw [h4 u x hu, upd2_ne _ _ _ _ (by tauto)]
    · by_cases huv : u = v
      · subst huv
        have := h5 u (by rw [upd2_self]; simp)
        rw [upd2_self] at this
        exact ⟨this.1, this.2.trans (min_le_left _ _)⟩
      · have := h5 u (by rw [upd2_ne _ _ _ _ (by tauto)]; exact hu)
        rwa [upd2_ne _ _ _ _ (by tauto)] at this
    · rcases List.mem_cons.mp he' with rfl | h
      · have := h5 v (by rw [upd2_self]; simp)
        rw [upd2_self] at this
        exact ⟨this.1, this.2.trans (min_le_right _ _)⟩
      · exact h6 e h

theorem fwInit_spec (hg : WValid g) (hn : NoNegCycle g) (hinf : InfOk g inf) :
    ∃ m f, forUp (fwInit g) 0 g.length (List.replicate g.length (List.replicate g.length (-1, inf))) = some m
      ∧ Mat m g.length f ∧ (∀ u, u < g.length → f u u = ((u : Int), 0))
      ∧ (∀ u v, u < g.length → v < g.length → Sound g inf u v (f u v))
      ∧ ∀ u v, u < g.length → v < g.length → Bound g 0 u v (f u v) := by
  obtain ⟨m, e, f, hm, h1, h2, h3⟩ := forUp_spec (body := fwInit g)
    (P := fun k m => ∃ f, Mat m g.length f ∧ (∀ u, u < k → f u u = ((u : Int), 0)) ∧ (∀ u v, u < g.length → v < g.length → First g inf u v (f u v))
      ∧ ∀ u v w, u < k → WEdge g u v w → (f u v).1 ≠ -1 ∧ (f u v).2 ≤ w) (a := 0) (n := g.length)
    (s := List.replicate g.length (List.replicate g.length (-1, inf))) (Nat.zero_le _)
    ⟨_, Mat.replicate g.length _, by omega, fun _ _ _ _ => Or.inl rfl, by omega⟩
    (fun i m _ hi ⟨f, hm, h1, h2, h3⟩ => by
      obtain ⟨m1, e1, hm1⟩ := hm.wr2 hi hi ((i : Int), 0)
      obtain ⟨l, hl⟩ : ∃ l, g[i]? = some l := ⟨_, List.getElem?_eq_getElem hi⟩
      obtain ⟨m', f', e2, h4, h5, h6, h7, h8, h9⟩ := fwEdges_spec hg hn hinf hi l m1 _ (fun e he => ⟨l, hl, he⟩) hm1 (upd2_self _ _ _ _)
        (fun v hv => by
          by_cases hvi : v = i
          · subst hvi; rw [upd2_self]; exact Or.inr (Or.inl ⟨rfl, rfl⟩)
          · rw [upd2_ne _ _ _ _ (by tauto)]; exact h2 i v hi hv)
      have hrow : ∀ u v, u ≠ i → f' u v = f u v := fun u v hu => by
        rw [h7 u v hu, upd2_ne _ _ _ _ (by tauto)]
      refine ⟨m', ?_, f', h4, fun u hu => ?_, fun u v hu hv => ?_, fun u v w hu he => ?_⟩
      · rw [fwInit, e1]
        show (rd g i).bind _ = _
        rw [rd, hl]
        exact e2
      · by_cases hui : u = i
        · subst hui; exact h5
        · rw [hrow u u hui]; exact h1 u (by omega)
      · by_cases hui : u = i
        · subst hui; exact h6 v hv
        · rw [hrow u v hui]; exact h2 u v hu hv
      · by_cases hui : u = i
        · subst hui
          obtain ⟨l', hl', hm'⟩ := he
          rw [hl] at hl'
          cases hl'
          exact h9 (v, w) hm'
        · rw [hrow u v hui]; exact h3 u v w (by omega) he)
  refine ⟨m, f, e, hm, h1, fun u v hu hv => (h2 u v hu hv).sound, fun u v hu hv p d hw hs hb => ?_⟩
  cases hw with
  | nil => rw [h1 u hu]; exact ⟨by simp, le_refl _⟩
  | cons he hw' =>
    rename_i s w d p
    have hp : p = [] := by
      rcases p with _ | ⟨a, p⟩
      · rfl
      · exact absurd (hb a (by simp)) (by omega)
    subst hp
    cases hw'
    rw [add_zero]
    exact h3 u v w hu he

/-- A simple walk through `i` splits into two simple walks whose interiors avoid `i`. -/
theorem split_at {u v i : Nat} {p : List Nat} {d : Int} (h : Walk g u p v d) (hs : Simple p v) (hb : Below (i + 1) p) (hi : i ∈ p.tail) :
    ∃ r q d1 d2, Walk g u r i d1 ∧ Simple r i ∧ Below i r ∧ Walk g i q v d2 ∧ Simple q v ∧ Below i q ∧ d = d1 + d2 := by
  obtain ⟨r, q, d1, d2, e1, h1, h2, e2⟩ := h.split i (List.mem_of_mem_tail hi)
  have hs' := hs
  rw [Simple, e1, List.append_assoc] at hs'
  obtain ⟨n1, n2, n3⟩ := List.nodup_append.mp hs'
  -- the second part starts with `i`
  rcases h2.head with ⟨_, h3, _⟩ | ⟨q', hq⟩
  · -- `i` is the last node: impossible, it would occur twice
    exfalso
    rw [Simple] at hs
    have := (List.nodup_append.mp hs).2.2 i (List.mem_of_mem_tail hi) v (by simp)
    exact this h3
  · have hir : i ∉ r := fun h => n3 i h i (by rw [hq]; simp) rfl
    have hiq : i ∉ q' := by
      rw [hq, List.cons_append, List.nodup_cons] at n2
      exact fun h => n2.1 (List.mem_append_left _ h)
    have hr0 : r ≠ [] := by
      rintro rfl
      rw [List.nil_append] at e1
      rw [e1, hq] at hi
      exact hiq hi
    have htail : p.tail = r.tail ++ q := by
      rw [e1, List.tail_append_of_ne_nil hr0]
    have hlt : ∀ x, x ∈ p.tail → x ≠ i → x < i := fun x hx hxi => by
      have := hb x hx
      omega
    refine ⟨r, q, d1, d2, h1, ?_, ?_, h2, n2, ?_, e2⟩
    · rw [Simple, List.nodup_append]
      exact ⟨n1, by simp, fun a ha b hb' => by
        rw [List.mem_singleton.mp hb']; rintro rfl; exact hir ha⟩
    · intro x hx
      refine hlt x (by rw [htail]; exact List.mem_append_left _ hx) ?_
      rintro rfl
      exact hir (List.mem_of_mem_tail hx)
    · intro x hx
      refine hlt x (by rw [htail]; exact List.mem_append_right _ (List.mem_of_mem_tail hx)) ?_
      rintro rfl
      rw [hq] at hx
      exact hiq hx

/-- What the main loop keeps; `B u v` is the bound on interior nodes for the entry `(u, v)`. -/
structure FwInv (g : List (List (Nat × Int))) (inf : Int) (B : Nat → Nat → Nat) (m : List (List (Int × Int))) (f : Nat → Nat → Int × Int) : Prop where
  mat : Mat m g.length f
  diag : ∀ u, u < g.length → f u u = ((u : Int), 0)
  sound : ∀ u v, u < g.length → v < g.length → Sound g inf u v (f u v)
  bound : ∀ u v, u < g.length → v < g.length → Bound g (B u v) u v (f u v)

theorem FwInv.mono {B B' : Nat → Nat → Nat} {m : List (List (Int × Int))} {f : Nat → Nat → Int × Int} (h : FwInv g inf B m f)
    (hB : ∀ u v, u < g.length → v < g.length → B' u v ≤ B u v) : FwInv g inf B' m f :=
  ⟨h.mat, h.diag, h.sound, fun u v hu hv p d h1 h2 h3 => h.bound u v hu hv p d h1 h2 (fun x hx => lt_of_lt_of_le (h3 x hx) (hB u v hu hv))⟩

theorem fwBody_spec (hn : NoNegCycle g) (hinf : InfOk g inf) {i u v : Nat} (hi : i < g.length) (hu : u < g.length) (hv : v < g.length)
    {B : Nat → Nat → Nat} (hB : ∀ a b, a < g.length → b < g.length → i ≤ B a b) {m : List (List (Int × Int))} {f : Nat → Nat → Int × Int} (h : FwInv g inf B m f) :
    ∃ m' f', fwBody i u v m = some m' ∧ FwInv g inf (fun a b => if a = u ∧ b = v then i + 1 else B a b) m' f' := by
  have ea := h.mat.rd2 hu hi
  have eb := h.mat.rd2 hi hv
  have ec := h.mat.rd2 hu hv
  -- the entry after the step satisfies the stronger bound
  have key : ∀ x : Int × Int, ((f u i).1 = -1 ∨ (f i v).1 = -1 ∨ x.2 ≤ (f u i).2 + (f i v).2 ∧ ((f u i).2 + (f i v).2 < inf → x.1 ≠ -1)) →
      ((f u v).1 ≠ -1 → x.1 ≠ -1 ∧ x.2 ≤ (f u v).2) → Bound g (i + 1) u v x := by
    intro x h1 h2 p d hw hs hb
    by_cases hip : i ∈ p.tail
    · obtain ⟨r, q, d1, d2, w1, s1, b1, w2, s2, b2, e⟩ := split_at hw hs hb hip
      have c1 := h.bound u i hu hi r d1 w1 s1 (fun y hy => lt_of_lt_of_le (b1 y hy) (hB u i hu hi))
      have c2 := h.bound i v hi hv q d2 w2 s2 (fun y hy => lt_of_lt_of_le (b2 y hy) (hB i v hi hv))
      rcases h1 with h1 | h1 | ⟨h1, h1'⟩
      · exact absurd h1 c1.1
      · exact absurd h1 c2.1
      · have := hinf u p v d hu hw hs
        exact ⟨h1' (by linarith), by linarith⟩
    · have c := h.bound u v hu hv p d hw hs (fun y hy => lt_of_lt_of_le (by
          have := hb y hy
          have : y ≠ i := by rintro rfl; exact hip hy
          omega) (hB u v hu hv))
      exact ⟨(h2 c.1).1, (h2 c.1).2.trans c.2⟩
  have hkeep : Bound g (i + 1) u v (f u v) → fwBody i u v m = some m →
      ∃ m' f', fwBody i u v m = some m' ∧ FwInv g inf (fun a b => if a = u ∧ b = v then i + 1 else B a b) m' f' := by
    intro hb he
    refine ⟨m, f, he, h.mat, h.diag, h.sound, fun a b ha hb' => ?_⟩
    by_cases hab : a = u ∧ b = v
    · rw [if_pos hab, hab.1, hab.2]; exact hb
    · rw [if_neg hab]; exact h.bound a b ha hb'
  by_cases h1 : (f u i).1 = -1 ∨ (f i v).1 = -1
  · refine hkeep (key _ (h1.elim Or.inl (fun h => Or.inr (Or.inl h))) (fun h => ⟨h, le_refl _⟩)) ?_
    rw [fwBody, ea]
    show (rd2 m i v).bind _ = _
    rw [eb]
    show (if (f u i).1 = -1 ∨ (f i v).1 = -1 then _ else _) = _
    rw [if_pos h1]
  · have hbody : fwBody i u v m = if (f u i).2 + (f i v).2 < (f u v).2 then wr2 m u v ((f u i).1, (f u i).2 + (f i v).2) else some m := by
      rw [fwBody, ea]
      show (rd2 m i v).bind _ = _
      rw [eb]
      show (if (f u i).1 = -1 ∨ (f i v).1 = -1 then _ else _) = _
      rw [if_neg h1]
      show (rd2 m u v).bind _ = _
      rw [ec]
      rfl
    push Not at h1
    obtain ⟨p1, w1⟩ := (h.sound u i hu hi).walk h1.1
    obtain ⟨p2, w2⟩ := (h.sound i v hi hv).walk h1.2
    by_cases hlt : (f u i).2 + (f i v).2 < (f u v).2
    · rw [hbody, if_pos hlt]
      have huv : u ≠ v := by
        rintro rfl
        have := hn u _ _ (w1.append w2)
        rw [h.diag u hu] at hlt
        simp only at hlt
        linarith
      have hui : u ≠ i := by
        rintro rfl
        rw [h.diag u hu] at hlt
        simp at hlt
      obtain ⟨m', e, hm'⟩ := h.mat.wr2 hu hv ((f u i).1, (f u i).2 + (f i v).2)
      refine ⟨m', _, e, hm', fun a ha => ?_, fun a b ha hb => ?_, fun a b ha hb => ?_⟩
      · rw [upd2_ne _ _ _ _ (fun h => huv (h.1.symm.trans h.2))]
        exact h.diag a ha
      · by_cases hab : a = u ∧ b = v
        · rw [hab.1, hab.2, upd2_self]
          rcases h.sound u i hu hi with h2 | ⟨h2, _⟩ | ⟨_, s, w, d, p, h2, h3, h4⟩
          · rw [h2] at h1; exact absurd rfl h1.1
          · exact absurd h2 hui
          · refine Or.inr (Or.inr ⟨huv, s, w, d + (f i v).2, _, h2, h3.append w2, ?_⟩)
            rw [h4]
            exact Prod.ext rfl (by simp; ring)
        · rw [upd2_ne _ _ _ _ hab]; exact h.sound a b ha hb
      · by_cases hab : a = u ∧ b = v
        · rw [if_pos hab, hab.1, hab.2, upd2_self]
          exact key _ (Or.inr (Or.inr ⟨le_refl _, fun _ => h1.1⟩)) (fun _ => ⟨h1.1, le_of_lt hlt⟩)
        · rw [if_neg hab, upd2_ne _ _ _ _ hab]; exact h.bound a b ha hb
    · refine hkeep (key _ (Or.inr (Or.inr ⟨by linarith, fun h2 => ?_⟩)) (fun h => ⟨h, le_refl _⟩)) (by rw [hbody, if_neg hlt])
      intro h3
      rcases h.sound u v hu hv with h4 | ⟨_, h4⟩ | ⟨_, s, w, d, p, _, _, h4⟩
      · rw [h4] at hlt; exact hlt h2
      · rw [h4] at h3; simp at h3
      · rw [h4] at h3; simp at h3

/-- `floyd_warshall`: with no negative cycle, and `inf` above the weight of every walk without repeated nodes, the entry for
`u` and `v` is `{ -1, inf }` if there is no walk from `u` to `v`; otherwise its weight is the least weight of such a walk and
its node is the first one on a walk of least weight (`u` itself if `u = v`). -/
theorem C92_floyd_warshall (g : List (List (Nat × Int))) (inf : Int) (hg : WValid g) (hn : NoNegCycle g) (hinf : InfOk g inf) :
    ∃ m, floydWarshall g inf = some m ∧ m.length = g.length ∧ ∀ u v, u < g.length → v < g.length →
      ∃ row x d, m[u]? = some row ∧ row.length = g.length ∧ row[v]? = some (x, d)
        ∧ ((∀ p d, ¬ Walk g u p v d) → x = -1 ∧ d = inf)
        ∧ ((∃ p d, Walk g u p v d) → IsDist g u v d ∧ (u = v → x = u)
            ∧ (u ≠ v → ∃ (s : Nat) (w d' : Int), x = s ∧ WEdge g u s w ∧ IsDist g s v d' ∧ d = w + d')) := by
  obtain ⟨m0, f0, e0, a1, a2, a3, a4⟩ := fwInit_spec hg hn hinf
  obtain ⟨m, e, f, hf⟩ := forUp_spec (body := fun i => forUp (fun u => forUp (fwBody i u) 0 g.length) 0 g.length)
    (P := fun k m => ∃ f, FwInv g inf (fun _ _ => k) m f) (a := 0) (n := g.length) (s := m0) (Nat.zero_le _)
    ⟨f0, a1, a2, a3, a4⟩
    (fun i m _ hi ⟨f, hf⟩ => by
      obtain ⟨m1, e1, f1, h1⟩ := forUp_spec (body := fun u => forUp (fwBody i u) 0 g.length)
        (P := fun k m => ∃ f, FwInv g inf (fun a _ => if a < k then i + 1 else i) m f) (a := 0) (n := g.length) (s := m) (Nat.zero_le _)
        ⟨f, hf⟩
        (fun u m _ hu ⟨f, hf⟩ => by
          obtain ⟨m1, e1, f1, h1⟩ := forUp_spec (body := fwBody i u)
            (P := fun k m => ∃ f, FwInv g inf (fun a b => if a < u ∨ (a = u ∧ b < k) then i + 1 else i) m f) (a := 0) (n := g.length) (s := m) (Nat.zero_le _)
            ⟨f, hf.mono (fun a b _ _ => by simp)⟩
            (fun v m _ hv ⟨f, hf⟩ => by
              obtain ⟨m1, f1, e1, h1⟩ := fwBody_spec hn hinf hi hu hv (fun a b _ _ => by split <;> omega) hf
              refine ⟨m1, e1, f1, h1.mono (fun a b _ _ => ?_)⟩
              by_cases h : a = u ∧ b = v
              · rw [if_pos h]; split <;> omega
              · rw [if_neg h]
                split
                · rename_i h'
                  rw [if_pos (by omega)]
                · split <;> omega)
          refine ⟨m1, e1, f1, h1.mono (fun a b _ hb => ?_)⟩
          split
          · rw [if_pos (by omega)]
          · split <;> omega)
      exact ⟨m1, e1, f1, h1.mono (fun a b ha _ => by rw [if_pos ha])⟩)
  refine ⟨m, ?_, hf.mat.len, fun u v hu hv => ?_⟩
  · rw [floydWarshall]
    show (forUp (fwInit g) 0 g.length _).bind _ = _
    rw [e0]
    exact e
  have hlow : ∀ a b, a < g.length → b < g.length → ∀ p d, Walk g a p b d → (f a b).1 ≠ -1 ∧ (f a b).2 ≤ d := by
    intro a b ha hb p d hw
    obtain ⟨p', d', w', h1, h2, _⟩ := hw.exists_simple hn
    have hlt : ∀ x ∈ p', x < g.length := by
      intro x hx
      obtain ⟨r, q, d1, d2, e1, w1, _⟩ := w'.split x hx
      exact w1.lt hg ha
    have := hf.bound a b ha hb p' d' w' h2 (fun x hx => hlt x (List.mem_of_mem_tail hx))
    exact ⟨this.1, this.2.trans h1⟩
  obtain ⟨row, er, hr⟩ := hf.mat.row u hu
  refine ⟨row, (f u v).1, (f u v).2, er, hr.len, hr.get v hv, fun hno => ?_, fun ⟨p, d, hw⟩ => ?_⟩
  · by_contra hc
    rcases hf.sound u v hu hv with h | ⟨h1, h⟩ | ⟨_, s, w, d, p, h1, h2, _⟩
    · rw [h] at hc; simp at hc
    · subst h1; exact hno [] 0 (Walk.nil u)
    · exact hno _ _ (Walk.cons h1 h2)
  · have hset := (hlow u v hu hv p d hw).1
    refine ⟨⟨(hf.sound u v hu hv).walk hset, fun p d hw => (hlow u v hu hv p d hw).2⟩, fun huv => ?_, fun huv => ?_⟩
    · subst huv; rw [hf.diag u hu]
    · rcases hf.sound u v hu hv with h | ⟨h1, h⟩ | ⟨_, s, w, d', p', h1, h2, h⟩
      · rw [h] at hset; exact absurd rfl hset
      · exact absurd h1 huv
      · refine ⟨s, w, d', by rw [h], h1, ⟨⟨p', h2⟩, fun q e hq => ?_⟩, by rw [h]⟩
        have := (hlow u v hu hv _ _ (Walk.cons h1 hq)).2
        rw [h] at this
        simp only at this
        linarith

end

/-! ### The hypotheses are met -/

example : floydWarshall [[(1, 4), (2, 1)], [(3, -2)], [(1, 2)], []] 1000
    = some [[(0, 0), (2, 3), (2, 1), (2, 1)], [(-1, 1000), (1, 0), (-1, 1000), (3, -2)], [(-1, 1000), (1, 2), (2, 0), (1, 0)],
        [(-1, 1000), (-1, 1000), (-1, 1000), (3, 0)]] := by decide +kernel

theorem wedge_of_forall {g : List (List (Nat × Int))} {p : Nat → Nat → Int → Prop}
    (h : ∀ u ∈ List.range g.length, ∀ e ∈ (g[u]?).getD [], p u e.1 e.2) {u v : Nat} {w : Int} (e : WEdge g u v w) : p u v w := by
  obtain ⟨l, h1, h2⟩ := e
  exact h u (List.mem_range.mpr (List.getElem?_eq_some_iff.mp h1).1) (v, w) (by rw [h1]; exact h2)

/-- A lower potential excludes negative cycles. -/
theorem noNegCycle_of {g : List (List (Nat × Int))} (H : Nat → Int) (h : ∀ u v w, WEdge g u v w → H v ≤ H u + w) : NoNegCycle g := by
  have : ∀ u p t d, Walk g u p t d → H t ≤ H u + d := by
    intro u p t d hw
    induction hw with
    | nil => simp
    | cons h1 _ ih => have := h _ _ _ h1; linarith
  intro u p d hw
  have := this u p u d hw
  linarith

/-- An upper potential bounds the weight of all walks. -/
theorem infOk_of {g : List (List (Nat × Int))} {inf : Int} (H : Nat → Int) (h : ∀ u v w, WEdge g u v w → w ≤ H v - H u)
    (hH : ∀ u v, H v - H u < inf) : InfOk g inf := by
  have : ∀ u p t d, Walk g u p t d → d ≤ H t - H u := by
    intro u p t d hw
    induction hw with
    | nil => simp
    | cons h1 _ ih => have := h _ _ _ h1; linarith
  intro u p v d _ hw _
  have := this u p v d hw
  have := hH u v
  linarith

example : WValid [[(1, 4), (2, 1)], [(3, -2)], [(1, 2)], []] ∧ NoNegCycle [[(1, 4), (2, 1)], [(3, -2)], [(1, 2)], []]
    ∧ InfOk [[(1, 4), (2, 1)], [(3, -2)], [(1, 2)], []] 1000 := by
  refine ⟨fun _ _ _ e => wedge_of_forall (p := fun _ v _ => v < 4) (by decide) e, ?_, ?_⟩
  · refine noNegCycle_of (fun u => if u = 3 then -2 else 0) (fun u v w e => ?_)
    exact wedge_of_forall (p := fun u v w => (if v = 3 then (-2 : Int) else 0) ≤ (if u = 3 then -2 else 0) + w) (by decide) e
  · have hH : ∀ u : Nat, (0 : Int) ≤ (if u = 1 then 4 else if u = 2 then 1 else if u = 3 then 2 else 0)
        ∧ (if u = 1 then 4 else if u = 2 then 1 else if u = 3 then 2 else 0) ≤ (4 : Int) := by
      intro u
      split
      · simp
      · split
        · simp
        · split <;> simp
    refine infOk_of (fun u => if u = 1 then 4 else if u = 2 then 1 else if u = 3 then 2 else 0) (fun u v w e => ?_) (fun u v => ?_)
    · exact wedge_of_forall (p := fun u v w => w ≤ (if v = 1 then (4 : Int) else if v = 2 then 1 else if v = 3 then 2 else 0)
        - (if u = 1 then 4 else if u = 2 then 1 else if u = 3 then 2 else 0)) (by decide) e
    · have h1 := hH u
      have h2 := hH v
      linarith [h1.1, h2.2]

end Altruct.GraphAlg
