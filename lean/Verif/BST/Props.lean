/-
C24: the binary search tree as an ordered collection.

The collection is a list of entries: the iterator of an element, its value and the number of its copies.  The
specification below is written on such lists only.
-/
import Verif.BST.Edit

namespace Altruct.BST

variable {V K : Type}

/-! ### Specification -/

/-- An element of the collection: its iterator, its value and the number of its copies. -/
abbrev Entry (V : Type) := Nat × V × Int

/-- A strict weak ordering. -/
structure StrictWeak (cmp : K → K → Bool) : Prop where
  irrefl : ∀ x, cmp x x = false
  trans : ∀ x y z, cmp x y = true → cmp y z = true → cmp x z = true
  incomp : ∀ x y z, cmp x y = false → cmp y x = false → cmp y z = false → cmp z y = false → cmp x z = false ∧ cmp z x = false

/-- `insert(v, cnt)`: a new element goes behind all that are not greater, unless an equivalent one is there and
duplicates are not stored.  Gives the elements and the iterator that is returned. -/
def insertSpec (dup : Dup) (key : V → K) (cmp : K → K → Bool) (fresh : Nat) (v : V) (cnt : Int) (s : List (Entry V)) : List (Entry V) × Nat :=
  match dup, s.find? (eqv key cmp (key v)) with
  | .ignore, some e => (s, e.1)
  | .count, some e => (s.map (fun f => if eqv key cmp (key v) f then (f.1, f.2.1, f.2.2 + cnt) else f), e.1)
  | _, _ => (s.filter (fun e => !cmp (key v) (key e.2.1)) ++ (fresh, v, if dup = .count then cnt else 1) :: s.filter (fun e => cmp (key v) (key e.2.1)), fresh)

/-- Remove `cnt` copies of the elements that are selected. -/
def eraseSpec (cnt : Int) (sel : Entry V → Bool) (s : List (Entry V)) : List (Entry V) :=
  s.filterMap (fun e => if sel e then if cnt < e.2.2 then some (e.1, e.2.1, e.2.2 - cnt) else none else some e)

/-- The elements before an iterator and those from it on. -/
def from' (p : Nat) (s : List (Entry V)) : List (Entry V) × List (Entry V) :=
  (s.takeWhile (fun e => e.1 != p), s.dropWhile (fun e => e.1 != p))

/-- The operations. -/
inductive Op (V K : Type) where
  | insert (fresh : Nat) (bal : Int) (v : V) (cnt : Int)
  | eraseKey (x : K) (cnt : Int)
  | eraseIt (p : Nat) (cnt : Int)
  | eraseRange (b e : Nat) (cnt : Int)

/-- The elements after an operation. -/
def specStep (dup : Dup) (key : V → K) (cmp : K → K → Bool) (s : List (Entry V)) : Op V K → List (Entry V)
  | .insert fresh _ v cnt => (insertSpec dup key cmp fresh v cnt s).1
  | .eraseKey x cnt => eraseSpec (if dup = .count then cnt else 1) (eqv key cmp x) s
  | .eraseIt p cnt => eraseSpec (if dup = .count then cnt else 1) (fun e => e.1 == p) s
  | .eraseRange b e cnt => (from' b s).1 ++ eraseSpec (if dup = .count then cnt else 1) (fun _ => true) (from' e (from' b s).2).1 ++ (from' e (from' b s).2).2

/-- What a caller and the allocator must respect: a new node gets an address that is not in use, and counts are
positive when inserting and not negative when erasing; iterators are those of elements or the end, which is 0. -/
def OpValid (s : List (Entry V)) : Op V K → Prop
  | .insert fresh _ _ cnt => fresh ≠ 0 ∧ fresh ∉ s.map (·.1) ∧ 1 ≤ cnt
  | .eraseKey _ cnt => 0 ≤ cnt
  | .eraseIt p cnt => (p = 0 ∨ p ∈ s.map (·.1)) ∧ 0 ≤ cnt
  | .eraseRange b e cnt => (b = 0 ∨ b ∈ s.map (·.1)) ∧ (e = 0 ∨ e ∈ (from' b s).2.map (·.1)) ∧ 0 ≤ cnt

/-- A history of the elements. -/
def specRun (dup : Dup) (key : V → K) (cmp : K → K → Bool) : List (Entry V) → List (Op V K) → List (Entry V)
  | s, [] => s
  | s, op :: ops => specRun dup key cmp (specStep dup key cmp s op) ops

/-- All operations of a history are valid. -/
def ValidRun (dup : Dup) (key : V → K) (cmp : K → K → Bool) : List (Entry V) → List (Op V K) → Prop
  | _, [] => True
  | s, op :: ops => OpValid s op ∧ ValidRun dup key cmp (specStep dup key cmp s op) ops

/-! ### The program -/

/-- An operation of the tree. -/
def step (dup : Dup) (key : V → K) (cmp : K → K → Bool) (maxInt : Int) (fuel : Nat) (h : Heap V) : Op V K → Option (Heap V)
  | .insert fresh bal v cnt => (insert dup key cmp fuel h fresh bal v cnt).map (·.1)
  | .eraseKey x cnt => eraseKey dup key cmp maxInt fuel h x cnt
  | .eraseIt p cnt => (eraseNode dup fuel h p cnt).map (·.1)
  | .eraseRange b e cnt => eraseRange dup fuel cnt fuel h b e

/-- A history of the tree. -/
def run (dup : Dup) (key : V → K) (cmp : K → K → Bool) (maxInt : Int) (fuel : Nat) : Heap V → List (Op V K) → Option (Heap V)
  | h, [] => some h
  | h, op :: ops => do
    let h ← step dup key cmp maxInt fuel h op
    run dup key cmp maxInt fuel h ops

/-- `for (auto it = begin; it != end(); ++it)`: the iterators with `*it` and `it.count()`. -/
def walk (h : Heap V) (fuel : Nat) : Nat → Nat → Option (List (Entry V))
  | 0, p => if p = 0 then some [] else none
  | steps + 1, p =>
    if p = 0 then some []
    else do
      let n ← h p
      let v ← n.val
      let c ← count h p
      let q ← inorderNext h fuel p
      let rest ← walk h fuel steps q
      some ((p, v, c) :: rest)

/-! ### Orders -/

theorem StrictWeak.asymm {cmp : K → K → Bool} (hw : StrictWeak cmp) {x y : K} (h : cmp x y = true) : cmp y x = false := by
  cases h2 : cmp y x with
  | false => rfl
  | true => have := hw.trans x y x h h2; rw [hw.irrefl] at this; simp at this

/-- Not less is transitive. -/
theorem StrictWeak.neg {cmp : K → K → Bool} (hw : StrictWeak cmp) {x y z : K} (h1 : cmp x y = false) (h2 : cmp y z = false) : cmp x z = false := by
  cases h3 : cmp x z with
  | false => rfl
  | true =>
    exfalso
    cases h4 : cmp y x with
    | true => have := hw.trans y x z h4 h3; rw [this] at h2; simp at h2
    | false =>
      cases h5 : cmp z y with
      | true => have := hw.trans x z y h3 h5; rw [this] at h1; simp at h1
      | false => have := (hw.incomp x y z h1 h4 h2 h5).1; rw [this] at h3; simp at h3

theorem StrictWeak.lt_of_lt_of_le {cmp : K → K → Bool} (hw : StrictWeak cmp) {x y z : K} (h1 : cmp x y = true) (h2 : cmp z y = false) : cmp x z = true := by
  cases h3 : cmp x z with
  | true => rfl
  | false => have := hw.neg h3 h2; rw [this] at h1; simp at h1

theorem StrictWeak.lt_of_le_of_lt {cmp : K → K → Bool} (hw : StrictWeak cmp) {x y z : K} (h1 : cmp y x = false) (h2 : cmp y z = true) : cmp x z = true := by
  cases h3 : cmp x z with
  | true => rfl
  | false => have := hw.neg h1 h3; rw [this] at h2; simp at h2

/-- The elements are sorted; without stored duplicates no two are equivalent. -/
def Sorted (dup : Dup) (key : V → K) (cmp : K → K → Bool) (s : List (Entry V)) : Prop :=
  s.Pairwise (fun e f => if dup = .store then cmp (key f.2.1) (key e.2.1) = false else cmp (key e.2.1) (key f.2.1) = true)

theorem Sorted.weak {dup : Dup} {key : V → K} {cmp : K → K → Bool} (hw : StrictWeak cmp) {s : List (Entry V)} (h : Sorted dup key cmp s) :
    s.Pairwise (fun e f => cmp (key f.2.1) (key e.2.1) = false) := by
  refine List.Pairwise.imp ?_ h
  intro e f he
  by_cases hd : dup = .store
  · rwa [if_pos hd] at he
  · rw [if_neg hd] at he; exact hw.asymm he

theorem Sorted.mono_lower {dup : Dup} {key : V → K} {cmp : K → K → Bool} (hw : StrictWeak cmp) {s : List (Entry V)} (h : Sorted dup key cmp s) (x : K) :
    Mono (fun e => !cmp (key e.2.1) x) s := by
  refine List.Pairwise.imp ?_ (h.weak hw)
  intro e f he h1
  simp only [Bool.not_eq_true'] at h1 ⊢
  exact hw.neg he h1

theorem Sorted.mono_upper {dup : Dup} {key : V → K} {cmp : K → K → Bool} (hw : StrictWeak cmp) {s : List (Entry V)} (h : Sorted dup key cmp s) (x : K) :
    Mono (fun e => cmp x (key e.2.1)) s := by
  refine List.Pairwise.imp ?_ (h.weak hw)
  intro e f he h1
  exact hw.lt_of_lt_of_le h1 he

theorem Sorted.unique {dup : Dup} {key : V → K} {cmp : K → K → Bool} (hw : StrictWeak cmp) {s : List (Entry V)} (h : Sorted dup key cmp s) (hd : dup ≠ .store) (x : K) :
    s.Pairwise (fun e f => ¬(eqv key cmp x e = true ∧ eqv key cmp x f = true)) := by
  refine List.Pairwise.imp ?_ h
  intro e f he
  rw [if_neg hd] at he
  rintro ⟨h1, h2⟩
  simp only [eqv, Bool.and_eq_true, Bool.not_eq_true'] at h1 h2
  have := hw.neg h1.1 h2.2
  rw [this] at he
  simp at he

/-! ### Insertion -/

theorem insertLoop_spec {dup : Dup} {key : V → K} {cmp : K → K → Bool} {v : V} {h : Heap V} : ∀ (t : Tree V) (C : List (Frame V)) (g : Bool) (fuel : Nat), Rep h (plug C t) → Side C g →
    Mono (fun e => !cmp (key e.2.1) (key v)) t.seq → Mono (fun e => cmp (key v) (key e.2.1)) t.seq → t.nodes < fuel →
    (∃ C' g', insertLoop dup key cmp v h fuel t.root (parOf C 0) g = some (.inr (parOf C' 0, g')) ∧ plug C t = plug C' .nil ∧ Side C' g' ∧
      pre C' = pre C ++ t.seq.filter (fun e => !cmp (key v) (key e.2.1)) ∧ suf C' = t.seq.filter (fun e => cmp (key v) (key e.2.1)) ++ suf C ∧
      (dup = .store ∨ ∀ e ∈ t.seq, eqv key cmp (key v) e = false)) ∨
    (∃ C' g' p b c w l r, insertLoop dup key cmp v h fuel t.root (parOf C 0) g = some (if dup = .ignore then .inl p else .inr (parOf C' 0, g')) ∧ plug C t = plug C' (.node p b c w l r) ∧
      Side C' g' ∧ eqv key cmp (key v) (p, w, c) = true ∧ dup ≠ .store ∧ (p, w, c) ∈ t.seq)
  | .nil, C, g, fuel, hr, hg, _, _, hf => by
    obtain ⟨fuel, rfl⟩ : ∃ k, fuel = k + 1 := ⟨fuel - 1, by omega⟩
    left
    refine ⟨C, g, ?_, rfl, hg, by simp [Tree.seq], by simp [Tree.seq], Or.inr (by simp [Tree.seq])⟩
    rw [insertLoop, Tree.root, hr.nil]
    simp
  | .node a b c w l r, C, g, fuel, hr, hg, hm1, hm2, hf => by
    obtain ⟨h1, h2, h3, h4, h5, h6, -⟩ := hr.node
    obtain ⟨fuel, rfl⟩ : ∃ k, fuel = k + 1 := ⟨fuel - 1, by omega⟩
    simp only [Tree.nodes, Tree.ad, List.length_cons, List.length_append] at hf
    rw [Tree.seq] at hm1 hm2 ⊢
    -- descending to the right
    have hright : cmp (key v) (key w) = false → (∀ e ∈ l.seq, cmp (key v) (key e.2.1) = false) → (dup = .store ∨ eqv key cmp (key v) (a, w, c) = false ∧ ∀ e ∈ l.seq, eqv key cmp (key v) e = false) →
        insertLoop dup key cmp v h (fuel + 1) (Tree.node a b c w l r).root (parOf C 0) g = insertLoop dup key cmp v h fuel r.root a false →
        (∃ C' g', insertLoop dup key cmp v h (fuel + 1) (Tree.node a b c w l r).root (parOf C 0) g = some (.inr (parOf C' 0, g')) ∧ plug C (.node a b c w l r) = plug C' .nil ∧ Side C' g' ∧
          pre C' = pre C ++ (l.seq ++ (a, w, c) :: r.seq).filter (fun e => !cmp (key v) (key e.2.1)) ∧
          suf C' = (l.seq ++ (a, w, c) :: r.seq).filter (fun e => cmp (key v) (key e.2.1)) ++ suf C ∧
          (dup = .store ∨ ∀ e ∈ l.seq ++ (a, w, c) :: r.seq, eqv key cmp (key v) e = false)) ∨
        (∃ C' g' p b' c' w' l' r', insertLoop dup key cmp v h (fuel + 1) (Tree.node a b c w l r).root (parOf C 0) g = some (if dup = .ignore then .inl p else .inr (parOf C' 0, g')) ∧
          plug C (.node a b c w l r) = plug C' (.node p b' c' w' l' r') ∧
          Side C' g' ∧ eqv key cmp (key v) (p, w', c') = true ∧ dup ≠ .store ∧ (p, w', c') ∈ l.seq ++ (a, w, c) :: r.seq) := by
      intro hk hkl hq e
      rw [e]
      have hfl : l.seq.filter (fun e => !cmp (key v) (key e.2.1)) = l.seq := by
        rw [List.filter_eq_self]; intro x hx; simp [hkl x hx]
      have hfg : l.seq.filter (fun e => cmp (key v) (key e.2.1)) = [] := by
        rw [List.filter_eq_nil_iff]; intro x hx; simp [hkl x hx]
      rcases insertLoop_spec r (.R a b c w l :: C) false fuel hr rfl hm1.right hm2.right (by simp only [Tree.nodes]; omega) with
        ⟨C', g', i1, i2, i3, i4, i5, i6⟩ | ⟨C', g', p, b', c', w', l', r', i1, i2, i3, i4, i5, i6⟩
      · left
        refine ⟨C', g', i1, i2, i3, ?_, ?_, ?_⟩
        · rw [i4, pre, List.filter_append, hfl, List.filter_cons, if_pos (by simp [hk])]; simp
        · rw [i5, suf, List.filter_append, hfg, List.filter_cons, if_neg (by simp [hk])]; simp
        · rcases hq with hq | ⟨hq1, hq2⟩
          · exact Or.inl hq
          · rcases i6 with i6 | i6
            · exact Or.inl i6
            · right
              intro x hx
              rcases List.mem_append.mp hx with hx | hx
              · exact hq2 x hx
              · rcases List.mem_cons.mp hx with rfl | hx
                · exact hq1
                · exact i6 x hx
      · right
        exact ⟨C', g', p, b', c', w', l', r', i1, i2, i3, i4, i5, by simp [i6]⟩
    have hunf : insertLoop dup key cmp v h (fuel + 1) (Tree.node a b c w l r).root (parOf C 0) g =
        if cmp (key v) (key w) = true then insertLoop dup key cmp v h fuel l.root a true
        else if cmp (key w) (key v) = true then insertLoop dup key cmp v h fuel r.root a false
        else match (generalizing := false) dup with
          | .store => insertLoop dup key cmp v h fuel r.root a false
          | .count => some (.inr (parOf C 0, g))
          | .ignore => some (.inl a) := by
      rw [show (Tree.node a b c w l r).root = a from rfl, insertLoop, h3]
      simp only [Option.bind_eq_bind, Option.bind_some, keyOf, Option.map_some]
      rw [if_neg (by simpa using h6)]
      cases dup <;> rfl
    by_cases hk : cmp (key v) (key w) = true
    · rw [hunf, if_pos hk]
      have hrg : ∀ e ∈ r.seq, cmp (key v) (key e.2.1) = true := hm2.after (by simpa using hk)
      have hfl : r.seq.filter (fun e => !cmp (key v) (key e.2.1)) = [] := by
        rw [List.filter_eq_nil_iff]; intro x hx; simp [hrg x hx]
      have hfg : r.seq.filter (fun e => cmp (key v) (key e.2.1)) = r.seq := by
        rw [List.filter_eq_self]; intro x hx; simp [hrg x hx]
      rcases insertLoop_spec l (.L a b c w r :: C) true fuel hr rfl hm1.left hm2.left (by simp only [Tree.nodes]; omega) with
        ⟨C', g', i1, i2, i3, i4, i5, i6⟩ | ⟨C', g', p, b', c', w', l', r', i1, i2, i3, i4, i5, i6⟩
      · left
        refine ⟨C', g', i1, i2, i3, ?_, ?_, ?_⟩
        · rw [i4, pre, List.filter_append, List.filter_cons, if_neg (by simp [hk]), hfl]; simp
        · rw [i5, suf, List.filter_append, List.filter_cons, if_pos (by simp [hk]), hfg]; simp
        · rcases i6 with i6 | i6
          · exact Or.inl i6
          · right
            intro x hx
            rcases List.mem_append.mp hx with hx | hx
            · exact i6 x hx
            · rcases List.mem_cons.mp hx with rfl | hx
              · simp [eqv, hk]
              · simp [eqv, hrg x hx]
      · right
        exact ⟨C', g', p, b', c', w', l', r', i1, i2, i3, i4, i5, by simp [i6]⟩
    · have hk' : cmp (key v) (key w) = false := by simpa using hk
      have hlg : ∀ e ∈ l.seq, cmp (key v) (key e.2.1) = false := hm2.before hk'
      by_cases hk2 : cmp (key w) (key v) = true
      · refine hright hk' hlg (Or.inr ⟨by simp [eqv, hk2], ?_⟩) (by rw [hunf, if_neg hk, if_pos hk2])
        intro e he
        have := hm1.before (e := (a, w, c)) (by simp [hk2]) e he
        simp only [Bool.not_eq_false'] at this
        simp [eqv, this]
      · have hk2' : cmp (key w) (key v) = false := by simpa using hk2
        cases dup with
        | store => exact hright hk' hlg (Or.inl rfl) (by rw [hunf, if_neg hk, if_neg hk2])
        | count =>
          right
          exact ⟨C, g, a, b, c, w, l, r, by rw [hunf, if_neg hk, if_neg hk2]; rfl, rfl, hg, by simp [eqv, hk', hk2'], by simp, by simp⟩
        | ignore =>
          right
          exact ⟨C, g, a, b, c, w, l, r, by rw [hunf, if_neg hk, if_neg hk2]; rfl, rfl, hg, by simp [eqv, hk', hk2'], by simp, by simp⟩

/-- The invariant of the collection. -/
structure Good (dup : Dup) (key : V → K) (cmp : K → K → Bool) (s : List (Entry V)) : Prop where
  sorted : Sorted dup key cmp s
  pos : ∀ e ∈ s, 1 ≤ e.2.2
  one : dup ≠ .count → ∀ e ∈ s, e.2.2 = 1

theorem path_length {C : List (Frame V)} {t : Tree V} : C.length + t.nodes ≤ (plug C t).nodes := by
  rw [plug_nodes]
  have := adC_length C
  omega

theorem nodes_seq (t : Tree V) : t.nodes = t.seq.length := by
  rw [Tree.nodes, ← (seq_ad t).length_eq, List.length_map]

theorem rootPtr_spec {h : Heap V} {t : Tree V} (hr : Rep h t) : rootPtr h = some t.root := by
  rw [rootPtr, hr.nil]; rfl

/-- In a sorted list the entries that are not greater come first. -/
theorem filter_split {p : Entry V → Bool} : ∀ {s : List (Entry V)}, Mono p s → s.filter (fun e => !p e) ++ s.filter p = s
  | [], _ => rfl
  | e :: s, hm => by
    have h1 := List.pairwise_cons.mp hm
    by_cases hp : p e = true
    · have : s.filter (fun e => !p e) = [] := by
        rw [List.filter_eq_nil_iff]; intro x hx; simp [h1.1 x hx hp]
      have h2 : s.filter p = s := by
        rw [List.filter_eq_self]; intro x hx; exact h1.1 x hx hp
      rw [List.filter_cons, if_neg (by simp [hp]), this, List.filter_cons, if_pos hp, h2]
      rfl
    · rw [List.filter_cons, if_pos (by simpa using hp), List.filter_cons, if_neg hp, List.cons_append, filter_split h1.2]

theorem insertSpec_new {dup : Dup} {key : V → K} {cmp : K → K → Bool} (fresh : Nat) (v : V) (cnt : Int) (s : List (Entry V)) (h : dup = .store ∨ s.find? (eqv key cmp (key v)) = none) :
    insertSpec dup key cmp fresh v cnt s = (s.filter (fun e => !cmp (key v) (key e.2.1)) ++ (fresh, v, if dup = .count then cnt else 1) :: s.filter (fun e => cmp (key v) (key e.2.1)), fresh) := by
  rcases h with rfl | h
  · simp [insertSpec]
  · cases dup <;> simp [insertSpec, h]

theorem insertSpec_ignore {key : V → K} {cmp : K → K → Bool} (fresh : Nat) (v : V) (cnt : Int) (s : List (Entry V)) {e : Entry V} (h : s.find? (eqv key cmp (key v)) = some e) :
    insertSpec .ignore key cmp fresh v cnt s = (s, e.1) := by
  simp [insertSpec, h]

theorem insertSpec_count {key : V → K} {cmp : K → K → Bool} (fresh : Nat) (v : V) (cnt : Int) (s : List (Entry V)) {e : Entry V} (h : s.find? (eqv key cmp (key v)) = some e) :
    insertSpec .count key cmp fresh v cnt s = (s.map (fun f => if eqv key cmp (key v) f then (f.1, f.2.1, f.2.2 + cnt) else f), e.1) := by
  simp [insertSpec, h]

theorem insert_spec {dup : Dup} {key : V → K} {cmp : K → K → Bool} (hw : StrictWeak cmp) {h : Heap V} {t : Tree V} (he : Exact h t) (hg : Good dup key cmp t.seq) {fresh : Nat}
    (hfr0 : fresh ≠ 0) (hfr : fresh ∉ t.seq.map (·.1)) (bal : Int) (v : V) (cnt : Int) {fuel : Nat} (hf : t.nodes + 1 < fuel) :
    ∃ h' t', insert dup key cmp fuel h fresh bal v cnt = some (h', (insertSpec dup key cmp fresh v cnt t.seq).2) ∧ Exact h' t' ∧ t'.seq = (insertSpec dup key cmp fresh v cnt t.seq).1 ∧
      ((dup = .store ∨ ∀ e ∈ t.seq, eqv key cmp (key v) e = false) → ∃ C, t = plug C .nil ∧ t' = plug C (.node fresh bal (copies dup cnt) v .nil .nil)) := by
  have hnone : h fresh = none := he.out fresh hfr0 (fun hx => hfr ((seq_ad t).mem_iff.mpr hx))
  rw [insert, rootPtr_spec he.rep]
  simp only [Option.bind_eq_bind, Option.bind_some]
  rcases insertLoop_spec (dup := dup) (key := key) (cmp := cmp) (v := v) t [] true fuel he.rep trivial (hg.sorted.mono_lower hw _) (hg.sorted.mono_upper hw _) (by omega) with
    ⟨C, g, i1, i2, i3, i4, i5, i6⟩ | ⟨C, g, p, b, c, w, l, r, i1, i2, i3, i4, i5, i6⟩
  · rw [show (0 : Nat) = parOf ([] : List (Frame V)) 0 from rfl, i1]
    simp only [Option.bind_some]
    rw [show t = plug C .nil from i2] at he
    have hlen := path_length (C := C) (t := .nil)
    rw [← show t = plug C .nil from i2] at hlen
    obtain ⟨h', j1, j2⟩ := insertNode_hole (dup := dup) he i3 hnone bal v cnt (fuel := fuel) (by simp only [Tree.nodes, Tree.ad, List.length_nil] at hlen hf ⊢; omega)
    have hspec := insertSpec_new (dup := dup) (key := key) (cmp := cmp) fresh v cnt t.seq (i6.imp id (fun i6 => by
      rw [List.find?_eq_none]; intro x hx; rw [i6 x hx]; simp))
    rw [hspec]
    refine ⟨h', _, j1, j2, ?_, fun _ => ⟨C, i2, rfl⟩⟩
    rw [plug_seq, i4, i5]
    simp [Tree.seq, pre, suf, copies]
  · rw [show (0 : Nat) = parOf ([] : List (Frame V)) 0 from rfl, i1]
    simp only [Option.bind_some]
    have it : t = plug C (.node p b c w l r) := i2
    have hseq : t.seq = (pre C ++ l.seq) ++ (p, w, c) :: (r.seq ++ suf C) := by rw [it, plug_seq]; simp [Tree.seq]
    have hu := hg.sorted.unique hw i5 (key v)
    rw [hseq] at hu
    have hub : ∀ e ∈ pre C ++ l.seq, eqv key cmp (key v) e = false := by
      intro e hin
      have := (List.pairwise_append.mp hu).2.2 e hin (p, w, c) (by simp)
      simpa [i4] using this
    have hua : ∀ e ∈ r.seq ++ suf C, eqv key cmp (key v) e = false := by
      intro e hin
      have := (List.pairwise_cons.mp (List.pairwise_append.mp hu).2.1).1 e hin
      simpa [i4] using this
    have hfind : t.seq.find? (eqv key cmp (key v)) = some (p, w, c) := by
      rw [hseq, List.find?_append, List.find?_cons_of_pos i4]
      have : (pre C ++ l.seq).find? (eqv key cmp (key v)) = none := by
        rw [List.find?_eq_none]; intro x hx; rw [hub x hx]; simp
      rw [this]
      rfl
    cases dup with
    | store => exact absurd rfl i5
    | ignore =>
      rw [if_pos rfl, insertSpec_ignore _ _ _ _ hfind]
      refine ⟨h, t, rfl, he, rfl, ?_⟩
      rintro (hx | hx)
      · simp at hx
      · rw [hx _ i6] at i4; simp at i4
    | count =>
      rw [if_neg (by simp), insertSpec_count _ _ _ _ hfind]
      simp only
      have hlen := path_length (C := C) (t := .node p b c w l r)
      rw [← it] at hlen
      rw [it] at he
      obtain ⟨h', j1, j2⟩ := insertNode_there (dup := .count) he i3 fresh bal v cnt (fuel := fuel) (by simp only [Tree.nodes, Tree.ad, List.length_cons] at hlen hf ⊢; omega)
      refine ⟨h', _, j1, j2, ?_, ?_⟩
      swap
      · rintro (hx | hx)
        · simp at hx
        · rw [hx _ i6] at i4; simp at i4
      rw [plug_seq, hseq, List.map_append, List.map_cons, if_pos i4]
      have m1 : (pre C ++ l.seq).map (fun f => if eqv key cmp (key v) f = true then (f.1, f.2.1, f.2.2 + cnt) else f) = pre C ++ l.seq := by
        rw [List.map_congr_left (g := id), List.map_id]
        intro e hin
        rw [hub e hin]; rfl
      have m2 : (r.seq ++ suf C).map (fun f => if eqv key cmp (key v) f = true then (f.1, f.2.1, f.2.2 + cnt) else f) = r.seq ++ suf C := by
        rw [List.map_congr_left (g := id), List.map_id]
        intro e hin
        rw [hua e hin]; rfl
      rw [m1, m2]
      simp [Tree.seq, copies]

/-! ### Removal -/

theorem eraseNode_spec {dup : Dup} {h : Heap V} {t : Tree V} (he : Exact h t) {s1 s2 : List (Entry V)} {p : Nat} {v : V} {c : Int} (hs : t.seq = s1 ++ (p, v, c) :: s2) (cnt : Int) {fuel : Nat}
    (hf : t.nodes + 1 < fuel) : ∃ h' q t', eraseNode dup fuel h p cnt = some (h', q) ∧ Exact h' t' ∧
      t'.seq = s1 ++ (if copies dup cnt < c then [(p, v, c - copies dup cnt)] else []) ++ s2 := by
  obtain ⟨C, b, l, r, rfl, rfl, rfl⟩ := he.rep.split hs
  have hlen := path_length (C := C) (t := .node p b c v l r)
  by_cases hc : copies dup cnt < c
  · obtain ⟨h', e, s⟩ := eraseNode_less he hc (fuel := fuel) (by simp only [Tree.nodes, Tree.ad, List.length_cons] at hlen hf ⊢; omega)
    refine ⟨h', _, _, e, s, ?_⟩
    rw [plug_seq, if_pos hc]
    simp [Tree.seq]
  · rw [if_neg hc]
    by_cases hlr : l = .nil ∨ r = .nil
    · obtain ⟨h', e, s⟩ := eraseNode_small he hc hlr (fuel := fuel) (by simp only [Tree.nodes, Tree.ad, List.length_cons] at hlen hf ⊢; omega)
      refine ⟨h', _, _, e, s, ?_⟩
      rw [plug_seq, onlyChild_seq hlr]
      simp
    · rw [not_or] at hlr
      obtain ⟨h', q, t', e, s, hq⟩ := eraseNode_big he hc hlr.1 hlr.2 (fuel := fuel) (by omega)
      refine ⟨h', q, t', e, s, ?_⟩
      rw [hq]
      simp

theorem eraseNode_nil {dup : Dup} {h : Heap V} {t : Tree V} (he : Exact h t) (cnt : Int) (fuel : Nat) : eraseNode dup fuel h 0 cnt = some (h, 0) := by
  rw [eraseNode, isNil, he.rep.nil]
  rfl

theorem eraseSpec_none {cnt : Int} {sel : Entry V → Bool} {s : List (Entry V)} (h : ∀ e ∈ s, sel e = false) : eraseSpec cnt sel s = s := by
  rw [eraseSpec, List.filterMap_congr (g := some), List.filterMap_some]
  intro e he
  rw [h e he]
  rfl

theorem eraseSpec_one {cnt : Int} {sel : Entry V → Bool} {s1 s2 : List (Entry V)} {e : Entry V} (h1 : ∀ e ∈ s1, sel e = false) (h2 : ∀ e ∈ s2, sel e = false) (he : sel e = true) :
    eraseSpec cnt sel (s1 ++ e :: s2) = s1 ++ (if cnt < e.2.2 then [(e.1, e.2.1, e.2.2 - cnt)] else []) ++ s2 := by
  have i1 := eraseSpec_none (cnt := cnt) h1
  have i2 := eraseSpec_none (cnt := cnt) h2
  simp only [eraseSpec] at i1 i2 ⊢
  rw [List.filterMap_append, i1, List.filterMap_cons, he]
  simp only [if_true]
  by_cases hc : cnt < e.2.2
  · simp [hc, i2]
  · simp [hc, i2]

theorem first_ne {M B : List (Entry V)} {m : Entry V} (hn : (0 :: (m :: M ++ B).map (·.1)).Nodup) : m.1 ≠ first B := by
  cases B with
  | nil =>
    simp only [first, List.head?_nil, Option.map_none, Option.getD_none]
    rintro e
    simp [e] at hn
  | cons b B =>
    simp only [first, List.head?_cons, Option.map_some, Option.getD_some]
    rintro e
    simp [e] at hn

theorem eraseSpec_cons {cnt : Int} (e : Entry V) (s : List (Entry V)) :
    eraseSpec cnt (fun _ => true) (e :: s) = (if cnt < e.2.2 then [(e.1, e.2.1, e.2.2 - cnt)] else []) ++ eraseSpec cnt (fun _ => true) s := by
  simp only [eraseSpec, List.filterMap_cons, if_true]
  by_cases h : cnt < e.2.2
  · simp [h]
  · simp [h]

theorem eraseRange_spec {dup : Dup} {fuel : Nat} {cnt : Int} : ∀ (M : List (Entry V)) (A B : List (Entry V)) (h : Heap V) (t : Tree V) (steps : Nat), Exact h t → t.seq = A ++ M ++ B →
    t.nodes + 1 < fuel → M.length ≤ steps → ∃ h' t', eraseRange dup fuel cnt steps h (first (M ++ B)) (first B) = some h' ∧ Exact h' t' ∧
      t'.seq = A ++ eraseSpec (copies dup cnt) (fun _ => true) M ++ B
  | [], A, B, h, t, steps, he, hs, _, _ => by
    refine ⟨h, t, ?_, he, by simpa [eraseSpec] using hs⟩
    rw [eraseRange.eq_def]
    simp only [List.nil_append, if_true]
  | m :: M, A, B, h, t, steps, he, hs, hf, hst => by
    obtain ⟨steps, rfl⟩ : ∃ k, steps = k + 1 := ⟨steps - 1, by simp at hst; omega⟩
    obtain ⟨p, v, c⟩ := m
    have hs' : t.seq = A ++ (p, v, c) :: (M ++ B) := by rw [hs]; simp
    have hn := he.rep.seq_nodup
    rw [hs', List.map_append] at hn
    have hne : p ≠ first B := by
      have : (0 :: ((p, v, c) :: M ++ B).map (·.1)).Nodup := by
        refine hn.sublist (List.Sublist.cons_cons _ ?_)
        exact List.sublist_append_right _ _
      exact first_ne this
    obtain ⟨h', q, t', e1, e2, e3⟩ := eraseNode_spec (dup := dup) he hs' cnt hf
    rw [← List.append_assoc] at e3
    have hlen : t'.nodes + 1 < fuel := by
      rw [nodes_seq, e3]
      rw [nodes_seq, hs] at hf
      have : (if copies dup cnt < c then [(p, v, c - copies dup cnt)] else []).length ≤ 1 := by split <;> simp
      simp only [List.length_append, List.length_cons] at hf ⊢
      omega
    obtain ⟨h'', t'', j1, j2, j3⟩ := eraseRange_spec M _ B h' t' steps e2 e3 hlen (by simp at hst; omega)
    refine ⟨h'', t'', ?_, j2, ?_⟩
    · rw [eraseRange.eq_def]
      simp only
      rw [show first ((p, v, c) :: M ++ B) = p from rfl, if_neg hne, inorderNext_spec he.rep hs' (by omega)]
      simp only [Option.bind_eq_bind, Option.bind_some]
      rw [e1]
      simp only [Option.bind_some]
      exact j1
    · rw [j3, eraseSpec_cons]
      simp

/-! ### What removal keeps -/

/-- `s'` arises from `s` by dropping elements and lowering counts. -/
structure Shrink (s s' : List (Entry V)) : Prop where
  sub : (s'.map (fun e => (e.1, e.2.1))).Sublist (s.map (fun e => (e.1, e.2.1)))
  cnt : (∀ e ∈ s, 1 ≤ e.2.2) → ∀ e' ∈ s', 1 ≤ e'.2.2 ∧ ∃ e ∈ s, e'.2.2 ≤ e.2.2

theorem Shrink.refl (s : List (Entry V)) : Shrink s s := ⟨List.Sublist.refl _, fun h e he => ⟨h e he, e, he, Int.le_refl _⟩⟩

theorem Shrink.append {s s' u u' : List (Entry V)} (h1 : Shrink s s') (h2 : Shrink u u') : Shrink (s ++ u) (s' ++ u') := by
  refine ⟨by simpa using h1.sub.append h2.sub, ?_⟩
  intro h e he
  rcases List.mem_append.mp he with he | he
  · obtain ⟨i, f, j, k⟩ := h1.cnt (fun e h' => h e (by simp [h'])) e he
    exact ⟨i, f, by simp [j], k⟩
  · obtain ⟨i, f, j, k⟩ := h2.cnt (fun e h' => h e (by simp [h'])) e he
    exact ⟨i, f, by simp [j], k⟩

theorem eraseSpec_shrink {cnt : Int} (h0 : 0 ≤ cnt) (sel : Entry V → Bool) : ∀ (s : List (Entry V)), Shrink s (eraseSpec cnt sel s)
  | [] => Shrink.refl []
  | e :: s => by
    have ih := eraseSpec_shrink h0 sel s
    have hc : eraseSpec cnt sel (e :: s) = (if sel e = true then if cnt < e.2.2 then [(e.1, e.2.1, e.2.2 - cnt)] else [] else [e]) ++ eraseSpec cnt sel s := by
      simp only [eraseSpec, List.filterMap_cons]
      by_cases h1 : sel e = true
      · by_cases h2 : cnt < e.2.2
        · simp [h1, h2]
        · simp [h1, h2]
      · simp [h1]
    rw [hc, show e :: s = [e] ++ s from rfl]
    refine Shrink.append ?_ ih
    by_cases h1 : sel e = true
    · rw [if_pos h1]
      by_cases h2 : cnt < e.2.2
      · rw [if_pos h2]
        refine ⟨by simp, ?_⟩
        intro _ e' he'
        rw [List.mem_singleton] at he'
        subst he'
        exact ⟨by simp only; omega, e, by simp, by simp only; omega⟩
      · rw [if_neg h2]
        exact ⟨by simp, by simp⟩
    · rw [if_neg h1]
      exact Shrink.refl _

theorem Good.shrink {dup : Dup} {key : V → K} {cmp : K → K → Bool} {s s' : List (Entry V)} (hg : Good dup key cmp s) (hs : Shrink s s') : Good dup key cmp s' := by
  refine ⟨?_, fun e he => (hs.cnt hg.pos e he).1, ?_⟩
  · have h1 : ∀ u : List (Entry V), Sorted dup key cmp u ↔ (u.map (fun e => (e.1, e.2.1))).Pairwise (fun e f : Nat × V => if dup = .store then cmp (key f.2) (key e.2) = false else cmp (key e.2) (key f.2) = true) := by
      intro u
      rw [List.pairwise_map]
      rfl
    rw [h1] at *
    exact ((h1 s).mp hg.sorted).sublist hs.sub
  · intro hd e he
    obtain ⟨i, f, j, k⟩ := hs.cnt hg.pos e he
    have := hg.one hd f j
    omega

theorem Good.insert {dup : Dup} {key : V → K} {cmp : K → K → Bool} (hw : StrictWeak cmp) {s : List (Entry V)} (hg : Good dup key cmp s) (fresh : Nat) (v : V) {cnt : Int} (hc : 1 ≤ cnt) :
    Good dup key cmp (insertSpec dup key cmp fresh v cnt s).1 := by
  by_cases hnew : dup = .store ∨ s.find? (eqv key cmp (key v)) = none
  · rw [insertSpec_new _ _ _ _ hnew]
    refine ⟨?_, ?_, ?_⟩
    · have hq : dup ≠ .store → ∀ e ∈ s, eqv key cmp (key v) e = false := by
        intro hd e he
        rcases hnew with h | h
        · exact absurd h hd
        · simpa using List.find?_eq_none.mp h e he
      refine List.pairwise_append.mpr ⟨hg.sorted.sublist List.filter_sublist, List.pairwise_cons.mpr ⟨?_, hg.sorted.sublist List.filter_sublist⟩, ?_⟩
      · intro e he
        have := (List.mem_filter.mp he).2
        by_cases hd : dup = .store
        · rw [if_pos hd]; exact hw.asymm this
        · rw [if_neg hd]; exact this
      · intro e he f hf
        have h1 := (List.mem_filter.mp he).2
        simp only [Bool.not_eq_true'] at h1
        rcases List.mem_cons.mp hf with rfl | hf
        · by_cases hd : dup = .store
          · rw [if_pos hd]; exact h1
          · rw [if_neg hd]
            have := hq hd e (List.mem_filter.mp he).1
            simp only [eqv, h1, Bool.not_false, Bool.and_eq_false_iff, Bool.not_eq_false'] at this
            simpa using this
        · have h2 := (List.mem_filter.mp hf).2
          have h3 := hw.lt_of_le_of_lt h1 h2
          by_cases hd : dup = .store
          · rw [if_pos hd]; exact hw.asymm h3
          · rw [if_neg hd]; exact h3
    · intro e he
      rcases List.mem_append.mp he with he | he
      · exact hg.pos e (List.mem_filter.mp he).1
      · rcases List.mem_cons.mp he with rfl | he
        · simp only; split <;> omega
        · exact hg.pos e (List.mem_filter.mp he).1
    · intro hd e he
      rcases List.mem_append.mp he with he | he
      · exact hg.one hd e (List.mem_filter.mp he).1
      · rcases List.mem_cons.mp he with rfl | he
        · simp only; rw [if_neg hd]
        · exact hg.one hd e (List.mem_filter.mp he).1
  · rw [not_or] at hnew
    obtain ⟨e, he⟩ := Option.ne_none_iff_exists'.mp hnew.2
    cases dup with
    | store => exact absurd rfl hnew.1
    | ignore => rw [insertSpec_ignore _ _ _ _ he]; exact hg
    | count =>
      rw [insertSpec_count _ _ _ _ he]
      refine ⟨?_, ?_, by simp⟩
      · rw [Sorted, List.pairwise_map]
        refine List.Pairwise.imp ?_ hg.sorted
        intro e f h
        have hk : ∀ e : Entry V, (if eqv key cmp (key v) e = true then (e.1, e.2.1, e.2.2 + cnt) else e).2.1 = e.2.1 := by intro e; split <;> rfl
        rw [hk, hk]
        exact h
      · intro f hf
        obtain ⟨g, hg', rfl⟩ := List.mem_map.mp hf
        have := hg.pos g hg'
        split
        · simp only; omega
        · exact this

/-! ### Histories -/

/-- The tree in the heap holds the elements `s`. -/
structure Holds (dup : Dup) (key : V → K) (cmp : K → K → Bool) (h : Heap V) (s : List (Entry V)) : Prop where
  ex : ∃ t, Exact h t ∧ t.seq = s
  good : Good dup key cmp s

theorem Holds.nodup {dup : Dup} {key : V → K} {cmp : K → K → Bool} {h : Heap V} {s : List (Entry V)} (hh : Holds dup key cmp h s) : (0 :: s.map (·.1)).Nodup := by
  obtain ⟨t, h1, rfl⟩ := hh.ex
  exact h1.rep.seq_nodup

theorem from_append (p : Nat) (s : List (Entry V)) : (from' p s).1 ++ (from' p s).2 = s := by
  exact List.takeWhile_append_dropWhile

theorem from_first {p : Nat} {s : List (Entry V)} (h0 : 0 ∉ s.map (·.1)) (h : p = 0 ∨ p ∈ s.map (·.1)) : first (from' p s).2 = p := by
  show first (s.dropWhile (fun e => e.1 != p)) = p
  induction s with
  | nil => simp at h; simp [first, h]
  | cons e s ih =>
    rw [List.dropWhile_cons]
    by_cases he : e.1 = p
    · rw [if_neg (by simp [he])]
      exact he
    · rw [if_pos (by simpa using he)]
      refine ih (fun hx => h0 (by simp only [List.map_cons, List.mem_cons]; exact Or.inr hx)) ?_
      rcases h with h | h
      · exact Or.inl h
      · simp only [List.map_cons, List.mem_cons] at h
        rcases h with h | h
        · exact absurd h.symm he
        · exact Or.inr h

theorem firstOf_mem {p : Entry V → Bool} {s : List (Entry V)} : (firstOf p s 0 = 0 ∧ ∀ e ∈ s, p e = false) ∨ ∃ s1 e s2, s = s1 ++ e :: s2 ∧ p e = true ∧ (∀ x ∈ s1, p x = false) ∧ firstOf p s 0 = e.1 := by
  induction s with
  | nil => left; simp [firstOf]
  | cons e s ih =>
    by_cases he : p e = true
    · right
      exact ⟨[], e, s, rfl, he, by simp, by simp [firstOf, he]⟩
    · have hh : firstOf p (e :: s) 0 = firstOf p s 0 := by simp [firstOf, he]
      rw [hh]
      rcases ih with ⟨h1, h2⟩ | ⟨s1, f, s2, h1, h2, h3, h4⟩
      · left
        refine ⟨h1, ?_⟩
        intro x hx
        rcases List.mem_cons.mp hx with rfl | hx
        · simpa using he
        · exact h2 x hx
      · right
        refine ⟨e :: s1, f, s2, by simp [h1], h2, ?_, h4⟩
        intro x hx
        rcases List.mem_cons.mp hx with rfl | hx
        · simpa using he
        · exact h3 x hx

theorem firstOf_filter {p : Entry V → Bool} {s : List (Entry V)} : firstOf p s 0 = first (s.filter p) := by
  induction s with
  | nil => rfl
  | cons e s ih =>
    by_cases he : p e = true
    · rw [List.filter_cons, if_pos he]; simp [firstOf, he, first]
    · rw [List.filter_cons, if_neg he, ← ih]; simp [firstOf, he]

/-- The queries that removal by key uses. -/
theorem lowerBound_spec {dup : Dup} {key : V → K} {cmp : K → K → Bool} (hw : StrictWeak cmp) {h : Heap V} {s : List (Entry V)} (hh : Holds dup key cmp h s) (x : K) {fuel : Nat} (hf : s.length < fuel) :
    lowerBound key cmp fuel h x = some (firstOf (fun e => !cmp (key e.2.1) x) s 0) := by
  obtain ⟨t, h1, rfl⟩ := hh.ex
  rw [lowerBound, rootPtr_spec h1.rep]
  exact lowerLoop_spec h1.rep.nil t 0 fuel 0 h1.rep.own (hh.good.sorted.mono_lower hw x) (by rw [nodes_seq]; exact hf)

theorem upperBound_spec {dup : Dup} {key : V → K} {cmp : K → K → Bool} (hw : StrictWeak cmp) {h : Heap V} {s : List (Entry V)} (hh : Holds dup key cmp h s) (x : K) {fuel : Nat} (hf : s.length < fuel) :
    upperBound key cmp fuel h x = some (firstOf (fun e => cmp x (key e.2.1)) s 0) := by
  obtain ⟨t, h1, rfl⟩ := hh.ex
  rw [upperBound, rootPtr_spec h1.rep]
  exact upperLoop_spec h1.rep.nil t 0 fuel 0 h1.rep.own (hh.good.sorted.mono_upper hw x) (by rw [nodes_seq]; exact hf)

theorem find_spec {dup : Dup} {key : V → K} {cmp : K → K → Bool} (hw : StrictWeak cmp) {h : Heap V} {s : List (Entry V)} (hh : Holds dup key cmp h s) (x : K) {fuel : Nat} (hf : s.length < fuel) :
    find dup key cmp fuel h x = some (firstOf (eqv key cmp x) s 0) := by
  obtain ⟨t, h1, rfl⟩ := hh.ex
  rw [find, rootPtr_spec h1.rep]
  exact findLoop_spec h1.rep.nil t 0 fuel 0 h1.rep.own (hh.good.sorted.mono_lower hw x) (hh.good.sorted.mono_upper hw x) (fun hd => hh.good.sorted.unique hw hd x)
    (by rw [nodes_seq]; exact hf)

/-- Sorted elements fall apart in those that are less, equivalent and greater. -/
theorem three_way {key : V → K} {cmp : K → K → Bool} (hw : StrictWeak cmp) (x : K) {dup : Dup} {s : List (Entry V)} (hs : Sorted dup key cmp s) :
    s = s.filter (fun e => cmp (key e.2.1) x) ++ s.filter (eqv key cmp x) ++ s.filter (fun e => cmp x (key e.2.1)) ∧
    s.filter (fun e => !cmp (key e.2.1) x) = s.filter (eqv key cmp x) ++ s.filter (fun e => cmp x (key e.2.1)) := by
  have h1 := filter_split (hs.mono_lower hw x)
  have h2 := filter_split (hs.mono_upper hw x)
  have h3 : (s.filter (fun e => !cmp (key e.2.1) x)).filter (fun e => !cmp x (key e.2.1)) = s.filter (eqv key cmp x) := by
    rw [List.filter_filter]
    congr 1
    funext e
    simp only [eqv]
    try rw [Bool.and_comm]
  have h4 : (s.filter (fun e => !cmp (key e.2.1) x)).filter (fun e => cmp x (key e.2.1)) = s.filter (fun e => cmp x (key e.2.1)) := by
    rw [List.filter_filter]
    refine List.filter_congr ?_
    intro e _
    cases hx : cmp x (key e.2.1) with
    | false => simp
    | true => simp [hw.asymm hx]
  have h5 : Sorted dup key cmp (s.filter (fun e => !cmp (key e.2.1) x)) := hs.sublist List.filter_sublist
  have h6 := filter_split (h5.mono_upper hw x)
  rw [h3, h4] at h6
  refine ⟨?_, h6.symm⟩
  rw [List.append_assoc, h6]
  have h7 : s.filter (fun e => !!cmp (key e.2.1) x) = s.filter (fun e => cmp (key e.2.1) x) := by simp
  rw [h7] at h1
  exact h1.symm

theorem first_nil_ne (p : Int) (s : List (Entry V)) (h0 : 0 ∉ s.map (·.1)) : eraseSpec p (fun e => e.1 == 0) s = s := by
  refine eraseSpec_none ?_
  intro e he
  rw [beq_eq_false_iff_ne]
  intro hx
  exact h0 (List.mem_map.mpr ⟨e, he, hx⟩)

theorem specStep_length {dup : Dup} {key : V → K} {cmp : K → K → Bool} (s : List (Entry V)) (op : Op V K) (hv : OpValid s op) : (specStep dup key cmp s op).length ≤ s.length + 1 := by
  have hE : ∀ c (sel : Entry V → Bool) (u : List (Entry V)), (eraseSpec c sel u).length ≤ u.length := fun c sel u => List.length_filterMap_le _ _
  cases op with
  | insert fresh bal v cnt =>
    rw [specStep]
    by_cases hnew : dup = .store ∨ s.find? (eqv key cmp (key v)) = none
    · rw [insertSpec_new _ _ _ _ hnew]
      have : ∀ (p : Entry V → Bool) (u : List (Entry V)), (u.filter (fun e => !p e)).length + (u.filter p).length = u.length := by
        intro p u
        induction u with
        | nil => rfl
        | cons e u ih => cases hp : p e <;> simp [hp] <;> omega
      rw [List.length_append, List.length_cons, ← Nat.add_assoc]
      exact Nat.le_of_eq (congrArg (· + 1) (this (fun e => cmp (key v) (key e.2.1)) s))
    · rw [not_or] at hnew
      obtain ⟨e, he⟩ := Option.ne_none_iff_exists'.mp hnew.2
      cases dup with
      | store => exact absurd rfl hnew.1
      | ignore => rw [insertSpec_ignore _ _ _ _ he]; simp
      | count => rw [insertSpec_count _ _ _ _ he]; simp
  | eraseKey x cnt => rw [specStep]; exact Nat.le_succ_of_le (hE _ _ _)
  | eraseIt p cnt => rw [specStep]; exact Nat.le_succ_of_le (hE _ _ _)
  | eraseRange b e cnt =>
    rw [specStep]
    have h1 := congrArg List.length (from_append b s)
    have h2 := congrArg List.length (from_append e (from' b s).2)
    have h3 := hE (if dup = .count then cnt else 1) (fun _ => true) (from' e (from' b s).2).1
    simp only [List.length_append] at h1 h2 ⊢
    omega

theorem step_spec {dup : Dup} {key : V → K} {cmp : K → K → Bool} (hw : StrictWeak cmp) {maxInt : Int} {h : Heap V} {s : List (Entry V)} (hh : Holds dup key cmp h s) {op : Op V K} (hv : OpValid s op)
    {fuel : Nat} (hf : s.length + 1 < fuel) : ∃ h', step dup key cmp maxInt fuel h op = some h' ∧ Holds dup key cmp h' (specStep dup key cmp s op) := by
  have hnd := hh.nodup
  obtain ⟨t, he, hs⟩ := hh.ex
  have hft : t.nodes + 1 < fuel := by rw [nodes_seq, hs]; exact hf
  have hc0 : ∀ cnt : Int, 0 ≤ cnt → 0 ≤ (if dup = .count then cnt else 1) := by intro cnt h; split <;> omega
  have h0 : 0 ∉ s.map (·.1) := (List.nodup_cons.mp hnd).1
  cases op with
  | insert fresh bal v cnt =>
    obtain ⟨v1, v2, v3⟩ := hv
    obtain ⟨h', t', e1, e2, e3, -⟩ := insert_spec hw he (by rw [hs]; exact hh.good) v1 (by rw [hs]; exact v2) bal v cnt hft
    refine ⟨h', by rw [step, e1]; rfl, ⟨t', e2, by rw [e3, hs]; rfl⟩, ?_⟩
    exact hh.good.insert hw fresh v v3
  | eraseKey x cnt =>
    have hgood : Good dup key cmp (specStep dup key cmp s (.eraseKey x cnt)) := hh.good.shrink (eraseSpec_shrink (hc0 cnt hv) _ _)
    rw [step, eraseKey]
    by_cases hd : dup = .store
    · rw [if_pos hd, lowerBound_spec hw hh x (by omega)]
      simp only [Option.bind_eq_bind, Option.bind_some]
      rw [upperBound_spec hw hh x (by omega)]
      simp only [Option.bind_some]
      rw [firstOf_filter, firstOf_filter]
      obtain ⟨w1, w2⟩ := three_way hw x hh.good.sorted
      rw [w2]
      have hlen : (s.filter (eqv key cmp x)).length ≤ s.length := List.length_filter_le _ _
      obtain ⟨h', t', e1, e2, e3⟩ := eraseRange_spec (dup := dup) (fuel := fuel) (cnt := maxInt) (s.filter (eqv key cmp x)) (s.filter (fun e => cmp (key e.2.1) x)) (s.filter (fun e => cmp x (key e.2.1)))
        h t fuel he (by rw [hs]; exact w1) hft (by omega)
      refine ⟨h', e1, ⟨t', e2, ?_⟩, hgood⟩
      rw [e3]
      have hone : eraseSpec (copies dup maxInt) (fun _ => true) (s.filter (eqv key cmp x)) = [] := by
        rw [eraseSpec, List.filterMap_eq_nil_iff]
        intro e hin
        have := hh.good.one (by simp [hd]) e (List.mem_filter.mp hin).1
        simp [copies, hd, this]
      rw [hone, List.append_nil, specStep, if_neg (by simp [hd])]
      have key1 : eraseSpec 1 (eqv key cmp x) s = eraseSpec 1 (eqv key cmp x) (s.filter (fun e => cmp (key e.2.1) x) ++ s.filter (eqv key cmp x) ++ s.filter (fun e => cmp x (key e.2.1))) := by rw [← w1]
      rw [key1]
      have hap : ∀ a b : List (Entry V), eraseSpec 1 (eqv key cmp x) (a ++ b) = eraseSpec 1 (eqv key cmp x) a ++ eraseSpec 1 (eqv key cmp x) b := by
        intro a b; rw [eraseSpec, List.filterMap_append]; rfl
      rw [hap, hap]
      rw [eraseSpec_none (s := s.filter (fun e => cmp (key e.2.1) x)), eraseSpec_none (s := s.filter (fun e => cmp x (key e.2.1)))]
      · have : eraseSpec 1 (eqv key cmp x) (s.filter (eqv key cmp x)) = [] := by
          rw [eraseSpec, List.filterMap_eq_nil_iff]
          intro e hin
          have h1 := hh.good.one (by simp [hd]) e (List.mem_filter.mp hin).1
          simp [(List.mem_filter.mp hin).2, h1]
        rw [this, List.append_nil]
      · intro e hin
        have := (List.mem_filter.mp hin).2
        simp [eqv, this]
      · intro e hin
        have := (List.mem_filter.mp hin).2
        simp [eqv, this]
    · rw [if_neg hd, find_spec hw hh x (by omega)]
      simp only [Option.bind_eq_bind, Option.bind_some]
      rcases firstOf_mem (p := eqv key cmp x) (s := s) with ⟨w1, w2⟩ | ⟨s1, e, s2, w1, w2, w3, w4⟩
      · rw [w1, eraseNode_nil he]
        refine ⟨h, rfl, ⟨t, he, ?_⟩, hgood⟩
        rw [hs, specStep, eraseSpec_none w2]
      · rw [w4]
        obtain ⟨a, v, c⟩ := e
        obtain ⟨h', q, t', e1, e2, e3⟩ := eraseNode_spec (dup := dup) he (s1 := s1) (s2 := s2) (by rw [hs, w1]) cnt hft
        rw [e1]
        refine ⟨h', rfl, ⟨t', e2, ?_⟩, hgood⟩
        have hu := hh.good.sorted.unique hw hd x
        rw [w1] at hu
        rw [e3, specStep, w1, eraseSpec_one w3 ?_ w2]
        · rfl
        · intro f hf'
          have := (List.pairwise_cons.mp (List.pairwise_append.mp hu).2.1).1 f hf'
          simpa [w2] using this
  | eraseIt p cnt =>
    have hgood : Good dup key cmp (specStep dup key cmp s (.eraseIt p cnt)) := hh.good.shrink (eraseSpec_shrink (hc0 cnt hv.2) _ _)
    rw [step]
    rcases hv.1 with rfl | hp
    · rw [eraseNode_nil he]
      refine ⟨h, rfl, ⟨t, he, ?_⟩, hgood⟩
      rw [hs, specStep, first_nil_ne _ _ h0]
    · obtain ⟨⟨a, v, c⟩, hin, rfl⟩ := List.mem_map.mp hp
      obtain ⟨s1, s2, w1⟩ := List.append_of_mem hin
      obtain ⟨h', q, t', e1, e2, e3⟩ := eraseNode_spec (dup := dup) he (s1 := s1) (s2 := s2) (by rw [hs, w1]) cnt hft
      simp only at e1 ⊢
      rw [e1]
      refine ⟨h', rfl, ⟨t', e2, ?_⟩, hgood⟩
      have hn := (List.nodup_cons.mp hnd).2
      rw [w1, List.map_append, List.map_cons] at hn
      have hn1 := List.nodup_append.mp hn
      rw [e3, specStep, w1, eraseSpec_one (e := (a, v, c)) ?_ ?_ (by simp)]
      · rfl
      · intro f hf'
        rw [beq_eq_false_iff_ne]
        exact hn1.2.2 f.1 (List.mem_map_of_mem hf') a (by simp)
      · intro f hf'
        rw [beq_eq_false_iff_ne]
        rintro hx
        exact (List.nodup_cons.mp hn1.2.1).1 (List.mem_map.mpr ⟨f, hf', hx⟩)
  | eraseRange b e cnt =>
    have hA := from_append b s
    have hB := from_append e (from' b s).2
    rw [step]
    have hb := from_first h0 hv.1
    have h0' : 0 ∉ (from' b s).2.map (·.1) := fun hx => h0 (by rw [← hA, List.map_append]; exact List.mem_append_right _ hx)
    have he' := from_first h0' hv.2.1
    obtain ⟨h', t', e1, e2, e3⟩ := eraseRange_spec (dup := dup) (fuel := fuel) (cnt := cnt) (from' e (from' b s).2).1 (from' b s).1 (from' e (from' b s).2).2 h t fuel he
      (by rw [hs, List.append_assoc, hB, hA]) hft (by
        have h1 := congrArg List.length hA
        have h2 := congrArg List.length hB
        simp only [List.length_append] at h1 h2
        omega)
    rw [hB, hb, he'] at e1
    refine ⟨h', e1, ⟨t', e2, by rw [e3]; rfl⟩, ?_⟩
    rw [specStep, List.append_assoc]
    refine hh.good.shrink ?_
    have := (Shrink.refl (from' b s).1).append ((eraseSpec_shrink (hc0 cnt hv.2.2) (fun _ => true) (from' e (from' b s).2).1).append (Shrink.refl (from' e (from' b s).2).2))
    rwa [hB, hA] at this

theorem init_holds (dup : Dup) (key : V → K) (cmp : K → K → Bool) : Holds dup key cmp (init : Heap V) [] := by
  refine ⟨⟨.nil, ⟨⟨rfl, trivial, by simp [Tree.ad]⟩, ?_⟩, rfl⟩, ⟨List.Pairwise.nil, by simp, by simp⟩⟩
  intro a ha _
  simp [init, ha]

theorem run_spec {dup : Dup} {key : V → K} {cmp : K → K → Bool} (hw : StrictWeak cmp) {maxInt : Int} {fuel : Nat} : ∀ (ops : List (Op V K)) {h : Heap V} {s : List (Entry V)}, Holds dup key cmp h s →
    ValidRun dup key cmp s ops → s.length + ops.length < fuel → ∃ h', run dup key cmp maxInt fuel h ops = some h' ∧ Holds dup key cmp h' (specRun dup key cmp s ops) ∧
      (specRun dup key cmp s ops).length ≤ s.length + ops.length
  | [], h, s, hh, _, _ => ⟨h, rfl, hh, by simp [specRun]⟩
  | op :: ops, h, s, hh, hv, hf => by
    simp only [List.length_cons] at hf ⊢
    have hlen := specStep_length (dup := dup) (key := key) (cmp := cmp) s op hv.1
    by_cases hf2 : s.length + 1 < fuel
    · obtain ⟨h1, e1, e2⟩ := step_spec hw (maxInt := maxInt) hh hv.1 hf2
      obtain ⟨h2, e3, e4, e5⟩ := run_spec hw (maxInt := maxInt) (fuel := fuel) ops (s := specStep dup key cmp s op) e2 hv.2 (by omega)
      refine ⟨h2, ?_, e4, by rw [specRun]; omega⟩
      rw [run, e1]
      exact e3
    · omega

/-! ### The theorems -/

/-- The history is executed without undefined behaviour. -/
theorem C24_run {dup : Dup} {key : V → K} {cmp : K → K → Bool} (hw : StrictWeak cmp) (maxInt : Int) {fuel : Nat} {ops : List (Op V K)} (hv : ValidRun dup key cmp [] ops) (hf : ops.length < fuel) :
    ∃ h, run dup key cmp maxInt fuel init ops = some h := by
  obtain ⟨h, e, -⟩ := run_spec hw (maxInt := maxInt) ops (init_holds dup key cmp) hv (by simpa using hf)
  exact ⟨h, e⟩

theorem run_holds {dup : Dup} {key : V → K} {cmp : K → K → Bool} (hw : StrictWeak cmp) {maxInt : Int} {fuel : Nat} {ops : List (Op V K)} (hv : ValidRun dup key cmp [] ops) (hf : ops.length < fuel)
    {h : Heap V} (hr : run dup key cmp maxInt fuel init ops = some h) : Holds dup key cmp h (specRun dup key cmp [] ops) ∧ (specRun dup key cmp [] ops).length < fuel := by
  obtain ⟨h', e, hh, hl⟩ := run_spec hw (maxInt := maxInt) ops (init_holds dup key cmp) hv (by simpa using hf)
  rw [hr] at e
  cases e
  exact ⟨hh, by simp at hl; omega⟩

theorem walk_spec {h : Heap V} {t : Tree V} (hx : Exact h t) {fuel : Nat} (hf : t.nodes ≤ fuel) : ∀ (s2 s1 : List (Entry V)) (steps : Nat), t.seq = s1 ++ s2 → s2.length ≤ steps →
    walk h fuel steps (first s2) = some s2
  | [], s1, steps, _, _ => by cases steps <;> simp [walk, first]
  | (p, v, c) :: s2, s1, steps, hs, hst => by
    obtain ⟨steps, rfl⟩ : ∃ k, steps = k + 1 := ⟨steps - 1, by simp at hst; omega⟩
    have hnx := inorderNext_spec hx.rep hs hf
    have ih := walk_spec hx hf s2 (s1 ++ [(p, v, c)]) steps (by simp [hs]) (by simp at hst; omega)
    obtain ⟨C, b, l, r, rfl, rfl, rfl⟩ := hx.rep.split hs
    obtain ⟨h1, h2, h3, h4, h5, h6, h7⟩ := hx.rep.node
    have hcnt := count_node hx
    rw [show first ((p, v, c) :: (r.seq ++ suf C)) = p from rfl, walk, if_neg h2, h3]
    simp only [Option.bind_eq_bind, Option.bind_some]
    rw [hcnt]
    simp only [Option.bind_some]
    rw [hnx]
    simp only [Option.bind_some]
    rw [ih]
    rfl

theorem Holds.iterate {dup : Dup} {key : V → K} {cmp : K → K → Bool} (_hw : StrictWeak cmp) {h : Heap V} {s : List (Entry V)} (hh : Holds dup key cmp h s) {fuel : Nat} (hl : s.length < fuel) : (do let b ← inorderNext h fuel 0; walk h fuel fuel b) = some s := by
  obtain ⟨t, he, hs⟩ := hh.ex
  have hn : t.nodes < fuel := by rw [nodes_seq, hs]; exact hl
  rw [inorderNext_nil he.rep hn, ← hs]
  exact walk_spec he (by omega) t.seq [] fuel rfl (by rw [hs]; omega)

/-- `for (auto it = begin(); it != end(); ++it)` yields the elements in order, with their iterators and counts. -/
theorem C24_iterate {dup : Dup} {key : V → K} {cmp : K → K → Bool} (hw : StrictWeak cmp) {maxInt : Int} {fuel : Nat} {ops : List (Op V K)} (hv : ValidRun dup key cmp [] ops) (hf : ops.length < fuel)
    {h : Heap V} (hr : run dup key cmp maxInt fuel init ops = some h) : (do let b ← inorderNext h fuel 0; walk h fuel fuel b) = some (specRun dup key cmp [] ops) := by
  obtain ⟨hh, hl⟩ := run_holds hw hv hf hr
  exact Holds.iterate hw hh hl

theorem Holds.step_iterator {dup : Dup} {key : V → K} {cmp : K → K → Bool} (_hw : StrictWeak cmp) {h : Heap V} {s : List (Entry V)} (hh : Holds dup key cmp h s) {fuel : Nat} (hl : s.length < fuel) :
    (∀ s1 e s2, s = s1 ++ e :: s2 → inorderNext h fuel e.1 = some (first s2) ∧ inorderPrev h fuel e.1 = some (last s1)) ∧
    inorderNext h fuel 0 = some (first s) ∧ inorderPrev h fuel 0 = some (last s) := by
  obtain ⟨t, he, hs⟩ := hh.ex
  have hn : t.nodes < fuel := by rw [nodes_seq, hs]; exact hl
  rw [← hs]
  refine ⟨?_, inorderNext_nil he.rep hn, inorderPrev_nil he.rep hn⟩
  rintro s1 ⟨a, v, c⟩ s2 h1
  exact ⟨inorderNext_spec he.rep h1 (by omega), inorderPrev_spec he.rep h1 (by omega)⟩

/-- `++it` and `--it`, also from and to the end. -/
theorem C24_step_iterator {dup : Dup} {key : V → K} {cmp : K → K → Bool} (hw : StrictWeak cmp) {maxInt : Int} {fuel : Nat} {ops : List (Op V K)} (hv : ValidRun dup key cmp [] ops) (hf : ops.length < fuel)
    {h : Heap V} (hr : run dup key cmp maxInt fuel init ops = some h) :
    (∀ s1 e s2, specRun dup key cmp [] ops = s1 ++ e :: s2 → inorderNext h fuel e.1 = some (first s2) ∧ inorderPrev h fuel e.1 = some (last s1)) ∧
    inorderNext h fuel 0 = some (first (specRun dup key cmp [] ops)) ∧ inorderPrev h fuel 0 = some (last (specRun dup key cmp [] ops)) := by
  obtain ⟨hh, hl⟩ := run_holds hw hv hf hr
  exact Holds.step_iterator hw hh hl

/-- The elements are in order, no element is there zero times, and the duplicate mode is respected. -/
theorem C24_sorted {dup : Dup} {key : V → K} {cmp : K → K → Bool} (hw : StrictWeak cmp) {ops : List (Op V K)} (hv : ValidRun dup key cmp [] ops) :
    (specRun dup key cmp [] ops).Pairwise (fun e f => if dup = .store then cmp (key f.2.1) (key e.2.1) = false else cmp (key e.2.1) (key f.2.1) = true) ∧
    (∀ e ∈ specRun dup key cmp [] ops, 1 ≤ e.2.2) ∧ (dup ≠ .count → ∀ e ∈ specRun dup key cmp [] ops, e.2.2 = 1) ∧
    ((specRun dup key cmp [] ops).map (·.1)).Nodup := by
  obtain ⟨h, e, hh, -⟩ := run_spec hw (maxInt := 0) (fuel := ops.length + 1) ops (init_holds dup key cmp) hv (by simp)
  exact ⟨hh.good.sorted, hh.good.pos, hh.good.one, (List.nodup_cons.mp hh.nodup).2⟩

theorem Holds.sizes {dup : Dup} {key : V → K} {cmp : K → K → Bool} (_hw : StrictWeak cmp) {h : Heap V} {s : List (Entry V)} (hh : Holds dup key cmp h s) {fuel : Nat} (hl : s.length < fuel) :
    size h = some (s.map (·.2.2)).sum ∧ empty h = some s.isEmpty := by
  obtain ⟨t, he, hs⟩ := hh.ex
  have h1 : sizeOf' h t.root = some (total t.seq) := by rw [(he.rep.own.isNil he.rep.nil).2, size_total]
  rw [size, empty, rootPtr_spec he.rep]
  simp only [Option.bind_eq_bind, Option.bind_some]
  rw [h1, hs]
  refine ⟨rfl, ?_⟩
  simp only [Option.bind_some]
  congr 1
  have hp := hh.good.pos
  cases s with
  | nil => rfl
  | cons e s =>
    have := hp e (by simp)
    have h2 := total_nonneg (s := s) (fun f hf => by have := hp f (by simp [hf]); omega)
    rw [total_cons]
    simp only [List.isEmpty_cons, beq_eq_false_iff_ne]
    omega

/-- `size` and `empty`. -/
theorem C24_size {dup : Dup} {key : V → K} {cmp : K → K → Bool} (hw : StrictWeak cmp) {maxInt : Int} {fuel : Nat} {ops : List (Op V K)} (hv : ValidRun dup key cmp [] ops) (hf : ops.length < fuel)
    {h : Heap V} (hr : run dup key cmp maxInt fuel init ops = some h) :
    size h = some ((specRun dup key cmp [] ops).map (·.2.2)).sum ∧ empty h = some (specRun dup key cmp [] ops).isEmpty := by
  obtain ⟨hh, hl⟩ := run_holds hw hv hf hr
  exact Holds.sizes hw hh hl

theorem Holds.finds {dup : Dup} {key : V → K} {cmp : K → K → Bool} (hw : StrictWeak cmp) {h : Heap V} {s : List (Entry V)} (hh : Holds dup key cmp h s) {fuel : Nat} (hl : s.length < fuel) (x : K) :
    find dup key cmp fuel h x = some (first (s.filter (fun e => !cmp (key e.2.1) x && !cmp x (key e.2.1)))) ∧
    lowerBound key cmp fuel h x = some (first (s.filter (fun e => !cmp (key e.2.1) x))) ∧
    upperBound key cmp fuel h x = some (first (s.filter (fun e => cmp x (key e.2.1)))) := by
  refine ⟨?_, ?_, ?_⟩
  · rw [find_spec hw hh x hl, firstOf_filter]; rfl
  · rw [lowerBound_spec hw hh x hl, firstOf_filter]
  · rw [upperBound_spec hw hh x hl, firstOf_filter]

/-- `find`, `lower_bound` and `upper_bound` give the first element that is equivalent to, not less than, greater
than the key, or the end. -/
theorem C24_find {dup : Dup} {key : V → K} {cmp : K → K → Bool} (hw : StrictWeak cmp) {maxInt : Int} {fuel : Nat} {ops : List (Op V K)} (hv : ValidRun dup key cmp [] ops) (hf : ops.length < fuel)
    {h : Heap V} (hr : run dup key cmp maxInt fuel init ops = some h) (x : K) :
    find dup key cmp fuel h x = some (first ((specRun dup key cmp [] ops).filter (fun e => !cmp (key e.2.1) x && !cmp x (key e.2.1)))) ∧
    lowerBound key cmp fuel h x = some (first ((specRun dup key cmp [] ops).filter (fun e => !cmp (key e.2.1) x))) ∧
    upperBound key cmp fuel h x = some (first ((specRun dup key cmp [] ops).filter (fun e => cmp x (key e.2.1)))) := by
  obtain ⟨hh, hl⟩ := run_holds hw hv hf hr
  exact Holds.finds hw hh hl x

theorem Holds.counts {dup : Dup} {key : V → K} {cmp : K → K → Bool} (hw : StrictWeak cmp) {h : Heap V} {s : List (Entry V)} (hh : Holds dup key cmp h s) {fuel : Nat} (hl : s.length < fuel) (x : K) :
    countLess key cmp fuel h x = some ((s.filter (fun e => cmp (key e.2.1) x)).map (·.2.2)).sum ∧
    countLessOrEqual key cmp fuel h x = some ((s.filter (fun e => !cmp x (key e.2.1))).map (·.2.2)).sum ∧
    countKey dup key cmp fuel h x = some ((s.filter (fun e => !cmp (key e.2.1) x && !cmp x (key e.2.1))).map (·.2.2)).sum := by
  have hfind := find_spec hw hh x hl
  have hgood := hh.good
  obtain ⟨t, he, hs⟩ := hh.ex
  have hn : t.nodes < fuel := by rw [nodes_seq, hs]; exact hl
  subst hs
  have hlt : countLess key cmp fuel h x = some (total (t.seq.filter (fun e => cmp (key e.2.1) x))) := by
    rw [countLess, rootPtr_spec he.rep]
    simp only [Option.bind_eq_bind, Option.bind_some]
    rw [countLT_spec he.rep.nil t 0 fuel 0 he.rep.own (hgood.sorted.mono_lower hw x) hn, Int.zero_add]
  have hle : countLessOrEqual key cmp fuel h x = some (total (t.seq.filter (fun e => !cmp x (key e.2.1)))) := by
    rw [countLessOrEqual, rootPtr_spec he.rep]
    simp only [Option.bind_eq_bind, Option.bind_some]
    rw [countLE_spec he.rep.nil t 0 fuel 0 he.rep.own (hgood.sorted.mono_upper hw x) hn, Int.zero_add]
  refine ⟨hlt, hle, ?_⟩
  show _ = some (total (t.seq.filter (eqv key cmp x)))
  rw [countKey]
  by_cases hd : dup = .store
  · rw [if_pos hd, hle, hlt]
    simp only [Option.bind_eq_bind, Option.bind_some]
    obtain ⟨w1, w2⟩ := three_way hw x hgood.sorted
    have h2 := filter_split (hgood.sorted.mono_upper hw x)
    have h3 : t.seq.filter (fun e => !cmp x (key e.2.1)) ++ t.seq.filter (fun e => cmp x (key e.2.1)) =
        t.seq.filter (fun e => cmp (key e.2.1) x) ++ t.seq.filter (eqv key cmp x) ++ t.seq.filter (fun e => cmp x (key e.2.1)) := h2.trans w1
    have h4 := List.append_cancel_right h3
    rw [h4, total_append]
    congr 1
    omega
  · rw [if_neg hd, hfind]
    simp only [Option.bind_eq_bind, Option.bind_some]
    rcases firstOf_mem (p := eqv key cmp x) (s := t.seq) with ⟨w1, w2⟩ | ⟨s1, e, s2, w1, w2, w3, w4⟩
    · have : t.seq.filter (eqv key cmp x) = [] := by
        rw [List.filter_eq_nil_iff]; intro e he'; rw [w2 e he']; simp
      rw [w1, this, count, he.rep.nil]
      rfl
    · have hu := hgood.sorted.unique hw hd x
      rw [w1] at hu
      have h2 : ∀ f ∈ s2, eqv key cmp x f = false := by
        intro f hf'
        have := (List.pairwise_cons.mp (List.pairwise_append.mp hu).2.1).1 f hf'
        simpa [w2] using this
      have : t.seq.filter (eqv key cmp x) = [e] := by
        rw [w1, List.filter_append, List.filter_cons, if_pos w2]
        rw [List.filter_eq_nil_iff.mpr (fun f hf => by rw [w3 f hf]; simp), List.filter_eq_nil_iff.mpr (fun f hf => by rw [h2 f hf]; simp)]
        rfl
      rw [w4, this]
      obtain ⟨a, v, c⟩ := e
      obtain ⟨C, b, l, r, e1, -, -⟩ := he.rep.split w1
      rw [e1] at he
      rw [count_node he]
      simp [total]

/-- `count_less`, `count_less_or_equal` and `count`. -/
theorem C24_count {dup : Dup} {key : V → K} {cmp : K → K → Bool} (hw : StrictWeak cmp) {maxInt : Int} {fuel : Nat} {ops : List (Op V K)} (hv : ValidRun dup key cmp [] ops) (hf : ops.length < fuel)
    {h : Heap V} (hr : run dup key cmp maxInt fuel init ops = some h) (x : K) :
    countLess key cmp fuel h x = some (((specRun dup key cmp [] ops).filter (fun e => cmp (key e.2.1) x)).map (·.2.2)).sum ∧
    countLessOrEqual key cmp fuel h x = some (((specRun dup key cmp [] ops).filter (fun e => !cmp x (key e.2.1))).map (·.2.2)).sum ∧
    countKey dup key cmp fuel h x = some (((specRun dup key cmp [] ops).filter (fun e => !cmp (key e.2.1) x && !cmp x (key e.2.1))).map (·.2.2)).sum := by
  obtain ⟨hh, hl⟩ := run_holds hw hv hf hr
  exact Holds.counts hw hh hl x

theorem Holds.kths {dup : Dup} {key : V → K} {cmp : K → K → Bool} (_hw : StrictWeak cmp) {h : Heap V} {s : List (Entry V)} (hh : Holds dup key cmp h s) {fuel : Nat} (hl : s.length < fuel) :
    (∀ s1 e s2, s = s1 ++ e :: s2 → (inorderPos h fuel e.1).map (·.1) = some (s1.map (·.2.2)).sum ∧
      ∀ k, (s1.map (·.2.2)).sum ≤ k → k < (s1.map (·.2.2)).sum + e.2.2 → findKth fuel h k = some e.1) ∧
    (∀ k, k < 0 ∨ (s.map (·.2.2)).sum ≤ k → findKth fuel h k = some 0) := by
  have hgood := hh.good
  obtain ⟨t, he, hs⟩ := hh.ex
  have hn : t.nodes < fuel := by rw [nodes_seq, hs]; exact hl
  subst hs
  have hpos : ∀ e ∈ t.seq, 0 ≤ e.2.2 := fun e he => by have := hgood.pos e he; omega
  have hk : ∀ k, findKth fuel h k = some (kth t.seq k) := by
    intro k
    rw [findKth, rootPtr_spec he.rep]
    exact inorderKth_spec he.rep.nil t 0 fuel k he.rep.own hpos hn
  refine ⟨?_, ?_⟩
  · rintro s1 ⟨a, v, c⟩ s2 h1
    refine ⟨by rw [inorderPos_spec he.rep h1 hn]; rfl, ?_⟩
    intro k hk1 hk2
    change total s1 ≤ k at hk1
    change k < total s1 + c at hk2
    have hp1 : ∀ e ∈ s1, 0 ≤ e.2.2 := fun e he => hpos e (by rw [h1]; simp [he])
    have h0 := total_nonneg hp1
    rw [hk, kth, if_neg (by omega), h1, kthFrom_append _ _ _ hp1 (by omega), if_neg (by omega), kthFrom, if_pos (by simp only; omega)]
  · intro k hk'
    rw [hk, kth]
    by_cases hk0 : k < 0
    · rw [if_pos hk0]
    · rw [if_neg hk0]
      change k < 0 ∨ total t.seq ≤ k at hk'
      have := kthFrom_append [] t.seq k hpos (by omega)
      rw [List.append_nil, if_neg (by omega)] at this
      rw [this, kthFrom]

/-- `find_kth` and the position of an iterator.  Positions count every copy. -/
theorem C24_kth {dup : Dup} {key : V → K} {cmp : K → K → Bool} (hw : StrictWeak cmp) {maxInt : Int} {fuel : Nat} {ops : List (Op V K)} (hv : ValidRun dup key cmp [] ops) (hf : ops.length < fuel)
    {h : Heap V} (hr : run dup key cmp maxInt fuel init ops = some h) :
    (∀ s1 e s2, specRun dup key cmp [] ops = s1 ++ e :: s2 → (inorderPos h fuel e.1).map (·.1) = some (s1.map (·.2.2)).sum ∧
      ∀ k, (s1.map (·.2.2)).sum ≤ k → k < (s1.map (·.2.2)).sum + e.2.2 → findKth fuel h k = some e.1) ∧
    (∀ k, k < 0 ∨ ((specRun dup key cmp [] ops).map (·.2.2)).sum ≤ k → findKth fuel h k = some 0) := by
  obtain ⟨hh, hl⟩ := run_holds hw hv hf hr
  exact Holds.kths hw hh hl

/-- The iterator that `insert` returns. -/
theorem C24_insert_result {dup : Dup} {key : V → K} {cmp : K → K → Bool} (hw : StrictWeak cmp) {maxInt : Int} {fuel : Nat} {ops : List (Op V K)} (hv : ValidRun dup key cmp [] ops) (hf : ops.length + 1 < fuel)
    {h : Heap V} (hr : run dup key cmp maxInt fuel init ops = some h) {fresh : Nat} (h0 : fresh ≠ 0) (hfr : fresh ∉ (specRun dup key cmp [] ops).map (·.1)) (bal : Int) (v : V) (cnt : Int) :
    ∃ h', insert dup key cmp fuel h fresh bal v cnt = some (h',
      if dup = .store then fresh else (((specRun dup key cmp [] ops).find? (fun e => !cmp (key e.2.1) (key v) && !cmp (key v) (key e.2.1))).map (·.1)).getD fresh) := by
  obtain ⟨h', e, hh, hl⟩ := run_spec hw (maxInt := maxInt) (fuel := fuel) ops (init_holds dup key cmp) hv (by simp; omega)
  rw [hr] at e
  cases e
  have hgood := hh.good
  obtain ⟨t, he, hs⟩ := hh.ex
  obtain ⟨h', t', e1, -, -, -⟩ := insert_spec hw he (by rw [hs]; exact hgood) h0 (by rw [hs]; exact hfr) bal v cnt (fuel := fuel) (by rw [nodes_seq, hs]; simp at hl; omega)
  refine ⟨h', ?_⟩
  rw [e1, hs]
  generalize specRun dup key cmp [] ops = s at *
  congr 2
  show _ = if dup = .store then fresh else ((s.find? (eqv key cmp (key v))).map (·.1)).getD fresh
  by_cases hnew : dup = .store ∨ s.find? (eqv key cmp (key v)) = none
  · rw [insertSpec_new _ _ _ _ hnew]
    by_cases hd : dup = .store
    · rw [if_pos hd]
    · rw [if_neg hd, hnew.resolve_left hd]; rfl
  · rw [not_or] at hnew
    obtain ⟨e, he⟩ := Option.ne_none_iff_exists'.mp hnew.2
    rw [if_neg hnew.1]
    cases dup with
    | store => exact absurd rfl hnew.1
    | ignore => rw [insertSpec_ignore _ _ _ _ he, he]; rfl
    | count => rw [insertSpec_count _ _ _ _ he, he]; rfl

/-! ### The hypotheses are met -/

instance decOpValid (s : List (Entry V)) : (op : Op V K) → Decidable (OpValid s op)
  | .insert fresh _ _ cnt => inferInstanceAs (Decidable (fresh ≠ 0 ∧ fresh ∉ s.map (·.1) ∧ 1 ≤ cnt))
  | .eraseKey _ cnt => inferInstanceAs (Decidable (0 ≤ cnt))
  | .eraseIt p cnt => inferInstanceAs (Decidable ((p = 0 ∨ p ∈ s.map (·.1)) ∧ 0 ≤ cnt))
  | .eraseRange b e cnt => inferInstanceAs (Decidable ((b = 0 ∨ b ∈ s.map (·.1)) ∧ (e = 0 ∨ e ∈ (from' b s).2.map (·.1)) ∧ 0 ≤ cnt))

instance decValidRun (dup : Dup) (key : V → K) (cmp : K → K → Bool) : (s : List (Entry V)) → (ops : List (Op V K)) → Decidable (ValidRun dup key cmp s ops)
  | _, [] => isTrue trivial
  | s, op :: ops => @instDecidableAnd _ _ (decOpValid s op) (decValidRun dup key cmp (specStep dup key cmp s op) ops)

/-- `std::less<int>`. -/
def less (x y : Int) : Bool := decide (x < y)

theorem less_strictWeak : StrictWeak less := by
  refine ⟨?_, ?_, ?_⟩
  · intro x; simp [less]
  · intro x y z; simp only [less, decide_eq_true_eq]; omega
  · intro x y z; simp only [less, decide_eq_false_iff_not]; omega

/-- A history with an insertion of an equivalent element and removals of a leaf, of a node with two children, by
iterator and of a range. -/
def sample : List (Op Int Int) :=
  [.insert 1 0 50 1, .insert 2 0 30 2, .insert 3 0 70 1, .insert 4 0 60 3, .insert 5 0 80 1, .insert 6 0 30 4, .insert 7 0 40 1, .eraseKey 50 1, .eraseIt 4 2, .eraseRange 3 5 1]

example : ValidRun .store id less [] sample := by decide +kernel
example : ValidRun .count id less [] sample := by decide +kernel
example : ValidRun .ignore id less [] sample := by decide +kernel

example : specRun .store id less [] sample = [(2, 30, 1), (6, 30, 1), (7, 40, 1), (5, 80, 1)] := by decide +kernel
example : specRun .count id less [] sample = [(2, 30, 6), (7, 40, 1), (4, 60, 1), (5, 80, 1)] := by decide +kernel
example : specRun .ignore id less [] sample = [(2, 30, 1), (7, 40, 1), (5, 80, 1)] := by decide +kernel

example : (run .count id less 2147483647 11 init sample).bind (fun h => (inorderNext h 11 0).bind (walk h 11 11)) = some [(2, 30, 6), (7, 40, 1), (4, 60, 1), (5, 80, 1)] := by decide +kernel
example : (run .count id less 2147483647 11 init sample).bind (fun h => findKth 11 h 7) = some 4 := by decide +kernel
example : (run .store id less 2147483647 11 init sample).bind (fun h => countKey .store id less 11 h 30) = some 2 := by decide +kernel

/-- `erase` does not return the next element: removing the least of 3 elements in ascending order gives the end, not
the element that follows. -/
theorem C24_erase_returns_parent : (run .ignore id less 2147483647 11 init [.insert 1 0 10 1, .insert 2 0 20 1, .insert 3 0 30 1]).bind
    (fun h => (eraseNode .ignore 11 h 1 1).map (·.2)) = some 0 := by decide +kernel

/-- A negative count adds copies in the counting mode. -/
theorem C24_erase_negative : (run .count id less 2147483647 11 init [.insert 1 0 10 1, .eraseKey 10 (-4)]).bind (fun h => size h) = some 5 := by decide +kernel

end Altruct.BST
