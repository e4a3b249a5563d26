/-
C47: the link-cut tree answers queries about the forest.
-/
import Verif.LinkCut.Access
import Mathlib.Data.List.GetD

namespace Altruct.LinkCut

variable {T M : Type}

/-! ### The forest -/

/-- A rooted forest on the nodes `1, ..., n`; the parent of a root is 0. -/
structure Forest (M : Type) where
  n : Nat
  par : Nat → Nat
  own : Nat → M

/-- The last `k` nodes on the way from the root to `x`. -/
def path (P : Nat → Nat) : Nat → Nat → List Nat
  | 0, _ => []
  | k + 1, x => if x = 0 then [] else path P k (P x) ++ [x]

/-- The nodes from the root to `x`. -/
def Forest.rootPath (f : Forest M) (x : Nat) : List Nat := path f.par f.n x

/-- `x` is a node. -/
def Forest.In (f : Forest M) (x : Nat) : Prop := 1 ≤ x ∧ x ≤ f.n

/-- The product of the values of a list of nodes. -/
def prodOf (mul : M → M → M) (one : M) (o : Nat → M) (s : List Nat) : M := s.foldr (fun y m => mul (o y) m) one

/-- The operations. `level x d` is `traverse(x, f)` with `f` that returns `d - depth`, and `put x v` is `get(x) = v`. -/
inductive Op (T : Type) where
  | add (v : T)
  | link (x p : Nat)
  | cut (x : Nat)
  | put (x : Nat) (v : T)
  | findRoot (x : Nat)
  | findParent (x : Nat)
  | findLca (x y : Nat)
  | depth (x : Nat)
  | get (x : Nat)
  | level (x : Nat) (d : Int)

/-- The answer of an operation: nothing, a node, a number or an aggregated value. -/
inductive Ans (M : Type) where
  | unit
  | node (x : Nat)
  | num (d : Int)
  | val (m : M)
  deriving DecidableEq

/-- The forest after an operation. -/
def specStep (own : T → M) (f : Forest M) : Op T → Forest M
  | .add v => ⟨f.n + 1, fun x => if x = f.n + 1 then 0 else f.par x, fun x => if x = f.n + 1 then own v else f.own x⟩
  | .link x p => { f with par := fun y => if y = x then p else f.par y }
  | .cut x => { f with par := fun y => if y = x then 0 else f.par y }
  | .put x v => { f with own := fun y => if y = x then own v else f.own y }
  | _ => f

/-- The answer to an operation. -/
def specAns (mul : M → M → M) (one : M) (f : Forest M) : Op T → Ans M
  | .add _ => .node (f.n + 1)
  | .findRoot x => .node ((f.rootPath x).head?.getD 0)
  | .findParent x => .node (f.par x)
  | .findLca x y => .node (((f.rootPath x).filter (fun z => decide (z ∈ f.rootPath y))).getLast?.getD 0)
  | .depth x => .num ((f.rootPath x).length - 1)
  | .get x => .val (prodOf mul one f.own (f.rootPath x))
  | .level x d => .node (if 0 ≤ d then (f.rootPath x).getD d.toNat 0 else 0)
  | _ => .unit

/-- The arguments are nodes; a root is linked to a node of another tree. -/
def OpValid (f : Forest M) : Op T → Prop
  | .add _ => True
  | .link x p => f.In x ∧ f.In p ∧ f.par x = 0 ∧ x ∉ f.rootPath p
  | .cut x => f.In x
  | .put x _ => f.In x
  | .findRoot x => f.In x
  | .findParent x => f.In x
  | .findLca x y => f.In x ∧ f.In y
  | .depth x => f.In x
  | .get x => f.In x
  | .level x _ => f.In x

/-- The forest and the answers of a history. -/
def specRun (own : T → M) (mul : M → M → M) (one : M) : Forest M → List (Op T) → Forest M × List (Ans M)
  | f, [] => (f, [])
  | f, op :: ops =>
    let r := specRun own mul one (specStep own f op) ops
    (r.1, specAns mul one f op :: r.2)

/-- All operations of a history are valid. -/
def ValidRun (own : T → M) : Forest M → List (Op T) → Prop
  | _, [] => True
  | f, op :: ops => OpValid f op ∧ ValidRun own (specStep own f op) ops

/-- The forest without nodes. -/
def Forest.empty (one : M) : Forest M := ⟨0, fun _ => 0, fun _ => one⟩

/-! ### The program -/

/-- An operation of the link-cut tree. -/
def step (agg : T → M) (fup : T → T → T → T) (fuel : Nat) (s : St T) : Op T → Option (St T × Ans M)
  | .add v => some ((add s v).1, .node (add s v).2)
  | .link x p => do let h ← link fup fuel s.mem x p; some ({ s with mem := h }, .unit)
  | .cut x => do let h ← cut fup fuel s.mem x; some ({ s with mem := h }, .unit)
  | .put x v => do let h ← put fup fuel s.mem x v; some ({ s with mem := h }, .unit)
  | .findRoot x => do let (h, y) ← findRoot fup fuel s.mem x; some ({ s with mem := h }, .node y)
  | .findParent x => do let (h, y) ← findParent fup fuel s.mem x; some ({ s with mem := h }, .node y)
  | .findLca x y => do let (h, z) ← findLca fup fuel s.mem x y; some ({ s with mem := h }, .node z)
  | .depth x => do let (h, d) ← depth fup fuel s.mem x; some ({ s with mem := h }, .num d)
  | .get x => do let (h, v) ← get fup fuel s.mem x; some ({ s with mem := h }, .val (agg v))
  | .level x d => do let (h, y) ← traverse fup fuel s.mem x (fun _ _ _ i => d - i); some ({ s with mem := h }, .node y)

/-- A history of the link-cut tree. -/
def run (agg : T → M) (fup : T → T → T → T) (fuel : Nat) : St T → List (Op T) → Option (St T × List (Ans M))
  | s, [] => some (s, [])
  | s, op :: ops => do
    let (s, a) ← step agg fup fuel s op
    let (s, as) ← run agg fup fuel s ops
    some (s, a :: as)

/-! ### Proofs -/

section
variable {own agg : T → M} {fup : T → T → T → T} {id : T} {mul : M → M → M} {one : M}

/-- The memory represents the forest. -/
structure Holds (own agg : T → M) (id : T) (mul : M → M → M) (one : M) (s : St T) (f : Forest M) : Prop where
  cnt : s.cnt = f.n + 1
  wf : WF f.n f.par
  inv : ∃ F, Inv own agg id mul one f.n f.par f.own s.mem F

theorem path_eq {P : Nat → Nat} {x : Nat} : ∀ {s : List Nat} {k : Nat}, Chain P 0 (s ++ [x]) → (∀ y ∈ s ++ [x], y ≠ 0) → s.length + 1 ≤ k → path P k x = s ++ [x] := by
  intro s
  induction s using List.reverseRecOn generalizing x with
  | nil =>
    intro k h hz hk
    obtain ⟨k, rfl⟩ : ∃ j, k = j + 1 := ⟨k - 1, by simp at hk; omega⟩
    rw [path, if_neg (hz x (by simp)), h.1]
    cases k with
    | zero => rfl
    | succ k => rw [path, if_pos rfl]
  | append_singleton s z ih =>
    intro k h hz hk
    rw [List.append_assoc] at h
    obtain ⟨h1, h2⟩ := chain_append.mp h
    obtain ⟨k, rfl⟩ : ∃ j, k = j + 1 := ⟨k - 1, by simp at hk; omega⟩
    rw [path, if_neg (hz x (by simp)), h2.1, ih h1 (fun y hy => hz y (by simp at hy ⊢; tauto)) (by simp at hk; omega)]

/-- The path to a node, as a list with the node at its end. -/
theorem path_of {f : Forest M} (hw : WF f.n f.par) {x : Nat} (hx : f.In x) : ∃ s, f.rootPath x = s ++ [x] ∧ Chain f.par 0 (s ++ [x]) ∧ ∀ y ∈ s, 1 ≤ y ∧ y ≤ f.n := by
  obtain ⟨s, h1, h2⟩ := path_exists hw hx.1 hx.2
  have h3 : ∀ y ∈ s ++ [x], 1 ≤ y ∧ y ≤ f.n := by
    intro y hy
    rcases List.mem_append.mp hy with hy | hy
    · exact h2 y hy
    · rw [List.mem_singleton.mp hy]; exact hx
  have := length_le (chain_nodup hw h1 h3) h3
  exact ⟨s, path_eq h1 (fun y hy => by have := h3 y hy; omega) (by simpa using this), h1, h2⟩

theorem prod_seq {o : Nat → M} {u : List (Nat × M)} (h : ∀ e ∈ u, o e.1 = e.2) : aggS mul one u = prodOf mul one o (u.map (·.1)) := by
  induction u with
  | nil => rfl
  | cons e u ih =>
    change mul e.2 (aggS mul one u) = mul (o e.1) (prodOf mul one o (u.map (·.1)))
    rw [ih (fun e he => h e (by simp [he])), h e (by simp)]

theorem chain_congr {P P' : Nat → Nat} : ∀ {s : List Nat} {q : Nat}, (∀ y ∈ s, P' y = P y) → Chain P q s → Chain P' q s
  | [], _, _, _ => trivial
  | x :: s, q, h, hc => ⟨by rw [h x (by simp)]; exact hc.1, chain_congr (fun y hy => h y (by simp [hy])) hc.2⟩

theorem access_nil (h : Heap T) {fuel : Nat} (hf : 0 < fuel) : access fup fuel h 0 = some (h, 0) := by
  obtain ⟨k, rfl⟩ : ∃ j, fuel = j + 1 := ⟨fuel - 1, by omega⟩
  rw [access, accessLoop]
  simp [splay]

/-- The first of a tree. -/
theorem goLeft_spec {h : Heap T} {L : List (Nat × Node T)} (hs : Sat h L) (hz : ∀ c ∈ L, c.1 ≠ 0) : ∀ (t : Tree T) (q fuel : Nat), (∀ c ∈ t.cells q, c ∈ L) → t.root ≠ 0 → t.size < fuel →
    ∃ y s, goLeft h fuel t.root = some y ∧ addr own t = y :: s
  | .nil, q, fuel, _, h0, _ => absurd rfl h0
  | .node a v l r, q, fuel, hc, _, hf => by
    have pos : ∀ u : Tree T, 0 ≤ u.size := fun u => by rw [← seq_length (own := own)]; omega
    have h1 := pos l; have h2 := pos r
    simp only [Tree.size] at hf
    obtain ⟨k, rfl⟩ : ∃ j, fuel = j + 1 := ⟨fuel - 1, by omega⟩
    rw [root_node, goLeft, hs.read (hc _ (by rw [Tree.cells]; exact List.mem_cons_self))]
    simp only [Option.bind_eq_bind, Option.bind_some]
    by_cases hl : l.root = 0
    · refine ⟨a, addr own r, by rw [if_neg (by simp [hl])], ?_⟩
      have : l = .nil := by
        cases l with
        | nil => rfl
        | node b w x y => exact absurd hl (hz _ (hc _ (by simp only [Tree.cells, List.mem_cons, List.mem_append]; exact .inr (.inl (.inl rfl)))))
      subst this
      rw [addr_node]
      rfl
    · rw [if_pos hl]
      obtain ⟨y, s, e1, e2⟩ := goLeft_spec hs hz l a k (fun c hcl => hc c (by simp [Tree.cells, hcl])) hl (by omega)
      exact ⟨y, s ++ a :: addr own r, e1, by rw [addr_node, e2]; rfl⟩

/-- The last of a tree. -/
theorem goRight_spec {h : Heap T} {L : List (Nat × Node T)} (hs : Sat h L) (hz : ∀ c ∈ L, c.1 ≠ 0) : ∀ (t : Tree T) (q fuel : Nat), (∀ c ∈ t.cells q, c ∈ L) → t.root ≠ 0 → t.size < fuel →
    ∃ y s, goRight h fuel t.root = some y ∧ addr own t = s ++ [y]
  | .nil, q, fuel, _, h0, _ => absurd rfl h0
  | .node a v l r, q, fuel, hc, _, hf => by
    have pos : ∀ u : Tree T, 0 ≤ u.size := fun u => by rw [← seq_length (own := own)]; omega
    have h1 := pos l; have h2 := pos r
    simp only [Tree.size] at hf
    obtain ⟨k, rfl⟩ : ∃ j, fuel = j + 1 := ⟨fuel - 1, by omega⟩
    rw [root_node, goRight, hs.read (hc _ (by rw [Tree.cells]; exact List.mem_cons_self))]
    simp only [Option.bind_eq_bind, Option.bind_some]
    by_cases hl : r.root = 0
    · refine ⟨a, addr own l, by rw [if_neg (by simp [hl])], ?_⟩
      have : r = .nil := by
        cases r with
        | nil => rfl
        | node b w x y => exact absurd hl (hz _ (hc _ (by simp only [Tree.cells, List.mem_cons, List.mem_append]; exact .inr (.inr (.inl rfl)))))
      subst this
      rw [addr_node]
      rfl
    · rw [if_pos hl]
      obtain ⟨y, s, e1, e2⟩ := goRight_spec hs hz r a k (fun c hcl => hc c (by simp [Tree.cells, hcl])) hl (by omega)
      exact ⟨y, addr own l ++ a :: s, e1, by rw [addr_node, e2]; simp⟩

theorem Inv.cellsat {n : Nat} {P : Nat → Nat} {o : Nat → M} {h : Heap T} {F : Fo T} (hi : Inv own agg id mul one n P o h F) : Sat h (cellsF F) ∧ ∀ c ∈ cellsF F, c.1 ≠ 0 := by
  refine ⟨⟨fun c hc => hi.sat.get c (by simp [hc]), ?_⟩, ?_⟩
  · have := hi.sat.nodup
    rw [List.map_cons, List.nodup_cons] at this
    exact this.2
  · rintro c hc h0
    have := hi.sat.nodup
    rw [List.map_cons, List.nodup_cons] at this
    exact this.1 (List.mem_map.mpr ⟨c, hc, h0⟩)

/-- The search that `traverse` performs on a piece `s` of the path that starts at the depth `base`. The callback is
asked at some node `x` with its depth, with a value that has the own value of `x` and the aggregate of the piece, and with values that have the
aggregates of the parts before and after `x`. -/
inductive Search (own agg : T → M) (mul : M → M → M) (one : M) (o : Nat → M) (f : T → T → T → Int → Int) : Int → List Nat → Nat → Prop
  | empty (base : Int) : Search own agg mul one o f base [] 0
  | stop {base : Int} {s A B : List Nat} {x : Nat} {v l r : T} : s = A ++ x :: B → own v = o x → agg v = prodOf mul one o s → agg l = prodOf mul one o A → agg r = prodOf mul one o B →
      f v l r (base + A.length) = 0 → Search own agg mul one o f base s x
  | left {base : Int} {s A B : List Nat} {x y : Nat} {v l r : T} : s = A ++ x :: B → own v = o x → agg v = prodOf mul one o s → agg l = prodOf mul one o A → agg r = prodOf mul one o B →
      f v l r (base + A.length) < 0 → Search own agg mul one o f base A y → Search own agg mul one o f base s y
  | right {base : Int} {s A B : List Nat} {x y : Nat} {v l r : T} : s = A ++ x :: B → own v = o x → agg v = prodOf mul one o s → agg l = prodOf mul one o A → agg r = prodOf mul one o B →
      0 < f v l r (base + A.length) → Search own agg mul one o f (base + A.length + 1) B y → Search own agg mul one o f base s y

theorem traverseLoop_spec (hA : AggOK own agg fup id mul one) {o : Nat → M} {h : Heap T} {L : List (Nat × Node T)} (hs : Sat h (nilCell id :: L)) (f : T → T → T → Int → Int) :
    ∀ (t : Tree T) (q fuel : Nat) (base d : Int), (∀ c ∈ t.cells q, c ∈ L) → Ok own agg mul one t → (∀ e ∈ t.seq own, o e.1 = e.2) → t.size < fuel →
    (∀ a v l r, t = .node a v l r → d = base + l.size) → ∃ y, traverseLoop h f fuel t.root d = some y ∧ Search own agg mul one o f base (addr own t) y
  | .nil, q, fuel, base, d, _, _, _, hf, _ => by
    obtain ⟨k, rfl⟩ : ∃ j, fuel = j + 1 := ⟨fuel - 1, by simp [Tree.size] at hf; omega⟩
    exact ⟨0, by rw [traverseLoop, if_neg (by simp [Tree.root])]; rfl, .empty base⟩
  | .node a v l r, q, fuel, base, d, hc, hok, hv, hf, hd => by
    have hd := hd a v l r rfl
    have pos : ∀ u : Tree T, 0 ≤ u.size := fun u => by rw [← seq_length (own := own)]; omega
    have h1 := pos l; have h2 := pos r
    simp only [Tree.size] at hf
    obtain ⟨k, rfl⟩ : ∃ j, fuel = j + 1 := ⟨fuel - 1, by omega⟩
    have ha : a ≠ 0 := by
      rintro rfl
      have := hs.nodup
      rw [List.map_cons, List.nodup_cons] at this
      exact this.1 (List.mem_map.mpr ⟨(0, ⟨q, l.root, r.root, l.size + r.size + 1, v⟩), hc _ (by rw [Tree.cells]; exact List.mem_cons_self), rfl⟩)
    have hcl : ∀ c ∈ l.cells a, c ∈ L := fun c hx => hc c (by simp [Tree.cells, hx])
    have hcr : ∀ c ∈ r.cells a, c ∈ L := fun c hx => hc c (by simp [Tree.cells, hx])
    obtain ⟨nl, l1, l2, l3⟩ := read_tree (id := id) hs List.mem_cons_self (t := l) (q := a) (fun c hx => by simp [hcl c hx])
    obtain ⟨nr, r1, r2, r3⟩ := read_tree (id := id) hs List.mem_cons_self (t := r) (q := a) (fun c hx => by simp [hcr c hx])
    -- the children of the child
    have child : ∀ u : Tree T, (∀ c ∈ u.cells a, c ∈ L) → ∃ m ml, h u.root = some m ∧ h m.left = some ml ∧ m.size = u.size ∧ ∀ b w x y, u = .node b w x y → ml.size = x.size := by
      intro u hu
      cases u with
      | nil => exact ⟨_, _, hs.read (a := 0) (n := ⟨0, 0, 0, 0, id⟩) (by simp), hs.read (a := 0) (n := ⟨0, 0, 0, 0, id⟩) (by simp), rfl, fun b w x y h => by cases h⟩
      | node b w x y =>
        obtain ⟨ml, m1, m2, -⟩ := read_tree (id := id) hs List.mem_cons_self (t := x) (q := b) (fun c hx => by
          have := hu c (by simp [Tree.cells, hx])
          simp [this])
        exact ⟨_, ml, hs.read (a := b) (n := ⟨a, x.root, y.root, x.size + y.size + 1, w⟩) (List.mem_cons_of_mem _ (hu _ (by simp [Tree.cells]))), m1, rfl, fun b w x y h => by cases h; exact m2⟩
    have hvl : ∀ e ∈ l.seq own, o e.1 = e.2 := fun e he => hv e (by simp [Tree.seq, he])
    have hvr : ∀ e ∈ r.seq own, o e.1 = e.2 := fun e he => hv e (by simp [Tree.seq, he])
    have p1 : addr own (.node a v l r) = addr own l ++ a :: addr own r := addr_node
    have p2 : own v = o a := (hv (a, own v) (by simp [Tree.seq])).symm
    have p3 : agg v = prodOf mul one o (addr own (.node a v l r)) := by rw [hok.1, prod_seq hv]; rfl
    have p4 : agg nl.val = prodOf mul one o (addr own l) := by rw [l3, hok.2.1.val hA, prod_seq hvl]; rfl
    have p5 : agg nr.val = prodOf mul one o (addr own r) := by rw [r3, hok.2.2.val hA, prod_seq hvr]; rfl
    have hlen : ((addr own l).length : Int) = l.size := by rw [addr, List.length_map, seq_length]
    have hd' : d = base + (addr own l).length := by rw [hd, hlen]
    rw [root_node, traverseLoop, if_pos ha, hs.read (a := a) (List.mem_cons_of_mem _ (hc _ (by rw [Tree.cells]; exact List.mem_cons_self)))]
    simp only [Option.bind_eq_bind, Option.bind_some]
    rw [l1]
    simp only [Option.bind_some]
    rw [r1]
    simp only [Option.bind_some]
    by_cases hz : f v nl.val nr.val d = 0
    · rw [if_pos hz]
      exact ⟨a, rfl, .stop p1 p2 p3 p4 p5 (by rw [← hd']; exact hz)⟩
    · rw [if_neg hz]
      by_cases hn : f v nl.val nr.val d < 0
      · obtain ⟨m, ml, m1, m2, m3, m4⟩ := child l hcl
        simp only [if_pos hn]
        rw [m1]
        simp only [Option.bind_some]
        rw [m2]
        simp only [Option.bind_some]
        obtain ⟨y, e1, e2⟩ := traverseLoop_spec hA hs f l a k base (d + (-m.size + ml.size)) hcl hok.2.1 hvl (by omega) (by
          intro b w x y hl
          rw [m4 b w x y hl, m3, hd]
          omega)
        exact ⟨y, e1, .left p1 p2 p3 p4 p5 (by rw [← hd']; exact hn) e2⟩
      · obtain ⟨m, ml, m1, m2, m3, m4⟩ := child r hcr
        simp only [if_neg hn]
        rw [m1]
        simp only [Option.bind_some]
        rw [m2]
        simp only [Option.bind_some]
        obtain ⟨y, e1, e2⟩ := traverseLoop_spec hA hs f r a k (base + (addr own l).length + 1) (d + (1 + ml.size)) hcr hok.2.2 hvr (by omega) (by
          intro b w x y hl
          rw [m4 b w x y hl, hd']
          omega)
        exact ⟨y, e1, .right p1 p2 p3 p4 p5 (by rw [← hd']; omega) e2⟩

/-- Searching for a depth. -/
theorem search_level {o : Nat → M} {d base : Int} {s : List Nat} {y : Nat} (hs : Search own agg mul one o (fun _ _ _ i => d - i) base s y) :
    y = if base ≤ d then s.getD (d - base).toNat 0 else 0 := by
  induction hs with
  | empty base => simp
  | @stop base s A B x v l r h1 _ _ _ _ h6 =>
    have : d = base + A.length := by omega
    subst this h1
    rw [if_pos (by omega), show (base + (A.length : Int) - base).toNat = A.length by omega]
    simp [List.getD_append_right]
  | @left base s A B x y v l r h1 _ _ _ _ h6 _ ih =>
    subst h1
    rw [ih]
    by_cases hb : base ≤ d
    · rw [if_pos hb, if_pos hb, List.getD_append _ _ _ _ (by omega)]
    · rw [if_neg hb, if_neg hb]
  | @right base s A B x y v l r h1 _ _ _ _ h6 _ ih =>
    subst h1
    rw [ih, if_pos (by omega), if_pos (by omega), List.getD_append_right _ _ _ _ (by omega)]
    obtain ⟨k, hk⟩ : ∃ k : Nat, d - base = A.length + 1 + k := ⟨(d - base - A.length - 1).toNat, by omega⟩
    rw [show (d - (base + (A.length : Int) + 1)).toNat = k by omega, show (d - base).toNat - A.length = k + 1 by omega]
    simp

/-- `access` in terms of the forest. -/
theorem acc (hA : AggOK own agg fup id mul one) {f : Forest M} (hw : WF f.n f.par) {h : Heap T} {F : Fo T} (hi : Inv own agg id mul one f.n f.par f.own h F) {fuel : Nat} (hf : f.n + 1 < fuel) {x : Nat} (hx : f.In x) :
    ∃ s h' last v a F', f.rootPath x = s ++ [x] ∧ Chain f.par 0 (s ++ [x]) ∧ (∀ y ∈ s ++ [x], f.In y) ∧ access fup fuel h x = some (h', last) ∧
      Inv own agg id mul one f.n f.par f.own h' ((.node x v a .nil, 0) :: F') ∧ Ok own agg mul one (.node x v a .nil) ∧ addr own a = s ∧
      (∀ p ∈ F, (∀ y ∈ f.rootPath x, y ∉ p.1.ad) → p ∈ F') ∧
      ∀ t0, (t0, 0) ∈ F → (∃ y ∈ (f.rootPath x).head?, y ∈ t0.ad) → last ∈ t0.ad ∧ ∃ u w, f.rootPath x = u ++ last :: w ∧ ∀ y ∈ w, y ∉ t0.ad := by
  obtain ⟨s, h1, h2, h3⟩ := path_of hw hx
  obtain ⟨h', last, v, a, F', k1, k2, k3, k4, k5, k6⟩ := access_spec hA hw hi hf hx.1 hx.2 h2 h3
  rw [h1]
  refine ⟨s, h', last, v, a, F', rfl, h2, ?_, k1, k2, k3, k4, k5, k6⟩
  intro y hy
  rcases List.mem_append.mp hy with hy | hy
  · exact h3 y hy
  · rw [List.mem_singleton.mp hy]; exact hx

theorem rootPath_step {f : Forest M} (hw : WF f.n f.par) {y : Nat} (hy : f.In y) (hp : f.par y ≠ 0) : f.In (f.par y) ∧ f.rootPath y = f.rootPath (f.par y) ++ [y] := by
  have hin : f.In (f.par y) := ⟨by omega, hw.rng y hy.1 hy.2⟩
  obtain ⟨s, h1, h2, h3⟩ := path_of hw hin
  obtain ⟨s', k1, k2, k3⟩ := path_of hw hy
  refine ⟨hin, ?_⟩
  have hc : Chain f.par 0 ((s ++ [f.par y]) ++ [y]) := by
    rw [List.append_assoc]
    exact chain_append.mpr ⟨h2, rfl, trivial⟩
  rw [k1, h1, chain_unique k2 hc (fun z hz => by have := k3 z hz; omega) (fun z hz => by
    rcases List.mem_append.mp hz with hz | hz
    · have := h3 z hz; omega
    · rw [List.mem_singleton.mp hz]; exact hp)]

theorem rootPath_nodup {f : Forest M} (hw : WF f.n f.par) {x : Nat} (hx : f.In x) : (f.rootPath x).Nodup := by
  obtain ⟨s, h1, h2, h3⟩ := path_of hw hx
  rw [h1]
  exact chain_nodup hw h2 (fun y hy => by
    rcases List.mem_append.mp hy with hy | hy
    · exact h3 y hy
    · rw [List.mem_singleton.mp hy]; exact hx)

/-- The path to a node on the path. -/
theorem rootPath_split {f : Forest M} (hw : WF f.n f.par) {x : Nat} (hx : f.In x) {u w : List Nat} {z : Nat} (hs : f.rootPath x = u ++ z :: w) : f.In z ∧ f.rootPath z = u ++ [z] := by
  obtain ⟨s, h1, h2, h3⟩ := path_of hw hx
  have h4 : ∀ y ∈ s ++ [x], f.In y := by
    intro y hy
    rcases List.mem_append.mp hy with hy | hy
    · exact h3 y hy
    · rw [List.mem_singleton.mp hy]; exact hx
  rw [← h1, hs] at h4 h2
  have hz : f.In z := h4 z (by simp)
  obtain ⟨s', k1, k2, k3⟩ := path_of hw hz
  refine ⟨hz, ?_⟩
  rw [k1, chain_unique k2 (chain_append.mp h2).1 (fun y hy => by have := k3 y hy; omega) (fun y hy => by have := (h4 y (by simp [hy])).1; omega)]

theorem findRoot_spec (hA : AggOK own agg fup id mul one) {f : Forest M} (hw : WF f.n f.par) {h : Heap T} {F : Fo T} (hi : Inv own agg id mul one f.n f.par f.own h F) {fuel : Nat} (hf : f.n + 1 < fuel) {x : Nat}
    (hx : f.In x) : ∃ h' F' y, findRoot fup fuel h x = some (h', y) ∧ Inv own agg id mul one f.n f.par f.own h' F' ∧ (f.rootPath x).head? = some y := by
  obtain ⟨s, h1, last, v, a, F1, e1, e2, e3, e4, e5, e6, e7, -, -⟩ := acc hA hw hi hf hx
  obtain ⟨c1, c2⟩ := e5.cellsat
  obtain ⟨y, w, g1, g2⟩ := goLeft_spec (own := own) c1 c2 (.node x v a .nil) 0 fuel (fun c hc => by rw [cellsF_cons]; simp [hc]) (by rw [root_node]; have := hx.1; omega) (by have := e5.size_le; omega)
  rw [addr_node, e7] at g2
  have hy : f.In y := e3 y (by rw [show s ++ [x] = y :: w from g2]; simp)
  obtain ⟨s2, h2, last2, v2, a2, F2, -, -, -, k4, k5, -⟩ := acc hA hw e5 hf hy
  refine ⟨h2, _, y, ?_, k5, by rw [e1, show s ++ [x] = y :: w from g2]; rfl⟩
  rw [findRoot, e4]
  simp only [Option.bind_eq_bind, Option.bind_some]
  rw [root_node] at g1
  rw [g1]
  simp only [Option.bind_some]
  rw [k4]
  rfl

theorem findParent_spec (hA : AggOK own agg fup id mul one) {f : Forest M} (hw : WF f.n f.par) {h : Heap T} {F : Fo T} (hi : Inv own agg id mul one f.n f.par f.own h F) {fuel : Nat} (hf : f.n + 1 < fuel) {x : Nat}
    (hx : f.In x) : ∃ h' F', findParent fup fuel h x = some (h', f.par x) ∧ Inv own agg id mul one f.n f.par f.own h' F' := by
  obtain ⟨s, h1, last, v, a, F1, e1, e2, e3, e4, e5, e6, e7, -, -⟩ := acc hA hw hi hf hx
  obtain ⟨c1, c2⟩ := e5.cellsat
  have rx := e5.sat.read (a := x) (n := ⟨0, a.root, 0, a.size + 0 + 1, v⟩) (by rw [cellsF_cons]; simp [Tree.cells, Tree.root, Tree.size])
  rw [findParent, e4]
  simp only [Option.bind_eq_bind, Option.bind_some]
  rw [rx]
  simp only [Option.bind_some]
  by_cases ha : a.root = 0
  · have han : a = .nil := by
      cases a with
      | nil => rfl
      | node b w l r => exact absurd ha (c2 _ (by rw [cellsF_cons]; simp only [Tree.cells, List.mem_append, List.mem_cons]; exact .inl (.inr (.inl (.inl rfl)))))
    subst han
    have hs : s = [] := e7.symm
    subst hs
    refine ⟨h1, _, ?_, e5⟩
    have r0 := e5.sat.read (a := 0) (n := ⟨0, 0, 0, 0, id⟩) (by simp)
    obtain ⟨k, rfl⟩ : ∃ j, fuel = j + 1 := ⟨fuel - 1, by omega⟩
    rw [ha, goRight, r0]
    simp only [Option.bind_eq_bind, Option.bind_some]
    rw [if_neg (by simp)]
    simp only [Option.bind_some]
    rw [access_nil _ (by omega)]
    simp only [Option.bind_some]
    rw [e2.1]
  · obtain ⟨y, w, g1, g2⟩ := goRight_spec (own := own) c1 c2 a x fuel (fun c hc => by rw [cellsF_cons]; simp [Tree.cells, hc]) ha (by
      have := e5.size_le
      simp only [Tree.size] at this
      omega)
    rw [e7] at g2
    subst g2
    have hy : f.In y := e3 y (by simp)
    obtain ⟨s2, h2, last2, v2, a2, F2, -, -, -, k4, k5, -⟩ := acc hA hw e5 hf hy
    refine ⟨h2, _, ?_, k5⟩
    rw [g1]
    simp only [Option.bind_some]
    rw [k4]
    simp only [Option.bind_some]
    rw [List.append_assoc] at e2
    rw [(chain_append.mp e2).2.1]

theorem findLca_spec (hA : AggOK own agg fup id mul one) {f : Forest M} (hw : WF f.n f.par) {h : Heap T} {F : Fo T} (hi : Inv own agg id mul one f.n f.par f.own h F) {fuel : Nat} (hf : f.n + 1 < fuel) {x y : Nat}
    (hx : f.In x) (hy : f.In y) : ∃ h' F', findLca fup fuel h x y = some (h', ((f.rootPath x).filter (fun z => decide (z ∈ f.rootPath y))).getLast?.getD 0) ∧
      Inv own agg id mul one f.n f.par f.own h' F' := by
  obtain ⟨h1, F1, r1, e1, i1, p1⟩ := findRoot_spec hA hw hi hf hx
  obtain ⟨h2, F2, r2, e2, i2, p2⟩ := findRoot_spec hA hw i1 hf hy
  rw [findLca, e1]
  simp only [Option.bind_eq_bind, Option.bind_some]
  rw [e2]
  simp only [Option.bind_some]
  by_cases hr : r1 = r2
  · rw [if_neg (by simp [hr])]
    obtain ⟨s3, h3, last3, v3, a3, F3, q1, q2, q3, q4, q5, q6, q7, -, -⟩ := acc hA hw i2 hf hx
    rw [q4]
    simp only [Option.bind_some]
    obtain ⟨s4, h4, last, v4, a4, F4, -, -, -, t4, t5, -, -, -, t6⟩ := acc hA hw q5 hf hy
    rw [t4]
    have hadx : ∀ z, z ∈ (Tree.node x v3 a3 .nil).ad ↔ z ∈ f.rootPath x := by
      intro z
      rw [← mem_addr (own := own), addr_node, q7, q1]
      rfl
    obtain ⟨j1, u, w, j2, j3⟩ := t6 _ (by simp) ⟨r2, p2, (hadx _).mpr (List.mem_of_mem_head? (hr ▸ p1))⟩
    rw [hadx] at j1
    simp only [hadx] at j3
    obtain ⟨u', w', hx'⟩ := List.append_of_mem j1
    have hu : u' = u := by
      have a1 := (rootPath_split hw hx hx').2
      have a2 := (rootPath_split hw hy j2).2
      rw [a1] at a2
      exact (List.append_inj' a2 rfl).1
    subst hu
    have hndx := rootPath_nodup hw hx
    refine ⟨h4, _, ?_, t5⟩
    congr 2
    rw [hx'] at hndx ⊢
    rw [List.filter_append, List.filter_cons, if_pos (by rw [j2]; simp)]
    have hnil : w'.filter (fun z => decide (z ∈ f.rootPath y)) = [] := by
      rw [List.filter_eq_nil_iff]
      intro z hz hzy
      have hzy := of_decide_eq_true hzy
      rw [j2] at hzy
      rw [List.nodup_append] at hndx
      rcases List.mem_append.mp hzy with h | h
      · exact hndx.2.2 z h z (by simp [hz]) rfl
      · rcases List.mem_cons.mp h with rfl | h
        · exact (List.nodup_cons.mp hndx.2.1).1 hz
        · exact j3 z h (by rw [hx']; simp [hz])
    rw [hnil]
    simp
  · rw [if_pos hr]
    refine ⟨h2, F2, ?_, i2⟩
    congr 2
    have hnil : (f.rootPath x).filter (fun z => decide (z ∈ f.rootPath y)) = [] := by
      rw [List.filter_eq_nil_iff]
      intro z hz hzy
      have hzy := of_decide_eq_true hzy
      obtain ⟨u, w, e3⟩ := List.append_of_mem hz
      obtain ⟨u', w', e4⟩ := List.append_of_mem hzy
      have a1 := (rootPath_split hw hx e3).2
      have a2 := (rootPath_split hw hy e4).2
      rw [a1] at a2
      have hu := (List.append_inj' a2 rfl).1
      subst hu
      apply hr
      rw [e3] at p1
      rw [e4] at p2
      cases u with
      | nil => simp at p1 p2; rw [← p1, ← p2]
      | cons c u => simp at p1 p2; rw [← p1, ← p2]
    rw [hnil]
    rfl

theorem Sat.upd' {h : Heap T} {L : List (Nat × Node T)} {a : Nat} {n : Node T} (hs : Sat h ((a, n) :: L)) (f : Node T → Node T) : ∃ h', h.upd a f = some h' ∧ Sat h' ((a, f n) :: L) := ⟨_, hs.upd f⟩

/-- A forest with other parents and values outside of the given trees. -/
theorem Inv.change {n : Nat} {P P' : Nat → Nat} {o o' : Nat → M} {h : Heap T} {F : Fo T} (hi : Inv own agg id mul one n P o h F) (hP : ∀ x ∈ adF F, P' x = P x) (ho : ∀ x ∈ adF F, o' x = o x) :
    ∀ p ∈ F, Chain P' p.2 (addr own p.1) ∧ (∀ e ∈ p.1.seq own, o' e.1 = e.2) ∧ OkB own agg mul one p.1 := by
  intro p hp
  refine ⟨chain_congr (fun y hy => hP y (List.mem_flatMap.mpr ⟨p, hp, mem_addr.mp hy⟩)) (hi.chain p hp), fun e he => ?_, hi.ok p hp⟩
  rw [ho e.1 (List.mem_flatMap.mpr ⟨p, hp, mem_addr.mp (List.mem_map.mpr ⟨e, he, rfl⟩)⟩)]
  exact hi.vals p hp e he

theorem Inv.cons_change {n : Nat} {P P' : Nat → Nat} {o o' : Nat → M} {h h' : Heap T} {F : Fo T} {t t' : Tree T} {q q' x : Nat} (hi : Inv own agg id mul one n P o h ((t, q) :: F))
    (hs : Sat h' (nilCell id :: cellsF ((t', q') :: F))) (had : ∀ y, y ∈ t'.ad ↔ y ∈ t.ad) (hx : x ∈ t.ad) (hP : ∀ y, y ≠ x → P' y = P y) (ho : ∀ y, y ≠ x → o' y = o y)
    (hc : Chain P' q' (addr own t')) (hv : ∀ e ∈ t'.seq own, o' e.1 = e.2) (hok : OkB own agg mul one t') : Inv own agg id mul one n P' o' h' ((t', q') :: F) := by
  have hxF := hi.tail x hx
  have hall : ∀ p ∈ F, Chain P' p.2 (addr own p.1) ∧ (∀ e ∈ p.1.seq own, o' e.1 = e.2) ∧ OkB own agg mul one p.1 := by
    intro p hp
    have hpx : ∀ y ∈ p.1.ad, y ≠ x := by
      rintro y hy rfl
      exact hxF (List.mem_flatMap.mpr ⟨p, hp, hy⟩)
    refine ⟨chain_congr (fun y hy => hP y (hpx y (mem_addr.mp hy))) (hi.chain p (by simp [hp])), fun e he => ?_, hi.ok p (by simp [hp])⟩
    rw [ho e.1 (hpx _ (mem_addr.mp (List.mem_map.mpr ⟨e, he, rfl⟩)))]
    exact hi.vals p (by simp [hp]) e he
  refine ⟨hs, ?_, ?_, ?_, ?_⟩
  · intro y
    rw [← hi.cover y, adF_cons, adF_cons, List.mem_append, List.mem_append, had]
  · intro p hp
    rcases List.mem_cons.mp hp with rfl | hp
    · exact hc
    · exact (hall p hp).1
  · intro p hp
    rcases List.mem_cons.mp hp with rfl | hp
    · exact hv
    · exact (hall p hp).2.1
  · intro p hp
    rcases List.mem_cons.mp hp with rfl | hp
    · exact hok
    · exact (hall p hp).2.2

theorem wf_link {f : Forest M} (hw : WF f.n f.par) {x p : Nat} (hp : f.In p) (hx : f.In x) (hxp : x ∉ f.rootPath p) : WF f.n (fun y => if y = x then p else f.par y) := by
  obtain ⟨rk, hr⟩ := hw.rank
  refine ⟨fun y h1 h2 => ?_, fun y => if x ∈ f.rootPath y then rk y + rk p + 1 else rk y, fun y h1 h2 hy => ?_⟩
  · 
    split
    · exact hp.2
    · exact hw.rng y h1 h2
  · simp only at hy ⊢
    by_cases hyx : y = x
    · subst hyx
      obtain ⟨s, e1, -⟩ := path_of hw hx
      rw [if_pos rfl, if_neg hxp, if_pos (by rw [e1]; simp)]
      omega
    · rw [if_neg hyx] at hy ⊢
      obtain ⟨h3, h4⟩ := rootPath_step hw ⟨h1, h2⟩ hy
      have h5 : x ∈ f.rootPath y ↔ x ∈ f.rootPath (f.par y) := by rw [h4]; simp [Ne.symm hyx]
      have := hr y h1 h2 hy
      by_cases hm : x ∈ f.rootPath (f.par y)
      · rw [if_pos hm, if_pos (h5.mpr hm)]; omega
      · rw [if_neg hm, if_neg (fun h => hm (h5.mp h))]; exact this

theorem wf_cut {n : Nat} {P : Nat → Nat} (hw : WF n P) {x : Nat} : WF n (fun y => if y = x then 0 else P y) := by
  obtain ⟨rk, hr⟩ := hw.rank
  refine ⟨fun y h1 h2 => ?_, rk, fun y h1 h2 hy => ?_⟩
  · 
    split
    · omega
    · exact hw.rng y h1 h2
  · 
    by_cases hyx : y = x
    · rw [if_pos hyx] at hy; exact absurd rfl hy
    · rw [if_neg hyx] at hy ⊢; exact hr y h1 h2 hy

theorem wf_add {n : Nat} {P : Nat → Nat} (hw : WF n P) : WF (n + 1) (fun y => if y = n + 1 then 0 else P y) := by
  obtain ⟨rk, hr⟩ := hw.rank
  refine ⟨fun y h1 h2 => ?_, rk, fun y h1 h2 hy => ?_⟩
  · 
    split
    · omega
    · have := hw.rng y h1 (by omega); omega
  · 
    by_cases hyx : y = n + 1
    · rw [if_pos hyx] at hy; exact absurd rfl hy
    · rw [if_neg hyx] at hy ⊢; exact hr y h1 (by omega) hy

theorem addr_nil {a : Tree T} (h : addr own a = []) : a = .nil := by
  cases a with
  | nil => rfl
  | node b w l r => rw [addr_node] at h; simp at h

theorem link_spec (hA : AggOK own agg fup id mul one) {f : Forest M} (hw : WF f.n f.par) {h : Heap T} {F : Fo T} (hi : Inv own agg id mul one f.n f.par f.own h F) {fuel : Nat} (hf : f.n + 1 < fuel) {x p : Nat}
    (hx : f.In x) (hp : f.In p) (hr : f.par x = 0) (hxp : x ∉ f.rootPath p) : ∃ h' F', link fup fuel h x p = some h' ∧ Inv own agg id mul one f.n (fun y => if y = x then p else f.par y) f.own h' F' := by
  obtain ⟨s, h1, last, v, a, F1, e1, e2, e3, e4, e5, e6, e7, -, -⟩ := acc hA hw hi hf hx
  have hs : s = [] := by
    rcases List.eq_nil_or_concat s with hs | ⟨u, y, hs⟩
    · exact hs
    · rw [List.concat_eq_append] at hs
      subst hs
      rw [List.append_assoc] at e2
      have := (chain_append.mp e2).2.1
      have := e3 y (by simp)
      have := this.1
      omega
  subst hs
  have han := addr_nil e7
  subst han
  obtain ⟨s2, h2, last2, v2, a2, F2, -, -, -, k4, k5, -, -, k6, -⟩ := acc hA hw e5 hf hp
  have hm : ((Tree.node x v .nil .nil : Tree T), 0) ∈ F2 := k6 _ (by simp) (by
    rintro y hy hy2
    simp only [Tree.ad, List.append_nil, List.mem_singleton] at hy2
    exact hxp (hy2 ▸ hy))
  obtain ⟨F3, hF3⟩ : ∃ F3, ((Tree.node p v2 a2 .nil, 0) :: F2).Perm ((.node x v .nil .nil, 0) :: F3) := by
    obtain ⟨u, w, rfl⟩ := List.append_of_mem hm
    exact ⟨(Tree.node p v2 a2 .nil, 0) :: (u ++ w), (List.perm_middle.cons _).trans (.swap _ _ _)⟩
  have i3 := k5.perm hF3
  obtain ⟨h3, u1, u2⟩ := Sat.upd' (L := nilCell id :: cellsF F3) (a := x) (n := ⟨0, 0, 0, 0 + 0 + 1, v⟩) (i3.sat.perm (by rw [cellsF_cons]; simp only [Tree.cells]; exact .swap _ _ _)) (fun n => { n with parent := p })
  refine ⟨h3, (.node x v .nil .nil, p) :: F3, ?_, ?_⟩
  · rw [link, e4]
    simp only [Option.bind_eq_bind, Option.bind_some]
    rw [k4]
    simp only [Option.bind_some]
    exact u1
  · refine i3.cons_change (x := x) (u2.perm ?_) (fun y => Iff.rfl) (by simp [Tree.ad]) (fun y hy => if_neg hy) (fun y _ => rfl) ⟨if_pos rfl, trivial⟩ (i3.vals _ List.mem_cons_self) ⟨trivial, trivial⟩
    rw [cellsF_cons]
    exact .swap _ _ _

theorem put_spec (hA : AggOK own agg fup id mul one) {f : Forest M} (hw : WF f.n f.par) {h : Heap T} {F : Fo T} (hi : Inv own agg id mul one f.n f.par f.own h F) {fuel : Nat} (hf : f.n + 1 < fuel) {x : Nat}
    (hx : f.In x) (w : T) : ∃ h' F', put fup fuel h x w = some h' ∧ Inv own agg id mul one f.n f.par (fun y => if y = x then own w else f.own y) h' F' := by
  obtain ⟨s, h1, last, v, a, F1, e1, e2, e3, e4, e5, e6, e7, -, -⟩ := acc hA hw hi hf hx
  obtain ⟨h3, u1, u2⟩ := Sat.upd' (L := nilCell id :: (a.cells x ++ cellsF F1)) (a := x) (n := ⟨0, a.root, 0, a.size + 0 + 1, v⟩) (e5.sat.perm (by
    rw [cellsF_cons]; simp only [Tree.cells, List.append_nil]; exact .swap _ _ _)) (fun n => { n with val := w })
  refine ⟨h3, (.node x w a .nil, 0) :: F1, ?_, ?_⟩
  · rw [put, e4]
    simp only [Option.bind_eq_bind, Option.bind_some]
    exact u1
  · refine e5.cons_change (x := x) (u2.perm ?_) (fun y => Iff.rfl) (by simp [Tree.ad]) (fun y hy => rfl) (fun y hy => if_neg hy) ?_ ?_ (show OkB own agg mul one (.node x v a .nil) from Ok.okB e6)
    · rw [cellsF_cons]; simp only [Tree.cells, List.append_nil]; exact .swap _ _ _
    · have := e5.chain _ List.mem_cons_self
      simp only [addr_node] at this ⊢
      exact this
    · have hnd := rootPath_nodup hw hx
      rw [e1, ← e7, List.nodup_append] at hnd
      intro e he
      simp only [Tree.seq, List.mem_append, List.mem_singleton] at he
      rcases he with he | he
      · have hex : e.1 ≠ x := fun h => hnd.2.2 e.1 (List.mem_map.mpr ⟨e, he, rfl⟩) x (by simp) h
        rw [if_neg hex]
        exact e5.vals _ List.mem_cons_self e (by simp [Tree.seq, he])
      · rw [he, if_pos rfl]

theorem cut_spec (hA : AggOK own agg fup id mul one) {f : Forest M} (hw : WF f.n f.par) {h : Heap T} {F : Fo T} (hi : Inv own agg id mul one f.n f.par f.own h F) {fuel : Nat} (hf : f.n + 1 < fuel) {x : Nat}
    (hx : f.In x) : ∃ h' F', cut fup fuel h x = some h' ∧ Inv own agg id mul one f.n (fun y => if y = x then 0 else f.par y) f.own h' F' := by
  obtain ⟨s, h1, last, v, a, F1, e1, e2, e3, e4, e5, e6, e7, -, -⟩ := acc hA hw hi hf hx
  have rx := e5.sat.read (a := x) (n := ⟨0, a.root, 0, a.size + 0 + 1, v⟩) (by rw [cellsF_cons]; simp [Tree.cells, Tree.root, Tree.size])
  have hx0 : x ≠ 0 := by have := hx.1; omega
  have hnd := rootPath_nodup hw hx
  rw [e1, ← e7, List.nodup_append] at hnd
  have hxa : ∀ y ∈ addr own a, y ≠ x := fun y hy => hnd.2.2 y hy x (by simp)
  -- the left child gets no parent
  obtain ⟨h2, u1, u2⟩ : ∃ h2, h1.upd a.root (fun m => { m with parent := 0 }) = some h2 ∧ Sat h2 ((x, ⟨0, a.root, 0, a.size + 0 + 1, v⟩) :: nilCell id :: (a.cells 0 ++ cellsF F1)) := by
    cases a with
    | nil =>
      obtain ⟨u1, u2⟩ := Sat.upd (L := (x, ⟨0, 0, 0, 0 + 0 + 1, v⟩) :: cellsF F1) (a := 0) (n := ⟨0, 0, 0, 0, id⟩) e5.sat (fun n => { n with parent := 0 })
      exact ⟨_, u1, u2.perm (.swap _ _ _)⟩
    | node b w l r =>
      obtain ⟨u1, u2⟩ := Sat.upd (L := (x, ⟨0, b, 0, (l.size + r.size + 1) + 0 + 1, v⟩) :: nilCell id :: (l.cells b ++ r.cells b ++ cellsF F1)) (a := b) (n := ⟨x, l.root, r.root, l.size + r.size + 1, w⟩) (e5.sat.perm (by
        rw [cellsF_cons]
        simp only [Tree.cells, root_node, Tree.size, List.append_nil]
        have : (Tree.nil : Tree T).root = 0 := rfl
        rw [this]
        perms)) (fun n => { n with parent := 0 })
      refine ⟨_, u1, u2.perm ?_⟩
      simp only [Tree.cells, root_node, Tree.size]
      perms
  obtain ⟨w1, w2⟩ := u2.upd (fun n => { n with left := 0 })
  obtain ⟨h4, y1, y2⟩ := update_spec (fup := fup) (a := (.nil : Tree T)) (b := .nil) (y := 0) (z := 0) (id := id) hx0 w2 (by simp) (fun c hc => by simp [Tree.cells] at hc) (fun c hc => by simp [Tree.cells] at hc)
  refine ⟨h4, (.node x (fup v id id) .nil .nil, 0) :: (a, 0) :: F1, ?_, ?_⟩
  · rw [cut, e4]
    simp only [Option.bind_eq_bind, Option.bind_some]
    rw [rx]
    simp only [Option.bind_some]
    rw [u1]
    simp only [Option.bind_some]
    rw [w1]
    exact y1
  · have hxF := e5.tail x (by simp [Tree.ad])
    have hP : ∀ y, y ≠ x → (fun y => if y = x then 0 else f.par y) y = f.par y := fun y hy => if_neg hy
    refine ⟨?_, ?_, ?_, ?_, ?_⟩
    · refine y2.perm ?_
      rw [cellsF_cons, cellsF_cons]
      exact .swap _ _ _
    · intro y
      rw [← e5.cover y]
      simp only [adF_cons, Tree.ad, List.mem_append, List.mem_cons, List.not_mem_nil, List.append_nil]
      tauto
    · intro p hp
      simp only [List.mem_cons] at hp
      rcases hp with rfl | rfl | hp
      · exact ⟨if_pos rfl, trivial⟩
      · refine chain_congr (fun y hy => hP y (hxa y hy)) ?_
        have := e5.chain _ List.mem_cons_self
        simp only [addr_node] at this
        have hpre : ∀ {P : Nat → Nat} {s w : List Nat} {q : Nat}, Chain P q (s ++ w) → Chain P q s := by
          intro P s
          induction s with
          | nil => exact fun _ => trivial
          | cons z s ih => exact fun h => ⟨h.1, ih h.2⟩
        exact hpre this
      · refine chain_congr (fun y hy => hP y ?_) (e5.chain p (by simp [hp]))
        rintro rfl
        exact hxF (List.mem_flatMap.mpr ⟨p, hp, mem_addr.mp hy⟩)
    · intro p hp
      simp only [List.mem_cons] at hp
      rcases hp with rfl | rfl | hp
      · intro e he
        simp only [Tree.seq, List.nil_append, List.mem_singleton, hA.own_fup] at he
        exact e5.vals _ List.mem_cons_self e (by simp [Tree.seq, he])
      · exact fun e he => e5.vals _ List.mem_cons_self e (by simp [Tree.seq, he])
      · exact e5.vals p (by simp [hp])
    · intro p hp
      simp only [List.mem_cons] at hp
      rcases hp with rfl | rfl | hp
      · exact ⟨trivial, trivial⟩
      · exact Ok.okB e6.2.1
      · exact e5.ok p (by simp [hp])

theorem add_spec {n : Nat} {P : Nat → Nat} {o : Nat → M} {h : Heap T} {F : Fo T} (hi : Inv own agg id mul one n P o h F) (v : T) :
    Inv own agg id mul one (n + 1) (fun y => if y = n + 1 then 0 else P y) (fun y => if y = n + 1 then own v else o y) (h.set (n + 1) ⟨0, 0, 0, 1, v⟩) ((.node (n + 1) v .nil .nil, 0) :: F) := by
  have hnF : n + 1 ∉ adF F := fun hm => by have := (hi.cover _).mp hm; omega
  have hall := hi.change (P' := fun y => if y = n + 1 then 0 else P y) (o' := fun y => if y = n + 1 then own v else o y) (fun x hx => if_neg (fun h : x = n + 1 => hnF (h ▸ hx))) (fun x hx => if_neg (fun h : x = n + 1 => hnF (h ▸ hx)))
  refine ⟨⟨?_, ?_⟩, ?_, ?_, ?_, ?_⟩
  · intro c hc
    rw [cellsF_cons] at hc
    simp only [Tree.cells, List.append_nil, List.cons_append, List.nil_append, List.mem_cons] at hc
    rcases hc with rfl | rfl | hc
    · rw [Heap.set, if_neg (by simp [nilCell])]
      exact hi.sat.read (by simp)
    · simp [Heap.set, Tree.root, Tree.size]
    · have hne : c.1 ≠ n + 1 := fun h => hnF (h ▸ (by rw [← cellsF_ad]; exact List.mem_map.mpr ⟨c, hc, rfl⟩))
      rw [Heap.set, if_neg hne]
      exact hi.sat.get c (by simp [hc])
  · have := hi.sat.nodup
    rw [cellsF_cons]
    simp only [Tree.cells, List.append_nil, List.cons_append, List.nil_append, List.map_cons, List.nodup_cons, List.mem_cons, cellsF_ad] at this ⊢
    refine ⟨?_, hnF, this.2⟩
    rintro (h | h)
    · omega
    · exact this.1 h
  · intro x
    have := hi.cover x
    rw [adF_cons, List.mem_append, this]
    simp only [Tree.ad, List.append_nil, List.mem_singleton]
    omega
  · intro p hp
    rcases List.mem_cons.mp hp with rfl | hp
    · exact ⟨if_pos rfl, trivial⟩
    · exact (hall p hp).1
  · intro p hp
    rcases List.mem_cons.mp hp with rfl | hp
    · intro e he
      simp only [Tree.seq, List.nil_append, List.mem_singleton] at he
      rw [he, if_pos rfl]
    · exact (hall p hp).2.1
  · intro p hp
    rcases List.mem_cons.mp hp with rfl | hp
    · exact ⟨trivial, trivial⟩
    · exact (hall p hp).2.2

theorem traverse_spec (hA : AggOK own agg fup id mul one) {f : Forest M} (hw : WF f.n f.par) {h : Heap T} {F : Fo T} (hi : Inv own agg id mul one f.n f.par f.own h F) {fuel : Nat} (hf : f.n + 1 < fuel) {x : Nat}
    (hx : f.In x) (g : T → T → T → Int → Int) : ∃ h' F' y, traverse fup fuel h x g = some (h', y) ∧ Inv own agg id mul one f.n f.par f.own h' F' ∧ Search own agg mul one f.own g 0 (f.rootPath x) y := by
  obtain ⟨s, h1, last, v, a, F1, e1, e2, e3, e4, e5, e6, e7, -, -⟩ := acc hA hw hi hf hx
  have rx := e5.sat.read (a := x) (n := ⟨0, a.root, 0, a.size + 0 + 1, v⟩) (by rw [cellsF_cons]; simp [Tree.cells, Tree.root, Tree.size])
  obtain ⟨nl, l1, l2, l3⟩ := read_tree (id := id) e5.sat List.mem_cons_self (t := a) (q := x) (fun c hc => by rw [cellsF_cons]; simp [Tree.cells, hc])
  obtain ⟨y, t1, t2⟩ := traverseLoop_spec (o := f.own) hA e5.sat g (.node x v a .nil) 0 fuel 0 a.size (fun c hc => by rw [cellsF_cons]; simp [hc]) e6 (e5.vals _ List.mem_cons_self)
    (by have := e5.size_le; omega) (fun b w l r hh => by cases hh; omega)
  refine ⟨h1, _, y, ?_, e5, ?_⟩
  · rw [traverse, e4]
    simp only [Option.bind_eq_bind, Option.bind_some]
    rw [rx]
    simp only [Option.bind_some]
    rw [l1]
    simp only [Option.bind_some]
    rw [root_node] at t1
    rw [l2, t1]
    rfl
  · rw [addr_node, e7] at t2
    rw [e1]
    exact t2

theorem step_spec (hA : AggOK own agg fup id mul one) {s : St T} {f : Forest M} (hh : Holds own agg id mul one s f) {fuel : Nat} (hf : f.n + 1 < fuel) {op : Op T} (hv : OpValid f op) :
    ∃ s', step agg fup fuel s op = some (s', specAns mul one f op) ∧ Holds own agg id mul one s' (specStep own f op) := by
  obtain ⟨hc, hw, F, hi⟩ := hh
  cases op with
  | add v =>
    refine ⟨(add s v).1, ?_, ?_, wf_add hw, (.node (f.n + 1) v .nil .nil, 0) :: F, ?_⟩
    · rw [step, add, hc]; rfl
    · simp [add, hc, specStep]
    · have := add_spec hi v
      rw [← hc] at this
      rw [add]
      simp only [specStep]
      rw [← hc]
      exact this
  | link x p =>
    obtain ⟨hx, hp, hr, hxp⟩ := hv
    obtain ⟨h', F', e1, e2⟩ := link_spec hA hw hi hf hx hp hr hxp
    exact ⟨{ s with mem := h' }, by rw [step, e1]; rfl, hc, wf_link hw hp hx hxp, F', e2⟩
  | cut x =>
    obtain ⟨h', F', e1, e2⟩ := cut_spec hA hw hi hf hv
    exact ⟨{ s with mem := h' }, by rw [step, e1]; rfl, hc, wf_cut hw, F', e2⟩
  | put x v =>
    obtain ⟨h', F', e1, e2⟩ := put_spec hA hw hi hf hv v
    exact ⟨{ s with mem := h' }, by rw [step, e1]; rfl, hc, hw, F', e2⟩
  | findRoot x =>
    obtain ⟨h', F', y, e1, e2, e3⟩ := findRoot_spec hA hw hi hf hv
    exact ⟨{ s with mem := h' }, by rw [step, e1, specAns, e3]; rfl, hc, hw, F', e2⟩
  | findParent x =>
    obtain ⟨h', F', e1, e2⟩ := findParent_spec hA hw hi hf hv
    exact ⟨{ s with mem := h' }, by rw [step, e1]; rfl, hc, hw, F', e2⟩
  | findLca x y =>
    obtain ⟨h', F', e1, e2⟩ := findLca_spec hA hw hi hf hv.1 hv.2
    exact ⟨{ s with mem := h' }, by rw [step, e1]; rfl, hc, hw, F', e2⟩
  | depth x =>
    obtain ⟨p, h1, last, v, a, F1, e1, e2, e3, e4, e5, e6, e7, -, -⟩ := acc hA hw hi hf hv
    have rx := e5.sat.read (a := x) (n := ⟨0, a.root, 0, a.size + 0 + 1, v⟩) (by rw [cellsF_cons]; simp [Tree.cells, Tree.root, Tree.size])
    obtain ⟨nl, l1, l2, l3⟩ := read_tree (id := id) e5.sat List.mem_cons_self (t := a) (q := x) (fun c hc => by rw [cellsF_cons]; simp [Tree.cells, hc])
    refine ⟨{ s with mem := h1 }, ?_, hc, hw, _, e5⟩
    rw [step, depth, e4]
    simp only [Option.bind_eq_bind, Option.bind_some]
    rw [rx]
    simp only [Option.bind_some]
    rw [l1]
    simp only [Option.bind_some]
    rw [l2, specAns, e1, ← seq_length (own := own), ← List.length_map (f := fun e : Nat × M => e.1)]
    change some (_, Ans.num ((addr own a).length : Int)) = _
    rw [e7]
    simp
  | get x =>
    obtain ⟨p, h1, last, v, a, F1, e1, e2, e3, e4, e5, e6, e7, -, -⟩ := acc hA hw hi hf hv
    have rx := e5.sat.read (a := x) (n := ⟨0, a.root, 0, a.size + 0 + 1, v⟩) (by rw [cellsF_cons]; simp [Tree.cells, Tree.root, Tree.size])
    refine ⟨{ s with mem := h1 }, ?_, hc, hw, _, e5⟩
    rw [step, get, e4]
    simp only [Option.bind_eq_bind, Option.bind_some]
    rw [rx]
    simp only [Option.bind_some]
    rw [specAns, e6.1, prod_seq (e5.vals _ List.mem_cons_self)]
    change some (_, Ans.val (prodOf mul one f.own (addr own (.node x v a .nil)))) = _
    rw [addr_node, e7, e1]
    rfl
  | level x d =>
    obtain ⟨h', F', y, e1, e2, e3⟩ := traverse_spec hA hw hi hf hv (fun _ _ _ i => d - i)
    refine ⟨{ s with mem := h' }, ?_, hc, hw, F', e2⟩
    rw [step, e1, specAns, search_level e3, Int.sub_zero]
    rfl

theorem specStep_n (own : T → M) (f : Forest M) (op : Op T) : (specStep own f op).n ≤ f.n + 1 := by cases op <;> simp [specStep]

theorem run_spec (hA : AggOK own agg fup id mul one) {fuel : Nat} : ∀ (ops : List (Op T)) {s : St T} {f : Forest M}, Holds own agg id mul one s f → ValidRun own f ops → f.n + ops.length + 1 < fuel →
    ∃ s', run agg fup fuel s ops = some (s', (specRun own mul one f ops).2) ∧ Holds own agg id mul one s' (specRun own mul one f ops).1 ∧ (specRun own mul one f ops).1.n ≤ f.n + ops.length
  | [], s, f, hh, _, _ => ⟨s, rfl, hh, Nat.le_refl _⟩
  | op :: ops, s, f, hh, hv, hf => by
    simp only [List.length_cons] at hf ⊢
    have hn := specStep_n own f op
    obtain ⟨s1, e1, e2⟩ := step_spec hA hh (fuel := fuel) (by omega) hv.1
    obtain ⟨s2, k1, k2, k3⟩ := run_spec hA (fuel := fuel) ops (f := specStep own f op) e2 hv.2 (by omega)
    refine ⟨s2, ?_, k2, by rw [specRun]; simp only; omega⟩
    rw [run, e1]
    simp only [Option.bind_eq_bind, Option.bind_some]
    rw [k1]
    rfl

theorem init_holds (own agg : T → M) (id : T) (mul : M → M → M) (one : M) : Holds own agg id mul one (init id) (Forest.empty one) where
  cnt := rfl
  wf := ⟨fun _ _ _ => Nat.zero_le _, fun _ => 0, fun _ _ _ h => absurd rfl h⟩
  inv := by
    refine ⟨[], ⟨?_, ?_⟩, ?_, ?_, ?_, ?_⟩
    · intro c hc
      simp only [cellsF, List.flatMap_nil, List.mem_singleton] at hc
      subst hc
      rfl
    · simp [cellsF]
    · intro x
      simp only [adF, List.flatMap_nil, Forest.empty]
      constructor
      · intro h; simp at h
      · intro h; omega
    · intro p hp; simp at hp
    · intro p hp; simp at hp
    · intro p hp; simp at hp

/-! ### The theorems -/

/-- Every history is executed without undefined behaviour, and all its answers are those of the forest. -/
theorem C47_run (hA : AggOK own agg fup id mul one) {ops : List (Op T)} (hv : ValidRun own (Forest.empty one) ops) {fuel : Nat} (hf : ops.length + 1 < fuel) :
    ∃ s, run agg fup fuel (init id) ops = some (s, (specRun own mul one (Forest.empty one) ops).2) := by
  obtain ⟨s, e1, -⟩ := run_spec hA ops (init_holds own agg id mul one) hv (fuel := fuel) (by simpa [Forest.empty] using hf)
  exact ⟨s, e1⟩

/-- `traverse` with any callback is a search on the path to the node. -/
theorem C47_traverse (hA : AggOK own agg fup id mul one) {ops : List (Op T)} (hv : ValidRun own (Forest.empty one) ops) {fuel : Nat} (hf : ops.length + 1 < fuel) {s : St T} {as : List (Ans M)}
    (hr : run agg fup fuel (init id) ops = some (s, as)) {f : Forest M} (hfo : f = (specRun own mul one (Forest.empty one) ops).1) {x : Nat} (hx : f.In x) (g : T → T → T → Int → Int) :
    ∃ h y, traverse fup fuel s.mem x g = some (h, y) ∧ Search own agg mul one f.own g 0 (f.rootPath x) y := by
  obtain ⟨s', e1, ⟨-, hw, F, hi⟩, e3⟩ := run_spec hA ops (init_holds own agg id mul one) hv (fuel := fuel) (by simpa [Forest.empty] using hf)
  rw [hr] at e1
  cases e1
  rw [← hfo] at hw hi e3
  obtain ⟨h, F', y, k1, -, k3⟩ := traverse_spec hA hw hi (fuel := fuel) (by simp [Forest.empty] at e3; omega) hx g
  exact ⟨h, y, k1, k3⟩

/-- The paths of the specification are complete: after any history the first node of the path to a node is a root,
consecutive nodes are parent and child, and the last node is the node itself. -/
theorem C47_paths (hA : AggOK own agg fup id mul one) {ops : List (Op T)} (hv : ValidRun own (Forest.empty one) ops) {f : Forest M} (hfo : f = (specRun own mul one (Forest.empty one) ops).1)
    {x : Nat} (hx : f.In x) : ∃ s, f.rootPath x = s ++ [x] ∧ Chain f.par 0 (f.rootPath x) ∧ ∀ y ∈ f.rootPath x, f.In y := by
  obtain ⟨s', -, ⟨-, hw, F, hi⟩, -⟩ := run_spec hA ops (init_holds own agg id mul one) hv (fuel := ops.length + 2) (by simp [Forest.empty])
  rw [← hfo] at hw
  obtain ⟨s, h1, h2, h3⟩ := path_of hw hx
  refine ⟨s, h1, by rw [h1]; exact h2, ?_⟩
  rw [h1]
  intro y hy
  rcases List.mem_append.mp hy with hy | hy
  · exact h3 y hy
  · rw [List.mem_singleton.mp hy]; exact hx

end

/-! ### A concrete case -/

/-- Values with the list of the own values on the path: not commutative. -/
def fupL (p l r : List Int × List Int) : List Int × List Int := (p.1, l.2 ++ p.1 ++ r.2)

theorem fupL_ok : AggOK (T := List Int × List Int) (M := List Int) (·.1) (·.2) fupL ([], []) (· ++ ·) [] where
  assoc := by simp
  one_mul := by simp
  mul_one := by simp
  own_fup := by simp [fupL]
  agg_fup := by simp [fupL]
  agg_id := rfl

/-- A value with the given own value; the aggregate need not be right. -/
def mk (a : Int) : List Int × List Int := ([a], [])

/-- A history with links, cuts, assignments and all queries. -/
def sample : List (Op (List Int × List Int)) :=
  [.add (mk 10), .add (mk 20), .add (mk 30), .add (mk 40), .add (mk 50), .link 2 1, .link 3 2, .link 4 2, .link 5 4, .findLca 3 5, .depth 5, .get 5, .findParent 5, .findRoot 5, .put 2 (mk 25), .get 5,
    .level 5 2, .level 5 7, .cut 4, .findLca 3 5, .findRoot 5, .depth 5, .findParent 4, .link 4 3, .get 5, .cut 1, .level 5 (-1), .findLca 5 3]

instance {f : Forest M} {x : Nat} : Decidable (f.In x) := inferInstanceAs (Decidable (_ ∧ _))
instance {f : Forest M} : ∀ {op : Op T}, Decidable (OpValid f op)
  | .add _ => inferInstanceAs (Decidable True)
  | .link _ _ => inferInstanceAs (Decidable (_ ∧ _ ∧ _ ∧ _))
  | .cut _ => inferInstanceAs (Decidable (_ ∧ _))
  | .put _ _ => inferInstanceAs (Decidable (_ ∧ _))
  | .findRoot _ => inferInstanceAs (Decidable (_ ∧ _))
  | .findParent _ => inferInstanceAs (Decidable (_ ∧ _))
  | .findLca _ _ => inferInstanceAs (Decidable ((_ ∧ _) ∧ (_ ∧ _)))
  | .depth _ => inferInstanceAs (Decidable (_ ∧ _))
  | .get _ => inferInstanceAs (Decidable (_ ∧ _))
  | .level _ _ => inferInstanceAs (Decidable (_ ∧ _))
instance decValidRun {own : T → M} : ∀ {f : Forest M} {ops : List (Op T)}, Decidable (ValidRun own f ops)
  | _, [] => inferInstanceAs (Decidable True)
  | f, op :: ops => @instDecidableAnd _ _ inferInstance (decValidRun (f := specStep own f op) (ops := ops))

example : ValidRun (fun v : List Int × List Int => v.1) (Forest.empty []) sample := by decide +kernel

/-- The answers of the forest ... -/
example : (specRun (fun v : List Int × List Int => v.1) (· ++ ·) [] (Forest.empty []) sample).2 =
    [.node 1, .node 2, .node 3, .node 4, .node 5, .unit, .unit, .unit, .unit, .node 2, .num 3, .val [10, 20, 40, 50], .node 4, .node 1, .unit, .val [10, 25, 40, 50],
      .node 4, .node 0, .unit, .node 0, .node 4, .num 1, .node 0, .unit, .val [10, 25, 30, 40, 50], .unit, .node 0, .node 3] := by decide +kernel

/-- ... are those of the program. -/
example : (run (fun v : List Int × List Int => v.2) fupL 30 (init ([], [])) sample).map (·.2) =
    some [.node 1, .node 2, .node 3, .node 4, .node 5, .unit, .unit, .unit, .unit, .node 2, .num 3, .val [10, 20, 40, 50], .node 4, .node 1, .unit, .val [10, 25, 40, 50],
      .node 4, .node 0, .unit, .node 0, .node 4, .num 1, .node 0, .unit, .val [10, 25, 30, 40, 50], .unit, .node 0, .node 3] := by decide +kernel

/-- Linking a node that is not a root is not checked, and does not move the node: the root of its tree is attached. -/
theorem C47_link_not_root : (run (fun v : List Int × List Int => v.2) fupL 30 (init ([], []))
    [.add (mk 10), .add (mk 20), .add (mk 30), .link 3 1, .link 3 2, .findParent 3, .findParent 1, .findRoot 3]).map (fun r => r.2.drop 5) = some [.node 1, .node 2, .node 2] := by decide +kernel

end Altruct.LinkCut
