/-
The preferred paths and `access`.
-/
import Verif.LinkCut.Splay
import Mathlib.Data.List.Induction

namespace Altruct.LinkCut

variable {T M : Type} {own agg : T → M} {fup : T → T → T → T} {id : T} {mul : M → M → M} {one : M}

/-! ### Paths in the represented forest -/

/-- Every node is the parent of the next one, and `q` the parent of the first one. -/
def Chain (P : Nat → Nat) : Nat → List Nat → Prop
  | _, [] => True
  | q, x :: s => P x = q ∧ Chain P x s

/-- The parents are nodes or 0, and there are no cycles. -/
structure WF (n : Nat) (P : Nat → Nat) : Prop where
  rng : ∀ x, 1 ≤ x → x ≤ n → P x ≤ n
  rank : ∃ rk : Nat → Nat, ∀ x, 1 ≤ x → x ≤ n → P x ≠ 0 → rk (P x) < rk x

theorem chain_append {P : Nat → Nat} : ∀ {s w : List Nat} {q x : Nat}, Chain P q (s ++ x :: w) ↔ Chain P q (s ++ [x]) ∧ Chain P x w
  | [], w, q, x => by simp [Chain]
  | y :: s, w, q, x => by
    have := chain_append (P := P) (s := s) (w := w) (q := y) (x := x)
    simp only [List.cons_append, Chain]
    tauto

theorem chain_unique {P : Nat → Nat} {x : Nat} : ∀ {s s' : List Nat}, Chain P 0 (s ++ [x]) → Chain P 0 (s' ++ [x]) → (∀ y ∈ s, y ≠ 0) → (∀ y ∈ s', y ≠ 0) → s = s' := by
  intro s
  induction s using List.reverseRecOn generalizing x with
  | nil =>
    intro s' h h' _ hz'
    rcases List.eq_nil_or_concat s' with rfl | ⟨u, y, rfl⟩
    · rfl
    · rw [List.concat_eq_append, List.append_assoc] at h'
      have h1 := (chain_append.mp h').2.1
      exact absurd (h.1.symm.trans h1).symm (hz' y (by simp))
  | append_singleton s z ih =>
    intro s' h h' hz hz'
    rw [List.append_assoc] at h
    obtain ⟨h1, h2⟩ := chain_append.mp h
    rcases List.eq_nil_or_concat s' with rfl | ⟨u, y, rfl⟩
    · exact absurd (h'.1.symm.trans h2.1).symm (hz z (by simp))
    · rw [List.concat_eq_append, List.append_assoc] at h'
      obtain ⟨h3, h4⟩ := chain_append.mp h'
      have : z = y := h2.1.symm.trans h4.1
      subst this
      rw [List.concat_eq_append, ih h1 h3 (fun y hy => hz y (by simp [hy])) (fun y hy => hz' y (by simp [hy]))]

theorem chain_rank {n : Nat} {P : Nat → Nat} {rk : Nat → Nat} (hr : ∀ x, 1 ≤ x → x ≤ n → P x ≠ 0 → rk (P x) < rk x) :
    ∀ {s : List Nat} {q : Nat}, Chain P q s → q ≠ 0 → (∀ y ∈ s, 1 ≤ y ∧ y ≤ n) → ∀ y ∈ s, rk q < rk y
  | [], _, _, _, _, y, hy => by simp at hy
  | x :: s, q, hc, hq, hs, y, hy => by
    have hx := hs x (by simp)
    have h1 : rk q < rk x := by
      have := hr x hx.1 hx.2 (by rw [hc.1]; exact hq)
      rwa [hc.1] at this
    rcases List.mem_cons.mp hy with rfl | hy
    · exact h1
    · exact Nat.lt_trans h1 (chain_rank hr hc.2 (by omega) (fun z hz => hs z (by simp [hz])) y hy)

theorem chain_nodup {n : Nat} {P : Nat → Nat} (hw : WF n P) : ∀ {s : List Nat} {q : Nat}, Chain P q s → (∀ y ∈ s, 1 ≤ y ∧ y ≤ n) → s.Nodup
  | [], _, _, _ => by simp
  | x :: s, q, hc, hs => by
    obtain ⟨rk, hr⟩ := hw.rank
    rw [List.nodup_cons]
    refine ⟨fun hx => ?_, chain_nodup hw hc.2 (fun z hz => hs z (by simp [hz]))⟩
    exact Nat.lt_irrefl _ (chain_rank hr hc.2 (by have := hs x (by simp); omega) (fun z hz => hs z (by simp [hz])) x hx)

theorem length_le {n : Nat} {s : List Nat} (hd : s.Nodup) (hs : ∀ y ∈ s, 1 ≤ y ∧ y ≤ n) : s.length ≤ n := by
  have := (List.subperm_of_subset hd (l₂ := List.range' 1 n) (fun y hy => by have := hs y hy; rw [List.mem_range'_1]; omega)).length_le
  simpa using this

theorem path_exists {n : Nat} {P : Nat → Nat} (hw : WF n P) {x : Nat} (h1 : 1 ≤ x) (hn : x ≤ n) : ∃ s, Chain P 0 (s ++ [x]) ∧ ∀ y ∈ s, 1 ≤ y ∧ y ≤ n := by
  obtain ⟨rk, hr⟩ := hw.rank
  induction hk : rk x using Nat.strongRecOn generalizing x with
  | ind k ih =>
    by_cases hp : P x = 0
    · exact ⟨[], ⟨hp, trivial⟩, by simp⟩
    · obtain ⟨s, e1, e2⟩ := ih (rk (P x)) (by rw [← hk]; exact hr x h1 hn hp) (x := P x) (by omega) (hw.rng x h1 hn) rfl
      refine ⟨s ++ [P x], ?_, ?_⟩
      · rw [List.append_assoc]
        exact chain_append.mpr ⟨e1, rfl, trivial⟩
      · intro y hy
        rcases List.mem_append.mp hy with hy | hy
        · exact e2 y hy
        · rw [List.mem_singleton.mp hy]
          exact ⟨by omega, hw.rng x h1 hn⟩

/-! ### The preferred paths in memory -/

/-- Trees with the parent of their root. -/
abbrev Fo (T : Type) := List (Tree T × Nat)

/-- The memory cells of all trees. -/
def cellsF (F : Fo T) : List (Nat × Node T) := F.flatMap (fun p => p.1.cells p.2)

/-- The addresses of all trees. -/
def adF (F : Fo T) : List Nat := F.flatMap (fun p => p.1.ad)

theorem cellsF_cons {t : Tree T} {q : Nat} {F : Fo T} : cellsF ((t, q) :: F) = t.cells q ++ cellsF F := rfl

theorem adF_cons {t : Tree T} {q : Nat} {F : Fo T} : adF ((t, q) :: F) = t.ad ++ adF F := rfl

/-- The addresses of a tree in order. -/
def addr (own : T → M) (t : Tree T) : List Nat := (t.seq own).map (·.1)

/-- The trees in memory represent the forest with the parents `P` and the values `o`. -/
structure Inv (own agg : T → M) (id : T) (mul : M → M → M) (one : M) (n : Nat) (P : Nat → Nat) (o : Nat → M) (h : Heap T) (F : Fo T) : Prop where
  sat : Sat h (nilCell id :: cellsF F)
  cover : ∀ x, x ∈ adF F ↔ 1 ≤ x ∧ x ≤ n
  chain : ∀ p ∈ F, Chain P p.2 (addr own p.1)
  vals : ∀ p ∈ F, ∀ e ∈ p.1.seq own, o e.1 = e.2
  ok : ∀ p ∈ F, OkB own agg mul one p.1

section
variable {n : Nat} {P : Nat → Nat} {o : Nat → M} {h : Heap T} {F : Fo T}

theorem mem_addr {t : Tree T} {x : Nat} : x ∈ addr own t ↔ x ∈ t.ad := (mem_ad (own := own)).symm

theorem cellsF_ad (F : Fo T) : (cellsF F).map (·.1) = adF F := by
  rw [cellsF, adF, List.map_flatMap]
  simp only [cells_ad]

theorem Inv.perm (hi : Inv own agg id mul one n P o h F) {F' : Fo T} (hp : F.Perm F') : Inv own agg id mul one n P o h F' where
  sat := hi.sat.perm ((hp.flatMap_right _).cons _)
  cover x := by rw [← hi.cover x]; exact (hp.flatMap_right _).mem_iff.symm
  chain p hm := hi.chain p (hp.mem_iff.mpr hm)
  vals p hm := hi.vals p (hp.mem_iff.mpr hm)
  ok p hm := hi.ok p (hp.mem_iff.mpr hm)

theorem Inv.nodup (hi : Inv own agg id mul one n P o h F) : (adF F).Nodup := by
  have := hi.sat.nodup
  rw [List.map_cons, List.nodup_cons, cellsF_ad] at this
  exact this.2

theorem Inv.tail {p : Tree T × Nat} {F : Fo T} (hi : Inv own agg id mul one n P o h (p :: F)) : ∀ x ∈ p.1.ad, x ∉ adF F := by
  have := hi.nodup
  rw [adF, List.flatMap_cons, List.nodup_append] at this
  exact fun x hx hx' => this.2.2 x hx x hx' rfl

theorem Inv.mem {p : Tree T × Nat} (hi : Inv own agg id mul one n P o h F) (hp : p ∈ F) : ∀ x ∈ p.1.ad, 1 ≤ x ∧ x ≤ n :=
  fun x hx => (hi.cover x).mp (List.mem_flatMap.mpr ⟨p, hp, hx⟩)

theorem Inv.find {F : Fo T} (hi : Inv own agg id mul one n P o h F) {x : Nat} (h1 : 1 ≤ x) (hn : x ≤ n) : ∃ t q F', F.Perm ((t, q) :: F') ∧ x ∈ t.ad := by
  obtain ⟨⟨t, q⟩, hm, hx⟩ := List.mem_flatMap.mp ((hi.cover x).mpr ⟨h1, hn⟩)
  obtain ⟨u, w, rfl⟩ := List.append_of_mem hm
  exact ⟨t, q, u ++ w, List.perm_middle, hx⟩

theorem cells_child : ∀ {t : Tree T} {q : Nat} {c : Nat × Node T}, c ∈ t.cells q → (c.2.left = 0 ∨ c.2.left ∈ t.ad) ∧ (c.2.right = 0 ∨ c.2.right ∈ t.ad)
  | .nil, _, _, hc => by simp [Tree.cells] at hc
  | .node a v l r, q, c, hc => by
    have key : ∀ u : Tree T, u.root = 0 ∨ u.root ∈ u.ad := fun u => by
      by_cases h : u.root = 0
      · exact .inl h
      · exact .inr (root_mem h)
    rcases List.mem_cons.mp hc with rfl | hc
    · simp only [Tree.ad, List.mem_cons, List.mem_append]
      have := key l; have := key r
      tauto
    · simp only [Tree.ad, List.mem_cons, List.mem_append]
      rcases List.mem_append.mp hc with hc | hc
      · have := cells_child hc; tauto
      · have := cells_child hc; tauto

theorem Inv.parent_not_mem (hw : WF n P) {t : Tree T} {q : Nat} (hi : Inv own agg id mul one n P o h ((t, q) :: F)) (hq : q ≠ 0) : q ∉ t.ad := by
  obtain ⟨rk, hr⟩ := hw.rank
  intro hx
  exact Nat.lt_irrefl _ (chain_rank hr (hi.chain (t, q) (by simp)) hq (fun y hy => hi.mem (p := (t, q)) (by simp) y (mem_addr.mp hy)) q (mem_addr.mpr hx))

theorem Inv.parent_rng (hw : WF n P) {t : Tree T} {q : Nat} (hi : Inv own agg id mul one n P o h ((t, q) :: F)) {x : Nat} (hx : x ∈ t.ad) : q ≤ n := by
  have hc := hi.chain (t, q) (by simp)
  have hm := mem_addr (own := own).mpr hx
  cases hl : addr own t with
  | nil => rw [hl] at hm; simp at hm
  | cons y s =>
    rw [hl] at hc
    have hy := hi.mem (p := (t, q)) (by simp) y (mem_addr (own := own).mp (by rw [hl]; simp))
    rw [← show P y = q from hc.1]
    exact hw.rng y hy.1 hy.2

theorem Inv.free (hw : WF n P) {t : Tree T} {q : Nat} (hi : Inv own agg id mul one n P o h ((t, q) :: F)) {x : Nat} (hx : x ∈ t.ad) : Free (nilCell id :: cellsF F) q t.ad := by
  by_cases hq : q = 0
  · subst hq
    refine ⟨_, List.mem_cons_self, ?_⟩
    intro y hy
    have := hi.mem (p := (t, 0)) (by simp) y hy
    constructor <;> (simp only; omega)
  · have hqn := hi.parent_rng hw hx
    have hqt := hi.parent_not_mem hw hq
    have hqF : q ∈ adF F := by
      have := (hi.cover q).mpr ⟨by omega, hqn⟩
      rw [adF_cons, List.mem_append] at this
      exact this.resolve_left hqt
    rw [← cellsF_ad, List.mem_map] at hqF
    obtain ⟨⟨q', g⟩, hg, rfl⟩ := hqF
    refine ⟨g, by simp [hg], ?_⟩
    intro y hy
    have hy0 := hi.mem (p := (t, q')) (by simp) y hy
    obtain ⟨p, hp1, hp2⟩ := List.mem_flatMap.mp hg
    have hyF := hi.tail y hy
    have hc := cells_child hp2
    have hsub : ∀ z ∈ p.1.ad, z ∈ adF F := fun z hz => List.mem_flatMap.mpr ⟨p, hp1, hz⟩
    constructor
    · rintro he
      rcases hc.1 with h1 | h1
      · simp only at h1; omega
      · simp only [he] at h1; exact hyF (hsub _ h1)
    · rintro he
      rcases hc.2 with h1 | h1
      · simp only at h1; omega
      · simp only [he] at h1; exact hyF (hsub _ h1)

theorem Inv.size_le {t : Tree T} {q : Nat} (hi : Inv own agg id mul one n P o h ((t, q) :: F)) : t.size ≤ n := by
  have hd := hi.nodup
  rw [adF, List.flatMap_cons, List.nodup_append] at hd
  have : t.ad.length ≤ n := length_le hd.1 (hi.mem (p := (t, q)) (by simp))
  rw [← seq_length (own := own), ← List.length_map (f := fun e : Nat × M => e.1), seq_ad.length_eq]
  omega

/-- Changing the first tree without changing its sequence. -/
theorem Inv.replace {t t' : Tree T} {q : Nat} (hi : Inv own agg id mul one n P o h ((t, q) :: F)) {h' : Heap T} (hs : Sat h' (t'.cells q ++ nilCell id :: cellsF F)) (hseq : t'.seq own = t.seq own)
    (hok : OkB own agg mul one t') : Inv own agg id mul one n P o h' ((t', q) :: F) where
  sat := hs.perm (by rw [cellsF_cons]; exact List.perm_middle)
  cover x := by
    rw [← hi.cover x, adF_cons, adF_cons, List.mem_append, List.mem_append, mem_ad (own := own), hseq, ← mem_ad (own := own)]
  chain p hp := by
    rcases List.mem_cons.mp hp with rfl | hp
    · have := hi.chain (t, q) (by simp)
      simp only [addr] at this ⊢
      rwa [hseq]
    · exact hi.chain p (by simp [hp])
  vals p hp := by
    rcases List.mem_cons.mp hp with rfl | hp
    · simp only [hseq]
      exact hi.vals (t, q) (by simp)
    · exact hi.vals p (by simp [hp])
  ok p hp := by
    rcases List.mem_cons.mp hp with rfl | hp
    · exact hok
    · exact hi.ok p (by simp [hp])

theorem splay_inv (hA : AggOK own agg fup id mul one) (hw : WF n P) {t : Tree T} {q : Nat} (hi : Inv own agg id mul one n P o h ((t, q) :: F)) {x : Nat} (hx : x ∈ t.ad) {fuel : Nat} (hf : n < fuel) :
    ∃ h' v a b, splay fup fuel h x = some h' ∧ Inv own agg id mul one n P o h' ((.node x v a b, q) :: F) ∧ (Tree.node x v a b).seq own = t.seq own ∧
      (Ok own agg mul one t → Ok own agg mul one (.node x v a b)) := by
  obtain ⟨C, v, a, b, rfl, hC⟩ := plug_split (own := own) hx
  have hsz := hi.size_le
  have hs : Sat h ((plug C (.node x v a b)).cells q ++ nilCell id :: cellsF F) := hi.sat.perm (by rw [cellsF_cons]; exact List.perm_middle.symm)
  obtain ⟨h', v', a', b', e1, e2, e3, e4⟩ := splay_spec hA (by simp) fuel C h v a b (by omega) hs (hi.free hw hx)
  have hok := e4 (hi.ok (_, q) (by simp))
  refine ⟨h', v', a', b', e1, hi.replace e2 e3 hok.1, e3, fun ho => hok.2 ?_⟩
  match C, ho with
  | [], ho => exact .inr ho
  | f :: C, _ => exact .inl (by simp)

theorem addr_node {x : Nat} {v : T} {a b : Tree T} : addr own (.node x v a b) = addr own a ++ x :: addr own b := by
  simp [addr, Tree.seq]

theorem ad_node {x : Nat} {v : T} {a b : Tree T} {y : Nat} : y ∈ (Tree.node x v a b).ad ↔ y = x ∨ y ∈ a.ad ∨ y ∈ b.ad := by
  simp [Tree.ad]

/-- Replacing the preferred child. -/
theorem join_inv (hA : AggOK own agg fup id mul one) {x q : Nat} {v : T} {l r tl : Tree T} (hi : Inv own agg id mul one n P o h ((.node x v l r, q) :: (tl, x) :: F)) (hok : Ok own agg mul one tl) :
    ∃ h1 h2 v', h.upd x (fun n => { n with right := tl.root }) = some h1 ∧ update fup h1 x = some h2 ∧ Inv own agg id mul one n P o h2 ((.node x v' l tl, q) :: (r, x) :: F) ∧
      Ok own agg mul one (.node x v' l tl) := by
  have hx0 : x ≠ 0 := by have := hi.mem (p := (.node x v l r, q)) (by simp) x (by simp [Tree.ad]); omega
  obtain ⟨ol, orr⟩ := hi.ok (.node x v l r, q) (by simp)
  have s1 := hi.sat.perm (L' := (x, ⟨q, l.root, r.root, l.size + r.size + 1, v⟩) :: (l.cells x ++ r.cells x ++ tl.cells x ++ cellsF F ++ [nilCell id])) (by
    simp only [cellsF_cons, Tree.cells]; perms)
  obtain ⟨e1, s2⟩ := s1.upd (fun n => { n with right := tl.root })
  obtain ⟨h2, e2, s3⟩ := update_spec (fup := fup) (a := l) (b := tl) (y := x) (z := x) (id := id) hx0 s2 (by simp) (fun c hc => by simp [hc]) (fun c hc => by simp [hc])
  have hseq : (Tree.node x v l r).seq own = l.seq own ++ (x, own v) :: r.seq own := rfl
  have hch : Chain P q (addr own l ++ x :: addr own r) := by
    have := hi.chain (.node x v l r, q) (by simp)
    rwa [addr_node] at this
  have hok2 : Ok own agg mul one (.node x (fup v (l.val id) (tl.val id)) l tl) := ok_update hA ol hok
  refine ⟨_, h2, fup v (l.val id) (tl.val id), e1, e2, ⟨?_, ?_, ?_, ?_, ?_⟩, hok2⟩
  · refine s3.perm ?_
    simp only [cellsF_cons, Tree.cells]
    perms
  · intro y
    rw [← hi.cover y]
    simp only [adF_cons, List.mem_append, ad_node]
    tauto
  · intro p hp
    simp only [List.mem_cons] at hp
    rcases hp with rfl | rfl | hp
    · simp only [addr_node]
      rw [chain_append]
      exact ⟨(chain_append.mp hch).1, hi.chain (tl, x) (by simp)⟩
    · exact (chain_append.mp hch).2
    · exact hi.chain p (by simp [hp])
  · intro p hp
    simp only [List.mem_cons] at hp
    rcases hp with rfl | rfl | hp
    · intro e he
      simp only [Tree.seq, hA.own_fup, List.mem_append, List.mem_cons] at he
      rcases he with he | he | he
      · exact hi.vals (.node x v l r, q) (by simp) e (by rw [hseq]; simp [he])
      · exact hi.vals (.node x v l r, q) (by simp) e (by rw [hseq]; simp [he])
      · exact hi.vals (tl, x) (by simp) e he
    · exact fun e he => hi.vals (.node x v l r, q) (by simp) e (by rw [hseq]; simp [he])
    · exact hi.vals p (by simp [hp])
  · intro p hp
    simp only [List.mem_cons] at hp
    rcases hp with rfl | rfl | hp
    · exact hok2.okB
    · exact orr.okB
    · exact hi.ok p (by simp [hp])

theorem accessLoop_spec (hA : AggOK own agg fup id mul one) (hw : WF n P) {fuel : Nat} (hf : n < fuel) : ∀ (rounds : Nat) (s1 : List Nat) (h : Heap T) (tl : Tree T) (temp : Nat) (F : Fo T),
    s1.length + 2 ≤ rounds → Inv own agg id mul one n P o h ((tl, temp) :: F) → Ok own agg mul one tl → 1 ≤ temp → temp ≤ n → Chain P 0 (s1 ++ [temp]) → (∀ y ∈ s1, 1 ≤ y ∧ y ≤ n) →
    ∃ h' last t F', accessLoop fup fuel rounds h temp tl.root = some (h', last) ∧ Inv own agg id mul one n P o h' ((t, 0) :: F') ∧ Ok own agg mul one t ∧
      addr own t = s1 ++ temp :: addr own tl ∧
      (∀ p ∈ F, (∀ y ∈ s1 ++ [temp], y ∉ p.1.ad) → p ∈ F') ∧
      ∀ t0, (t0, 0) ∈ F → (∃ y ∈ (s1 ++ [temp]).head?, y ∈ t0.ad) → last ∈ t0.ad ∧ ∃ u w, s1 ++ temp :: addr own tl = u ++ last :: w ∧ ∀ y ∈ w, y ∈ tl.ad ∨ y ∉ t0.ad
  | 0, s1, h, tl, temp, F, hr, _, _, _, _, _, _ => by omega
  | rounds + 1, s1, h, tl, temp, F, hr, hi, hok, h1, hn, hc, hs => by
    have ht0 : temp ≠ 0 := by omega
    have htl := hi.parent_not_mem hw ht0
    obtain ⟨t, q, F', hp, hx⟩ : ∃ t q F', F.Perm ((t, q) :: F') ∧ temp ∈ t.ad := by
      have := (hi.cover temp).mpr ⟨h1, hn⟩
      rw [adF_cons, List.mem_append] at this
      obtain ⟨⟨t, q⟩, hm, hx⟩ := List.mem_flatMap.mp (this.resolve_left htl)
      obtain ⟨u, w, rfl⟩ := List.append_of_mem hm
      exact ⟨t, q, u ++ w, List.perm_middle, hx⟩
    have hi1 := hi.perm (((hp.cons _)).trans (.swap _ _ _))
    obtain ⟨h2, v, l, r, e1, hi2, hseq, -⟩ := splay_inv hA hw hi1 hx hf
    obtain ⟨h3, h4, v', e2, e3, hi3, hok3⟩ := join_inv hA hi2 hok
    have hread : h4 temp = some ⟨q, l.root, tl.root, l.size + tl.size + 1, v'⟩ := hi3.sat.read (by simp [cellsF_cons, Tree.cells])
    have hstep : accessLoop fup fuel (rounds + 1) h temp tl.root = accessLoop fup fuel rounds h4 q temp := by
      rw [accessLoop, if_pos ht0, e1]
      simp only [Option.bind_eq_bind, Option.bind_some]
      rw [e2]
      simp only [Option.bind_some]
      rw [e3]
      simp only [Option.bind_some]
      rw [hread]
      rfl
    rw [hstep]
    have hlr : ∀ y ∈ addr own l, y ∈ t.ad := by
      intro y hy
      rw [← mem_addr (own := own), addr, ← hseq]
      change y ∈ addr own (.node temp v l r)
      rw [addr_node]
      simp [hy]
    have hch : Chain P q (addr own l ++ [temp]) := by
      have := hi2.chain (.node temp v l r, q) (by simp)
      rw [addr_node] at this
      exact (chain_append.mp this).1
    have hlz : ∀ y ∈ addr own l, 1 ≤ y ∧ y ≤ n := fun y hy => hi1.mem (p := (t, q)) (by simp) y (hlr y hy)
    have htF' : ∀ y ∈ t.ad, y ∉ adF F' := fun y hy hy' => hi1.tail y hy (by rw [adF_cons, List.mem_append]; exact .inr hy')
    by_cases hq : q = 0
    · subst hq
      have hs1 : s1 = addr own l := chain_unique hc hch (fun y hy => by have := hs y hy; omega) (fun y hy => by have := hlz y hy; omega)
      refine ⟨h4, temp, _, _, ?_, hi3, hok3, by rw [addr_node, hs1], fun p hm hd => ?_, ?_⟩
      · obtain ⟨k, hk⟩ : ∃ k, rounds = k + 1 := ⟨rounds - 1, by omega⟩
        rw [hk, accessLoop, if_neg (by simp)]
      · rcases List.mem_cons.mp (hp.mem_iff.mp hm) with rfl | hm'
        · exact absurd hx (hd temp (by simp))
        · simp [hm']
      · rintro t0 hm ⟨y, hy, hyt⟩
        have hyt1 : y ∈ t.ad := by
          cases s1 with
          | nil => simp at hy; rwa [← hy]
          | cons z s1 => simp at hy; exact hlr y (by rw [← hs1, ← hy]; simp)
        rcases List.mem_cons.mp (hp.mem_iff.mp hm) with he | hm'
        · cases he
          exact ⟨hx, s1, addr own tl, rfl, fun y hy => .inl (mem_addr.mp hy)⟩
        · exact absurd (List.mem_flatMap.mpr ⟨(t0, 0), hm', hyt⟩) (htF' y hyt1)
    · have hqn := hi1.parent_rng hw hx
      obtain ⟨u, c1, c2⟩ := path_exists hw (x := q) (by omega) hqn
      have hs1 : s1 = u ++ q :: addr own l := by
        refine chain_unique hc ?_ (fun y hy => by have := hs y hy; omega) ?_
        · rw [List.append_assoc, List.cons_append]
          exact chain_append.mpr ⟨c1, hch⟩
        · intro y hy
          rcases List.mem_append.mp hy with hy | hy
          · have := c2 y hy; omega
          · rcases List.mem_cons.mp hy with rfl | hy
            · exact hq
            · have := hlz y hy; omega
      subst hs1
      obtain ⟨h5, last, t5, F5, k1, k2, k3, k4, k6, k5⟩ := accessLoop_spec hA hw hf rounds u h4 (.node temp v' l tl) q ((r, temp) :: F') (by simp at hr; omega) hi3 hok3 (by omega) hqn c1 c2
      refine ⟨h5, last, t5, F5, k1, k2, k3, ?_, ?_, ?_⟩
      · rw [k4, addr_node]
        simp
      · intro p hm hd
        rcases List.mem_cons.mp (hp.mem_iff.mp hm) with rfl | hm'
        · exact absurd hx (hd temp (by simp))
        · refine k6 p (by simp [hm']) (fun y hy => hd y ?_)
          simp only [List.mem_append, List.mem_cons, List.mem_singleton] at hy ⊢
          tauto
      · rintro t0 hm ⟨y, hy, hyt⟩
        have hm' : (t0, 0) ∈ F' := by
          rcases List.mem_cons.mp (hp.mem_iff.mp hm) with he | hm'
          · cases he; exact absurd rfl hq
          · exact hm'
        obtain ⟨j1, u2, w2, j2, j3⟩ := k5 t0 (by simp [hm']) ⟨y, by
          cases u with
          | nil => simpa using hy
          | cons z u => simpa using hy, hyt⟩
        refine ⟨j1, u2, w2, ?_, ?_⟩
        · rw [← j2, addr_node]
          simp
        · intro y hy
          have hdis : ∀ y ∈ t.ad, y ∉ t0.ad := fun y h1 h2 => htF' y h1 (List.mem_flatMap.mpr ⟨(t0, 0), hm', h2⟩)
          rcases j3 y hy with hy | hy
          · rcases ad_node.mp hy with rfl | hy | hy
            · exact .inr (hdis _ hx)
            · exact .inr (hdis _ (hlr y (mem_addr.mpr hy)))
            · exact .inl hy
          · exact .inr hy

/-- `access` makes the path from the root to the node preferred and the node the root of its tree. -/
theorem access_spec (hA : AggOK own agg fup id mul one) (hw : WF n P) (hi : Inv own agg id mul one n P o h F) {fuel : Nat} (hf : n + 1 < fuel) {x : Nat} (h1 : 1 ≤ x) (hn : x ≤ n)
    {s : List Nat} (hc : Chain P 0 (s ++ [x])) (hs : ∀ y ∈ s, 1 ≤ y ∧ y ≤ n) :
    ∃ h' last v a F', access fup fuel h x = some (h', last) ∧ Inv own agg id mul one n P o h' ((.node x v a .nil, 0) :: F') ∧ Ok own agg mul one (.node x v a .nil) ∧
      addr own a = s ∧ (∀ p ∈ F, (∀ y ∈ s ++ [x], y ∉ p.1.ad) → p ∈ F') ∧
      ∀ t0, (t0, 0) ∈ F → (∃ y ∈ (s ++ [x]).head?, y ∈ t0.ad) → last ∈ t0.ad ∧ ∃ u w, s ++ [x] = u ++ last :: w ∧ ∀ y ∈ w, y ∉ t0.ad := by
  have hsx : ∀ y ∈ s ++ [x], 1 ≤ y ∧ y ≤ n := by
    intro y hy
    rcases List.mem_append.mp hy with hy | hy
    · exact hs y hy
    · rw [List.mem_singleton.mp hy]; exact ⟨h1, hn⟩
  have hnd := chain_nodup hw hc hsx
  have hlen := length_le hnd hsx
  have hi0 : Inv own agg id mul one n P o h ((.nil, x) :: F) := by
    refine ⟨hi.sat, hi.cover, ?_, ?_, ?_⟩
    · intro p hp
      rcases List.mem_cons.mp hp with rfl | hp
      · trivial
      · exact hi.chain p hp
    · intro p hp
      rcases List.mem_cons.mp hp with rfl | hp
      · simp [Tree.seq]
      · exact hi.vals p hp
    · intro p hp
      rcases List.mem_cons.mp hp with rfl | hp
      · trivial
      · exact hi.ok p hp
  obtain ⟨h2, last, t, F2, e1, e2, e3, e4, e6, e5⟩ := accessLoop_spec hA hw (fuel := fuel) (by omega) fuel s h .nil x F (by simp at hlen; omega) hi0 trivial h1 hn hc hs
  have hxt : x ∈ t.ad := by rw [← mem_addr (own := own), e4]; simp
  obtain ⟨h3, v, a, b, k1, k2, k3, k4⟩ := splay_inv hA hw e2 hxt (fuel := fuel) (by omega)
  have k5 : addr own a ++ x :: addr own b = s ++ [x] := by
    rw [← addr_node (v := v), addr, k3]
    exact e4
  have hb : addr own b = [] := by
    rw [← k5] at hnd
    rcases List.eq_nil_or_concat (addr own b) with hb | ⟨w, z, hb⟩
    · exact hb
    · rw [hb, List.concat_eq_append] at k5 hnd
      have hz : z = x := by
        rw [show addr own a ++ x :: (w ++ [z]) = (addr own a ++ x :: w) ++ [z] by simp] at k5
        simpa using (List.append_inj' k5 rfl).2
      subst hz
      rw [List.nodup_append] at hnd
      have := hnd.2.1
      simp at this
  have hbn : b = .nil := by
    cases b with
    | nil => rfl
    | node y w b1 b2 => rw [addr_node] at hb; simp at hb
  subst hbn
  refine ⟨h3, last, v, a, F2, ?_, k2, k4 e3, ?_, e6, ?_⟩
  · rw [access, show (0 : Nat) = (Tree.nil : Tree T).root from rfl, e1]
    simp only [Option.bind_eq_bind, Option.bind_some]
    rw [k1]
    rfl
  · rw [hb] at k5
    exact (List.append_inj' k5 rfl).1
  · intro t0 hm hh
    obtain ⟨j1, u, w, j2, j3⟩ := e5 t0 hm hh
    exact ⟨j1, u, w, j2, fun y hy => (j3 y hy).resolve_left (by simp [Tree.ad])⟩

end

end Altruct.LinkCut
