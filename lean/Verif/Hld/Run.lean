/-
The two traversals of `heavy_light_decomposition`.
-/
import Verif.Hld.Tree

namespace Altruct.Hld

open GraphAlg Forest Relation

/-! ### Visitors that ignore the root and the depth -/

section
variable {σ : Type} (en : σ → Int → Nat → Option σ) (ex : σ → Nat → Option σ)

/-- The traversal of a forest below `p`. -/
def run : Forest → Int → σ → Option σ
  | .nil, _, s => some s
  | .skip _ _, _, _ => none
  | .node v cs r, p, s => (en s p v).bind fun s => (run cs v s).bind fun s => (ex s v).bind fun s => run r p s

variable {en ex} {vis : Visitor σ}

theorem feed_enter (h1 : ∀ s r p (v : Nat) d, vis s r p v d = (en s p v).map (·, true)) (r p d : Int) (v : Nat) (l : List (Int × Int × Int × Int)) (s : σ) :
    feed vis (fun _ _ => true) ((r, p, (v : Int), d) :: l) s = (en s p v).bind (feed vis (fun _ _ => true) l) := by
  rw [feed, h1]
  cases en s p v with
  | none => rfl
  | some s => simp

theorem feed_leave (h2 : ∀ s r (v : Nat) d, vis s r v (-1) d = (ex s v).map (·, true)) (r d : Int) (v : Nat) (l : List (Int × Int × Int × Int)) (s : σ) :
    feed vis (fun _ _ => true) ((r, (v : Int), -1, d) :: l) s = (ex s v).bind (feed vis (fun _ _ => true) l) := by
  rw [feed, h2]
  cases ex s v with
  | none => rfl
  | some s => simp

theorem feed_run (h1 : ∀ s r p (v : Nat) d, vis s r p v d = (en s p v).map (·, true)) (h2 : ∀ s r (v : Nat) d, vis s r v (-1) d = (ex s v).map (·, true)) :
    ∀ (F : Forest), Full F → ∀ (o p d : Int) (s : σ), feed vis (fun _ _ => true) (F.events o p d) s = run en ex F p s := by
  intro F
  induction F with
  | nil => intros; rfl
  | skip _ _ _ => intro hf; exact hf.elim
  | node v cs r ih1 ih2 =>
    intro hf o p d s
    rw [events, feed_enter h1, run]
    congr 1; funext s
    rw [feed_append, ih1 hf.1]
    congr 1; funext s
    rw [feed_leave h2]
    congr 1; funext s
    exact ih2 hf.2 o p d s

theorem feed_run_root (h1 : ∀ s r p (v : Nat) d, vis s r p v d = (en s p v).map (·, true)) (h2 : ∀ s r (v : Nat) d, vis s r v (-1) d = (ex s v).map (·, true)) :
    ∀ (F : Forest), Full F → ∀ (s : σ), feed vis (fun _ _ => true) F.rootEvents s = run en ex F (-1) s := by
  intro F
  induction F with
  | nil => intros; rfl
  | skip _ _ _ => intro hf; exact hf.elim
  | node v cs r ih1 ih2 =>
    intro hf s
    rw [rootEvents, feed_enter h1, run]
    congr 1; funext s
    rw [feed_append, feed_run h1 h2 cs hf.1]
    congr 1; funext s
    rw [feed_leave h2]
    congr 1; funext s
    exact ih2 hf.2 s

end

/-! ### Subtrees -/

/-- The nodes of the subtree of `u`, in order. -/
def subtree : Forest → Nat → List Nat
  | .nil, _ => []
  | .skip _ r, u => subtree r u
  | .node v cs r, u => if v = u then v :: cs.pre else subtree cs u ++ subtree r u

theorem subtree_nil {F : Forest} {u : Nat} (h : u ∉ F.pre) : subtree F u = [] := by
  induction F with
  | nil => rfl
  | skip _ r ih => exact ih h
  | node v cs r ih1 ih2 =>
    rw [mem_pre_node] at h
    push Not at h
    rw [subtree, if_neg (Ne.symm h.1), ih1 h.2.1, ih2 h.2.2]; rfl

theorem subtree_node {v u : Nat} {cs r : Forest} (hn : (node v cs r).pre.Nodup) :
    (u ∈ cs.pre → subtree (.node v cs r) u = subtree cs u) ∧ (u ∈ r.pre → subtree (.node v cs r) u = subtree r u) := by
  obtain ⟨n1, n2, n3, n4, n5⟩ := nodup_node hn
  constructor
  · intro h
    rw [subtree, if_neg (show ¬ v = u from fun hc => n1 (hc ▸ h)), subtree_nil (n5 u h), List.append_nil]
  · intro h
    rw [subtree, if_neg (show ¬ v = u from fun hc => n2 (hc ▸ h)), subtree_nil (fun hc => n5 u hc h), List.nil_append]

theorem mem_subtree {F : Forest} (hf : Full F) (hn : F.pre.Nodup) {u x : Nat} : x ∈ subtree F u ↔ F.Anc u x := by
  induction F with
  | nil => simp [subtree, Anc]
  | skip _ _ _ => exact hf.elim
  | node v cs r ih1 ih2 =>
    obtain ⟨n1, n2, n3, n4, n5⟩ := nodup_node hn
    have i1 := ih1 hf.1 n3
    have i2 := ih2 hf.2 n4
    rw [subtree, Anc]
    by_cases h : v = u
    · rw [if_pos h, List.mem_cons]
      subst h
      have a1 : ¬ cs.Anc v x := fun hc => n1 (anc_mem hc)
      have a2 : ¬ r.Anc v x := fun hc => n2 (anc_mem hc)
      tauto
    · rw [if_neg h, List.mem_append, i1, i2]
      have : ¬ u = v := fun hc => h hc.symm
      tauto

theorem subtree_split {F : Forest} (hf : Full F) (hn : F.pre.Nodup) {u : Nat} (hu : u ∈ F.pre) : ∃ l1 l l2, F.pre = l1 ++ subtree F u ++ l2 ∧ subtree F u = u :: l := by
  induction F with
  | nil => simp [pre] at hu
  | skip _ _ _ => exact hf.elim
  | node v cs r ih1 ih2 =>
    obtain ⟨n1, n2, n3, n4, n5⟩ := nodup_node hn
    have hs := subtree_node (u := u) hn
    rcases mem_pre_node.mp hu with h | h | h
    · subst h
      exact ⟨[], cs.pre, r.pre, by simp [subtree, pre], by simp [subtree]⟩
    · obtain ⟨l1, l, l2, e1, e2⟩ := ih1 hf.1 n3 h
      rw [hs.1 h]
      exact ⟨v :: l1, l, l2 ++ r.pre, by rw [pre, e1]; simp, e2⟩
    · obtain ⟨l1, l, l2, e1, e2⟩ := ih2 hf.2 n4 h
      rw [hs.2 h]
      exact ⟨v :: cs.pre ++ l1, l, l2, by rw [pre, e1]; simp, e2⟩

theorem subtree_nodup {F : Forest} (hf : Full F) (hn : F.pre.Nodup) (u : Nat) : (subtree F u).Nodup := by
  by_cases hu : u ∈ F.pre
  · obtain ⟨l1, l, l2, e, _⟩ := subtree_split hf hn hu
    rw [e] at hn
    exact (List.nodup_append.mp (List.nodup_append.mp hn).1).2.1
  · rw [subtree_nil hu]; simp

/-- The subtrees of the top nodes make up the forest. -/
theorem sum_heads {F : Forest} (hf : Full F) (hn : F.pre.Nodup) : (F.heads.map fun w => (subtree F w).length).sum = F.pre.length := by
  induction F with
  | nil => rfl
  | skip _ _ _ => exact hf.elim
  | node v cs r ih1 ih2 =>
    obtain ⟨n1, n2, n3, n4, n5⟩ := nodup_node hn
    have hs := fun u => subtree_node (u := u) hn
    rw [Forest.heads, List.map_cons, List.sum_cons, List.map_congr_left (g := fun w => (subtree r w).length) (fun w hw => by rw [(hs w).2 (head_pre hf.2 hw)]), ih2 hf.2 n4,
      subtree, if_pos rfl, pre]
    simp
    omega

/-- A subtree is an interval of the order of entering. -/
theorem subtree_interval {F : Forest} (hf : Full F) (hn : F.pre.Nodup) {u x : Nat} (hu : u ∈ F.pre) (hx : x ∈ F.pre) :
    F.Anc u x ↔ F.pre.idxOf u ≤ F.pre.idxOf x ∧ F.pre.idxOf x < F.pre.idxOf u + (subtree F u).length := by
  rw [← mem_subtree hf hn]
  obtain ⟨l1, l, l2, e, e2⟩ := subtree_split hf hn hu
  rw [e] at hn hx
  have hn1 := (List.nodup_append.mp hn).1
  have hu1 : u ∉ l1 := fun hc => (List.nodup_append.mp hn1).2.2 u hc u (by rw [e2]; simp) rfl
  have hiu : F.pre.idxOf u = l1.length := by
    rw [e, List.append_assoc, List.idxOf_append_of_notMem hu1, e2]
    simp
  rw [hiu, e]
  constructor
  · intro h
    have h1 : x ∉ l1 := fun hc => (List.nodup_append.mp hn1).2.2 x hc x h rfl
    rw [List.append_assoc, List.idxOf_append_of_notMem h1, List.idxOf_append_of_mem h]
    have := List.idxOf_lt_length_of_mem h
    omega
  · rintro ⟨h1, h2⟩
    by_contra hc
    rcases List.mem_append.mp hx with hx | hx
    · rcases List.mem_append.mp hx with hx | hx
      · rw [List.append_assoc, List.idxOf_append_of_mem hx] at h1
        have := List.idxOf_lt_length_of_mem hx
        omega
      · exact hc hx
    · have h3 : x ∉ l1 ++ subtree F u := fun hc => (List.nodup_append.mp hn).2.2 x hc x hx rfl
      rw [List.idxOf_append_of_notMem h3, List.length_append] at h2
      omega

section
variable {g : List (List Nat)} {up : Nat → Int} {dep : Nat → Nat}

/-! ### The first traversal: sizes -/

theorem addSizes_spec {n : Nat} {parents : List Int} {fp : Nat → Int} (hp : Rep parents n fp) {u : Nat} (hu : u < n) : ∀ (es : List Nat) (sizes : List Nat) (fs : Nat → Nat),
    Rep sizes n fs → (∀ v ∈ es, v < n) → u ∉ es → ∃ sizes', addSizes parents u es sizes = some sizes' ∧
      Rep sizes' n (Function.update fs u (fs u + ((es.filter (fun w : Nat => decide ((w : Int) ≠ fp u))).map fs).sum)) := by
  intro es
  induction es with
  | nil => intro sizes fs hs _ _; exact ⟨sizes, rfl, hs.congr fun i _ => by simp⟩
  | cons v es ih =>
    intro sizes fs hs hlt hnu
    have hv : v < n := hlt v (by simp)
    have hvu : v ≠ u := fun hc => hnu (by simp [hc])
    rw [addSizes, hp.rd hu, Option.bind_some]
    by_cases h : (v : Int) ≠ fp u
    · rw [if_pos h, hs.rd hu, Option.bind_some, hs.rd hv, Option.bind_some, hs.wr hu, Option.bind_some, List.filter_cons_of_pos (by simpa using h)]
      obtain ⟨s', e, hs'⟩ := ih _ _ (hs.set u (fs u + fs v)) (fun w hw => hlt w (by simp [hw])) (fun hc => hnu (by simp [hc]))
      refine ⟨s', e, hs'.congr fun i _ => ?_⟩
      by_cases hi : i = u
      · subst hi
        simp only [Function.update_self, List.map_cons, List.sum_cons]
        rw [List.map_congr_left (g := fs) (fun w hw => by
          rw [Function.update_of_ne]
          rintro rfl
          exact hnu (List.mem_cons_of_mem _ (List.mem_filter.mp hw).1))]
        omega
      · simp only [Function.update_of_ne hi]
    · rw [if_neg h, List.filter_cons_of_neg (by simpa using h)]
      exact ih sizes fs hs (fun w hw => hlt w (by simp [hw])) (fun hc => hnu (by simp [hc]))

theorem visit1_enter (s r p) (v : Nat) (d) : visit1 g s r p v d = (enter1 s p v).map (·, true) := by
  rw [visit1, if_neg (by omega), Int.toNat_natCast]

theorem visit1_leave (s r) (v : Nat) (d) : visit1 g s r v (-1) d = (leave1 g s v).map (·, true) := by
  rw [visit1, if_pos rfl, Int.toNat_natCast]

theorem run1 (R : Rooted g up dep) : ∀ (F : Forest) (p : Int), Good g up p F → Full F → F.pre.Nodup → (∀ x ∈ F.pre, x < g.length) →
    ∀ (parents : List Int) (sizes : List Nat) (fp : Nat → Int) (fs : Nat → Nat), Rep parents g.length fp → Rep sizes g.length fs → (∀ x ∈ F.pre, fs x = 1) →
    ∃ parents' sizes' fp' fs', run enter1 (leave1 g) F p (parents, sizes) = some (parents', sizes') ∧ Rep parents' g.length fp' ∧ Rep sizes' g.length fs' ∧
      (∀ x ∈ F.pre, fp' x = up x ∧ fs' x = (subtree F x).length) ∧ ∀ x, x ∉ F.pre → fp' x = fp x ∧ fs' x = fs x := by
  intro F
  induction F with
  | nil => intro p _ _ _ _ parents sizes fp fs h1 h2 _; exact ⟨_, _, fp, fs, rfl, h1, h2, by simp [pre], fun _ _ => ⟨rfl, rfl⟩⟩
  | skip _ _ _ => intro p _ hf; exact hf.elim
  | node v cs r ih1 ih2 =>
    intro p hG hf hn hlt parents sizes fp fs hp hs h1
    obtain ⟨hup, ⟨es, hes, hheads⟩, hG1, hG2⟩ := hG
    obtain ⟨n1, n2, n3, n4, n5⟩ := nodup_node hn
    have hv : v < g.length := hlt v (by simp [pre])
    obtain ⟨pa, sa, fpa, fsa, ea, hpa, hsa, ha1, ha2⟩ := ih1 v hG1 hf.1 n3 (fun x hx => hlt x (by simp [pre, hx])) _ _ _ _ (hp.set v p) hs (fun x hx => h1 x (by simp [pre, hx]))
    have hfv : fpa v = up v := by rw [(ha2 v n1).1, Function.update_self, hup]
    have hnu : v ∉ es := by
      intro hc
      rcases (R.edge v v hv hv).mp ⟨es, hes, hc⟩ with h | h <;> exact (R.ne hv h).2.2 rfl
    obtain ⟨sb, eb, hsb⟩ := addSizes_spec hpa hv es sa fsa hsa (fun w hw => R.valid v w ⟨es, hes, hw⟩) hnu
    have hsum : fsa v + ((es.filter (fun w : Nat => decide ((w : Int) ≠ fpa v))).map fsa).sum = cs.pre.length + 1 := by
      rw [hfv, hheads, List.map_congr_left (g := fun w => (subtree cs w).length) (fun w hw => (ha1 w (head_pre hf.1 hw)).2), sum_heads hf.1 n3, (ha2 v n1).2,
        h1 v (by simp [pre])]
      omega
    rw [hsum] at hsb
    obtain ⟨pc, sc, fpc, fsc, ec, hpc, hsc, hc1, hc2⟩ := ih2 p hG2 hf.2 n4 (fun x hx => hlt x (by simp [pre, hx])) _ _ _ _ hpa hsb (fun x hx => by
      rw [Function.update_of_ne (show x ≠ v from fun hc => n2 (hc ▸ hx)), (ha2 x (fun hc => n5 x hc hx)).2, h1 x (by simp [pre, hx])])
    have hsn := fun u => subtree_node (u := u) hn
    refine ⟨pc, sc, fpc, fsc, ?_, hpc, hsc, fun x hx => ?_, fun x hx => ?_⟩
    · rw [run, enter1, hp.wr hv, Option.map_some, Option.bind_some, ea, Option.bind_some, leave1, rd, hes, Option.bind_some, eb, Option.map_some, Option.bind_some, ec]
    · rcases mem_pre_node.mp hx with h | h | h
      · subst h
        rw [(hc2 x n2).1, (hc2 x n2).2, hfv, Function.update_self, subtree, if_pos rfl]
        exact ⟨rfl, by simp⟩
      · have hr := n5 x h
        rw [(hc2 x hr).1, (hc2 x hr).2, Function.update_of_ne (show x ≠ v from fun hc => n1 (hc ▸ h)), (hsn x).1 h]
        exact ha1 x h
      · rw [(hsn x).2 h]; exact hc1 x h
    · rw [mem_pre_node] at hx
      push Not at hx
      rw [(hc2 x hx.2.2).1, (hc2 x hx.2.2).2, Function.update_of_ne hx.1, (ha2 x hx.2.1).1, (ha2 x hx.2.1).2, Function.update_of_ne hx.1]
      exact ⟨rfl, rfl⟩

/-! ### The second traversal: chains -/

theorem visit2_enter (s r p) (v : Nat) (d) : visit2 s r p v d = (enter2 s p v).map (·, true) := by
  rw [visit2, if_pos (by omega), Int.toNat_natCast]

theorem visit2_leave (s r) (v : Nat) (d) : visit2 s r v (-1) d = (leave2 s v).map (·, true) := by
  rw [visit2, if_neg (by omega), Int.toNat_natCast]

/-- The parents of the chains when `par` is `c` at the beginning. -/
def tops : Int → Int → Forest → List (Nat × Int)
  | _, _, .nil => []
  | p, c, .skip _ r => tops p c r
  | p, c, .node v cs r => (v, if c = -2 then p else c) :: (tops v (if c = -2 then p else c) cs ++ tops p (-2) r)

theorem tops_fst {F : Forest} (hf : Full F) : ∀ p c, (tops p c F).map Prod.fst = F.pre := by
  induction F with
  | nil => intro p c; rfl
  | skip _ _ _ => exact hf.elim
  | node v cs r ih1 ih2 => intro p c; rw [tops, List.map_cons, List.map_append, ih1 hf.1, ih2 hf.2]; rfl

theorem run2 (n : Nat) : ∀ (F : Forest) (p c : Int), Full F → F.pre.Nodup → (∀ x ∈ F.pre, x < n) →
    ∀ (k : Nat) (parents positions nodes : List Int) (fp fq fn : Nat → Int), Rep parents n fp → Rep positions n fq → Rep nodes n fn → k + F.pre.length ≤ n →
    ∃ w fp' fq' fn', run enter2 leave2 F p ⟨k, c, parents, positions, nodes⟩ = some w ∧ w.pos = k + F.pre.length ∧ w.par = (match F with | .nil => c | _ => -2) ∧
      Rep w.parents n fp' ∧ Rep w.positions n fq' ∧ Rep w.nodes n fn' ∧
      (∀ x t, (x, t) ∈ tops p c F → fp' x = t) ∧ (∀ x ∈ F.pre, fq' x = ((k + F.pre.idxOf x : Nat) : Int)) ∧ (∀ (i x : Nat), F.pre[i]? = some x → fn' (k + i) = (x : Int)) ∧
      (∀ x, x ∉ F.pre → fp' x = fp x ∧ fq' x = fq x) ∧ (∀ i, i < k ∨ k + F.pre.length ≤ i → fn' i = fn i) := by
  intro F
  induction F with
  | nil =>
    intro p c _ _ _ k parents positions nodes fp fq fn h1 h2 h3 _
    exact ⟨_, fp, fq, fn, rfl, rfl, rfl, h1, h2, h3, by simp [tops], by simp [pre], by simp [pre], fun _ _ => ⟨rfl, rfl⟩, fun _ _ => rfl⟩
  | skip _ _ _ => intro p c hf; exact hf.elim
  | node v cs r ih1 ih2 =>
    intro p c hf hn hlt k parents positions nodes fp fq fn h1 h2 h3 hk
    obtain ⟨n1, n2, n3, n4, n5⟩ := nodup_node hn
    have hv : v < n := hlt v (by simp [pre])
    have hlen : (node v cs r).pre.length = 1 + cs.pre.length + r.pre.length := by simp [pre]; omega
    rw [hlen] at hk
    obtain ⟨wa, fpa, fqa, fna, ea, a1, -, a3, a4, a5, a6, a7, a8, a9, a10⟩ := ih1 v (if c = -2 then p else c) hf.1 n3 (fun x hx => hlt x (by simp [pre, hx])) (k + 1) _ _ _ _ _ _
      (h1.set v (if c = -2 then p else c)) (h2.set v (k : Int)) (h3.set k (v : Int)) (by omega)
    obtain ⟨wb, fpb, fqb, fnb, eb, b1, b2, b3, b4, b5, b6, b7, b8, b9, b10⟩ := ih2 p (-2) hf.2 n4 (fun x hx => hlt x (by simp [pre, hx])) wa.pos _ _ _ _ _ _ a3 a4 a5
      (by rw [a1]; omega)
    refine ⟨wb, fpb, fqb, fnb, ?_, by rw [b1, a1, hlen]; omega, ?_, b3, b4, b5, fun x t hx => ?_, fun x hx => ?_, fun i x hi => ?_, fun x hx => ?_, fun i hi => ?_⟩
    · rw [run, enter2]
      simp only
      rw [h1.wr hv, Option.bind_some, h2.wr hv, Option.bind_some, h3.wr (by omega), Option.map_some, Option.bind_some, ea, Option.bind_some, leave2, Option.bind_some]
      exact eb
    · rw [b2]; cases r <;> rfl
    · rw [tops, List.mem_cons, List.mem_append] at hx
      rcases hx with h | h | h
      · cases h
        rw [(b9 v n2).1, (a9 v n1).1, Function.update_self]
      · have hxp : x ∈ cs.pre := by rw [← tops_fst hf.1 v (if c = -2 then p else c)]; exact List.mem_map_of_mem (f := Prod.fst) h
        rw [(b9 x (n5 x hxp)).1, a6 x t h]
      · exact b6 x t h
    · rcases mem_pre_node.mp hx with h | h | h
      · subst h
        rw [(b9 x n2).2, (a9 x n1).2, Function.update_self]
        simp [pre]
      · have hxv : v ≠ x := fun hc => n1 (hc ▸ h)
        rw [(b9 x (n5 x h)).2, a7 x h, pre, List.cons_append, List.idxOf_cons_ne _ hxv, List.idxOf_append_of_mem h]
        omega
      · have hxv : v ≠ x := fun hc => n2 (hc ▸ h)
        rw [b7 x h, a1, pre, List.cons_append, List.idxOf_cons_ne _ hxv, List.idxOf_append_of_notMem (fun hc => n5 x hc h)]
        congr 1
        omega
    · rcases i with _ | i
      · simp [pre] at hi
        subst hi
        rw [b10 _ (Or.inl (by rw [a1]; omega)), a10 _ (Or.inl (by omega)), Nat.add_zero, Function.update_self]
      · rw [pre, List.cons_append, List.getElem?_cons_succ] at hi
        rcases Nat.lt_or_ge i cs.pre.length with hl | hl
        · rw [List.getElem?_append_left hl] at hi
          rw [b10 _ (Or.inl (by rw [a1]; omega)), show k + (i + 1) = k + 1 + i by omega, a8 i x hi]
        · rw [List.getElem?_append_right hl] at hi
          rw [show k + (i + 1) = wa.pos + (i - cs.pre.length) by rw [a1]; omega, b8 _ x hi]
    · rw [mem_pre_node] at hx
      push Not at hx
      rw [(b9 x hx.2.2).1, (b9 x hx.2.2).2, (a9 x hx.2.1).1, (a9 x hx.2.1).2, Function.update_of_ne hx.1, Function.update_of_ne hx.1]
      exact ⟨rfl, rfl⟩
    · rw [hlen] at hi
      rw [b10 i (by rw [a1]; omega), a10 i (by omega), Function.update_of_ne (by omega)]

end

end Altruct.Hld
