/-
C44, second part: `next_partition` steps to the lexicographic predecessor and visits every partition.
-/
import Verif.Combinatorics.PermProps
import Mathlib.Algebra.BigOperators.Group.List.Basic
import Mathlib.Algebra.Order.BigOperators.Group.List
import Mathlib.Data.Finite.Prod
import Mathlib.Data.Finset.Max
import Mathlib.Order.Interval.Set.Basic
import Mathlib.Data.Int.Interval
import Mathlib.Logic.Relation
import Mathlib.Tactic.Linarith

namespace Altruct.Combinatorics

/-! ### Specification -/

/-- `p` is a partition of `N` into at most `d` parts, written in `d` cells:
non-increasing, non-negative, of sum `N`. -/
structure IsPartition (d : Nat) (N : Int) (p : List Int) : Prop where
  len : p.length = d
  sorted : p.Pairwise (· ≥ ·)
  nonneg : ∀ x ∈ p, 0 ≤ x
  sum : p.sum = N

/-! ### Lexicographic order -/

section lex
variable {α : Type} [LinearOrder α]

theorem append_lt_append (c : List α) {a b : List α} (h : a < b) : c ++ a < c ++ b := by
  induction c with
  | nil => exact h
  | cons x c ih => exact List.Lex.cons ih

/-- A list below `pre ++ suf` either keeps the prefix, or is below it whatever follows. -/
theorem lt_append : ∀ (pre q suf : List α), q.length = pre.length + suf.length → q < pre ++ suf →
    (∃ q', q = pre ++ q' ∧ q' < suf) ∨ ∀ s, q < pre ++ s := by
  intro pre
  induction pre with
  | nil => intro q suf _ h; exact Or.inl ⟨q, rfl, h⟩
  | cons x pre ih =>
    intro q suf hl h
    cases q with
    | nil => simp at hl; omega
    | cons y q =>
      rcases List.cons_lt_cons_iff.mp h with h1 | ⟨rfl, h1⟩
      · exact Or.inr (fun s => List.Lex.rel h1)
      · rcases ih q suf (by simp at hl; omega) h1 with ⟨q', e, h2⟩ | h2
        · exact Or.inl ⟨q', by rw [e]; rfl, h2⟩
        · exact Or.inr (fun s => List.Lex.cons (h2 s))

theorem append_lt : ∀ (pre q suf : List α), q.length = pre.length + suf.length → pre ++ suf < q →
    (∃ q', q = pre ++ q' ∧ suf < q') ∨ ∀ s, pre ++ s < q := by
  intro pre
  induction pre with
  | nil => intro q suf _ h; exact Or.inl ⟨q, rfl, h⟩
  | cons x pre ih =>
    intro q suf hl h
    cases q with
    | nil => simp at hl; omega
    | cons y q =>
      rcases List.cons_lt_cons_iff.mp h with h1 | ⟨rfl, h1⟩
      · exact Or.inr (fun s => List.Lex.rel h1)
      · rcases ih q suf (by simp at hl; omega) h1 with ⟨q', e, h2⟩ | h2
        · exact Or.inl ⟨q', by rw [e]; rfl, h2⟩
        · exact Or.inr (fun s => List.Lex.cons (h2 s))

omit [LinearOrder α] in
theorem finite_lists {S : Set α} (hS : S.Finite) : ∀ k,
    {p : List α | p.length = k ∧ ∀ x ∈ p, x ∈ S}.Finite := by
  intro k
  induction k with
  | zero =>
    refine (Set.finite_singleton []).subset (fun p hp => ?_)
    exact List.eq_nil_of_length_eq_zero hp.1
  | succ k ih =>
    refine (Set.Finite.image2 List.cons hS ih).subset (fun p hp => ?_)
    cases p with
    | nil => exact absurd hp.1 (by simp)
    | cons x p =>
      exact ⟨x, hp.2 x (by simp), p, ⟨by simpa using hp.1, fun y hy => hp.2 y (by simp [hy])⟩, rfl⟩

end lex

/-- Stepping to the neighbour reaches everything: a finite set, a first element, and a step that goes
to the nearest element beyond. -/
theorem chain_reaches {β : Type} [LinearOrder β] {S : Set β} (hS : S.Finite) {R : β → β → Prop} {top : β}
    (htop : top ∈ S) (hmax : ∀ q ∈ S, q ≤ top)
    (hstep : ∀ p ∈ S, (∃ q ∈ S, q < p) → ∃ p' ∈ S, R p p' ∧ p' < p ∧ ∀ q ∈ S, q < p → q ≤ p') :
    ∀ q ∈ S, Relation.ReflTransGen R top q := by
  have key : ∀ (n : Nat) (q : β), q ∈ S → (hS.toFinset.filter (q < ·)).card ≤ n →
      Relation.ReflTransGen R top q := by
    intro n
    induction n with
    | zero =>
      intro q hq hc
      have h0 : hS.toFinset.filter (q < ·) = ∅ := Finset.card_eq_zero.mp (by omega)
      rcases lt_or_eq_of_le (hmax q hq) with h | h
      · have : top ∈ hS.toFinset.filter (q < ·) := by
          rw [Finset.mem_filter, Set.Finite.mem_toFinset]; exact ⟨htop, h⟩
        rw [h0] at this
        simp at this
      · rw [h]
    | succ n ih =>
      intro q hq hc
      rcases lt_or_eq_of_le (hmax q hq) with h | h
      · have hne : (hS.toFinset.filter (q < ·)).Nonempty :=
          ⟨top, by rw [Finset.mem_filter, Set.Finite.mem_toFinset]; exact ⟨htop, h⟩⟩
        set p := (hS.toFinset.filter (q < ·)).min' hne with hp
        have hpm := Finset.min'_mem _ hne
        rw [← hp, Finset.mem_filter, Set.Finite.mem_toFinset] at hpm
        obtain ⟨hpS, hqp⟩ := hpm
        obtain ⟨p', hp'S, hR, hlt, hbest⟩ := hstep p hpS ⟨q, hq, hqp⟩
        have h1 : q ≤ p' := hbest q hq hqp
        have h2 : p' ≤ q := by
          by_contra h3
          rw [not_le] at h3
          have : p ≤ p' := Finset.min'_le _ _ (by
            rw [Finset.mem_filter, Set.Finite.mem_toFinset]; exact ⟨hp'S, h3⟩)
          exact absurd hlt (not_lt.mpr this)
        have e : p' = q := le_antisymm h2 h1
        rw [e] at hR
        refine Relation.ReflTransGen.tail (ih p hpS ?_) hR
        have : hS.toFinset.filter (p < ·) ⊂ hS.toFinset.filter (q < ·) := by
          rw [Finset.ssubset_iff_of_subset]
          · exact ⟨p, by rw [Finset.mem_filter, Set.Finite.mem_toFinset]; exact ⟨hpS, hqp⟩, by simp⟩
          · intro x hx
            rw [Finset.mem_filter] at hx ⊢
            exact ⟨hx.1, hqp.trans hx.2⟩
        have := Finset.card_lt_card this
        omega
      · rw [h]
  intro q hq
  exact key _ q hq le_rfl

/-! ### Greedy filling -/

/-- The greatest non-increasing list with parts at most `m`. -/
def greedy (m : Int) : Nat → Int → List Int
  | 0, _ => []
  | k + 1, x => if x > m then m :: greedy m k (x - m) else x :: List.replicate k 0

theorem fill_spec (m : Int) (hm : 0 < m) : ∀ (k : Nat) (x : Int) (fuel i : Nat) (pre : List Int), 0 < x →
    x ≤ m * k → i = pre.length → k ≤ fuel →
    fill m fuel i x (pre ++ List.replicate k 0) = some (pre ++ greedy m k x) := by
  intro k
  induction k with
  | zero => intro x fuel i pre h0 h1 _ _; simp at h1; omega
  | succ k ih =>
    intro x fuel i pre h0 h1 hi hf
    obtain ⟨fuel, rfl⟩ : ∃ n, fuel = n + 1 := ⟨fuel - 1, by omega⟩
    rw [fill, greedy, List.replicate_succ]
    by_cases h : x > m
    · rw [if_pos h, if_pos h, wr_mid' hi]
      simp only [Option.bind_eq_bind, Option.bind_some]
      have := ih (x - m) fuel (i + 1) (pre ++ [m]) (by omega) (by push_cast at h1; linarith) (by simp; omega)
        (by omega)
      simpa using this
    · rw [if_neg h, if_neg h, wr_mid' hi]

theorem greedy_props (m : Int) (hm : 0 < m) : ∀ (k : Nat) (x : Int), 0 ≤ x → x ≤ m * k →
    (greedy m k x).length = k ∧ (greedy m k x).Pairwise (· ≥ ·) ∧
    (∀ y ∈ greedy m k x, 0 ≤ y ∧ y ≤ m) ∧ (greedy m k x).sum = x := by
  intro k
  induction k with
  | zero => intro x h0 h1; simp at h1; simp [greedy]; omega
  | succ k ih =>
    intro x h0 h1
    rw [greedy]
    by_cases h : x > m
    · rw [if_pos h]
      obtain ⟨a, b, c, d⟩ := ih (x - m) (by omega) (by push_cast at h1; linarith)
      refine ⟨by simp [a], List.pairwise_cons.mpr ⟨fun y hy => (c y hy).2, b⟩, ?_, ?_⟩
      · intro y hy
        rcases List.mem_cons.mp hy with rfl | hy
        · omega
        · exact c y hy
      · rw [List.sum_cons, d]; ring
    · rw [if_neg h]
      refine ⟨by simp, List.pairwise_cons.mpr ⟨fun y hy => ?_, ?_⟩, ?_, ?_⟩
      · rw [List.eq_of_mem_replicate hy]; exact h0
      · rw [List.pairwise_replicate]; right; exact le_refl _
      · intro y hy
        rcases List.mem_cons.mp hy with rfl | hy
        · omega
        · rw [List.eq_of_mem_replicate hy]; omega
      · simp

theorem eq_replicate_of_sum : ∀ (q : List Int), (∀ y ∈ q, 0 ≤ y) → q.sum = 0 →
    q = List.replicate q.length 0 := by
  intro q
  induction q with
  | nil => intro _ _; rfl
  | cons y q ih =>
    intro h0 hs
    have h1 := h0 y (by simp)
    have h2 : 0 ≤ q.sum := List.sum_nonneg (fun z hz => h0 z (by simp [hz]))
    rw [List.sum_cons] at hs
    rw [List.length_cons, List.replicate_succ, ← ih (fun z hz => h0 z (by simp [hz])) (by omega)]
    congr 1
    omega

theorem greedy_max (m : Int) : ∀ (k : Nat) (x : Int) (q : List Int), q.length = k →
    (∀ y ∈ q, 0 ≤ y ∧ y ≤ m) → q.sum = x → q ≤ greedy m k x := by
  intro k
  induction k with
  | zero => intro x q hl _ _; rw [List.eq_nil_of_length_eq_zero hl]; exact le_refl _
  | succ k ih =>
    intro x q hl hq hs
    cases q with
    | nil => simp at hl
    | cons y q =>
      rw [greedy]
      have hy := hq y (by simp)
      have h2 : 0 ≤ q.sum := List.sum_nonneg (fun z hz => (hq z (by simp [hz])).1)
      rw [List.sum_cons] at hs
      by_cases h : x > m
      · rw [if_pos h]
        rcases lt_or_eq_of_le hy.2 with h1 | h1
        · exact le_of_lt (List.Lex.rel h1)
        · rw [h1]
          rcases lt_or_eq_of_le (ih (x - m) q (by simpa using hl) (fun z hz => hq z (by simp [hz]))
            (by omega)) with h3 | h3
          · exact le_of_lt (List.Lex.cons h3)
          · rw [h3]
      · rw [if_neg h]
        rcases lt_or_eq_of_le (show y ≤ x by omega) with h1 | h1
        · exact le_of_lt (List.Lex.rel h1)
        · rw [h1, eq_replicate_of_sum q (fun z hz => (hq z (by simp [hz])).1) (by omega),
            show q.length = k by simpa using hl]

theorem sum_le_mul {m : Int} : ∀ q : List Int, (∀ y ∈ q, y ≤ m) → q.sum ≤ m * q.length := by
  intro q
  induction q with
  | nil => intro _; simp
  | cons y q ih =>
    intro h
    have h1 := ih (fun z hz => h z (by simp [hz]))
    have h2 := h y (by simp)
    rw [List.sum_cons, List.length_cons]
    push_cast
    linarith

/-! ### The loop -/

/-- The claim for the result `r` of a call on `p`. -/
def PartStep (d : Nat) (N : Int) (p : List Int) (r : Bool × List Int) : Prop :=
  IsPartition d N r.2 ∧
  (r.1 = true → r.2 < p ∧ ∀ q, IsPartition d N q → q < p → q ≤ r.2) ∧
  (r.1 = false → (∀ q, IsPartition d N q → p ≤ q) ∧ ∀ q, IsPartition d N q → q ≤ r.2)

theorem first_max {d : Nat} {N : Int} (hd : 0 < d) (hN : 0 ≤ N) :
    IsPartition d N (N :: List.replicate (d - 1) 0) ∧
    ∀ q, IsPartition d N q → q ≤ N :: List.replicate (d - 1) 0 := by
  constructor
  · refine ⟨by simp; omega, List.pairwise_cons.mpr ⟨fun y hy => ?_, ?_⟩, ?_, by simp⟩
    · rw [List.eq_of_mem_replicate hy]; exact hN
    · rw [List.pairwise_replicate]; right; exact le_refl _
    · intro y hy
      rcases List.mem_cons.mp hy with rfl | hy
      · exact hN
      · rw [List.eq_of_mem_replicate hy]
  · intro q hq
    have h1 : q ≤ greedy N d N := greedy_max N d N q hq.len (fun y hy => ⟨hq.nonneg y hy, by
      rw [← hq.sum]; exact List.single_le_sum hq.nonneg y hy⟩) hq.sum
    obtain ⟨k, rfl⟩ : ∃ k, d = k + 1 := ⟨d - 1, by omega⟩
    rw [greedy, if_neg (by omega)] at h1
    simpa using h1

theorem partLoop_spec {d : Nat} {N : Int} {p : List Int} (hp : IsPartition d N p) (hd : 0 < d) :
    ∀ (i : Nat) (pre suf : List Int), p = pre ++ suf → i = pre.length →
      (∀ q', IsPartition d N (pre ++ q') → ¬ q' < suf) →
      ∃ r, partLoop i suf.length suf.sum (pre ++ List.replicate suf.length 0) = some r ∧
        PartStep d N p r := by
  have hN : 0 ≤ N := by rw [← hp.sum]; exact List.sum_nonneg hp.nonneg
  intro i
  induction i with
  | zero =>
    intro pre suf e hi hmin
    have : pre = [] := List.eq_nil_of_length_eq_zero hi.symm
    subst this
    have e : p = suf := e
    subst e
    obtain ⟨k, hk⟩ : ∃ k, p.length = k + 1 := ⟨p.length - 1, by rw [hp.len]; omega⟩
    refine ⟨(false, N :: List.replicate (d - 1) 0), ?_, ?_⟩
    · rw [partLoop, hk, hp.sum]
      simp only [wr, List.nil_append, List.length_replicate, List.replicate_succ, List.length_cons,
        if_pos (Nat.succ_pos k), Option.bind_eq_bind, Option.bind_some, List.set_cons_zero]
      rw [show d - 1 = k by rw [← hp.len, hk]; rfl]
    · exact ⟨(first_max hd hN).1, by simp, fun _ => ⟨fun q hq => not_lt.mp (hmin q hq), (first_max hd hN).2⟩⟩
  | succ i ih =>
    intro pre suf e hi hmin
    rcases List.eq_nil_or_concat pre with rfl | ⟨pre, a, rfl⟩
    · simp at hi
    · rw [List.concat_eq_append] at *
      have hi : i = pre.length := by simpa using hi
      have e : p = pre ++ a :: suf := by simpa using e
      rw [partLoop, List.append_assoc, List.singleton_append, rd_mid' hi]
      simp only [Option.bind_eq_bind, Option.bind_some]
      have hlen : pre.length + (suf.length + 1) = d := by
        rw [← hp.len, e]; simp
      have hnn : ∀ x ∈ a :: suf, 0 ≤ x := fun x hx => hp.nonneg x (by rw [e]; simp at hx ⊢; tauto)
      have ha : 0 ≤ a := hnn a (by simp)
      have hsuf : 0 ≤ suf.sum := List.sum_nonneg (fun x hx => hnn x (by simp [hx]))
      have hsorted : (pre ++ a :: suf).Pairwise (· ≥ ·) := by rw [← e]; exact hp.sorted
      -- a smaller list with the same prefix has parts at most `a - 1` and the same sum
      have small : ∀ q', IsPartition d N (pre ++ q') → q' < a :: suf → (∀ y ∈ q', 0 ≤ y ∧ y ≤ a - 1) ∧
          q'.sum = suf.sum + a ∧ q'.length = suf.length + 1 := by
        intro q' hq hlt
        have hql : q'.length = suf.length + 1 := by
          have := hq.len; rw [List.length_append] at this; omega
        cases q' with
        | nil => simp at hql
        | cons y q' =>
          rcases List.cons_lt_cons_iff.mp hlt with h1 | ⟨rfl, h1⟩
          · refine ⟨fun z hz => ⟨hq.nonneg z (by simp at hz ⊢; tauto), ?_⟩, ?_, hql⟩
            · rcases List.mem_cons.mp hz with rfl | hz
              · omega
              · have := List.pairwise_append.mp hq.sorted
                have := (List.pairwise_cons.mp this.2.1).1 z hz
                omega
            · have h2 := hq.sum
              rw [← hp.sum, e, List.sum_append, List.sum_append] at h2
              rw [List.sum_cons] at h2 ⊢
              rw [List.sum_cons] at h2
              linarith
          · exact absurd h1 (hmin q' (by simpa using hq))
      by_cases hc : a - 1 > 0 ∧ (suf.sum + a - 1).tdiv (a - 1) ≤ suf.length + 1 - 1
      · rw [if_pos hc]
        obtain ⟨h1, h2⟩ := hc
        rw [Int.tdiv_eq_ediv_of_nonneg (by omega)] at h2
        have h3 : suf.sum + a ≤ (a - 1) * ((suf.length + 1 : Nat) : Int) := by
          have : (suf.sum + a - 1) / (a - 1) < suf.length + 1 := by omega
          rw [Int.ediv_lt_iff_lt_mul (by omega)] at this
          push_cast
          linarith
        -- the current cell still holds `a`, but is overwritten first
        have hfill : fill (a - 1) ((pre ++ a :: List.replicate suf.length 0).length + 1) i (suf.sum + a)
            (pre ++ a :: List.replicate suf.length 0) =
            some (pre ++ greedy (a - 1) (suf.length + 1) (suf.sum + a)) := by
          rw [fill, greedy, if_pos (by omega), if_pos (by omega), wr_mid' hi]
          simp only [Option.bind_eq_bind, Option.bind_some]
          have := fill_spec (a - 1) h1 suf.length (suf.sum + a - (a - 1))
            ((pre ++ a :: List.replicate suf.length 0).length) (i + 1) (pre ++ [a - 1]) (by omega)
            (by push_cast at h3; linarith) (by simp; omega) (by simp; omega)
          simpa using this
        rw [hfill]
        simp only [Option.bind_some]
        obtain ⟨g1, g2, g3, g4⟩ := greedy_props (a - 1) h1 (suf.length + 1) (suf.sum + a) (by omega) h3
        refine ⟨_, rfl, ⟨?_, ?_, ?_, ?_⟩, fun _ => ⟨?_, ?_⟩, fun h => by simp at h⟩
        · simp only [List.length_append, g1]; omega
        · simp only
          rw [List.pairwise_append] at hsorted ⊢
          refine ⟨hsorted.1, g2, fun x hx y hy => ?_⟩
          have := hsorted.2.2 x hx a (by simp)
          have := (g3 y hy).2
          omega
        · intro x hx
          simp only [List.mem_append] at hx
          rcases hx with hx | hx
          · exact hp.nonneg x (by rw [e]; simp [hx])
          · exact (g3 x hx).1
        · simp only [List.sum_append, g4]
          rw [← hp.sum, e, List.sum_append, List.sum_cons]
          ring
        · rw [e]
          apply append_lt_append
          rw [greedy, if_pos (by omega)]
          exact List.Lex.rel (by omega)
        · intro q hq hlt
          rw [e] at hlt
          rcases lt_append pre q (a :: suf) (by rw [hq.len]; simp; omega) hlt with ⟨q', rfl, h4⟩ | h4
          · obtain ⟨s1, s2, s3⟩ := small q' hq h4
            rcases lt_or_eq_of_le (greedy_max (a - 1) _ _ q' s3 s1 s2) with h5 | h5
            · exact le_of_lt (append_lt_append pre h5)
            · rw [h5]
          · exact le_of_lt (h4 _)
      · rw [if_neg hc, wr_mid' hi]
        simp only [Option.bind_some]
        have hnext : ∀ q', IsPartition d N (pre ++ q') → ¬ q' < a :: suf := by
          intro q' hq hlt
          obtain ⟨s1, s2, s3⟩ := small q' hq hlt
          apply hc
          have h5 := sum_le_mul q' (fun y hy => (s1 y hy).2)
          rw [s2, s3] at h5
          cases q' with
          | nil => simp at s3
          | cons y q' =>
            have hy := s1 y (by simp)
            have h1 : a - 1 > 0 := by
              rcases lt_or_eq_of_le (show 0 ≤ a - 1 by omega) with h | h
              · exact h
              · rw [← h, zero_mul] at h5
                omega
            refine ⟨h1, ?_⟩
            rw [Int.tdiv_eq_ediv_of_nonneg (by omega)]
            have : (suf.sum + a - 1) / (a - 1) < suf.length + 1 := by
              rw [Int.ediv_lt_iff_lt_mul h1]
              push_cast at h5
              linarith
            omega
        obtain ⟨r, hr, hr2⟩ := ih pre (a :: suf) e hi hnext
        refine ⟨r, ?_, hr2⟩
        rw [← hr, List.sum_cons, List.length_cons, List.replicate_succ, add_comm a]
        push_cast
        rfl

/-! ### The claims -/

/-- A call on a partition (in at least one cell) is defined; it gives the greatest smaller partition and
`true`, or, on the smallest one, the greatest partition and `false`. -/
theorem C44_next_partition {d : Nat} {N : Int} {p : List Int} (hp : IsPartition d N p) (hd : 0 < d) :
    ∃ b p', nextPartition p = some (b, p') ∧ IsPartition d N p' ∧
      (b = true → p' < p ∧ ∀ q, IsPartition d N q → q < p → q ≤ p') ∧
      (b = false → (∀ q, IsPartition d N q → p ≤ q) ∧ ∀ q, IsPartition d N q → q ≤ p') := by
  obtain ⟨⟨b, p'⟩, h1, h2⟩ := partLoop_spec hp hd p.length p [] (by simp) rfl
    (fun q' _ => by simp)
  exact ⟨b, p', by simpa [nextPartition] using h1, h2⟩

/-- Repeated calls, starting from `N, 0, ..., 0`, visit every partition. -/
theorem C44_partitions_visited {d : Nat} {N : Int} (hd : 0 < d) (hN : 0 ≤ N) {q : List Int}
    (hq : IsPartition d N q) :
    Relation.ReflTransGen (fun p p' => nextPartition p = some (true, p'))
      (N :: List.replicate (d - 1) 0) q := by
  have hfin : {p | IsPartition d N p}.Finite := by
    refine (finite_lists (Set.finite_Icc (0 : Int) N) d).subset (fun p hp => ⟨hp.len, fun x hx => ?_⟩)
    exact ⟨hp.nonneg x hx, by rw [← hp.sum]; exact List.single_le_sum hp.nonneg x hx⟩
  refine chain_reaches hfin (first_max hd hN).1 (first_max hd hN).2 ?_ q hq
  rintro p hp ⟨q, hq, hlt⟩
  obtain ⟨b, p', e, h1, h2, h3⟩ := C44_next_partition hp hd
  cases b with
  | false => exact absurd hlt (not_lt.mpr ((h3 rfl).1 q hq))
  | true => exact ⟨p', h1, e, h2 rfl⟩

example : IsPartition 4 6 [2, 2, 1, 1] := ⟨by decide, by decide, by decide, by decide⟩
example : nextPartition [2, 2, 1, 1] = some (false, [6, 0, 0, 0]) := by decide +kernel
example : nextPartition [3, 1, 1, 1] = some (true, [2, 2, 2, 0]) := by decide +kernel
/-- An empty range is written through `*begin`. -/
example : nextPartition [] = none := by decide +kernel

end Altruct.Combinatorics
