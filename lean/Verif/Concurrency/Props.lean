/-
C33: `parallel_execute` runs every job exactly once under every schedule.
-/
import Verif.Concurrency.Model
import Mathlib.Algebra.BigOperators.Group.Multiset.Basic
import Mathlib.Algebra.BigOperators.Group.List.Basic
import Mathlib.Algebra.BigOperators.Group.Finset.Basic
import Mathlib.Data.Multiset.AddSub
import Mathlib.Data.List.Perm.Basic
import Mathlib.Algebra.Order.BigOperators.Group.Finset
import Mathlib.Tactic.Abel

namespace Altruct.Concurrency

variable {P J W R C : Type}

/-! ### Specification -/

/-- The provider yields the jobs `l`, in this order, and then has no more. -/
inductive Yields (E : Env P J W R C) : P → List J → Prop
  | nil {p} : E.hasNext p = false → Yields E p []
  | cons {p l} : E.hasNext p = true → Yields E (E.next p).2 l → Yields E p ((E.next p).1 :: l)

/-- All the `n` threads have ended: `parallel_execute` returns. -/
def Finished (n : Nat) (c : Cfg P J W R C) : Prop := ∀ i < n, c.thr i = .done

/-! ### The invariant -/

/-- The job a thread holds. -/
def Thread.jobs : Thread P J W R C → Multiset J
  | .gotJob _ j => {j}
  | .running _ j => {j}
  | .wantC _ j _ => {j}
  | .heldC _ j _ => {j}
  | .collectWrite _ j _ _ => {j}
  | _ => 0

/-- The job a thread has executed and whose result it has not yet given to the collector. -/
def Thread.exec : Thread P J W R C → Multiset J
  | .wantC _ j _ => {j}
  | .heldC _ j _ => {j}
  | .collectWrite _ j _ _ => {j}
  | _ => 0

/-- The thread owns the mutex of the provider. -/
def Thread.holdsP : Thread P J W R C → Prop
  | .heldP _ => True
  | .nextRead _ => True
  | .nextWrite _ _ => True
  | .gotJob _ _ => True
  | .exiting => True
  | _ => False

/-- The thread owns the mutex of the collector. -/
def Thread.holdsC : Thread P J W R C → Prop
  | .heldC _ _ _ => True
  | .collectWrite _ _ _ _ => True
  | .collected _ => True
  | _ => False

/-- What the local variables of a thread satisfy; `Q` relates the results to the jobs. -/
def Thread.ok (E : Env P J W R C) (Q : R → J → Prop) (p : P) (a : C) : Thread P J W R C → Prop
  | .nextRead _ => E.hasNext p = true
  | .nextWrite _ q => q = p ∧ E.hasNext p = true
  | .exiting => E.hasNext p = false
  | .done => E.hasNext p = false
  | .wantC _ j r => Q r j
  | .heldC _ j r => Q r j
  | .collectWrite _ j r b => b = a ∧ Q r j
  | _ => True

/-- How far a thread is from its end. -/
def Thread.rank : Thread P J W R C → Nat
  | .start => 14
  | .wantP _ => 13
  | .heldP _ => 12
  | .nextRead _ => 11
  | .nextWrite _ _ => 10
  | .gotJob _ _ => 19
  | .running _ _ => 18
  | .wantC _ _ _ => 17
  | .heldC _ _ _ => 16
  | .collectWrite _ _ _ _ => 15
  | .collected _ => 14
  | .exiting => 1
  | .done => 0

/-- The invariant: `L` are all the jobs, `rest` those not yet taken. -/
structure Inv (E : Env P J W R C) (Q : R → J → Prop) (n : Nat) (L : List J) (a0 : C) (c : Cfg P J W R C) (rest : List J) : Prop where
  yields : Yields E c.prov rest
  pown : ∀ i < n, ((c.thr i).holdsP ↔ c.pOwner = some i)
  plt : ∀ i, c.pOwner = some i → i < n
  cown : ∀ i < n, ((c.thr i).holdsC ↔ c.cOwner = some i)
  clt : ∀ i, c.cOwner = some i → i < n
  ok : ∀ i < n, (c.thr i).ok E Q c.prov c.acc
  jobs : (∑ i ∈ Finset.range n, (c.thr i).jobs) + ((c.collectLog.map Prod.snd : List J) : Multiset J) + (rest : Multiset J) = (L : Multiset J)
  exec : (∑ i ∈ Finset.range n, (c.thr i).exec) + ((c.collectLog.map Prod.snd : List J) : Multiset J) = (c.execLog : Multiset J)
  acc : c.acc = c.collectLog.foldl (fun a x => E.collect a x.1 x.2) a0
  logQ : ∀ x ∈ c.collectLog, Q x.1 x.2

/-- The measure that every step decreases. -/
def measure (n : Nat) (c : Cfg P J W R C) (rest : List J) : Nat := (∑ i ∈ Finset.range n, (c.thr i).rank) + 10 * rest.length

/-- A sum over the threads when one of them changes. -/
theorem sum_setThr {M : Type} [AddCommMonoid M] (g : Thread P J W R C → M) (c : Cfg P J W R C) (n i : Nat) (hi : i < n) (t : Thread P J W R C) :
    ∃ s, (∑ k ∈ Finset.range n, g (c.thr k)) = g (c.thr i) + s ∧ (∑ k ∈ Finset.range n, g ((c.setThr i t).thr k)) = g t + s := by
  refine ⟨∑ k ∈ (Finset.range n).erase i, g (c.thr k), ?_, ?_⟩
  · rw [← Finset.add_sum_erase _ _ (Finset.mem_range.mpr hi)]
  · rw [← Finset.add_sum_erase _ _ (Finset.mem_range.mpr hi)]
    congr 1
    · simp [Cfg.setThr]
    · apply Finset.sum_congr rfl
      intro k hk
      rw [Finset.mem_erase] at hk
      simp [Cfg.setThr, hk.1]

theorem setThr_self (c : Cfg P J W R C) (i : Nat) (t : Thread P J W R C) : (c.setThr i t).thr i = t := by simp [Cfg.setThr]

theorem setThr_of_ne (c : Cfg P J W R C) {i k : Nat} (h : k ≠ i) (t : Thread P J W R C) : (c.setThr i t).thr k = c.thr k := by simp [Cfg.setThr, h]

/-- A local step: the owners, provider and collector do not change, and the new state of the thread holds the same
mutexes and job. -/
theorem Inv.local {E : Env P J W R C} {Q : R → J → Prop} {n : Nat} {L : List J} {a0 : C} {c : Cfg P J W R C} {rest : List J}
    (hI : Inv E Q n L a0 c rest) {i : Nat} (hi : i < n) (t : Thread P J W R C)
    (h1 : t.holdsP ↔ (c.thr i).holdsP) (h2 : t.holdsC ↔ (c.thr i).holdsC) (h3 : t.jobs = (c.thr i).jobs) (h4 : t.exec = (c.thr i).exec)
    (h5 : t.ok E Q c.prov c.acc) (h6 : t.rank < (c.thr i).rank) :
    Inv E Q n L a0 (c.setThr i t) rest ∧ measure n (c.setThr i t) rest < measure n c rest := by
  obtain ⟨s1, e1, e1'⟩ := sum_setThr Thread.jobs c n i hi t
  obtain ⟨s2, e2, e2'⟩ := sum_setThr Thread.exec c n i hi t
  obtain ⟨s3, e3, e3'⟩ := sum_setThr Thread.rank c n i hi t
  refine ⟨⟨hI.yields, fun k hk => ?_, hI.plt, fun k hk => ?_, hI.clt, fun k hk => ?_, ?_, ?_, hI.acc, hI.logQ⟩, ?_⟩
  · by_cases hki : k = i
    · subst hki; rw [setThr_self, h1]; exact hI.pown k hk
    · rw [setThr_of_ne c hki]; exact hI.pown k hk
  · by_cases hki : k = i
    · subst hki; rw [setThr_self, h2]; exact hI.cown k hk
    · rw [setThr_of_ne c hki]; exact hI.cown k hk
  · by_cases hki : k = i
    · subst hki; rw [setThr_self]; exact h5
    · rw [setThr_of_ne c hki]; exact hI.ok k hk
  · rw [e1', h3, ← e1]; exact hI.jobs
  · rw [e2', h4, ← e2]; exact hI.exec
  · rw [measure, measure, e3', e3]; omega

/-- One step keeps the invariant and decreases the measure. -/
theorem Inv.step {E : Env P J W R C} {Q : R → J → Prop} (hQ : ∀ w j, Q (E.execute w j).1 j) {n : Nat} {L : List J} {a0 : C} {c c' : Cfg P J W R C}
    {rest : List J} (hI : Inv E Q n L a0 c rest) {i : Nat} (hi : i < n) (hs : step E c i = some c') :
    ∃ rest', Inv E Q n L a0 c' rest' ∧ measure n c' rest' < measure n c rest := by
  have hpi := hI.pown i hi
  have hci := hI.cown i hi
  have hok := hI.ok i hi
  rw [Concurrency.step] at hs
  cases ht : c.thr i with
  | start =>
    rw [ht] at hs
    obtain rfl := Option.some.inj hs
    exact ⟨rest, hI.local hi _ (by rw [ht]; rfl) (by rw [ht]; rfl) (by rw [ht]; rfl) (by rw [ht]; rfl) trivial (by rw [ht]; simp [Thread.rank])⟩
  | wantP w =>
    rw [ht] at hs
    simp only at hs
    split at hs
    case isFalse => simp at hs
    case isTrue hp =>
      obtain rfl := Option.some.inj hs
      obtain ⟨s1, e1, e1'⟩ := sum_setThr Thread.jobs c n i hi (.heldP w)
      obtain ⟨s2, e2, e2'⟩ := sum_setThr Thread.exec c n i hi (.heldP w)
      obtain ⟨s3, e3, e3'⟩ := sum_setThr Thread.rank c n i hi (.heldP w)
      refine ⟨rest, ⟨hI.yields, fun k hk => ?_, fun k hk => ?_, fun k hk => ?_, hI.clt, fun k hk => ?_, ?_, ?_, hI.acc, hI.logQ⟩, ?_⟩
      · by_cases hki : k = i
        · subst hki
          change ((c.setThr k _).thr k).holdsP ↔ some k = some k
          rw [setThr_self]
          exact ⟨fun _ => rfl, fun _ => trivial⟩
        · change ((c.setThr i _).thr k).holdsP ↔ some i = some k
          rw [setThr_of_ne c hki]
          have := hI.pown k hk
          rw [hp] at this
          exact ⟨fun h => absurd (this.mp h) (by simp), fun h => absurd (Option.some.inj h).symm hki⟩
      · change some i = some k at hk
        obtain rfl := Option.some.inj hk; exact hi
      · by_cases hki : k = i
        · subst hki
          change ((c.setThr k _).thr k).holdsC ↔ _
          rw [setThr_self]; rw [ht] at hci; exact hci
        · change ((c.setThr i _).thr k).holdsC ↔ _
          rw [setThr_of_ne c hki]; exact hI.cown k hk
      · by_cases hki : k = i
        · subst hki
          change ((c.setThr k _).thr k).ok E Q _ _
          rw [setThr_self]; trivial
        · change ((c.setThr i _).thr k).ok E Q _ _
          rw [setThr_of_ne c hki]; exact hI.ok k hk
      · change (∑ k ∈ _, ((c.setThr i _).thr k).jobs) + _ + _ = _
        rw [e1']; rw [ht] at e1; rw [show (Thread.heldP w : Thread P J W R C).jobs = (Thread.wantP w : Thread P J W R C).jobs from rfl, ← e1]; exact hI.jobs
      · change (∑ k ∈ _, ((c.setThr i _).thr k).exec) + _ = _
        rw [e2']; rw [ht] at e2; rw [show (Thread.heldP w : Thread P J W R C).exec = (Thread.wantP w : Thread P J W R C).exec from rfl, ← e2]; exact hI.exec
      · rw [measure, measure]
        change (∑ k ∈ _, ((c.setThr i _).thr k).rank) + _ < _
        rw [e3', e3, ht]
        change 12 + s3 + _ < 13 + s3 + _
        omega
  | heldP w =>
    rw [ht] at hs
    simp only at hs
    split at hs
    case isTrue hn =>
      obtain rfl := Option.some.inj hs
      exact ⟨rest, hI.local hi _ (by rw [ht]; rfl) (by rw [ht]; rfl) (by rw [ht]; rfl) (by rw [ht]; rfl) hn (by rw [ht]; simp [Thread.rank])⟩
    case isFalse hn =>
      obtain rfl := Option.some.inj hs
      exact ⟨rest, hI.local hi _ (by rw [ht]; rfl) (by rw [ht]; rfl) (by rw [ht]; rfl) (by rw [ht]; rfl) (show E.hasNext c.prov = false by simpa using hn) (by rw [ht]; simp [Thread.rank])⟩
  | nextRead w =>
    rw [ht] at hs hok
    obtain rfl := Option.some.inj hs
    exact ⟨rest, hI.local hi _ (by rw [ht]; rfl) (by rw [ht]; rfl) (by rw [ht]; rfl) (by rw [ht]; rfl) ⟨rfl, hok⟩ (by rw [ht]; simp [Thread.rank])⟩
  | nextWrite w p =>
    rw [ht] at hs hok hpi hci
    obtain ⟨rfl, hn⟩ := hok
    obtain rfl := Option.some.inj hs
    have hy := hI.yields
    have hp := hpi.mp trivial
    cases hr : rest with
    | nil => rw [hr] at hy; cases hy with | nil h => rw [hn] at h; simp at h
    | cons j l =>
      rw [hr] at hy
      cases hy with
      | cons h hy' =>
        obtain ⟨s1, e1, e1'⟩ := sum_setThr Thread.jobs c n i hi (.gotJob w (E.next c.prov).1)
        obtain ⟨s2, e2, e2'⟩ := sum_setThr Thread.exec c n i hi (.gotJob w (E.next c.prov).1)
        obtain ⟨s3, e3, e3'⟩ := sum_setThr Thread.rank c n i hi (.gotJob w (E.next c.prov).1)
        refine ⟨l, ⟨hy', fun k hk => ?_, hI.plt, fun k hk => ?_, hI.clt, fun k hk => ?_, ?_, ?_, hI.acc, hI.logQ⟩, ?_⟩
        · change ((c.setThr i _).thr k).holdsP ↔ _
          by_cases hki : k = i
          · subst hki; rw [setThr_self]; exact hpi
          · rw [setThr_of_ne c hki]; exact hI.pown k hk
        · change ((c.setThr i _).thr k).holdsC ↔ _
          by_cases hki : k = i
          · subst hki; rw [setThr_self]; exact hci
          · rw [setThr_of_ne c hki]; exact hI.cown k hk
        · change ((c.setThr i _).thr k).ok E Q (E.next c.prov).2 c.acc
          by_cases hki : k = i
          · subst hki; rw [setThr_self]; trivial
          · rw [setThr_of_ne c hki]
            have h1 := hI.ok k hk
            have h2 := hI.pown k hk
            have h3 : ¬ (c.thr k).holdsP := fun h => hki (Option.some.inj ((h2.mp h).symm.trans hp))
            cases htk : c.thr k with
            | nextRead _ => rw [htk] at h3; exact absurd trivial h3
            | nextWrite _ _ => rw [htk] at h3; exact absurd trivial h3
            | exiting => rw [htk] at h3; exact absurd trivial h3
            | done => rw [htk] at h1; change E.hasNext c.prov = false at h1; rw [hn] at h1; simp at h1
            | _ => rw [htk] at h1; exact h1
        · change (∑ k ∈ _, ((c.setThr i _).thr k).jobs) + _ + _ = _
          have := hI.jobs
          rw [e1, ht, hr] at this
          rw [e1', ← this]
          change {(E.next c.prov).1} + s1 + ((c.collectLog.map Prod.snd : List J) : Multiset J) + (l : Multiset J) = 0 + s1 + ((c.collectLog.map Prod.snd : List J) : Multiset J) + ((E.next c.prov).1 ::ₘ (l : Multiset J))
          rw [← Multiset.singleton_add]
          abel
        · change (∑ k ∈ _, ((c.setThr i _).thr k).exec) + _ = _
          rw [e2']; rw [ht] at e2
          rw [show (Thread.gotJob w (E.next c.prov).1 : Thread P J W R C).exec = (Thread.nextWrite w c.prov : Thread P J W R C).exec from rfl, ← e2]; exact hI.exec
        · rw [measure, measure]
          change (∑ k ∈ _, ((c.setThr i _).thr k).rank) + _ < _
          rw [e3', e3, ht]
          change 19 + s3 + 10 * l.length < 10 + s3 + 10 * (l.length + 1)
          omega
  | gotJob w j =>
    rw [ht] at hs hpi hci
    have hp := hpi.mp trivial
    obtain rfl := Option.some.inj hs
    obtain ⟨s1, e1, e1'⟩ := sum_setThr Thread.jobs c n i hi (.running w j)
    obtain ⟨s2, e2, e2'⟩ := sum_setThr Thread.exec c n i hi (.running w j)
    obtain ⟨s3, e3, e3'⟩ := sum_setThr Thread.rank c n i hi (.running w j)
    refine ⟨rest, ⟨hI.yields, fun k hk => ?_, fun k hk => ?_, fun k hk => ?_, hI.clt, fun k hk => ?_, ?_, ?_, hI.acc, hI.logQ⟩, ?_⟩
    · change ((c.setThr i _).thr k).holdsP ↔ none = some k
      by_cases hki : k = i
      · subst hki; rw [setThr_self]; exact ⟨fun h => h.elim, fun h => by simp at h⟩
      · rw [setThr_of_ne c hki]
        have := hI.pown k hk
        rw [hp] at this
        exact ⟨fun h => absurd (Option.some.inj (this.mp h)).symm hki, fun h => by simp at h⟩
    · change none = some k at hk; simp at hk
    · change ((c.setThr i _).thr k).holdsC ↔ _
      by_cases hki : k = i
      · subst hki; rw [setThr_self]; exact hci
      · rw [setThr_of_ne c hki]; exact hI.cown k hk
    · change ((c.setThr i _).thr k).ok E Q _ _
      by_cases hki : k = i
      · subst hki; rw [setThr_self]; trivial
      · rw [setThr_of_ne c hki]; exact hI.ok k hk
    · change (∑ k ∈ _, ((c.setThr i _).thr k).jobs) + _ + _ = _
      rw [e1']; rw [ht] at e1; rw [show (Thread.running w j : Thread P J W R C).jobs = (Thread.gotJob w j : Thread P J W R C).jobs from rfl, ← e1]; exact hI.jobs
    · change (∑ k ∈ _, ((c.setThr i _).thr k).exec) + _ = _
      rw [e2']; rw [ht] at e2; rw [show (Thread.running w j : Thread P J W R C).exec = (Thread.gotJob w j : Thread P J W R C).exec from rfl, ← e2]; exact hI.exec
    · rw [measure, measure]
      change (∑ k ∈ _, ((c.setThr i _).thr k).rank) + _ < _
      rw [e3', e3, ht]
      change 18 + s3 + _ < 19 + s3 + _
      omega
  | running w j =>
    rw [ht] at hs hpi hci
    obtain rfl := Option.some.inj hs
    obtain ⟨s1, e1, e1'⟩ := sum_setThr Thread.jobs c n i hi (.wantC (E.execute w j).2 j (E.execute w j).1)
    obtain ⟨s2, e2, e2'⟩ := sum_setThr Thread.exec c n i hi (.wantC (E.execute w j).2 j (E.execute w j).1)
    obtain ⟨s3, e3, e3'⟩ := sum_setThr Thread.rank c n i hi (.wantC (E.execute w j).2 j (E.execute w j).1)
    refine ⟨rest, ⟨hI.yields, fun k hk => ?_, hI.plt, fun k hk => ?_, hI.clt, fun k hk => ?_, ?_, ?_, hI.acc, hI.logQ⟩, ?_⟩
    · change ((c.setThr i _).thr k).holdsP ↔ _
      by_cases hki : k = i
      · subst hki; rw [setThr_self]; exact hpi
      · rw [setThr_of_ne c hki]; exact hI.pown k hk
    · change ((c.setThr i _).thr k).holdsC ↔ _
      by_cases hki : k = i
      · subst hki; rw [setThr_self]; exact hci
      · rw [setThr_of_ne c hki]; exact hI.cown k hk
    · change ((c.setThr i _).thr k).ok E Q _ _
      by_cases hki : k = i
      · subst hki; rw [setThr_self]; exact hQ w j
      · rw [setThr_of_ne c hki]; exact hI.ok k hk
    · change (∑ k ∈ _, ((c.setThr i _).thr k).jobs) + _ + _ = _
      have := hI.jobs
      rw [e1, ht] at this
      rw [e1']; exact this
    · change (∑ k ∈ _, ((c.setThr i _).thr k).exec) + _ = ((c.execLog ++ [j] : List J) : Multiset J)
      have := hI.exec
      rw [e2, ht] at this
      rw [e2', ← Multiset.coe_add, ← this]
      change {j} + s2 + ((c.collectLog.map Prod.snd : List J) : Multiset J) = 0 + s2 + ((c.collectLog.map Prod.snd : List J) : Multiset J) + {j}
      abel
    · rw [measure, measure]
      change (∑ k ∈ _, ((c.setThr i _).thr k).rank) + _ < _
      rw [e3', e3, ht]
      change 17 + s3 + _ < 18 + s3 + _
      omega
  | wantC w j r =>
    rw [ht] at hs hpi hci hok
    simp only at hs
    split at hs
    case isFalse => simp at hs
    case isTrue hp =>
      obtain rfl := Option.some.inj hs
      obtain ⟨s1, e1, e1'⟩ := sum_setThr Thread.jobs c n i hi (.heldC w j r)
      obtain ⟨s2, e2, e2'⟩ := sum_setThr Thread.exec c n i hi (.heldC w j r)
      obtain ⟨s3, e3, e3'⟩ := sum_setThr Thread.rank c n i hi (.heldC w j r)
      refine ⟨rest, ⟨hI.yields, fun k hk => ?_, hI.plt, fun k hk => ?_, fun k hk => ?_, fun k hk => ?_, ?_, ?_, hI.acc, hI.logQ⟩, ?_⟩
      · change ((c.setThr i _).thr k).holdsP ↔ _
        by_cases hki : k = i
        · subst hki; rw [setThr_self]; exact hpi
        · rw [setThr_of_ne c hki]; exact hI.pown k hk
      · change ((c.setThr i _).thr k).holdsC ↔ some i = some k
        by_cases hki : k = i
        · subst hki
          rw [setThr_self]
          exact ⟨fun _ => rfl, fun _ => trivial⟩
        · rw [setThr_of_ne c hki]
          have := hI.cown k hk
          rw [hp] at this
          exact ⟨fun h => absurd (this.mp h) (by simp), fun h => absurd (Option.some.inj h).symm hki⟩
      · change some i = some k at hk
        obtain rfl := Option.some.inj hk; exact hi
      · change ((c.setThr i _).thr k).ok E Q _ _
        by_cases hki : k = i
        · subst hki; rw [setThr_self]; exact hok
        · rw [setThr_of_ne c hki]; exact hI.ok k hk
      · change (∑ k ∈ _, ((c.setThr i _).thr k).jobs) + _ + _ = _
        have := hI.jobs
        rw [e1, ht] at this
        rw [e1']; exact this
      · change (∑ k ∈ _, ((c.setThr i _).thr k).exec) + _ = _
        have := hI.exec
        rw [e2, ht] at this
        rw [e2']; exact this
      · rw [measure, measure]
        change (∑ k ∈ _, ((c.setThr i _).thr k).rank) + _ < _
        rw [e3', e3, ht]
        change 16 + s3 + _ < 17 + s3 + _
        omega
  | heldC w j r =>
    rw [ht] at hs hok
    obtain rfl := Option.some.inj hs
    exact ⟨rest, hI.local hi _ (by rw [ht]; rfl) (by rw [ht]; rfl) (by rw [ht]; rfl) (by rw [ht]; rfl) ⟨rfl, hok⟩ (by rw [ht]; simp [Thread.rank])⟩
  | collectWrite w j r a =>
    rw [ht] at hs hpi hci hok
    obtain ⟨rfl, hq⟩ := hok
    have hc := hci.mp trivial
    obtain rfl := Option.some.inj hs
    obtain ⟨s1, e1, e1'⟩ := sum_setThr Thread.jobs c n i hi (.collected w)
    obtain ⟨s2, e2, e2'⟩ := sum_setThr Thread.exec c n i hi (.collected w)
    obtain ⟨s3, e3, e3'⟩ := sum_setThr Thread.rank c n i hi (.collected w)
    refine ⟨rest, ⟨hI.yields, fun k hk => ?_, hI.plt, fun k hk => ?_, hI.clt, fun k hk => ?_, ?_, ?_, ?_, fun x hx => ?_⟩, ?_⟩
    · change ((c.setThr i _).thr k).holdsP ↔ _
      by_cases hki : k = i
      · subst hki; rw [setThr_self]; exact hpi
      · rw [setThr_of_ne c hki]; exact hI.pown k hk
    · change ((c.setThr i _).thr k).holdsC ↔ _
      by_cases hki : k = i
      · subst hki; rw [setThr_self]; exact hci
      · rw [setThr_of_ne c hki]; exact hI.cown k hk
    · change ((c.setThr i _).thr k).ok E Q c.prov (E.collect c.acc r j)
      by_cases hki : k = i
      · subst hki; rw [setThr_self]; trivial
      · rw [setThr_of_ne c hki]
        have h1 := hI.ok k hk
        have h2 := hI.cown k hk
        have h3 : ¬ (c.thr k).holdsC := fun h => hki (Option.some.inj ((h2.mp h).symm.trans hc))
        cases htk : c.thr k with
        | collectWrite _ _ _ _ => rw [htk] at h3; exact absurd trivial h3
        | _ => rw [htk] at h1; exact h1
    · change (∑ k ∈ _, ((c.setThr i _).thr k).jobs) + (((c.collectLog ++ [(r, j)]).map Prod.snd : List J) : Multiset J) + _ = _
      have := hI.jobs
      rw [e1, ht] at this
      rw [e1', ← this, List.map_append, ← Multiset.coe_add]
      change 0 + s1 + (((c.collectLog.map Prod.snd : List J) : Multiset J) + {j}) + (rest : Multiset J) = {j} + s1 + ((c.collectLog.map Prod.snd : List J) : Multiset J) + (rest : Multiset J)
      abel
    · change (∑ k ∈ _, ((c.setThr i _).thr k).exec) + (((c.collectLog ++ [(r, j)]).map Prod.snd : List J) : Multiset J) = (c.execLog : Multiset J)
      have := hI.exec
      rw [e2, ht] at this
      rw [e2', ← this, List.map_append, ← Multiset.coe_add]
      change 0 + s2 + (((c.collectLog.map Prod.snd : List J) : Multiset J) + {j}) = {j} + s2 + ((c.collectLog.map Prod.snd : List J) : Multiset J)
      abel
    · change E.collect c.acc r j = (c.collectLog ++ [(r, j)]).foldl _ a0
      rw [List.foldl_append, ← hI.acc]
      rfl
    · rcases List.mem_append.mp hx with hx | hx
      · exact hI.logQ x hx
      · rw [List.mem_singleton.mp hx]; exact hq
    · rw [measure, measure]
      change (∑ k ∈ _, ((c.setThr i _).thr k).rank) + _ < _
      rw [e3', e3, ht]
      change 14 + s3 + _ < 15 + s3 + _
      omega
  | collected w =>
    rw [ht] at hs hpi hci
    have hc := hci.mp trivial
    obtain rfl := Option.some.inj hs
    obtain ⟨s1, e1, e1'⟩ := sum_setThr Thread.jobs c n i hi (.wantP w)
    obtain ⟨s2, e2, e2'⟩ := sum_setThr Thread.exec c n i hi (.wantP w)
    obtain ⟨s3, e3, e3'⟩ := sum_setThr Thread.rank c n i hi (.wantP w)
    refine ⟨rest, ⟨hI.yields, fun k hk => ?_, hI.plt, fun k hk => ?_, fun k hk => ?_, fun k hk => ?_, ?_, ?_, hI.acc, hI.logQ⟩, ?_⟩
    · change ((c.setThr i _).thr k).holdsP ↔ _
      by_cases hki : k = i
      · subst hki; rw [setThr_self]; exact hpi
      · rw [setThr_of_ne c hki]; exact hI.pown k hk
    · change ((c.setThr i _).thr k).holdsC ↔ none = some k
      by_cases hki : k = i
      · subst hki; rw [setThr_self]; exact ⟨fun h => h.elim, fun h => by simp at h⟩
      · rw [setThr_of_ne c hki]
        have := hI.cown k hk
        rw [hc] at this
        exact ⟨fun h => absurd (Option.some.inj (this.mp h)).symm hki, fun h => by simp at h⟩
    · change none = some k at hk; simp at hk
    · change ((c.setThr i _).thr k).ok E Q _ _
      by_cases hki : k = i
      · subst hki; rw [setThr_self]; trivial
      · rw [setThr_of_ne c hki]; exact hI.ok k hk
    · change (∑ k ∈ _, ((c.setThr i _).thr k).jobs) + _ + _ = _
      have := hI.jobs
      rw [e1, ht] at this
      rw [e1']; exact this
    · change (∑ k ∈ _, ((c.setThr i _).thr k).exec) + _ = _
      have := hI.exec
      rw [e2, ht] at this
      rw [e2']; exact this
    · rw [measure, measure]
      change (∑ k ∈ _, ((c.setThr i _).thr k).rank) + _ < _
      rw [e3', e3, ht]
      change 13 + s3 + _ < 14 + s3 + _
      omega
  | exiting =>
    rw [ht] at hs hpi hci hok
    have hp := hpi.mp trivial
    obtain rfl := Option.some.inj hs
    obtain ⟨s1, e1, e1'⟩ := sum_setThr Thread.jobs c n i hi .done
    obtain ⟨s2, e2, e2'⟩ := sum_setThr Thread.exec c n i hi .done
    obtain ⟨s3, e3, e3'⟩ := sum_setThr Thread.rank c n i hi .done
    refine ⟨rest, ⟨hI.yields, fun k hk => ?_, fun k hk => ?_, fun k hk => ?_, hI.clt, fun k hk => ?_, ?_, ?_, hI.acc, hI.logQ⟩, ?_⟩
    · change ((c.setThr i _).thr k).holdsP ↔ none = some k
      by_cases hki : k = i
      · subst hki; rw [setThr_self]; exact ⟨fun h => h.elim, fun h => by simp at h⟩
      · rw [setThr_of_ne c hki]
        have := hI.pown k hk
        rw [hp] at this
        exact ⟨fun h => absurd (Option.some.inj (this.mp h)).symm hki, fun h => by simp at h⟩
    · change none = some k at hk; simp at hk
    · change ((c.setThr i _).thr k).holdsC ↔ _
      by_cases hki : k = i
      · subst hki; rw [setThr_self]; exact hci
      · rw [setThr_of_ne c hki]; exact hI.cown k hk
    · change ((c.setThr i _).thr k).ok E Q _ _
      by_cases hki : k = i
      · subst hki; rw [setThr_self]; exact hok
      · rw [setThr_of_ne c hki]; exact hI.ok k hk
    · change (∑ k ∈ _, ((c.setThr i _).thr k).jobs) + _ + _ = _
      have := hI.jobs
      rw [e1, ht] at this
      rw [e1']; exact this
    · change (∑ k ∈ _, ((c.setThr i _).thr k).exec) + _ = _
      have := hI.exec
      rw [e2, ht] at this
      rw [e2']; exact this
    · rw [measure, measure]
      change (∑ k ∈ _, ((c.setThr i _).thr k).rank) + _ < _
      rw [e3', e3, ht]
      change 0 + s3 + _ < 1 + s3 + _
      omega
  | done => rw [ht] at hs; simp at hs

theorem Inv.init {E : Env P J W R C} {Q : R → J → Prop} {p : P} {L : List J} (hy : Yields E p L) (a0 : C) (n : Nat) :
    Inv E Q n L a0 (init p a0) L := by
  refine ⟨hy, fun i _ => ⟨fun h => h.elim, fun h => by simp [Concurrency.init] at h⟩, fun i h => by simp [Concurrency.init] at h,
    fun i _ => ⟨fun h => h.elim, fun h => by simp [Concurrency.init] at h⟩, fun i h => by simp [Concurrency.init] at h, fun i _ => trivial, ?_, ?_, rfl, fun x hx => by simp [Concurrency.init] at hx⟩
  · simp [Concurrency.init, Thread.jobs]
  · simp [Concurrency.init, Thread.exec]

theorem Inv.run {E : Env P J W R C} {Q : R → J → Prop} (hQ : ∀ w j, Q (E.execute w j).1 j) {n : Nat} {L : List J} {a0 : C} :
    ∀ (sched : List Nat) (c c' : Cfg P J W R C) (rest : List J), Inv E Q n L a0 c rest → (∀ i ∈ sched, i < n) → run E c sched = some c' →
    ∃ rest', Inv E Q n L a0 c' rest' ∧ measure n c' rest' + sched.length ≤ measure n c rest := by
  intro sched
  induction sched with
  | nil => intro c c' rest hI _ hr; obtain rfl := Option.some.inj hr; exact ⟨rest, hI, by simp⟩
  | cons i is ih =>
    intro c c' rest hI hlt hr
    rw [Concurrency.run] at hr
    cases hs : Concurrency.step E c i with
    | none => rw [hs] at hr; simp at hr
    | some c1 =>
      rw [hs] at hr
      obtain ⟨r1, hI1, hm1⟩ := hI.step hQ (hlt i List.mem_cons_self) hs
      obtain ⟨r2, hI2, hm2⟩ := ih c1 c' r1 hI1 (fun k hk => hlt k (List.mem_cons_of_mem _ hk)) hr
      exact ⟨r2, hI2, by rw [List.length_cons]; omega⟩

/-- At the end, nothing is left. -/
theorem Inv.finished {E : Env P J W R C} {Q : R → J → Prop} {n : Nat} {L : List J} {a0 : C} {c : Cfg P J W R C} {rest : List J}
    (hI : Inv E Q n L a0 c rest) (hn : 0 < n) (hf : Finished n c) :
    (c.collectLog.map Prod.snd).Perm L ∧ c.execLog.Perm L := by
  have h1 : (∑ i ∈ Finset.range n, (c.thr i).jobs) = 0 := Finset.sum_eq_zero fun i hi => by rw [hf i (Finset.mem_range.mp hi)]; rfl
  have h2 : (∑ i ∈ Finset.range n, (c.thr i).exec) = 0 := Finset.sum_eq_zero fun i hi => by rw [hf i (Finset.mem_range.mp hi)]; rfl
  have h3 := hI.ok 0 hn
  rw [hf 0 hn] at h3
  have h4 : rest = [] := by
    have hy := hI.yields
    cases hy with
    | nil => rfl
    | cons h => change E.hasNext c.prov = false at h3; rw [h3] at h; simp at h
  have e1 := hI.jobs
  have e2 := hI.exec
  rw [h1, h4] at e1
  rw [h2] at e2
  simp only [zero_add, Multiset.coe_nil, add_zero] at e1 e2
  refine ⟨Multiset.coe_eq_coe.mp e1, Multiset.coe_eq_coe.mp (e2.symm.trans e1)⟩

/-- No thread is ever stuck unless all have ended. -/
theorem Inv.progress {E : Env P J W R C} {Q : R → J → Prop} {n : Nat} {L : List J} {a0 : C} {c : Cfg P J W R C} {rest : List J}
    (hI : Inv E Q n L a0 c rest) (hf : ¬ Finished n c) : ∃ i < n, (Concurrency.step E c i).isSome := by
  by_cases hp : ∃ i, c.pOwner = some i
  · obtain ⟨i, hp⟩ := hp
    have hi := hI.plt i hp
    have := (hI.pown i hi).mpr hp
    refine ⟨i, hi, ?_⟩
    rw [Concurrency.step]
    cases ht : c.thr i <;> rw [ht] at this <;> first | exact this.elim | (simp; try split <;> simp)
  · by_cases hc : ∃ i, c.cOwner = some i
    · obtain ⟨i, hc⟩ := hc
      have hi := hI.clt i hc
      have := (hI.cown i hi).mpr hc
      refine ⟨i, hi, ?_⟩
      rw [Concurrency.step]
      cases ht : c.thr i <;> rw [ht] at this <;> first | exact this.elim | simp
    · have hp' : c.pOwner = none := by
        cases h : c.pOwner with
        | none => rfl
        | some i => exact absurd ⟨i, h⟩ hp
      have hc' : c.cOwner = none := by
        cases h : c.cOwner with
        | none => rfl
        | some i => exact absurd ⟨i, h⟩ hc
      rw [Finished] at hf
      push Not at hf
      obtain ⟨i, hi, hne⟩ := hf
      refine ⟨i, hi, ?_⟩
      rw [Concurrency.step]
      cases ht : c.thr i <;> first | exact absurd ht hne | (simp [hp', hc']; try split <;> simp)

/-! ### The theorems -/

/-- **C33**: under every schedule that lets `parallel_execute` return, every job of the provider is executed exactly
once and the result of every job is collected exactly once, whatever the workers and the collector do; the state of
the collector is that of collecting these results one after the other. -/
theorem C33_exactly_once (E : Env P J W R C) (p : P) (L : List J) (hy : Yields E p L) (a0 : C) (numThreads : Int) (sched : List Nat)
    (hs : ∀ i ∈ sched, i < threads numThreads) (c : Cfg P J W R C) (hr : run E (init p a0) sched = some c) (hf : Finished (threads numThreads) c) :
    c.execLog.Perm L ∧ (c.collectLog.map Prod.snd).Perm L ∧ c.acc = c.collectLog.foldl (fun a x => E.collect a x.1 x.2) a0 := by
  obtain ⟨rest, hI, _⟩ := Inv.run (Q := fun _ _ => True) (fun _ _ => trivial) sched _ _ _ (Inv.init hy a0 _) hs hr
  have hn : 0 < threads numThreads := by rw [threads]; split <;> omega
  obtain ⟨h1, h2⟩ := hI.finished hn hf
  exact ⟨h2, h1, hI.acc⟩

/-- **C33**: if the result of a job depends on the job only and the collector is insensitive to the order, then the
collector ends up in the state in which executing the jobs one after the other would leave it. -/
theorem C33_deterministic (E : Env P J W R C) (f : J → R) (hf : ∀ w j, (E.execute w j).1 = f j)
    (hcomm : ∀ a r j r' j', E.collect (E.collect a r j) r' j' = E.collect (E.collect a r' j') r j)
    (p : P) (L : List J) (hy : Yields E p L) (a0 : C) (numThreads : Int) (sched : List Nat) (hs : ∀ i ∈ sched, i < threads numThreads)
    (c : Cfg P J W R C) (hr : run E (init p a0) sched = some c) (hfin : Finished (threads numThreads) c) :
    c.acc = L.foldl (fun a j => E.collect a (f j) j) a0 := by
  obtain ⟨rest, hI, _⟩ := Inv.run (Q := fun r j => r = f j) hf sched _ _ _ (Inv.init hy a0 _) hs hr
  have hn : 0 < threads numThreads := by rw [threads]; split <;> omega
  obtain ⟨h1, -⟩ := hI.finished hn hfin
  have e : c.collectLog = (c.collectLog.map Prod.snd).map fun j => (f j, j) := by
    rw [List.map_map]
    conv_lhs => rw [← List.map_id c.collectLog]
    apply List.map_congr_left
    intro x hx
    exact Prod.ext (hI.logQ x hx) rfl
  rw [hI.acc, e, List.foldl_map]
  exact h1.foldl_eq' (fun x _ y _ a => hcomm _ _ _ _ _) a0

/-- **C33**: `parallel_execute` always returns: no schedule is longer than a bound, and as long as some thread has
not ended some thread can take a step. -/
theorem C33_terminates (E : Env P J W R C) (p : P) (L : List J) (hy : Yields E p L) (a0 : C) (numThreads : Int) (sched : List Nat)
    (hs : ∀ i ∈ sched, i < threads numThreads) (c : Cfg P J W R C) (hr : run E (init p a0) sched = some c) :
    sched.length ≤ 14 * threads numThreads + 10 * L.length ∧
    (Finished (threads numThreads) c ∨ ∃ i < threads numThreads, (step E c i).isSome) := by
  obtain ⟨rest, hI, hm⟩ := Inv.run (Q := fun _ _ => True) (fun _ _ => trivial) sched _ _ _ (Inv.init hy a0 _) hs hr
  refine ⟨?_, ?_⟩
  · have : measure (threads numThreads) (init p a0 : Cfg P J W R C) L = 14 * threads numThreads + 10 * L.length := by
      simp [measure, init, Thread.rank, Nat.mul_comm]
    omega
  · by_cases h : Finished (threads numThreads) c
    · exact Or.inl h
    · exact Or.inr (hI.progress h)

/-- **C33**: calls to the provider never overlap, and neither do calls to the collector. -/
theorem C33_mutual_exclusion (E : Env P J W R C) (p : P) (L : List J) (hy : Yields E p L) (a0 : C) (numThreads : Int) (sched : List Nat)
    (hs : ∀ i ∈ sched, i < threads numThreads) (c : Cfg P J W R C) (hr : run E (init p a0) sched = some c) (i k : Nat)
    (hi : i < threads numThreads) (hk : k < threads numThreads) :
    ((c.thr i).holdsP → (c.thr k).holdsP → i = k) ∧ ((c.thr i).holdsC → (c.thr k).holdsC → i = k) := by
  obtain ⟨rest, hI, _⟩ := Inv.run (Q := fun _ _ => True) (fun _ _ => trivial) sched _ _ _ (Inv.init hy a0 _) hs hr
  exact ⟨fun h1 h2 => Option.some.inj (((hI.pown i hi).mp h1).symm.trans ((hI.pown k hk).mp h2)),
    fun h1 h2 => Option.some.inj (((hI.cown i hi).mp h1).symm.trans ((hI.cown k hk).mp h2))⟩

/-! ### Ranges -/

/-- The integers from `b` up to, not including, `e`. -/
def ints (b e : Int) : List Int := (List.range (e - b).toNat).map fun k : Nat => b + (k : Int)

theorem ints_append {a b c : Int} (h1 : a ≤ b) (h2 : b ≤ c) : ints a b ++ ints b c = ints a c := by
  rw [ints, ints, ints, show (c - a).toNat = (b - a).toNat + (c - b).toNat by omega, List.range_add, List.map_append, List.map_map]
  congr 1
  apply List.map_congr_left
  intro k _
  simp only [Function.comp]
  push_cast
  omega

/-- **C33**: the jobs of `range_job_provider(b, e, len)` partition the range: they are non-empty, at most `len` long,
and put after each other they are the range. -/
theorem C33_range_jobs (E : Env Range (Int × Int) W R C) (h1 : E.hasNext = Range.hasNext) (h2 : E.next = Range.next) (b e len : Int) (hlen : 1 ≤ len) :
    ∃ L, Yields E ⟨b, e, len⟩ L ∧ (∀ j ∈ L, j.1 < j.2 ∧ j.2 - j.1 ≤ len) ∧ (L.map fun j => ints j.1 j.2).flatten = ints b e := by
  induction hm : (e - b).toNat using Nat.strong_induction_on generalizing b with
  | _ m ih =>
    by_cases hbe : b < e
    · obtain ⟨L, y, q1, q2⟩ := ih (e - (b + len)).toNat (by omega) (b + len) rfl
      refine ⟨(E.next ⟨b, e, len⟩).1 :: L, .cons ?_ ?_, ?_, ?_⟩
      · rw [h1, Range.hasNext]; simpa using hbe
      · rw [h2]; exact y
      · intro j hj
        rcases List.mem_cons.mp hj with rfl | hj
        · rw [h2, Range.next]; simp only; omega
        · exact q1 j hj
      · rw [List.map_cons, List.flatten_cons, q2, h2, Range.next]
        simp only
        rw [show b + len - len = b by omega]
        by_cases h : b + len ≤ e
        · rw [min_eq_left h]; exact ints_append (by omega) h
        · rw [min_eq_right (by omega)]
          rw [show ints (b + len) e = [] by rw [ints, show (e - (b + len)).toNat = 0 by omega]; rfl, List.append_nil]
    · refine ⟨[], .nil ?_, by simp, ?_⟩
      · rw [h1, Range.hasNext]; simpa using hbe
      · rw [ints, show (e - b).toNat = 0 by omega]; rfl

/-- **C33**: summing over a range in parallel with `range_job_provider` and `add_result_collector` gives the sum
over the range, for every number of threads and every schedule. -/
theorem C33_range_sum {T : Type} [AddCommMonoid T] (E : Env Range (Int × Int) W T T) (g : Int → T) (h1 : E.hasNext = Range.hasNext) (h2 : E.next = Range.next)
    (h3 : E.collect = addCollect) (hf : ∀ w j, (E.execute w j).1 = ((ints j.1 j.2).map g).sum) (b e len : Int) (hlen : 1 ≤ len)
    (numThreads : Int) (sched : List Nat) (hs : ∀ i ∈ sched, i < threads numThreads) (c : Cfg Range (Int × Int) W T T)
    (hr : run E (init ⟨b, e, len⟩ 0) sched = some c) (hfin : Finished (threads numThreads) c) :
    c.acc = ((ints b e).map g).sum := by
  obtain ⟨L, y, -, q⟩ := C33_range_jobs E h1 h2 b e len hlen
  rw [C33_deterministic E (fun j => ((ints j.1 j.2).map g).sum) hf (fun a r j r' j' => by
    rw [h3]; exact add_right_comm a r r') _ L y 0 numThreads sched hs c hr hfin, h3, ← q]
  clear y q
  have : ∀ (L : List (Int × Int)) (a : T), L.foldl (fun a j => addCollect a ((ints j.1 j.2).map g).sum j) a
      = a + (((L.map fun j => ints j.1 j.2).flatten).map g).sum := by
    intro L
    induction L with
    | nil => intro a; simp
    | cons j L ih => intro a; rw [List.foldl_cons, ih, addCollect]; simp [add_assoc]
  rw [this, zero_add]

/-- An environment: square sums of the range. -/
def exampleEnv : Env Range (Int × Int) Unit Int Int :=
  ⟨Range.hasNext, Range.next, (), fun _ j => (((ints j.1 j.2).map fun x => x * x).sum, ()), addCollect⟩

/-- Two threads, interleaved, sum the squares of `12 … 15` in two jobs. -/
example : (run exampleEnv (init ⟨12, 16, 2⟩ 0)
    [0, 1, 0, 0, 0, 0, 0, 1, 1, 0, 1, 0, 1, 1, 0, 0, 1, 0, 1, 1, 1, 1, 0, 0, 0, 1, 1, 1]).map
    (fun c => (c.acc, match c.thr 0, c.thr 1 with | .done, .done => true | _, _ => false)) = some (734, true) := by
  decide +kernel

end Altruct.Concurrency
