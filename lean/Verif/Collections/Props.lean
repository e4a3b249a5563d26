/-
C34 (run-length encoding, comparison, take/filter/transform) and C35 (reduce, mex).
-/
import Verif.Collections.Model
import Mathlib.Order.Bounds.Basic
import Mathlib.Data.List.Chain
import Mathlib.Data.List.Lex
import Mathlib.Tactic.Ring
import Mathlib.Tactic.Linarith

namespace Altruct.Collections

variable {α β : Type}

/-! ### take, filter, transform -/

theorem takeLoop_eq (l : List α) (n : Nat) (r : List α) : takeLoop l n r = r ++ l.take n := by
  induction l generalizing n r with
  | nil => simp [takeLoop]
  | cons x xs ih =>
    rw [takeLoop]
    cases n with
    | zero => simp
    | succ n => simp [ih]

theorem filterLoop_eq (p : α → Bool) (l r : List α) : filterLoop p l r = r ++ l.filter p := by
  induction l generalizing r with
  | nil => simp [filterLoop]
  | cons x xs ih => rw [filterLoop, ih]; by_cases h : p x <;> simp [h]

theorem transformLoop_eq (f : α → β) (l : List α) (r : List β) : transformLoop f l r = r ++ l.map f := by
  induction l generalizing r with
  | nil => simp [transformLoop]
  | cons x xs ih => rw [transformLoop, ih]; simp

/-- **C34**: `take`, `filter` and `transform` are the usual operations on sequences. -/
theorem C34_take_filter_transform (l : List α) (n : Nat) (p : α → Bool) (f : α → β) :
    take l n = l.take n ∧ filter p l = l.filter p ∧ transform f l = l.map f :=
  ⟨by simp [take, takeLoop_eq], by simp [filter, filterLoop_eq], by simp [transform, transformLoop_eq]⟩

/-! ### run_length -/

/-- The sequence described by a list of runs. -/
def expand (r : List (α × Nat)) : List α := r.flatMap (fun p => List.replicate p.2 p.1)

theorem expand_append (r s : List (α × Nat)) : expand (r ++ s) = expand r ++ expand s := by
  simp [expand]

theorem runStep_spec [DecidableEq α] (r : List (α × Nat)) (x : α) (hp : ∀ p ∈ r, 1 ≤ p.2)
    (hc : List.IsChain (fun p q => p.1 ≠ q.1) r) :
    expand (runStep r x) = expand r ++ [x] ∧ (∀ p ∈ runStep r x, 1 ≤ p.2) ∧
      List.IsChain (fun p q => p.1 ≠ q.1) (runStep r x) := by
  rcases List.eq_nil_or_concat r with rfl | ⟨r', ⟨y, c⟩, rfl⟩
  · simp [runStep, expand]
  · rw [runStep]
    simp only [List.concat_eq_append, List.getLast?_append, List.getLast?_singleton, Option.some_or,
      List.dropLast_concat] at hp hc ⊢
    by_cases h : y = x
    · subst h
      rw [if_pos rfl]
      refine ⟨?_, ?_, ?_⟩
      · rw [expand_append, expand_append]
        simp [expand, List.replicate_succ']
      · intro p hpm
        rcases List.mem_append.mp hpm with h1 | h1
        · exact hp p (List.mem_append_left _ h1)
        · simp at h1; subst h1; simp
      · rw [List.isChain_append] at hc ⊢
        refine ⟨hc.1, List.isChain_singleton _, fun p hp1 q hq => ?_⟩
        have := hc.2.2 p hp1 (y, c) (by simp)
        simp at hq
        subst hq
        exact this
    · rw [if_neg h]
      refine ⟨?_, ?_, ?_⟩
      · rw [expand_append]; simp [expand]
      · intro p hpm
        rcases List.mem_append.mp hpm with h1 | h1
        · exact hp p h1
        · simp at h1; subst h1; simp
      · rw [List.isChain_append]
        refine ⟨hc, List.isChain_singleton _, fun p hp1 q hq => ?_⟩
        simp at hp1 hq
        subst hp1 hq
        exact h

theorem runLoop_spec [DecidableEq α] (l : List α) : ∀ (r : List (α × Nat)), (∀ p ∈ r, 1 ≤ p.2) →
    List.IsChain (fun p q => p.1 ≠ q.1) r →
    expand (runLoop l r) = expand r ++ l ∧ (∀ p ∈ runLoop l r, 1 ≤ p.2) ∧
      List.IsChain (fun p q => p.1 ≠ q.1) (runLoop l r) := by
  induction l with
  | nil => intro r hp hc; rw [runLoop, List.append_nil]; exact ⟨rfl, hp, hc⟩
  | cons x xs ih =>
    intro r hp hc
    obtain ⟨h1, h2, h3⟩ := runStep_spec r x hp hc
    obtain ⟨g1, g2, g3⟩ := ih _ h2 h3
    rw [runLoop]
    exact ⟨by rw [g1, h1]; simp, g2, g3⟩

/-- **C34**: expanding the runs of `run_length` restores the sequence, no run is empty, and
neighbouring runs have different values. -/
theorem C34_run_length [DecidableEq α] (l : List α) :
    expand (runLength l) = l ∧ (∀ p ∈ runLength l, 1 ≤ p.2) ∧
      List.IsChain (fun p q => p.1 ≠ q.1) (runLength l) := by
  have := runLoop_spec l [] (by simp) List.isChain_nil
  simpa [runLength, expand] using this

/-- **C34**: these three facts determine the runs: any other list with them is the result. -/
theorem C34_run_length_unique [DecidableEq α] (r s : List (α × Nat)) (h : expand r = expand s)
    (hr : (∀ p ∈ r, 1 ≤ p.2) ∧ List.IsChain (fun p q => p.1 ≠ q.1) r)
    (hs : (∀ p ∈ s, 1 ≤ p.2) ∧ List.IsChain (fun p q => p.1 ≠ q.1) s) : r = s := by
  induction r generalizing s with
  | nil =>
    cases s with
    | nil => rfl
    | cons q s =>
      have := hs.1 q (by simp)
      simp [expand] at h
      omega
  | cons p r ih =>
    cases s with
    | nil =>
      have := hr.1 p (by simp)
      simp [expand] at h
      omega
    | cons q s =>
      obtain ⟨x, n⟩ := p
      obtain ⟨y, m⟩ := q
      have hn : 1 ≤ n := hr.1 (x, n) (by simp)
      have hm : 1 ≤ m := hs.1 (y, m) (by simp)
      have tail : ∀ (z : α) (t : List (α × Nat)), (∀ p ∈ (z, 1) :: t, 1 ≤ p.2) →
          List.IsChain (fun p q => p.1 ≠ q.1) ((z, 1) :: t) → (expand t).head? ≠ some z := by
        intro z t hp hc
        cases t with
        | nil => simp [expand]
        | cons w t =>
          obtain ⟨w, k⟩ := w
          have hk : 1 ≤ k := hp (w, k) (by simp)
          obtain ⟨k, rfl⟩ := Nat.exists_eq_add_of_le' hk
          have hne : z ≠ w := by
            rw [List.isChain_cons_cons] at hc; exact hc.1
          simp [expand, List.replicate_succ]
          exact fun h => hne h.symm
      have hex : List.replicate n x ++ expand r = List.replicate m y ++ expand s := by
        simpa [expand] using h
      have hxy : x = y := by
        obtain ⟨n', rfl⟩ := Nat.exists_eq_add_of_le' hn
        obtain ⟨m', rfl⟩ := Nat.exists_eq_add_of_le' hm
        simp [List.replicate_succ] at hex
        exact hex.1
      subst hxy
      have chr : List.IsChain (fun p q : α × Nat => p.1 ≠ q.1) ((x, 1) :: r) := by
        have := hr.2
        cases r with
        | nil => exact List.isChain_singleton _
        | cons w t => rw [List.isChain_cons_cons] at this ⊢; exact this
      have chs : List.IsChain (fun p q : α × Nat => p.1 ≠ q.1) ((x, 1) :: s) := by
        have := hs.2
        cases s with
        | nil => exact List.isChain_singleton _
        | cons w t => rw [List.isChain_cons_cons] at this ⊢; exact this
      have tr := tail x r (fun p hp => by
        rcases List.mem_cons.mp hp with rfl | h1
        · simp
        · exact hr.1 p (by simp [h1])) chr
      have ts := tail x s (fun p hp => by
        rcases List.mem_cons.mp hp with rfl | h1
        · simp
        · exact hs.1 p (by simp [h1])) chs
      have key : ∀ (n m : Nat) (a b : List α), a.head? ≠ some x → b.head? ≠ some x →
          List.replicate n x ++ a = List.replicate m x ++ b → n = m ∧ a = b := by
        intro n
        induction n with
        | zero =>
          intro m a b ha hb hab
          cases m with
          | zero => exact ⟨rfl, by simpa using hab⟩
          | succ m => simp [List.replicate_succ] at hab; rw [hab] at ha; simp at ha
        | succ n ih2 =>
          intro m a b ha hb hab
          cases m with
          | zero => simp [List.replicate_succ] at hab; rw [← hab] at hb; simp at hb
          | succ m =>
            simp [List.replicate_succ] at hab
            obtain ⟨h1, h2⟩ := ih2 m a b ha hb hab
            exact ⟨by omega, h2⟩
      obtain ⟨h1, h2⟩ := key n m _ _ tr ts hex
      subst h1
      rw [ih s h2 ⟨fun p hp => hr.1 p (by simp [hp]), hr.2.tail⟩ ⟨fun p hp => hs.1 p (by simp [hp]), hs.2.tail⟩]

example : runLength [1, 1, 2, 2, 2, 1, 3] = [(1, 2), (2, 3), (1, 1), (3, 1)] := by decide

/-! ### compare -/

/-- **C34**: `compare` is the three-way lexicographic comparison of the first `m` elements. -/
theorem C34_compare [LinearOrder α] (l1 l2 : List α) (m : Nat) :
    compare (fun a b => decide (a = b)) (fun a b => decide (a < b)) l1 l2 m =
      if l1.take m < l2.take m then -1 else if l1.take m = l2.take m then 0 else 1 := by
  induction l1 generalizing l2 m with
  | nil =>
    cases l2 with
    | nil => simp [compare]
    | cons b bs => cases m with
      | zero => simp [compare]
      | succ m => simp [compare]
  | cons a as ih =>
    cases l2 with
    | nil => cases m with
      | zero => simp [compare]
      | succ m => simp [compare]
    | cons b bs =>
      cases m with
      | zero => simp [compare]
      | succ m =>
        rw [compare, if_neg (by omega), List.take_succ_cons, List.take_succ_cons]
        simp only [List.cons_lt_cons_iff, List.cons.injEq, Nat.add_sub_cancel]
        by_cases hab : a = b
        · subst hab
          simp [ih]
        · by_cases hlt : a < b
          · simp [hab, hlt]
          · simp [hab, hlt]

/-- **C34**: with the default `max_len` (the largest `size_t`) the whole sequences are compared. -/
theorem C34_compare_default [LinearOrder α] (l1 l2 : List α) (h1 : l1.length < 2 ^ 64) (h2 : l2.length < 2 ^ 64) :
    compare (fun a b => decide (a = b)) (fun a b => decide (a < b)) l1 l2 (2 ^ 64 - 1) =
      if l1 < l2 then -1 else if l1 = l2 then 0 else 1 := by
  rw [C34_compare, List.take_of_length_le (by omega), List.take_of_length_le (by omega)]

example : compare (fun a b => decide (a = b)) (fun a b => decide (a < b)) [1, 5, 2] [1, 5, 3, 0] 10 = -1 ∧
    compare (fun a b => decide (a = b)) (fun a b => decide (a < b)) [1, 5, 2] [1, 5, 3, 0] 2 = 0 ∧
    compare (fun a b => decide (a = b)) (fun a b => decide (a < b)) [1, 5, 2] [1, 4] 9 = 1 := by decide

/-! ### reduce -/

theorem reduce_eq {τ : Type} (f : τ → α → τ) (c : List α) (r : τ) : reduce f c r = c.foldl f r := by
  induction c generalizing r with
  | nil => rfl
  | cons e es ih => rw [reduce, ih]; rfl

/-- **C35**: sum and product. -/
theorem C35_sum_product (c : List Int) (id : Int) :
    reduceSum c id = id + c.sum ∧ reduceProduct c id = id * c.prod := by
  constructor
  · rw [reduceSum, reduce_eq]
    induction c generalizing id with
    | nil => simp
    | cons e es ih => simp [ih, add_assoc]
  · rw [reduceProduct, reduce_eq]
    induction c generalizing id with
    | nil => simp
    | cons e es ih => simp [ih, mul_assoc]

/-- **C35**: minimum and maximum of the elements and the identity. -/
theorem C35_min_max [LinearOrder α] (c : List α) (id : α) :
    IsLeast {x | x = id ∨ x ∈ c} (reduceMin (fun a b => decide (a < b)) c id) ∧
    IsGreatest {x | x = id ∨ x ∈ c} (reduceMax (fun a b => decide (a < b)) c id) := by
  constructor
  · rw [reduceMin]
    induction c generalizing id with
    | nil => exact ⟨Or.inl rfl, by rintro x (rfl | h); exacts [le_refl _, by simp at h]⟩
    | cons e es ih =>
      rw [reduce]
      obtain ⟨h1, h2⟩ := ih (if e < id then e else id)
      simp only [decide_eq_true_eq] at h1 h2 ⊢
      constructor
      · rcases h1 with h1 | h1
        · rw [h1]
          by_cases hlt : e < id
          · right; simp [hlt]
          · left; simp [hlt]
        · right; exact List.mem_cons_of_mem _ h1
      · have hi := h2 (Or.inl rfl)
        rintro x (rfl | hx)
        · refine le_trans hi ?_
          split_ifs with hlt
          · exact hlt.le
          · exact le_refl _
        · rcases List.mem_cons.mp hx with rfl | hx
          · refine le_trans hi ?_
            split_ifs with hlt
            · exact le_refl _
            · exact not_lt.mp hlt
          · exact h2 (Or.inr hx)
  · rw [reduceMax]
    induction c generalizing id with
    | nil => exact ⟨Or.inl rfl, by rintro x (rfl | h); exacts [le_refl _, by simp at h]⟩
    | cons e es ih =>
      rw [reduce]
      obtain ⟨h1, h2⟩ := ih (if id < e then e else id)
      simp only [decide_eq_true_eq] at h1 h2 ⊢
      constructor
      · rcases h1 with h1 | h1
        · rw [h1]
          by_cases hlt : id < e
          · right; simp [hlt]
          · left; simp [hlt]
        · right; exact List.mem_cons_of_mem _ h1
      · have hi := h2 (Or.inl rfl)
        rintro x (rfl | hx)
        · refine le_trans ?_ hi
          split_ifs with hlt
          · exact hlt.le
          · exact le_refl _
        · rcases List.mem_cons.mp hx with rfl | hx
          · refine le_trans ?_ hi
            split_ifs with hlt
            · exact le_refl _
            · exact not_lt.mp hlt
          · exact h2 (Or.inr hx)

/-- **C35**: with the default identity `reduce_min` is the minimum of any non-empty container of
representable values. -/
theorem C35_min_default (s : Bool) (w : Nat) (c : List Int) (hc : c ≠ []) (hr : ∀ x ∈ c, x ≤ minId s w) :
    IsLeast {x | x ∈ c} (reduceMin (fun a b => decide (a < b)) c (minId s w)) := by
  obtain ⟨h1, h2⟩ := (C35_min_max c (minId s w)).1
  refine ⟨?_, fun x hx => h2 (Or.inr hx)⟩
  rcases h1 with h1 | h1
  · obtain ⟨x, xs, rfl⟩ := List.exists_cons_of_ne_nil hc
    have := h2 (Or.inr (List.mem_cons_self (a := x) (l := xs)))
    have h3 := hr x (by simp)
    have : x = reduceMin (fun a b => decide (a < b)) (x :: xs) (minId s w) := by omega
    show _ ∈ x :: xs
    rw [← this]
    simp
  · exact h1

/-- **C35** (negative): the default identity of `reduce_max` is `-max`: for unsigned types this is
1, so the maximum of `{0}` comes out as 1; for signed types it is above the least value. -/
theorem C35_max_default_wrong (w : Nat) (hw : 2 ≤ w) :
    reduceMax (fun a b => decide (a < b)) [0] (maxId false w) = 1 ∧
    reduceMax (fun a b => decide (a < b)) [-2 ^ (w - 1)] (maxId true w) = -2 ^ (w - 1) + 1 := by
  have h2 : (2 : Int) ^ w ≥ 4 := by
    calc (2 : Int) ^ w ≥ 2 ^ 2 := pow_le_pow_right₀ (by norm_num) hw
      _ = 4 := by norm_num
  constructor
  · have : maxId false w = 1 := by
      rw [maxId]
      simp only [Bool.false_eq_true, if_false]
      have e : -((2 : Int) ^ w - 1) = 1 + 2 ^ w * (-1) := by ring
      rw [e, Int.add_mul_emod_self_left]
      exact Int.emod_eq_of_lt (by norm_num) (by omega)
    rw [this]; decide
  · rw [maxId, reduceMax]
    simp only [if_true, reduce]
    rw [if_neg (by simp)]
    ring

/-- **C35**: `reduce_mex` of an increasing sequence whose elements are not below `id` (0 by
default) is the least integer from `id` on that does not occur. -/
theorem C35_mex (c : List Int) (id : Int) (hs : c.Pairwise (· < ·)) (hid : ∀ x ∈ c, id ≤ x) :
    IsLeast {x | id ≤ x ∧ x ∉ c} (reduceMex c id) := by
  -- once the running value is absent it stays
  have stop : ∀ (c : List Int) (r : Int), (∀ x ∈ c, r < x) →
      reduce (fun r e => if r < e then r else r + 1) c r = r := by
    intro c
    induction c with
    | nil => intro r _; rfl
    | cons e es ih =>
      intro r h
      rw [reduce, if_pos (h e (by simp)), ih r (fun x hx => h x (by simp [hx]))]
  rw [reduceMex]
  induction c generalizing id with
  | nil => exact ⟨⟨le_refl _, by simp⟩, fun x hx => hx.1⟩
  | cons e es ih =>
    rw [reduce]
    have hes : ∀ x ∈ es, e < x := fun x hx => List.rel_of_pairwise_cons hs hx
    by_cases hlt : id < e
    · rw [if_pos hlt, stop es id (fun x hx => lt_trans hlt (hes x hx))]
      refine ⟨⟨le_refl _, ?_⟩, fun x hx => hx.1⟩
      intro hmem
      rcases List.mem_cons.mp hmem with h | h
      · omega
      · have := hes id h; omega
    · have he : e = id := by have := hid e (by simp); omega
      subst he
      rw [if_neg hlt]
      obtain ⟨⟨h1, h2⟩, h3⟩ := ih (e + 1) hs.of_cons (fun x hx => by have := hes x hx; omega)
      refine ⟨⟨by omega, ?_⟩, ?_⟩
      · intro hmem
        rcases List.mem_cons.mp hmem with h | h
        · omega
        · exact h2 h
      · rintro x ⟨hx1, hx2⟩
        apply h3
        refine ⟨?_, fun h => hx2 (by simp [h])⟩
        have : x ≠ e := fun h => hx2 (by simp [h])
        omega

example : reduceMex [0, 1, 2, 5, 6] 0 = 3 := by decide

/-- **C35** (negative): a sorted container with duplicates gives a wrong result. -/
theorem C35_mex_duplicates : reduceMex [0, 0] 0 = 2 ∧ (1 : Int) ∉ [(0 : Int), 0] := by decide

end Altruct.Collections
