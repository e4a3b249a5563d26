/-
C44, first part: `nth_permutation` enumerates the permutations in lexicographic order.
-/
import Verif.Combinatorics.Model
import Mathlib.Data.Nat.Factorial.Basic
import Mathlib.Tactic.Ring
import Mathlib.Data.List.Lex
import Mathlib.Data.List.Perm.Basic

namespace Altruct.Combinatorics

variable {α : Type}

open Nat (factorial)

/-! ### List access -/

theorem rd_mid (p : List α) (x : α) (w : List α) : rd (p ++ x :: w) p.length = some x := by
  simp [rd]

theorem wr_mid (p : List α) (x y : α) (w : List α) :
    wr (p ++ x :: w) p.length y = some (p ++ y :: w) := by
  simp [wr]

theorem rd_mid' {p : List α} {i : Nat} (h : i = p.length) (x : α) (w : List α) :
    rd (p ++ x :: w) i = some x := by rw [h, rd_mid]

theorem wr_mid' {p : List α} {i : Nat} (h : i = p.length) (x y : α) (w : List α) :
    wr (p ++ x :: w) i y = some (p ++ y :: w) := by rw [h, wr_mid]

/-- Swapping two different positions, the first index being the left one. -/
theorem swapAt_lr {p q : List α} {i j : Nat} (hi : i = p.length) (hj : j = p.length + 1 + q.length)
    (x y : α) (w : List α) :
    swapAt (p ++ x :: (q ++ y :: w)) i j = some (p ++ y :: (q ++ x :: w)) := by
  have e : ∀ a, p ++ a :: (q ++ y :: w) = (p ++ a :: q) ++ y :: w := fun a => by simp
  rw [swapAt, rd_mid' hi]
  simp only [Option.bind_eq_bind, Option.bind_some]
  rw [e x, rd_mid' (by simp; omega), ← e x]
  simp only [Option.bind_some]
  rw [wr_mid' hi]
  simp only [Option.bind_some]
  rw [e y, wr_mid' (by simp; omega)]
  simp

theorem swapAt_rl {p q : List α} {i j : Nat} (hi : i = p.length) (hj : j = p.length + 1 + q.length)
    (x y : α) (w : List α) :
    swapAt (p ++ x :: (q ++ y :: w)) j i = some (p ++ y :: (q ++ x :: w)) := by
  have e : ∀ a, p ++ a :: (q ++ y :: w) = (p ++ a :: q) ++ y :: w := fun a => by simp
  have e2 : (p ++ x :: q) ++ x :: w = p ++ x :: (q ++ x :: w) := by simp
  rw [swapAt, e x, rd_mid' (by simp; omega), ← e x]
  simp only [Option.bind_eq_bind, Option.bind_some]
  rw [rd_mid' hi]
  simp only [Option.bind_some]
  rw [e x, wr_mid' (by simp; omega)]
  simp only [Option.bind_some]
  rw [e2, wr_mid' hi]

theorem swapAt_self {p : List α} {i : Nat} (hi : i = p.length) (x : α) (w : List α) :
    swapAt (p ++ x :: w) i i = some (p ++ x :: w) := by
  rw [swapAt, rd_mid' hi]
  simp only [Option.bind_eq_bind, Option.bind_some]
  rw [wr_mid' hi]
  simp only [Option.bind_some]
  rw [wr_mid' hi]

/-! ### `nth_permutation` -/

/-- The element with index `o / (n-1)!` first, then the rest. -/
def nthP : Nat → List α → Nat → List α
  | 0, l, _ => l
  | n + 1, l, o =>
    match l[o / factorial n]? with
    | none => l
    | some x => x :: nthP n (l.eraseIdx (o / factorial n)) (o % factorial n)

theorem nthP_cons {n o : Nat} {l : List α} (hl : l.length = n + 1) (ho : o < factorial (n + 1)) :
    ∃ h : o / factorial n < l.length,
      nthP (n + 1) l o = l[o / factorial n] :: nthP n (l.eraseIdx (o / factorial n)) (o % factorial n) := by
  have h : o / factorial n < l.length := by
    rw [hl]
    exact Nat.div_lt_of_lt_mul (by rw [Nat.factorial_succ, mul_comm] at ho; exact ho)
  refine ⟨h, ?_⟩
  rw [nthP, List.getElem?_eq_getElem h]

theorem nthP_small : ∀ (a b : List α) (o : Nat), o < factorial b.length →
    nthP (a.length + b.length) (a ++ b) o = a ++ nthP b.length b o := by
  intro a
  induction a with
  | nil => intro b o _; simp
  | cons x a ih =>
    intro b o ho
    have h2 : o < factorial (a.length + b.length) :=
      lt_of_lt_of_le ho (Nat.factorial_le (by omega))
    rw [List.length_cons, show a.length + 1 + b.length = (a.length + b.length) + 1 by omega, nthP,
      Nat.div_eq_of_lt h2, Nat.mod_eq_of_lt h2]
    simp only [List.cons_append, List.getElem?_cons_zero, List.eraseIdx_cons_zero]
    rw [ih b o ho]

theorem nthP_perm : ∀ (n : Nat) (l : List α) (o : Nat), l.length = n → o < factorial n →
    (nthP n l o).Perm l := by
  intro n
  induction n with
  | zero => intro l o _ _; exact List.Perm.refl _
  | succ n ih =>
    intro l o hl ho
    obtain ⟨h, e⟩ := nthP_cons hl ho
    rw [e]
    refine List.Perm.trans ?_ (List.getElem_cons_eraseIdx_perm h)
    exact (ih _ _ (by rw [List.length_eraseIdx_of_lt h]; omega) (Nat.mod_lt _ (Nat.factorial_pos _))).cons _

theorem nthP_mono [LinearOrder α] : ∀ (n : Nat) (l : List α) (o₁ o₂ : Nat), l.length = n →
    l.Pairwise (· < ·) → o₁ < o₂ → o₂ < factorial n → nthP n l o₁ < nthP n l o₂ := by
  intro n
  induction n with
  | zero => intro l o₁ o₂ _ _ h1 h2; simp [factorial] at h2; omega
  | succ n ih =>
    intro l o₁ o₂ hl hs h1 h2
    obtain ⟨k1, e1⟩ := nthP_cons hl (h1.trans h2)
    obtain ⟨k2, e2⟩ := nthP_cons hl h2
    rw [e1, e2]
    have hle : o₁ / factorial n ≤ o₂ / factorial n := Nat.div_le_div_right h1.le
    rcases Nat.lt_or_ge (o₁ / factorial n) (o₂ / factorial n) with h | h
    · exact List.Lex.rel (List.pairwise_iff_getElem.mp hs _ _ k1 k2 h)
    · have e : o₁ / factorial n = o₂ / factorial n := le_antisymm hle h
      simp only [e]
      refine List.Lex.cons (ih _ _ _ (by rw [List.length_eraseIdx_of_lt k2]; omega)
        (hs.sublist (List.eraseIdx_sublist _ _)) ?_ (Nat.mod_lt _ (Nat.factorial_pos _)))
      have d1 := Nat.div_add_mod o₁ (factorial n)
      have d2 := Nat.div_add_mod o₂ (factorial n)
      rw [e] at d1
      omega

theorem nthP_surj : ∀ (n : Nat) (l p : List α), l.length = n → p.Perm l →
    ∃ o, o < factorial n ∧ nthP n l o = p := by
  intro n
  induction n with
  | zero =>
    intro l p hl hp
    have := List.eq_nil_of_length_eq_zero hl
    subst this
    exact ⟨0, by simp, by rw [nthP, hp.eq_nil]⟩
  | succ n ih =>
    intro l p hl hp
    cases p with
    | nil => have := hp.length_eq; simp at this; omega
    | cons x p =>
      obtain ⟨k, hk, e⟩ := List.mem_iff_getElem.mp (hp.subset (List.mem_cons_self))
      have h2 : p.Perm (l.eraseIdx k) := by
        have := hp.trans (List.getElem_cons_eraseIdx_perm hk).symm
        rw [e] at this
        exact this.cons_inv
      obtain ⟨o, ho, ho2⟩ := ih (l.eraseIdx k) p (by rw [List.length_eraseIdx_of_lt hk]; omega) h2
      have hd : (k * factorial n + o) / factorial n = k := by
        rw [mul_comm, Nat.mul_add_div (Nat.factorial_pos _), Nat.div_eq_of_lt ho, add_zero]
      have hm : (k * factorial n + o) % factorial n = o := by
        rw [mul_comm, Nat.mul_add_mod, Nat.mod_eq_of_lt ho]
      refine ⟨k * factorial n + o, ?_, ?_⟩
      · rw [Nat.factorial_succ]
        calc k * factorial n + o < k * factorial n + factorial n := by omega
          _ = (k + 1) * factorial n := by ring
          _ ≤ (n + 1) * factorial n := Nat.mul_le_mul_right _ (by omega)
      · rw [nthP, hd, hm, List.getElem?_eq_getElem hk]
        simp only
        rw [ho2, e]

theorem bring_spec (p : List α) (x : α) : ∀ (k : Nat) (u : List α), u.length = k →
    ∀ w : List α, bring p.length k (p ++ (u ++ x :: w)) = some (p ++ x :: (u ++ w)) := by
  intro k
  induction k with
  | zero =>
    intro u hu w
    rw [List.eq_nil_of_length_eq_zero hu]
    simp [bring]
  | succ k ih =>
    intro u hu w
    rcases List.eq_nil_or_concat u with rfl | ⟨v, y, rfl⟩
    · simp at hu
    · rw [List.concat_eq_append] at hu ⊢
      rw [bring]
      have hv : v.length = k := by simp at hu; omega
      have e : p ++ (v ++ [y] ++ x :: w) = (p ++ v) ++ y :: ([] ++ x :: w) := by simp
      rw [e, swapAt_rl (p := p ++ v) (q := []) (by simp; omega) (by simp; omega)]
      simp only [Option.bind_eq_bind, Option.bind_some]
      have := ih v hv (y :: w)
      simpa using this

theorem bring_get (p b : List α) {k : Nat} (hk : k < b.length) :
    bring p.length k (p ++ b) = some (p ++ b[k] :: b.eraseIdx k) := by
  have h := bring_spec p b[k] k (b.take k) (by simp; omega) (b.drop (k + 1))
  rw [List.eraseIdx_eq_take_drop_succ, ← h]
  congr 2
  rw [← List.drop_eq_getElem_cons hk, List.take_append_drop]

theorem shrink_spec (o : Nat) : ∀ i, 1 ≤ i → ∃ j, shrink o i (factorial i) = (j, factorial j) ∧
    1 ≤ j ∧ j ≤ i ∧ (j = 1 ∨ factorial j ≤ o) ∧ (j < i → o < factorial (j + 1)) := by
  intro i
  induction i with
  | zero => intro h; omega
  | succ i ih =>
    intro _
    cases i with
    | zero => exact ⟨1, rfl, by omega, by omega, Or.inl rfl, by omega⟩
    | succ i =>
      rw [shrink]
      by_cases h : factorial (i + 1 + 1) > o
      · have e : factorial (i + 1 + 1) / (i + 2) = factorial (i + 1) := by
          rw [Nat.factorial_succ, mul_comm, Nat.mul_div_cancel _ (by omega)]
        rw [if_pos h, e]
        obtain ⟨j, h1, h2, h3, h4, h5⟩ := ih (by omega)
        refine ⟨j, h1, h2, by omega, h4, fun h6 => ?_⟩
        rcases Nat.lt_or_ge j (i + 1) with h7 | h7
        · exact h5 h7
        · have : j = i + 1 := by omega
          rw [this]
          exact h
      · rw [if_neg h]
        exact ⟨i + 2, rfl, by omega, by omega, Or.inr (not_lt.mp h), by omega⟩

theorem permLoop_spec : ∀ (fuel i o : Nat) (pre suf : List α), i ≤ fuel → suf.length = i →
    permLoop fuel i (factorial i) o (pre ++ suf) = some (pre ++ nthP i suf (o % factorial i)) := by
  intro fuel
  induction fuel with
  | zero =>
    intro i o pre suf h hs
    obtain rfl : i = 0 := by omega
    rw [permLoop, if_pos (by omega), nthP]
  | succ fuel ih =>
    intro i o pre suf h hs
    rw [permLoop]
    by_cases hi : i ≤ 1
    · rw [if_pos hi]
      rcases Nat.lt_or_ge i 1 with h0 | h0
      · obtain rfl : i = 0 := by omega
        rw [nthP]
      · obtain rfl : i = 1 := by omega
        obtain ⟨x, rfl⟩ := List.length_eq_one_iff.mp hs
        simp [nthP, Nat.mod_one]
    · rw [if_neg hi]
      simp only
      have hf : factorial i ≠ 0 := Nat.factorial_ne_zero i
      rw [if_neg hf]
      have ho : o % factorial i < factorial i := Nat.mod_lt _ (Nat.factorial_pos _)
      obtain ⟨j, h1, h2, h3, h4, h5⟩ := shrink_spec (o % factorial i) i (by omega)
      rw [h1]
      simp only
      have hj : j < i := by
        rcases Nat.lt_or_ge j i with h6 | h6
        · exact h6
        · obtain rfl : j = i := by omega
          rcases h4 with h4 | h4 <;> omega
      have h5 := h5 hj
      generalize o % factorial i = q at *
      rw [if_neg (by
        rw [List.length_append, hs]
        have := Nat.factorial_ne_zero j
        omega)]
      -- the suffix splits into an untouched part and the last `j + 1` elements
      obtain ⟨a, b, rfl, hb⟩ : ∃ a b, suf = a ++ b ∧ b.length = j + 1 :=
        ⟨suf.take (i - (j + 1)), suf.drop (i - (j + 1)), (List.take_append_drop _ _).symm, by
          rw [List.length_drop]; omega⟩
      have hab : a.length + b.length = i := by rw [← hs, List.length_append]
      have hn : nthP i (a ++ b) q = a ++ nthP (j + 1) b q := by
        rw [← hab, nthP_small a b q (by rw [hb]; exact h5), hb]
      obtain ⟨hk, e⟩ := nthP_cons (o := q) hb h5
      rw [hn, e, ← List.append_assoc pre a b,
        show (pre ++ a ++ b).length - j - 1 = (pre ++ a).length by
          rw [List.length_append (bs := b), hb]; omega, bring_get _ _ hk]
      simp only [Option.bind_eq_bind, Option.bind_some]
      have := ih j q (pre ++ a ++ [b[q / factorial j]]) (b.eraseIdx (q / factorial j)) (by omega)
        (by rw [List.length_eraseIdx_of_lt hk]; omega)
      simp only [List.append_assoc, List.cons_append, List.nil_append] at this ⊢
      exact this

theorem grow_spec (o : Nat) : ∀ c i, (∀ j, j < i → factorial j ≤ o) →
    ∃ j, grow o c i (factorial i) = (j, factorial j) ∧ i ≤ j ∧ j ≤ i + c ∧
      (j = i + c ∨ o < factorial j) := by
  intro c
  induction c with
  | zero => intro i _; exact ⟨i, rfl, by omega, by omega, Or.inl rfl⟩
  | succ c ih =>
    intro i hi
    rw [grow]
    by_cases h : factorial i ≤ o
    · rw [if_pos h, mul_comm, ← Nat.factorial_succ]
      obtain ⟨j, h1, h2, h3, h4⟩ := ih (i + 1) (fun j hj => by
        rcases Nat.lt_or_ge j i with h' | h'
        · exact hi j h'
        · rw [show j = i by omega]; exact h)
      exact ⟨j, h1, by omega, by omega, by rcases h4 with h4 | h4 <;> [left; right] <;> omega⟩
    · rw [if_neg h]
      exact ⟨i, rfl, by omega, by omega, Or.inr (by omega)⟩

theorem nthPermutation_eq (l : List α) (o : Nat) :
    nthPermutation l o = some (nthP l.length l (o % factorial l.length)) := by
  rw [nthPermutation]
  obtain ⟨j, h1, h2, h3, h4⟩ := grow_spec o l.length 0 (by omega)
  rw [Nat.factorial_zero] at h1
  rw [h1]
  simp only
  obtain ⟨a, b, rfl, hb⟩ : ∃ a b, l = a ++ b ∧ b.length = j :=
    ⟨l.take (l.length - j), l.drop (l.length - j), (List.take_append_drop _ _).symm, by
      rw [List.length_drop]; omega⟩
  rw [permLoop_spec j j o a b le_rfl hb]
  rcases h4 with h4 | h4
  · have : a = [] := by
      apply List.eq_nil_of_length_eq_zero
      rw [List.length_append] at h4
      omega
    subst this
    simp [hb]
  · have h5 : o < factorial (a ++ b).length :=
      lt_of_lt_of_le h4 (Nat.factorial_le (by rw [List.length_append]; omega))
    rw [Nat.mod_eq_of_lt h4, Nat.mod_eq_of_lt h5, List.length_append,
      nthP_small a b o (by rw [hb]; exact h4), hb]

/-! ### The claims -/

/-- `nth_permutation` is always defined and only rearranges. -/
theorem C44_nth_perm (l : List α) (o : Nat) : ∃ r, nthPermutation l o = some r ∧ r.Perm l := by
  rw [nthPermutation_eq]
  exact ⟨_, rfl, nthP_perm _ _ _ rfl (Nat.mod_lt _ (Nat.factorial_pos _))⟩

/-- The index counts modulo `d!`. -/
theorem C44_nth_mod (l : List α) (o : Nat) :
    nthPermutation l o = nthPermutation l (o % factorial l.length) := by
  rw [nthPermutation_eq, nthPermutation_eq, Nat.mod_mod]

/-- On sorted distinct elements a larger index gives a lexicographically larger permutation. -/
theorem C44_nth_strictMono [LinearOrder α] {l : List α} (hs : l.Pairwise (· < ·)) {o₁ o₂ : Nat}
    (h : o₁ < o₂) (h2 : o₂ < factorial l.length) {r₁ r₂ : List α}
    (e₁ : nthPermutation l o₁ = some r₁) (e₂ : nthPermutation l o₂ = some r₂) : r₁ < r₂ := by
  rw [nthPermutation_eq, Nat.mod_eq_of_lt (h.trans h2), Option.some.injEq] at e₁
  rw [nthPermutation_eq, Nat.mod_eq_of_lt h2, Option.some.injEq] at e₂
  rw [← e₁, ← e₂]
  exact nthP_mono _ _ _ _ rfl hs h h2

/-- Every permutation is reached by an index below `d!`. -/
theorem C44_nth_surjective {l p : List α} (hp : p.Perm l) :
    ∃ o, o < factorial l.length ∧ nthPermutation l o = some p := by
  obtain ⟨o, h1, h2⟩ := nthP_surj _ l p rfl hp
  exact ⟨o, h1, by rw [nthPermutation_eq, Nat.mod_eq_of_lt h1, h2]⟩

example : nthPermutation [1, 2, 3, 4, 5] 57 = some [3, 2, 4, 5, 1] := by decide +kernel
example : nthPermutation [1, 2, 3] (5 + 6) = some [3, 2, 1] := by decide +kernel
example : nthPermutation ([] : List Nat) 5 = some [] := by decide +kernel

end Altruct.Combinatorics
