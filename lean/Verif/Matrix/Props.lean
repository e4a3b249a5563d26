/-
C39: determinant, inverse and rank by Gaussian elimination; matrix arithmetic.
-/
import Verif.Matrix.Model
import Mathlib.LinearAlgebra.Matrix.Determinant.Basic
import Mathlib.LinearAlgebra.Matrix.NonsingularInverse
import Mathlib.LinearAlgebra.Matrix.Block
import Mathlib.LinearAlgebra.Matrix.Rank
import Mathlib.Algebra.Field.Rat
import Mathlib.Tactic.Ring
import Mathlib.Tactic.FieldSimp
import Mathlib.Tactic.IntervalCases

set_option linter.unusedSectionVars false

namespace Altruct.LinAlg

section Ring
variable {α : Type} [CommRing α]

/-! ### specification -/

/-- The entry in row `i`, column `j`. -/
def e (M : Mat α) (i j : Nat) : α := (M.getD i []).getD j 0

/-- `M` has `n` rows of `m` elements. -/
def Shape (M : Mat α) (n m : Nat) : Prop := M.length = n ∧ ∀ i, i < n → (M.getD i []).length = m

/-- The matrix in Mathlib's sense. -/
def toM (M : Mat α) (n m : Nat) : Matrix (Fin n) (Fin m) α := fun i j => e M i j

/-! ### checked access -/

theorem rd_row {M : Mat α} {n m i : Nat} (h : Shape M n m) (hi : i < n) : rd M i = some (M.getD i []) := by
  rw [rd, List.getD_eq_getElem?_getD, List.getElem?_eq_getElem (by rw [h.1]; exact hi)]; rfl

theorem rd2_eq {M : Mat α} {n m i j : Nat} (h : Shape M n m) (hi : i < n) (hj : j < m) : rd2 M i j = some (e M i j) := by
  rw [rd2, rd_row h hi]
  simp only [Option.bind_eq_bind, Option.bind_some]
  have hl := h.2 i hi
  rw [rd, e, List.getD_eq_getElem?_getD (l := M.getD i []), List.getElem?_eq_getElem (by rw [hl]; exact hj)]; rfl

theorem getD_set (M : List β) (i : Nat) (r d : β) (a : Nat) (h : i < M.length) :
    (M.set i r).getD a d = if a = i then r else M.getD a d := by
  rw [List.getD_eq_getElem?_getD, List.getD_eq_getElem?_getD]
  by_cases ha : a = i
  · subst ha; rw [List.getElem?_set_self h, if_pos rfl]; rfl
  · rw [List.getElem?_set_ne (Ne.symm ha), if_neg ha]

theorem wr_row {M : Mat α} {n m i : Nat} (h : Shape M n m) (hi : i < n) (r : List α) (hr : r.length = m) :
    ∃ M', wr M i r = some M' ∧ Shape M' n m ∧ ∀ a, M'.getD a [] = if a = i then r else M.getD a [] := by
  have hl : i < M.length := by rw [h.1]; exact hi
  refine ⟨M.set i r, by rw [wr, if_pos hl], ⟨by rw [List.length_set]; exact h.1, fun a ha => ?_⟩, fun a => getD_set _ _ _ _ _ hl⟩
  rw [getD_set _ _ _ _ _ hl]
  split_ifs
  · exact hr
  · exact h.2 a ha

theorem wr2_eq {M : Mat α} {n m i j : Nat} (h : Shape M n m) (hi : i < n) (hj : j < m) (x : α) :
    ∃ M', wr2 M i j x = some M' ∧ Shape M' n m ∧ ∀ a b, e M' a b = if a = i ∧ b = j then x else e M a b := by
  have hl := h.2 i hi
  obtain ⟨M', e1, h1, h2⟩ := wr_row h hi ((M.getD i []).set j x) (by rw [List.length_set]; exact hl)
  refine ⟨M', ?_, h1, fun a b => ?_⟩
  · rw [wr2, rd_row h hi]
    simp only [Option.bind_eq_bind, Option.bind_some]
    rw [wr, if_pos (by rw [hl]; exact hj)]
    exact e1
  · rw [e, h2]
    by_cases ha : a = i
    · rw [if_pos ha, getD_set _ _ _ _ _ (by rw [hl]; exact hj)]
      by_cases hb : b = j
      · rw [if_pos hb, if_pos ⟨ha, hb⟩]
      · rw [if_neg hb, if_neg (by tauto), ha]; rfl
    · rw [if_neg ha, if_neg (by tauto)]; rfl

theorem getD_replicate {β : Type} (n i : Nat) (x d : β) : (List.replicate n x).getD i d = if i < n then x else d := by
  rw [List.getD_eq_getElem?_getD, List.getElem?_replicate]
  split_ifs <;> rfl

theorem shape_mk (n m : Nat) (hm : 0 < m ∨ n = m) : Shape (mk n m (0 : α)) n m ∧ ∀ i j, e (mk n m (0 : α)) i j = 0 := by
  have hif : (if m = 0 then n else m) = m := by split_ifs <;> omega
  refine ⟨⟨by simp [mk], fun i hi => ?_⟩, fun i j => ?_⟩
  · rw [mk, hif, getD_replicate, if_pos hi, List.length_replicate]
  · rw [e, mk, hif, getD_replicate]
    by_cases h : i < n
    · rw [if_pos h, getD_replicate]; split_ifs <;> rfl
    · rw [if_neg h]; rfl

theorem cols_eq {M : Mat α} {n m : Nat} (h : Shape M n m) (hn : 0 < n) : cols M = m := by
  have hne : M ≠ [] := by rintro rfl; have := h.1; simp at this; omega
  have hl := h.2 (n - 1) (by omega)
  rw [cols, List.getLast?_eq_getElem?, h.1]
  rw [List.getD_eq_getElem?_getD] at hl
  rw [List.getElem?_eq_getElem (by rw [h.1]; omega)] at hl ⊢
  simpa using hl

/-! ### sums, differences, products -/

theorem src_e (M M' : Mat α) (rhs : Option (Mat α)) {i j : Nat} (h : e M' i j = e M i j) :
    e (rhs.getD M') i j = e (rhs.getD M) i j := by
  cases rhs with
  | none => exact h
  | some v => rfl

theorem src_shape {M M' : Mat α} {n m : Nat} (rhs : Option (Mat α)) (h' : Shape M' n m) (h : Shape (rhs.getD M) n m) :
    Shape (rhs.getD M') n m := by
  cases rhs with
  | none => exact h'
  | some v => exact h

theorem zipRow_spec (f : α → α → α) (rhs : Option (Mat α)) {n m i : Nat} (hi : i < n) : ∀ (k j : Nat) (M : Mat α),
    j + k = m → Shape M n m → Shape (rhs.getD M) n m →
    ∃ M', zipRow f rhs i k j M = some M' ∧ Shape M' n m ∧
      ∀ a b, a < n → b < m → e M' a b = if a = i ∧ j ≤ b then f (e M a b) (e (rhs.getD M) a b) else e M a b := by
  intro k
  induction k with
  | zero => intro j M hjk h _; exact ⟨M, rfl, h, fun a b _ hb => by rw [if_neg (by omega)]⟩
  | succ k ih =>
    intro j M hjk h hr
    obtain ⟨M1, e1, h1, v1⟩ := wr2_eq h hi (show j < m by omega) (f (e M i j) (e (rhs.getD M) i j))
    obtain ⟨M2, e2, h2, v2⟩ := ih (j + 1) M1 (by omega) h1 (src_shape rhs h1 hr)
    refine ⟨M2, ?_, h2, fun a b ha hb => ?_⟩
    · rw [zipRow, rd2_eq h hi (by omega)]
      simp only [Option.bind_eq_bind, Option.bind_some]
      rw [rd2_eq hr hi (by omega)]
      simp only [Option.bind_some]
      rw [e1]; exact e2
    · rw [v2 a b ha hb]
      by_cases hab : a = i ∧ b = j
      · rw [if_neg (by omega), if_pos (by omega), v1, if_pos hab, hab.1, hab.2]
      · have hm : e M1 a b = e M a b := by rw [v1, if_neg hab]
        rw [src_e M M1 rhs hm, hm]
        by_cases hc : a = i ∧ j + 1 ≤ b
        · rw [if_pos hc, if_pos (by omega)]
        · rw [if_neg hc, if_neg (by omega)]

theorem zipRows_spec (f : α → α → α) (rhs : Option (Mat α)) {n m : Nat} : ∀ (k i : Nat) (M : Mat α),
    i + k = n → Shape M n m → Shape (rhs.getD M) n m →
    ∃ M', zipRows f rhs m k i M = some M' ∧ Shape M' n m ∧
      ∀ a b, a < n → b < m → e M' a b = if i ≤ a then f (e M a b) (e (rhs.getD M) a b) else e M a b := by
  intro k
  induction k with
  | zero => intro i M hik h _; exact ⟨M, rfl, h, fun a b ha hb => by rw [if_neg (by omega)]⟩
  | succ k ih =>
    intro i M hik h hr
    obtain ⟨M1, e1, h1, v1⟩ := zipRow_spec f rhs (show i < n by omega) m 0 M (by omega) h hr
    obtain ⟨M2, e2, h2, v2⟩ := ih (i + 1) M1 (by omega) h1 (src_shape rhs h1 hr)
    refine ⟨M2, ?_, h2, fun a b ha hb => ?_⟩
    · rw [zipRows, e1]; exact e2
    · rw [v2 a b ha hb]
      by_cases hai : a = i
      · rw [if_neg (by omega), if_pos (by omega), v1 a b ha hb, if_pos (by omega)]
      · have hm : e M1 a b = e M a b := by rw [v1 a b ha hb, if_neg (by omega)]
        rw [src_e M M1 rhs hm, hm]
        by_cases hc : i + 1 ≤ a
        · rw [if_pos hc, if_pos (by omega)]
        · rw [if_neg hc, if_neg (by omega)]

/-- **C39**: `+=`, `-=` and `*=` by a scalar are the matrix operations; the right-hand side may be the
matrix itself (`none`). -/
theorem C39_add {n m : Nat} (hn : 0 < n) (A : Mat α) (rhs : Option (Mat α)) (s : α) (hA : Shape A n m)
    (hr : Shape (rhs.getD A) n m) :
    (∃ R, addA A rhs = some R ∧ Shape R n m ∧ toM R n m = toM A n m + toM (rhs.getD A) n m) ∧
    (∃ R, subA A rhs = some R ∧ Shape R n m ∧ toM R n m = toM A n m - toM (rhs.getD A) n m) ∧
    (∃ R, scaleA A s = some R ∧ Shape R n m ∧ toM R n m = s • toM A n m) := by
  have hrows : rows A = n := hA.1
  refine ⟨?_, ?_, ?_⟩
  · obtain ⟨R, e1, h1, v1⟩ := zipRows_spec (· + ·) rhs n 0 A (by omega) hA hr
    refine ⟨R, by rw [addA, cols_eq hA hn, hrows]; exact e1, h1, ?_⟩
    funext i j
    exact (v1 i j i.2 j.2).trans (by rw [if_pos (by omega)]; rfl)
  · obtain ⟨R, e1, h1, v1⟩ := zipRows_spec (· - ·) rhs n 0 A (by omega) hA hr
    refine ⟨R, by rw [subA, cols_eq hA hn, hrows]; exact e1, h1, ?_⟩
    funext i j
    exact (v1 i j i.2 j.2).trans (by rw [if_pos (by omega)]; rfl)
  · obtain ⟨R, e1, h1, v1⟩ := zipRows_spec (fun x _ => x * s) none n 0 A (by omega) hA hA
    refine ⟨R, by rw [scaleA, cols_eq hA hn, hrows]; exact e1, h1, ?_⟩
    funext i j
    refine (v1 i j i.2 j.2).trans ?_
    rw [if_pos (by omega), mul_comm]; rfl

theorem dot_spec {A B : Mat α} {n m p i j : Nat} (hA : Shape A n m) (hB : Shape B m p) (hi : i < n) (hj : j < p) :
    ∀ (k k0 : Nat) (s : α), k0 + k = m →
    dot A B i j k k0 s = some (s + ∑ x ∈ Finset.Ico k0 m, e A i x * e B x j) := by
  intro k
  induction k with
  | zero => intro k0 s h; simp [dot, show k0 = m by omega]
  | succ k ih =>
    intro k0 s h
    rw [dot, rd2_eq hA hi (by omega)]
    simp only [Option.bind_eq_bind, Option.bind_some]
    rw [rd2_eq hB (by omega) hj]
    simp only [Option.bind_some]
    rw [ih (k0 + 1) _ (by omega), Finset.sum_eq_sum_Ico_succ_bot (show k0 < m by omega)]
    congr 1; ring

theorem mulRow_spec {A B : Mat α} {n m p i : Nat} (hA : Shape A n m) (hB : Shape B m p) (hi : i < n) :
    ∀ (k j : Nat) (t : Mat α), j + k = p → Shape t n p →
    ∃ t', mulRow A B m i k j t = some t' ∧ Shape t' n p ∧
      ∀ a b, b < p → e t' a b = if a = i ∧ j ≤ b then ∑ x ∈ Finset.range m, e A i x * e B x b else e t a b := by
  intro k
  induction k with
  | zero => intro j t hjk h; exact ⟨t, rfl, h, fun a b hb => by rw [if_neg (by omega)]⟩
  | succ k ih =>
    intro j t hjk h
    have hd := dot_spec hA hB hi (show j < p by omega) m 0 0 (by omega)
    rw [zero_add, ← Finset.range_eq_Ico] at hd
    obtain ⟨t1, e1, h1, v1⟩ := wr2_eq h hi (show j < p by omega) (∑ x ∈ Finset.range m, e A i x * e B x j)
    obtain ⟨t2, e2, h2, v2⟩ := ih (j + 1) t1 (by omega) h1
    refine ⟨t2, ?_, h2, fun a b hb => ?_⟩
    · rw [mulRow, hd]
      simp only [Option.bind_eq_bind, Option.bind_some]
      rw [e1]; exact e2
    · rw [v2 a b hb, v1]
      by_cases hab : a = i ∧ b = j
      · rw [if_neg (by omega), if_pos (by omega), if_pos (by omega), hab.2]
      · rw [if_neg hab]
        by_cases hc : a = i ∧ j + 1 ≤ b
        · rw [if_pos hc, if_pos (by omega)]
        · rw [if_neg hc, if_neg (by omega)]

theorem mulRows_spec {A B : Mat α} {n m p : Nat} (hA : Shape A n m) (hB : Shape B m p) :
    ∀ (k i : Nat) (t : Mat α), i + k = n → Shape t n p →
    ∃ t', mulRows A B m p k i t = some t' ∧ Shape t' n p ∧
      ∀ a b, a < n → b < p → e t' a b = if i ≤ a then ∑ x ∈ Finset.range m, e A a x * e B x b else e t a b := by
  intro k
  induction k with
  | zero => intro i t hik h; exact ⟨t, rfl, h, fun a b ha hb => by rw [if_neg (by omega)]⟩
  | succ k ih =>
    intro i t hik h
    obtain ⟨t1, e1, h1, v1⟩ := mulRow_spec hA hB (show i < n by omega) p 0 t (by omega) h
    obtain ⟨t2, e2, h2, v2⟩ := ih (i + 1) t1 (by omega) h1
    refine ⟨t2, ?_, h2, fun a b ha hb => ?_⟩
    · rw [mulRows, e1]; exact e2
    · rw [v2 a b ha hb]
      by_cases hai : a = i
      · rw [if_neg (by omega), if_pos (by omega), v1 a b hb, if_pos (by omega), hai]
      · rw [v1 a b hb, if_neg (show ¬ (a = i ∧ 0 ≤ b) by omega)]
        by_cases hc : i + 1 ≤ a
        · rw [if_pos hc, if_pos (by omega)]
        · rw [if_neg hc, if_neg (by omega)]

/-- **C39**: `operator *` is the matrix product. -/
theorem C39_mul {n m p : Nat} (A B : Mat α) (hn : 0 < n) (hm : 0 < m) (hp : 0 < p) (hA : Shape A n m) (hB : Shape B m p) :
    ∃ R, mulA A B = some R ∧ Shape R n p ∧ toM R n p = toM A n m * toM B m p := by
  obtain ⟨R, e1, h1, v1⟩ := mulRows_spec hA hB n 0 (mk n p 0) (by omega) (shape_mk n p (Or.inl hp)).1
  refine ⟨R, ?_, h1, ?_⟩
  · rw [mulA, rd2_eq hA hn hm]
    simp only [Option.bind_eq_bind, Option.bind_some]
    rw [cols_eq hA hn, cols_eq hB hm, show rows A = n from hA.1]
    exact e1
  · funext i j
    rw [Matrix.mul_apply]
    refine (v1 i j i.2 j.2).trans ?_
    rw [if_pos (by omega), Finset.sum_range]
    rfl

theorem trRow_spec {A : Mat α} {n m i : Nat} (hA : Shape A n m) (hi : i < n) : ∀ (k j : Nat) (t : Mat α), j + k = m → Shape t m n →
    ∃ t', trRow A i k j t = some t' ∧ Shape t' m n ∧
      ∀ a b, a < m → e t' a b = if b = i ∧ j ≤ a then e A b a else e t a b := by
  intro k
  induction k with
  | zero => intro j t hjk h; exact ⟨t, rfl, h, fun a b hb => by rw [if_neg (by omega)]⟩
  | succ k ih =>
    intro j t hjk h
    obtain ⟨t1, e1, h1, v1⟩ := wr2_eq h (show j < m by omega) hi (e A i j)
    obtain ⟨t2, e2, h2, v2⟩ := ih (j + 1) t1 (by omega) h1
    refine ⟨t2, ?_, h2, fun a b hb => ?_⟩
    · rw [trRow, rd2_eq hA hi (by omega)]
      simp only [Option.bind_eq_bind, Option.bind_some]
      rw [e1]; exact e2
    · rw [v2 a b hb, v1]
      by_cases hab : a = j ∧ b = i
      · rw [if_neg (by omega), if_pos (by omega), if_pos (by omega), hab.1, hab.2]
      · rw [if_neg hab]
        by_cases hc : b = i ∧ j + 1 ≤ a
        · rw [if_pos hc, if_pos (by omega)]
        · rw [if_neg hc, if_neg (by omega)]

theorem trRows_spec {A : Mat α} {n m : Nat} (hA : Shape A n m) : ∀ (k i : Nat) (t : Mat α), i + k = n → Shape t m n →
    ∃ t', trRows A m k i t = some t' ∧ Shape t' m n ∧
      ∀ a b, a < m → b < n → e t' a b = if i ≤ b then e A b a else e t a b := by
  intro k
  induction k with
  | zero => intro i t hik h; exact ⟨t, rfl, h, fun a b ha hb => by rw [if_neg (by omega)]⟩
  | succ k ih =>
    intro i t hik h
    obtain ⟨t1, e1, h1, v1⟩ := trRow_spec hA (show i < n by omega) m 0 t (by omega) h
    obtain ⟨t2, e2, h2, v2⟩ := ih (i + 1) t1 (by omega) h1
    refine ⟨t2, ?_, h2, fun a b ha hb => ?_⟩
    · rw [trRows, e1]; exact e2
    · rw [v2 a b ha hb]
      by_cases hbi : b = i
      · rw [if_neg (by omega), if_pos (by omega), v1 a b ha, if_pos (by omega)]
      · rw [v1 a b ha, if_neg (show ¬ (b = i ∧ 0 ≤ a) by omega)]
        by_cases hc : i + 1 ≤ b
        · rw [if_pos hc, if_pos (by omega)]
        · rw [if_neg hc, if_neg (by omega)]

/-- **C39**: `transpose`. -/
theorem C39_transpose {n m : Nat} (A : Mat α) (hn : 0 < n) (hA : Shape A n m) :
    ∃ R, transpose A = some R ∧ Shape R m n ∧ toM R m n = (toM A n m).transpose := by
  obtain ⟨R, e1, h1, v1⟩ := trRows_spec hA n 0 (mk m n 0) (by omega) (shape_mk m n (Or.inl hn)).1
  refine ⟨R, ?_, h1, ?_⟩
  · rw [transpose, cols_eq hA hn, show rows A = n from hA.1]; exact e1
  · funext i j
    refine (v1 i j i.2 j.2).trans ?_
    rw [if_pos (by omega)]; rfl

theorem idLoop_spec {n : Nat} : ∀ (k i : Nat) (t : Mat α), i + k = n → Shape t n n →
    ∃ t', idLoop k i t = some t' ∧ Shape t' n n ∧ ∀ a b, a < n → e t' a b = if a = b ∧ i ≤ a then 1 else e t a b := by
  intro k
  induction k with
  | zero => intro i t hik h; exact ⟨t, rfl, h, fun a b ha => by rw [if_neg (by omega)]⟩
  | succ k ih =>
    intro i t hik h
    obtain ⟨t1, e1, h1, v1⟩ := wr2_eq h (show i < n by omega) (show i < n by omega) (1 : α)
    obtain ⟨t2, e2, h2, v2⟩ := ih (i + 1) t1 (by omega) h1
    refine ⟨t2, by rw [idLoop, e1]; exact e2, h2, fun a b ha => ?_⟩
    rw [v2 a b ha, v1]
    by_cases hab : a = i ∧ b = i
    · rw [if_neg (by omega), if_pos (by omega), if_pos (by omega)]
    · rw [if_neg hab]
      by_cases hc : a = b ∧ i + 1 ≤ a
      · rw [if_pos hc, if_pos (by omega)]
      · rw [if_neg hc, if_neg (by omega)]

theorem identity_spec (n : Nat) : ∃ t, identity (α := α) n = some t ∧ Shape t n n ∧
    ∀ a b, a < n → e t a b = if a = b then 1 else 0 := by
  obtain ⟨h0, v0⟩ := shape_mk (α := α) n n (Or.inr rfl)
  obtain ⟨t, e1, h1, v1⟩ := idLoop_spec n 0 (mk n n (0 : α)) (by omega) h0
  refine ⟨t, e1, h1, fun a b ha => ?_⟩
  rw [v1 a b ha, v0]
  by_cases h : a = b
  · rw [if_pos (by omega), if_pos h]
  · rw [if_neg (by omega), if_neg h]

end Ring

/-! ### Gaussian elimination -/

section Field
variable {α : Type} [Field α] [DecidableEq α]

/-- `I * A = M`: what the simultaneous row operations keep. -/
def Track (n : Nat) (A M I : Mat α) : Prop :=
  ∀ a b, a < n → b < n → e M a b = ∑ k ∈ Finset.range n, e I a k * e A k b

theorem findPivot_spec {M : Mat α} {n m j : Nat} (h : Shape M n m) (hj : j < m) : ∀ (k i : Nat), i + k = n →
    ∃ p, findPivot M j k i = some p ∧ i ≤ p ∧ p ≤ n ∧ (∀ a, i ≤ a → a < p → e M a j = 0) ∧ (p < n → e M p j ≠ 0) := by
  intro k
  induction k with
  | zero => intro i hik; exact ⟨i, rfl, le_refl _, by omega, fun a h1 h2 => by omega, fun h' => by omega⟩
  | succ k ih =>
    intro i hik
    rw [findPivot, rd2_eq h (by omega) hj]
    simp only [Option.bind_eq_bind, Option.bind_some]
    by_cases hz : e M i j = 0
    · rw [if_pos hz]
      obtain ⟨p, e1, h1, h2, h3, h4⟩ := ih (i + 1) (by omega)
      refine ⟨p, e1, by omega, h2, fun a h5 h6 => ?_, h4⟩
      by_cases ha : a = i
      · rw [ha, hz]
      · exact h3 a (by omega) h6
    · rw [if_neg hz]
      exact ⟨i, rfl, le_refl _, by omega, fun a h1 h2 => by omega, fun _ => hz⟩

theorem swapRows_spec {M : Mat α} {n m i j : Nat} (h : Shape M n m) (hi : i < n) (hj : j < n) :
    ∃ M', swapRows M i j = some M' ∧ Shape M' n m ∧
      ∀ a b, e M' a b = e M (if a = j then i else if a = i then j else a) b := by
  obtain ⟨M1, e1, h1, v1⟩ := wr_row h hi (M.getD j []) (h.2 j hj)
  obtain ⟨M2, e2, h2, v2⟩ := wr_row h1 hj (M.getD i []) (h.2 i hi)
  refine ⟨M2, ?_, h2, fun a b => ?_⟩
  · rw [swapRows, rd_row h hi]
    simp only [Option.bind_eq_bind, Option.bind_some]
    rw [rd_row h hj]
    simp only [Option.bind_some]
    rw [e1]; exact e2
  · rw [e, v2, v1, e]
    by_cases h1 : a = j
    · rw [if_pos h1, if_pos h1]
    · rw [if_neg h1, if_neg h1]
      by_cases h2 : a = i
      · rw [if_pos h2, if_pos h2]
      · rw [if_neg h2, if_neg h2]

theorem scaleRow_spec {n j : Nat} (pi : α) (hj : j < n) : ∀ (k c : Nat) (M I : Mat α), c + k = n → Shape M n n → Shape I n n →
    ∃ M' I', scaleRow j pi k c (M, I) = some (M', I') ∧ Shape M' n n ∧ Shape I' n n ∧
      (∀ a b, b < n → e M' a b = if a = j ∧ c ≤ b then e M a b * pi else e M a b) ∧
      (∀ a b, b < n → e I' a b = if a = j ∧ c ≤ b then e I a b * pi else e I a b) := by
  intro k
  induction k with
  | zero =>
    intro c M I hck hM hI
    exact ⟨M, I, rfl, hM, hI, fun a b hb => by rw [if_neg (by omega)], fun a b hb => by rw [if_neg (by omega)]⟩
  | succ k ih =>
    intro c M I hck hM hI
    obtain ⟨M1, e1, h1, v1⟩ := wr2_eq hM hj (show c < n by omega) (e M j c * pi)
    obtain ⟨I1, e2, h2, v2⟩ := wr2_eq hI hj (show c < n by omega) (e I j c * pi)
    obtain ⟨M2, I2, e3, h3, h4, v3, v4⟩ := ih (c + 1) M1 I1 (by omega) h1 h2
    refine ⟨M2, I2, ?_, h3, h4, fun a b hb => ?_, fun a b hb => ?_⟩
    · rw [scaleRow, rd2_eq hM hj (by omega)]
      simp only [Option.bind_eq_bind, Option.bind_some]
      rw [e1]
      simp only [Option.bind_some]
      rw [rd2_eq hI hj (by omega)]
      simp only [Option.bind_some]
      rw [e2]; exact e3
    · rw [v3 a b hb, v1]
      by_cases hab : a = j ∧ b = c
      · rw [if_neg (by omega), if_pos (by omega), if_pos (by omega), hab.1, hab.2]
      · rw [if_neg hab]
        by_cases hc : a = j ∧ c + 1 ≤ b
        · rw [if_pos hc, if_pos (by omega)]
        · rw [if_neg hc, if_neg (by omega)]
    · rw [v4 a b hb, v2]
      by_cases hab : a = j ∧ b = c
      · rw [if_neg (by omega), if_pos (by omega), if_pos (by omega), hab.1, hab.2]
      · rw [if_neg hab]
        by_cases hc : a = j ∧ c + 1 ≤ b
        · rw [if_pos hc, if_pos (by omega)]
        · rw [if_neg hc, if_neg (by omega)]

theorem subRow_spec {n i j : Nat} (p : α) (hi : i < n) (hj : j < n) (hij : i ≠ j) : ∀ (k c : Nat) (M I : Mat α),
    c + k = n → Shape M n n → Shape I n n →
    ∃ M' I', subRow i j p k c (M, I) = some (M', I') ∧ Shape M' n n ∧ Shape I' n n ∧
      (∀ a b, b < n → e M' a b = if a = i ∧ c ≤ b then e M a b - e M j b * p else e M a b) ∧
      (∀ a b, b < n → e I' a b = if a = i ∧ c ≤ b then e I a b - e I j b * p else e I a b) := by
  intro k
  induction k with
  | zero =>
    intro c M I hck hM hI
    exact ⟨M, I, rfl, hM, hI, fun a b hb => by rw [if_neg (by omega)], fun a b hb => by rw [if_neg (by omega)]⟩
  | succ k ih =>
    intro c M I hck hM hI
    obtain ⟨M1, e1, h1, v1⟩ := wr2_eq hM hi (show c < n by omega) (e M i c - e M j c * p)
    obtain ⟨I1, e2, h2, v2⟩ := wr2_eq hI hi (show c < n by omega) (e I i c - e I j c * p)
    obtain ⟨M2, I2, e3, h3, h4, v3, v4⟩ := ih (c + 1) M1 I1 (by omega) h1 h2
    refine ⟨M2, I2, ?_, h3, h4, fun a b hb => ?_, fun a b hb => ?_⟩
    · rw [subRow, rd2_eq hM hi (by omega)]
      simp only [Option.bind_eq_bind, Option.bind_some]
      rw [rd2_eq hM hj (by omega)]
      simp only [Option.bind_some]
      rw [e1]
      simp only [Option.bind_some]
      rw [rd2_eq hI hi (by omega)]
      simp only [Option.bind_some]
      rw [rd2_eq hI hj (by omega)]
      simp only [Option.bind_some]
      rw [e2]; exact e3
    · rw [v3 a b hb, v1, v1, if_neg (show ¬ (j = i ∧ b = c) by omega)]
      by_cases hab : a = i ∧ b = c
      · rw [if_neg (by omega), if_pos (by omega), if_pos (by omega), hab.1, hab.2]
      · rw [if_neg hab]
        by_cases hc : a = i ∧ c + 1 ≤ b
        · rw [if_pos hc, if_pos (by omega)]
        · rw [if_neg hc, if_neg (by omega)]
    · rw [v4 a b hb, v2, v2, if_neg (show ¬ (j = i ∧ b = c) by omega)]
      by_cases hab : a = i ∧ b = c
      · rw [if_neg (by omega), if_pos (by omega), if_pos (by omega), hab.1, hab.2]
      · rw [if_neg hab]
        by_cases hc : a = i ∧ c + 1 ≤ b
        · rw [if_pos hc, if_pos (by omega)]
        · rw [if_neg hc, if_neg (by omega)]

theorem det_congr {n : Nat} {M M' : Mat α} (h : ∀ a b, a < n → b < n → e M' a b = e M a b) : toM M' n n = toM M n n := by
  funext i j
  exact h i j i.2 j.2

theorem det_subRow {n i j : Nat} (M M' : Mat α) (p : α) (hi : i < n) (hj : j < n) (hij : i ≠ j)
    (h : ∀ a b, a < n → b < n → e M' a b = if a = i then e M a b - e M j b * p else e M a b) :
    (toM M' n n).det = (toM M n n).det := by
  have hne : (⟨i, hi⟩ : Fin n) ≠ ⟨j, hj⟩ := by simpa using hij
  rw [← Matrix.det_updateRow_add_smul_self (toM M n n) hne (-p)]
  congr 1
  funext a b
  have := h a b a.2 b.2
  by_cases ha : a = ⟨i, hi⟩
  · subst ha
    rw [Matrix.updateRow_self]
    refine this.trans ?_
    rw [if_pos rfl]
    simp only [toM, Pi.add_apply, Pi.smul_apply, smul_eq_mul]
    ring
  · rw [Matrix.updateRow_ne ha]
    refine this.trans ?_
    rw [if_neg (by intro h'; exact ha (Fin.ext h'))]
    rfl

/-- One row of an elimination loop. -/
theorem elimOne_spec {n i j : Nat} (hi : i < n) (hj : j < n) (hij : i ≠ j) (A M I : Mat α) (hM : Shape M n n) (hI : Shape I n n)
    (ht : Track n A M I) :
    ∃ M' I', elimOne n i j (M, I) = some (M', I') ∧ Shape M' n n ∧ Shape I' n n ∧ Track n A M' I' ∧
      (toM M' n n).det = (toM M n n).det ∧
      ∀ a b, a < n → b < n → e M' a b = if a = i then e M a b - e M j b * e M i j else e M a b := by
  rw [elimOne, rd2_eq hM hi hj]
  simp only [Option.bind_eq_bind, Option.bind_some]
  by_cases hz : e M i j = 0
  · rw [if_pos hz]
    refine ⟨M, I, rfl, hM, hI, ht, rfl, fun a b _ _ => ?_⟩
    rw [hz, mul_zero, sub_zero, ite_self]
  · rw [if_neg hz]
    obtain ⟨M1, I1, e1, h1, h2, v1, v2⟩ := subRow_spec (e M i j) hi hj hij n 0 M I (by omega) hM hI
    have w : ∀ a b, a < n → b < n → e M1 a b = if a = i then e M a b - e M j b * e M i j else e M a b := by
      intro a b _ hb
      rw [v1 a b hb]
      by_cases ha : a = i
      · rw [if_pos (by omega), if_pos ha]
      · rw [if_neg (by omega), if_neg ha]
    refine ⟨M1, I1, e1, h1, h2, fun a b ha hb => ?_, det_subRow M M1 _ hi hj hij w, w⟩
    rw [w a b ha hb]
    by_cases hai : a = i
    · rw [if_pos hai, ht a b ha hb, ht j b hj hb, Finset.sum_mul, ← Finset.sum_sub_distrib]
      apply Finset.sum_congr rfl
      intro k hk
      rw [v2 a k (Finset.mem_range.mp hk), if_pos (by omega)]
      ring
    · rw [if_neg hai, ht a b ha hb]
      apply Finset.sum_congr rfl
      intro k hk
      rw [v2 a k (Finset.mem_range.mp hk), if_neg (by omega)]

theorem elimBelow_spec {n j : Nat} (hj : j < n) (A : Mat α) : ∀ (k i : Nat) (M I : Mat α), i + k = n →
    (∀ a, i ≤ a → a < n → a ≠ j) → Shape M n n → Shape I n n → Track n A M I →
    ∃ M' I', elimBelow n j k i (M, I) = some (M', I') ∧ Shape M' n n ∧ Shape I' n n ∧ Track n A M' I' ∧
      (toM M' n n).det = (toM M n n).det ∧
      ∀ a b, a < n → b < n → e M' a b = if i ≤ a then e M a b - e M j b * e M a j else e M a b := by
  intro k
  induction k with
  | zero =>
    intro i M I hik _ hM hI ht
    exact ⟨M, I, rfl, hM, hI, ht, rfl, fun a b ha _ => by rw [if_neg (by omega)]⟩
  | succ k ih =>
    intro i M I hik hne hM hI ht
    obtain ⟨M1, I1, e1, h1, h2, t1, d1, v1⟩ := elimOne_spec (show i < n by omega) hj (hne i (le_refl _) (by omega)) A M I hM hI ht
    obtain ⟨M2, I2, e2, h3, h4, t2, d2, v2⟩ := ih (i + 1) M1 I1 (by omega) (fun a h1 h2 => hne a (by omega) h2) h1 h2 t1
    refine ⟨M2, I2, by rw [elimBelow, e1]; exact e2, h3, h4, t2, by rw [d2, d1], fun a b ha hb => ?_⟩
    have hji : j ≠ i := Ne.symm (hne i (le_refl _) (by omega))
    rw [v2 a b ha hb, v1 a b ha hb, v1 j b hj hb, v1 a j ha hj, if_neg hji]
    by_cases hai : a = i
    · rw [if_neg (by omega), if_pos hai, if_pos (by omega), hai]
    · rw [if_neg hai, if_neg hai]
      by_cases hc : i + 1 ≤ a
      · rw [if_pos hc, if_pos (by omega)]
      · rw [if_neg hc, if_neg (by omega)]

theorem subRow_shape {n i j : Nat} (p : α) (hi : i < n) (hj : j < n) : ∀ (k c : Nat) (M I : Mat α),
    c + k = n → Shape M n n → Shape I n n →
    ∃ M' I', subRow i j p k c (M, I) = some (M', I') ∧ Shape M' n n ∧ Shape I' n n := by
  intro k
  induction k with
  | zero => intro c M I hck hM hI; exact ⟨M, I, rfl, hM, hI⟩
  | succ k ih =>
    intro c M I hck hM hI
    obtain ⟨M1, e1, h1, v1⟩ := wr2_eq hM hi (show c < n by omega) (e M i c - e M j c * p)
    obtain ⟨I1, e2, h2, v2⟩ := wr2_eq hI hi (show c < n by omega) (e I i c - e I j c * p)
    obtain ⟨M2, I2, e3, h3, h4⟩ := ih (c + 1) M1 I1 (by omega) h1 h2
    refine ⟨M2, I2, ?_, h3, h4⟩
    rw [subRow, rd2_eq hM hi (by omega)]
    simp only [Option.bind_eq_bind, Option.bind_some]
    rw [rd2_eq hM hj (by omega)]
    simp only [Option.bind_some]
    rw [e1]
    simp only [Option.bind_some]
    rw [rd2_eq hI hi (by omega)]
    simp only [Option.bind_some]
    rw [rd2_eq hI hj (by omega)]
    simp only [Option.bind_some]
    rw [e2]; exact e3

theorem elimBelow_shape {n j : Nat} (hj : j < n) : ∀ (k i : Nat) (M I : Mat α), i + k = n → Shape M n n → Shape I n n →
    ∃ M' I', elimBelow n j k i (M, I) = some (M', I') ∧ Shape M' n n ∧ Shape I' n n := by
  intro k
  induction k with
  | zero => intro i M I hik hM hI; exact ⟨M, I, rfl, hM, hI⟩
  | succ k ih =>
    intro i M I hik hM hI
    have hi : i < n := by omega
    have h1 : ∃ M1 I1, elimOne n i j (M, I) = some (M1, I1) ∧ Shape M1 n n ∧ Shape I1 n n := by
      rw [elimOne, rd2_eq hM hi hj]
      simp only [Option.bind_eq_bind, Option.bind_some]
      by_cases hz : e M i j = 0
      · rw [if_pos hz]; exact ⟨M, I, rfl, hM, hI⟩
      · rw [if_neg hz]; exact subRow_shape _ hi hj n 0 M I (by omega) hM hI
    obtain ⟨M1, I1, e1, s1, s2⟩ := h1
    obtain ⟨M2, I2, e2, s3, s4⟩ := ih (i + 1) M1 I1 (by omega) s1 s2
    exact ⟨M2, I2, by rw [elimBelow, e1]; exact e2, s3, s4⟩

theorem elimAbove_spec {n j : Nat} (hj : j < n) (A : Mat α) : ∀ (i : Nat) (M I : Mat α), i ≤ j →
    Shape M n n → Shape I n n → Track n A M I →
    ∃ M' I', elimAbove n j i (M, I) = some (M', I') ∧ Shape M' n n ∧ Shape I' n n ∧ Track n A M' I' ∧
      ∀ a b, a < n → b < n → e M' a b = if a < i then e M a b - e M j b * e M a j else e M a b := by
  intro i
  induction i with
  | zero =>
    intro M I _ hM hI ht
    exact ⟨M, I, rfl, hM, hI, ht, fun a b ha _ => by rw [if_neg (by omega)]⟩
  | succ i ih =>
    intro M I hij hM hI ht
    obtain ⟨M1, I1, e1, h1, h2, t1, _, v1⟩ := elimOne_spec (show i < n by omega) hj (show i ≠ j by omega) A M I hM hI ht
    obtain ⟨M2, I2, e2, h3, h4, t2, v2⟩ := ih M1 I1 (by omega) h1 h2 t1
    refine ⟨M2, I2, by rw [elimAbove, e1]; exact e2, h3, h4, t2, fun a b ha hb => ?_⟩
    rw [v2 a b ha hb, v1 a b ha hb, v1 j b hj hb, v1 a j ha hj, if_neg (show j ≠ i by omega)]
    by_cases hai : a = i
    · rw [if_neg (by omega), if_pos hai, if_pos (by omega), hai]
    · rw [if_neg hai, if_neg hai]
      by_cases hc : a < i
      · rw [if_pos hc, if_pos (by omega)]
      · rw [if_neg hc, if_neg (by omega)]

/-- Columns below `j` are those of a unit upper triangular matrix. -/
def Tri (n : Nat) (M : Mat α) (j : Nat) : Prop :=
  ∀ a b, a < n → b < j → (a = b → e M a b = 1) ∧ (b < a → e M a b = 0)

theorem det_swap {n i j : Nat} (M M' : Mat α) (hi : i < n) (hj : j < n) (hij : i ≠ j)
    (h : ∀ a b, e M' a b = e M (if a = j then i else if a = i then j else a) b) :
    (toM M' n n).det = - (toM M n n).det := by
  have hne : (⟨i, hi⟩ : Fin n) ≠ ⟨j, hj⟩ := by simpa using hij
  have e1 : toM M' n n = (toM M n n).submatrix (Equiv.swap ⟨i, hi⟩ ⟨j, hj⟩) id := by
    funext a b
    rw [Matrix.submatrix_apply, toM, h, toM]
    congr 1
    by_cases h1 : a = ⟨i, hi⟩
    · subst h1
      rw [Equiv.swap_apply_left]
      simp [hij]
    · by_cases h2 : a = ⟨j, hj⟩
      · subst h2
        rw [Equiv.swap_apply_right]
        simp
      · rw [Equiv.swap_apply_of_ne_of_ne h1 h2, if_neg, if_neg]
        · intro h'; exact h1 (Fin.ext h')
        · intro h'; exact h2 (Fin.ext h')
  rw [e1, Matrix.det_permute, Equiv.Perm.sign_swap hne]
  simp

theorem det_scale {n j : Nat} (M M' : Mat α) (c : α) (hj : j < n)
    (h : ∀ a b, a < n → b < n → e M' a b = if a = j then e M a b * c else e M a b) :
    (toM M' n n).det = c * (toM M n n).det := by
  have e1 : toM M' n n = (toM M n n).updateRow ⟨j, hj⟩ (c • toM M n n ⟨j, hj⟩) := by
    funext a b
    have := h a b a.2 b.2
    by_cases ha : a = ⟨j, hj⟩
    · subst ha
      rw [Matrix.updateRow_self]
      refine this.trans ?_
      rw [if_pos rfl, mul_comm]; rfl
    · rw [Matrix.updateRow_ne ha]
      refine this.trans ?_
      rw [if_neg (by intro h'; exact ha (Fin.ext h'))]; rfl
  rw [e1, Matrix.det_updateRow_smul, Matrix.updateRow_eq_self]

/-- A unit upper triangular prefix followed by a column without pivot: the matrix is singular. -/
theorem det_singular {n j : Nat} (M : Mat α) (hj : j < n) (ht : Tri n M j) (hz : ∀ a, j ≤ a → a < n → e M a j = 0) :
    (toM M n n).det = 0 := by
  rw [Matrix.det_apply]
  apply Finset.sum_eq_zero
  intro σ _
  suffices ∃ i : Fin n, toM M n n (σ i) i = 0 by
    obtain ⟨i, hi⟩ := this
    have hp : ∏ i, toM M n n (σ i) i = 0 := Finset.prod_eq_zero (Finset.mem_univ i) hi
    rw [hp, smul_zero]
  by_contra hne
  push Not at hne
  have hlt : ∀ i : Fin n, i.val ≤ j → (σ i).val < j := by
    intro i hi
    by_contra hge
    apply hne i
    rw [toM]
    by_cases hij : i.val = j
    · rw [hij]; exact hz _ (by omega) (σ i).2
    · exact (ht _ i.val (σ i).2 (by omega)).2 (by omega)
  have hcard : (Finset.univ.filter (fun i : Fin n => i.val ≤ j)).card ≤ (Finset.univ.filter (fun i : Fin n => i.val < j)).card := by
    apply Finset.card_le_card_of_injOn σ
    · intro i hi
      rw [Finset.mem_coe, Finset.mem_filter] at hi
      rw [Finset.mem_coe, Finset.mem_filter]
      exact ⟨Finset.mem_univ _, hlt i hi.2⟩
    · exact σ.injective.injOn
  have hss : Finset.univ.filter (fun i : Fin n => i.val < j) ⊂ Finset.univ.filter (fun i : Fin n => i.val ≤ j) := by
    rw [Finset.ssubset_iff_of_subset (fun i hi => by
      rw [Finset.mem_filter] at hi ⊢
      exact ⟨hi.1, by omega⟩)]
    exact ⟨⟨j, hj⟩, by simp, by simp⟩
  have := Finset.card_lt_card hss
  omega

/-- The invariant of the first loop before column `j`. -/
structure Inv (n : Nat) (A : Mat α) (j : Nat) (s : St α) : Prop where
  hM : Shape s.M n n
  hI : Shape s.I n n
  rank_le : s.rank ≤ j
  st : (s.rank = j ∧ Track n A s.M s.I ∧ Tri n s.M j ∧ s.det ≠ 0 ∧ (toM A n n).det = s.det * (toM s.M n n).det) ∨
    (s.rank < j ∧ s.det = 0 ∧ (toM A n n).det = 0)

theorem column_spec {n j : Nat} (A : Mat α) (hj : j < n) (s : St α) (h : Inv n A j s) :
    ∃ s', column n j s = some s' ∧ Inv n A (j + 1) s' := by
  have hrl := h.rank_le
  obtain ⟨p, ep, hp1, hp2, hp3, hp4⟩ := findPivot_spec h.hM hj (n - s.rank) s.rank (by omega)
  rw [column, ep]
  simp only [Option.bind_eq_bind, Option.bind_some]
  by_cases hpn : p ≥ n
  · rw [if_pos hpn]
    refine ⟨_, rfl, h.hM, h.hI, by show s.rank ≤ j + 1; omega, Or.inr ⟨by show s.rank < j + 1; omega, rfl, ?_⟩⟩
    rcases h.st with ⟨h1, _, h2, _, h4⟩ | ⟨_, _, h3⟩
    · rw [h4, det_singular s.M hj h2 (fun a ha1 ha2 => hp3 a (by omega) (by omega)), mul_zero]
    · exact h3
  · rw [if_neg hpn]
    have hpn' : p < n := by omega
    have hpiv := hp4 hpn'
    -- after the transposition
    have hsw : ∃ M I d, pivotSwap p j s = some (M, I, d) ∧ Shape M n n ∧ Shape I n n ∧ (Track n A s.M s.I → Track n A M I) ∧ e M j j ≠ 0 ∧
        (d = 0 ↔ s.det = 0) ∧ d * (toM M n n).det = s.det * (toM s.M n n).det ∧
        (s.rank = j → Tri n s.M j → Tri n M j) := by
      by_cases hpj : p ≠ j
      · obtain ⟨M, e1, h1, v1⟩ := swapRows_spec h.hM hpn' hj
        obtain ⟨I, e2, h2, v2⟩ := swapRows_spec h.hI hpn' hj
        refine ⟨M, I, -s.det, ?_, h1, h2, ?_, ?_, neg_eq_zero, ?_, ?_⟩
        · rw [pivotSwap, if_pos hpj, e1]
          simp only [Option.bind_eq_bind, Option.bind_some]
          rw [e2]; rfl
        · intro htr a b ha hb
          rw [v1, htr _ b (by split_ifs <;> omega) hb]
          apply Finset.sum_congr rfl
          intro k _
          rw [v2]
        · rw [v1, if_pos rfl]; exact hpiv
        · rw [det_swap s.M M hpn' hj hpj v1]; ring
        · intro hr ht a b ha hb
          have hpj' : j ≤ p := by omega
          refine ⟨fun hab => ?_, fun hab => ?_⟩
          · rw [v1, if_neg (by omega), if_neg (by omega)]
            exact (ht a b ha hb).1 hab
          · rw [v1]
            apply (ht _ b (by split_ifs <;> omega) hb).2
            split_ifs <;> omega
      · push Not at hpj
        rw [pivotSwap, if_neg (by simpa using hpj)]
        rw [hpj] at hpiv
        exact ⟨s.M, s.I, s.det, rfl, h.hM, h.hI, id, hpiv, Iff.rfl, rfl, fun _ ht => ht⟩
    obtain ⟨M, I, d, esw, hM, hI, ht, hdne, hd0, hdet, htri⟩ := hsw
    obtain ⟨M1, I1, e1, hM1, hI1, v1, w1⟩ := scaleRow_spec (1 / e M j j) hj n 0 M I (by omega) hM hI
    have v1' : ∀ a b, a < n → b < n → e M1 a b = if a = j then e M a b * (1 / e M j j) else e M a b := by
      intro a b _ hb
      rw [v1 a b hb]
      by_cases ha : a = j
      · rw [if_pos (by omega), if_pos ha]
      · rw [if_neg (by omega), if_neg ha]
    have ht1 : Track n A M I → Track n A M1 I1 := by
      intro ht a b ha hb
      rw [v1' a b ha hb]
      by_cases haj : a = j
      · rw [if_pos haj, ht a b ha hb, Finset.sum_mul]
        apply Finset.sum_congr rfl
        intro k hk
        rw [w1 a k (Finset.mem_range.mp hk), if_pos (by omega)]
        ring
      · rw [if_neg haj, ht a b ha hb]
        apply Finset.sum_congr rfl
        intro k hk
        rw [w1 a k (Finset.mem_range.mp hk), if_neg (by omega)]
    have hdet1 := det_scale M M1 _ hj v1'
    -- the rows below: `rank ≤ j`; the row `j` itself may be among them only when a column was skipped
    by_cases hclean : s.rank = j
    · have hst : Track n A s.M s.I ∧ Tri n s.M j ∧ s.det ≠ 0 ∧ (toM A n n).det = s.det * (toM s.M n n).det := by
        rcases h.st with ⟨_, h2⟩ | ⟨h1, _⟩
        · exact h2
        · omega
      obtain ⟨M2, I2, e2, hM2, hI2, ht2, hdet2, v2⟩ := elimBelow_spec hj A (n - (s.rank + 1)) (s.rank + 1) M1 I1 (by omega)
        (fun a h1 _ => by omega) hM1 hI1 (ht1 (ht hst.1))
      refine ⟨{ M := M2, I := I2, det := d * e M j j, rank := s.rank + 1 }, ?_, ⟨hM2, hI2, by show s.rank + 1 ≤ j + 1; omega, Or.inl ⟨by show s.rank + 1 = j + 1; omega, ht2, ?_, ?_, ?_⟩⟩⟩
      · rw [esw]
        simp only [Option.bind_some]
        rw [rd2_eq hM hj hj]
        simp only [Option.bind_some]
        rw [if_neg hdne, e1]
        simp only [Option.bind_some]
        rw [e2]; rfl
      · intro a b ha hb
        have hTM := htri hclean hst.2.1
        show (a = b → e M2 a b = 1) ∧ (b < a → e M2 a b = 0)
        rw [v2 a b ha (by omega)]
        by_cases hbj : b = j
        · subst hbj
          refine ⟨fun hab => ?_, fun hab => ?_⟩
          · subst hab
            rw [if_neg (by omega), v1' a a ha hj, if_pos rfl, one_div, mul_inv_cancel₀ hdne]
          · rw [if_pos (by omega), v1' b b hj hj, if_pos rfl, one_div, mul_inv_cancel₀ hdne, one_mul, sub_self]
        · have hbj' : b < j := by omega
          have hjb : e M1 j b = 0 := by
            rw [v1' j b hj (by omega), if_pos rfl, (hTM j b hj hbj').2 hbj', zero_mul]
          rw [hjb, zero_mul, sub_zero, ite_self, v1' a b ha (by omega)]
          refine ⟨fun hab => ?_, fun hab => ?_⟩
          · rw [if_neg (by omega)]; exact (hTM a b ha hbj').1 hab
          · rw [(hTM a b ha hbj').2 hab, zero_mul, ite_self]
      · exact mul_ne_zero (fun h0 => hst.2.2.1 (hd0.mp h0)) hdne
      · show (toM A n n).det = d * e M j j * (toM M2 n n).det
        rw [hdet2, hdet1, hst.2.2.2, ← hdet]
        field_simp
    · have hst : s.det = 0 ∧ (toM A n n).det = 0 := by
        rcases h.st with ⟨h1, _⟩ | ⟨_, h2⟩
        · exact absurd h1 hclean
        · exact h2
      obtain ⟨M2, I2, e2, hM2, hI2⟩ := elimBelow_shape hj (n - (s.rank + 1)) (s.rank + 1) M1 I1 (by omega) hM1 hI1
      refine ⟨{ M := M2, I := I2, det := d * e M j j, rank := s.rank + 1 }, ?_, ⟨hM2, hI2, by show s.rank + 1 ≤ j + 1; omega,
        Or.inr ⟨by show s.rank + 1 < j + 1; omega, ?_, hst.2⟩⟩⟩
      · rw [esw]
        simp only [Option.bind_some]
        rw [rd2_eq hM hj hj]
        simp only [Option.bind_some]
        rw [if_neg hdne, e1]
        simp only [Option.bind_some]
        rw [e2]; rfl
      · show d * e M j j = 0
        rw [hd0.mpr hst.1, zero_mul]

theorem columns_spec {n : Nat} (A : Mat α) : ∀ (k j : Nat) (s : St α), j + k = n → Inv n A j s →
    ∃ s', columns n k j s = some s' ∧ Inv n A n s' := by
  intro k
  induction k with
  | zero => intro j s hjk h; rw [show j = n by omega] at h; exact ⟨s, rfl, h⟩
  | succ k ih =>
    intro j s hjk h
    obtain ⟨s1, e1, h1⟩ := column_spec A (show j < n by omega) s h
    obtain ⟨s2, e2, h2⟩ := ih (j + 1) s1 (by omega) h1
    exact ⟨s2, by rw [columns, e1]; exact e2, h2⟩

theorem backward_spec {n : Nat} (A : Mat α) : ∀ (j : Nat) (M I : Mat α), j ≤ n → Shape M n n → Shape I n n → Track n A M I →
    Tri n M n → (∀ a b, a < n → j ≤ b → b < n → a ≠ b → e M a b = 0) →
    ∃ M' I', backward n j (M, I) = some (M', I') ∧ Shape M' n n ∧ Shape I' n n ∧ Track n A M' I' ∧
      ∀ a b, a < n → b < n → e M' a b = if a = b then 1 else 0 := by
  intro j
  induction j with
  | zero =>
    intro M I _ hM hI ht htri hz
    refine ⟨M, I, rfl, hM, hI, ht, fun a b ha hb => ?_⟩
    by_cases hab : a = b
    · rw [if_pos hab]; exact (htri a b ha hb).1 hab
    · rw [if_neg hab]; exact hz a b ha (by omega) hb hab
  | succ j ih =>
    intro M I hjn hM hI ht htri hz
    have hj : j < n := by omega
    obtain ⟨M1, I1, e1, h1, h2, t1, v1⟩ := elimAbove_spec hj A j M I (le_refl _) hM hI ht
    have hval : ∀ a b, a < n → b < n → b ≠ j → e M1 a b = e M a b := by
      intro a b ha hb hbj
      rw [v1 a b ha hb]
      by_cases haj : a < j
      · rw [if_pos haj]
        have : e M j b = 0 := by
          by_cases hlt : b < j
          · exact (htri j b hj hb).2 hlt
          · exact hz j b hj (by omega) hb (by omega)
        rw [this, zero_mul, sub_zero]
      · rw [if_neg haj]
    have hcol : ∀ a, a < n → e M1 a j = if a < j then 0 else e M a j := by
      intro a ha
      rw [v1 a j ha hj, (htri j j hj hj).1 rfl, one_mul, sub_self]
    obtain ⟨M2, I2, e2, h3, h4, t2, v2⟩ := ih M1 I1 (by omega) h1 h2 t1 (by
      intro a b ha hb
      by_cases hbj : b = j
      · subst hbj
        refine ⟨fun hab => ?_, fun hab => ?_⟩
        · rw [hcol a ha, if_neg (by omega)]; exact (htri a b ha hb).1 hab
        · rw [hcol a ha, if_neg (by omega)]; exact (htri a b ha hb).2 hab
      · rw [hval a b ha hb hbj]; exact htri a b ha hb) (by
      intro a b ha hjb hb hab
      by_cases hbj : b = j
      · subst hbj
        rw [hcol a ha]
        by_cases hlt : a < b
        · rw [if_pos hlt]
        · rw [if_neg hlt]; exact (htri a b ha hb).2 (by omega)
      · rw [hval a b ha hb hbj]; exact hz a b ha (by omega) hb hab)
    exact ⟨M2, I2, by rw [backward, e1]; exact e2, h3, h4, t2, v2⟩

/-- What `gauss` computes. -/
theorem gauss_spec {n : Nat} (A : Mat α) (hn : 0 < n) (hA : Shape A n n) :
    ∃ s, gauss A = some s ∧ s.det = (toM A n n).det ∧ Shape s.I n n ∧ s.rank ≤ n ∧ (s.rank = n ↔ (toM A n n).det ≠ 0) ∧
      ((toM A n n).det ≠ 0 → toM s.I n n * toM A n n = 1) := by
  obtain ⟨I0, e0, h0, v0⟩ := identity_spec (α := α) n
  have hrows : rows A = n := hA.1
  have hinv : Inv n A 0 { M := A, I := I0, det := 1, rank := 0 } := by
    refine ⟨hA, h0, le_refl _, Or.inl ⟨rfl, ?_, fun a b _ hb => by omega, one_ne_zero, (one_mul _).symm⟩⟩
    intro a b ha hb
    show e A a b = ∑ k ∈ Finset.range n, e I0 a k * e A k b
    rw [Finset.sum_eq_single a]
    · rw [v0 a a ha, if_pos rfl, one_mul]
    · intro k _ hk
      rw [v0 a k ha, if_neg (Ne.symm hk), zero_mul]
    · intro h; rw [Finset.mem_range] at h; exact absurd ha h
  obtain ⟨s, e1, hs⟩ := columns_spec A n 0 _ (by omega) hinv
  rw [gauss, rd2_eq hA hn hn]
  simp only [Option.bind_eq_bind, Option.bind_some]
  rw [hrows, e0]
  simp only [Option.bind_some]
  rw [e1]
  simp only [Option.bind_some]
  rcases hs.st with ⟨hr, ht, htri, hd, hdet⟩ | ⟨hr, hd, hdet⟩
  · rw [if_pos hr]
    obtain ⟨M', I', e2, h1, h2, t2, v2⟩ := backward_spec A n s.M s.I (le_refl _) hs.hM hs.hI ht htri (fun a b _ h1 h2 _ => by omega)
    have hM1 : (toM s.M n n).det = 1 := by
      have htr : (toM s.M n n).BlockTriangular id := by
        intro i j hij
        exact (htri i j i.2 j.2).2 hij
      rw [Matrix.det_of_isUpperTriangular htr]
      apply Finset.prod_eq_one
      intro i _
      exact (htri i i i.2 i.2).1 rfl
    rw [hM1, mul_one] at hdet
    refine ⟨{ s with M := M', I := I' }, by rw [e2]; rfl, hdet.symm, h2, le_of_eq hr, ⟨fun _ => by rw [hdet]; exact hd, fun _ => hr⟩, fun _ => ?_⟩
    funext i j
    rw [Matrix.mul_apply, Matrix.one_apply]
    have := t2 i j i.2 j.2
    rw [v2 i j i.2 j.2, Finset.sum_range] at this
    simp only [Fin.ext_iff]
    exact this.symm
  · rw [if_neg (by omega)]
    exact ⟨s, rfl, by rw [hd, hdet], hs.hI, by omega, ⟨fun h => by omega, fun h => absurd hdet h⟩, fun h => absurd hdet h⟩

/-- **C39**: `det()` is the determinant, for every square matrix over every field. -/
theorem C39_det {n : Nat} (A : Mat α) (hn : 0 < n) (hA : Shape A n n) : det A = some (toM A n n).det := by
  obtain ⟨s, e1, h1, _⟩ := gauss_spec A hn hA
  rw [det, e1, Option.map_some, h1]

/-- **C39**: `inverse()` of a matrix with non-zero determinant is its two-sided inverse. -/
theorem C39_inverse {n : Nat} (A : Mat α) (hn : 0 < n) (hA : Shape A n n) (hd : (toM A n n).det ≠ 0) :
    ∃ R, inverse A = some R ∧ Shape R n n ∧ toM R n n * toM A n n = 1 ∧ toM A n n * toM R n n = 1 := by
  obtain ⟨s, e1, _, h2, _, _, h3⟩ := gauss_spec A hn hA
  exact ⟨s.I, by rw [inverse, e1, Option.map_some], h2, h3 hd, mul_eq_one_comm.mp (h3 hd)⟩

/-- **C39**: `rank()` is at most `n`, and it is `n` exactly when the matrix is invertible. -/
theorem C39_rank {n : Nat} (A : Mat α) (hn : 0 < n) (hA : Shape A n n) :
    ∃ r, rank A = some r ∧ r ≤ n ∧ (r = n ↔ (toM A n n).det ≠ 0) := by
  obtain ⟨s, e1, _, _, h2, h3, _⟩ := gauss_spec A hn hA
  exact ⟨s.rank, by rw [rank, e1, Option.map_some], h2, h3⟩

/-- **C39** (negative): `rank()` of a singular matrix can be smaller than its rank: after a column
without pivot the pivot row is swapped into row `j` instead of row `rank`, and `rank()` of a matrix
with two independent columns is 1. -/
theorem C39_rank_singular :
    rank [[(0 : Rat), 1, 0], [0, 1, 1], [0, 0, 0]] = some 1 ∧
    1 < (toM [[(0 : Rat), 1, 0], [0, 1, 1], [0, 0, 0]] 3 3).rank := by
  refine ⟨by decide +kernel, ?_⟩
  have hu : IsUnit ((toM [[(0 : Rat), 1, 0], [0, 1, 1], [0, 0, 0]] 3 3).submatrix ![0, 1] ![1, 2]) := by
    rw [Matrix.isUnit_iff_isUnit_det, Matrix.det_fin_two, isUnit_iff_ne_zero]
    decide +kernel
  have h1 := Matrix.rank_of_isUnit _ hu
  have h2 := Matrix.rank_submatrix_le (toM [[(0 : Rat), 1, 0], [0, 1, 1], [0, 0, 0]] 3 3) ![0, 1] ![1, 2]
  rw [h1, Fintype.card_fin] at h2
  omega

/-! ### examples -/

example : det [[(0 : Rat), 2], [3, 4]] = some (-6) := by decide +kernel
example : inverse [[(0 : Rat), 2], [3, 4]] = some [[-2 / 3, 1 / 3], [1 / 2, 0]] := by decide +kernel
example : mulA [[(1 : Int), 2], [3, 4]] [[5], [6]] = some [[17], [39]] := by decide +kernel
example : transpose [[(1 : Int), 2, 3], [3, 4, 5]] = some [[1, 3], [2, 4], [3, 5]] := by decide +kernel
example : Shape [[(0 : Rat), 2], [3, 4]] 2 2 := ⟨rfl, fun i hi => by interval_cases i <;> rfl⟩
example : (toM [[(0 : Rat), 2], [3, 4]] 2 2).det ≠ 0 := by
  have := C39_det [[(0 : Rat), 2], [3, 4]] (n := 2) (by decide) ⟨rfl, fun i hi => by interval_cases i <;> rfl⟩
  have e2 : det [[(0 : Rat), 2], [3, 4]] = some (-6) := by decide +kernel
  rw [e2, Option.some.injEq] at this
  rw [← this]; decide

end Field
end Altruct.LinAlg
