/-
C16: binary search returns the partition point.
-/
import Verif.Search.Model
import Mathlib.Order.Basic
import Mathlib.Tactic.Ring

namespace Altruct.Search

theorem binarySearchPred_spec (f : Int → Bool) (lo hi : Int) (evals : List Int) (h : lo ≤ hi)
    (hf : ∀ x y, lo ≤ x → x ≤ y → y < hi → f x = true → f y = true) :
    ∃ ev, (binarySearchPred f lo hi evals).2 = evals ++ ev ∧ (∀ x ∈ ev, lo ≤ x ∧ x < hi) ∧
    lo ≤ (binarySearchPred f lo hi evals).1 ∧ (binarySearchPred f lo hi evals).1 ≤ hi ∧
    (∀ x, lo ≤ x → x < (binarySearchPred f lo hi evals).1 → f x = false) ∧
    (∀ x, (binarySearchPred f lo hi evals).1 ≤ x → x < hi → f x = true) := by
  induction hn : (hi - lo).toNat using Nat.strong_induction_on generalizing lo hi evals with
  | _ n ih =>
    rw [binarySearchPred]
    by_cases hlt : lo < hi
    · rw [if_pos hlt]
      simp only [Int.tdiv_eq_ediv_of_nonneg (by omega : 0 ≤ hi - lo)]
      generalize hmid : lo + (hi - lo) / 2 = mid
      have h1 : lo ≤ mid := by omega
      have h2 : mid < hi := by omega
      cases hfm : f mid
      · simp only [Bool.false_eq_true, if_false]
        obtain ⟨ev, e1, e2, e3, e4, e5, e6⟩ := ih _ (by omega) (mid + 1) hi (evals ++ [mid]) (by omega)
          (fun x y a b c d => hf x y (by omega) b c d) rfl
        refine ⟨mid :: ev, by simp [e1], ?_, by omega, e4, ?_, e6⟩
        · intro x hx
          rcases List.mem_cons.mp hx with rfl | hx
          · exact ⟨h1, h2⟩
          · have := e2 x hx; omega
        · intro x hx1 hx2
          by_cases hxm : x ≤ mid
          · cases hfx : f x
            · rfl
            · rw [hf x mid hx1 hxm h2 hfx] at hfm; cases hfm
          · exact e5 x (by omega) hx2
      · simp only [if_true]
        obtain ⟨ev, e1, e2, e3, e4, e5, e6⟩ := ih _ (by omega) lo mid (evals ++ [mid]) (by omega)
          (fun x y a b c d => hf x y a b (by omega) d) rfl
        refine ⟨mid :: ev, by simp [e1], ?_, by omega, by omega, e5, ?_⟩
        · intro x hx
          rcases List.mem_cons.mp hx with rfl | hx
          · exact ⟨h1, h2⟩
          · have := e2 x hx; omega
        · intro x hx1 hx2
          by_cases hxm : x < mid
          · exact e6 x hx1 hxm
          · exact hf mid x h1 (by omega) hx2 hfm
    · rw [if_neg hlt]
      have : lo = hi := by omega
      subst this
      exact ⟨[], by simp, by simp, by simp, by simp, by simp; omega, by simp; omega⟩

/-- C16: for a predicate that is monotone on `[lo, hi)`, `binary_search_pred` returns the
partition point of the interval and evaluates the predicate only inside it. -/
theorem C16_binary_search_pred (f : Int → Bool) (lo hi : Int) (h : lo ≤ hi)
    (hf : ∀ x y, lo ≤ x → x ≤ y → y < hi → f x = true → f y = true) :
    ∃ r evals, binarySearchPred f lo hi [] = (r, evals) ∧ lo ≤ r ∧ r ≤ hi ∧
      (∀ x, lo ≤ x → x < r → f x = false) ∧ (∀ x, r ≤ x → x < hi → f x = true) ∧
      ∀ x ∈ evals, lo ≤ x ∧ x < hi := by
  obtain ⟨ev, e1, e2, e3, e4, e5, e6⟩ := binarySearchPred_spec f lo hi [] h hf
  refine ⟨_, _, rfl, e3, e4, e5, e6, ?_⟩
  rw [e1, List.nil_append]; exact e2

example : binarySearchPred (fun x => decide (x * x ≥ 50)) 0 100 [] = (8, [50, 25, 12, 6, 9, 8, 7]) := by
  decide +kernel

theorem binarySearchNumLoop_spec (f : Int → Bool) (lo hi prev : Int) (evals : List Int) (h : lo ≤ hi)
    (hp : prev < lo ∨ hi ≤ prev)
    (hf : ∀ x y, lo ≤ x → x ≤ y → y < hi → f x = true → f y = true) :
    ∃ ev, (binarySearchNumLoop f 1 (Int.le_refl 1) lo hi prev evals).2 = evals ++ ev ∧
    (∀ x ∈ ev, lo ≤ x ∧ x < hi) ∧
    lo ≤ (binarySearchNumLoop f 1 (Int.le_refl 1) lo hi prev evals).1 ∧
    (binarySearchNumLoop f 1 (Int.le_refl 1) lo hi prev evals).1 ≤ hi ∧
    (∀ x, lo ≤ x → x < (binarySearchNumLoop f 1 (Int.le_refl 1) lo hi prev evals).1 → f x = false) ∧
    (∀ x, (binarySearchNumLoop f 1 (Int.le_refl 1) lo hi prev evals).1 ≤ x → x < hi → f x = true) := by
  induction hn : (hi - lo).toNat using Nat.strong_induction_on generalizing lo hi prev evals with
  | _ n ih =>
    rw [binarySearchNumLoop]
    by_cases hlt : hi - lo ≥ 1
    · rw [if_pos hlt]
      simp only [Int.tdiv_eq_ediv_of_nonneg (by omega : 0 ≤ hi - lo)]
      generalize hmid : lo + (hi - lo) / 2 = mid
      have h1 : lo ≤ mid := by omega
      have h2 : mid < hi := by omega
      rw [if_neg (by omega)]
      cases hfm : f mid
      · simp only [Bool.false_eq_true, if_false]
        obtain ⟨ev, e1, e2, e3, e4, e5, e6⟩ := ih _ (by omega) (mid + 1) hi mid (evals ++ [mid]) (by omega)
          (by omega) (fun x y a b c d => hf x y (by omega) b c d) rfl
        refine ⟨mid :: ev, by simp [e1], ?_, by omega, e4, ?_, e6⟩
        · intro x hx
          rcases List.mem_cons.mp hx with rfl | hx
          · exact ⟨h1, h2⟩
          · have := e2 x hx; omega
        · intro x hx1 hx2
          by_cases hxm : x ≤ mid
          · cases hfx : f x
            · rfl
            · rw [hf x mid hx1 hxm h2 hfx] at hfm; cases hfm
          · exact e5 x (by omega) hx2
      · simp only [if_true]
        obtain ⟨ev, e1, e2, e3, e4, e5, e6⟩ := ih _ (by omega) lo mid mid (evals ++ [mid]) (by omega)
          (by omega) (fun x y a b c d => hf x y a b (by omega) d) rfl
        refine ⟨mid :: ev, by simp [e1], ?_, by omega, by omega, e5, ?_⟩
        · intro x hx
          rcases List.mem_cons.mp hx with rfl | hx
          · exact ⟨h1, h2⟩
          · have := e2 x hx; omega
        · intro x hx1 hx2
          by_cases hxm : x < mid
          · exact e6 x hx1 hxm
          · exact hf mid x h1 (by omega) hx2 hfm
    · rw [if_neg hlt]
      have : lo = hi := by omega
      subst this
      exact ⟨[], by simp, by simp, by simp, by simp, by simp; omega, by simp; omega⟩

/-- C16: the same for `binary_search_num` with integers and `eps = 1`. -/
theorem C16_binary_search_num (f : Int → Bool) (lo hi : Int) (h : lo ≤ hi)
    (hf : ∀ x y, lo ≤ x → x ≤ y → y < hi → f x = true → f y = true) :
    ∃ r evals, binarySearchNum f 1 (Int.le_refl 1) lo hi = (r, evals) ∧ lo ≤ r ∧ r ≤ hi ∧
      (∀ x, lo ≤ x → x < r → f x = false) ∧ (∀ x, r ≤ x → x < hi → f x = true) ∧
      ∀ x ∈ evals, lo ≤ x ∧ x < hi := by
  obtain ⟨ev, e1, e2, e3, e4, e5, e6⟩ := binarySearchNumLoop_spec f lo hi hi [] h (by omega) hf
  refine ⟨_, _, rfl, e3, e4, e5, e6, ?_⟩
  rw [e1, List.nil_append]; exact e2

/-- C16: `lower_bound_num` on an increasing (non-decreasing) function. -/
theorem C16_lower_bound_num (f : Int → Int) (lo hi val : Int) (h : lo ≤ hi)
    (hf : ∀ x y, lo ≤ x → x ≤ y → y < hi → f x ≤ f y) :
    lo ≤ lowerBoundNum lo hi val f false ∧ lowerBoundNum lo hi val f false ≤ hi ∧
      (∀ x, lo ≤ x → x < lowerBoundNum lo hi val f false → f x < val) ∧
      (∀ x, lowerBoundNum lo hi val f false ≤ x → x < hi → val ≤ f x) := by
  obtain ⟨r, ev, e, h1, h2, h3, h4, -⟩ := C16_binary_search_num (fun mid => f mid ≥ val) lo hi h
    (fun x y a b c d => by simp only [decide_eq_true_eq] at *; have := hf x y a b c; omega)
  have : lowerBoundNum lo hi val f false = r := by simp [lowerBoundNum, e]
  rw [this]
  exact ⟨h1, h2, fun x a b => by simpa using h3 x a b, fun x a b => by simpa using h4 x a b⟩

/-- C16: `lower_bound_num` on a decreasing function. -/
theorem C16_lower_bound_num_decreasing (f : Int → Int) (lo hi val : Int) (h : lo ≤ hi)
    (hf : ∀ x y, lo ≤ x → x ≤ y → y < hi → f y ≤ f x) :
    lo ≤ lowerBoundNum lo hi val f true ∧ lowerBoundNum lo hi val f true ≤ hi ∧
      (∀ x, lo ≤ x → x < lowerBoundNum lo hi val f true → val < f x) ∧
      (∀ x, lowerBoundNum lo hi val f true ≤ x → x < hi → f x ≤ val) := by
  obtain ⟨r, ev, e, h1, h2, h3, h4, -⟩ := C16_binary_search_num (fun mid => f mid ≤ val) lo hi h
    (fun x y a b c d => by simp only [decide_eq_true_eq] at *; have := hf x y a b c; omega)
  have : lowerBoundNum lo hi val f true = r := by simp [lowerBoundNum, e]
  rw [this]
  exact ⟨h1, h2, fun x a b => by simpa using h3 x a b, fun x a b => by simpa using h4 x a b⟩

/-- C16: `upper_bound_num` on a non-decreasing function. -/
theorem C16_upper_bound_num (f : Int → Int) (lo hi val : Int) (h : lo ≤ hi)
    (hf : ∀ x y, lo ≤ x → x ≤ y → y < hi → f x ≤ f y) :
    lo ≤ upperBoundNum lo hi val f false ∧ upperBoundNum lo hi val f false ≤ hi ∧
      (∀ x, lo ≤ x → x < upperBoundNum lo hi val f false → f x ≤ val) ∧
      (∀ x, upperBoundNum lo hi val f false ≤ x → x < hi → val < f x) := by
  obtain ⟨r, ev, e, h1, h2, h3, h4, -⟩ := C16_binary_search_num (fun mid => f mid > val) lo hi h
    (fun x y a b c d => by simp only [decide_eq_true_eq] at *; have := hf x y a b c; omega)
  have : upperBoundNum lo hi val f false = r := by simp [upperBoundNum, e]
  rw [this]
  exact ⟨h1, h2, fun x a b => by simpa using h3 x a b, fun x a b => by simpa using h4 x a b⟩

/-- C16: `upper_bound_num` on a decreasing function. -/
theorem C16_upper_bound_num_decreasing (f : Int → Int) (lo hi val : Int) (h : lo ≤ hi)
    (hf : ∀ x y, lo ≤ x → x ≤ y → y < hi → f y ≤ f x) :
    lo ≤ upperBoundNum lo hi val f true ∧ upperBoundNum lo hi val f true ≤ hi ∧
      (∀ x, lo ≤ x → x < upperBoundNum lo hi val f true → val ≤ f x) ∧
      (∀ x, upperBoundNum lo hi val f true ≤ x → x < hi → f x < val) := by
  obtain ⟨r, ev, e, h1, h2, h3, h4, -⟩ := C16_binary_search_num (fun mid => f mid < val) lo hi h
    (fun x y a b c d => by simp only [decide_eq_true_eq] at *; have := hf x y a b c; omega)
  have : upperBoundNum lo hi val f true = r := by simp [upperBoundNum, e]
  rw [this]
  exact ⟨h1, h2, fun x a b => by simpa using h3 x a b, fun x a b => by simpa using h4 x a b⟩

example : lowerBoundNum (-10) 10 27 (fun x => x * x * x) false = 3 ∧
    upperBoundNum (-10) 10 27 (fun x => x * x * x) false = 4 := by decide +kernel

end Altruct.Search
