/-
C133: the closed forms count the proper colourings.
-/
import Verif.Chromatic.Model
import Verif.Polynom.MulProps
import Mathlib.Combinatorics.SimpleGraph.Acyclic
import Mathlib.Combinatorics.SimpleGraph.CycleGraph
import Mathlib.Combinatorics.SimpleGraph.Coloring.Vertex
import Mathlib.Data.Fintype.CardEmbedding
import Mathlib.Tactic.Ring
import Mathlib.Tactic.Push

namespace Altruct.Chromatic
open Altruct.Polynom SimpleGraph

/-! ### The polynomials -/

theorem poly_two (a b : Int) : poly [a, b] = Polynomial.C a + Polynomial.C b * Polynomial.X := by
  simp [poly, Finset.sum_range_succ, at']

theorem poly_one : poly [(1 : Int)] = 1 := by
  simp [poly, at']

theorem powLoop_spec (thr : Nat) : ∀ (k : Nat) (r x : List Int) (y : Nat), y ≤ k → ∃ p, powLoop thr k r x y = some p ∧ poly p = poly r * poly x ^ y := by
  intro k
  induction k with
  | zero => intro r x y h; exact ⟨r, rfl, by rw [show y = 0 by omega, pow_zero, mul_one]⟩
  | succ k ih =>
    intro r x y h
    by_cases hy : y > 0
    · rw [powLoop, if_pos hy]
      obtain ⟨x', e2, p2⟩ := C37_times thr x none none
      by_cases h2 : y % 2 ≠ 0
      · obtain ⟨r', e1, p1⟩ := C37_times thr r none (some x)
        rw [if_pos h2, e1, Option.bind_some, e2, Option.bind_some]
        obtain ⟨p, e, hp⟩ := ih r' x' (y / 2) (by omega)
        refine ⟨p, e, ?_⟩
        rw [hp, p1, p2]
        simp only [Option.getD_none, Option.getD_some]
        conv_rhs => rw [show y = 2 * (y / 2) + 1 by omega]
        ring
      · rw [if_neg h2, Option.bind_some, e2, Option.bind_some]
        obtain ⟨p, e, hp⟩ := ih r x' (y / 2) (by omega)
        refine ⟨p, e, ?_⟩
        rw [hp, p2]
        simp only [Option.getD_none]
        conv_rhs => rw [show y = 2 * (y / 2) by omega]
        ring
    · rw [powLoop, if_neg hy]
      exact ⟨r, rfl, by rw [show y = 0 by omega, pow_zero, mul_one]⟩

theorem chrT_spec (thr n : Nat) (x : Int) : ∃ p, chrT thr n = some p ∧ eval p x = x * (x - 1) ^ (n - 1) := by
  obtain ⟨p, e, hp⟩ := powLoop_spec thr (n - 1) [1] [-1, 1] (n - 1) (le_refl _)
  obtain ⟨r, e2, hr⟩ := C37_times thr [0, 1] none (some p)
  refine ⟨r, by rw [chrT, pow, e, Option.bind_some, e2], ?_⟩
  rw [C37_eval, hr]
  simp only [Option.getD_none, Option.getD_some]
  rw [hp, poly_one, poly_two, poly_two]
  simp
  left
  congr 1
  ring

theorem chrC_spec (thr n : Nat) (x : Int) : ∃ p, chrC thr n = some p ∧ eval p x = (x - 1) ^ n + (-1) ^ n * (x - 1) := by
  obtain ⟨p, e, hp⟩ := powLoop_spec thr n [1] [-1, 1] n (le_refl _)
  refine ⟨_, by rw [chrC, pow, e, Option.map_some], ?_⟩
  rw [C37_eval, (C37_add _ _ _).2.1]
  simp only [Option.getD_none, Option.getD_some]
  rw [hp, C37_mul_scalar, poly_one]
  simp only [Option.getD_none]
  rw [poly_two]
  have hs : (if n % 2 = 0 then (1 : Int) else -1) = (-1) ^ n := by
    split
    · rw [Even.neg_one_pow (Nat.even_iff.mpr (by assumption))]
    · rw [Odd.neg_one_pow (Nat.odd_iff.mpr (by omega))]
  rw [hs]
  simp
  ring

theorem chrK_spec (thr n : Nat) (q : Nat) : ∃ p, chrK thr n = some p ∧ eval p (q : Int) = (q.descFactorial n : Int) := by
  obtain ⟨p, e, hp⟩ := forUp_spec (body := fun i p => mul thr p none (some [-1 * (i : Int), 1]) none) (fun i p => (poly p).eval (q : Int) = (q.descFactorial i : Int)) (a := 0) (n := n) (s := [1]) (by omega)
    (by rw [poly_one]; simp) (fun i p _ _ hp => by
      obtain ⟨r, e2, hr⟩ := C37_times thr p none (some [-1 * (i : Int), 1])
      refine ⟨r, e2, ?_⟩
      rw [hr]
      simp only [Option.getD_none, Option.getD_some]
      rw [poly_two, Polynomial.eval_mul, hp, Nat.descFactorial_succ]
      by_cases hi : i ≤ q
      · rw [Nat.cast_mul, Nat.cast_sub hi]
        simp
        ring
      · rw [Nat.descFactorial_of_lt (by omega)]
        simp)
  exact ⟨p, e, by rw [C37_eval, hp]⟩

/-! ### Colourings as functions -/

def colE {V : Type} (G : SimpleGraph V) (q : Nat) : G.Coloring (Fin q) ≃ {c : V → Fin q // ∀ a b, G.Adj a b → c a ≠ c b} where
  toFun c := ⟨c, fun _ _ h => c.valid h⟩
  invFun f := Coloring.mk f.1 (fun {a b} h => f.2 a b h)
  left_inv c := by ext; rfl
  right_inv f := rfl

/-! ### Complete graphs -/

/-- `chromatic_polynomial_K`: its value at `q` is the number of proper colourings of the complete graph with `q` colours. -/
theorem C133_complete (thr : Nat) (V : Type) [Fintype V] (q : Nat) :
    ∃ p, chrK thr (Fintype.card V) = some p ∧ eval p (q : Int) = (Nat.card ((⊤ : SimpleGraph V).Coloring (Fin q)) : Int) := by
  classical
  obtain ⟨p, e, hp⟩ := chrK_spec thr (Fintype.card V) q
  refine ⟨p, e, ?_⟩
  rw [hp]
  congr 1
  have E : (⊤ : SimpleGraph V).Coloring (Fin q) ≃ (V ↪ Fin q) :=
    { toFun := fun c => ⟨c, fun a b h => by
        by_contra hne
        exact c.valid (v := a) (w := b) hne h⟩
      invFun := fun f => Coloring.mk f (fun {a b} h hc => h (f.injective hc))
      left_inv := fun c => by ext; rfl
      right_inv := fun f => by ext; rfl }
  rw [Nat.card_congr E, Nat.card_eq_fintype_card, Fintype.card_embedding_eq, Fintype.card_fin]

/-! ### Trees -/

theorem tree_count (q : Nat) : ∀ (n : Nat) (V : Type) [Fintype V] (G : SimpleGraph V), G.IsTree → Fintype.card V = n + 1 → Nat.card (G.Coloring (Fin q)) = q * (q - 1) ^ n := by
  classical
  intro n
  induction n with
  | zero =>
    intro V _ G _ hc
    have hs : Subsingleton V := Fintype.card_le_one_iff_subsingleton.mp (by omega)
    have E : G.Coloring (Fin q) ≃ (V → Fin q) :=
      { toFun := fun c => c
        invFun := fun f => Coloring.mk f (fun {a b} h => absurd (Subsingleton.elim a b) h.ne)
        left_inv := fun c => by ext; rfl
        right_inv := fun f => rfl }
    rw [Nat.card_congr E, Nat.card_eq_fintype_card, Fintype.card_fun, Fintype.card_fin, hc]
    simp
  | succ n ih =>
    intro V _ G hG hc
    have : Nontrivial V := Fintype.one_lt_card_iff_nontrivial.mp (by omega)
    obtain ⟨v, hv⟩ := hG.exists_vert_degree_one_of_nontrivial
    obtain ⟨u, hu, huniq⟩ := degree_eq_one_iff_existsUnique_adj.mp hv
    have hG' : (G.induce {v}ᶜ).IsTree := ⟨hG.connected.induce_compl_singleton_of_degree_eq_one hv, hG.isAcyclic.induce _⟩
    have huv : u ≠ v := fun h => G.loopless.irrefl v (h ▸ hu)
    have hcard : Fintype.card (({v}ᶜ : Set V) : Type) = n + 1 := by
      rw [Fintype.card_compl_set, hc]
      simp
    have hI := ih _ (G.induce {v}ᶜ) hG' hcard
    rw [Nat.card_congr (colE _ q)] at hI
    have E : {c : V → Fin q // ∀ a b, G.Adj a b → c a ≠ c b} ≃
        Σ c : {c : (({v}ᶜ : Set V) : Type) → Fin q // ∀ a b, (G.induce {v}ᶜ).Adj a b → c a ≠ c b}, {x : Fin q // x ≠ c.1 ⟨u, huv⟩} :=
      { toFun := fun c => ⟨⟨fun w => c.1 w.1, fun a b h => c.2 a.1 b.1 h⟩, c.1 v, c.2 _ _ hu⟩
        invFun := fun s => ⟨fun w => if h : w = v then s.2.1 else s.1.1 ⟨w, h⟩, fun a b h => by
          by_cases ha : a = v
          · subst ha
            have hb := huniq b h
            subst hb
            simp only [dif_pos, dif_neg huv]
            exact s.2.2
          · by_cases hb : b = v
            · subst hb
              have ha' := huniq a h.symm
              subst ha'
              simp only [dif_pos, dif_neg huv]
              exact fun hc => s.2.2 hc.symm
            · simp only [dif_neg ha, dif_neg hb]
              exact s.1.2 ⟨a, ha⟩ ⟨b, hb⟩ h⟩
        left_inv := fun c => by
          apply Subtype.ext
          funext w
          by_cases h : w = v
          · subst h; simp
          · simp [h]
        right_inv := fun s => by
          refine Sigma.subtype_ext (Subtype.ext (funext fun w => ?_)) (by simp)
          have hw : w.1 ≠ v := w.2
          simp [hw] }
    rw [Nat.card_congr (colE _ q)]
    rw [Nat.card_congr E, Nat.card_eq_fintype_card, Fintype.card_sigma]
    simp only [ne_eq, Fintype.card_subtype_compl, Fintype.card_fin, Fintype.card_unique]
    rw [Finset.sum_const, Finset.card_univ, ← Nat.card_eq_fintype_card, hI]
    simp
    ring

/-- `chromatic_polynomial_T`: its value at `q` is the number of proper colourings with `q` colours, for every tree with that number of nodes. -/
theorem C133_tree (thr : Nat) (V : Type) [Fintype V] (G : SimpleGraph V) (hG : G.IsTree) (q : Nat) :
    ∃ p, chrT thr (Fintype.card V) = some p ∧ eval p (q : Int) = (Nat.card (G.Coloring (Fin q)) : Int) := by
  obtain ⟨p, e, hp⟩ := chrT_spec thr (Fintype.card V) q
  have hne : Nonempty V := hG.connected.nonempty
  have hpos : 0 < Fintype.card V := Fintype.card_pos
  refine ⟨p, e, ?_⟩
  rw [hp, tree_count q (Fintype.card V - 1) V G hG (by omega)]
  rcases Nat.eq_zero_or_pos q with rfl | hq
  · simp
  · rw [Nat.cast_mul, Nat.cast_pow, Nat.cast_sub hq, Nat.cast_one]

/-! ### Cycles -/

/-- The colourings of a path. -/
abbrev PathC (q n : Nat) := {c : Fin (n + 1) → Fin q // ∀ i : Fin n, c i.castSucc ≠ c i.succ}

theorem path_count (q : Nat) : ∀ n, Nat.card (PathC q n) = q * (q - 1) ^ n := by
  intro n
  induction n with
  | zero =>
    have E : PathC q 0 ≃ (Fin 1 → Fin q) := Equiv.subtypeUnivEquiv (fun c i => i.elim0)
    rw [Nat.card_congr E]
    simp
  | succ n ih =>
    have E : PathC q (n + 1) ≃ Σ c : PathC q n, {x : Fin q // x ≠ c.1 (Fin.last n)} :=
      { toFun := fun c => ⟨⟨fun i => c.1 i.castSucc, fun i => by
            have := c.2 i.castSucc
            rwa [Fin.succ_castSucc] at this⟩, c.1 (Fin.last (n + 1)), fun h => c.2 (Fin.last n) (by rw [Fin.succ_last]; exact h.symm)⟩
        invFun := fun s => ⟨Fin.snoc (α := fun _ => Fin q) s.1.1 s.2.1, fun i => by
          refine Fin.lastCases ?_ (fun j => ?_) i
          · rw [Fin.succ_last, Fin.snoc_last, Fin.snoc_castSucc]
            exact fun h => s.2.2 h.symm
          · rw [Fin.succ_castSucc, Fin.snoc_castSucc, Fin.snoc_castSucc]
            exact s.1.2 j⟩
        left_inv := fun c => by
          apply Subtype.ext
          funext i
          refine Fin.lastCases ?_ (fun j => ?_) i
          · simp
          · simp
        right_inv := fun s => by
          refine Sigma.subtype_ext (Subtype.ext (funext fun w => ?_)) (by simp)
          simp }
    rw [Nat.card_congr E, Nat.card_eq_fintype_card, Fintype.card_sigma]
    simp only [ne_eq, Fintype.card_subtype_compl, Fintype.card_fin, Fintype.card_unique]
    rw [Finset.sum_const, Finset.card_univ, ← Nat.card_eq_fintype_card, ih]
    simp
    ring

/-- Paths whose ends differ, that is, cycles. -/
theorem cycle_count (q : Nat) : ∀ n, (Nat.card {c : PathC q n // c.1 (Fin.last n) ≠ c.1 0} : Int) = ((q : Int) - 1) ^ (n + 1) + (-1) ^ (n + 1) * ((q : Int) - 1) := by
  intro n
  induction n with
  | zero =>
    have : IsEmpty {c : PathC q 0 // c.1 (Fin.last 0) ≠ c.1 0} := ⟨fun c => c.2 rfl⟩
    rw [Nat.card_of_isEmpty]
    simp
  | succ n ih =>
    have E : {c : PathC q (n + 1) // ¬ c.1 (Fin.last (n + 1)) ≠ c.1 0} ≃ {c : PathC q n // c.1 (Fin.last n) ≠ c.1 0} :=
      { toFun := fun c => ⟨⟨fun i => c.1.1 i.castSucc, fun i => by
            have := c.1.2 i.castSucc
            rwa [Fin.succ_castSucc] at this⟩, fun h => c.1.2 (Fin.last n) (by
              rw [Fin.succ_last, not_not.mp c.2]
              exact h)⟩
        invFun := fun s => ⟨⟨Fin.snoc (α := fun _ => Fin q) s.1.1 (s.1.1 0), fun i => by
          refine Fin.lastCases ?_ (fun j => ?_) i
          · rw [Fin.succ_last, Fin.snoc_last, Fin.snoc_castSucc]
            exact s.2
          · rw [Fin.succ_castSucc, Fin.snoc_castSucc, Fin.snoc_castSucc]
            exact s.1.2 j⟩, by
            rw [not_not]
            change Fin.snoc (α := fun _ => Fin q) s.1.1 (s.1.1 0) (Fin.last (n + 1)) = Fin.snoc (α := fun _ => Fin q) s.1.1 (s.1.1 0) (Fin.castSucc 0)
            rw [Fin.snoc_last, Fin.snoc_castSucc]⟩
        left_inv := fun c => by
          apply Subtype.ext
          apply Subtype.ext
          funext i
          refine Fin.lastCases ?_ (fun j => ?_) i
          · have := not_not.mp c.2
            simp [this]
          · simp
        right_inv := fun s => by
          apply Subtype.ext
          apply Subtype.ext
          funext i
          simp }
    have hsum : Nat.card {c : PathC q (n + 1) // c.1 (Fin.last (n + 1)) ≠ c.1 0} + Nat.card {c : PathC q (n + 1) // ¬ c.1 (Fin.last (n + 1)) ≠ c.1 0} = Nat.card (PathC q (n + 1)) := by
      rw [← Nat.card_sum, Nat.card_congr (Equiv.sumCompl _)]
    rw [Nat.card_congr E, path_count] at hsum
    have h2 : ((q * (q - 1) ^ (n + 1) : Nat) : Int) = (q : Int) * ((q : Int) - 1) ^ (n + 1) := by
      rcases Nat.eq_zero_or_pos q with rfl | hq
      · simp
      · rw [Nat.cast_mul, Nat.cast_pow, Nat.cast_sub hq, Nat.cast_one]
    have h3 := congrArg (Nat.cast : Nat → Int) hsum
    rw [Nat.cast_add, h2, ih] at h3
    rw [eq_sub_of_add_eq h3]
    ring

/-- `chromatic_polynomial_C`: its value at `q` is the number of proper colourings of the cycle of `n` nodes with `q` colours. -/
theorem C133_cycle (thr n : Nat) (hn : 2 ≤ n) (q : Nat) :
    ∃ p, chrC thr n = some p ∧ eval p (q : Int) = (Nat.card ((cycleGraph n).Coloring (Fin q)) : Int) := by
  obtain ⟨p, e, hp⟩ := chrC_spec thr n q
  refine ⟨p, e, ?_⟩
  obtain ⟨m, rfl⟩ : ∃ m, n = m + 2 := ⟨n - 2, by omega⟩
  rw [hp, ← cycle_count q (m + 1), Nat.card_congr (colE _ q)]
  congr 1
  refine Nat.card_congr ⟨fun c => ⟨c.1.1, fun a b h => ?_⟩, fun c => ⟨⟨c.1, fun i => ?_⟩, ?_⟩, fun c => rfl, fun c => rfl⟩
  · have key : ∀ v : Fin (m + 2), c.1.1 v ≠ c.1.1 (v + 1) := by
      intro v
      refine Fin.lastCases ?_ (fun j => ?_) v
      · rw [Fin.last_add_one]
        exact c.2
      · rw [Fin.coeSucc_eq_succ]
        exact c.1.2 j
    rw [cycleGraph_adj] at h
    rcases h with h | h
    · rw [sub_eq_iff_eq_add] at h
      rw [h, add_comm (1 : Fin (m + 2)) b]
      exact (key b).symm
    · rw [sub_eq_iff_eq_add] at h
      rw [h, add_comm (1 : Fin (m + 2)) a]
      exact key a
  · refine c.2 _ _ ?_
    rw [cycleGraph_adj]
    right
    rw [← Fin.coeSucc_eq_succ]
    exact add_sub_cancel_left _ _
  · refine c.2 _ _ ?_
    rw [cycleGraph_adj]
    right
    rw [← Fin.last_add_one]
    exact add_sub_cancel_left _ _

/-! ### Examples -/

example : chrT 5 4 = some [0, -1, 3, -3, 1] ∧ chrC 5 4 = some [0, -3, 6, -4, 1] ∧ chrK 5 4 = some [0, -6, 11, -6, 1] := by decide +kernel

/-- The hypothesis of C133_tree is met: the graph of one edge. -/
example : (⊤ : SimpleGraph (Fin 2)).IsTree := by
  refine ⟨connected_top, IsAcyclic.of_card_le_two (by simp)⟩

end Altruct.Chromatic
