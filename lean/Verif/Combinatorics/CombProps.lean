/-
C44, third part: `next_combination` steps to the lexicographic successor and visits every combination.
-/
import Verif.Combinatorics.PartProps
import Mathlib.Order.OrderDual

namespace Altruct.Combinatorics

variable {α : Type} [LinearOrder α]

/-! ### Specification -/

/-- `A` is a choice of `m` of the elements of `S`, in increasing order. -/
structure IsComb (S : List α) (m : Nat) (A : List α) : Prop where
  len : A.length = m
  sorted : A.Pairwise (· < ·)
  sub : ∀ x ∈ A, x ∈ S

/-- `l` holds the elements of `S`, the first `m` (the choice) in order, the others in order. -/
structure Split (S : List α) (m : Nat) (l : List α) : Prop where
  perm : l.Perm S
  left : (l.take m).Pairwise (· < ·)
  right : (l.drop m).Pairwise (· < ·)

/-! ### One choice -/

theorem scan_spec (c : α) : ∀ (L p G : List α), (∀ x ∈ L, ¬ c < x) → (∀ x ∈ G, c < x) →
    scan (p ++ (L ++ G)) c (L.length + G.length) p.length = some (p.length + L.length) := by
  intro L
  induction L with
  | nil =>
    intro p G _ hG
    cases G with
    | nil => simp [scan]
    | cons g G =>
      rw [List.nil_append, List.length_nil, List.length_cons,
        show 0 + (G.length + 1) = G.length + 1 by omega, scan, rd_mid]
      simp [hG g (by simp)]
  | cons x L ih =>
    intro p G hL hG
    rw [List.length_cons, show L.length + 1 + G.length = (L.length + G.length) + 1 by omega, List.cons_append,
      scan, rd_mid]
    simp only [Option.bind_eq_bind, Option.bind_some, if_neg (hL x (by simp))]
    have := ih (p ++ [x]) G (fun y hy => hL y (by simp [hy])) hG
    simp only [List.append_assoc, List.singleton_append, List.length_append, List.length_singleton] at this
    rw [this]
    congr 1
    omega

/-- An element smaller than those between `w` and it moves to `w + 1`. -/
theorem bubbleL_move {p : List α} {g x : α} {w : Nat} (hw : w = p.length) : ∀ (k : Nat) (M R : List α),
    M.length = k → (∀ y ∈ M, x < y) →
    bubbleL w (w + 1 + k) (p ++ g :: (M ++ x :: R)) = some (p ++ g :: x :: (M ++ R), w + 1) := by
  intro k
  induction k with
  | zero =>
    intro M R hM _
    rw [List.eq_nil_of_length_eq_zero hM, show w + 1 + 0 = w + 1 by omega, bubbleL, if_pos rfl]
    simp
  | succ k ih =>
    intro M R hM hlt
    rcases List.eq_nil_or_concat M with rfl | ⟨M, y, rfl⟩
    · simp at hM
    · rw [List.concat_eq_append] at *
      have hk : M.length = k := by simpa using hM
      have e : p ++ g :: (M ++ [y] ++ x :: R) = (p ++ g :: M) ++ y :: ([] ++ x :: R) := by simp
      have e2 : p ++ g :: (M ++ [y] ++ x :: R) = (p ++ g :: (M ++ [y])) ++ x :: R := by simp
      rw [show w + 1 + (k + 1) = (w + 1 + k) + 1 by omega, bubbleL, if_neg (by omega)]
      rw [e2, rd_mid' (by simp; omega), ← e2]
      simp only [Option.bind_eq_bind, Option.bind_some]
      rw [e, rd_mid' (by simp; omega)]
      simp only [Option.bind_some, if_pos (hlt y (by simp))]
      rw [swapAt_lr (p := p ++ g :: M) (q := []) (by simp; omega) (by simp; omega)]
      simp only [Option.bind_some]
      have := ih M (y :: R) hk (fun z hz => hlt z (by simp [hz]))
      simpa using this

/-- An element not smaller than its left neighbour stays. -/
theorem bubbleL_stay {p : List α} {y x : α} {R : List α} {w : Nat} (h : ¬ x < y) :
    bubbleL w (p.length + 1) (p ++ y :: x :: R) = some (p ++ y :: x :: R, p.length + 1) := by
  rw [bubbleL]
  by_cases hw : p.length = w
  · rw [if_pos hw]
  · have e : p ++ y :: x :: R = (p ++ [y]) ++ x :: R := by simp
    rw [if_neg hw, rd_mid, e, rd_mid' (by simp)]
    simp [h]

theorem bubbleR_stay {p : List α} {x : α} {R : List α} {k r : Nat} (hr : r = p.length) (hk : k = R.length)
    (h : ∀ y ∈ R, x < y) : bubbleR k r (p ++ x :: R) = some (p ++ x :: R) := by
  subst hk
  cases R with
  | nil => rfl
  | cons y R =>
    have e : p ++ x :: y :: R = (p ++ [x]) ++ y :: R := by simp
    rw [List.length_cons, bubbleR, rd_mid' hr, e, rd_mid' (by simp; omega)]
    simp [not_lt.mpr (le_of_lt (h y (by simp)))]

/-- Swap and bubble of a later round: the chosen `g` goes to `w`, the pool stays sorted. -/
theorem choose_later {Q L G : List α} {c g : α} (hL : ∀ x ∈ L, ¬ c < x) (hcg : c < g)
    (hs : (L ++ g :: G).Pairwise (· < ·)) :
    (do let l ← swapAt ((Q ++ [c]) ++ (L ++ g :: G)) (Q.length + 1) (Q.length + 1 + L.length)
        let p ← bubbleL (Q.length + 1) (Q.length + 1 + L.length) l
        bubbleR (p.1.length - 1 - p.2) p.2 p.1) = some ((Q ++ [c] ++ [g]) ++ (L ++ G)) := by
  obtain ⟨hL1, hG1, hLG⟩ := List.pairwise_append.mp hs
  obtain ⟨hg, hG2⟩ := List.pairwise_cons.mp hG1
  cases L with
  | nil =>
    rw [List.nil_append, List.length_nil, Nat.add_zero, swapAt_self (by simp)]
    simp only [Option.bind_eq_bind, Option.bind_some]
    have e : Q ++ [c] ++ g :: G = Q ++ c :: g :: G := by simp
    rw [e, bubbleL_stay (not_lt.mpr hcg.le)]
    simp only [Option.bind_some]
    rw [← e, bubbleR_stay (by simp) (by simp; omega) hg]
    simp
  | cons x L =>
    obtain ⟨hx, hL2⟩ := List.pairwise_cons.mp hL1
    rw [List.cons_append, swapAt_lr (p := Q ++ [c]) (q := L) (by simp) (by simp; omega)]
    simp only [Option.bind_eq_bind, Option.bind_some]
    have h1 := bubbleL_move (p := Q ++ [c]) (g := g) (x := x) (w := Q.length + 1) (by simp) L.length L G rfl hx
    rw [List.length_cons, show Q.length + 1 + (L.length + 1) = Q.length + 1 + 1 + L.length by omega, h1]
    simp only [Option.bind_some]
    have e : Q ++ [c] ++ g :: x :: (L ++ G) = (Q ++ [c] ++ [g]) ++ x :: (L ++ G) := by simp
    rw [e, bubbleR_stay (by simp) (by simp; omega)]
    · simp
    · intro y hy
      rcases List.mem_append.mp hy with hy | hy
      · exact hx y hy
      · exact hLG x (by simp) y (by simp [hy])

theorem pickLoop_later (cur : Nat) : ∀ (k : Nat) (Q L G : List α) (c : α),
    (∀ x ∈ L, ¬ c < x) → (∀ x ∈ G, c < x) → (L ++ G).Pairwise (· < ·) →
    pickLoop cur k Q.length (Q.length + 1) ((Q ++ [c]) ++ (L ++ G)) =
      if k ≤ G.length then some (true, (Q ++ [c]) ++ (G.take k ++ (L ++ G.drop k)))
      else some (false, sortFrom cur ((Q ++ [c]) ++ (G ++ L))) := by
  intro k
  induction k with
  | zero => intro Q L G c _ _ _; simp [pickLoop]
  | succ k ih =>
    intro Q L G c hL hG hs
    have h1 : (Q ++ [c] ++ (L ++ G)).length - (Q.length + 1) = L.length + G.length := by simp; omega
    have h2 : rd (Q ++ [c] ++ (L ++ G)) Q.length = some c := by
      rw [List.append_assoc, List.singleton_append, rd_mid]
    have h3 := scan_spec c L (Q ++ [c]) G hL hG
    rw [List.length_append (as := Q) (bs := [c]), List.length_singleton] at h3
    rw [pickLoop, h2]
    simp only [Option.bind_eq_bind, Option.bind_some]
    rw [h1, h3]
    simp only [Option.bind_some]
    cases G with
    | nil =>
      rw [if_neg (by simp; omega), if_neg (by simp)]
      simp
    | cons g G =>
      rw [if_pos (by simp; omega)]
      have hch := choose_later (Q := Q) hL (hG g (by simp)) hs
      obtain ⟨hL1, hG1, hLG⟩ := List.pairwise_append.mp hs
      obtain ⟨hg, hG2⟩ := List.pairwise_cons.mp hG1
      have hih := ih (Q ++ [c]) L G g (fun x hx => not_lt.mpr (hLG x hx g (by simp)).le) hg
        (List.pairwise_append.mpr ⟨hL1, hG2, fun x hx y hy => hLG x hx y (by simp [hy])⟩)
      rw [List.length_append (as := Q) (bs := [c]), List.length_singleton] at hih
      simp only [Option.bind_eq_bind] at hch
      rw [Option.bind_eq_some_iff] at hch
      obtain ⟨l1, e1, hch⟩ := hch
      rw [Option.bind_eq_some_iff] at hch
      obtain ⟨l2, e2, e3⟩ := hch
      rw [e1]
      simp only [Option.bind_some]
      rw [e2]
      simp only [Option.bind_some]
      rw [e3]
      simp only [Option.bind_some]
      rw [hih]
      by_cases hk : k ≤ G.length
      · rw [if_pos hk, if_pos (by simp; omega)]
        simp
      · rw [if_neg hk, if_neg (by simp; omega)]
        simp

theorem sortFrom_eq {P X Y : List α} (h : X.Perm Y) (hs : Y.Pairwise (· < ·)) :
    sortFrom P.length (P ++ X) = P ++ Y := by
  rw [sortFrom, List.take_left', List.drop_left' rfl]
  · congr 1
    apply List.Perm.eq_of_pairwise (le := (· ≤ ·)) (fun a b _ _ h1 h2 => le_antisymm h1 h2)
    · exact List.pairwise_insertionSort _ _
    · exact hs.imp (fun h => le_of_lt h)
    · exact (List.perm_insertionSort _ _).trans h
  · rfl

/-- The whole loop over `wr`, for the element `c` to be replaced. -/
theorem pickLoop_spec {P L G : List α} {c : α} (hs : (L ++ c :: G).Pairwise (· < ·)) {k : Nat} (hk : 0 < k) :
    pickLoop P.length k P.length P.length (P ++ c :: (L ++ G)) =
      if k ≤ G.length then some (true, P ++ (G.take k ++ (L ++ c :: G.drop k)))
      else some (false, P ++ (L ++ c :: G)) := by
  obtain ⟨hL1, hG1, hLG⟩ := List.pairwise_append.mp hs
  obtain ⟨hc, hG2⟩ := List.pairwise_cons.mp hG1
  obtain ⟨k, rfl⟩ : ∃ n, k = n + 1 := ⟨k - 1, by omega⟩
  have hL : ∀ x ∈ c :: L, ¬ c < x := by
    intro x hx
    rcases List.mem_cons.mp hx with rfl | hx
    · exact lt_irrefl _
    · exact not_lt.mpr (hLG x hx c (by simp)).le
  have h3 := scan_spec c (c :: L) P G hL hc
  have h1 : (P ++ c :: (L ++ G)).length - P.length = (c :: L).length + G.length := by simp; omega
  rw [pickLoop, rd_mid]
  simp only [Option.bind_eq_bind, Option.bind_some]
  rw [h1, ← List.cons_append, h3]
  simp only [Option.bind_some]
  cases G with
  | nil =>
    rw [if_neg (by simp), if_neg (by simp)]
    rw [sortFrom_eq (Y := L ++ [c]) ?_ hs]
    rw [List.append_nil]
    exact (List.perm_append_singleton c L).symm
  | cons g G =>
    rw [if_pos (by simp)]
    have hcg : c < g := hc g (by simp)
    obtain ⟨hg, hG3⟩ := List.pairwise_cons.mp hG2
    rw [List.cons_append, swapAt_lr (p := P) (q := L) rfl (by simp; omega)]
    simp only [Option.bind_some]
    have hb : bubbleL P.length (P.length + (c :: L).length) (P ++ g :: (L ++ c :: G)) =
        some (P ++ g :: (L ++ c :: G), P.length + (c :: L).length) := by
      rcases List.eq_nil_or_concat L with rfl | ⟨L, y, rfl⟩
      · exact bubbleL_move (M := []) (w := P.length) rfl 0 G rfl (by simp)
      · rw [List.concat_eq_append] at *
        have := bubbleL_stay (p := P ++ g :: L) (y := y) (x := c) (R := G) (w := P.length)
          (not_lt.mpr (hLG y (by simp) c (by simp)).le)
        have e : P ++ g :: (L ++ [y] ++ c :: G) = P ++ g :: L ++ y :: c :: G := by simp
        rw [e, show P.length + (c :: (L ++ [y])).length = (P ++ g :: L).length + 1 by simp; omega, this]
    rw [hb]
    simp only [Option.bind_some]
    have e : P ++ g :: (L ++ c :: G) = (P ++ g :: L) ++ c :: G := by simp
    rw [e, bubbleR_stay (by simp) (by simp; omega) (fun y hy => hcg.trans (hg y hy))]
    simp only [Option.bind_some]
    have := pickLoop_later P.length k P (L ++ [c]) G g (fun x hx => by
      rcases List.mem_append.mp hx with hx | hx
      · exact not_lt.mpr (hLG x hx g (by simp)).le
      · rw [List.mem_singleton.mp hx]; exact not_lt.mpr hcg.le) hg (by
      have h5 : (L ++ [c] ++ G).Sublist (L ++ c :: g :: G) := by simp
      exact hs.sublist h5)
    have e2 : P ++ g :: L ++ c :: G = P ++ [g] ++ (L ++ [c] ++ G) := by simp
    rw [e2, this]
    by_cases hk : k ≤ G.length
    · rw [if_pos hk, if_pos (by simp; omega)]
      simp
    · rw [if_neg hk, if_neg (by simp; omega), List.append_assoc, sortFrom_eq _ hs]
      rw [List.singleton_append, ← List.cons_append]
      refine List.perm_append_comm.trans ?_
      simp

/-! ### The loop over `cur` -/

theorem take_le : ∀ (G Y : List α), G.Pairwise (· < ·) → Y.Pairwise (· < ·) → (∀ y ∈ Y, y ∈ G) →
    Y.length ≤ G.length ∧ G.take Y.length ≤ Y := by
  intro G
  induction G with
  | nil =>
    intro Y _ _ h
    cases Y with
    | nil => simp
    | cons y Y => simpa using h y (by simp)
  | cons g G ih =>
    intro Y hG hY h
    cases Y with
    | nil => simp
    | cons y Y =>
      obtain ⟨g1, g2⟩ := List.pairwise_cons.mp hG
      obtain ⟨y1, y2⟩ := List.pairwise_cons.mp hY
      rcases List.mem_cons.mp (h y (by simp)) with rfl | hy
      · obtain ⟨h1, h2⟩ := ih Y g2 y2 (fun z hz => by
          rcases List.mem_cons.mp (h z (by simp [hz])) with rfl | h3
          · exact absurd (y1 z hz) (lt_irrefl _)
          · exact h3)
        refine ⟨by simpa using h1, ?_⟩
        rw [List.length_cons, List.take_succ_cons]
        rcases lt_or_eq_of_le h2 with h3 | h3
        · exact le_of_lt (List.Lex.cons h3)
        · rw [h3]
      · obtain ⟨h1, _⟩ := ih (y :: Y) g2 hY (fun z hz => by
          rcases List.mem_cons.mp (h z hz) with rfl | h3
          · exfalso
            rcases List.mem_cons.mp hz with rfl | h4
            · exact absurd (g1 _ hy) (lt_irrefl _)
            · exact absurd ((y1 z h4).trans (g1 y hy)) (lt_irrefl _)
          · exact h3)
        refine ⟨by simp at h1 ⊢; omega, ?_⟩
        rw [List.length_cons, List.take_succ_cons]
        exact le_of_lt (List.Lex.rel (g1 y hy))

theorem split_at {c : α} {W : List α} (hW : W.Pairwise (· < ·)) (hc : c ∉ W) :
    ∃ L G, W = L ++ G ∧ (L ++ c :: G).Pairwise (· < ·) := by
  induction W with
  | nil => exact ⟨[], [], rfl, by simp⟩
  | cons w W ih =>
    obtain ⟨h1, h2⟩ := List.pairwise_cons.mp hW
    rcases lt_trichotomy c w with h | h | h
    · exact ⟨[], w :: W, rfl, List.pairwise_cons.mpr ⟨fun x hx => by
        rcases List.mem_cons.mp hx with rfl | hx
        · exact h
        · exact h.trans (h1 x hx), hW⟩⟩
    · exact absurd (by simp [h]) hc
    · obtain ⟨L, G, e, h3⟩ := ih h2 (fun h' => hc (by simp [h']))
      refine ⟨w :: L, G, by rw [e]; rfl, ?_⟩
      rw [List.cons_append, List.pairwise_cons]
      refine ⟨fun x hx => ?_, h3⟩
      simp only [List.mem_append, List.mem_cons] at hx
      rcases hx with hx | rfl | hx
      · exact h1 x (by rw [e]; simp [hx])
      · exact h
      · exact h1 x (by rw [e]; simp [hx])

/-- The claim for the result `r` of a call on a split with choice `A`. -/
def CombStep (S : List α) (m : Nat) (A : List α) (r : Bool × List α) : Prop :=
  Split S m r.2 ∧
  (r.1 = true → A < r.2.take m ∧ ∀ X, IsComb S m X → A < X → r.2.take m ≤ X) ∧
  (r.1 = false → r.2.Pairwise (· < ·) ∧ ∀ X, IsComb S m X → X ≤ A ∧ r.2.take m ≤ X)

theorem combLoop_spec {S : List α} {m : Nat} (hS : S.Nodup) {A : List α} (hA : IsComb S m A) :
    ∀ (i : Nat) (P R W : List α), A = P ++ R → P.length = i → (P ++ W).Perm S → W.Pairwise (· < ·) →
      (∀ Y, IsComb S m (P ++ Y) → ¬ R < Y) →
      ∃ r, combLoop m i (P ++ W) = some r ∧ CombStep S m A r := by
  intro i
  induction i with
  | zero =>
    intro P R W e hP hperm hW hmax
    have := List.eq_nil_of_length_eq_zero hP
    subst this
    have e : A = R := e
    subst e
    simp only [List.nil_append] at hperm hmax ⊢
    refine ⟨_, rfl, ⟨hperm, hW.sublist (List.take_sublist _ _), hW.sublist (List.drop_sublist _ _)⟩,
      by simp, fun _ => ⟨hW, fun X hX => ⟨not_lt.mp (hmax X hX), ?_⟩⟩⟩
    have := (take_le W X hW hX.sorted (fun y hy => hperm.mem_iff.mpr (hX.sub y hy))).2
    rwa [hX.len] at this
  | succ i ih =>
    intro P R W e hP hperm hW hmax
    rcases List.eq_nil_or_concat P with rfl | ⟨P, c, rfl⟩
    · simp at hP
    rw [List.concat_eq_append] at *
    have hi : P.length = i := by simpa using hP
    have e : A = P ++ c :: R := by simpa using e
    have hperm : (P ++ c :: W).Perm S := by simpa using hperm
    have hnd : (P ++ c :: W).Nodup := hperm.nodup_iff.mpr hS
    have hcW : c ∉ W := by
      have := (List.nodup_append.mp hnd).2.1
      exact (List.nodup_cons.mp this).1
    obtain ⟨L, G, rfl, hs⟩ := split_at hW hcW
    obtain ⟨hL1, hG1, hLG⟩ := List.pairwise_append.mp hs
    obtain ⟨hc, hG2⟩ := List.pairwise_cons.mp hG1
    have hAs : (P ++ c :: R).Pairwise (· < ·) := by rw [← e]; exact hA.sorted
    obtain ⟨hPs, _, hPR⟩ := List.pairwise_append.mp hAs
    have hlen : P.length + (R.length + 1) = m := by rw [← hA.len, e]; simp
    rw [combLoop, List.append_assoc, List.singleton_append]
    have hpk := pickLoop_spec (P := P) hs (k := m - i) (by omega)
    rw [hi] at hpk
    rw [hpk]
    -- a larger choice with the same prefix is taken from `G`
    have large : ∀ Y, IsComb S m (P ++ Y) → c :: R < Y → (∀ y ∈ Y, y ∈ G) ∧ Y.Pairwise (· < ·) ∧
        Y.length = m - i := by
      intro Y hY hlt
      have hYl : Y.length = m - i := by
        have := hY.len; rw [List.length_append] at this; omega
      obtain ⟨_, hYs, _⟩ := List.pairwise_append.mp hY.sorted
      refine ⟨?_, hYs, hYl⟩
      cases Y with
      | nil => simp at hYl; omega
      | cons y Y =>
        obtain ⟨hy1, hy2⟩ := List.pairwise_cons.mp hYs
        rcases List.cons_lt_cons_iff.mp hlt with h1 | ⟨rfl, h1⟩
        · intro z hz
          have hcz : c < z := by
            rcases List.mem_cons.mp hz with rfl | hz
            · exact h1
            · exact h1.trans (hy1 z hz)
          have hzS := hperm.mem_iff.mpr (hY.sub z (by simp at hz ⊢; tauto))
          simp only [List.mem_append, List.mem_cons] at hzS
          rcases hzS with h3 | rfl | h3 | h3
          · exact absurd ((hPR z h3 c (by simp)).trans hcz) (lt_irrefl _)
          · exact absurd hcz (lt_irrefl _)
          · exact absurd ((hLG z h3 c (by simp)).trans hcz) (lt_irrefl _)
          · exact h3
        · exact absurd h1 (hmax Y (by simpa using hY))
    by_cases hk : m - i ≤ G.length
    · rw [if_pos hk]
      simp only [Option.bind_eq_bind, Option.bind_some, if_true]
      have htl : (P ++ G.take (m - i)).length = m := by
        rw [List.length_append, List.length_take]; omega
      have et : (P ++ (G.take (m - i) ++ (L ++ c :: G.drop (m - i)))).take m = P ++ G.take (m - i) := by
        rw [← List.append_assoc, List.take_left' htl]
      have ed : (P ++ (G.take (m - i) ++ (L ++ c :: G.drop (m - i)))).drop m = L ++ c :: G.drop (m - i) := by
        rw [← List.append_assoc, List.drop_left' htl]
      have hg0 : ∀ s, c :: s < G.take (m - i) := by
        intro s
        cases G with
        | nil => simp at hk; omega
        | cons g G =>
          obtain ⟨k, hk'⟩ : ∃ k, m - i = k + 1 := ⟨m - i - 1, by omega⟩
          rw [hk', List.take_succ_cons]
          exact List.Lex.rel (hc g (by simp))
      refine ⟨_, rfl, ⟨?_, ?_, ?_⟩, fun _ => ⟨?_, ?_⟩, fun h => by simp at h⟩
      · simp only
        refine List.Perm.trans ?_ hperm
        refine List.Perm.append_left P ?_
        have h1 : (G.take (m - i) ++ (L ++ c :: G.drop (m - i))).Perm
            (L ++ c :: (G.take (m - i) ++ G.drop (m - i))) := by
          rw [← List.append_assoc]
          refine (List.perm_append_comm.append_right _).trans ?_
          rw [List.append_assoc]
          refine List.Perm.append_left L ?_
          exact List.perm_middle
        rw [List.take_append_drop] at h1
        exact h1.trans List.perm_middle
      · simp only
        rw [et, List.pairwise_append]
        exact ⟨hPs, hG2.sublist (List.take_sublist _ _), fun x hx y hy =>
          (hPR x hx c (by simp)).trans (hc y (List.mem_of_mem_take hy))⟩
      · simp only
        rw [ed]
        refine hs.sublist (List.Sublist.append_left (List.Sublist.cons_cons _ (List.drop_sublist _ _)) _)
      · simp only
        rw [et, e]
        exact append_lt_append P (hg0 R)
      · intro X hX hlt
        simp only
        rw [et]
        rw [e] at hlt
        rcases append_lt P X (c :: R) (by rw [hX.len]; simp; omega) hlt with ⟨Y, rfl, h4⟩ | h4
        · obtain ⟨s1, s2, s3⟩ := large Y hX h4
          have := (take_le G Y hG2 s2 s1).2
          rw [s3] at this
          rcases lt_or_eq_of_le this with h5 | h5
          · exact le_of_lt (append_lt_append P h5)
          · rw [h5]
        · exact le_of_lt (h4 _)
    · rw [if_neg hk]
      simp only [Option.bind_eq_bind, Option.bind_some]
      rw [if_neg (by simp)]
      apply ih P (c :: R) (L ++ c :: G) e hi ?_ hs
      · intro Y hY hlt
        obtain ⟨s1, s2, s3⟩ := large Y hY hlt
        have := (take_le G Y hG2 s2 s1).1
        omega
      · refine List.Perm.trans (List.Perm.append_left P ?_) hperm
        exact List.perm_middle

/-! ### The claims -/

/-- A call on distinct elements, both parts sorted, is defined and keeps this form. It gives the least larger
choice and `true`, or, after the last choice, the sorted elements (the first choice) and `false`. -/
theorem C44_next_combination {S l : List α} {m : Nat} (hS : S.Nodup) (hm : m ≤ S.length) (hl : Split S m l) :
    ∃ b l', nextCombination l m = some (b, l') ∧ Split S m l' ∧
      (b = true → l.take m < l'.take m ∧ ∀ X, IsComb S m X → l.take m < X → l'.take m ≤ X) ∧
      (b = false → l'.Pairwise (· < ·) ∧ ∀ X, IsComb S m X → X ≤ l.take m ∧ l'.take m ≤ X) := by
  have hlen : l.length = S.length := hl.perm.length_eq
  have hA : IsComb S m (l.take m) :=
    ⟨by rw [List.length_take]; omega, hl.left, fun x hx => hl.perm.mem_iff.mp (List.mem_of_mem_take hx)⟩
  obtain ⟨⟨b, l'⟩, h1, h2⟩ := combLoop_spec hS hA m (l.take m) [] (l.drop m) (by simp) hA.len
    (by rw [List.take_append_drop]; exact hl.perm) hl.right (fun Y hY => by
      have h3 := hY.len
      rw [List.length_append, hA.len] at h3
      have : Y = [] := List.eq_nil_of_length_eq_zero (by omega)
      rw [this]
      exact lt_irrefl _)
  rw [List.take_append_drop] at h1
  exact ⟨b, l', h1, h2⟩

/-- The choice determines the arrangement. -/
theorem Split.ext {S l l' : List α} {m : Nat} (h : Split S m l) (h' : Split S m l')
    (e : l.take m = l'.take m) : l = l' := by
  have hp : (l.take m ++ l.drop m).Perm (l.take m ++ l'.drop m) := by
    rw [List.take_append_drop, e, List.take_append_drop]
    exact h.perm.trans h'.perm.symm
  have hd : l.drop m = l'.drop m := List.Perm.eq_of_pairwise (le := (· < ·))
    (fun a b _ _ h1 h2 => absurd (h1.trans h2) (lt_irrefl _)) h.right h'.right
    ((List.perm_append_left_iff _).mp hp)
  rw [← List.take_append_drop m l, ← List.take_append_drop m l', e, hd]

/-- Repeated calls, starting from the sorted elements, visit every choice. -/
theorem C44_combinations_visited {S l : List α} {m : Nat} (hS : S.Pairwise (· < ·)) (hm : m ≤ S.length)
    (hl : Split S m l) :
    Relation.ReflTransGen (fun p p' => nextCombination p m = some (true, p')) S l := by
  have hnd : S.Nodup := hS.imp (fun h => ne_of_lt h)
  -- comparing arrangements is comparing choices
  have hcmp : ∀ p q, Split S m p → Split S m q → (p < q ↔ p.take m < q.take m) := by
    intro p q hp hq
    have hpl : (p.take m).length = m := by rw [List.length_take, hp.perm.length_eq]; omega
    have hql : (q.take m).length = m := by rw [List.length_take, hq.perm.length_eq]; omega
    have one : ∀ p q, Split S m p → Split S m q → p.take m < q.take m → p < q := by
      intro p q hp hq h
      have hpl : (p.take m).length = m := by rw [List.length_take, hp.perm.length_eq]; omega
      have hql : (q.take m).length = m := by rw [List.length_take, hq.perm.length_eq]; omega
      have h2 : (p.take m) ++ [] < q.take m := by simpa using h
      have gen : ∀ a b : List α, a.length = b.length → a < b → ∀ s t, a ++ s < b ++ t := by
        intro a
        induction a with
        | nil => intro b hab h; rw [List.eq_nil_of_length_eq_zero hab.symm] at h; exact absurd h (lt_irrefl _)
        | cons x a iha =>
          intro b hab h s t
          cases b with
          | nil => simp at hab
          | cons y b =>
            rcases List.cons_lt_cons_iff.mp h with h1 | ⟨rfl, h1⟩
            · exact List.Lex.rel h1
            · exact List.Lex.cons (iha b (by simpa using hab) h1 s t)
      have := gen (p.take m) (q.take m) (by rw [hpl, hql]) h (p.drop m) (q.drop m)
      rwa [List.take_append_drop, List.take_append_drop] at this
    constructor
    · intro h
      rcases lt_trichotomy (p.take m) (q.take m) with h1 | h1 | h1
      · exact h1
      · rw [hp.ext hq h1] at h; exact absurd h (lt_irrefl _)
      · exact absurd (h.trans (one q p hq hp h1)) (lt_irrefl _)
    · exact one p q hp hq
  have comb : ∀ q, Split S m q → IsComb S m (q.take m) := fun q hq =>
    ⟨by rw [List.length_take, hq.perm.length_eq]; omega, hq.left,
      fun x hx => hq.perm.mem_iff.mp (List.mem_of_mem_take hx)⟩
  have hfin : {p : (List α)ᵒᵈ | Split S m (OrderDual.ofDual p)}.Finite := by
    have := finite_lists (S := {x | x ∈ S}) (List.finite_toSet S) S.length
    exact this.subset (fun p hp => ⟨hp.perm.length_eq, fun x hx => hp.perm.mem_iff.mp hx⟩)
  have hfirst : Split S m S :=
    ⟨List.Perm.refl _, hS.sublist (List.take_sublist _ _), hS.sublist (List.drop_sublist _ _)⟩
  have htop : ∀ q, Split S m q → S ≤ q := by
    intro q hq
    rw [← not_lt, hcmp q S hq hfirst, not_lt]
    have := (take_le S (q.take m) hS hq.left (comb q hq).sub).2
    rwa [(comb q hq).len] at this
  have := chain_reaches (β := (List α)ᵒᵈ) hfin
    (R := fun p p' => nextCombination (OrderDual.ofDual p) m = some (true, OrderDual.ofDual p'))
    (top := OrderDual.toDual S) hfirst (fun q hq => htop _ hq) (by
      rintro p hp ⟨q, hq, hlt⟩
      have hp : Split S m (OrderDual.ofDual p) := hp
      have hq : Split S m (OrderDual.ofDual q) := hq
      have hlt : OrderDual.ofDual p < OrderDual.ofDual q := hlt
      obtain ⟨b, p', e, h1, h2, h3⟩ := C44_next_combination hnd hm hp
      cases b with
      | false =>
        exact absurd ((hcmp _ _ hp hq).mp hlt) (not_lt.mpr ((h3 rfl).2 _ (comb _ hq)).1)
      | true =>
        refine ⟨OrderDual.toDual p', h1, e, (hcmp _ _ hp h1).mpr (h2 rfl).1, fun q' hq' hlt' => ?_⟩
        have hq' : Split S m (OrderDual.ofDual q') := hq'
        have hlt' : OrderDual.ofDual p < OrderDual.ofDual q' := hlt'
        show p' ≤ OrderDual.ofDual q'
        rw [← not_lt, hcmp _ _ hq' h1, not_lt]
        exact (h2 rfl).2 _ (comb _ hq') ((hcmp _ _ hp hq').mp hlt'))
    (OrderDual.toDual l) hl
  exact this

example : Split [1, 2, 3, 4, 5] 3 [1, 4, 5, 2, 3] :=
  ⟨by decide, by decide, by decide⟩
example : nextCombination [1, 4, 5, 2, 3] 3 = some (true, [2, 3, 4, 1, 5]) := by decide +kernel
example : nextCombination [3, 4, 5, 1, 2] 3 = some (false, [1, 2, 3, 4, 5]) := by decide +kernel

/-- Equal elements are not supported: from the choice `1, 2` out of `1, 1, 2, 2` the call reports the end,
although `2, 2` has not been visited. -/
example : nextCombination [1, 2, 1, 2] 2 = some (false, [1, 1, 2, 2]) := by decide +kernel

end Altruct.Combinatorics
