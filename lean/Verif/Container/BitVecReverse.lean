/-
C22: `reverse`, `swap`, `rotate_left`, `rotate_right` of ranges of a `bit_vector`.
-/
import Verif.Container.BitVecProps

namespace Altruct.BitVector

variable {L : Nat}

theorem reverse_bit (x : BitVec L) (k : Nat) (hk : k < L) : x.reverse.getLsbD k = x.getLsbD (L - 1 - k) := by
  rw [BitVec.getLsbD_reverse, BitVec.getMsbD]; simp [hk]

section
variable {rev : BitVec L → Option (BitVec L)} (hrev : ∀ x, rev x = some x.reverse)
include hrev

theorem revBwd_spec {ws0 : List (BitVec L)} {l : Nat} (hl : l < L) (n i : Nat) (ws : List (BitVec L))
    (hlen : ws.length = ws0.length) (hn : n ≤ i) (hi : i < ws0.length)
    (hag : ∀ j, j ≤ i → ∀ k, wbit ws j k = wbit ws0 j k) :
    ∃ ws', revBwd rev l n i ws = some ws' ∧ ws'.length = ws0.length ∧
      ∀ j k, k < L → wbit ws' j k =
        if i < j + n ∧ j ≤ i then bits ws0 (L * j + l - 1 - k) else wbit ws j k := by
  induction n generalizing i ws with
  | zero => exact ⟨ws, rfl, hlen, fun j k _ => by rw [if_neg (by omega)]⟩
  | succ n ih =>
    obtain ⟨x, hx, hxb⟩ := wordAt_spec (ws := ws) (i := i - 1) hl (by omega) (by omega)
    obtain ⟨h1, h2, h3⟩ := wr_some (ws := ws) (i := i) (by omega) x.reverse
    obtain ⟨ws', e, l', s⟩ := ih (i - 1) (ws.set i x.reverse) (by rw [h2, hlen]) (by omega) (by omega)
      (fun j hj k => by rw [h3, if_neg (by omega), hag j (by omega)])
    refine ⟨ws', ?_, l', fun j k hk => ?_⟩
    · rw [revBwd, hx]
      simp only [Option.bind_eq_bind, Option.bind_some, hrev, h1]
      exact e
    · rw [s j k hk, h3]
      by_cases hji : j = i
      · subst hji
        rw [if_neg (by omega), if_pos rfl, if_pos (by omega), reverse_bit _ _ hk, hxb _ (by omega)]
        have hL1 : L * (j - 1) + L = L * j := by
          rw [← Nat.mul_succ]; congr 1; omega
        rw [show L * (j - 1) + l + (L - 1 - k) = L * j + l - 1 - k by omega]
        obtain ⟨a, c, hc, hac⟩ := exists_word (show 0 < L by omega) (L * j + l - 1 - k)
        rw [hac, bits_eq _ _ _ hc, bits_eq _ _ _ hc]
        apply hag
        by_contra hgt
        have : L * (j + 1) ≤ L * a := Nat.mul_le_mul_left _ (by omega)
        rw [Nat.mul_succ] at this
        omega
      · rw [if_neg hji]
        by_cases hr : i - 1 < j + n ∧ j ≤ i - 1
        · rw [if_pos hr, if_pos (by omega)]
        · rw [if_neg hr, if_neg (by omega)]

theorem revFwd_spec {ws0 : List (BitVec L)} {l : Nat} (hL : 0 < L) (hl : L ≤ l) (hl2 : l - L < L)
    (n i : Nat) (ws : List (BitVec L))
    (hlen : ws.length = ws0.length) (hi : i + n < ws0.length)
    (hag : ∀ j, i ≤ j → ∀ k, wbit ws j k = wbit ws0 j k) :
    ∃ ws', revFwd rev l n i ws = some ws' ∧ ws'.length = ws0.length ∧
      ∀ j k, k < L → wbit ws' j k =
        if i ≤ j ∧ j < i + n then bits ws0 (L * j + l - 1 - k) else wbit ws j k := by
  induction n generalizing i ws with
  | zero => exact ⟨ws, rfl, hlen, fun j k _ => by rw [if_neg (by omega)]⟩
  | succ n ih =>
    obtain ⟨x, hx, hxb⟩ := wordAt_spec (ws := ws) (i := i) hl2 (by omega) (by omega)
    obtain ⟨h1, h2, h3⟩ := wr_some (ws := ws) (i := i) (by omega) x.reverse
    obtain ⟨ws', e, l', s⟩ := ih (i + 1) (ws.set i x.reverse) (by rw [h2, hlen]) (by omega)
      (fun j hj k => by rw [h3, if_neg (by omega), hag j (by omega)])
    refine ⟨ws', ?_, l', fun j k hk => ?_⟩
    · rw [revFwd, hx]
      simp only [Option.bind_eq_bind, Option.bind_some, hrev, h1]
      exact e
    · rw [s j k hk, h3]
      by_cases hji : j = i
      · subst hji
        rw [if_neg (by omega), if_pos rfl, if_pos (by omega), reverse_bit _ _ hk, hxb _ (by omega)]
        rw [show L * j + (l - L) + (L - 1 - k) = L * j + l - 1 - k by omega]
        obtain ⟨a, c, hc, hac⟩ := exists_word hL (L * j + l - 1 - k)
        rw [hac, bits_eq _ _ _ hc, bits_eq _ _ _ hc]
        apply hag
        by_contra hgt
        have : L * (a + 1) ≤ L * j := Nat.mul_le_mul_left _ (by omega)
        rw [Nat.mul_succ] at this
        omega
      · rw [if_neg hji]
        by_cases hr : i + 1 ≤ j ∧ j < i + 1 + n
        · rw [if_pos hr, if_pos (by omega)]
        · rw [if_neg hr, if_neg (by omega)]

end

theorem swapLoop_spec (i j : Nat) (ws : List (BitVec L)) (hj : i < j → j < ws.length) :
    ∃ ws', swapLoop i j ws = some ws' ∧ ws'.length = ws.length ∧
      ∀ t k, wbit ws' t k = if i ≤ t ∧ t ≤ j then wbit ws (i + j - t) k else wbit ws t k := by
  fun_induction swapLoop i j ws with
  | case1 i j ws hlt ih =>
    have hjl := hj hlt
    obtain ⟨a, ha, hab⟩ := rd_some (ws := ws) (i := i) (by omega)
    obtain ⟨b, hb, hbb⟩ := rd_some hjl
    obtain ⟨h1, h2, h3⟩ := wr_some (ws := ws) (i := i) (by omega) b
    obtain ⟨h4, h5, h6⟩ := wr_some (ws := ws.set i b) (i := j) (by omega) a
    obtain ⟨ws', e, l, s⟩ := ih ((ws.set i b).set j a) (by omega)
    refine ⟨ws', ?_, by omega, fun t k => ?_⟩
    · simp only [ha, hb, Option.bind_eq_bind, Option.bind_some, h1, h4]
      exact e
    · rw [s]
      by_cases hr : i + 1 ≤ t ∧ t ≤ j - 1
      · rw [if_pos hr, if_pos (by omega), h6, if_neg (by omega), h3, if_neg (by omega)]
        congr 1; omega
      · rw [if_neg hr, h6, h3]
        by_cases hti : t = i
        · subst hti
          rw [if_neg (by omega), if_pos rfl, if_pos (by omega), hbb]
          congr 1; omega
        · by_cases htj : t = j
          · subst htj
            rw [if_pos rfl, if_pos (by omega), hab]
            congr 1; omega
          · rw [if_neg htj, if_neg hti, if_neg (by omega)]
  | case2 i j ws hlt =>
    refine ⟨ws, rfl, rfl, fun t k => ?_⟩
    by_cases hr : i ≤ t ∧ t ≤ j
    · rw [if_pos hr]; congr 1; omega
    · rw [if_neg hr]

section
variable {rev : BitVec L → Option (BitVec L)} (hrev : ∀ x, rev x = some x.reverse)
include hrev

theorem revLoops_spec {ws0 : List (BitVec L)} {ib ie lb le : Nat} (hlb : lb < L) (hle : le < L)
    (hlt : ib < ie) (hie : ie < ws0.length) :
    ∃ ws1 ws', (lb + le < L → revBwd rev (lb + le) (ie - 1 - ib) (ie - 1) ws0 = some ws1) ∧
        (¬ lb + le < L → revFwd rev (lb + le) (ie - 1 - ib) (ib + 1) ws0 = some ws1) ∧
        swapLoop (ib + 1) (ie - 1) ws1 = some ws' ∧ ws'.length = ws0.length ∧
      ∀ j k, k < L → wbit ws' j k =
        if ib < j ∧ j < ie then bits ws0 (L * (ib + ie - j) + (lb + le) - 1 - k) else wbit ws0 j k := by
  have key : ∃ ws1, (if lb + le < L then revBwd rev (lb + le) (ie - 1 - ib) (ie - 1) ws0
          else revFwd rev (lb + le) (ie - 1 - ib) (ib + 1) ws0) = some ws1 ∧ ws1.length = ws0.length ∧
      ∀ j k, k < L → wbit ws1 j k =
        if ib < j ∧ j < ie then bits ws0 (L * j + (lb + le) - 1 - k) else wbit ws0 j k := by
    by_cases hl : lb + le < L
    · obtain ⟨ws1, e, l, s⟩ := revBwd_spec hrev (ws0 := ws0) hl (ie - 1 - ib) (ie - 1) ws0 rfl (by omega)
        (by omega) (fun _ _ _ => rfl)
      refine ⟨ws1, by rw [if_pos hl, e], l, fun j k hk => ?_⟩
      rw [s j k hk]
      by_cases hr : ib < j ∧ j < ie
      · rw [if_pos hr, if_pos (by omega)]
      · rw [if_neg hr, if_neg (by omega)]
    · obtain ⟨ws1, e, l, s⟩ := revFwd_spec hrev (ws0 := ws0) (l := lb + le) (by omega) (by omega) (by omega)
        (ie - 1 - ib) (ib + 1) ws0 rfl (by omega) (fun _ _ _ => rfl)
      refine ⟨ws1, by rw [if_neg hl, e], l, fun j k hk => ?_⟩
      rw [s j k hk]
      by_cases hr : ib < j ∧ j < ie
      · rw [if_pos hr, if_pos (by omega)]
      · rw [if_neg hr, if_neg (by omega)]
  obtain ⟨ws1, e1, l1, s1⟩ := key
  obtain ⟨ws2, e2, l2, s2⟩ := swapLoop_spec (ib + 1) (ie - 1) ws1 (by omega)
  refine ⟨ws1, ws2, fun hl => by rwa [if_pos hl] at e1, fun hl => by rwa [if_neg hl] at e1, e2, by omega,
    fun j k hk => ?_⟩
  · rw [s2]
    by_cases hr : ib < j ∧ j < ie
    · rw [if_pos hr, if_pos (by omega), s1 _ _ hk, if_pos (by omega),
        show ib + 1 + (ie - 1) - j = ib + ie - j by omega]
    · rw [if_neg hr, if_neg (by omega), s1 _ _ hk, if_neg hr]

theorem reverse_spec {ws : List (BitVec L)} {b e : Nat} (hL : 0 < L) (hie : e / L < ws.length)
    (hie2 : e % L ≠ 0 → e / L + 1 < ws.length) :
    ∃ ws', reverse rev ws b e = some ws' ∧ ws'.length = ws.length ∧
      ∀ p, bits ws' p = if b ≤ p ∧ p < e then bits ws (b + e - 1 - p) else bits ws p := by
  by_cases hbe : e ≤ b
  · exact ⟨ws, by rw [reverse, if_pos hbe], rfl, fun p => by rw [if_neg (by omega)]⟩
  push Not at hbe
  have hib : b / L ≤ e / L := Nat.div_le_div_right hbe.le
  have hlb := Nat.mod_lt b hL
  have hle := Nat.mod_lt e hL
  have hbd := Nat.div_add_mod b L
  have hed := Nat.div_add_mod e L
  obtain ⟨ib, hibd⟩ : ∃ x, x = b / L := ⟨_, rfl⟩
  obtain ⟨ie, hied⟩ : ∃ x, x = e / L := ⟨_, rfl⟩
  obtain ⟨lb, hlbd⟩ : ∃ x, x = b % L := ⟨_, rfl⟩
  obtain ⟨le, hled⟩ : ∃ x, x = e % L := ⟨_, rfl⟩
  rw [reverse, if_neg (by omega)]
  have hrng : ∀ j k, k < L → ((b ≤ L * j + k ∧ L * j + k < e) ↔
      (ib < j ∨ ib = j ∧ lb ≤ k) ∧ (j < ie ∨ j = ie ∧ k < le)) := by
    intro j k hk
    have h1 := lex_le (L := L) (i := ib) (k := lb) (j := j) (l := k) (by omega) hk
    have h2 := lex_lt (L := L) (i := j) (k := k) (j := ie) (l := le) hk (by omega)
    rw [hibd, hlbd, hbd] at h1
    rw [hied, hled, hed] at h2
    rw [h1, h2, hibd, hlbd, hied, hled]
  rw [← hibd, ← hied, ← hlbd, ← hled]
  rw [← hibd, ← hlbd] at hbd
  rw [← hied, ← hled] at hed
  rw [← hied] at hie hie2
  rw [← hled] at hie2
  rw [← hibd, ← hied] at hib
  rw [← hlbd] at hlb
  rw [← hled] at hle
  obtain ⟨w2, hw2, hw2b⟩ := rd_some hie
  -- the last word
  have hbcov : b / L < ws.length ∧ (b % L ≠ 0 → b / L + 1 < ws.length) := by
    rw [← hibd, ← hlbd]
    refine ⟨by omega, fun h0 => ?_⟩
    by_cases hlt : ib < ie
    · omega
    · have : ib = ie := by omega
      subst this
      have : le ≠ 0 := by omega
      have := hie2 this
      omega
  obtain ⟨x, hx, hxb⟩ := wordAtPos_spec hL hbcov.1 hbcov.2
  by_cases hs : ib = ie
  · subst hs
    have hlt : lb < le := by omega
    have hle0 : le ≠ 0 := by omega
    obtain ⟨h1, h2, h3⟩ := wr_some hie ((w2 &&& ~~~(BitVec.allOnes L <<< lb &&& firstBits L le)) |||
      ((x.reverse >>> (L - le)) &&& (BitVec.allOnes L <<< lb &&& firstBits L le)))
    refine ⟨_, ?_, h2, fun p => ?_⟩
    · simp only [hw2, Option.bind_eq_bind, Option.bind_some, if_true, hle0, ne_eq, not_false_eq_true, hx, hrev]
      exact h1
    · obtain ⟨j, k, hk, rfl⟩ := exists_word hL p
      rw [bits_eq _ _ _ hk, bits_eq _ _ _ hk, h3]
      by_cases hj : j = ib
      · subst hj
        rw [if_pos rfl, mix_bit _ _ _ _ hk, BitVec.getLsbD_and, mask_bit _ _ hk, firstBits_bit _ _ hle]
        by_cases hr : lb ≤ k ∧ k < le
        · rw [if_pos ((hrng j k hk).mpr (by omega))]
          simp only [hr.1, hr.2, decide_true, Bool.and_self, if_true]
          rw [BitVec.getLsbD_ushiftRight, reverse_bit _ _ (by omega), hxb _ (by omega)]
          congr 1; omega
        · have hm : ¬ ((decide (lb ≤ k) && decide (k < le)) = true) := by
            simp only [Bool.and_eq_true, decide_eq_true_eq]; exact hr
          rw [if_neg hm, if_neg (by rw [hrng j k hk]; omega), hw2b]
      · rw [if_neg hj, if_neg (by rw [hrng j k hk]; omega)]
  · have hlt : ib < ie := by omega
    have hLe : L ≤ e := by
      have : L * 1 ≤ L * ie := Nat.mul_le_mul_left _ (by omega)
      omega
    obtain ⟨w, hw, hwb⟩ := rd_some (ws := ws) (i := ib) (by omega)
    have hqcov : (e - (L - lb)) / L < ws.length ∧
        ((e - (L - lb)) % L ≠ 0 → (e - (L - lb)) / L + 1 < ws.length) := by
      have hq : (e - (L - lb)) / L ≤ ie := by rw [hied]; exact Nat.div_le_div_right (by omega)
      refine ⟨by omega, fun _ => ?_⟩
      by_cases hq2 : (e - (L - lb)) / L = ie
      · have := Nat.div_add_mod (e - (L - lb)) L
        rw [hq2] at this ⊢
        exact hie2 (by omega)
      · omega
    obtain ⟨y, hy, hyb⟩ := wordAtPos_spec hL hqcov.1 hqcov.2
    obtain ⟨we, hwe, hweb⟩ : ∃ we, (if le ≠ 0 then
          some ((w2 &&& ~~~(firstBits L le)) ||| ((x.reverse >>> (L - le)) &&& firstBits L le))
        else some (w2 &&& ~~~(firstBits L le))) = some we ∧
        ∀ k, k < L → we.getLsbD k = if k < le then bits ws (b + (le - 1 - k)) else wbit ws ie k := by
      by_cases h0 : le = 0
      · refine ⟨_, by rw [if_neg (by omega)], fun k hk => ?_⟩
        rw [if_neg (by omega), BitVec.getLsbD_and, BitVec.getLsbD_not, firstBits_bit _ _ hle, hw2b]
        simp [hk, h0]
      · refine ⟨_, by rw [if_pos h0], fun k hk => ?_⟩
        rw [mix_bit _ _ _ _ hk, firstBits_bit _ _ hle]
        by_cases hkl : k < le
        · simp only [hkl, decide_true, if_true]
          rw [BitVec.getLsbD_ushiftRight, reverse_bit _ _ (by omega), hxb _ (by omega)]
          congr 1; omega
        · simp only [hkl, decide_false, Bool.false_eq_true, if_false]
          exact hw2b k
    obtain ⟨ws0, ws1, e1, e2, e3, l1, s1⟩ := revLoops_spec hrev (ws0 := ws) hlb hle hlt hie
    obtain ⟨h1, h2, h3⟩ := wr_some (ws := ws1) (i := ib) (by omega)
      ((w &&& ~~~(BitVec.allOnes L <<< lb)) ||| (y.reverse &&& (BitVec.allOnes L <<< lb)))
    obtain ⟨h4, h5, h6⟩ := wr_some (ws := ws1.set ib
      ((w &&& ~~~(BitVec.allOnes L <<< lb)) ||| (y.reverse &&& (BitVec.allOnes L <<< lb))))
      (i := ie) (by omega) we
    refine ⟨_, ?_, by rw [h5, h2, l1], fun p => ?_⟩
    · simp only [hw2, hw, Option.bind_eq_bind, Option.bind_some, hs, if_false, hx, hy, hrev]
      by_cases h0 : le = 0
      · simp only [h0, ne_eq, not_true_eq_false, if_false, Option.some.injEq] at hwe e1 e2 ⊢
        by_cases hl : lb + 0 < L
        · simp only [hl, if_true, e1 hl, e3, Option.bind_some, hwe]
          rw [h1]
          exact h4
        · simp only [hl, if_false, e2 hl, e3, Option.bind_some, hwe]
          rw [h1]
          exact h4
      · simp only [h0, ne_eq, not_false_eq_true, if_true, Option.some.injEq] at hwe ⊢
        by_cases hl : lb + le < L
        · simp only [hl, if_true, e1 hl, e3, Option.bind_some, hwe]
          rw [h1]
          exact h4
        · simp only [hl, if_false, e2 hl, e3, Option.bind_some, hwe]
          rw [h1]
          exact h4
    · obtain ⟨j, k, hk, rfl⟩ := exists_word hL p
      rw [bits_eq _ _ _ hk, bits_eq _ _ _ hk, h6]
      by_cases hj : j = ie
      · subst hj
        rw [if_pos rfl, hweb k hk]
        by_cases hkl : k < le
        · rw [if_pos hkl, if_pos ((hrng j k hk).mpr (by omega))]
          congr 1; omega
        · rw [if_neg hkl, if_neg (by rw [hrng j k hk]; omega)]
      · rw [if_neg hj, h3]
        by_cases hjb : j = ib
        · subst hjb
          rw [if_pos rfl, mix_bit _ _ _ _ hk, mask_bit _ _ hk]
          by_cases hkl : lb ≤ k
          · rw [if_pos ((hrng j k hk).mpr (by omega))]
            simp only [hkl, decide_true, if_true]
            rw [reverse_bit _ _ hk, hyb _ (by omega)]
            congr 1; omega
          · have hm : ¬ (decide (lb ≤ k) = true) := by simpa using hkl
            rw [if_neg hm, if_neg (by rw [hrng j k hk]; omega)]
            exact hwb k
        · rw [if_neg hjb, s1 j k hk]
          by_cases hr : ib < j ∧ j < ie
          · rw [if_pos hr, if_pos ((hrng j k hk).mpr (by omega))]
            congr 1
            have : L * (ib + ie - j) + L * j = L * ib + L * ie := by
              rw [← Nat.mul_add, ← Nat.mul_add]; congr 1; omega
            omega
          · rw [if_neg hr, if_neg (by rw [hrng j k hk]; omega)]

/-- `reverse` on lists. -/
theorem reverse_list {v : BV L} (h : Inv v) {b e : Nat} (hbe : b ≤ e) (he : e ≤ v.sz) :
    ∃ ws, reverse rev v.words b e = some ws ∧ Inv ⟨v.sz, ws⟩ ∧
      toList ⟨v.sz, ws⟩ = onRange b e List.reverse (toList v) := by
  have hcov := words_cover h.pos h.len he
  obtain ⟨ws, ea, l, s⟩ := reverse_spec hrev (b := b) h.pos hcov.1 hcov.2
  have hsl : (slice b e (toList v)).length = e - b := slice_length _ _ _ (by rw [toList_length]; exact he)
  have hf : (List.reverse (slice b e (toList v))).length = e - b := by rw [List.length_reverse, hsl]
  refine ⟨ws, ea, inv_same h l (fun p hp => ?_), ?_⟩
  · rw [s, if_neg (by omega)]; exact h.clean p hp
  · apply toList_eq
    · rw [onRange_length b e _ _ hbe (by rw [toList_length]; exact he) hf, toList_length]
    · intro p hp
      rw [onRange_getD b e _ _ hbe (by rw [toList_length]; exact he) hf]
      show _ = bits ws p
      rw [s]
      by_cases hr : b ≤ p ∧ p < e
      · rw [if_pos hr, if_pos hr, List.getD_eq_getElem?_getD, List.getElem?_reverse (by omega),
          ← List.getD_eq_getElem?_getD, hsl, slice_getD _ _ _ _ (by omega), toList_getD h]
        congr 1; omega
      · rw [if_neg hr, if_neg hr, toList_getD h]

end

/-! ### List algebra -/

theorem split_range (b e : Nat) (l : List Bool) (hbe : b ≤ e) :
    l = l.take b ++ slice b e l ++ l.drop e := by
  have : l.take b = (l.take e).take b := by rw [List.take_take]; congr 1; omega
  rw [slice, this, List.take_append_drop, List.take_append_drop]

theorem slice_append (x y z : List Bool) (b e : Nat) (hb : x.length = b)
    (he : b + y.length = e) : slice b e (x ++ y ++ z) = y := by
  subst hb
  subst he
  rw [slice, List.take_append_of_le_length (by simp), List.take_of_length_le (by simp)]
  simp

theorem onRange_append (f : List Bool → List Bool) (x y z : List Bool) (b e : Nat) (hb : x.length = b)
    (he : b + y.length = e) : onRange b e f (x ++ y ++ z) = x ++ f y ++ z := by
  have h1 := slice_append x y z b e hb he
  rw [slice] at h1
  rw [onRange, h1]
  subst hb
  subst he
  congr 1
  · simp
  · rw [List.drop_append_of_le_length (by simp), List.drop_of_length_le (by simp)]; simp

theorem onRange_congr (f g : List Bool → List Bool) (b e : Nat) (l : List Bool)
    (h : f (slice b e l) = g (slice b e l)) : onRange b e f l = onRange b e g l := by
  rw [slice] at h
  rw [onRange, onRange, h]

section
variable {rev : BitVec L → Option (BitVec L)} (hrev : ∀ x, rev x = some x.reverse)
include hrev

theorem swapSorted_list {v : BV L} (h : Inv v) {b1 e1 b2 e2 : Nat} (h1 : b1 ≤ e1) (h12 : e1 ≤ b2) (h2 : b2 ≤ e2)
    (he : e2 ≤ v.sz) :
    ∃ ws, swapSorted rev v.words b1 e1 b2 e2 = some ws ∧ Inv ⟨v.sz, ws⟩ ∧
      toList ⟨v.sz, ws⟩ = (toList v).take b1 ++ slice b2 e2 (toList v) ++ slice e1 b2 (toList v) ++
        slice b1 e1 (toList v) ++ (toList v).drop e2 := by
  obtain ⟨w1, q1, i1, t1⟩ := reverse_list hrev h h1 (by omega)
  obtain ⟨w2, q2, i2, t2⟩ := reverse_list hrev i1 h12 (show b2 ≤ v.sz by omega)
  obtain ⟨w3, q3, i3, t3⟩ := reverse_list hrev i2 h2 he
  obtain ⟨w4, q4, i4, t4⟩ := reverse_list hrev i3 (show b1 ≤ e2 by omega) he
  refine ⟨w4, ?_, i4, ?_⟩
  · rw [swapSorted, q1]
    simp only [Option.bind_eq_bind, Option.bind_some]
    rw [q2]
    simp only [Option.bind_some]
    rw [q3]
    simp only [Option.bind_some]
    exact q4
  · rw [t4, t3, t2, t1]
    obtain ⟨l, hl⟩ : ∃ l, l = toList v := ⟨_, rfl⟩
    have hlen : l.length = v.sz := by rw [hl, toList_length]
    rw [← hl]
    have la : (l.take b1).length = b1 := by rw [List.length_take]; omega
    have lb : (slice b1 e1 l).length = e1 - b1 := slice_length _ _ _ (by omega)
    have lc : (slice e1 b2 l).length = b2 - e1 := slice_length _ _ _ (by omega)
    have ld : (slice b2 e2 l).length = e2 - b2 := slice_length _ _ _ (by omega)
    have hsplit : l = l.take b1 ++ slice b1 e1 l ++ (slice e1 b2 l ++ slice b2 e2 l ++ l.drop e2) := by
      have s1 := split_range b1 e1 l h1
      have s2 := split_range e1 b2 l h12
      have s3 := split_range b2 e2 l h2
      have d1 : l.drop e1 = slice e1 b2 l ++ l.drop b2 := by
        have hte : (l.take e1).length = e1 := by rw [List.length_take]; omega
        conv_lhs => rw [s2]
        rw [List.append_assoc, List.drop_append_of_le_length (by omega), List.drop_of_length_le (by omega)]
        simp
      have d2 : l.drop b2 = slice b2 e2 l ++ l.drop e2 := by
        have hte : (l.take b2).length = b2 := by rw [List.length_take]; omega
        conv_lhs => rw [s3]
        rw [List.append_assoc, List.drop_append_of_le_length (by omega), List.drop_of_length_le (by omega)]
        simp
      rw [List.append_assoc (slice e1 b2 l), ← d2, ← d1]
      exact s1
    generalize hA : l.take b1 = A at *
    generalize hB : slice b1 e1 l = B at *
    generalize hC : slice e1 b2 l = C at *
    generalize hD : slice b2 e2 l = D at *
    generalize hE : l.drop e2 = E at *
    rw [hsplit, onRange_append List.reverse A B (C ++ D ++ E) b1 e1 la (by omega)]
    rw [show A ++ B.reverse ++ (C ++ D ++ E) = (A ++ B.reverse) ++ C ++ (D ++ E) by simp,
      onRange_append List.reverse (A ++ B.reverse) C (D ++ E) e1 b2 (by simp; omega) (by omega)]
    rw [show A ++ B.reverse ++ C.reverse ++ (D ++ E) = (A ++ B.reverse ++ C.reverse) ++ D ++ E by simp,
      onRange_append List.reverse (A ++ B.reverse ++ C.reverse) D E b2 e2 (by simp; omega) (by omega)]
    rw [show A ++ B.reverse ++ C.reverse ++ D.reverse ++ E = A ++ (B.reverse ++ C.reverse ++ D.reverse) ++ E by simp,
      onRange_append List.reverse A (B.reverse ++ C.reverse ++ D.reverse) E b1 e2 la (by simp; omega)]
    simp

theorem three_reverses {v : BV L} (h : Inv v) {b m e : Nat} (h1 : b ≤ m) (h2 : m ≤ e) (he : e ≤ v.sz) :
    ∃ ws, (do
        let ws ← reverse rev v.words b m
        let ws ← reverse rev ws m e
        reverse rev ws b e) = some ws ∧ Inv ⟨v.sz, ws⟩ ∧
      toList ⟨v.sz, ws⟩ = onRange b e (fun l => l.drop (m - b) ++ l.take (m - b)) (toList v) := by
  obtain ⟨w1, q1, i1, t1⟩ := reverse_list hrev h h1 (by omega)
  obtain ⟨w2, q2, i2, t2⟩ := reverse_list hrev i1 h2 he
  obtain ⟨w3, q3, i3, t3⟩ := reverse_list hrev i2 (show b ≤ e by omega) he
  refine ⟨w3, ?_, i3, ?_⟩
  · rw [q1]
    simp only [Option.bind_eq_bind, Option.bind_some]
    rw [q2]
    simp only [Option.bind_some]
    exact q3
  · rw [t3, t2, t1]
    obtain ⟨l, hl⟩ : ∃ l, l = toList v := ⟨_, rfl⟩
    have hlen : l.length = v.sz := by rw [hl, toList_length]
    rw [← hl]
    have la : (l.take b).length = b := by rw [List.length_take]; omega
    have lb : (slice b m l).length = m - b := slice_length _ _ _ (by omega)
    have lc : (slice m e l).length = e - m := slice_length _ _ _ (by omega)
    have hsplit : l = l.take b ++ slice b m l ++ (slice m e l ++ l.drop e) := by
      have s1 := split_range b m l h1
      have s2 := split_range m e l h2
      have d1 : l.drop m = slice m e l ++ l.drop e := by
        have hte : (l.take m).length = m := by rw [List.length_take]; omega
        conv_lhs => rw [s2]
        rw [List.append_assoc, List.drop_append_of_le_length (by omega), List.drop_of_length_le (by omega)]
        simp
      rw [← d1]
      exact s1
    generalize hA : l.take b = A at *
    generalize hB : slice b m l = B at *
    generalize hC : slice m e l = C at *
    generalize hE : l.drop e = E at *
    rw [hsplit]
    rw [onRange_append List.reverse A B (C ++ E) b m la (by omega)]
    rw [show A ++ B.reverse ++ (C ++ E) = (A ++ B.reverse) ++ C ++ E by simp,
      onRange_append List.reverse (A ++ B.reverse) C E m e (by simp; omega) (by omega)]
    rw [show A ++ B.reverse ++ C.reverse ++ E = A ++ (B.reverse ++ C.reverse) ++ E by simp,
      onRange_append List.reverse A (B.reverse ++ C.reverse) E b e la (by simp; omega)]
    rw [show A ++ B ++ (C ++ E) = A ++ (B ++ C) ++ E by simp, onRange_append _ A (B ++ C) E b e la (by simp; omega)]
    rw [← lb]
    simp

theorem rotateLeft_list {v : BV L} (h : Inv v) {b e : Nat} (cnt : Nat) (hbe : b ≤ e) (he : e ≤ v.sz) :
    ∃ ws, rotateLeft rev v.words b e cnt = some ws ∧ Inv ⟨v.sz, ws⟩ ∧
      toList ⟨v.sz, ws⟩ = onRange b e (fun l => l.rotateLeft cnt) (toList v) := by
  have hsl : (slice b e (toList v)).length = e - b := slice_length _ _ _ (by rw [toList_length]; exact he)
  by_cases hlt : e ≤ b
  · have : b = e := by omega
    subst this
    refine ⟨v.words, by rw [rotateLeft, if_pos (le_refl _)], h, ?_⟩
    show toList v = _
    have hs : (List.take b (toList v)).drop b = [] := by
      rw [← List.length_eq_zero_iff]; simp
    rw [onRange, hs]
    simp [List.rotateLeft]
  · have hm := Nat.mod_lt cnt (show 0 < e - b by omega)
    obtain ⟨ws, q, i, t⟩ := three_reverses hrev h (b := b) (m := b + cnt % (e - b)) (e := e) (by omega) (by omega) he
    refine ⟨ws, by rw [rotateLeft, if_neg hlt]; exact q, i, ?_⟩
    rw [t]
    apply onRange_congr
    rw [Nat.add_sub_cancel_left, List.rotateLeft, hsl]
    by_cases h1 : e - b ≤ 1
    · have : cnt % (e - b) = 0 := by omega
      rw [if_pos h1, this]; simp
    · rw [if_neg h1]

theorem rotateRight_list {v : BV L} (h : Inv v) {b e : Nat} (cnt : Nat) (hbe : b ≤ e) (he : e ≤ v.sz) :
    ∃ ws, rotateRight rev v.words b e cnt = some ws ∧ Inv ⟨v.sz, ws⟩ ∧
      toList ⟨v.sz, ws⟩ = onRange b e (fun l => l.rotateRight cnt) (toList v) := by
  have hsl : (slice b e (toList v)).length = e - b := slice_length _ _ _ (by rw [toList_length]; exact he)
  by_cases hlt : e ≤ b
  · have : b = e := by omega
    subst this
    refine ⟨v.words, by rw [rotateRight, if_pos (le_refl _)], h, ?_⟩
    show toList v = _
    have hs : (List.take b (toList v)).drop b = [] := by
      rw [← List.length_eq_zero_iff]; simp
    rw [onRange, hs]
    simp [List.rotateRight]
  · have hm := Nat.mod_lt cnt (show 0 < e - b by omega)
    obtain ⟨ws, q, i, t⟩ := three_reverses hrev h (b := b) (m := e - cnt % (e - b)) (e := e) (by omega) (by omega) he
    refine ⟨ws, by rw [rotateRight, if_neg hlt]; exact q, i, ?_⟩
    rw [t]
    apply onRange_congr
    rw [List.rotateRight, hsl, show e - cnt % (e - b) - b = e - b - cnt % (e - b) by omega]
    by_cases h1 : e - b ≤ 1
    · have : cnt % (e - b) = 0 := by omega
      rw [if_pos h1, this, List.drop_of_length_le (by omega), List.take_of_length_le (by omega)]; simp
    · rw [if_neg h1]

end

end Altruct.BitVector
