/-
C22: reading and writing words of a `bit_vector`, as bits.
-/
import Verif.Container.BitVecModel
import Verif.Bits.TableProps

namespace Altruct.BitVector

variable {L : Nat}

/-! ### Specification: the bits of a vector -/

/-- Bit `p` of a list of words, lowest bit first; positions behind the words read false. -/
def bits (ws : List (BitVec L)) (p : Nat) : Bool := (ws.getD (p / L) 0#L).getLsbD (p % L)

/-- The contents of a vector as a list of booleans. -/
def toList (v : BV L) : List Bool := (List.range v.sz).map (bits v.words)

/-- The state a vector is in between operations: as many words as needed and one more, and
zeros behind the size. -/
structure Inv (v : BV L) : Prop where
  pos : 0 < L
  len : v.words.length = numWords L v.sz + 1
  clean : ∀ p, v.sz ≤ p → bits v.words p = false

/-! ### Words and bits -/

def wbit (ws : List (BitVec L)) (i k : Nat) : Bool := (ws.getD i 0#L).getLsbD k

theorem bits_eq (ws : List (BitVec L)) (i k : Nat) (hk : k < L) : bits ws (L * i + k) = wbit ws i k := by
  have hL : 0 < L := by omega
  rw [bits, wbit, Nat.mul_add_div hL, Nat.div_eq_of_lt hk, Nat.add_zero, Nat.mul_add_mod,
    Nat.mod_eq_of_lt hk]

theorem bits_div (ws : List (BitVec L)) (p : Nat) : bits ws p = wbit ws (p / L) (p % L) := rfl

theorem exists_word (hL : 0 < L) (p : Nat) : ∃ i k, k < L ∧ p = L * i + k :=
  ⟨p / L, p % L, Nat.mod_lt _ hL, (Nat.div_add_mod _ _).symm⟩

theorem lex_lt {i k j l : Nat} (hk : k < L) (hl : l < L) :
    L * i + k < L * j + l ↔ i < j ∨ (i = j ∧ k < l) := by
  rcases Nat.lt_trichotomy i j with h | h | h
  · have : L * (i + 1) ≤ L * j := Nat.mul_le_mul_left _ h
    rw [Nat.mul_succ] at this
    omega
  · subst h; omega
  · have : L * (j + 1) ≤ L * i := Nat.mul_le_mul_left _ h
    rw [Nat.mul_succ] at this
    omega

theorem lex_le {i k j l : Nat} (hk : k < L) (hl : l < L) :
    L * i + k ≤ L * j + l ↔ i < j ∨ (i = j ∧ k ≤ l) := by
  have := lex_lt (L := L) (i := j) (k := l) (j := i) (l := k) hl hk
  constructor
  · intro h
    have h' : ¬ (L * j + l < L * i + k) := by omega
    rw [this] at h'
    omega
  · intro h
    have h' : ¬ (L * j + l < L * i + k) := by rw [this]; omega
    omega

theorem wbit_ge (ws : List (BitVec L)) (i k : Nat) (hk : L ≤ k) : wbit ws i k = false :=
  BitVec.getLsbD_of_ge _ _ hk

theorem wbit_out (ws : List (BitVec L)) (i k : Nat) (hi : ws.length ≤ i) : wbit ws i k = false := by
  rw [wbit, List.getD_eq_getElem?_getD, List.getElem?_eq_none hi]; simp

theorem rd_some {ws : List (BitVec L)} {i : Nat} (h : i < ws.length) :
    ∃ w, rd ws i = some w ∧ ∀ k, w.getLsbD k = wbit ws i k := by
  refine ⟨ws[i], by rw [rd, List.getElem?_eq_getElem h], fun k => ?_⟩
  rw [wbit, List.getD_eq_getElem?_getD, List.getElem?_eq_getElem h]; rfl

theorem wr_some {ws : List (BitVec L)} {i : Nat} (h : i < ws.length) (x : BitVec L) :
    wr ws i x = some (ws.set i x) ∧ (ws.set i x).length = ws.length ∧
    ∀ j k, wbit (ws.set i x) j k = if j = i then x.getLsbD k else wbit ws j k := by
  refine ⟨by rw [wr, if_pos h], by simp, fun j k => ?_⟩
  rw [wbit, wbit, List.getD_eq_getElem?_getD, List.getD_eq_getElem?_getD]
  by_cases hij : j = i
  · subst hij; rw [if_pos rfl, List.getElem?_set_self h]; rfl
  · rw [if_neg hij, List.getElem?_set_ne (Ne.symm hij)]

theorem ext_words {ws ws' : List (BitVec L)} (hl : ws.length = ws'.length)
    (h : ∀ i k, k < L → wbit ws i k = wbit ws' i k) : ws = ws' := by
  apply List.ext_getElem hl
  intro i h1 h2
  apply BitVec.eq_of_getLsbD_eq
  intro k hk
  have := h i k hk
  rwa [wbit, wbit, List.getD_eq_getElem?_getD, List.getD_eq_getElem?_getD, List.getElem?_eq_getElem h1,
    List.getElem?_eq_getElem h2] at this

theorem firstBits_bit (l k : Nat) (hl : l < L) : (firstBits L l).getLsbD k = decide (k < l) :=
  Bits.getLsbD_ones l k hl

theorem mask_bit (l k : Nat) (hk : k < L) : (BitVec.allOnes L <<< l).getLsbD k = decide (l ≤ k) := by
  rw [BitVec.getLsbD_shiftLeft, BitVec.getLsbD_allOnes]
  by_cases h : l ≤ k
  · simp [hk, h, show ¬ k < l by omega]; omega
  · simp [h, show k < l by omega]

theorem shl_one_bit (l k : Nat) (hl : l < L) : (1#L <<< l).getLsbD k = decide (k = l) :=
  Bits.getLsbD_shl_one l k hl

theorem wordAt_spec {ws : List (BitVec L)} {i l : Nat} (hl : l < L) (hi : i < ws.length)
    (hi2 : l ≠ 0 → i + 1 < ws.length) :
    ∃ r, wordAt ws i l = some r ∧ ∀ k, k < L → r.getLsbD k = bits ws (L * i + l + k) := by
  have hL : 0 < L := by omega
  obtain ⟨w, hw, hb⟩ := rd_some hi
  by_cases h0 : l = 0
  · subst h0
    refine ⟨w, by rw [wordAt, if_pos rfl, hw], fun k hk => ?_⟩
    rw [Nat.add_zero, bits_eq _ _ _ hk, hb]
  · obtain ⟨w2, hw2, hb2⟩ := rd_some (hi2 h0)
    refine ⟨(w >>> l) ||| (w2 <<< (L - l)), by rw [wordAt, if_neg h0, hw, hw2]; rfl, fun k hk => ?_⟩
    rw [BitVec.getLsbD_or, BitVec.getLsbD_ushiftRight, BitVec.getLsbD_shiftLeft]
    by_cases hlt : l + k < L
    · rw [show L * i + l + k = L * i + (l + k) by omega, bits_eq _ _ _ hlt, hb]
      simp [show k < L - l by omega]
    · rw [show L * i + l + k = L * (i + 1) + (l + k - L) by rw [Nat.mul_succ]; omega,
        bits_eq _ _ _ (by omega), BitVec.getLsbD_of_ge w _ (by omega), hb2,
        show k - (L - l) = l + k - L by omega]
      simp [hk, show ¬ k < L - l by omega]

theorem wordAtPos_spec {ws : List (BitVec L)} {p : Nat} (hL : 0 < L) (hi : p / L < ws.length)
    (hi2 : p % L ≠ 0 → p / L + 1 < ws.length) :
    ∃ r, wordAtPos ws p = some r ∧ ∀ k, k < L → r.getLsbD k = bits ws (p + k) := by
  obtain ⟨r, e, h⟩ := wordAt_spec (Nat.mod_lt p hL) hi hi2
  refine ⟨r, e, fun k hk => ?_⟩
  rw [h k hk, Nat.div_add_mod]

/-- The number of words covers every position up to the size. -/
theorem words_cover {n p m : Nat} (hL : 0 < L) (hm : m = numWords L n + 1) (hp : p ≤ n) :
    p / L < m ∧ (p % L ≠ 0 → p / L + 1 < m) := by
  have h1 : numWords L n * L + (n + L - 1) % L = n + L - 1 := by
    rw [numWords, Nat.mul_comm]; exact Nat.div_add_mod _ _
  have h2 := Nat.mod_lt (n + L - 1) hL
  have h3 := Nat.div_add_mod p L
  have h4 : p / L ≤ numWords L n := by
    rw [numWords]
    exact Nat.div_le_div_right (by omega)
  refine ⟨by omega, fun h => ?_⟩
  have : p / L < numWords L n := by
    have h5 : (p / L) * L < numWords L n * L := by
      rw [Nat.mul_comm L] at h3
      omega
    exact Nat.lt_of_mul_lt_mul_right h5
  omega

/-! ### apply -/

/-- What `apply` needs to know of an operation: called on the word holding the positions
`pos, pos + 1, …` of the range, in a state `cur` where the words it may look at are still the
original ones, it produces `G` of every bit. -/
def OpOK (op : WordOp L) (ws0 : List (BitVec L)) (b e : Nat) (back : Bool) (G : Nat → Bool → Bool) : Prop :=
  ∀ cur w pos l, pos ≤ e - b → cur.length = ws0.length →
    (cur = ws0 ∨ ((b + pos) % L = 0 ∧
      ∀ j, (if back then j ≤ (b + pos) / L else (b + pos) / L ≤ j) → ∀ k, wbit cur j k = wbit ws0 j k)) →
    ∃ r, op cur w pos l = some r ∧
      ∀ k, k < L → pos + k < e - b → k < l → r.getLsbD k = G (pos + k) (w.getLsbD k)

theorem mul_div_mod (hL : 0 < L) (i : Nat) : (i * L) / L = i ∧ (i * L) % L = 0 :=
  ⟨Nat.mul_div_cancel _ hL, Nat.mul_mod_left _ _⟩

theorem applyFwd_spec {op : WordOp L} {ws0 : List (BitVec L)} {b e : Nat} {G : Nat → Bool → Bool}
    (hL : 0 < L) (hop : OpOK op ws0 b e false G) (n i : Nat) (ws : List (BitVec L))
    (hlen : ws.length = ws0.length) (hb : b ≤ i * L) (he : (i + n) * L ≤ e) (hn : i + n ≤ ws0.length)
    (hag : ∀ j, i ≤ j → ∀ k, wbit ws j k = wbit ws0 j k) :
    ∃ ws', applyFwd op b n i ws = some ws' ∧ ws'.length = ws0.length ∧
      ∀ j k, k < L → wbit ws' j k = if i ≤ j ∧ j < i + n then G (j * L + k - b) (wbit ws0 j k) else wbit ws j k := by
  induction n generalizing i ws with
  | zero => exact ⟨ws, rfl, hlen, fun j k _ => by rw [if_neg (by omega)]⟩
  | succ n ih =>
    have hil : i < ws.length := by omega
    obtain ⟨w, hw, hwb⟩ := rd_some hil
    have hile : (i + 1) * L ≤ e := le_trans (Nat.mul_le_mul_right _ (by omega)) he
    rw [Nat.succ_mul] at hile
    have hbi : b + (i * L - b) = i * L := by omega
    obtain ⟨r, hr, hrb⟩ := hop ws w (i * L - b) L (by omega) hlen (Or.inr (by
      rw [hbi, (mul_div_mod hL i).1]
      exact ⟨(mul_div_mod hL i).2, fun j hj => hag j (by simpa using hj)⟩))
    obtain ⟨h1, h2, h3⟩ := wr_some hil r
    obtain ⟨ws', e', l', s'⟩ := ih (i + 1) (ws.set i r) (by omega)
      (by rw [Nat.succ_mul]; omega) (by rw [show i + 1 + n = i + (n + 1) by omega]; exact he) (by omega)
      (fun j hj k => by rw [h3, if_neg (by omega)]; exact hag j (by omega) k)
    refine ⟨ws', ?_, l', fun j k hk => ?_⟩
    · rw [applyFwd, hw]
      simp only [Option.bind_eq_bind, Option.bind_some]
      rw [hr]
      simp only [Option.bind_some]
      rw [h1]
      exact e'
    · rw [s' j k hk]
      by_cases hj : j = i
      · subst hj
        rw [if_neg (by omega), if_pos (by omega), h3, if_pos rfl, hrb k hk (by omega) hk, hwb,
          hag j (by omega)]
        congr 1
        omega
      · by_cases hr : i + 1 ≤ j ∧ j < i + 1 + n
        · rw [if_pos hr, if_pos (by omega)]
        · rw [if_neg hr, if_neg (by omega), h3, if_neg hj]

theorem applyBwd_spec {op : WordOp L} {ws0 : List (BitVec L)} {b e : Nat} {G : Nat → Bool → Bool}
    (hL : 0 < L) (hop : OpOK op ws0 b e true G) (n i : Nat) (ws : List (BitVec L))
    (hlen : ws.length = ws0.length) (hn0 : n ≤ i) (hb : b ≤ (i + 1 - n) * L) (he : (i + 1) * L ≤ e)
    (hn : i < ws0.length)
    (hag : ∀ j, j ≤ i → ∀ k, wbit ws j k = wbit ws0 j k) :
    ∃ ws', applyBwd op b n i ws = some ws' ∧ ws'.length = ws0.length ∧
      ∀ j k, k < L → wbit ws' j k = if i < j + n ∧ j ≤ i then G (j * L + k - b) (wbit ws0 j k) else wbit ws j k := by
  induction n generalizing i ws with
  | zero => exact ⟨ws, rfl, hlen, fun j k _ => by rw [if_neg (by omega)]⟩
  | succ n ih =>
    have hil : i < ws.length := by omega
    obtain ⟨w, hw, hwb⟩ := rd_some hil
    have hile := he
    rw [Nat.succ_mul] at hile
    have hble : b ≤ i * L := le_trans hb (Nat.mul_le_mul_right _ (by omega))
    have hbi : b + (i * L - b) = i * L := by omega
    obtain ⟨r, hr, hrb⟩ := hop ws w (i * L - b) L (by omega) hlen (Or.inr (by
      rw [hbi, (mul_div_mod hL i).1]
      exact ⟨(mul_div_mod hL i).2, fun j hj => hag j (by simpa using hj)⟩))
    obtain ⟨h1, h2, h3⟩ := wr_some hil r
    obtain ⟨ws', e', l', s'⟩ := ih (i - 1) (ws.set i r) (by omega) (by omega)
      (by rw [show i - 1 + 1 - n = i + 1 - (n + 1) by omega]; exact hb)
      (by rw [show i - 1 + 1 = i by omega]; omega) (by omega)
      (fun j hj k => by rw [h3, if_neg (by omega)]; exact hag j (by omega) k)
    refine ⟨ws', ?_, l', fun j k hk => ?_⟩
    · rw [applyBwd, hw]
      simp only [Option.bind_eq_bind, Option.bind_some]
      rw [hr]
      simp only [Option.bind_some]
      rw [h1]
      exact e'
    · rw [s' j k hk]
      by_cases hj : j = i
      · subst hj
        rw [if_neg (by omega), if_pos (by omega), h3, if_pos rfl, hrb k hk (by omega) hk, hwb,
          hag j (by omega)]
        congr 1
        omega
      · by_cases hr : i - 1 < j + n ∧ j ≤ i - 1
        · rw [if_pos hr, if_pos (by omega)]
        · rw [if_neg hr, if_neg (by omega), h3, if_neg hj]

theorem mix_bit (w o m : BitVec L) (k : Nat) (hk : k < L) :
    ((w &&& ~~~m) ||| (o &&& m)).getLsbD k = if m.getLsbD k then o.getLsbD k else w.getLsbD k := by
  rw [BitVec.getLsbD_or, BitVec.getLsbD_and, BitVec.getLsbD_and, BitVec.getLsbD_not]
  cases m.getLsbD k <;> simp [hk]

theorem apply_spec {op : WordOp L} {ws : List (BitVec L)} {b e : Nat} {back : Bool} {G : Nat → Bool → Bool}
    (hL : 0 < L) (hbe : b ≤ e) (hlen : e / L < ws.length) (hop : OpOK op ws b e back G) :
    ∃ ws', apply ws b e op back = some ws' ∧ ws'.length = ws.length ∧
      ∀ p, bits ws' p = if b ≤ p ∧ p < e then G (p - b) (bits ws p) else bits ws p := by
  have hib : b / L ≤ e / L := Nat.div_le_div_right hbe
  have hlb := Nat.mod_lt b hL
  have hle := Nat.mod_lt e hL
  have hb := Nat.div_add_mod b L
  have he := Nat.div_add_mod e L
  generalize hibd : b / L = ib at *
  generalize hied : e / L = ie at *
  generalize hlbd : b % L = lb at *
  generalize hled : e % L = le at *
  obtain ⟨w, hw, hwb⟩ := rd_some (show ib < ws.length by omega)
  obtain ⟨o, ho, hob⟩ := hop ws (w >>> lb) 0 (L - lb) (by omega) rfl (Or.inl rfl)
  -- membership of positions in the range, word by word
  have hmem : ∀ j k, k < L → ((b ≤ L * j + k ∧ L * j + k < e) ↔
      ((ib < j ∨ ib = j ∧ lb ≤ k) ∧ (j < ie ∨ j = ie ∧ k < le))) := by
    intro j k hk
    rw [← hb, ← he, lex_le hlb hk, lex_lt hk hle]
  have hfirst : ∀ k, k < L → lb ≤ k → b ≤ L * ib + k ∧ L * ib + k < e →
      (o <<< lb).getLsbD k = G (L * ib + k - b) (wbit ws ib k) := by
    intro k hk hlk hr
    rw [BitVec.getLsbD_shiftLeft, hob (k - lb) (by omega) (by omega) (by omega),
      BitVec.getLsbD_ushiftRight, hwb, show lb + (k - lb) = k by omega]
    simp only [hk, show ¬ k < lb by omega, decide_true, decide_false, Bool.not_false, Bool.and_self,
      Bool.true_and]
    congr 1
    omega
  by_cases hii : ib = ie
  · -- one word
    obtain ⟨h1, h2, h3⟩ := wr_some (show ib < ws.length by omega)
      ((w &&& ~~~(BitVec.allOnes L <<< lb &&& firstBits L le)) |||
        ((o <<< lb) &&& (BitVec.allOnes L <<< lb &&& firstBits L le)))
    refine ⟨_, ?_, h2, fun p => ?_⟩
    · rw [apply, hibd, hied, hlbd, hled, hw]
      simp only [Option.bind_eq_bind, Option.bind_some]
      rw [ho]
      simp only [Option.bind_some, hii, if_true]
      simp only [hii] at h1
      exact h1
    · obtain ⟨j, k, hk, rfl⟩ := exists_word hL p
      rw [bits_eq _ _ _ hk, bits_eq _ _ _ hk, h3]
      by_cases hj : j = ib
      · subst hj
        rw [if_pos rfl, mix_bit _ _ _ _ hk, BitVec.getLsbD_and, mask_bit _ _ hk, firstBits_bit _ _ hle]
        have hm := hmem j k hk
        by_cases hr : b ≤ L * j + k ∧ L * j + k < e
        · have hr' := hm.mp hr
          rw [if_pos hr, ← hfirst k hk (by omega) hr]
          simp [show lb ≤ k by omega, show k < le by omega]
        · rw [if_neg hr, ← hwb]
          have hr' := fun h => hr (hm.mpr h)
          have : ¬ (lb ≤ k ∧ k < le) := by omega
          by_cases h1 : lb ≤ k <;> by_cases h2 : k < le <;> (simp [h1, h2]; try omega)
      · rw [if_neg hj, if_neg]
        rw [hmem j k hk]
        omega
  · -- several words
    obtain ⟨w2, hw2, hwb2⟩ := rd_some hlen
    have hlt : ib < ie := by omega
    have hibie : L * (ib + 1) ≤ L * ie := Nat.mul_le_mul_left _ hlt
    rw [Nat.mul_succ] at hibie
    have hpe : e - b - le + b = L * ie := by omega
    obtain ⟨o2, ho2, hob2⟩ := hop ws w2 (e - b - le) le (by omega) rfl (Or.inl rfl)
    -- the loop over whole words
    have hloop : ∃ ws1, (if back = true then applyBwd op b (ie - 1 - ib) (ie - 1) ws
          else applyFwd op b (ie - 1 - ib) (ib + 1) ws) = some ws1 ∧ ws1.length = ws.length ∧
        ∀ j k, k < L → wbit ws1 j k =
          if ib < j ∧ j < ie then G (j * L + k - b) (wbit ws j k) else wbit ws j k := by
      cases back with
      | true =>
        obtain ⟨ws1, e1, l1, s1⟩ := applyBwd_spec hL hop (ie - 1 - ib) (ie - 1) ws rfl (by omega)
          (by rw [show ie - 1 + 1 - (ie - 1 - ib) = ib + 1 by omega, Nat.mul_comm, Nat.mul_succ]; omega)
          (by rw [show ie - 1 + 1 = ie by omega, Nat.mul_comm]; omega) (by omega) (fun _ _ _ => rfl)
        refine ⟨ws1, by rw [if_pos rfl]; exact e1, l1, fun j k hk => ?_⟩
        rw [s1 j k hk]
        by_cases hj : ib < j ∧ j < ie
        · rw [if_pos hj, if_pos (by omega)]
        · rw [if_neg hj, if_neg (by omega)]
      | false =>
        obtain ⟨ws1, e1, l1, s1⟩ := applyFwd_spec hL hop (ie - 1 - ib) (ib + 1) ws rfl
          (by rw [Nat.mul_comm, Nat.mul_succ]; omega)
          (by rw [show ib + 1 + (ie - 1 - ib) = ie by omega, Nat.mul_comm]; omega) (by omega)
          (fun _ _ _ => rfl)
        refine ⟨ws1, by rw [if_neg (by simp)]; exact e1, l1, fun j k hk => ?_⟩
        rw [s1 j k hk]
        by_cases hj : ib < j ∧ j < ie
        · rw [if_pos hj, if_pos (by omega)]
        · rw [if_neg hj, if_neg (by omega)]
    obtain ⟨ws1, e1, l1, s1⟩ := hloop
    obtain ⟨h1, h2, h3⟩ := wr_some (show ib < ws1.length by omega)
      ((w &&& ~~~(BitVec.allOnes L <<< lb)) ||| ((o <<< lb) &&& (BitVec.allOnes L <<< lb)))
    obtain ⟨h4, h5, h6⟩ := wr_some (ws := ws1.set ib
      ((w &&& ~~~(BitVec.allOnes L <<< lb)) ||| ((o <<< lb) &&& (BitVec.allOnes L <<< lb))))
      (show ie < _ by rw [h2]; omega)
      ((w2 &&& ~~~(firstBits L le)) ||| (o2 &&& (firstBits L le)))
    refine ⟨_, ?_, by rw [h5, h2, l1], fun p => ?_⟩
    · rw [apply, hibd, hied, hlbd, hled, hw]
      simp only [Option.bind_eq_bind, Option.bind_some]
      rw [ho]
      simp only [Option.bind_some, if_neg hii]
      rw [hw2]
      simp only [Option.bind_some]
      rw [ho2]
      simp only [Option.bind_some]
      cases back with
      | true =>
        rw [if_pos rfl] at e1 ⊢
        rw [e1]
        simp only [Option.bind_some]
        rw [h1]
        exact h4
      | false =>
        rw [if_neg (by simp)] at e1 ⊢
        rw [e1]
        simp only [Option.bind_some]
        rw [h1]
        exact h4
    · obtain ⟨j, k, hk, rfl⟩ := exists_word hL p
      rw [bits_eq _ _ _ hk, bits_eq _ _ _ hk, h6, h3, s1 j k hk]
      have hm := hmem j k hk
      by_cases hj : j = ie
      · subst hj
        rw [if_pos rfl, mix_bit _ _ _ _ hk, firstBits_bit _ _ hle]
        by_cases hr : k < le
        · have hr2 := hm.mpr (by omega)
          rw [if_pos hr2, decide_eq_true hr, if_pos rfl, hob2 k hk (by omega) hr, hwb2]
          congr 1
          omega
        · rw [if_neg (show ¬ (decide (k < le) = true) by simpa using hr), if_neg (by rw [hm]; omega), hwb2]
      · rw [if_neg hj]
        by_cases hj2 : j = ib
        · subst hj2
          rw [if_pos rfl, mix_bit _ _ _ _ hk, mask_bit _ _ hk]
          by_cases hr : lb ≤ k
          · have hr2 := hm.mpr (by omega)
            rw [if_pos hr2, decide_eq_true hr, if_pos rfl, hfirst k hk hr hr2]
          · rw [if_neg (show ¬ (decide (lb ≤ k) = true) by simpa using hr), if_neg (by rw [hm]; omega), hwb]
        · rw [if_neg hj2]
          by_cases hr : ib < j ∧ j < ie
          · rw [if_pos hr, if_pos (hm.mpr (by omega)), Nat.mul_comm j L]
          · rw [if_neg hr, if_neg (by rw [hm]; omega)]

end Altruct.BitVector
