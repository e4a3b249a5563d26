/-
C22: the shift operators of `bit_vector`.
-/
import Verif.Container.BitVecProps
import Mathlib.Tactic.IntervalCases

namespace Altruct.BitVector

variable {L : Nat}

theorem zeroLoop_spec (n i : Nat) (ws : List (BitVec L)) (h : i + n ≤ ws.length) :
    ∃ ws', zeroLoop n i ws = some ws' ∧ ws'.length = ws.length ∧
      ∀ j k, wbit ws' j k = if i ≤ j ∧ j < i + n then false else wbit ws j k := by
  induction n generalizing i ws with
  | zero => exact ⟨ws, rfl, rfl, fun j k => by rw [if_neg (by omega)]⟩
  | succ n ih =>
    obtain ⟨h1, h2, h3⟩ := wr_some (ws := ws) (i := i) (by omega) 0#L
    obtain ⟨ws', e, l, s⟩ := ih (i + 1) (ws.set i 0#L) (by omega)
    refine ⟨ws', ?_, by omega, fun j k => ?_⟩
    · rw [zeroLoop, h1]; exact e
    · rw [s, h3]
      by_cases hj : j = i
      · subst hj; rw [if_neg (by omega), if_pos rfl, if_pos (by omega), BitVec.getLsbD_zero]
      · by_cases hr : i + 1 ≤ j ∧ j < i + 1 + n
        · rw [if_pos hr, if_pos (by omega)]
        · rw [if_neg hr, if_neg hj, if_neg (by omega)]

theorem shrLoop_spec {q r : Nat} {ws0 : List (BitVec L)} (hr : r < L) (n i : Nat) (ws : List (BitVec L))
    (hlen : ws.length = ws0.length) (hi : i + n + q < ws0.length)
    (hag : ∀ j, i ≤ j → ∀ k, wbit ws j k = wbit ws0 j k) :
    ∃ ws', shrLoop q r n i ws = some ws' ∧ ws'.length = ws0.length ∧
      ∀ j k, k < L → wbit ws' j k =
        if i ≤ j ∧ j < i + n then bits ws0 (L * (j + q) + r + k) else wbit ws j k := by
  induction n generalizing i ws with
  | zero => exact ⟨ws, rfl, hlen, fun j k _ => by rw [if_neg (by omega)]⟩
  | succ n ih =>
    obtain ⟨x, hx, hxb⟩ := wordAt_spec (ws := ws) (i := i + q) hr (by omega) (by omega)
    obtain ⟨h1, h2, h3⟩ := wr_some (ws := ws) (i := i) (by omega) x
    obtain ⟨ws', e, l', s⟩ := ih (i + 1) (ws.set i x) (by rw [h2, hlen]) (by omega)
      (fun j hj k => by rw [h3, if_neg (by omega), hag j (by omega)])
    refine ⟨ws', ?_, l', fun j k hk => ?_⟩
    · rw [shrLoop, hx]
      simp only [Option.bind_eq_bind, Option.bind_some, h1]
      exact e
    · rw [s j k hk, h3]
      by_cases hji : j = i
      · subst hji
        rw [if_neg (by omega), if_pos rfl, if_pos (by omega), hxb _ hk]
        obtain ⟨a, c, hc, hac⟩ := exists_word (show 0 < L by omega) (L * (j + q) + r + k)
        rw [hac, bits_eq _ _ _ hc, bits_eq _ _ _ hc]
        apply hag
        by_contra hgt
        have : L * (a + 1) ≤ L * (j + q) := Nat.mul_le_mul_left _ (by omega)
        rw [Nat.mul_succ] at this
        omega
      · rw [if_neg hji]
        by_cases hr : i + 1 ≤ j ∧ j < i + 1 + n
        · rw [if_pos hr, if_pos (by omega)]
        · rw [if_neg hr, if_neg (by omega)]

/-- **C22**: `>>= cnt` drops the first `cnt` bits and fills with zeros, as long as the shift is
not longer than the words of the vector. -/
theorem C22_shift_right {v : BV L} (h : Inv v) (cnt : Nat) (hc : cnt / L ≤ numWords L v.sz) :
    ∃ v', shrAssign v cnt = some v' ∧ Inv v' ∧
      toList v' = (toList v).drop cnt ++ List.replicate (min cnt (toList v).length) false := by
  have hL := h.pos
  have hcd := Nat.div_add_mod cnt L
  have hcm := Nat.mod_lt cnt hL
  obtain ⟨q, hq⟩ : ∃ q, q = cnt / L := ⟨_, rfl⟩
  obtain ⟨r, hr⟩ : ∃ r, r = cnt % L := ⟨_, rfl⟩
  rw [← hq, ← hr] at hcd
  rw [← hq] at hc
  rw [← hr] at hcm
  have hlen := h.len
  have hcov := numWords_cover hL v.sz
  obtain ⟨w1, e1, l1, s1⟩ := shrLoop_spec (q := q) (ws0 := v.words) hcm (numWords L v.sz - q) 0 v.words rfl
    (by omega) (fun _ _ _ => rfl)
  obtain ⟨w2, e2, l2, s2⟩ := zeroLoop_spec q (numWords L v.sz - q) w1 (by omega)
  have hb : ∀ p, bits w2 p = bits v.words (p + cnt) := by
    intro p
    obtain ⟨j, k, hk, rfl⟩ := exists_word hL p
    rw [bits_eq _ _ _ hk, s2, s1 _ _ hk]
    have hpos : L * (j + q) + r + k = L * j + k + cnt := by rw [Nat.mul_add]; omega
    by_cases hj : j < numWords L v.sz - q
    · rw [if_neg (by omega), if_pos (by omega), hpos]
    · have hz : bits v.words (L * j + k + cnt) = false := by
        apply h.clean
        have : L * numWords L v.sz ≤ L * (j + q) := Nat.mul_le_mul_left _ (by omega)
        omega
      rw [hz]
      by_cases hj2 : j < numWords L v.sz
      · rw [if_pos (by omega)]
      · rw [if_neg (by omega), if_neg (by omega), ← bits_eq _ _ _ hk]
        apply h.clean
        have : L * numWords L v.sz ≤ L * j := Nat.mul_le_mul_left _ (by omega)
        omega
  refine ⟨⟨v.sz, w2⟩, ?_, inv_same h (by omega) (fun p hp => ?_), ?_⟩
  · rw [shrAssign]
    simp only [← hq, ← hr]
    rw [show v.words.length - 1 = numWords L v.sz by omega, if_neg (by omega), e1]
    simp only [Option.bind_eq_bind, Option.bind_some]
    rw [e2]
    rfl
  · rw [hb]; exact h.clean _ (by omega)
  · apply toList_eq
    · simp [toList_length]; omega
    · intro p hp
      show _ = bits w2 p
      rw [hb, ← toList_getD h, List.getD_eq_getElem?_getD, List.getD_eq_getElem?_getD, List.getElem?_append,
        List.getElem?_drop]
      by_cases hp2 : p < ((toList v).drop cnt).length
      · rw [if_pos hp2, Nat.add_comm cnt p]
      · rw [if_neg hp2]
        simp only [List.length_drop] at hp2
        rw [List.getElem?_eq_none (by omega : (toList v).length ≤ p + cnt)]
        by_cases h3 : p - ((toList v).drop cnt).length < min cnt (toList v).length
        · rw [List.getElem?_replicate_of_lt h3]; rfl
        · rw [List.getElem?_eq_none (by rw [List.length_replicate]; omega)]

example : shrAssign (⟨21, [0x35#8, 0x9A#8, 0x1C#8, 0#8]⟩ : BV 8) 11 =
    some ⟨21, [0x93#8, 0x03#8, 0#8, 0#8]⟩ := by decide +kernel

/-- **C22** (negative): `>>=` by more words than the vector has is not defined: the loop bound
`wsz - q` wraps around and words outside the vector are read. -/
theorem C22_shift_right_too_far {v : BV L} (h : Inv v) (cnt : Nat) (hc : numWords L v.sz < cnt / L) :
    shrAssign v cnt = none := by
  rw [shrAssign]
  have hlen := h.len
  rw [show v.words.length - 1 = numWords L v.sz by omega, if_pos hc]

/-! ### Left shift -/

theorem shlLoop_spec {q r N : Nat} {ws0 : List (BitVec L)} (hr : r < L) (n i : Nat) (ws : List (BitVec L))
    (hlen : ws.length = ws0.length) (hq : q + 1 ≤ i) (hin : i + n = N) (hi : N ≤ ws0.length)
    (hN : N ≤ 2 * q + 1 ∨ (q = 0 ∧ (N ≤ 2 ∨ r = 0)))
    (hag : ∀ j, j ≤ q ∨ i ≤ j → ∀ k, wbit ws j k = wbit ws0 j k) :
    ∃ ws', shlLoop q r n i ws = some ws' ∧ ws'.length = ws0.length ∧
      ∀ j k, k < L → wbit ws' j k =
        if i ≤ j ∧ j < i + n then bits ws0 (L * (j - q) + k - r) else wbit ws j k := by
  induction n generalizing i ws with
  | zero => exact ⟨ws, rfl, hlen, fun j k _ => by rw [if_neg (by omega)]⟩
  | succ n ih =>
    have hL : 0 < L := by omega
    obtain ⟨x, hx, hxb⟩ : ∃ x, (if r = 0 then rd ws (i - q) else do
        let a ← rd ws (i - q - 1)
        let b ← rd ws (i - q)
        some ((a >>> (L - r)) ||| (b <<< r))) = some x ∧
        ∀ k, k < L → x.getLsbD k = bits ws0 (L * (i - q) + k - r) := by
      obtain ⟨b, hb, hbb⟩ := rd_some (ws := ws) (i := i - q) (by omega)
      by_cases h0 : r = 0
      · refine ⟨b, by rw [if_pos h0, hb], fun k hk => ?_⟩
        rw [h0, Nat.sub_zero, bits_eq _ _ _ hk, hbb]
        apply hag
        omega
      · obtain ⟨a, ha, hab⟩ := rd_some (ws := ws) (i := i - q - 1) (by omega)
        refine ⟨_, by rw [if_neg h0, ha]; simp only [Option.bind_eq_bind, Option.bind_some]; rw [hb]; rfl,
          fun k hk => ?_⟩
        rw [BitVec.getLsbD_or, BitVec.getLsbD_ushiftRight, BitVec.getLsbD_shiftLeft, hab, hbb]
        by_cases hkr : k < r
        · have hsp : L * (i - q) + k - r = L * (i - q - 1) + (L - r + k) := by
            have : L * (i - q - 1) + L = L * (i - q) := by
              rw [← Nat.mul_succ]; congr 1; omega
            omega
          rw [hsp, bits_eq _ _ _ (by omega), hag _ (by omega)]
          simp [hkr]
        · rw [wbit_ge ws (i - q - 1) (L - r + k) (by omega),
            show L * (i - q) + k - r = L * (i - q) + (k - r) by omega, bits_eq _ _ _ (by omega),
            hag _ (by omega)]
          simp [hkr, hk]
    obtain ⟨h1, h2, h3⟩ := wr_some (ws := ws) (i := i) (by omega) x
    obtain ⟨ws', e, l', s⟩ := ih (i + 1) (ws.set i x) (by rw [h2, hlen]) (by omega) (by omega)
      (fun j hj k => by rw [h3, if_neg (by omega), hag j (by omega)])
    refine ⟨ws', ?_, l', fun j k hk => ?_⟩
    · rw [shlLoop]
      by_cases h0 : r = 0
      · rw [if_pos h0] at hx
        simp only [h0, if_true, hx, Option.bind_eq_bind, Option.bind_some, h1] at e ⊢
        exact e
      · rw [if_neg h0] at hx
        obtain ⟨a, ha, _⟩ := rd_some (ws := ws) (i := i - q - 1) (by omega)
        obtain ⟨b, hb, _⟩ := rd_some (ws := ws) (i := i - q) (by omega)
        simp only [h0, if_false, ha, hb, Option.bind_eq_bind, Option.bind_some, Option.some.injEq] at hx ⊢
        rw [hx, h1]
        exact e
    · rw [s j k hk, h3]
      by_cases hji : j = i
      · subst hji
        rw [if_neg (by omega), if_pos rfl, if_pos (by omega), hxb _ hk]
      · rw [if_neg hji]
        by_cases hr : i + 1 ≤ j ∧ j < i + 1 + n
        · rw [if_pos hr, if_pos (by omega)]
        · rw [if_neg hr, if_neg (by omega)]

/-- **C22** (partial): `<<= cnt` moves the bits up by `cnt` positions and fills with zeros from
below, when the vector has at most two words, or the shift covers at least half of its words.
The statement for all vectors is false, see `C22_shift_left_wrong`; and bits may be left behind
the end, see `C22_shift_left_dirty`. -/
theorem C22_shift_left_partial {v : BV L} (h : Inv v) (cnt : Nat) (hc : cnt / L < numWords L v.sz)
    (hsmall : numWords L v.sz ≤ 2 ∨ numWords L v.sz ≤ 2 * (cnt / L) + 1) :
    ∃ v', shlAssign v cnt = some v' ∧ v'.sz = v.sz ∧
      toList v' = (List.replicate cnt false ++ toList v).take (toList v).length := by
  have hL := h.pos
  have hcd := Nat.div_add_mod cnt L
  have hcm := Nat.mod_lt cnt hL
  obtain ⟨q, hq⟩ : ∃ q, q = cnt / L := ⟨_, rfl⟩
  obtain ⟨r, hr⟩ : ∃ r, r = cnt % L := ⟨_, rfl⟩
  rw [← hq, ← hr] at hcd
  rw [← hq] at hc hsmall
  rw [← hr] at hcm
  have hlen := h.len
  have hcov := numWords_cover hL v.sz
  obtain ⟨w1, e1, l1, s1⟩ := shlLoop_spec (q := q) (N := numWords L v.sz) (ws0 := v.words) hcm
    (numWords L v.sz - (q + 1)) (q + 1) v.words rfl (le_refl _) (by omega) (by omega) (by omega) (fun _ _ _ => rfl)
  obtain ⟨a, ha, hab⟩ := rd_some (ws := w1) (i := 0) (by omega)
  obtain ⟨h1, h2, h3⟩ := wr_some (ws := w1) (i := q) (by omega) (a <<< r)
  obtain ⟨w2, e2, l2, s2⟩ := zeroLoop_spec q 0 (w1.set q (a <<< r)) (by omega)
  have hb : ∀ p, p < v.sz → bits w2 p = if p < cnt then false else bits v.words (p - cnt) := by
    intro p hp
    obtain ⟨j, k, hk, rfl⟩ := exists_word hL p
    have hjn : j < numWords L v.sz := by
      by_contra hge
      have : L * numWords L v.sz ≤ L * j := Nat.mul_le_mul_left _ (by omega)
      omega
    have hlt : L * j + k < cnt ↔ j < q ∨ j = q ∧ k < r := by
      rw [← hcd]; exact lex_lt hk hcm
    rw [bits_eq _ _ _ hk, s2, h3]
    by_cases hj : j < q
    · rw [if_pos (by omega), if_pos (by rw [hlt]; omega)]
    · rw [if_neg (by omega)]
      by_cases hjq : j = q
      · subst hjq
        rw [if_pos rfl, BitVec.getLsbD_shiftLeft, hab, s1 0 (k - r) (by omega), if_neg (by omega)]
        by_cases hkr : k < r
        · rw [if_pos (by rw [hlt]; omega)]; simp [hkr]
        · rw [if_neg (by rw [hlt]; omega), show L * j + k - cnt = L * 0 + (k - r) by omega,
            bits_eq _ _ _ (by omega)]
          simp [hkr, hk]
      · rw [if_neg hjq, s1 j k hk, if_pos (by omega), if_neg (by rw [hlt]; omega)]
        congr 1
        have : L * (j - q) + L * q = L * j := by rw [← Nat.mul_add]; congr 1; omega
        have : L * 1 ≤ L * (j - q) := Nat.mul_le_mul_left _ (by omega)
        omega
  refine ⟨⟨v.sz, w2⟩, ?_, rfl, ?_⟩
  · rw [shlAssign]
    simp only [← hq, ← hr]
    rw [show v.words.length - 1 = numWords L v.sz by omega, e1]
    simp only [Option.bind_eq_bind, Option.bind_some]
    rw [ha]
    simp only [Option.bind_some]
    rw [h1]
    simp only [Option.bind_some]
    rw [e2]
    rfl
  · apply toList_eq
    · simp [toList_length]
    · intro p hp
      have hp' : p < v.sz := hp
      show _ = bits w2 p
      rw [hb p hp', List.getD_eq_getElem?_getD, List.getElem?_take_of_lt (by rw [toList_length]; exact hp'),
        List.getElem?_append]
      by_cases hpc : p < cnt
      · rw [if_pos hpc, if_pos (by simpa using hpc), List.getElem?_replicate_of_lt hpc]; rfl
      · rw [if_neg hpc, if_neg (by simpa using hpc), List.length_replicate, ← List.getD_eq_getElem?_getD,
          toList_getD h]

example : shlAssign (⟨14, [0x35#8, 0x1A#8, 0#8]⟩ : BV 8) 3 = some ⟨14, [0xA8#8, 0xD1#8, 0#8]⟩ := by
  decide +kernel

theorem inv_24 (a b c : BitVec 8) : Inv (⟨24, [a, b, c, 0#8]⟩ : BV 8) := by
  refine ⟨by omega, by simp [numWords], fun p hp => ?_⟩
  have hp' : 24 ≤ p := hp
  rw [bits_div, wbit]
  by_cases h3 : p / 8 = 3
  · rw [h3]; simp
  · rw [List.getD_eq_getElem?_getD, List.getElem?_eq_none (by simp; omega)]; simp

/-- **C22** (negative): `<<=` is wrong on three words (of 8 bits): the loop reads words it has
already overwritten.  Shifting the bits 8 to 11 by 4 also sets the bits 16 to 19. -/
theorem C22_shift_left_wrong :
    ∃ v : BV 8, Inv v ∧ ∃ v', shlAssign v 4 = some v' ∧
      toList v' ≠ (List.replicate 4 false ++ toList v).take (toList v).length :=
  ⟨⟨24, [0#8, 0x0F#8, 0#8, 0#8]⟩, inv_24 _ _ _, ⟨24, [0#8, 0xF0#8, 0x0F#8, 0#8]⟩, by decide +kernel⟩

theorem inv_4 (a : BitVec 8) (ha : ∀ k, 4 ≤ k → a.getLsbD k = false) : Inv (⟨4, [a, 0#8]⟩ : BV 8) := by
  refine ⟨by omega, by simp [numWords], fun p hp => ?_⟩
  have hp' : 4 ≤ p := hp
  rw [bits_div, wbit]
  by_cases h0 : p / 8 = 0
  · rw [h0]; exact ha _ (by omega)
  · by_cases h3 : p / 8 = 1
    · rw [h3]; simp
    · rw [List.getD_eq_getElem?_getD, List.getElem?_eq_none (by simp; omega)]; simp

/-- **C22** (negative): `<<=` leaves bits behind the end of the vector, and they come back:
four ones shifted left by 2 and right by 2 are four ones again, not two. -/
theorem C22_shift_left_dirty :
    ∃ v v' v'' : BV 8, Inv v ∧ toList v = [true, true, true, true] ∧ shlAssign v 2 = some v' ∧
      toList v' = [false, false, true, true] ∧ shrAssign v' 2 = some v'' ∧
      toList v'' = [true, true, true, true] := by
  refine ⟨⟨4, [0x0F#8, 0#8]⟩, ⟨4, [0x3C#8, 0#8]⟩, ⟨4, [0x0F#8, 0#8]⟩, inv_4 _ ?_, by decide +kernel⟩
  intro k hk
  by_cases h : k < 8
  · interval_cases k <;> rfl
  · exact BitVec.getLsbD_of_ge _ _ (by omega)

/-- **C22** (negative): `<<=` by more words than the vector has writes outside of the words. -/
theorem C22_shift_left_too_far {v : BV L} (h : Inv v) (cnt : Nat) (hc : numWords L v.sz < cnt / L) :
    shlAssign v cnt = none := by
  have hlen := h.len
  rw [shlAssign, show v.words.length - 1 = numWords L v.sz by omega,
    show numWords L v.sz - (cnt / L + 1) = 0 by omega, shlLoop]
  obtain ⟨a, ha, _⟩ := rd_some (ws := v.words) (i := 0) (by omega)
  simp only [Option.bind_eq_bind, Option.bind_some, ha]
  rw [wr, if_neg (by omega)]
  rfl

end Altruct.BitVector
