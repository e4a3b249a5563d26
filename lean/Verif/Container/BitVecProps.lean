/-
C22: `bit_vector` as a list of booleans: single bits, sizes, `apply` and the logical operators.
-/
import Verif.Container.BitVecLemmas

namespace Altruct.BitVector

variable {L : Nat}

/-! ### Specification on lists -/

/-- Apply `f` to the positions `b, …, e - 1` of a list. -/
def onRange (b e : Nat) (f : List Bool → List Bool) (l : List Bool) : List Bool :=
  l.take b ++ f ((l.take e).drop b) ++ l.drop e

/-- The part `b, …, e - 1` of a list. -/
def slice (b e : Nat) (l : List Bool) : List Bool := (l.take e).drop b

theorem slice_length (b e : Nat) (l : List Bool) (he : e ≤ l.length) : (slice b e l).length = e - b := by
  simp [slice]; omega

theorem slice_getD (b e : Nat) (l : List Bool) (k : Nat) (hk : b + k < e) :
    (slice b e l).getD k false = l.getD (b + k) false := by
  rw [slice, List.getD_eq_getElem?_getD, List.getD_eq_getElem?_getD, List.getElem?_drop,
    List.getElem?_take_of_lt hk]

theorem onRange_length (b e : Nat) (f : List Bool → List Bool) (l : List Bool) (hbe : b ≤ e)
    (he : e ≤ l.length) (hf : (f (slice b e l)).length = e - b) : (onRange b e f l).length = l.length := by
  rw [slice] at hf
  simp [onRange, hf]; omega

theorem onRange_getD (b e : Nat) (f : List Bool → List Bool) (l : List Bool) (hbe : b ≤ e)
    (he : e ≤ l.length) (hf : (f (slice b e l)).length = e - b) (p : Nat) :
    (onRange b e f l).getD p false =
      if b ≤ p ∧ p < e then (f (slice b e l)).getD (p - b) false else l.getD p false := by
  rw [slice] at hf ⊢
  have h1 : (l.take b).length = b := by simp; omega
  rw [onRange, List.append_assoc, List.getD_eq_getElem?_getD, List.getD_eq_getElem?_getD,
    List.getD_eq_getElem?_getD, List.getElem?_append, h1]
  by_cases hp : p < b
  · rw [if_pos hp, if_neg (by omega), List.getElem?_take_of_lt hp]
  · rw [if_neg hp, List.getElem?_append, hf]
    by_cases hp2 : p - b < e - b
    · rw [if_pos hp2, if_pos (by omega)]
    · rw [if_neg hp2, if_neg (by omega), List.getElem?_drop]
      congr 2
      omega

/-! ### From bits to lists -/

theorem toList_length (v : BV L) : (toList v).length = v.sz := by simp [toList]

theorem toList_getD {v : BV L} (h : Inv v) (p : Nat) : (toList v).getD p false = bits v.words p := by
  rw [toList, List.getD_eq_getElem?_getD, List.getElem?_map]
  by_cases hp : p < v.sz
  · rw [List.getElem?_range hp]; rfl
  · rw [List.getElem?_eq_none (by simp; omega), h.clean p (by omega)]; rfl

theorem ext_getD {l l' : List Bool} (hl : l.length = l'.length)
    (h : ∀ p, p < l.length → l.getD p false = l'.getD p false) : l = l' := by
  apply List.ext_getElem hl
  intro i h1 h2
  have := h i h1
  rwa [List.getD_eq_getElem?_getD, List.getD_eq_getElem?_getD, List.getElem?_eq_getElem h1,
    List.getElem?_eq_getElem h2] at this

theorem toList_eq {v : BV L} {l : List Bool} (hs : l.length = v.sz)
    (h : ∀ p, p < v.sz → l.getD p false = bits v.words p) : toList v = l := by
  symm
  apply ext_getD (by rw [toList_length, hs])
  intro p hp
  rw [hs] at hp
  rw [h p hp, toList, List.getD_eq_getElem?_getD, List.getElem?_map, List.getElem?_range hp]; rfl

/-! ### Sizes -/

theorem numWords_cover (hL : 0 < L) (n : Nat) : n ≤ L * numWords L n := by
  have h1 := Nat.div_add_mod (n + L - 1) L
  have h2 := Nat.mod_lt (n + L - 1) hL
  rw [numWords]
  omega

theorem bits_behind {ws : List (BitVec L)} {p : Nat} (hL : 0 < L) (h : L * ws.length ≤ p) :
    bits ws p = false := by
  rw [bits_div]
  apply wbit_out
  rw [Nat.le_div_iff_mul_le hL, Nat.mul_comm]; exact h

theorem inv_mk (hL : 0 < L) (n : Nat) : Inv (mk L n) := by
  refine ⟨hL, by simp [mk], fun p _ => ?_⟩
  rw [bits_div, wbit, mk, List.getD_eq_getElem?_getD]
  by_cases h : p / L < numWords L n + 1
  · simp [h]
  · rw [List.getElem?_eq_none (by simp; omega)]; simp

/-- **C22**: a new vector of `n` bits is all zeros. -/
theorem C22_new (hL : 0 < L) (n : Nat) : Inv (mk L n) ∧ toList (mk L n) = List.replicate n false := by
  refine ⟨inv_mk hL n, toList_eq (by simp [mk]) (fun p hp => ?_)⟩
  have hp' : p < n := hp
  rw [bits_div, wbit, mk, List.getD_eq_getElem?_getD, List.getD_eq_getElem?_getD]
  by_cases h : p / L < numWords L n + 1
  · simp [h, hp']
  · simp [hp', h]

theorem resize_spec (hL : 0 < L) (v : BV L) (n : Nat) :
    ∃ v', resize v n = some v' ∧ v'.sz = n ∧ v'.words.length = numWords L n + 1 ∧
      ∀ p, bits v'.words p = if p < n then bits v.words p else false := by
  have hm : ∃ m, m = numWords L n + 1 := ⟨_, rfl⟩
  obtain ⟨m, hm⟩ := hm
  obtain ⟨ws, hws⟩ : ∃ ws, ws = v.words.take m ++ List.replicate (m - v.words.length) 0#L := ⟨_, rfl⟩
  have hlen : ws.length = m := by rw [hws]; simp; omega
  have hcov := words_cover hL hm (le_refl n)
  have hwb : ∀ j k, j < m → wbit ws j k = wbit v.words j k := by
    intro j k hj
    rw [wbit, wbit, hws, List.getD_eq_getElem?_getD, List.getD_eq_getElem?_getD, List.getElem?_append]
    by_cases h : j < (v.words.take m).length
    · rw [if_pos h, List.getElem?_take_of_lt hj]
    · rw [if_neg h]
      have : v.words.length ≤ j := by simp at h; omega
      rw [List.getElem?_eq_none this]
      by_cases h2 : j - (v.words.take m).length < m - v.words.length
      · rw [List.getElem?_replicate_of_lt h2]; rfl
      · rw [List.getElem?_eq_none (by simpa using h2)]
  obtain ⟨x, hx, hxb⟩ := rd_some (show n / L < ws.length by omega)
  obtain ⟨h1, h2, h3⟩ := wr_some (show n / L < ws.length by omega) (x &&& firstBits L (n % L))
  obtain ⟨h4, h5, h6⟩ := wr_some (ws := ws.set (n / L) (x &&& firstBits L (n % L)))
    (show m - 1 < _ by rw [h2]; omega) 0#L
  refine ⟨⟨n, _⟩, ?_, rfl, by rw [h5, h2, hlen, hm], fun p => ?_⟩
  · rw [resize, ← hm, ← hws]
    simp only [Option.bind_eq_bind, hx, Option.bind_some, h1, h4]
  · obtain ⟨j, k, hk, rfl⟩ := exists_word hL p
    have hn := Nat.div_add_mod n L
    have hlt : L * j + k < n ↔ j < n / L ∨ j = n / L ∧ k < n % L := by
      conv_lhs => rw [← hn]
      rw [lex_lt hk (Nat.mod_lt n hL)]
    show bits ((ws.set (n / L) (x &&& firstBits L (n % L))).set (m - 1) 0#L) (L * j + k) = _
    rw [bits_eq _ _ _ hk, bits_eq _ _ _ hk, h6]
    by_cases hj : j = m - 1
    · rw [if_pos hj, BitVec.getLsbD_zero, if_neg]
      rw [hlt]
      by_cases h0 : n % L = 0
      · omega
      · have := hcov.2 h0; omega
    · rw [if_neg hj, h3]
      by_cases hj2 : j = n / L
      · rw [if_pos hj2, BitVec.getLsbD_and, firstBits_bit _ _ (Nat.mod_lt n hL), hxb]
        subst hj2
        rw [hwb _ _ (by omega)]
        by_cases hkl : k < n % L
        · rw [if_pos (hlt.mpr (Or.inr ⟨rfl, hkl⟩))]; simp [hkl]
        · rw [if_neg (by rw [hlt]; omega)]; simp [hkl]
      · rw [if_neg hj2]
        by_cases hj3 : j < n / L
        · rw [if_pos (hlt.mpr (Or.inl hj3)), hwb _ _ (by omega)]
        · rw [if_neg (by rw [hlt]; omega)]
          have h1n : n / L + 1 ≤ j := by omega
          -- j is at least m
          have : m ≤ j := by
            have hnw : numWords L n ≤ n / L + 1 := by
              rw [numWords]
              have : n + L - 1 < L * (n / L + 2) := by
                have := Nat.mod_lt n hL
                rw [Nat.mul_add]; omega
              have := Nat.div_lt_of_lt_mul this
              omega
            omega
          exact wbit_out _ _ _ (by omega)

theorem inv_of_resize {v' : BV L} {n : Nat} {g : Nat → Bool} (hL : 0 < L) (hs : v'.sz = n)
    (hl : v'.words.length = numWords L n + 1)
    (hb : ∀ p, bits v'.words p = if p < n then g p else false) : Inv v' :=
  ⟨hL, by rw [hl, hs], fun p hp => by rw [hb, if_neg (by omega)]⟩

/-- **C22**: `resize` keeps the first bits and appends zeros. -/
theorem C22_resize {v : BV L} (h : Inv v) (n : Nat) :
    ∃ v', resize v n = some v' ∧ Inv v' ∧
      toList v' = (toList v).take n ++ List.replicate (n - (toList v).length) false := by
  obtain ⟨v', e, hs, hl, hb⟩ := resize_spec h.pos v n
  refine ⟨v', e, inv_of_resize h.pos hs hl hb, ?_⟩
  apply toList_eq (by rw [hs]; simp; omega)
  intro p hp
  rw [hb, if_pos (by omega), ← toList_getD h, List.getD_eq_getElem?_getD, List.getD_eq_getElem?_getD,
    List.getElem?_append]
  by_cases hp2 : p < ((toList v).take n).length
  · rw [if_pos hp2, List.getElem?_take_of_lt (by omega)]
  · rw [if_neg hp2]
    simp only [List.length_take] at hp2
    rw [List.getElem?_eq_none (by omega : (toList v).length ≤ p)]
    by_cases h3 : p - ((toList v).take n).length < n - (toList v).length
    · simp at h3; simp [h3]
    · rw [List.getElem?_eq_none (by simpa using h3)]

/-- **C22**: `reserve` appends zeros up to the given size, and never shortens. -/
theorem C22_reserve {v : BV L} (h : Inv v) (n : Nat) :
    ∃ v', reserve v n = some v' ∧ Inv v' ∧
      toList v' = toList v ++ List.replicate (n - (toList v).length) false := by
  by_cases hn : v.sz < n
  · obtain ⟨v', e, i, t⟩ := C22_resize h n
    refine ⟨v', by rw [reserve, if_pos hn, e], i, ?_⟩
    rw [t, List.take_of_length_le (by rw [toList_length]; omega)]
  · refine ⟨v, by rw [reserve, if_neg hn], h, ?_⟩
    rw [toList_length, Nat.sub_eq_zero_of_le (by omega)]; simp

/-! ### Single bits -/

theorem set_spec {v : BV L} (h : Inv v) {pos : Nat} (hp : pos < v.sz) (val : Int) (b : Bool)
    (hv : (val = 0 ∧ b = false) ∨ (val = 1 ∧ b = true) ∨ (val = -1 ∧ b = !bits v.words pos)) :
    ∃ v', set v pos val = some v' ∧ Inv v' ∧ v'.sz = v.sz ∧
      ∀ p, bits v'.words p = if p = pos then b else bits v.words p := by
  have hcov := words_cover h.pos h.len (show pos ≤ v.sz by omega)
  obtain ⟨x, hx, hxb⟩ := rd_some hcov.1
  have hm := Nat.mod_lt pos h.pos
  have hdm := Nat.div_add_mod pos L
  have key : ∀ y : BitVec L, (∀ k, k < L → y.getLsbD k = if k = pos % L then b else x.getLsbD k) →
      Inv ⟨v.sz, v.words.set (pos / L) y⟩ ∧
      ∀ p, bits (v.words.set (pos / L) y) p = if p = pos then b else bits v.words p := by
    intro y hy
    obtain ⟨h1, h2, h3⟩ := wr_some hcov.1 y
    have hb : ∀ p, bits (v.words.set (pos / L) y) p = if p = pos then b else bits v.words p := by
      intro p
      obtain ⟨j, k, hk, rfl⟩ := exists_word h.pos p
      rw [bits_eq _ _ _ hk, bits_eq _ _ _ hk, h3]
      have hiff : L * j + k = pos ↔ j = pos / L ∧ k = pos % L := by
        constructor
        · intro he
          rw [← he, Nat.mul_add_div h.pos, Nat.div_eq_of_lt hk, Nat.mul_add_mod, Nat.mod_eq_of_lt hk]
          exact ⟨by omega, rfl⟩
        · rintro ⟨rfl, rfl⟩; exact hdm
      by_cases hj : j = pos / L
      · rw [if_pos hj, hy k hk]
        by_cases hkk : k = pos % L
        · rw [if_pos hkk, if_pos (hiff.mpr ⟨hj, hkk⟩)]
        · rw [if_neg hkk, if_neg (by rw [hiff]; omega), hxb, hj]
      · rw [if_neg hj, if_neg (by rw [hiff]; omega)]
    refine ⟨⟨h.pos, by rw [h2]; exact h.len, fun p hp' => ?_⟩, hb⟩
    rw [hb, if_neg (by simp at hp'; omega)]
    exact h.clean p hp'
  have hxp : x.getLsbD (pos % L) = bits v.words pos := by rw [hxb]; rfl
  rcases hv with ⟨rfl, rfl⟩ | ⟨rfl, rfl⟩ | ⟨rfl, rfl⟩
  · obtain ⟨i1, i2⟩ := key (x &&& ~~~(1#L <<< (pos % L))) (fun k hk => by
      rw [BitVec.getLsbD_and, BitVec.getLsbD_not, shl_one_bit _ _ hm]
      by_cases hkk : k = pos % L <;> simp [hkk, hk])
    refine ⟨_, ?_, i1, rfl, i2⟩
    rw [set]
    simp [hx, (wr_some hcov.1 _).1]
  · obtain ⟨i1, i2⟩ := key (x ||| (1#L <<< (pos % L))) (fun k hk => by
      rw [BitVec.getLsbD_or, shl_one_bit _ _ hm]
      by_cases hkk : k = pos % L <;> simp [hkk])
    refine ⟨_, ?_, i1, rfl, i2⟩
    rw [set]
    simp [hx, (wr_some hcov.1 _).1]
  · obtain ⟨i1, i2⟩ := key (x ^^^ (1#L <<< (pos % L))) (fun k hk => by
      rw [BitVec.getLsbD_xor, shl_one_bit _ _ hm, ← hxp]
      by_cases hkk : k = pos % L <;> simp [hkk])
    refine ⟨_, ?_, i1, rfl, i2⟩
    rw [set]
    simp [hx, (wr_some hcov.1 _).1]

theorem set_list {v v' : BV L} (h : Inv v) {pos : Nat} {b : Bool} (hs : v'.sz = v.sz)
    (hb : ∀ p, bits v'.words p = if p = pos then b else bits v.words p) :
    toList v' = (toList v).set pos b := by
  apply toList_eq (by rw [List.length_set, toList_length, hs])
  intro p hp
  rw [hb, List.getD_eq_getElem?_getD]
  by_cases hpp : p = pos
  · subst hpp
    rw [if_pos rfl, List.getElem?_set_self (by rw [toList_length]; omega)]; rfl
  · rw [if_neg hpp, List.getElem?_set_ne (Ne.symm hpp), ← List.getD_eq_getElem?_getD, toList_getD h]

/-- **C22**: `set(pos, val)` with `val` equal to 0, 1 or -1 clears, sets or flips that bit and no other. -/
theorem C22_set {v : BV L} (h : Inv v) {pos : Nat} (hp : pos < (toList v).length) :
    (∃ v', set v pos 0 = some v' ∧ Inv v' ∧ toList v' = (toList v).set pos false) ∧
    (∃ v', set v pos 1 = some v' ∧ Inv v' ∧ toList v' = (toList v).set pos true) ∧
    (∃ v', set v pos (-1) = some v' ∧ Inv v' ∧
      toList v' = (toList v).set pos (!(toList v).getD pos false)) := by
  rw [toList_length] at hp
  refine ⟨?_, ?_, ?_⟩
  · obtain ⟨v', e, i, s, b⟩ := set_spec h hp 0 false (Or.inl ⟨rfl, rfl⟩)
    exact ⟨v', e, i, set_list h s b⟩
  · obtain ⟨v', e, i, s, b⟩ := set_spec h hp 1 true (Or.inr (Or.inl ⟨rfl, rfl⟩))
    exact ⟨v', e, i, set_list h s b⟩
  · obtain ⟨v', e, i, s, b⟩ := set_spec h hp (-1) _ (Or.inr (Or.inr ⟨rfl, rfl⟩))
    exact ⟨v', e, i, by rw [toList_getD h]; exact set_list h s b⟩

/-- **C22**: reading a bit. -/
theorem C22_bit_at {v : BV L} (h : Inv v) {pos : Nat} (hp : pos < (toList v).length) :
    bitAt v pos = some (if (toList v).getD pos false then 1 else 0) := by
  rw [toList_length] at hp
  have hcov := words_cover h.pos h.len (show pos ≤ v.sz by omega)
  obtain ⟨x, hx, hxb⟩ := rd_some hcov.1
  rw [bitAt, hx, toList_getD h]
  simp only [Option.bind_eq_bind, Option.bind_some]
  have := (Bits.C23_single_bits x x x (pos % L) (Nat.mod_lt pos h.pos)).2.2.1
  rw [Bits.getBit, if_pos (Nat.mod_lt pos h.pos), Option.some.injEq] at this
  rw [this, hxb, bits_div]
  have hL := h.pos
  have h1 : (1#L).toNat = 1 := by
    rw [BitVec.toNat_ofNat, Nat.mod_eq_of_lt (Nat.one_lt_two_pow (by omega))]
  cases wbit v.words (pos / L) (pos % L)
  · simp
  · simp [h1]

/-- **C22**: assigning through `v[pos]`. -/
theorem C22_proxy {v : BV L} (h : Inv v) {pos : Nat} (hp : pos < (toList v).length) (b : Bool) :
    (∃ v', proxyAssign v pos (if b then 1 else 0) = some v' ∧ Inv v' ∧ toList v' = (toList v).set pos b) ∧
    (∃ v', proxyXor v pos (if b then 1 else 0) = some v' ∧ Inv v' ∧
      toList v' = (toList v).set pos ((toList v).getD pos false ^^ b)) ∧
    (∃ v', proxyOr v pos (if b then 1 else 0) = some v' ∧ Inv v' ∧
      toList v' = (toList v).set pos ((toList v).getD pos false || b)) ∧
    (∃ v', proxyAnd v pos (if b then 1 else 0) = some v' ∧ Inv v' ∧
      toList v' = (toList v).set pos ((toList v).getD pos false && b)) := by
  obtain ⟨h0, h1, h2⟩ := C22_set h hp
  have hself : toList v = (toList v).set pos ((toList v).getD pos false) := by
    rw [List.getD_eq_getElem?_getD, List.getElem?_eq_getElem hp]; simp
  cases b with
  | true => exact ⟨h1, by simpa [proxyXor] using h2, by simpa [proxyOr] using h1,
      ⟨v, rfl, h, by simpa using hself⟩⟩
  | false => exact ⟨h0, ⟨v, rfl, h, by simpa using hself⟩, ⟨v, rfl, h, by simpa using hself⟩,
      by simpa [proxyAnd] using h0⟩

/-- **C22**: `push_back`. -/
theorem C22_push_back {v : BV L} (h : Inv v) (b : Bool) :
    ∃ v', pushBack v (if b then 1 else 0) = some v' ∧ Inv v' ∧ toList v' = toList v ++ [b] := by
  obtain ⟨v1, e1, i1, t1⟩ := C22_resize h (v.sz + 1)
  have hs : v1.sz = v.sz + 1 := by
    rw [← toList_length v1, t1]; simp [toList_length]
  rw [List.take_of_length_le (by rw [toList_length]; omega), toList_length,
    show v.sz + 1 - v.sz = 1 by omega] at t1
  have hset : ∃ v', set v1 (v1.sz - 1) (if b then 1 else 0) = some v' ∧ Inv v' ∧
      toList v' = (toList v1).set (v1.sz - 1) b := by
    obtain ⟨h0, h1, _⟩ := C22_set i1 (pos := v1.sz - 1) (by rw [toList_length]; omega)
    cases b with
    | true => exact h1
    | false => exact h0
  obtain ⟨v', e, i, t⟩ := hset
  refine ⟨v', ?_, i, ?_⟩
  · rw [pushBack, e1]; exact e
  · rw [t, t1, hs, show v.sz + 1 - 1 = (toList v).length by rw [toList_length]; omega]
    simp

/-- **C22**: `pop_back`. -/
theorem C22_pop_back {v : BV L} (h : Inv v) (hp : toList v ≠ []) :
    ∃ v', popBack v = some v' ∧ Inv v' ∧ toList v' = (toList v).dropLast := by
  have hs : v.sz ≠ 0 := by
    intro hc; apply hp; rw [← List.length_eq_zero_iff, toList_length, hc]
  obtain ⟨v1, e1, i1, t1⟩ := C22_resize h (v.sz - 1)
  refine ⟨v1, by rw [popBack, if_neg hs, e1], i1, ?_⟩
  rw [t1, toList_length, show v.sz - 1 - v.sz = 0 by omega, List.dropLast_eq_take, toList_length]
  simp

theorem setAll_spec (xs : List Int) : ∀ (v : BV L), Inv v → ∀ pos, pos + xs.length = v.sz →
    ∃ v', setAll v pos xs = some v' ∧ Inv v' ∧
      toList v' = (toList v).take pos ++ xs.map (fun x => decide (x % 2 = 1)) := by
  induction xs with
  | nil =>
    intro v h pos hp
    exact ⟨v, rfl, h, by simp at hp; rw [List.take_of_length_le (by rw [toList_length]; omega)]; simp⟩
  | cons x xs ih =>
    intro v h pos hp
    rw [List.length_cons] at hp
    have hset : ∃ v1, set v pos (x % 2) = some v1 ∧ Inv v1 ∧
        toList v1 = (toList v).set pos (decide (x % 2 = 1)) := by
      obtain ⟨h0, h1, _⟩ := C22_set h (pos := pos) (by rw [toList_length]; omega)
      rcases Int.emod_two_eq_zero_or_one x with hx | hx
      · rw [hx]; exact h0
      · rw [hx]; exact h1
    obtain ⟨v1, e1, i1, t1⟩ := hset
    have hs1 : v1.sz = v.sz := by rw [← toList_length v1, t1, List.length_set, toList_length]
    obtain ⟨v', e, i, t⟩ := ih v1 i1 (pos + 1) (by omega)
    refine ⟨v', ?_, i, ?_⟩
    · rw [setAll, e1]; exact e
    · rw [t, t1, List.map_cons]
      have hlt : pos < (toList v).length := by rw [toList_length]; omega
      rw [List.take_add_one, List.getElem?_set_self hlt, List.take_set_of_le (le_refl _)]
      simp

/-- **C22**: the vector built from a sequence of integers holds their lowest bits. -/
theorem C22_of_list (hL : 0 < L) (xs : List Int) :
    ∃ v, ofList L xs = some v ∧ Inv v ∧ toList v = xs.map (fun x => decide (x % 2 = 1)) := by
  obtain ⟨v1, e1, s1, l1, b1⟩ := resize_spec hL (⟨0, []⟩ : BV L) xs.length
  have i1 := inv_of_resize hL s1 l1 b1
  obtain ⟨v, e, i, t⟩ := setAll_spec xs v1 i1 0 (by omega)
  exact ⟨v, by rw [ofList, e1]; exact e, i, by rw [t]; simp⟩

example : ∃ v, ofList 8 [1, 0, 1, 1, 0, 0, 1, 0, 1, 1] = some v ∧ v.words = [0x4D#8, 0x03#8, 0#8] ∧
    toList v = [true, false, true, true, false, false, true, false, true, true] := by
  refine ⟨⟨10, [0x4D#8, 0x03#8, 0#8]⟩, ?_⟩
  decide +kernel

/-! ### apply -/

theorem inv_same {v : BV L} (h : Inv v) {ws : List (BitVec L)} (hl : ws.length = v.words.length)
    (hc : ∀ p, v.sz ≤ p → bits ws p = false) : Inv ⟨v.sz, ws⟩ :=
  ⟨h.pos, by rw [hl]; exact h.len, hc⟩

theorem apply_list {v : BV L} (h : Inv v) {op : WordOp L} {b e : Nat} {back : Bool} {G : Nat → Bool → Bool}
    (hbe : b ≤ e) (he : e ≤ v.sz) (hop : OpOK op v.words b e back G) (f : List Bool → List Bool)
    (hf : (f (slice b e (toList v))).length = e - b)
    (hfg : ∀ k, k < e - b → (f (slice b e (toList v))).getD k false = G k ((toList v).getD (b + k) false)) :
    ∃ ws, apply v.words b e op back = some ws ∧ Inv ⟨v.sz, ws⟩ ∧
      toList ⟨v.sz, ws⟩ = onRange b e f (toList v) := by
  have hcov := words_cover h.pos h.len he
  obtain ⟨ws, ea, l, s⟩ := apply_spec h.pos hbe hcov.1 hop
  refine ⟨ws, ea, inv_same h l (fun p hp => ?_), ?_⟩
  · rw [s, if_neg (by omega)]; exact h.clean p hp
  · apply toList_eq
    · rw [onRange_length b e f _ hbe (by rw [toList_length]; exact he) hf, toList_length]
    · intro p hp
      rw [onRange_getD b e f _ hbe (by rw [toList_length]; exact he) hf]
      show _ = bits ws p
      rw [s]
      by_cases hr : b ≤ p ∧ p < e
      · rw [if_pos hr, if_pos hr, hfg (p - b) (by omega), ← toList_getD h, show b + (p - b) = p by omega]
      · rw [if_neg hr, if_neg hr, toList_getD h]

/-- An operation that treats every bit of the word with `g`. -/
theorem opOK_bitwise (g : Bool → Bool) (op : WordOp L)
    (h : ∀ cur w pos l, ∃ r, op cur w pos l = some r ∧ ∀ k, k < L → r.getLsbD k = g (w.getLsbD k))
    (ws : List (BitVec L)) (b e : Nat) (back : Bool) : OpOK op ws b e back (fun _ => g) := by
  intro cur w pos l _ _ _
  obtain ⟨r, hr, hb⟩ := h cur w pos l
  exact ⟨r, hr, fun k hk _ _ => hb k hk⟩

theorem opSet0_bit (cur : List (BitVec L)) (w : BitVec L) (pos l : Nat) :
    ∃ r, opSet0 cur w pos l = some r ∧ ∀ k, k < L → r.getLsbD k = false := ⟨_, rfl, by simp⟩

theorem opSet1_bit (cur : List (BitVec L)) (w : BitVec L) (pos l : Nat) :
    ∃ r, opSet1 cur w pos l = some r ∧ ∀ k, k < L → r.getLsbD k = true :=
  ⟨_, rfl, fun k hk => by rw [BitVec.getLsbD_allOnes]; simpa using hk⟩

theorem opFlip_bit (cur : List (BitVec L)) (w : BitVec L) (pos l : Nat) :
    ∃ r, opFlip cur w pos l = some r ∧ ∀ k, k < L → r.getLsbD k = !w.getLsbD k :=
  ⟨_, rfl, fun k hk => by rw [BitVec.getLsbD_not]; simp [hk]⟩

theorem apply_map {v : BV L} (h : Inv v) (g : Bool → Bool) (op : WordOp L)
    (hg : ∀ cur w pos l, ∃ r, op cur w pos l = some r ∧ ∀ k, k < L → r.getLsbD k = g (w.getLsbD k))
    {b e : Nat} (back : Bool) (hbe : b ≤ e) (he : e ≤ v.sz) :
    ∃ ws, apply v.words b e op back = some ws ∧ Inv ⟨v.sz, ws⟩ ∧
      toList ⟨v.sz, ws⟩ = onRange b e (List.map g) (toList v) := by
  have hsl : (slice b e (toList v)).length = e - b := slice_length _ _ _ (by rw [toList_length]; exact he)
  apply apply_list h hbe he (opOK_bitwise g op hg v.words b e back)
  · rw [List.length_map, hsl]
  · intro k hk
    have hlt : k < (slice b e (toList v)).length := by omega
    rw [List.getD_eq_getElem?_getD, List.getElem?_map, List.getElem?_eq_getElem hlt, ← slice_getD b e _ k (by omega),
      List.getD_eq_getElem?_getD, List.getElem?_eq_getElem hlt]
    rfl

/-- **C22**: `apply` with `op_set0`, `op_set1`, `op_nop`, `op_flip` on any range changes the bits
of that range accordingly, and no other bit. -/
theorem C22_apply {v : BV L} (h : Inv v) {b e : Nat} (back : Bool) (hbe : b ≤ e) (he : e ≤ (toList v).length) :
    (∃ ws, apply v.words b e opSet0 back = some ws ∧ Inv ⟨v.sz, ws⟩ ∧
      toList ⟨v.sz, ws⟩ = onRange b e (List.map (fun _ => false)) (toList v)) ∧
    (∃ ws, apply v.words b e opSet1 back = some ws ∧ Inv ⟨v.sz, ws⟩ ∧
      toList ⟨v.sz, ws⟩ = onRange b e (List.map (fun _ => true)) (toList v)) ∧
    (∃ ws, apply v.words b e opNop back = some ws ∧ Inv ⟨v.sz, ws⟩ ∧
      toList ⟨v.sz, ws⟩ = onRange b e (List.map (fun x => x)) (toList v)) ∧
    (∃ ws, apply v.words b e opFlip back = some ws ∧ Inv ⟨v.sz, ws⟩ ∧
      toList ⟨v.sz, ws⟩ = onRange b e (List.map (fun x => !x)) (toList v)) := by
  rw [toList_length] at he
  exact ⟨apply_map h _ _ (fun _ _ _ _ => opSet0_bit _ _ _ _) back hbe he,
    apply_map h _ _ (fun _ _ _ _ => opSet1_bit _ _ _ _) back hbe he,
    apply_map h _ _ (fun _ w _ _ => ⟨w, rfl, fun _ _ => rfl⟩) back hbe he,
    apply_map h _ _ (fun _ _ _ _ => opFlip_bit _ _ _ _) back hbe he⟩

/-- The word operation `f` treats bits with `g`. -/
def Bitwise (f : BitVec L → BitVec L → BitVec L) (g : Bool → Bool → Bool) : Prop :=
  ∀ a b k, k < L → (f a b).getLsbD k = g (a.getLsbD k) (b.getLsbD k)

/-- The operations of bit_vector.h:346-353 and the operations on bits they stand for. -/
theorem bitwise_ops : Bitwise (L := L) fSet (fun _ y => y) ∧ Bitwise (L := L) fSetn (fun _ y => !y) ∧
    Bitwise (L := L) fAnd (fun x y => x && y) ∧ Bitwise (L := L) fOr (fun x y => x || y) ∧
    Bitwise (L := L) fXor (fun x y => x ^^ y) ∧ Bitwise (L := L) fNand (fun x y => !(x && y)) ∧
    Bitwise (L := L) fNor (fun x y => !(x || y)) ∧ Bitwise (L := L) fEq (fun x y => x == y) := by
  refine ⟨fun a b k hk => rfl, fun a b k hk => ?_, fun a b k hk => ?_, fun a b k hk => ?_,
    fun a b k hk => ?_, fun a b k hk => ?_, fun a b k hk => ?_, fun a b k hk => ?_⟩
  · rw [fSetn, BitVec.getLsbD_not]; simp [hk]
  · rw [fAnd, BitVec.getLsbD_and]
  · rw [fOr, BitVec.getLsbD_or]
  · rw [fXor, BitVec.getLsbD_xor]
  · rw [fNand, BitVec.getLsbD_not, BitVec.getLsbD_and]; simp [hk]
  · rw [fNor, BitVec.getLsbD_not, BitVec.getLsbD_or]; simp [hk]
  · rw [fEq, BitVec.getLsbD_not, BitVec.getLsbD_xor]
    cases a.getLsbD k <;> cases b.getLsbD k <;> simp [hk]

theorem wordAtPos_congr {ws ws' : List (BitVec L)} {p : Nat} (hlen : ws.length = ws'.length)
    (h1 : ∀ k, wbit ws (p / L) k = wbit ws' (p / L) k)
    (h2 : p % L ≠ 0 → ∀ k, wbit ws (p / L + 1) k = wbit ws' (p / L + 1) k) :
    wordAtPos ws p = wordAtPos ws' p := by
  have key : ∀ i, (∀ k, wbit ws i k = wbit ws' i k) → rd ws i = rd ws' i := by
    intro i h
    by_cases hi : i < ws.length
    · have hi' : i < ws'.length := by omega
      obtain ⟨w, hw, hb⟩ := rd_some hi
      obtain ⟨w', hw', hb'⟩ := rd_some hi'
      rw [hw, hw']
      congr 1
      apply BitVec.eq_of_getLsbD_eq
      intro k _
      rw [hb, hb', h]
    · rw [rd, rd, List.getElem?_eq_none (by omega), List.getElem?_eq_none (by omega)]
  rw [wordAtPos, wordAtPos, wordAt, wordAt]
  by_cases h0 : p % L = 0
  · rw [if_pos h0, if_pos h0, key _ h1]
  · rw [if_neg h0, if_neg h0, key _ h1, key _ (h2 h0)]

/-- The second vector of a two-range operation. -/
def second (v : BV L) (other : Option (BV L)) : BV L := other.getD v

theorem opOK_two {v : BV L} (other : Option (BV L)) (h2 : Inv (second v other))
    {f : BitVec L → BitVec L → BitVec L} {g : Bool → Bool → Bool} (hfg : Bitwise f g) {b1 b2 len : Nat}
    (he2 : b2 + len ≤ (second v other).sz) :
    OpOK (op2 f (other.map BV.words) b2) v.words b1 (b1 + len) (decide (b2 < b1))
      (fun k x => g x (bits (second v other).words (b2 + k))) := by
  intro cur w pos l hpos hlen hag
  rw [Nat.add_sub_cancel_left] at hpos
  have hL := h2.pos
  have hcov := words_cover hL h2.len (show b2 + pos ≤ (second v other).sz by omega)
  obtain ⟨r, hr, hb⟩ := wordAtPos_spec hL hcov.1 hcov.2
  have hread : wordAtPos ((other.map BV.words).getD cur) (b2 + pos) = some r := by
    rw [← hr]
    cases other with
    | some u => rfl
    | none =>
      show wordAtPos cur (b2 + pos) = wordAtPos v.words (b2 + pos)
      rcases hag with hag | ⟨hal, hag⟩
      · rw [hag]
      · apply wordAtPos_congr hlen
        · intro k
          apply hag
          by_cases hlt : b2 < b1
          · simp only [hlt, decide_true, if_true]
            exact Nat.div_le_div_right (by omega)
          · simp only [hlt, decide_false, Bool.false_eq_true, if_false]
            exact Nat.div_le_div_right (by omega)
        · intro hne k
          apply hag
          by_cases hlt : b2 < b1
          · simp only [hlt, decide_true, if_true]
            have hm := Nat.div_add_mod (b1 + pos) L
            have hm2 := Nat.div_add_mod (b2 + pos) L
            have h3 : (b2 + pos) / L < (b1 + pos) / L := by
              have : L * ((b2 + pos) / L) < L * ((b1 + pos) / L) := by omega
              exact Nat.lt_of_mul_lt_mul_left this
            omega
          · simp only [hlt, decide_false, Bool.false_eq_true, if_false]
            have : (b1 + pos) / L ≤ (b2 + pos) / L := Nat.div_le_div_right (by omega)
            omega
  refine ⟨f w r, ?_, fun k hk _ _ => ?_⟩
  · rw [op2, hread]; rfl
  · rw [hfg _ _ _ hk, hb k hk, Nat.add_assoc]

/-- **C22**: `apply` of a two-operand bit operation to the ranges `[b1, b1+len)` of a vector and
`[b2, b2+len)` of another vector, or of the same vector (`other = none`; the ranges may overlap):
the first range gets the results computed from the original bits, nothing else changes. -/
theorem C22_apply2 {v : BV L} (h : Inv v) (other : Option (BV L)) (h2 : ∀ u, other = some u → Inv u)
    {f : BitVec L → BitVec L → BitVec L} {g : Bool → Bool → Bool} (hfg : Bitwise f g) {b1 b2 len : Nat}
    (he1 : b1 + len ≤ (toList v).length) (he2 : b2 + len ≤ (toList (other.getD v)).length) :
    ∃ ws, apply2 v.words b1 (other.map BV.words) b2 len f = some ws ∧ Inv ⟨v.sz, ws⟩ ∧
      toList ⟨v.sz, ws⟩ = onRange b1 (b1 + len)
        (fun l => List.zipWith g l (slice b2 (b2 + len) (toList (other.getD v)))) (toList v) := by
  have hi2 : Inv (second v other) := by
    cases other with
    | none => exact h
    | some u => exact h2 u rfl
  have hs1 : (slice b1 (b1 + len) (toList v)).length = len := by
    rw [slice_length _ _ _ he1]; omega
  have hs2 : (slice b2 (b2 + len) (toList (second v other))).length = len := by
    rw [slice_length b2 (b2 + len) (toList (second v other)) he2]; omega
  rw [toList_length] at he1
  have he2' : b2 + len ≤ (second v other).sz := by rw [← toList_length]; exact he2
  show ∃ ws, apply v.words b1 (b1 + len) (op2 f (other.map BV.words) b2) (decide (b2 < b1)) = some ws ∧ _
  apply apply_list h (Nat.le_add_right _ _) he1 (opOK_two other hi2 hfg he2')
  · show (List.zipWith g (slice b1 (b1 + len) (toList v)) (slice b2 (b2 + len) (toList (second v other)))).length = _
    rw [List.length_zipWith, hs1, hs2]; omega
  · intro k hk
    rw [Nat.add_sub_cancel_left] at hk
    show (List.zipWith g (slice b1 (b1 + len) (toList v)) (slice b2 (b2 + len) (toList (second v other)))).getD k false = _
    rw [← toList_getD hi2, ← slice_getD b1 (b1 + len) _ k (by omega),
      ← slice_getD b2 (b2 + len) (toList (second v other)) k (by omega)]
    have k1 : k < (slice b1 (b1 + len) (toList v)).length := by omega
    have k2 : k < (slice b2 (b2 + len) (toList (second v other))).length := by omega
    rw [List.getD_eq_getElem?_getD, List.getD_eq_getElem?_getD, List.getD_eq_getElem?_getD,
      List.getElem?_zipWith, List.getElem?_eq_getElem k1, List.getElem?_eq_getElem k2]
    rfl

example : apply2 [0x35#8, 0x9A#8, 0x3C#8, 0x01#8, 0#8] 5 none 2 20 fXor =
    some [0x95#8, 0x4B#8, 0xD8#8, 0x00#8, 0#8] := by decide +kernel

/-! ### Logical operators -/

theorem onRange_all (f : List Bool → List Bool) (l : List Bool) (n : Nat) (hn : l.length = n) :
    onRange 0 n f l = f l := by
  subst hn
  simp [onRange]

/-- **C22**: `~v` flips every bit. -/
theorem C22_not {v : BV L} (h : Inv v) :
    ∃ v', not v = some v' ∧ Inv v' ∧ toList v' = (toList v).map (fun x => !x) := by
  obtain ⟨ws, e, i, t⟩ := (C22_apply h (b := 0) (e := v.sz) false (Nat.zero_le _) (by rw [toList_length])).2.2.2
  refine ⟨⟨v.sz, ws⟩, by rw [not, e]; rfl, i, ?_⟩
  rw [t, onRange_all _ _ _ (toList_length v)]

theorem logical_spec {v u : BV L} (h : Inv v) (h2 : Inv u) {f : BitVec L → BitVec L → BitVec L}
    {g : Bool → Bool → Bool} (hfg : Bitwise f g) :
    ∃ v1 ws, reserve v u.sz = some v1 ∧ apply2 v1.words 0 (some u.words) 0 u.sz f = some ws ∧
      v1.sz = max v.sz u.sz ∧ Inv ⟨v1.sz, ws⟩ ∧
      ∀ p, bits ws p = if p < u.sz then g ((toList v).getD p false) ((toList u).getD p false)
        else (toList v).getD p false := by
  obtain ⟨v1, e1, i1, t1⟩ := C22_reserve h u.sz
  have hs : v1.sz = max v.sz u.sz := by
    rw [← toList_length v1, t1]; simp [toList_length]; omega
  have hg : ∀ p, (toList v1).getD p false = (toList v).getD p false := by
    intro p
    rw [t1, List.getD_eq_getElem?_getD, List.getD_eq_getElem?_getD, List.getElem?_append]
    by_cases hp : p < (toList v).length
    · rw [if_pos hp]
    · rw [if_neg hp, List.getElem?_eq_none (by omega : (toList v).length ≤ p)]
      by_cases h3 : p - (toList v).length < u.sz - (toList v).length
      · simp [h3]
      · rw [List.getElem?_eq_none (by simpa using h3)]
  have hop := opOK_two (v := v1) (some u) (f := f) (g := g) (b1 := 0) (b2 := 0) (len := u.sz)
    h2 hfg (by show 0 + u.sz ≤ u.sz; omega)
  have hcov := words_cover i1.pos i1.len (show u.sz ≤ v1.sz by omega)
  obtain ⟨ws, ea, l, s⟩ := apply_spec i1.pos (Nat.zero_le _) (by rw [Nat.zero_add]; exact hcov.1) hop
  have hb : ∀ p, bits ws p = if p < u.sz then g ((toList v).getD p false) ((toList u).getD p false)
        else (toList v).getD p false := by
    intro p
    rw [s, ← toList_getD i1, hg]
    simp only [Nat.zero_le, true_and, Nat.zero_add, Nat.sub_zero]
    by_cases hp : p < u.sz
    · rw [if_pos hp, if_pos hp, toList_getD h2]; rfl
    · rw [if_neg hp, if_neg hp]
  refine ⟨v1, ws, e1, ?_, hs, inv_same i1 l (fun p hp => ?_), hb⟩
  · exact ea
  · rw [hb, if_neg (by omega), toList_getD h, h.clean p (by omega)]

/-- Bitwise operation on two lists, the shorter one being padded with zeros. -/
def padZip (g : Bool → Bool → Bool) (a b : List Bool) : List Bool :=
  (List.range (max a.length b.length)).map (fun p => g (a.getD p false) (b.getD p false))

theorem padZip_getD (g : Bool → Bool → Bool) (a b : List Bool) (p : Nat) (hp : p < max a.length b.length) :
    (padZip g a b).getD p false = g (a.getD p false) (b.getD p false) := by
  rw [padZip, List.getD_eq_getElem?_getD, List.getElem?_map, List.getElem?_range hp]; rfl

theorem getD_behind {l : List Bool} {p : Nat} (h : l.length ≤ p) : l.getD p false = false := by
  rw [List.getD_eq_getElem?_getD, List.getElem?_eq_none h]; rfl

/-- **C22**: `|=`, `^=` and `&=` with a vector of any size: the result has the larger size, and
the missing bits of the shorter operand count as zeros. -/
theorem C22_logical {v u : BV L} (h : Inv v) (h2 : Inv u) :
    (∃ v', orAssign v u = some v' ∧ Inv v' ∧ toList v' = padZip (fun x y => x || y) (toList v) (toList u)) ∧
    (∃ v', xorAssign v u = some v' ∧ Inv v' ∧ toList v' = padZip (fun x y => x ^^ y) (toList v) (toList u)) ∧
    (∃ v', andAssign v u = some v' ∧ Inv v' ∧ toList v' = padZip (fun x y => x && y) (toList v) (toList u)) := by
  obtain ⟨_, _, oAnd, oOr, oXor, _, _, _⟩ := bitwise_ops (L := L)
  refine ⟨?_, ?_, ?_⟩
  · obtain ⟨v1, ws, e1, e2, hs, i, hb⟩ := logical_spec h h2 oOr
    refine ⟨⟨v1.sz, ws⟩, by rw [orAssign, e1]; simp only [Option.bind_eq_bind, Option.bind_some]; rw [e2]; rfl,
      i, ?_⟩
    apply toList_eq (by simp [padZip, toList_length, hs])
    intro p hp
    rw [padZip_getD _ _ _ _ (by rw [toList_length, toList_length]; simp at hp; omega)]
    show _ = bits ws p
    rw [hb]
    by_cases hp2 : p < u.sz
    · rw [if_pos hp2]
    · rw [if_neg hp2, getD_behind (l := toList u) (by rw [toList_length]; omega)]; simp
  · obtain ⟨v1, ws, e1, e2, hs, i, hb⟩ := logical_spec h h2 oXor
    refine ⟨⟨v1.sz, ws⟩, by rw [xorAssign, e1]; simp only [Option.bind_eq_bind, Option.bind_some]; rw [e2]; rfl,
      i, ?_⟩
    apply toList_eq (by simp [padZip, toList_length, hs])
    intro p hp
    rw [padZip_getD _ _ _ _ (by rw [toList_length, toList_length]; simp at hp; omega)]
    show _ = bits ws p
    rw [hb]
    by_cases hp2 : p < u.sz
    · rw [if_pos hp2]
    · rw [if_neg hp2, getD_behind (l := toList u) (by rw [toList_length]; omega)]; simp
  · obtain ⟨v1, ws, e1, e2, hs, i, hb⟩ := logical_spec h h2 oAnd
    have hop := opOK_bitwise (L := L) (fun _ => false) opSet0 (fun _ _ _ _ => opSet0_bit _ _ _ _) ws u.sz v1.sz false
    have hcov := words_cover (n := v1.sz) i.pos i.len (le_refl v1.sz)
    obtain ⟨ws', ea, l, s⟩ := apply_spec i.pos (by omega) hcov.1 hop
    refine ⟨⟨v1.sz, ws'⟩, ?_, inv_same i l (fun p hp => ?_), ?_⟩
    · rw [andAssign, e1]
      simp only [Option.bind_eq_bind, Option.bind_some]
      rw [e2]
      simp only [Option.bind_some]
      rw [ea]
      rfl
    · have hp' : v1.sz ≤ p := hp
      rw [s, if_neg (by omega)]; exact i.clean p hp
    · apply toList_eq (by simp [padZip, toList_length, hs])
      intro p hp
      have hp' : p < v1.sz := hp
      rw [padZip_getD _ _ _ _ (by rw [toList_length, toList_length]; omega)]
      show _ = bits ws' p
      rw [s, hb]
      by_cases hp2 : p < u.sz
      · rw [if_neg (by omega), if_pos hp2]
      · rw [if_pos (by omega), getD_behind (l := toList u) (by rw [toList_length]; omega)]; simp

example : andAssign (⟨10, [0x4D#8, 0x03#8, 0#8]⟩ : BV 8) ⟨3, [0x05#8, 0#8]⟩ =
    some ⟨10, [0x05#8, 0#8, 0#8]⟩ := by decide +kernel

end Altruct.BitVector
