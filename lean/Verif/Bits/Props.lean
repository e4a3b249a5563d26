/-
C23: the word tricks of bits.h / bits.cpp.
-/
import Verif.Bits.Model
import Mathlib.Data.Nat.Log
import Mathlib.Tactic.Ring
import Mathlib.Tactic.Linarith

namespace Altruct.Bits

variable {w : Nat}

/-! ### Specification -/

/-- The number of ones of a word. -/
def ones (x : BitVec w) : Nat := ((List.range w).filter (fun i => x.getLsbD i)).length

/-! ### Single bits -/

theorem getLsbD_shl_one (pos i : Nat) (hp : pos < w) : (1#w <<< pos).getLsbD i = decide (i = pos) := by
  rw [BitVec.getLsbD_shiftLeft, BitVec.getLsbD_one]
  by_cases h : i = pos
  · subst h; simp [hp]; omega
  · simp [h]; omega

theorem getLsbD_ones (c i : Nat) (hc : c < w) : (1#w <<< c - 1#w).getLsbD i = decide (i < c) := by
  have h1 : (1#w <<< c).toNat = 2 ^ c := by
    have : 2 ^ c < 2 ^ w := Nat.pow_lt_pow_right (by omega) hc
    have h2 : 1 < 2 ^ w := Nat.one_lt_two_pow (by omega)
    rw [BitVec.toNat_shiftLeft, BitVec.toNat_ofNat, Nat.mod_eq_of_lt h2, Nat.shiftLeft_eq, one_mul,
      Nat.mod_eq_of_lt this]
  have h2 : 1 < 2 ^ w := Nat.one_lt_two_pow (by omega)
  have h3 : (1#w).toNat = 1 := by rw [BitVec.toNat_ofNat, Nat.mod_eq_of_lt h2]
  have h4 : (1#w <<< c - 1#w).toNat = 2 ^ c - 1 := by
    rw [BitVec.toNat_sub_of_le (by
      rw [BitVec.le_def, h1, h3]; exact Nat.one_le_two_pow), h1, h3]
  rw [BitVec.getLsbD, h4, Nat.testBit_two_pow_sub_one]

/-- **C23**: `make_bit`, `make_ones`, `get_bit`, `set_bit`, `flip_bit`, `clear_bit`, `erase_bit`
and `mix_bits` are what their comments say, bit by bit. -/
theorem C23_single_bits (x y m : BitVec w) (pos : Nat) (hp : pos < w) :
    (∃ r, makeBit w pos = some r ∧ ∀ i, r.getLsbD i = decide (i = pos)) ∧
    (∃ r, makeOnes w pos = some r ∧ ∀ i, r.getLsbD i = decide (i < pos)) ∧
    (getBit x pos = some (if x.getLsbD pos then 1#w else 0#w)) ∧
    (∃ r, setBit x pos = some r ∧ ∀ i, r.getLsbD i = if i = pos then true else x.getLsbD i) ∧
    (∃ r, flipBit x pos = some r ∧ ∀ i, r.getLsbD i = if i = pos then !x.getLsbD i else x.getLsbD i) ∧
    (∃ r, clearBit x pos = some r ∧ ∀ i, r.getLsbD i = if i = pos then false else x.getLsbD i) ∧
    (∃ r, eraseBit x pos = some r ∧
      ∀ i, r.getLsbD i = if i < pos then x.getLsbD i else x.getLsbD (i + 1)) ∧
    (∀ i, (mixBits x y m).getLsbD i = if m.getLsbD i then y.getLsbD i else x.getLsbD i) := by
  refine ⟨⟨_, if_pos hp, fun i => getLsbD_shl_one pos i hp⟩, ⟨_, ?_, fun i => getLsbD_ones pos i hp⟩, ?_,
    ⟨_, if_pos hp, fun i => ?_⟩, ⟨_, if_pos hp, fun i => ?_⟩, ⟨_, if_pos hp, fun i => ?_⟩,
    ⟨_, if_pos hp, fun i => ?_⟩, fun i => ?_⟩
  · rw [makeOnes, makeBit, if_pos hp]; rfl
  · rw [getBit, if_pos hp]
    congr 1
    apply BitVec.eq_of_getLsbD_eq
    intro i hi
    rw [BitVec.getLsbD_and, BitVec.getLsbD_ushiftRight, BitVec.getLsbD_one]
    have hw : 0 < w := by omega
    by_cases h : i = 0
    · subst h; cases x.getLsbD pos <;> simp [hw]
    · cases x.getLsbD pos <;> simp [h]
  · rw [BitVec.getLsbD_or, getLsbD_shl_one _ _ hp]; by_cases h : i = pos <;> simp [h]
  · rw [BitVec.getLsbD_xor, getLsbD_shl_one _ _ hp]; by_cases h : i = pos <;> simp [h]
  · rw [BitVec.getLsbD_and, BitVec.getLsbD_not, getLsbD_shl_one _ _ hp]
    by_cases hi : i < w
    · by_cases h : i = pos <;> simp [h, hi]
    · rw [BitVec.getLsbD_of_ge x i (by omega)]; simp
  · rw [BitVec.getLsbD_or, BitVec.getLsbD_and, BitVec.getLsbD_and, BitVec.getLsbD_not,
      getLsbD_ones _ _ hp, BitVec.getLsbD_ushiftRight]
    by_cases hi : i < w
    · by_cases h : i < pos <;> simp [h, hi, Nat.add_comm]
    · rw [BitVec.getLsbD_of_ge x i (by omega), BitVec.getLsbD_of_ge x (1 + i) (by omega),
        BitVec.getLsbD_of_ge x (i + 1) (by omega)]; simp
  · rw [mixBits, BitVec.getLsbD_or, BitVec.getLsbD_and, BitVec.getLsbD_and, BitVec.getLsbD_not]
    by_cases hi : i < w
    · cases m.getLsbD i <;> simp [hi]
    · rw [BitVec.getLsbD_of_ge x i (by omega), BitVec.getLsbD_of_ge y i (by omega)]; simp

example : setBit 0x50#8 1 = some 0x52#8 ∧ eraseBit 0xB6#8 2 = some 0x5A#8 ∧
    mixBits 0x0F#8 0xAA#8 0x3C#8 = 0x2B#8 := by decide +kernel

/-- Shifting by the width or more is undefined. -/
theorem C23_single_bits_range (x : BitVec w) (pos : Nat) (hp : w ≤ pos) :
    makeBit w pos = none ∧ getBit x pos = none ∧ setBit x pos = none := by
  simp [makeBit, getBit, setBit, hp]

/-! ### or_down and xor_down -/

theorem orDownFrom_spec (j : Nat) (x : BitVec w) (i : Nat) :
    (orDownFrom (2 ^ j) x).getLsbD i = true ↔ ∃ t, t < 2 ^ (j + 1) ∧ x.getLsbD (i + t) = true := by
  induction j generalizing x i with
  | zero =>
    rw [orDownFrom, if_neg (by simp), orDownFrom, if_pos (by simp), BitVec.getLsbD_or,
      BitVec.getLsbD_ushiftRight]
    simp only [Bool.or_eq_true]
    constructor
    · rintro (h | h)
      · exact ⟨0, by simp, h⟩
      · exact ⟨1, by simp, by rw [Nat.add_comm]; exact h⟩
    · rintro ⟨t, ht, h⟩
      have : t = 0 ∨ t = 1 := by simp at ht; omega
      rcases this with rfl | rfl
      · exact Or.inl h
      · right; rw [Nat.add_comm] at h; exact h
  | succ j ih =>
    have hp := Nat.two_pow_pos (j + 1)
    rw [orDownFrom, if_neg (by omega)]
    rw [show (2 : Nat) ^ (j + 1) / 2 = 2 ^ j by rw [pow_succ]; omega, ih]
    simp only [BitVec.getLsbD_or, BitVec.getLsbD_ushiftRight, Bool.or_eq_true]
    constructor
    · rintro ⟨t, ht, h | h⟩
      · exact ⟨t, by rw [pow_succ]; omega, h⟩
      · exact ⟨t + 2 ^ (j + 1), by rw [pow_succ]; omega,
          by rw [show i + (t + 2 ^ (j + 1)) = 2 ^ (j + 1) + (i + t) by omega]; exact h⟩
    · rintro ⟨t, ht, h⟩
      by_cases hlt : t < 2 ^ (j + 1)
      · exact ⟨t, hlt, Or.inl h⟩
      · refine ⟨t - 2 ^ (j + 1), by rw [pow_succ] at ht; omega, Or.inr ?_⟩
        rw [show 2 ^ (j + 1) + (i + (t - 2 ^ (j + 1))) = i + t by omega]; exact h

/-- Number of set bits at positions `i .. i + n - 1`. -/
def onesFrom (x : BitVec w) (i n : Nat) : Nat :=
  ((List.range n).filter (fun t => x.getLsbD (i + t))).length

theorem onesFrom_add (x : BitVec w) (i a b : Nat) :
    onesFrom x i (a + b) = onesFrom x i a + onesFrom x (i + a) b := by
  rw [onesFrom, List.range_add, List.filter_append, List.length_append, onesFrom, List.filter_map,
    List.length_map, onesFrom]
  congr 3
  funext t
  simp [Nat.add_assoc]

theorem onesFrom_succ (x : BitVec w) (i n : Nat) :
    onesFrom x i (n + 1) = (if x.getLsbD i then 1 else 0) + onesFrom x (i + 1) n := by
  rw [Nat.add_comm n 1, onesFrom_add]
  congr 1
  rw [onesFrom]
  by_cases h : x.getLsbD i <;> simp [h]

theorem onesFrom_xor (x y : BitVec w) (i n : Nat) :
    onesFrom (x ^^^ y) i n % 2 = (onesFrom x i n + onesFrom y i n) % 2 := by
  induction n generalizing i with
  | zero => rfl
  | succ n ih =>
    rw [onesFrom_succ, onesFrom_succ, onesFrom_succ, BitVec.getLsbD_xor]
    have := ih (i + 1)
    cases x.getLsbD i <;> cases y.getLsbD i <;> simp <;> omega

theorem onesFrom_shr (x : BitVec w) (s i n : Nat) :
    onesFrom (x >>> s) i n = onesFrom x (i + s) n := by
  rw [onesFrom, onesFrom]
  congr 2
  funext t
  rw [BitVec.getLsbD_ushiftRight]
  congr 1
  omega

theorem onesFrom_high (x : BitVec w) (i n : Nat) (h : w ≤ i) : onesFrom x i n = 0 := by
  rw [onesFrom, List.length_eq_zero_iff, List.filter_eq_nil_iff]
  intro t _
  rw [BitVec.getLsbD_of_ge x _ (by omega)]
  simp

theorem xorDownFrom_spec (j : Nat) (x : BitVec w) (i : Nat) :
    (xorDownFrom (2 ^ j) x).getLsbD i = decide (onesFrom x i (2 ^ (j + 1)) % 2 = 1) := by
  induction j generalizing x i with
  | zero =>
    rw [xorDownFrom, if_neg (by simp), xorDownFrom, if_pos (by simp), BitVec.getLsbD_xor,
      BitVec.getLsbD_ushiftRight]
    rw [show (2 : Nat) ^ (0 + 1) = 0 + 1 + 1 by norm_num, onesFrom_succ, onesFrom_succ]
    rw [show (2 : Nat) ^ 0 + i = i + 1 by omega]
    have : onesFrom x (i + 1 + 1) 0 = 0 := rfl
    rw [this]
    cases x.getLsbD i <;> cases x.getLsbD (i + 1) <;> simp
  | succ j ih =>
    have hp := Nat.two_pow_pos (j + 1)
    rw [xorDownFrom, if_neg (by omega)]
    rw [show (2 : Nat) ^ (j + 1) / 2 = 2 ^ j by rw [pow_succ]; omega, ih]
    rw [onesFrom_xor, onesFrom_shr, show (2 : Nat) ^ (j + 1 + 1) = 2 ^ (j + 1) + 2 ^ (j + 1) by ring,
      onesFrom_add]

theorem down_shift {k : Nat} (hw : w = 2 ^ k) : (k = 0 ∧ w / 2 = 0) ∨ ∃ j, k = j + 1 ∧ w / 2 = 2 ^ j := by
  cases k with
  | zero => left; subst hw; exact ⟨rfl, by norm_num⟩
  | succ j => right; exact ⟨j, rfl, by rw [hw, pow_succ]; omega⟩

/-- **C23**: bit `i` of `or_down(x)` tells whether `x` has a one at `i` or above
(word width any power of two). -/
theorem C23_or_down {k : Nat} (hw : w = 2 ^ k) (x : BitVec w) (i : Nat) :
    (orDown x).getLsbD i = true ↔ ∃ j, i ≤ j ∧ x.getLsbD j = true := by
  have key : (∀ i, (orDown x).getLsbD i = true ↔
      ∃ t, t < w ∧ x.getLsbD (i + t) = true) → ((orDown x).getLsbD i = true ↔
      ∃ j, i ≤ j ∧ x.getLsbD j = true) := by
    intro h
    rw [h]
    constructor
    · rintro ⟨t, _, ht⟩; exact ⟨i + t, by omega, ht⟩
    · rintro ⟨j, hj, ht⟩
      have : j < w := by
        by_contra hc; rw [BitVec.getLsbD_of_ge x j (by omega)] at ht; cases ht
      exact ⟨j - i, by omega, by rw [Nat.add_sub_cancel' hj]; exact ht⟩
  apply key
  intro i
  rw [orDown]
  rcases down_shift hw with ⟨hk, h0⟩ | ⟨j, hk, h0⟩
  · rw [h0, orDownFrom, if_pos rfl]
    subst hk
    constructor
    · intro h; exact ⟨0, by omega, h⟩
    · rintro ⟨t, ht, h⟩
      have : t = 0 := by simp at hw; omega
      subst this; exact h
  · rw [h0, orDownFrom_spec, ← hk, ← hw]

/-- **C23**: bit `i` of `xor_down(x)` is the parity of the number of ones of `x` at the
positions `i, i + 1, …`. -/
theorem C23_xor_down {k : Nat} (hw : w = 2 ^ k) (x : BitVec w) (i : Nat) :
    (xorDown x).getLsbD i =
      decide (((List.range w).filter (fun j => i ≤ j ∧ x.getLsbD j)).length % 2 = 1) := by
  have e : ∀ n, n = w → ((List.range n).filter (fun j => decide (i ≤ j ∧ x.getLsbD j = true))).length =
      onesFrom x i n := by
    intro n hn
    by_cases hi : i ≤ n
    · obtain ⟨m, rfl⟩ : ∃ m, n = m + i := ⟨n - i, by omega⟩
      rw [onesFrom_add, onesFrom_high x _ i (by omega), Nat.add_comm m i, onesFrom,
        List.range_add, List.filter_append, List.length_append]
      have h2 : (List.range i).filter (fun j => decide (i ≤ j ∧ x.getLsbD j = true)) = [] := by
        rw [List.filter_eq_nil_iff]; intro j hj; rw [List.mem_range] at hj; simp; omega
      rw [h2, List.filter_map, List.length_map]
      simp only [List.length_nil, Nat.zero_add, Nat.add_zero]
      congr 2
      funext t
      simp
    · rw [onesFrom_high x i _ (by omega), List.length_eq_zero_iff, List.filter_eq_nil_iff]
      intro j hj
      rw [List.mem_range] at hj
      simp; omega
  rw [e w rfl, xorDown]
  rcases down_shift hw with ⟨hk, h0⟩ | ⟨j, hk, h0⟩
  · rw [h0, xorDownFrom, if_pos rfl]
    have h1 : onesFrom x i w = onesFrom x i (0 + 1) := by
      congr 1; subst hk; simpa using hw
    rw [h1, onesFrom_succ]
    have : onesFrom x (i + 1) 0 = 0 := rfl
    rw [this]
    cases x.getLsbD i <;> simp
  · rw [h0, xorDownFrom_spec, ← hk, ← hw]

example : orDown 0x28#8 = 0x3F#8 ∧ xorDown 0x28#8 = 0x30#8 := by decide +kernel

end Altruct.Bits
