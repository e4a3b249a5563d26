/-
C23, continued: highest and lowest bit, powers of two, Gray code, sign and magnitude.
-/
import Verif.Bits.Props
import Mathlib.Order.Bounds.Basic

namespace Altruct.Bits

variable {w : Nat}

theorem neg_eq (x : BitVec w) : neg x = -x := (BitVec.neg_eq_not_add x).symm

theorem toNat_pos {x : BitVec w} (h : x ≠ 0#w) : x.toNat ≠ 0 := by
  intro hc
  exact h (BitVec.eq_of_toNat_eq (by rw [hc]; simp))

theorem log2_lt_w {x : BitVec w} (h : x ≠ 0#w) : x.toNat.log2 < w :=
  (Nat.log2_lt (toNat_pos h)).mpr x.isLt

theorem getLsbD_gt_log2 {x : BitVec w} {j : Nat} (h : x ≠ 0#w) (hj : x.toNat.log2 < j) :
    x.getLsbD j = false := by
  rw [BitVec.getLsbD]
  exact Nat.testBit_lt_two_pow ((Nat.log2_lt (toNat_pos h)).mp hj)

theorem getLsbD_log2 {x : BitVec w} (h : x ≠ 0#w) : x.getLsbD x.toNat.log2 = true := by
  rw [BitVec.getLsbD]; exact Nat.testBit_log2 (toNat_pos h)

theorem getLsbD_orDown {k : Nat} (hw : w = 2 ^ k) {x : BitVec w} (h : x ≠ 0#w) (i : Nat) :
    (orDown x).getLsbD i = decide (i ≤ x.toNat.log2) := by
  rw [Bool.eq_iff_iff, C23_or_down hw, decide_eq_true_iff]
  constructor
  · rintro ⟨j, hj, hb⟩
    by_contra hc
    rw [getLsbD_gt_log2 h (by omega)] at hb
    cases hb
  · intro hi; exact ⟨_, hi, getLsbD_log2 h⟩

theorem orDown_zero {k : Nat} (hw : w = 2 ^ k) : orDown (0#w) = 0#w := by
  apply BitVec.eq_of_getLsbD_eq
  intro i _
  rw [BitVec.getLsbD_zero, Bool.eq_false_iff]
  intro h
  obtain ⟨j, _, hj⟩ := (C23_or_down hw _ _).mp h
  simp at hj

theorem toNat_orDown {k : Nat} (hw : w = 2 ^ k) {x : BitVec w} (h : x ≠ 0#w) :
    (orDown x).toNat = 2 ^ (x.toNat.log2 + 1) - 1 := by
  apply Nat.eq_of_testBit_eq
  intro i
  rw [Nat.testBit_two_pow_sub_one]
  have := getLsbD_orDown hw h i
  rw [BitVec.getLsbD] at this
  rw [this]
  congr 1
  rw [Nat.lt_succ_iff]

theorem step_xor (n i : Nat) : (decide (i ≤ n) ^^ decide (1 + i ≤ n)) = decide (i = n) := by
  rcases Nat.lt_trichotomy i n with h | h | h
  · simp [show i ≤ n by omega, show 1 + i ≤ n by omega, show i ≠ n by omega]
  · subst h; simp
  · simp [show ¬ i ≤ n by omega, show ¬ 1 + i ≤ n by omega, show i ≠ n by omega]

/-- **C23**: `hi_bit` keeps exactly the highest one. -/
theorem C23_hi_bit {k : Nat} (hw : w = 2 ^ k) (x : BitVec w) :
    (hiBit x).toNat = if x = 0#w then 0 else 2 ^ x.toNat.log2 := by
  by_cases h : x = 0#w
  · rw [if_pos h, h, hiBit, orDown_zero hw]; simp
  · rw [if_neg h]
    apply Nat.eq_of_testBit_eq
    intro i
    have e : (hiBit x).getLsbD i = decide (x.toNat.log2 = i) := by
      rw [hiBit, BitVec.getLsbD_xor, BitVec.getLsbD_ushiftRight, getLsbD_orDown hw h,
        getLsbD_orDown hw h, step_xor]
      simp only [eq_comm]
    rw [BitVec.getLsbD] at e
    rw [e, Nat.testBit_two_pow]

example : hiBit 0x2C#8 = 0x20#8 ∧ hiBit 0#8 = 0#8 := by decide +kernel

theorem getLsbD_loBit (x : BitVec w) (i : Nat) :
    (loBit x).getLsbD i = true ↔ x.getLsbD i = true ∧ ∀ j, j < i → x.getLsbD j = false := by
  rw [loBit, neg_eq, BitVec.getLsbD_and, BitVec.getLsbD_neg]
  by_cases hi : i < w
  · by_cases h : ∃ j, j < i ∧ x.getLsbD j = true
    · have : ¬ ∀ j, j < i → x.getLsbD j = false := by
        obtain ⟨j, hj, hb⟩ := h
        intro hc; rw [hc j hj] at hb; cases hb
      simp [hi, h, this]
    · have h' : ∀ j, j < i → x.getLsbD j = false := by
        intro j hj
        by_contra hc; exact h ⟨j, hj, by simpa using hc⟩
      simp only [h, decide_false, Bool.and_false, Bool.xor_false, Bool.and_self]
      exact ⟨fun h => ⟨h, h'⟩, fun h => h.1⟩
  · rw [BitVec.getLsbD_of_ge x i (by omega)]; simp

theorem exists_low {x : BitVec w} (h : x ≠ 0#w) :
    ∃ t, t < w ∧ x.getLsbD t = true ∧ ∀ j, j < t → x.getLsbD j = false := by
  have hex : ∃ i, x.getLsbD i = true := ⟨_, getLsbD_log2 h⟩
  refine ⟨Nat.find hex, ?_, Nat.find_spec hex, fun j hj => ?_⟩
  · by_contra hc
    have := Nat.find_spec hex
    rw [BitVec.getLsbD_of_ge x _ (by omega)] at this
    cases this
  · have := Nat.find_min hex hj
    simpa using this

theorem toNat_loBit {x : BitVec w} {t : Nat} (ht : x.getLsbD t = true)
    (hl : ∀ j, j < t → x.getLsbD j = false) : (loBit x).toNat = 2 ^ t := by
  apply Nat.eq_of_testBit_eq
  intro i
  rw [Nat.testBit_two_pow]
  have e : (loBit x).getLsbD i = decide (t = i) := by
    rw [Bool.eq_iff_iff, getLsbD_loBit, decide_eq_true_iff]
    constructor
    · rintro ⟨h1, h2⟩
      rcases Nat.lt_trichotomy t i with h | h | h
      · rw [h2 t h] at ht; cases ht
      · exact h
      · rw [hl i h] at h1; cases h1
    · rintro rfl; exact ⟨ht, hl⟩
  rwa [BitVec.getLsbD] at e

/-- **C23**: `lo_bit` keeps exactly the lowest one. -/
theorem C23_lo_bit (x : BitVec w) :
    (x = 0#w → loBit x = 0#w) ∧
    (x ≠ 0#w → ∃ t, (loBit x).toNat = 2 ^ t ∧ x.getLsbD t = true ∧ ∀ j, j < t → x.getLsbD j = false) := by
  refine ⟨fun h => ?_, fun h => ?_⟩
  · rw [h, loBit]; simp
  · obtain ⟨t, _, ht, hl⟩ := exists_low h
    exact ⟨t, toNat_loBit ht hl, ht, hl⟩

example : loBit 0x2C#8 = 0x4#8 := by decide +kernel

/-- **C23**: `is_pow2` accepts exactly zero and the powers of two; `is_not_pow2` is its negation. -/
theorem C23_is_pow2 (x : BitVec w) :
    (isPow2 x = true ↔ x.toNat = 0 ∨ ∃ k, x.toNat = 2 ^ k) ∧ isNotPow2 x = !isPow2 x := by
  refine ⟨?_, rfl⟩
  by_cases h : x = 0#w
  · subst h; simp [isPow2]
  · have h0 := toNat_pos h
    have hw : 0 < w := by
      rcases Nat.eq_zero_or_pos w with h' | h'
      · subst h'; exact absurd (Subsingleton.elim _ _) h
      · exact h'
    have h1 : (1#w).toNat = 1 := by
      rw [BitVec.toNat_ofNat, Nat.mod_eq_of_lt (Nat.one_lt_two_pow (by omega))]
    have e : (x &&& (x - 1#w)).toNat = x.toNat &&& (x.toNat - 1) := by
      rw [BitVec.toNat_and, BitVec.toNat_sub_of_le (by rw [BitVec.le_def, h1]; omega), h1]
    rw [isPow2, beq_iff_eq, ← BitVec.toNat_inj, e, BitVec.toNat_ofNat, Nat.zero_mod,
      Nat.and_sub_one_eq_zero_iff_isPowerOfTwo h0]
    simp only [h0, false_or]
    exact Iff.rfl

example : isPow2 0x40#8 = true ∧ isPow2 0#8 = true ∧ isPow2 0x41#8 = false := by decide +kernel

/-- **C23**: `next_pow2` is the least power of two bigger than `x`, if the type can hold it. -/
theorem C23_next_pow2 {k : Nat} (hw : w = 2 ^ k) (x : BitVec w) (hx : x.toNat < 2 ^ (w - 1)) :
    IsLeast {p | (∃ j, p = 2 ^ j) ∧ x.toNat < p} (nextPow2 x).toNat := by
  have hw0 : 0 < w := by rw [hw]; exact Nat.two_pow_pos k
  have h2 : 1 < 2 ^ w := Nat.one_lt_two_pow (by omega)
  have h1 : (1#w).toNat = 1 := by rw [BitVec.toNat_ofNat, Nat.mod_eq_of_lt h2]
  by_cases h : x = 0#w
  · subst h
    rw [nextPow2, orDown_zero hw]
    have : (0#w + 1#w).toNat = 1 := by simp [Nat.mod_eq_of_lt h2]
    rw [this]
    refine ⟨⟨⟨0, by norm_num⟩, by simp⟩, ?_⟩
    rintro p ⟨_, hp⟩
    exact hp
  · have hlog : x.toNat.log2 < w - 1 := (Nat.log2_lt (toNat_pos h)).mpr hx
    have e : (nextPow2 x).toNat = 2 ^ (x.toNat.log2 + 1) := by
      rw [nextPow2, BitVec.toNat_add, toNat_orDown hw h, h1, Nat.sub_add_cancel Nat.one_le_two_pow]
      exact Nat.mod_eq_of_lt (Nat.pow_lt_pow_right (by omega) (by omega))
    rw [e]
    refine ⟨⟨⟨_, rfl⟩, Nat.lt_log2_self⟩, ?_⟩
    rintro p ⟨⟨j, rfl⟩, hp⟩
    have : x.toNat.log2 < j := (Nat.log2_lt (toNat_pos h)).mpr hp
    exact Nat.pow_le_pow_right (by omega) this

example : nextPow2 0x28#8 = 0x40#8 ∧ nextPow2 0x40#8 = 0x80#8 ∧ nextPow2 0x80#8 = 0#8 := by decide +kernel

/-! ### Gray code -/

theorem onesFrom_self (x : BitVec w) (i : Nat) :
    onesFrom x i w = (if x.getLsbD i then 1 else 0) + onesFrom x (i + 1) w := by
  rw [← onesFrom_succ, onesFrom_add]
  have : onesFrom x (i + w) 1 = 0 := onesFrom_high x _ _ (by omega)
  omega

theorem getLsbD_xorDown {k : Nat} (hw : w = 2 ^ k) (x : BitVec w) (i : Nat) :
    (xorDown x).getLsbD i = decide (onesFrom x i w % 2 = 1) := by
  rw [xorDown]
  rcases down_shift hw with ⟨hk, h0⟩ | ⟨j, hk, h0⟩
  · rw [h0, xorDownFrom, if_pos rfl]
    have h1 : onesFrom x i w = onesFrom x i (0 + 1) := by
      congr 1; subst hk; simpa using hw
    rw [h1, onesFrom_succ]
    have : onesFrom x (i + 1) 0 = 0 := rfl
    rw [this]
    cases x.getLsbD i <;> simp
  · rw [h0, xorDownFrom_spec, ← hk, ← hw]

/-- **C23**: the Gray code conversions are inverse to each other. -/
theorem C23_gray_inverse {k : Nat} (hw : w = 2 ^ k) (x : BitVec w) :
    grayToBin (binToGray x) = x ∧ binToGray (grayToBin x) = x := by
  constructor
  · apply BitVec.eq_of_getLsbD_eq
    intro i _
    rw [grayToBin, getLsbD_xorDown hw, binToGray, onesFrom_xor, onesFrom_shr, onesFrom_self x i]
    cases x.getLsbD i <;> simp <;> omega
  · apply BitVec.eq_of_getLsbD_eq
    intro i _
    rw [grayToBin, binToGray, BitVec.getLsbD_xor, BitVec.getLsbD_ushiftRight, getLsbD_xorDown hw,
      getLsbD_xorDown hw, onesFrom_self x i, Nat.add_comm 1 i]
    cases x.getLsbD i
    · simp
    · by_cases h : onesFrom x (i + 1) w % 2 = 1
      · simp; omega
      · simp; omega

theorem binToGray_xor (x y : BitVec w) : binToGray x ^^^ binToGray y = binToGray (x ^^^ y) := by
  apply BitVec.eq_of_getLsbD_eq
  intro i _
  simp only [binToGray, BitVec.getLsbD_xor, BitVec.getLsbD_ushiftRight]
  cases x.getLsbD i <;> cases y.getLsbD i <;> cases x.getLsbD (1 + i) <;> cases y.getLsbD (1 + i) <;> rfl

theorem getLsbD_succ (x : BitVec w) (i : Nat) (hi : i < w) :
    (x ^^^ (x + 1#w)).getLsbD i = true ↔ ∀ j, j < i → x.getLsbD j = true := by
  have e : x + 1#w = -(~~~x) := by
    rw [BitVec.neg_eq_not_add, BitVec.not_not]
  rw [e, BitVec.getLsbD_xor, BitVec.getLsbD_neg, BitVec.getLsbD_not]
  by_cases h : ∃ j, j < i ∧ (~~~x).getLsbD j = true
  · have : ¬ ∀ j, j < i → x.getLsbD j = true := by
      obtain ⟨j, hj, hb⟩ := h
      intro hc
      rw [BitVec.getLsbD_not, hc j hj] at hb
      simp at hb
    simp only [hi, h, this, decide_true, Bool.and_true, Bool.true_and, iff_false]
    cases x.getLsbD i <;> simp
  · have h' : ∀ j, j < i → x.getLsbD j = true := by
      intro j hj
      by_contra hc
      refine h ⟨j, hj, ?_⟩
      rw [BitVec.getLsbD_not]
      simp at hc
      simp [hc]; omega
    simp only [h, decide_false, Bool.and_false, Bool.xor_false, hi, decide_true, Bool.true_and]
    cases x.getLsbD i <;> simpa using h'

/-- **C23**: the Gray codes of consecutive numbers (cyclically) differ in exactly one bit. -/
theorem C23_gray_step (hw : 0 < w) (x : BitVec w) :
    ∃ p, p < w ∧ ∀ i, (binToGray x).getLsbD i = ((binToGray (x + 1#w)).getLsbD i ^^ decide (i = p)) := by
  have key : ∃ p, p < w ∧ (∀ j, j < p → x.getLsbD j = true) ∧ (p + 1 < w → x.getLsbD p = false) := by
    by_cases h : ∃ i, i + 1 < w ∧ x.getLsbD i = false
    · have hs := Nat.find_spec h
      refine ⟨Nat.find h, by omega, fun j hj => ?_, fun _ => hs.2⟩
      have := Nat.find_min h hj
      have hlt : j + 1 < w := by omega
      simpa [hlt] using this
    · refine ⟨w - 1, by omega, fun j hj => ?_, fun h => by omega⟩
      by_contra hc
      exact h ⟨j, by omega, by simpa using hc⟩
  obtain ⟨p, hp, hall, hz⟩ := key
  refine ⟨p, hp, fun i => ?_⟩
  have e : (binToGray x ^^^ binToGray (x + 1#w)).getLsbD i = decide (i = p) := by
    rw [binToGray_xor, binToGray, BitVec.getLsbD_xor, BitVec.getLsbD_ushiftRight]
    have hb : ∀ i, (x ^^^ (x + 1#w)).getLsbD i = decide (i ≤ p) := by
      intro i
      by_cases hi : i < w
      · rw [Bool.eq_iff_iff, getLsbD_succ x i hi, decide_eq_true_iff]
        constructor
        · intro h
          by_contra hc
          have := h p (by omega)
          rw [hz (by omega)] at this
          cases this
        · intro h j hj; exact hall j (by omega)
      · rw [BitVec.getLsbD_of_ge _ i (by omega)]
        symm; rw [decide_eq_false_iff_not]; omega
    rw [hb, hb, step_xor]
  rw [BitVec.getLsbD_xor] at e
  rw [← e]
  cases (binToGray x).getLsbD i <;> cases (binToGray (x + 1#w)).getLsbD i <;> rfl

example : binToGray 0x2C#8 = 0x3A#8 ∧ grayToBin 0x3A#8 = 0x2C#8 ∧ binToGray 0x2D#8 = 0x3B#8 := by
  decide +kernel

/-! ### Sign and magnitude -/

theorem and_hi (hw : 0 < w) (x : BitVec w) : x &&& (1#w <<< (w - 1)) ≠ 0#w ↔ 2 ^ (w - 1) ≤ x.toNat := by
  have hm : x.msb = true ↔ 2 ^ (w - 1) ≤ x.toNat := by rw [BitVec.msb_eq_decide, decide_eq_true_iff]
  rw [← hm, BitVec.msb_eq_getLsbD_last]
  constructor
  · intro h
    by_contra hc
    apply h
    apply BitVec.eq_of_getLsbD_eq
    intro i _
    rw [BitVec.getLsbD_and, getLsbD_shl_one _ _ (by omega), BitVec.getLsbD_zero]
    by_cases hi : i = w - 1
    · subst hi; simp at hc; simp [hc]
    · simp [hi]
  · intro h hc
    have : (x &&& (1#w <<< (w - 1))).getLsbD (w - 1) = true := by
      rw [BitVec.getLsbD_and, getLsbD_shl_one _ _ (by omega), h]; simp
    rw [hc] at this
    simp at this

theorem toNat_xor_hi (hw : 0 < w) (y : BitVec w) (hy : y.toNat < 2 ^ (w - 1)) :
    (y ^^^ (1#w <<< (w - 1))).toNat = 2 ^ (w - 1) + y.toNat := by
  have h2 : 1 < 2 ^ w := Nat.one_lt_two_pow (by omega)
  have hlt : 2 ^ (w - 1) < 2 ^ w := Nat.pow_lt_pow_right (by omega) (by omega)
  have h1 : (1#w <<< (w - 1)).toNat = 2 ^ (w - 1) := by
    rw [BitVec.toNat_shiftLeft, BitVec.toNat_ofNat, Nat.mod_eq_of_lt h2, Nat.shiftLeft_eq, one_mul,
      Nat.mod_eq_of_lt hlt]
  rw [BitVec.toNat_xor, h1]
  have h3 := Nat.two_pow_add_eq_or_of_lt hy 1
  rw [Nat.mul_one] at h3
  rw [h3]
  apply Nat.eq_of_testBit_eq
  intro i
  rw [Nat.testBit_xor, Nat.testBit_or, Nat.testBit_two_pow]
  by_cases hi : w - 1 = i
  · subst hi
    rw [Nat.testBit_lt_two_pow hy]
    simp
  · simp [hi]

/-- **C23**: `sign_mag` turns a two's complement number `v` other than the most negative one into
its sign bit followed by `|v|`, and is its own inverse; the most negative one becomes zero. -/
theorem C23_sign_mag (hw : 0 < w) (x : BitVec w) :
    (0 ≤ x.toInt → signMag x = x) ∧
    (x.toInt < 0 → x ≠ BitVec.intMin w → ((signMag x).toNat : Int) = 2 ^ (w - 1) + -x.toInt) ∧
    (x ≠ BitVec.intMin w → signMag (signMag x) = x) ∧
    signMag (BitVec.intMin w) = 0#w := by
  have hp : 2 ^ w = 2 * 2 ^ (w - 1) := by
    rw [← pow_succ']; congr 1; omega
  have hx := x.isLt
  have hi : x.toInt = if 2 ^ (w - 1) ≤ x.toNat then (x.toNat : Int) - 2 ^ w else x.toNat := by
    rw [BitVec.toInt_eq_toNat_cond]
    by_cases h : 2 ^ (w - 1) ≤ x.toNat
    · rw [if_neg (by omega), if_pos h]; simp
    · rw [if_pos (by omega), if_neg h]
  have hcast : ((2 : Int) ^ w) = 2 * 2 ^ (w - 1) := by exact_mod_cast hp
  have hmin : (BitVec.intMin w).toNat = 2 ^ (w - 1) := by
    rw [BitVec.toNat_intMin, Nat.mod_eq_of_lt]
    exact Nat.pow_lt_pow_right (by omega) (by omega)
  have hneg : ∀ y : BitVec w, 2 ^ (w - 1) ≤ y.toNat → (neg y).toNat = 2 ^ w - y.toNat := by
    intro y hy
    have := y.isLt
    rw [neg_eq, BitVec.toNat_neg, Nat.mod_eq_of_lt]
    have := Nat.two_pow_pos (w - 1)
    omega
  have hbig : ∀ y : BitVec w, 2 ^ (w - 1) < y.toNat → (signMag y).toNat = 2 ^ (w - 1) + (2 ^ w - y.toNat) := by
    intro y hy
    have := y.isLt
    rw [signMag, if_pos ((and_hi hw y).mpr (by omega)), toNat_xor_hi hw, hneg y (by omega)]
    rw [hneg y (by omega)]; omega
  have hsmall : ∀ y : BitVec w, y.toNat < 2 ^ (w - 1) → signMag y = y := by
    intro y hy
    rw [signMag, if_neg]
    rw [and_hi hw]; omega
  refine ⟨fun h => ?_, fun h hne => ?_, fun hne => ?_, ?_⟩
  · apply hsmall
    by_contra hc
    rw [hi, if_pos (by omega)] at h
    have : (x.toNat : Int) < 2 ^ w := by exact_mod_cast hx
    omega
  · have hc : 2 ^ (w - 1) ≤ x.toNat := by
      by_contra hc
      rw [hi, if_neg hc] at h
      omega
    have hc' : 2 ^ (w - 1) < x.toNat := by
      rcases Nat.lt_or_eq_of_le hc with h | h
      · exact h
      · exact absurd (BitVec.eq_of_toNat_eq (by rw [hmin, h])) hne
    rw [hbig x hc', hi, if_pos hc, Nat.cast_add, Nat.cast_sub hx.le]
    push_cast
    omega
  · rcases Nat.lt_trichotomy x.toNat (2 ^ (w - 1)) with h | h | h
    · rw [hsmall x h, hsmall x h]
    · exact absurd (BitVec.eq_of_toNat_eq (by rw [hmin, h])) hne
    · apply BitVec.eq_of_toNat_eq
      have := hbig x h
      rw [hbig _ (by omega), this]
      omega
  · rw [signMag, if_pos ((and_hi hw _).mpr (by omega))]
    have e : neg (BitVec.intMin w) = 1#w <<< (w - 1) := by
      apply BitVec.eq_of_toNat_eq
      rw [hneg _ (by omega), hmin]
      have h2 : 1 < 2 ^ w := Nat.one_lt_two_pow (by omega)
      have hlt : 2 ^ (w - 1) < 2 ^ w := Nat.pow_lt_pow_right (by omega) (by omega)
      rw [BitVec.toNat_shiftLeft, BitVec.toNat_ofNat, Nat.mod_eq_of_lt h2, Nat.shiftLeft_eq, one_mul,
        Nat.mod_eq_of_lt hlt]
      omega
    rw [e, BitVec.xor_self]

example : signMag 0xFD#8 = 0x83#8 ∧ signMag 0x83#8 = 0xFD#8 ∧ signMag 0x05#8 = 0x05#8 := by decide +kernel

end Altruct.Bits
