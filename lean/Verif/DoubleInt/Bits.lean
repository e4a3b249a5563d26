/-
C123: the bits of `double_int`: bitwise operators, right shifts, leading zeros, `to_uint64`, `to_string16`.
-/
import Verif.DoubleInt.Props

namespace Altruct.DoubleInt

/-! ### Bitwise operators -/

theorem testBit_digits (a b n j : Nat) (hb : b < 2 ^ n) : (a * 2 ^ n + b).testBit j = if j < n then b.testBit j else a.testBit (j - n) := by
  rw [Nat.mul_comm, Nat.testBit_two_pow_mul_add _ hb]

theorem or_digits (a b n : Nat) (hb : b < 2 ^ n) : (a * 2 ^ n) ||| b = a * 2 ^ n + b := by
  apply Nat.eq_of_testBit_eq
  intro j
  rw [Nat.testBit_or, testBit_digits _ _ _ _ hb]
  have := testBit_digits a 0 n j (Nat.two_pow_pos n)
  rw [Nat.add_zero] at this
  rw [this]
  split_ifs with h
  · simp
  · rw [Nat.testBit_lt_two_pow (lt_of_lt_of_le hb (Nat.pow_le_pow_right (by norm_num) (by omega)))]; simp

/-- **C123**: `&`, `|`, `^`. -/
theorem C123_bitwise {w : Nat} : ∀ (k : Nat) {x y : DI k}, Ok w k x → Ok w k y →
    (Ok w k (andD k x y) ∧ val w k (andD k x y) = val w k x &&& val w k y) ∧
    (Ok w k (orD k x y) ∧ val w k (orD k x y) = val w k x ||| val w k y) ∧
    (Ok w k (xorD k x y) ∧ val w k (xorD k x y) = val w k x ^^^ val w k y)
  | 0, x, y, hx, hy => by
    have key : ∀ x y : Nat, x < 2 ^ w → y < 2 ^ w → x &&& y < 2 ^ w ∧ x ||| y < 2 ^ w ∧ x ^^^ y < 2 ^ w :=
      fun x y hx hy => ⟨Nat.and_lt_two_pow _ hy, Nat.or_lt_two_pow hx hy, Nat.xor_lt_two_pow hx hy⟩
    obtain ⟨a, b, c⟩ := key x y hx hy
    exact ⟨⟨a, rfl⟩, ⟨b, rfl⟩, ⟨c, rfl⟩⟩
  | k + 1, x, y, hx, hy => by
    obtain ⟨⟨a1, a2⟩, ⟨b1, b2⟩, ⟨c1, c2⟩⟩ := C123_bitwise k hx.1 hy.1
    obtain ⟨⟨d1, d2⟩, ⟨e1, e2⟩, ⟨f1, f2⟩⟩ := C123_bitwise k hx.2 hy.2
    have lx := val_lt hx.2
    have ly := val_lt hy.2
    have la := val_lt d1
    have lo := val_lt e1
    have lX := val_lt f1
    refine ⟨⟨⟨a1, d1⟩, ?_⟩, ⟨⟨b1, e1⟩, ?_⟩, ⟨⟨c1, f1⟩, ?_⟩⟩
    · show val w k (andD k x.1 y.1) * 2 ^ bits w k + val w k (andD k x.2 y.2) = (val w k x.1 * 2 ^ bits w k + val w k x.2) &&& (val w k y.1 * 2 ^ bits w k + val w k y.2)
      apply Nat.eq_of_testBit_eq
      intro j
      rw [Nat.testBit_and, testBit_digits _ _ _ _ la, testBit_digits _ _ _ _ lx, testBit_digits _ _ _ _ ly, a2, d2]
      split_ifs <;> rw [Nat.testBit_and]
    · show val w k (orD k x.1 y.1) * 2 ^ bits w k + val w k (orD k x.2 y.2) = (val w k x.1 * 2 ^ bits w k + val w k x.2) ||| (val w k y.1 * 2 ^ bits w k + val w k y.2)
      apply Nat.eq_of_testBit_eq
      intro j
      rw [Nat.testBit_or, testBit_digits _ _ _ _ lo, testBit_digits _ _ _ _ lx, testBit_digits _ _ _ _ ly, b2, e2]
      split_ifs <;> rw [Nat.testBit_or]
    · show val w k (xorD k x.1 y.1) * 2 ^ bits w k + val w k (xorD k x.2 y.2) = (val w k x.1 * 2 ^ bits w k + val w k x.2) ^^^ (val w k y.1 * 2 ^ bits w k + val w k y.2)
      apply Nat.eq_of_testBit_eq
      intro j
      rw [Nat.testBit_xor, testBit_digits _ _ _ _ lX, testBit_digits _ _ _ _ lx, testBit_digits _ _ _ _ ly, c2, f2]
      split_ifs <;> rw [Nat.testBit_xor]

/-- **C123**: `~`. -/
theorem C123_not {w : Nat} : ∀ (k : Nat) {x : DI k}, Ok w k x →
    Ok w k (notD w k x) ∧ val w k (notD w k x) + val w k x + 1 = 2 ^ bits w k
  | 0, x, hx => by
    have key : ∀ x : Nat, x < 2 ^ w → 2 ^ w - 1 - x < 2 ^ w ∧ 2 ^ w - 1 - x + x + 1 = 2 ^ w := fun x hx => by omega
    rw [bits_zero]
    exact key x hx
  | k + 1, x, hx => by
    obtain ⟨a1, a2⟩ := C123_not k hx.1
    obtain ⟨b1, b2⟩ := C123_not k hx.2
    refine ⟨⟨a1, b1⟩, ?_⟩
    show val w k (notD w k x.1) * 2 ^ bits w k + val w k (notD w k x.2) + (val w k x.1 * 2 ^ bits w k + val w k x.2) + 1 = _
    rw [base_succ]
    generalize 2 ^ bits w k = B at *
    have : (val w k (notD w k x.1) + val w k x.1 + 1) * B = B * B := by rw [a2]
    linarith

/-! ### Right shifts of `double_int<prim_int>` -/

theorem word_ext {w : Nat} {e : Int} (he : e = 0 ∨ e = -1) : ((word w e : Nat) : Int) = -e * (2 ^ w : Nat) + e := by
  have h2 := Nat.two_pow_pos w
  rw [word_mod]
  rcases he with h | h <;> subst h
  · simp
  · rw [neg_emod (by omega) (by omega)]; ring

/-- `assign_extended_shr` of a word. -/
theorem extShrP_spec {w x c : Nat} {e : Int} (hx : x < 2 ^ w) (h0 : 0 < c) (hc : c < w) (he : e = 0 ∨ e = -1) :
    extShrP w x c e < 2 ^ w ∧ ((extShrP w x c e : Nat) : Int) + e * (2 ^ w : Nat) = ((x : Int) + e * (2 ^ w : Nat)) / (2 ^ c : Nat) := by
  have hs : 2 ^ w = 2 ^ (w - c) * 2 ^ c := by rw [← pow_add]; congr 1; omega
  have hq : x / 2 ^ c < 2 ^ (w - c) := Nat.div_lt_of_lt_mul (by rw [Nat.mul_comm, ← hs]; exact hx)
  have hp := Nat.two_pow_pos c
  have hz : ((2 ^ c : Nat) : Int) ≠ 0 := by omega
  have hsz : ((2 ^ w : Nat) : Int) = ((2 ^ (w - c) : Nat) : Int) * ((2 ^ c : Nat) : Int) := by rw [hs]; push_cast; rfl
  have key : extShrP w x c e = (-e).toNat * (2 ^ w - 2 ^ (w - c)) + x / 2 ^ c := by
    rw [extShrP, Nat.shiftRight_eq_div_pow, Nat.shiftLeft_eq]
    rcases he with h | h <;> subst h
    · simp [word]
    · have hw1 : word w (-1) = 2 ^ w - 1 := by
        have := word_ext (w := w) (e := -1) (Or.inr rfl)
        have := Nat.two_pow_pos w
        omega
      have e1 : (2 ^ w - 1) * 2 ^ (w - c) % 2 ^ w = (2 ^ c - 1) * 2 ^ (w - c) := by
        rw [show (2 ^ w - 1) * 2 ^ (w - c) = ((2 ^ (w - c) - 1) * 2 ^ c + (2 ^ c - 1)) * 2 ^ (w - c) by
          congr 1
          rw [Nat.sub_mul, ← hs]
          have := Nat.two_pow_pos (w - c)
          have : 2 ^ c ≤ 2 ^ w := Nat.pow_le_pow_right (by norm_num) hc.le
          omega]
        rw [Nat.add_mul, Nat.mul_assoc, Nat.mul_comm (2 ^ c) (2 ^ (w - c)), ← hs, Nat.add_comm, Nat.add_mul_mod_self_right, Nat.mod_eq_of_lt]
        rw [hs, Nat.mul_comm]
        exact Nat.mul_lt_mul_of_pos_left (by omega) (Nat.two_pow_pos _)
      rw [hw1, e1, Nat.or_comm, or_digits _ _ _ hq, Nat.sub_mul, Nat.mul_comm (2 ^ c), ← hs]
      simp
  have hle : 2 ^ (w - c) ≤ 2 ^ w := Nat.pow_le_pow_right (by norm_num) (by omega)
  rw [key, hsz, ← mul_assoc, Int.add_mul_ediv_right _ _ hz]
  rcases he with h | h <;> subst h
  · refine ⟨by simp; omega, by simp⟩
  · refine ⟨by simp; omega, ?_⟩
    rw [show (- -1 : Int).toNat = 1 from rfl, Nat.one_mul, Nat.cast_add, Nat.cast_sub hle, Int.natCast_div, hsz]
    ring

theorem neg_ediv {v C : Int} (h1 : -C ≤ v) (h2 : v < 0) : v / C = -1 := by
  have h := Int.add_mul_ediv_right v 1 (show C ≠ 0 by omega)
  rw [Int.ediv_eq_zero_of_lt (by omega) (by omega)] at h
  omega

/-- `assign_extended_shr`: the result, seen with infinitely many copies of `ext` before it, is the shifted number. -/
theorem extShr_spec {w : Nat} {x : Nat × Nat} {cnt e : Int} (h1 : x.1 < 2 ^ w) (h2 : x.2 < 2 ^ w)
    (he : e = 0 ∨ e = -1) : (extShr w x cnt e).1 < 2 ^ w ∧ (extShr w x cnt e).2 < 2 ^ w ∧
    (((extShr w x cnt e).1 : Int) + e * (2 ^ w : Nat)) * (2 ^ w : Nat) + ((extShr w x cnt e).2 : Int) =
      (((x.1 : Int) + e * (2 ^ w : Nat)) * (2 ^ w : Nat) + x.2) / (2 ^ cnt.toNat : Nat) := by
  have hW := Nat.two_pow_pos w
  have hWz : ((2 ^ w : Nat) : Int) ≠ 0 := by omega
  have we := word_ext (w := w) he
  have wl := word_lt w e
  have digit : (((x.1 : Int) + e * (2 ^ w : Nat)) * (2 ^ w : Nat) + x.2) / (2 ^ w : Nat) = (x.1 : Int) + e * (2 ^ w : Nat) := by
    rw [add_comm, Int.add_mul_ediv_right _ _ hWz, Int.ediv_eq_zero_of_lt (by omega) (by exact_mod_cast h2), zero_add]
  rw [extShr]
  split_ifs with c1 c2 c3 c4
  · refine ⟨wl, wl, ?_⟩
    dsimp only
    have hle : 2 ^ w * 2 ^ w ≤ 2 ^ cnt.toNat := by rw [← pow_add]; exact Nat.pow_le_pow_right (by norm_num) (by omega)
    have hlo : x.1 * 2 ^ w + x.2 < 2 ^ w * 2 ^ w := two_digits_lt h1 h2
    have hlo' : (x.1 : Int) * (2 ^ w : Nat) + x.2 < (2 ^ w : Nat) * (2 ^ w : Nat) := by exact_mod_cast hlo
    have hle' : ((2 ^ w : Nat) : Int) * (2 ^ w : Nat) ≤ (2 ^ cnt.toNat : Nat) := by exact_mod_cast hle
    have hnn : (0 : Int) ≤ (x.1 : Int) * (2 ^ w : Nat) := by positivity
    have hv : (((x.1 : Int) + e * (2 ^ w : Nat)) * (2 ^ w : Nat) + x.2) / (2 ^ cnt.toNat : Nat) = e := by
      rcases he with h | h <;> subst h
      · rw [zero_mul, add_zero]; exact Int.ediv_eq_zero_of_lt (by omega) (by omega)
      · exact neg_ediv (by linarith) (by linarith)
    rw [hv, we]; ring
  · have hd : ((cnt - w).toNat : Nat) < w := by omega
    obtain ⟨a, b⟩ := extShrP_spec (c := (cnt - w).toNat) h1 (by omega) hd he
    refine ⟨wl, a, ?_⟩
    dsimp only
    rw [show (2 ^ cnt.toNat : Nat) = 2 ^ w * 2 ^ (cnt - w).toNat by rw [← pow_add]; congr 1; omega, Nat.cast_mul,
      ← Int.ediv_ediv_of_nonneg (by omega), digit, ← b, we]
    ring
  · refine ⟨wl, h1, ?_⟩
    dsimp only
    rw [show cnt.toNat = w by omega, digit, we]; ring
  · obtain ⟨a, b⟩ := extShrP_spec (c := cnt.toNat) h1 (by omega) (by omega) he
    generalize hc : cnt.toNat = c at *
    have hs : 2 ^ w = 2 ^ (w - c) * 2 ^ c := by rw [← pow_add]; congr 1; omega
    have hp := Nat.two_pow_pos c
    have hz : ((2 ^ c : Nat) : Int) ≠ 0 := by omega
    have hq : x.2 / 2 ^ c < 2 ^ (w - c) := Nat.div_lt_of_lt_mul (by rw [Nat.mul_comm, ← hs]; exact h2)
    have hlo : shrP x.2 c ||| shlP w x.1 (w - c) = x.1 % 2 ^ c * 2 ^ (w - c) + x.2 / 2 ^ c := by
      rw [shrP, shlP, Nat.shiftRight_eq_div_pow, Nat.shiftLeft_eq, hs, Nat.mul_comm (2 ^ (w - c)) (2 ^ c), Nat.mul_mod_mul_right,
        Nat.or_comm, or_digits _ _ _ hq]
    have hm := Nat.mod_lt x.1 hp
    have hsz : ((2 ^ w : Nat) : Int) = ((2 ^ (w - c) : Nat) : Int) * ((2 ^ c : Nat) : Int) := by rw [hs]; push_cast; rfl
    refine ⟨a, ?_, ?_⟩
    · dsimp only
      rw [hlo]
      have : (x.1 % 2 ^ c + 1) * 2 ^ (w - c) ≤ 2 ^ c * 2 ^ (w - c) := Nat.mul_le_mul_right _ hm
      rw [Nat.mul_comm (2 ^ c), ← hs, Nat.add_mul] at this
      omega
    · dsimp only
      rw [hlo, b]
      have hH : ((x.1 : Int) + e * (2 ^ w : Nat)) % (2 ^ c : Nat) = ((x.1 % 2 ^ c : Nat) : Int) := by
        rw [hsz, ← mul_assoc, Int.add_mul_emod_self_right, Int.natCast_mod]
      have hd := Int.emod_add_mul_ediv ((x.1 : Int) + e * (2 ^ w : Nat)) ((2 ^ c : Nat) : Int)
      rw [hH] at hd
      have hV : (((x.1 : Int) + e * (2 ^ w : Nat)) * (2 ^ w : Nat) + x.2) / (2 ^ c : Nat) =
          ((x.1 : Int) + e * (2 ^ w : Nat)) * (2 ^ (w - c) : Nat) + ((x.2 / 2 ^ c : Nat) : Int) := by
        rw [show ((x.1 : Int) + e * (2 ^ w : Nat)) * (2 ^ w : Nat) + x.2 = x.2 + (((x.1 : Int) + e * (2 ^ w : Nat)) * (2 ^ (w - c) : Nat)) * (2 ^ c : Nat) by
          rw [mul_assoc, ← hsz]; ring, Int.add_mul_ediv_right _ _ hz, Int.natCast_div]
        ring
      rw [hV, Nat.cast_add, Nat.cast_mul]
      generalize ((x.1 : Int) + e * (2 ^ w : Nat)) / (2 ^ c : Nat) = Q at *
      generalize (x.1 : Int) + e * (2 ^ w : Nat) = H at *
      rw [hsz, ← hd]
      ring
  · refine ⟨h1, h2, ?_⟩
    rw [show cnt.toNat = 0 by omega]; simp

/-- **C123**: `assign_unsigned_shr`; a count that is not positive leaves the number as it is. -/
theorem C123_shr {w : Nat} {x : Nat × Nat} (hx : Ok w 1 x) (cnt : Int) :
    Ok w 1 (shr w x cnt) ∧ val w 1 (shr w x cnt) = val w 1 x / 2 ^ cnt.toNat := by
  obtain ⟨a, b, c⟩ := extShr_spec (w := w) (x := x) (cnt := cnt) (e := 0) hx.1 hx.2 (Or.inl rfl)
  refine ⟨⟨a, b⟩, ?_⟩
  rw [zero_mul, add_zero, add_zero] at c
  have e1 : val w 1 (shr w x cnt) = (extShr w x cnt 0).1 * 2 ^ bits w 0 + (extShr w x cnt 0).2 := rfl
  have e2 : val w 1 x = x.1 * 2 ^ bits w 0 + x.2 := rfl
  rw [e1, e2, bits_zero]
  exact_mod_cast c

/-- **C123**: `>>` is the floor of the signed number divided by the power of two. -/
theorem C123_sar {w : Nat} (hw : 0 < w) {x : Nat × Nat} (hx : Ok w 1 x) (cnt : Int) :
    Ok w 1 (sar w x cnt) ∧ sval w 1 (sar w x cnt) = sval w 1 x / (2 ^ cnt.toNat : Nat) := by
  obtain ⟨e, he, hs, hsv⟩ : ∃ e : Int, (e = 0 ∨ e = -1) ∧ sar w x cnt = extShr w x cnt e ∧ sval w 0 x.1 = (val w 0 x.1 : Int) + e * (2 ^ w : Nat) := by
    rw [sval_zero w x.1, sv, show val w 0 x.1 = x.1 from rfl]
    by_cases h : 2 ^ (w - 1) ≤ x.1
    · refine ⟨-1, Or.inr rfl, by rw [sar, if_pos h], ?_⟩
      rw [if_pos h]; ring
    · refine ⟨0, Or.inl rfl, by rw [sar, if_neg h], ?_⟩
      rw [if_neg h]; ring
  obtain ⟨a, b, c⟩ := extShr_spec (w := w) (x := x) (cnt := cnt) (e := e) hx.1 hx.2 he
  have hok : Ok w 1 (sar w x cnt) := by rw [hs]; exact ⟨a, b⟩
  refine ⟨hok, ?_⟩
  have hr := C122_range hw 1 hx
  have ev : sval w 1 x = ((x.1 : Int) + e * (2 ^ w : Nat)) * (2 ^ w : Nat) + x.2 := by
    have := sval_succ hw 0 hx
    rw [hsv, bits_zero] at this
    exact this
  rw [← ev] at c
  have hp := Nat.two_pow_pos cnt.toNat
  refine sval_eq hw 1 hok ?_ ?_ ?_
  · rw [← c]
    have e1 : val w 1 (sar w x cnt) = (extShr w x cnt e).1 * 2 ^ bits w 0 + (extShr w x cnt e).2 := by rw [hs]; rfl
    have hl := val_lt hok
    rw [e1] at hl ⊢
    rw [base_succ, bits_zero] at *
    rw [show (((extShr w x cnt e).1 : Int) + e * (2 ^ w : Nat)) * (2 ^ w : Nat) + ((extShr w x cnt e).2 : Int) =
      (((extShr w x cnt e).1 * 2 ^ w + (extShr w x cnt e).2 : Nat) : Int) + e * ((2 ^ w * 2 ^ w : Nat) : Int) by push_cast; ring,
      Int.add_mul_emod_self_right, Int.emod_eq_of_lt (by omega) (by exact_mod_cast hl)]
  · rw [Int.le_ediv_iff_mul_le (by omega)]
    have : (2 ^ (bits w 1 - 1) : Nat) ≤ 2 ^ (bits w 1 - 1) * 2 ^ cnt.toNat := Nat.le_mul_of_pos_right _ hp
    have : ((2 ^ (bits w 1 - 1) : Nat) : Int) ≤ (2 ^ (bits w 1 - 1) : Nat) * (2 ^ cnt.toNat : Nat) := by exact_mod_cast this
    rw [neg_mul]; omega
  · rw [Int.ediv_lt_iff_lt_mul (by omega)]
    have : (2 ^ (bits w 1 - 1) : Nat) ≤ 2 ^ (bits w 1 - 1) * 2 ^ cnt.toNat := Nat.le_mul_of_pos_right _ hp
    have : ((2 ^ (bits w 1 - 1) : Nat) : Int) ≤ (2 ^ (bits w 1 - 1) : Nat) * (2 ^ cnt.toNat : Nat) := by exact_mod_cast this
    omega

/-! ### Leading zeros -/

theorem size_digits {a b n : Nat} (ha : 0 < a) (hb : b < 2 ^ n) : Nat.size (a * 2 ^ n + b) = n + Nat.size a := by
  have h1 := Nat.lt_size_self a
  apply le_antisymm
  · rw [Nat.size_le, Nat.pow_add, Nat.mul_comm (2 ^ n)]
    have : (a + 1) * 2 ^ n ≤ 2 ^ Nat.size a * 2 ^ n := Nat.mul_le_mul_right _ h1
    rw [Nat.add_mul] at this; omega
  · have h2 : 0 < Nat.size a := Nat.size_pos.2 ha
    have h3 : n + Nat.size a - 1 < Nat.size (a * 2 ^ n + b) := by
      rw [Nat.lt_size, show n + Nat.size a - 1 = (Nat.size a - 1) + n by omega, Nat.pow_add]
      have : 2 ^ (Nat.size a - 1) ≤ a := Nat.lt_size.1 (by omega)
      have := Nat.mul_le_mul_right (2 ^ n) this
      omega
    omega

theorem lzc_size {w : Nat} : ∀ (k : Nat) {x : DI k}, Ok w k x → lzc w k x = bits w k - Nat.size (val w k x)
  | 0, x, _ => by rw [bits_zero]; rfl
  | k + 1, x, hx => by
    have i1 := lzc_size k hx.1
    have i2 := lzc_size k hx.2
    have l1 := Nat.size_le.2 (val_lt hx.1)
    have l2 := Nat.size_le.2 (val_lt hx.2)
    rw [lzc, i1, i2, val, bits_succ]
    by_cases h : val w k x.1 = 0
    · rw [h, Nat.zero_mul, Nat.zero_add, Nat.size_zero, if_neg (by omega)]; omega
    · have := Nat.size_pos.2 (Nat.pos_of_ne_zero h)
      rw [size_digits (Nat.pos_of_ne_zero h) (val_lt hx.2), if_pos (by omega)]; omega

/-- **C123**: `leading_zeros_count`. -/
theorem C123_lzc {w : Nat} (k : Nat) {x : DI k} (hx : Ok w k x) : lzc w k x ≤ bits w k ∧
    val w k x < 2 ^ (bits w k - lzc w k x) ∧ (val w k x = 0 → lzc w k x = bits w k) ∧
    (val w k x ≠ 0 → 2 ^ (bits w k - lzc w k x) ≤ 2 * val w k x) := by
  have l1 := Nat.size_le.2 (val_lt hx)
  rw [lzc_size k hx, show bits w k - (bits w k - Nat.size (val w k x)) = Nat.size (val w k x) by omega]
  refine ⟨by omega, Nat.lt_size_self _, fun h => by rw [h, Nat.size_zero]; omega, fun h => ?_⟩
  have h2 := Nat.size_pos.2 (Nat.pos_of_ne_zero h)
  have : 2 ^ (Nat.size (val w k x) - 1) ≤ val w k x := Nat.lt_size.1 (by omega)
  rw [show Nat.size (val w k x) = (Nat.size (val w k x) - 1) + 1 by omega, pow_succ]
  omega

/-! ### Conversions -/

/-- **C123**: `to_uint64` is the number modulo `2^64`. -/
theorem C123_to_uint64 {w : Nat} : ∀ (k : Nat) {x : DI k}, Ok w k x → toU64 w k x = val w k x % 2 ^ 64
  | 0, _, _ => rfl
  | k + 1, x, hx => by
    have i1 := C123_to_uint64 k hx.1
    have i2 := C123_to_uint64 k hx.2
    have l2 := val_lt hx.2
    rw [toU64, i1, i2, val]
    split_ifs with h
    · rw [show 2 ^ bits w k = 2 ^ (bits w k - 64) * 2 ^ 64 by rw [← pow_add]; congr 1; omega, ← Nat.mul_assoc, Nat.add_comm, Nat.add_mul_mod_self_right]
    · have hs : 2 ^ 64 = 2 ^ (64 - bits w k) * 2 ^ bits w k := by rw [← pow_add]; congr 1; omega
      have hle : 2 ^ bits w k ≤ 2 ^ 64 := Nat.pow_le_pow_right (by norm_num) (by omega)
      have hm := Nat.mod_lt (val w k x.1) (Nat.two_pow_pos (64 - bits w k))
      have hd := Nat.div_add_mod (val w k x.1) (2 ^ (64 - bits w k))
      have e1 : (val w k x.1 % 2 ^ 64) <<< bits w k % 2 ^ 64 = val w k x.1 % 2 ^ (64 - bits w k) * 2 ^ bits w k := by
        rw [Nat.shiftLeft_eq, Nat.mod_mul_mod]
        conv_lhs => rw [hs]
        rw [Nat.mul_mod_mul_right]
      rw [e1, Nat.mod_eq_of_lt (lt_of_lt_of_le l2 hle), or_digits _ _ _ l2]
      generalize val w k x.1 / 2 ^ (64 - bits w k) = q at *
      generalize val w k x.1 % 2 ^ (64 - bits w k) = r at *
      apply val_of_carry (c := q)
      · have : (r + 1) * 2 ^ bits w k ≤ 2 ^ (64 - bits w k) * 2 ^ bits w k := Nat.mul_le_mul_right _ hm
        rw [← hs, Nat.add_mul] at this
        omega
      · rw [hs, ← hd]; ring

/-- The number written with the hexadecimal digits `l`. -/
def hexVal (l : List Nat) : Nat := l.foldl (fun a d => a * 16 + d) 0

theorem foldl_hex (l : List Nat) (a : Nat) : l.foldl (fun a d => a * 16 + d) a = a * 16 ^ l.length + hexVal l := by
  induction l generalizing a with
  | nil => simp [hexVal]
  | cons d l ih =>
    have h0 : hexVal (d :: l) = (0 * 16 + d) * 16 ^ l.length + hexVal l := ih (0 * 16 + d)
    rw [List.foldl_cons, ih, h0, List.length_cons]
    ring

theorem hexLoop_spec : ∀ (n u : Nat) (s : List Nat), (∀ d ∈ s, d < 16) → (hexLoop n u s).length = n + s.length ∧
    (∀ d ∈ hexLoop n u s, d < 16) ∧ hexVal (hexLoop n u s) = u % 16 ^ n * 16 ^ s.length + hexVal s
  | 0, u, s, hs => by
    refine ⟨by simp [hexLoop], hs, by simp [hexLoop, Nat.mod_one]⟩
  | n + 1, u, s, hs => by
    have hd : u &&& 0xF = u % 16 := Nat.and_two_pow_sub_one_eq_mod u 4
    obtain ⟨a, b, c⟩ := hexLoop_spec n (u >>> 4) ((u &&& 0xF) :: s) (by
      intro d h
      rcases List.mem_cons.1 h with h | h
      · rw [h, hd]; exact Nat.mod_lt _ (by norm_num)
      · exact hs d h)
    rw [hexLoop]
    refine ⟨by rw [a, List.length_cons]; omega, b, ?_⟩
    rw [c, hexVal, List.foldl_cons, foldl_hex, List.length_cons, hd, Nat.shiftRight_eq_div_pow, pow_succ 16 n, Nat.mul_comm (16 ^ n) 16, Nat.mod_mul]
    ring

/-- **C123**: `to_string16` writes the number with `bits / 4` hexadecimal digits. -/
theorem C123_hex {j : Nat} (hj : 4 * j ≤ 64) : ∀ (k : Nat) {x : DI k}, Ok (4 * j) k x →
    (hex (4 * j) k x).length = bits (4 * j) k / 4 ∧ (∀ d ∈ hex (4 * j) k x, d < 16) ∧ hexVal (hex (4 * j) k x) = val (4 * j) k x
  | 0, x, hx => by
    have key : ∀ x : Nat, x < 2 ^ (4 * j) → (hexLoop (4 * j / 4) (x % 2 ^ 64) []).length = 4 * j / 4 ∧
        (∀ d ∈ hexLoop (4 * j / 4) (x % 2 ^ 64) [], d < 16) ∧ hexVal (hexLoop (4 * j / 4) (x % 2 ^ 64) []) = x := by
      intro x hx
      obtain ⟨a, b, c⟩ := hexLoop_spec (4 * j / 4) (x % 2 ^ 64) [] (by simp)
      refine ⟨a, b, ?_⟩
      rw [c, Nat.mul_div_cancel_left _ (by norm_num), show (16 : Nat) ^ j = 2 ^ (4 * j) by rw [Nat.pow_mul],
        Nat.mod_eq_of_lt (lt_of_lt_of_le hx (Nat.pow_le_pow_right (by norm_num) hj)), Nat.mod_eq_of_lt hx]
      simp [hexVal]
    rw [bits_zero]
    exact key x hx
  | k + 1, x, hx => by
    obtain ⟨a1, b1, c1⟩ := C123_hex hj k hx.1
    obtain ⟨a2, b2, c2⟩ := C123_hex hj k hx.2
    have hb : bits (4 * j) k = 4 * (j * 2 ^ k) := by rw [bits, Nat.mul_assoc]
    rw [hex]
    refine ⟨?_, ?_, ?_⟩
    · rw [List.length_append, a1, a2, bits_succ, hb]; omega
    · intro d h
      rcases List.mem_append.1 h with h | h
      · exact b1 d h
      · exact b2 d h
    · rw [hexVal, List.foldl_append, foldl_hex, ← hexVal, c1, c2, a2, val, hb, Nat.mul_div_cancel_left _ (by norm_num),
        Nat.pow_mul 2 4]

example : hex 8 2 exA = [0, 3, 0, 4, 0, 5, 0, 6] := by decide +kernel
example : toU64 32 2 ((((1 : Nat), (2 : Nat)), ((3 : Nat), (4 : Nat))) : (Nat × Nat) × (Nat × Nat)) = 3 * 2 ^ 32 + 4 := by decide +kernel
example : lzc 8 2 exA = 6 ∧ lzc 8 2 exC = 30 := by decide +kernel
example : sar 8 (254, 3) 3 = (255, 192) ∧ sar 8 (254, 3) 9 = (255, 255) ∧ shr 8 (254, 3) 9 = (0, 127) := by decide +kernel
example : notD 8 2 exB = (((0 : Nat), (0 : Nat)), ((0 : Nat), (1 : Nat))) := rfl

end Altruct.DoubleInt
