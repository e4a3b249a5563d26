/-
C122: arithmetic and comparison of `double_int`.
-/
import Verif.DoubleInt.Spec
import Mathlib.Tactic.Ring
import Mathlib.Data.Int.ModEq
import Mathlib.Tactic.Linarith
import Mathlib.Tactic.LinearCombination

namespace Altruct.DoubleInt

theorem bits_succ (w k : Nat) : bits w (k + 1) = bits w k + bits w k := by
  rw [bits, bits, pow_succ]; ring

theorem bits_zero (w : Nat) : bits w 0 = w := by simp [bits]

theorem base_succ (w k : Nat) : 2 ^ bits w (k + 1) = 2 ^ bits w k * 2 ^ bits w k := by
  rw [bits_succ, pow_add]

theorem bits_pos {w : Nat} (hw : 0 < w) (k : Nat) : 0 < bits w k := Nat.mul_pos hw (Nat.two_pow_pos k)

theorem le_bits (w k : Nat) : w ≤ bits w k := Nat.le_mul_of_pos_right _ (Nat.two_pow_pos k)

theorem base_pos (w k : Nat) : 0 < 2 ^ bits w k := Nat.two_pow_pos _

theorem two_digits_lt {a b B : Nat} (ha : a < B) (hb : b < B) : a * B + b < B * B := by
  have : (a + 1) * B ≤ B * B := Nat.mul_le_mul_right _ ha
  rw [Nat.add_mul] at this; omega

theorem val_lt {w : Nat} : ∀ {k : Nat} {x : DI k}, Ok w k x → val w k x < 2 ^ bits w k
  | 0, x, h => by
    have : val w 0 x < 2 ^ w := h
    rwa [bits_zero]
  | k + 1, x, h => by
    rw [base_succ, val]
    exact two_digits_lt (val_lt h.1) (val_lt h.2)

theorem two_digits_inj {a b c d B : Nat} (hb : b < B) (hd : d < B) (h : a * B + b = c * B + d) : a = c ∧ b = d := by
  have h1 : (a * B + b) / B = a := by rw [Nat.mul_comm, Nat.mul_add_div (by omega), Nat.div_eq_of_lt hb, Nat.add_zero]
  have h2 : (c * B + d) / B = c := by rw [Nat.mul_comm, Nat.mul_add_div (by omega), Nat.div_eq_of_lt hd, Nat.add_zero]
  have : a = c := by rw [← h1, ← h2, h]
  subst this
  exact ⟨rfl, by omega⟩

/-- **C122**: every number below `2^bits` is represented exactly once. -/
theorem C122_repr {w : Nat} : ∀ (k : Nat), (∀ x y : DI k, Ok w k x → Ok w k y → val w k x = val w k y → x = y) ∧
    ∀ n, n < 2 ^ bits w k → ∃ x, Ok w k x ∧ val w k x = n
  | 0 => ⟨fun _ _ _ _ h => h, fun n hn => ⟨n, by simpa [bits, Ok] using hn, rfl⟩⟩
  | k + 1 => by
    obtain ⟨i1, i2⟩ := C122_repr (w := w) k
    refine ⟨fun x y hx hy h => ?_, fun n hn => ?_⟩
    · obtain ⟨e1, e2⟩ := two_digits_inj (val_lt hx.2) (val_lt hy.2) h
      exact Prod.ext (i1 _ _ hx.1 hy.1 e1) (i1 _ _ hx.2 hy.2 e2)
    · rw [base_succ] at hn
      obtain ⟨a, ha, ea⟩ := i2 (n / 2 ^ bits w k) (Nat.div_lt_of_lt_mul hn)
      obtain ⟨b, hb, eb⟩ := i2 (n % 2 ^ bits w k) (Nat.mod_lt _ (base_pos w k))
      exact ⟨(a, b), ⟨ha, hb⟩, by
        show val w k a * 2 ^ bits w k + val w k b = n
        rw [ea, eb, Nat.mul_comm]; exact Nat.div_add_mod _ _⟩

/-! ### Construction -/

theorem word_lt (w : Nat) (z : Int) : word w z < 2 ^ w := by
  have h0 : (0 : Int) < ((2 ^ w : Nat) : Int) := by exact_mod_cast Nat.two_pow_pos w
  have h1 := Int.emod_lt_of_pos z h0
  have h2 := Int.emod_nonneg z (ne_of_gt h0)
  rw [word]; omega

theorem word_mod (w : Nat) (z : Int) : ((word w z : Nat) : Int) = z % (2 ^ w : Nat) := by
  have h0 : (0 : Int) < ((2 ^ w : Nat) : Int) := by exact_mod_cast Nat.two_pow_pos w
  rw [word, Int.toNat_of_nonneg (Int.emod_nonneg z (ne_of_gt h0))]

theorem ofInt_ok (w : Nat) : ∀ (k : Nat) (z : Int), Ok w k (ofInt w k z)
  | 0, z => word_lt w z
  | k + 1, z => ⟨ofInt_ok w k _, ofInt_ok w k _⟩

theorem neg_emod {z B : Int} (h1 : -B ≤ z) (h2 : z < 0) : z % B = z + B := by
  rw [← Int.add_emod_right z, Int.emod_eq_of_lt (by omega) (by omega)]

/-- **C122**: construction from an `int` that fits into a word (or its unsigned variant) gives that number. -/
theorem C122_of_int {w : Nat} (hw : 0 < w) : ∀ (k : Nat) {z : Int}, -(2 ^ w : Nat) ≤ z → z < (2 ^ w : Nat) →
    ((val w k (ofInt w k z) : Nat) : Int) = z % (2 ^ bits w k : Nat)
  | 0, z, _, _ => by
    show ((word w z : Nat) : Int) = _
    rw [word_mod, bits_zero]
  | k + 1, z, h1, h2 => by
    have hB : (1 : Int) < ((2 ^ bits w k : Nat) : Int) := by
      exact_mod_cast Nat.one_lt_two_pow (by have := bits_pos hw k; omega)
    have hwB : ((2 ^ w : Nat) : Int) ≤ ((2 ^ bits w k : Nat) : Int) := by
      exact_mod_cast Nat.pow_le_pow_right (by norm_num) (le_bits w k)
    have h2w : (1 : Int) < ((2 ^ w : Nat) : Int) := by exact_mod_cast Nat.one_lt_two_pow (by omega)
    have iz := C122_of_int hw k h1 h2
    have i1 := C122_of_int hw k (z := -1) (by omega) (by omega)
    have i0 := C122_of_int hw k (z := 0) (by omega) (by omega)
    show ((val w k (ofInt w k (if z < 0 then -1 else 0)) * 2 ^ bits w k + val w k (ofInt w k z) : Nat) : Int) = _
    rw [Nat.cast_add, Nat.cast_mul, iz, base_succ, Nat.cast_mul]
    generalize ((2 ^ bits w k : Nat) : Int) = B at *
    generalize ((2 ^ w : Nat) : Int) = W at *
    by_cases hz : z < 0
    · rw [if_pos hz, i1, neg_emod (by omega) hz, neg_emod (by omega) (by omega), neg_emod (by nlinarith) hz]
      ring
    · rw [if_neg hz, i0, Int.zero_emod, zero_mul, zero_add, Int.emod_eq_of_lt (by omega) (by omega),
        Int.emod_eq_of_lt (by omega) (by nlinarith)]

theorem val_zero {w : Nat} (hw : 0 < w) (k : Nat) : val w k (ofInt w k 0) = 0 := by
  have := C122_of_int hw k (z := 0) (by have := Nat.two_pow_pos w; omega) (by have := Nat.two_pow_pos w; omega)
  rw [Int.zero_emod] at this
  exact_mod_cast this

/-! ### Addition and subtraction -/

theorem adc0 {w x y c : Nat} (hx : x < 2 ^ w) (hy : y < 2 ^ w) (hc : c ≤ 1) :
    (x + y + c) / 2 ^ w ≤ 1 ∧ (x + y + c) % 2 ^ w + (x + y + c) / 2 ^ w * 2 ^ w = x + y + c := by
  constructor
  · have : (x + y + c) / 2 ^ w < 2 := Nat.div_lt_of_lt_mul (by omega)
    omega
  · rw [Nat.mul_comm]; exact Nat.mod_add_div _ _

/-- **C122**: addition with carry. -/
theorem C122_adc {w : Nat} : ∀ (k : Nat) {x y : DI k} {c : Nat}, Ok w k x → Ok w k y → c ≤ 1 →
    Ok w k (adc w k x y c).1 ∧ (adc w k x y c).2 ≤ 1 ∧
    val w k (adc w k x y c).1 + (adc w k x y c).2 * 2 ^ bits w k = val w k x + val w k y + c
  | 0, x, y, c, hx, hy, hc => by
    refine ⟨Nat.mod_lt _ (Nat.two_pow_pos w), (adc0 hx hy hc).1, ?_⟩
    rw [bits_zero]
    exact (adc0 hx hy hc).2
  | k + 1, x, y, c, hx, hy, hc => by
    obtain ⟨a1, a2, a3⟩ := C122_adc k hx.2 hy.2 hc
    obtain ⟨b1, b2, b3⟩ := C122_adc k hx.1 hy.1 a2
    refine ⟨⟨b1, a1⟩, b2, ?_⟩
    show val w k (adc w k x.1 y.1 (adc w k x.2 y.2 c).2).1 * 2 ^ bits w k + val w k (adc w k x.2 y.2 c).1 +
      (adc w k x.1 y.1 (adc w k x.2 y.2 c).2).2 * 2 ^ bits w (k + 1) = val w k x.1 * 2 ^ bits w k + val w k x.2 +
      (val w k y.1 * 2 ^ bits w k + val w k y.2) + c
    rw [base_succ]
    generalize 2 ^ bits w k = B at *
    generalize (adc w k x.1 y.1 (adc w k x.2 y.2 c).2).2 = c2 at *
    generalize (adc w k x.2 y.2 c).2 = c1 at *
    have := congrArg (· * B) b3
    beta_reduce at this
    linarith [this]

theorem sbb0 {w x y b : Nat} (hx : x < 2 ^ w) (hy : y < 2 ^ w) (hb : b ≤ 1) :
    (x + (2 ^ w - y) + 2 ^ w - b) % 2 ^ w + y + b = x + (if x < y + b then 1 else 0) * 2 ^ w := by
  split_ifs with h
  · rw [show x + (2 ^ w - y) + 2 ^ w - b = (x + 2 ^ w - y - b) + 2 ^ w by omega, Nat.add_mod_right,
      Nat.mod_eq_of_lt (by omega)]
    omega
  · rw [show x + (2 ^ w - y) + 2 ^ w - b = (x - y - b) + 2 ^ w + 2 ^ w by omega, Nat.add_mod_right,
      Nat.add_mod_right, Nat.mod_eq_of_lt (by omega)]
    omega

/-- **C122**: subtraction with borrow. -/
theorem C122_sbb {w : Nat} : ∀ (k : Nat) {x y : DI k} {b : Nat}, Ok w k x → Ok w k y → b ≤ 1 →
    Ok w k (sbb w k x y b).1 ∧ (sbb w k x y b).2 ≤ 1 ∧
    val w k (sbb w k x y b).1 + val w k y + b = val w k x + (sbb w k x y b).2 * 2 ^ bits w k
  | 0, x, y, b, hx, hy, hb => by
    refine ⟨Nat.mod_lt _ (Nat.two_pow_pos w), ?_, ?_⟩
    · have : ∀ x y : Nat, (if x < y then 1 else 0) ≤ 1 := fun x y => by split_ifs <;> omega
      exact this x _
    · rw [bits_zero]
      exact sbb0 hx hy hb
  | k + 1, x, y, c, hx, hy, hc => by
    obtain ⟨a1, a2, a3⟩ := C122_sbb k hx.2 hy.2 hc
    obtain ⟨b1, b2, b3⟩ := C122_sbb k hx.1 hy.1 a2
    refine ⟨⟨b1, a1⟩, b2, ?_⟩
    show val w k (sbb w k x.1 y.1 (sbb w k x.2 y.2 c).2).1 * 2 ^ bits w k + val w k (sbb w k x.2 y.2 c).1 +
      (val w k y.1 * 2 ^ bits w k + val w k y.2) + c = val w k x.1 * 2 ^ bits w k + val w k x.2 +
      (sbb w k x.1 y.1 (sbb w k x.2 y.2 c).2).2 * 2 ^ bits w (k + 1)
    rw [base_succ]
    generalize 2 ^ bits w k = B at *
    generalize (sbb w k x.1 y.1 (sbb w k x.2 y.2 c).2).2 = c2 at *
    generalize (sbb w k x.2 y.2 c).2 = c1 at *
    have := congrArg (· * B) b3
    beta_reduce at this
    linarith [this]

theorem val_of_carry {r c B s : Nat} (hr : r < B) (h : r + c * B = s) : r = s % B := by
  rw [← h, Nat.add_mul_mod_self_right, Nat.mod_eq_of_lt hr]

theorem val_of_borrow {r c B x y b : Nat} (hr : r < B) (hc : c ≤ 1) (h : r + y + b = x + c * B) :
    (r : Int) = ((x : Int) - y - b) % (B : Int) := by
  have e : (x : Int) - y - b = r + (-c : Int) * B := by
    have : ((r + y + b : Nat) : Int) = ((x + c * B : Nat) : Int) := by rw [h]
    push_cast at this; linarith
  rw [e, Int.add_mul_emod_self_right, Int.emod_eq_of_lt (by omega) (by omega)]

/-- **C122**: `+`. -/
theorem C122_add {w : Nat} : ∀ (k : Nat) {x y : DI k}, Ok w k x → Ok w k y →
    Ok w k (add w k x y) ∧ val w k (add w k x y) = (val w k x + val w k y) % 2 ^ bits w k
  | 0, x, y, _, _ => ⟨Nat.mod_lt _ (Nat.two_pow_pos w), by rw [bits_zero]; rfl⟩
  | k + 1, x, y, hx, hy => by
    obtain ⟨h1, _, h3⟩ := C122_adc (k + 1) hx hy (Nat.zero_le 1)
    exact ⟨h1, val_of_carry (val_lt h1) h3⟩

/-- **C122**: `-`. -/
theorem C122_sub {w : Nat} : ∀ (k : Nat) {x y : DI k}, Ok w k x → Ok w k y →
    Ok w k (sub w k x y) ∧ ((val w k (sub w k x y) : Nat) : Int) = ((val w k x : Int) - val w k y) % (2 ^ bits w k : Nat)
  | 0, x, y, _, hy => by
    refine ⟨Nat.mod_lt _ (Nat.two_pow_pos w), ?_⟩
    have key : ∀ x y : Nat, y < 2 ^ w → (((x + (2 ^ w - y)) % 2 ^ w : Nat) : Int) = ((x : Int) - y) % (2 ^ w : Nat) := by
      intro x y hy
      rw [Int.natCast_mod, Nat.cast_add, Nat.cast_sub hy.le, show (x : Int) + (((2 ^ w : Nat) : Int) - y) = (x - y) + ((2 ^ w : Nat) : Int) by ring,
        Int.add_emod_right]
    rw [bits_zero]
    exact key x y hy
  | k + 1, x, y, hx, hy => by
    obtain ⟨h1, h2, h3⟩ := C122_sbb (k + 1) hx hy (Nat.zero_le 1)
    refine ⟨h1, ?_⟩
    have := val_of_borrow (val_lt h1) h2 h3
    rw [Nat.cast_zero, sub_zero] at this
    exact this

/-- **C122**: unary `-`. -/
theorem C122_neg {w : Nat} (hw : 0 < w) (k : Nat) {x : DI k} (hx : Ok w k x) :
    Ok w k (neg w k x) ∧ ((val w k (neg w k x) : Nat) : Int) = (-(val w k x : Int)) % (2 ^ bits w k : Nat) := by
  cases k with
  | zero =>
    have key : ∀ x : Nat, x < 2 ^ w → (((2 ^ w - x) % 2 ^ w : Nat) : Int) = (-(x : Int)) % (2 ^ w : Nat) := by
      intro x hx
      rw [Int.natCast_mod, Nat.cast_sub hx.le, show ((2 ^ w : Nat) : Int) - x = -x + ((2 ^ w : Nat) : Int) by ring,
        Int.add_emod_right]
    refine ⟨Nat.mod_lt _ (Nat.two_pow_pos w), ?_⟩
    rw [bits_zero]
    exact key x hx
  | succ k =>
    obtain ⟨h1, h2⟩ := C122_sub (k + 1) (ofInt_ok w (k + 1) 0) hx
    refine ⟨h1, h2.trans ?_⟩
    rw [val_zero hw]; simp

/-- **C122**: prefix `++` and `--`. -/
theorem C122_inc_dec {w : Nat} (hw : 0 < w) (k : Nat) {x : DI (k + 1)} (hx : Ok w (k + 1) x) :
    Ok w (k + 1) (inc w k x) ∧ val w (k + 1) (inc w k x) = (val w (k + 1) x + 1) % 2 ^ bits w (k + 1) ∧
    Ok w (k + 1) (dec w k x) ∧
    ((val w (k + 1) (dec w k x) : Nat) : Int) = ((val w (k + 1) x : Int) - 1) % (2 ^ bits w (k + 1) : Nat) := by
  obtain ⟨h1, _, h3⟩ := C122_adc (k + 1) hx (ofInt_ok w (k + 1) 0) (le_refl 1)
  obtain ⟨g1, g2, g3⟩ := C122_sbb (k + 1) hx (ofInt_ok w (k + 1) 0) (le_refl 1)
  have e := val_zero hw (k + 1)
  rw [e] at h3
  have e3 := val_of_borrow (val_lt g1) g2 g3
  rw [e, Nat.cast_zero, sub_zero, Nat.cast_one] at e3
  exact ⟨h1, val_of_carry (val_lt h1) h3, g1, e3⟩

/-! ### Comparison -/

/-- **C122**: `==`. -/
theorem C122_eq {w : Nat} : ∀ (k : Nat) {x y : DI k}, Ok w k x → Ok w k y → (eqB k x y = true ↔ val w k x = val w k y)
  | 0, x, y, _, _ => by
    have key : ∀ x y : Nat, decide (x = y) = true ↔ x = y := fun x y => decide_eq_true_iff
    exact key x y
  | k + 1, x, y, hx, hy => by
    rw [eqB, Bool.and_eq_true, C122_eq k hx.1 hy.1, C122_eq k hx.2 hy.2]
    constructor
    · rintro ⟨a, b⟩; rw [val, val, a, b]
    · exact fun h => two_digits_inj (val_lt hx.2) (val_lt hy.2) h

theorem lex_lt {a b c d B : Nat} (hb : b < B) (hd : d < B) : a * B + b < c * B + d ↔ a < c ∨ a = c ∧ b < d := by
  constructor
  · intro h
    rcases Nat.lt_trichotomy a c with h1 | h1 | h1
    · exact Or.inl h1
    · subst h1; exact Or.inr ⟨rfl, by omega⟩
    · have : (c + 1) * B ≤ a * B := Nat.mul_le_mul_right _ h1
      rw [Nat.add_mul] at this; omega
  · rintro (h | ⟨h, h2⟩)
    · have : (a + 1) * B ≤ c * B := Nat.mul_le_mul_right _ h
      rw [Nat.add_mul] at this; omega
    · subst h; omega

theorem lex_le {a b c d B : Nat} (hb : b < B) (hd : d < B) : a * B + b ≤ c * B + d ↔ a < c ∨ a = c ∧ b ≤ d := by
  rw [← not_lt, lex_lt hd hb]
  omega

/-- **C122**: the unsigned comparisons. -/
theorem C122_unsigned {w : Nat} : ∀ (k : Nat) {x y : DI k}, Ok w k x → Ok w k y →
    (ult k x y = true ↔ val w k x < val w k y) ∧ (ugt k x y = true ↔ val w k x > val w k y) ∧
    (ule k x y = true ↔ val w k x ≤ val w k y) ∧ (uge k x y = true ↔ val w k x ≥ val w k y)
  | 0, x, y, _, _ => by
    have key : ∀ x y : Nat, (decide (x < y) = true ↔ x < y) ∧ (decide (x > y) = true ↔ x > y) ∧
      (decide (x ≤ y) = true ↔ x ≤ y) ∧ (decide (x ≥ y) = true ↔ x ≥ y) :=
      fun x y => ⟨decide_eq_true_iff, decide_eq_true_iff, decide_eq_true_iff, decide_eq_true_iff⟩
    exact key x y
  | k + 1, x, y, hx, hy => by
    obtain ⟨a1, a2, a3, a4⟩ := C122_unsigned k hx.1 hy.1
    obtain ⟨b1, b2, b3, b4⟩ := C122_unsigned k hx.2 hy.2
    have e := C122_eq k hx.1 hy.1
    have lx := val_lt hx.2
    have ly := val_lt hy.2
    refine ⟨?_, ?_, ?_, ?_⟩
    · rw [ult, Bool.or_eq_true, Bool.and_eq_true, a1, e, b1]; exact (lex_lt lx ly).symm
    · rw [ugt, Bool.or_eq_true, Bool.and_eq_true, a2, e, b2, eq_comm]; exact (lex_lt ly lx).symm
    · rw [ule, Bool.or_eq_true, Bool.and_eq_true, a1, e, b3]; exact (lex_le lx ly).symm
    · rw [uge, Bool.or_eq_true, Bool.and_eq_true, a2, e, b4, eq_comm]; exact (lex_le ly lx).symm

theorem half_le {a b h B : Nat} (hb : b < B) : h * B ≤ a * B + b ↔ h ≤ a := by
  constructor
  · intro hh
    by_contra hc
    have : (a + 1) * B ≤ h * B := Nat.mul_le_mul_right _ (by omega)
    rw [Nat.add_mul] at this; omega
  · intro hh
    have : h * B ≤ a * B := Nat.mul_le_mul_right _ hh
    omega

theorem half_succ {w : Nat} (hw : 0 < w) (k : Nat) : 2 ^ (bits w (k + 1) - 1) = 2 ^ (bits w k - 1) * 2 ^ bits w k := by
  rw [← pow_add, bits_succ]
  congr 1
  have := bits_pos hw k
  omega

/-- The signed number of a pair: the signed number of the high half, and the unsigned one of the low half. -/
theorem sval_succ {w : Nat} (hw : 0 < w) (k : Nat) {x : DI (k + 1)} (hx : Ok w (k + 1) x) :
    sval w (k + 1) x = sval w k x.1 * (2 ^ bits w k : Nat) + val w k x.2 := by
  have e : val w (k + 1) x = val w k x.1 * 2 ^ bits w k + val w k x.2 := rfl
  have h : 2 ^ (bits w (k + 1) - 1) ≤ val w (k + 1) x ↔ 2 ^ (bits w k - 1) ≤ val w k x.1 := by
    rw [half_succ hw, e, half_le (val_lt hx.2)]
  rw [sval, sval]
  by_cases c : 2 ^ (bits w k - 1) ≤ val w k x.1
  · rw [if_pos c, if_pos (h.2 c), e, base_succ]; push_cast; ring
  · rw [if_neg c, if_neg (fun g => c (h.1 g)), e]; push_cast; ring

theorem sval_zero (w : Nat) (x : Nat) : sval w 0 x = sv w x := by
  unfold sval sv
  rw [bits_zero]; rfl

/-- The range of the signed numbers. -/
theorem C122_range {w : Nat} (hw : 0 < w) (k : Nat) {x : DI k} (hx : Ok w k x) :
    -(2 ^ (bits w k - 1) : Nat) ≤ sval w k x ∧ sval w k x < (2 ^ (bits w k - 1) : Nat) ∧
    sval w k x % (2 ^ bits w k : Nat) = val w k x := by
  have h1 := val_lt hx
  have h2 : 2 ^ bits w k = 2 * 2 ^ (bits w k - 1) := by
    rw [← pow_succ']; congr 1; have := bits_pos hw k; omega
  rw [sval]
  split_ifs with h
  · refine ⟨by omega, by omega, ?_⟩
    rw [← Int.add_emod_right, sub_add_cancel, Int.emod_eq_of_lt (by omega) (by omega)]
  · refine ⟨by omega, by omega, ?_⟩
    rw [Int.emod_eq_of_lt (by omega) (by omega)]

theorem lexz_lt {a c : Int} {b d B : Nat} (hb : b < B) (hd : d < B) : a * (B : Int) + b < c * (B : Int) + d ↔ a < c ∨ a = c ∧ b < d := by
  constructor
  · intro h
    rcases lt_trichotomy a c with h1 | h1 | h1
    · exact Or.inl h1
    · subst h1; exact Or.inr ⟨rfl, by omega⟩
    · have : (c + 1) * (B : Int) ≤ a * (B : Int) := Int.mul_le_mul_of_nonneg_right h1 (by omega)
      rw [Int.add_mul] at this; omega
  · rintro (h | ⟨h, h2⟩)
    · have : (a + 1) * (B : Int) ≤ c * (B : Int) := Int.mul_le_mul_of_nonneg_right h (by omega)
      rw [Int.add_mul] at this; omega
    · subst h; omega

theorem lexz_le {a c : Int} {b d B : Nat} (hb : b < B) (hd : d < B) : a * (B : Int) + b ≤ c * (B : Int) + d ↔ a < c ∨ a = c ∧ b ≤ d := by
  rw [← not_lt, lexz_lt hd hb]
  omega

theorem sval_inj {w : Nat} (hw : 0 < w) (k : Nat) {x y : DI k} (hx : Ok w k x) (hy : Ok w k y) :
    val w k x = val w k y ↔ sval w k x = sval w k y := by
  constructor
  · intro h; rw [sval, sval, h]
  · intro h
    have := (C122_range hw k hx).2.2
    rw [h, (C122_range hw k hy).2.2] at this
    exact_mod_cast this.symm

/-- **C122**: the signed comparisons. -/
theorem C122_signed {w : Nat} (hw : 0 < w) : ∀ (k : Nat) {x y : DI k}, Ok w k x → Ok w k y →
    (slt w k x y = true ↔ sval w k x < sval w k y) ∧ (sgt w k x y = true ↔ sval w k x > sval w k y) ∧
    (sle w k x y = true ↔ sval w k x ≤ sval w k y) ∧ (sge w k x y = true ↔ sval w k x ≥ sval w k y)
  | 0, x, y, _, _ => by
    rw [sval_zero w x, sval_zero w y]
    exact ⟨decide_eq_true_iff, decide_eq_true_iff, decide_eq_true_iff, decide_eq_true_iff⟩
  | k + 1, x, y, hx, hy => by
    obtain ⟨a1, a2, _, _⟩ := C122_signed hw k hx.1 hy.1
    obtain ⟨b1, b2, b3, b4⟩ := C122_unsigned k hx.2 hy.2
    have e := (C122_eq k hx.1 hy.1).trans (sval_inj hw k hx.1 hy.1)
    have lx := val_lt hx.2
    have ly := val_lt hy.2
    rw [sval_succ hw k hx, sval_succ hw k hy]
    refine ⟨?_, ?_, ?_, ?_⟩
    · rw [slt, Bool.or_eq_true, Bool.and_eq_true, a1, e, b1]; exact (lexz_lt lx ly).symm
    · rw [sgt, Bool.or_eq_true, Bool.and_eq_true, a2, e, b2, eq_comm]; exact (lexz_lt ly lx).symm
    · rw [sle, Bool.or_eq_true, Bool.and_eq_true, a1, e, b3]; exact (lexz_le lx ly).symm
    · rw [sge, Bool.or_eq_true, Bool.and_eq_true, a2, e, b4, eq_comm]; exact (lexz_le ly lx).symm

/-- **C122**: `is_negative`. -/
theorem C122_negative {w : Nat} (hw : 0 < w) : ∀ (k : Nat) {x : DI k}, Ok w k x → (isNeg w k x = true ↔ sval w k x < 0)
  | 0, x, hx => by
    have key : ∀ x : Nat, x < 2 ^ w → (decide (2 ^ (w - 1) ≤ x) = true ↔ sv w x < 0) := by
      intro x hx
      rw [decide_eq_true_iff, sv]
      split_ifs with h
      · exact ⟨fun _ => by omega, fun _ => h⟩
      · exact ⟨fun g => absurd g h, fun g => by omega⟩
    rw [sval_zero w x]
    exact key x hx
  | k + 1, x, hx => by
    rw [isNeg, C122_negative hw k hx.1, sval_succ hw k hx]
    have := lexz_lt (a := sval w k x.1) (c := 0) (val_lt hx.2) (base_pos w k)
    simp only [Nat.not_lt_zero, and_false, or_false, zero_mul, Nat.cast_zero, add_zero] at this
    exact this.symm

/-- **C122**: construction from the half type keeps the signed number. -/
theorem C122_of_half {w : Nat} (hw : 0 < w) (k : Nat) {x : DI k} (hx : Ok w k x) :
    Ok w (k + 1) (ofHalf w k x) ∧ sval w (k + 1) (ofHalf w k x) = sval w k x := by
  have ho : Ok w (k + 1) (ofHalf w k x) := ⟨ofInt_ok w k _, hx⟩
  refine ⟨ho, ?_⟩
  rw [sval_succ hw k ho]
  show sval w k (ofInt w k (if isNeg w k x then -1 else 0)) * (2 ^ bits w k : Nat) + (val w k x : Int) = _
  have h2w : (1 : Int) < ((2 ^ w : Nat) : Int) := by exact_mod_cast Nat.one_lt_two_pow (by omega)
  have hb : 2 ^ bits w k = 2 * 2 ^ (bits w k - 1) := by
    rw [← pow_succ']; congr 1; have := bits_pos hw k; omega
  have hp := Nat.two_pow_pos (bits w k - 1)
  have hn := C122_negative hw k hx
  have hl := val_lt hx
  by_cases c : isNeg w k x = true
  · have c2 : 2 ^ (bits w k - 1) ≤ val w k x := by
      by_contra h
      have := hn.1 c
      rw [sval, if_neg h] at this; omega
    rw [if_pos c]
    have h1 := C122_of_int hw k (z := -1) (by omega) (by omega)
    rw [neg_emod (by omega) (by omega)] at h1
    rw [sval, if_pos (by omega), sval, if_pos c2, h1]
    ring
  · have c2 : ¬ 2 ^ (bits w k - 1) ≤ val w k x := by
      intro h
      apply c
      rw [hn, sval, if_pos h]; omega
    rw [if_neg c, sval, val_zero hw, if_neg (by omega), sval, if_neg c2]
    simp

/-! ### Multiplication -/

theorem mul_full_id {B xl xh yl yh ls lc rs rc m0h m0l m2h m2l s0 z0 z2 p q a a' b b' c c' d d' hh t : Int}
    (h1 : ls + lc * B = xl + xh) (h2 : rs + rc * B = yl + yh) (e0 : m0h * B + m0l = xl * yl) (e2 : m2h * B + m2l = xh * yh)
    (f0 : s0 + xl * yl = ls * rs + z0 * (B * B)) (f2 : p * B + q + xh * yh = s0 + z2 * (B * B))
    (ga : a + a' * B = m0h + q) (gb : b + b' * B = m2l + p + a') (gc : c + c' * B = b + rc * ls)
    (gd : d + d' * B = c + lc * rs) (gh : hh = m2h + (lc * rc - z0 - z2 + b' + c' + d') + t * B) :
    (hh * B + d) * (B * B) + (a * B + m0l) = (xh * B + xl) * (yh * B + yl) + t * (B * B * (B * B)) := by
  linear_combination gh * B ^ 3 + gd * B ^ 2 + gc * B ^ 2 + gb * B ^ 2 + ga * B + e0 + e2 * B ^ 2 + f0 * B + f2 * B +
    h1 * (yl + yh) * B + (ls + lc * B) * h2 * B

/-- **C122**: `unsigned_mul_full` is the exact product. -/
theorem C122_mul_full {w : Nat} (hw : 3 ≤ w) : ∀ (k : Nat) {x y : DI k}, Ok w k x → Ok w k y →
    Ok w (k + 1) (mulFull w k x y) ∧ val w (k + 1) (mulFull w k x y) = val w k x * val w k y
  | 0, x, y, hx, hy => by
    have key : ∀ x y : Nat, x < 2 ^ w → y < 2 ^ w → x * y / 2 ^ w < 2 ^ w ∧ x * y / 2 ^ w * 2 ^ w + x * y % 2 ^ w = x * y := by
      intro x y hx hy
      exact ⟨Nat.div_lt_of_lt_mul (Nat.mul_lt_mul'' hx hy), by rw [Nat.mul_comm (x * y / 2 ^ w)]; exact Nat.div_add_mod _ _⟩
    refine ⟨⟨(key x y hx hy).1, Nat.mod_lt _ (Nat.two_pow_pos w)⟩, ?_⟩
    have := (key x y hx hy).2
    rw [val, bits_zero]
    exact this
  | k + 1, x, y, hx, hy => by
    obtain ⟨ol, cl, hl⟩ := C122_adc k hx.2 hx.1 (Nat.zero_le 1)
    obtain ⟨or', cr, hr⟩ := C122_adc k hy.2 hy.1 (Nat.zero_le 1)
    obtain ⟨o0, v0⟩ := C122_mul_full hw k hx.2 hy.2
    obtain ⟨o2, v2⟩ := C122_mul_full hw k hx.1 hy.1
    obtain ⟨o1, v1⟩ := C122_mul_full hw k ol or'
    rw [mulFull]
    generalize adc w k x.2 x.1 0 = L at *
    generalize adc w k y.2 y.1 0 = R at *
    generalize mulFull w k x.2 y.2 = m0 at *
    generalize mulFull w k x.1 y.1 = m2 at *
    generalize mulFull w k L.1 R.1 = m1 at *
    obtain ⟨os, cs, hs⟩ := C122_sbb (k + 1) o1 o0 (Nat.zero_le 1)
    obtain ⟨ot, ct, ht⟩ := C122_sbb (k + 1) os o2 (Nat.zero_le 1)
    generalize sbb w (k + 1) m1 m0 0 = S at *
    generalize sbb w (k + 1) S.1 m2 0 = T at *
    obtain ⟨oa, ca, ha⟩ := C122_adc k o0.1 ot.2 (Nat.zero_le 1)
    generalize adc w k m0.1 T.1.2 0 = A at *
    obtain ⟨ob, cb, hb⟩ := C122_adc k o2.2 ot.1 ca
    generalize adc w k m2.2 T.1.1 A.2 = Bb at *
    have hC : ∃ C : DI k × Nat, (if R.2 ≠ 0 then adc w k Bb.1 L.1 0 else (Bb.1, 0)) = C ∧ Ok w k C.1 ∧ C.2 ≤ 1 ∧
        val w k C.1 + C.2 * 2 ^ bits w k = val w k Bb.1 + R.2 * val w k L.1 := by
      by_cases h : R.2 ≠ 0
      · obtain ⟨a, b, c⟩ := C122_adc k ob ol (Nat.zero_le 1)
        refine ⟨_, if_pos h, a, b, ?_⟩
        rw [c, show R.2 = 1 by omega]; omega
      · refine ⟨_, if_neg h, ob, Nat.zero_le 1, ?_⟩
        rw [not_not.1 h]; simp
    obtain ⟨C, eC, oC, cC, hC⟩ := hC
    rw [eC]
    have hD : ∃ D : DI k × Nat, (if L.2 ≠ 0 then adc w k C.1 R.1 0 else (C.1, 0)) = D ∧ Ok w k D.1 ∧ D.2 ≤ 1 ∧
        val w k D.1 + D.2 * 2 ^ bits w k = val w k C.1 + L.2 * val w k R.1 := by
      by_cases h : L.2 ≠ 0
      · obtain ⟨a, b, c⟩ := C122_adc k oC or' (Nat.zero_le 1)
        refine ⟨_, if_pos h, a, b, ?_⟩
        rw [c, show L.2 = 1 by omega]; omega
      · refine ⟨_, if_neg h, oC, Nat.zero_le 1, ?_⟩
        rw [not_not.1 h]; simp
    obtain ⟨D, eD, oD, cD, hD⟩ := hD
    rw [eD]
    have eand : (L.2 &&& R.2 : Nat) = L.2 * R.2 := by
      rcases (show L.2 = 0 ∨ L.2 = 1 by omega) with h | h <;> rcases (show R.2 = 0 ∨ R.2 = 1 by omega) with g | g <;> rw [h, g] <;> rfl
    have band : L.2 * R.2 ≤ 1 := Nat.mul_le_mul cl cr
    rw [eand]
    have h8 : (8 : Int) ≤ ((2 ^ w : Nat) : Int) := by
      exact_mod_cast (Nat.pow_le_pow_right (by norm_num) hw : 2 ^ 3 ≤ 2 ^ w)
    have vh := C122_of_int (show 0 < w by omega) k
      (z := ((L.2 * R.2 : Nat) : Int) - (S.2 : Int) - (T.2 : Int) + (Bb.2 : Int) + (C.2 : Int) + (D.2 : Int)) (by omega) (by omega)
    have oo := ofInt_ok w k (((L.2 * R.2 : Nat) : Int) - (S.2 : Int) - (T.2 : Int) + (Bb.2 : Int) + (C.2 : Int) + (D.2 : Int))
    generalize hz : ((L.2 * R.2 : Nat) : Int) - (S.2 : Int) - (T.2 : Int) + (Bb.2 : Int) + (C.2 : Int) + (D.2 : Int) = z at *
    obtain ⟨oh, vadd⟩ := C122_add k o2.1 oo
    generalize add w k m2.1 (ofInt w k z) = H at *
    have hok : Ok w (k + 1 + 1) (((H, D.1), (A.1, m0.2)) : DI (k + 1 + 1)) := ⟨⟨oh, oD⟩, ⟨oa, o0.2⟩⟩
    refine ⟨hok, ?_⟩
    have hlt := val_lt hok
    have hx' := val_lt hx
    have hy' := val_lt hy
    have hHt : ∃ t : Int, ((val w k H : Nat) : Int) = (val w k m2.1 : Int) + z + t * (2 ^ bits w k : Nat) := by
      rw [vadd, Int.natCast_mod, Nat.cast_add, vh, Int.add_emod_emod]
      refine ⟨-(((val w k m2.1 : Int) + z) / ((2 ^ bits w k : Nat) : Int)), ?_⟩
      have := Int.emod_add_mul_ediv ((val w k m2.1 : Int) + z) ((2 ^ bits w k : Nat) : Int)
      linarith
    obtain ⟨t, ht'⟩ := hHt
    rw [base_succ, base_succ] at hlt
    rw [base_succ] at hx' hy' hs ht
    have ex : val w (k + 1) x = val w k x.1 * 2 ^ bits w k + val w k x.2 := rfl
    have ey : val w (k + 1) y = val w k y.1 * 2 ^ bits w k + val w k y.2 := rfl
    have e0 : val w (k + 1) m0 = val w k m0.1 * 2 ^ bits w k + val w k m0.2 := rfl
    have e2 : val w (k + 1) m2 = val w k m2.1 * 2 ^ bits w k + val w k m2.2 := rfl
    have eT : val w (k + 1) T.1 = val w k T.1.1 * 2 ^ bits w k + val w k T.1.2 := rfl
    have eR : val w (k + 1 + 1) (((H, D.1), (A.1, m0.2)) : DI (k + 1 + 1)) = (val w k H * 2 ^ bits w k + val w k D.1) * 2 ^ bits w (k + 1) +
      (val w k A.1 * 2 ^ bits w k + val w k m0.2) := rfl
    rw [base_succ] at eR
    rw [v0, v1] at hs
    rw [eT, v2] at ht
    rw [e0] at v0
    rw [e2] at v2
    generalize 2 ^ bits w k = B at *
    rw [eR] at hlt ⊢
    rw [ex] at hx' ⊢
    rw [ey] at hy' ⊢
    have hB : (0 : Int) ≤ B := Int.natCast_nonneg B
    have id := mul_full_id (B := B) (xl := val w k x.2) (xh := val w k x.1) (yl := val w k y.2) (yh := val w k y.1)
      (ls := val w k L.1) (lc := L.2) (rs := val w k R.1) (rc := R.2) (m0h := val w k m0.1) (m0l := val w k m0.2)
      (m2h := val w k m2.1) (m2l := val w k m2.2) (s0 := val w (k + 1) S.1) (z0 := S.2) (z2 := T.2) (p := val w k T.1.1)
      (q := val w k T.1.2) (a := val w k A.1) (a' := A.2) (b := val w k Bb.1) (b' := Bb.2) (c := val w k C.1) (c' := C.2)
      (d := val w k D.1) (d' := D.2) (hh := val w k H) (t := t)
      (by exact_mod_cast hl) (by exact_mod_cast hr) (by exact_mod_cast v0) (by exact_mod_cast v2) (by exact_mod_cast hs)
      (by exact_mod_cast ht) (by exact_mod_cast ha) (by exact_mod_cast hb) (by exact_mod_cast hC) (by exact_mod_cast hD)
      (by rw [ht', ← hz]; push_cast; ring)
    have hxy : (val w k x.1 * B + val w k x.2) * (val w k y.1 * B + val w k y.2) < B * B * (B * B) := Nat.mul_lt_mul'' hx' hy'
    have id2 : (((val w k H * B + val w k D.1) * (B * B) + (val w k A.1 * B + val w k m0.2) : Nat) : Int) =
        (((val w k x.1 * B + val w k x.2) * (val w k y.1 * B + val w k y.2) : Nat) : Int) + t * ((B * B * (B * B) : Nat) : Int) := by
      push_cast; exact id
    generalize (val w k H * B + val w k D.1) * (B * B) + (val w k A.1 * B + val w k m0.2) = u at *
    generalize (val w k x.1 * B + val w k x.2) * (val w k y.1 * B + val w k y.2) = v at *
    generalize B * B * (B * B) = Q at *
    have t0 : t = 0 := by
      rcases lt_trichotomy t 0 with h | h | h
      · have : t * (Q : Int) ≤ (-1) * (Q : Int) := Int.mul_le_mul_of_nonneg_right (by omega) (by omega)
        omega
      · exact h
      · have : 1 * (Q : Int) ≤ t * (Q : Int) := Int.mul_le_mul_of_nonneg_right (by omega) (by omega)
        omega
    rw [t0] at id2
    omega

/-- **C122**: `*` (and `unsigned_mul`) is the product modulo `2^bits`. -/
theorem C122_mul {w : Nat} (hw : 3 ≤ w) : ∀ (k : Nat) {x y : DI k}, Ok w k x → Ok w k y →
    Ok w k (mul w k x y) ∧ val w k (mul w k x y) = val w k x * val w k y % 2 ^ bits w k
  | 0, x, y, _, _ => ⟨Nat.mod_lt _ (Nat.two_pow_pos w), by rw [bits_zero]; rfl⟩
  | k + 1, x, y, hx, hy => by
    obtain ⟨o0, v0⟩ := C122_mul_full hw k hx.2 hy.2
    obtain ⟨o1, v1⟩ := C122_mul hw k hx.2 hy.1
    obtain ⟨o2, v2⟩ := C122_mul hw k hx.1 hy.2
    rw [mul]
    generalize mulFull w k x.2 y.2 = r at *
    generalize mul w k x.2 y.1 = p at *
    generalize mul w k x.1 y.2 = q at *
    obtain ⟨o3, v3⟩ := C122_add k o0.1 o1
    obtain ⟨o4, v4⟩ := C122_add k o3 o2
    have hok : Ok w (k + 1) ((add w k (add w k r.1 p) q, r.2) : DI (k + 1)) := ⟨o4, o0.2⟩
    refine ⟨hok, ?_⟩
    have hlt := val_lt hok
    generalize add w k (add w k r.1 p) q = H at *
    have ex : val w (k + 1) x = val w k x.1 * 2 ^ bits w k + val w k x.2 := rfl
    have ey : val w (k + 1) y = val w k y.1 * 2 ^ bits w k + val w k y.2 := rfl
    have er : val w (k + 1) r = val w k r.1 * 2 ^ bits w k + val w k r.2 := rfl
    have eH : val w (k + 1) ((H, r.2) : DI (k + 1)) = val w k H * 2 ^ bits w k + val w k r.2 := rfl
    rw [er] at v0
    rw [v1, Nat.add_mod_mod] at v3
    rw [v3, v2, Nat.mod_add_mod, Nat.add_mod_mod] at v4
    apply val_of_carry hlt (c := val w k x.1 * val w k y.1 + (val w k r.1 + val w k x.2 * val w k y.1 + val w k x.1 * val w k y.2) / 2 ^ bits w k)
    have hd := Nat.div_add_mod (val w k r.1 + val w k x.2 * val w k y.1 + val w k x.1 * val w k y.2) (2 ^ bits w k)
    rw [← v4] at hd
    rw [eH, ex, ey, base_succ]
    generalize 2 ^ bits w k = B at *
    generalize (val w k r.1 + val w k x.2 * val w k y.1 + val w k x.1 * val w k y.2) / B = Q at *
    zify at *
    linear_combination hd * (B : Int) + v0

/-! ### Signed results -/

/-- The signed number is determined by its class modulo `2^bits` and its range. -/
theorem sval_eq {w : Nat} (hw : 0 < w) (k : Nat) {z : DI k} (hz : Ok w k z) {m : Int}
    (h : ((val w k z : Nat) : Int) = m % (2 ^ bits w k : Nat))
    (h1 : -(2 ^ (bits w k - 1) : Nat) ≤ m) (h2 : m < (2 ^ (bits w k - 1) : Nat)) : sval w k z = m := by
  have hb : 2 ^ bits w k = 2 * 2 ^ (bits w k - 1) := by
    rw [← pow_succ']; congr 1; have := bits_pos hw k; omega
  have hl := val_lt hz
  rw [sval]
  by_cases c : m < 0
  · rw [neg_emod (by omega) c] at h
    rw [if_pos (by omega), h]; omega
  · rw [Int.emod_eq_of_lt (by omega) (by omega)] at h
    rw [if_neg (by omega), h]

theorem sval_modEq {w : Nat} (hw : 0 < w) (k : Nat) {x : DI k} (hx : Ok w k x) :
    ((val w k x : Nat) : Int) ≡ sval w k x [ZMOD (2 ^ bits w k : Nat)] := by
  rw [← (C122_range hw k hx).2.2]
  exact Int.mod_modEq _ _

/-- **C122**: `+`, `-` and `*` give the signed result whenever it is in the range. -/
theorem C122_signed_arith {w : Nat} (hw : 3 ≤ w) (k : Nat) {x y : DI k} (hx : Ok w k x) (hy : Ok w k y) :
    (-(2 ^ (bits w k - 1) : Nat) ≤ sval w k x + sval w k y → sval w k x + sval w k y < (2 ^ (bits w k - 1) : Nat) →
      sval w k (add w k x y) = sval w k x + sval w k y) ∧
    (-(2 ^ (bits w k - 1) : Nat) ≤ sval w k x - sval w k y → sval w k x - sval w k y < (2 ^ (bits w k - 1) : Nat) →
      sval w k (sub w k x y) = sval w k x - sval w k y) ∧
    (-(2 ^ (bits w k - 1) : Nat) ≤ sval w k x * sval w k y → sval w k x * sval w k y < (2 ^ (bits w k - 1) : Nat) →
      sval w k (mul w k x y) = sval w k x * sval w k y) ∧
    (-(2 ^ (bits w k - 1) : Nat) < sval w k x → sval w k (neg w k x) = -sval w k x) := by
  have hw' : 0 < w := by omega
  have ex := sval_modEq hw' k hx
  have ey := sval_modEq hw' k hy
  refine ⟨fun h1 h2 => ?_, fun h1 h2 => ?_, fun h1 h2 => ?_, fun h1 => ?_⟩
  · refine sval_eq hw' k (C122_add k hx hy).1 ?_ h1 h2
    rw [(C122_add k hx hy).2, Int.natCast_mod, Nat.cast_add]
    exact ex.add ey
  · refine sval_eq hw' k (C122_sub k hx hy).1 ?_ h1 h2
    rw [(C122_sub k hx hy).2]
    exact ex.sub ey
  · refine sval_eq hw' k (C122_mul hw k hx hy).1 ?_ h1 h2
    rw [(C122_mul hw k hx hy).2, Int.natCast_mod, Nat.cast_mul]
    exact ex.mul ey
  · have hr := C122_range hw' k hx
    refine sval_eq hw' k (C122_neg hw' k hx).1 ?_ (by omega) (by omega)
    rw [(C122_neg hw' k hx).2]
    exact ex.neg

/-! ### Findings -/

/-- **C122** (finding): `/` and `%` give 0 whatever the operands: the body of `unsigned_div` is commented out. -/
theorem C122_div_zero {w : Nat} (hw : 0 < w) (k : Nat) (x y : DI (k + 1)) :
    val w (k + 1) (div w k x y) = 0 ∧ val w (k + 1) (mod w k x y) = 0 := by
  have hz := val_zero hw (k + 1)
  have hn : val w (k + 1) (neg w (k + 1) (ofInt w (k + 1) 0)) = 0 := by
    have := (C122_neg hw (k + 1) (ofInt_ok w (k + 1) 0)).2
    rw [hz] at this
    simpa using this
  have hu : ∀ a b, udiv w k a b = ofInt w (k + 1) 0 := fun a b => by rw [udiv]; split_ifs <;> rfl
  constructor
  · rw [div, sdiv]
    dsimp only
    rw [hu]
    split_ifs <;> first | exact hz | exact hn
  · rw [mod, sdiv]
    dsimp only
    split_ifs <;> first | exact hz | exact hn

/-- **C122** (finding): postfix `++` leaves the object unchanged and returns the incremented value. -/
theorem C122_post_inc {w : Nat} (hw : 0 < w) (k : Nat) {x : DI (k + 1)} (hx : Ok w (k + 1) x) :
    (postInc w k x).1 = x ∧ val w (k + 1) (postInc w k x).2 = (val w (k + 1) x + 1) % 2 ^ bits w (k + 1) :=
  ⟨rfl, (C122_inc_dec hw k hx).2.1⟩

/-- **C122** (finding): an `int` that does not fit into a word is truncated by the constructor: with 8-bit words, 300 becomes 44. -/
theorem C122_trunc : val 8 2 (ofInt 8 2 300) = 44 := by decide +kernel

/-- **C122** (finding): in the product of 3 and `715827882 * 2^32 + (2^32 - 1)` with two 32-bit words, the second `+=` of
`unsigned_mul` (double_int.h:114) adds 2147483646 to 2, which leaves the range of `int32_t`: undefined behaviour. -/
theorem C122_signed_overflow : addOverflows 32 (mulFull 32 0 (3 : Nat) (2 ^ 32 - 1 : Nat)).1 (mul 32 0 (3 : Nat) (715827882 : Nat)) = true := by
  decide +kernel

/-- A four-word example. -/
def exA : DI 2 := (((3, 4), (5, 6)) : (Nat × Nat) × (Nat × Nat))
/-- A four-word example: -2. -/
def exB : DI 2 := (((255, 255), (255, 254)) : (Nat × Nat) × (Nat × Nat))
/-- A four-word example: 2. -/
def exC : DI 2 := (((0, 0), (0, 2)) : (Nat × Nat) × (Nat × Nat))

example : Ok 8 2 exA := ⟨⟨(by decide : (3 : Nat) < 2 ^ 8), (by decide : (4 : Nat) < 2 ^ 8)⟩, (by decide : (5 : Nat) < 2 ^ 8), (by decide : (6 : Nat) < 2 ^ 8)⟩
example : val 8 3 (mul 8 3 (ofInt 8 3 (-3)) (ofInt 8 3 (-7))) = 21 := by decide +kernel
example : sval 8 2 (mul 8 2 exA exB) = -2 * (((3 * 256 + 4) * 256 + 5) * 256 + 6) := by decide +kernel
example : val 8 3 (mulFull 8 2 exB exB) = (2 ^ 32 - 2) * (2 ^ 32 - 2) := by decide +kernel
example : val 8 2 (sub 8 2 exC exA) = 2 ^ 32 + 2 - val 8 2 exA := by decide +kernel
example : slt 8 2 exB exC = true ∧ ult 2 exB exC = false := by decide +kernel

end Altruct.DoubleInt
