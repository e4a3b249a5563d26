/-
C01, C02: integer roots.
-/
import Verif.Base.Model
import Mathlib.Tactic.Ring
import Mathlib.Tactic.Linarith
import Mathlib.Tactic.NormNum
import Mathlib.Tactic.Positivity

namespace Altruct.Base

/-- `r` is the integer square root of `x`, rounded down. -/
def IsFloorSqrt (r x : Int) : Prop := 0 ≤ r ∧ r * r ≤ x ∧ x < (r + 1) * (r + 1)

/-- `r` is the integer cube root of `x`, rounded down. -/
def IsFloorCbrt (r x : Int) : Prop := 0 ≤ r ∧ r * r * r ≤ x ∧ x < (r + 1) * (r + 1) * (r + 1)

/-- `r` is the integer square root of `x`, rounded up. -/
def IsCeilSqrt (r x : Int) : Prop := 0 ≤ r ∧ x ≤ r * r ∧ (0 < r → (r - 1) * (r - 1) < x)

/-- `r` is the integer cube root of `x`, rounded up. -/
def IsCeilCbrt (r x : Int) : Prop := x ≤ r * r * r ∧ (r - 1) * (r - 1) * (r - 1) < x

theorem exists_floorSqrt (x : Int) (hx : 0 ≤ x) : ∃ s, IsFloorSqrt s x := by
  obtain ⟨n, rfl⟩ := Int.eq_ofNat_of_zero_le hx
  induction n with
  | zero => exact ⟨0, by norm_num [IsFloorSqrt]⟩
  | succ n ih =>
    obtain ⟨s, h0, h1, h2⟩ := ih (by omega)
    by_cases h : ((n + 1 : Nat) : Int) < (s + 1) * (s + 1)
    · exact ⟨s, h0, by push_cast; linarith, h⟩
    · refine ⟨s + 1, by omega, by omega, ?_⟩
      push_cast at h ⊢
      nlinarith

theorem exists_floorCbrt (x : Int) (hx : 0 ≤ x) : ∃ s, IsFloorCbrt s x := by
  obtain ⟨n, rfl⟩ := Int.eq_ofNat_of_zero_le hx
  induction n with
  | zero => exact ⟨0, by norm_num [IsFloorCbrt]⟩
  | succ n ih =>
    obtain ⟨s, h0, h1, h2⟩ := ih (by omega)
    by_cases h : ((n + 1 : Nat) : Int) < (s + 1) * (s + 1) * (s + 1)
    · exact ⟨s, h0, by push_cast; linarith, h⟩
    · refine ⟨s + 1, by omega, by omega, ?_⟩
      push_cast at h ⊢
      nlinarith [mul_nonneg h0 h0]

theorem floorSqrt_unique {r s x : Int} (hr : IsFloorSqrt r x) (hs : IsFloorSqrt s x) : r = s := by
  obtain ⟨a1, a2, a3⟩ := hr
  obtain ⟨b1, b2, b3⟩ := hs
  have : r < s + 1 := by nlinarith
  have : s < r + 1 := by nlinarith
  omega

theorem cube_lt {a b : Int} (ha : 0 ≤ a) (hb : 0 ≤ b) (h : a * a * a < b * b * b) : a < b := by
  by_contra hc
  have h1 : b ≤ a := not_lt.mp hc
  have h2 : b * b ≤ a * a := by nlinarith
  have h3 : b * b * b ≤ a * a * a := by nlinarith [mul_nonneg ha ha, mul_nonneg hb hb]
  omega

theorem floorCbrt_unique {r s x : Int} (hr : IsFloorCbrt r x) (hs : IsFloorCbrt s x) : r = s := by
  obtain ⟨a1, a2, a3⟩ := hr
  obtain ⟨b1, b2, b3⟩ := hs
  have : r < s + 1 := cube_lt a1 (by omega) (by omega)
  have : s < r + 1 := cube_lt b1 (by omega) (by omega)
  omega

theorem div_bounds (x d : Int) (hd : 0 < d) : d * (x / d) ≤ x ∧ x < d * (x / d) + d := by
  have h1 := Int.mul_ediv_add_emod x d
  have h2 := Int.emod_lt_of_pos x hd
  have h3 := Int.emod_nonneg x (by omega : d ≠ 0)
  constructor <;> linarith

/-- Once `q1` is at least the root, `k + 1` Newton steps reach it if the distance
is less than `2 ^ k`. -/
theorem sqrtLoop_spec (x s : Int) (hs : IsFloorSqrt s x) (hs1 : 1 ≤ s) (n k : Nat) (q1 : Int)
    (h1 : s ≤ q1) (h2 : q1 - s < 2 ^ k) (hn : k + 1 ≤ n) :
    min (sqrtLoop x 1 n q1 (x.tdiv q1)).1 (sqrtLoop x 1 n q1 (x.tdiv q1)).2 = s := by
  obtain ⟨-, s1, s2⟩ := hs
  have hx : 0 ≤ x := by nlinarith
  induction n generalizing k q1 with
  | zero => omega
  | succ n ih =>
    rw [sqrtLoop]
    rw [Int.tdiv_eq_ediv_of_nonneg hx]
    have hq := div_bounds x q1 (by omega)
    generalize x / q1 = q2 at *
    rcases eq_or_lt_of_le h1 with h | h
    · subst h
      have e1 : s ≤ q2 := by
        by_contra hc
        have : s * (q2 + 1) ≤ s * s := Int.mul_le_mul_of_nonneg_left (by omega) (by omega)
        nlinarith
      have e2 : q2 ≤ s + 2 := by
        by_contra hc
        have : s * (s + 3) ≤ s * q2 := Int.mul_le_mul_of_nonneg_left (by omega) (by omega)
        nlinarith
      split
      · have e3 : q2 = s + 2 := by omega
        have e4 : (s + q2).tdiv 2 = s + 1 := by
          rw [Int.tdiv_eq_ediv_of_nonneg (by omega)]; omega
        have e5 : x.tdiv (s + 1) = s := by
          rw [Int.tdiv_eq_ediv_of_nonneg hx]
          have := div_bounds x (s + 1) (by omega)
          have a1 : x / (s + 1) < s + 1 := by
            by_contra hc
            have : (s + 1) * (s + 1) ≤ (s + 1) * (x / (s + 1)) :=
              Int.mul_le_mul_of_nonneg_left (by omega) (by omega)
            omega
          have a2 : s - 1 < x / (s + 1) := by
            by_contra hc
            have : (s + 1) * (x / (s + 1)) ≤ (s + 1) * (s - 1) :=
              Int.mul_le_mul_of_nonneg_left (by omega) (by omega)
            subst e3
            nlinarith
          omega
        simp only [e4, e5]
        cases n with
        | zero => simp [sqrtLoop]
        | succ n => simp [sqrtLoop]
      · simp only; omega
    · have e1 : q2 ≤ s := by
        by_contra hc
        have a1 : (s + 1) * q2 ≤ q1 * q2 := Int.mul_le_mul_of_nonneg_right (by omega) (by omega)
        have a2 : (s + 1) * (s + 1) ≤ (s + 1) * q2 :=
          Int.mul_le_mul_of_nonneg_left (by omega) (by omega)
        omega
      split
      · have e2 : 2 * s ≤ q1 + q2 := by
          by_contra hc
          have a1 : q1 * (q2 + 1) ≤ q1 * (2 * s - q1) :=
            Int.mul_le_mul_of_nonneg_left (by omega) (by omega)
          nlinarith [mul_self_nonneg (q1 - s)]
        cases k with
        | zero => simp at h2; omega
        | succ k =>
          have e4 : (q1 + q2).tdiv 2 = (q1 + q2) / 2 := Int.tdiv_eq_ediv_of_nonneg (by omega)
          simp only [e4]
          have h3 : (2 : Int) ^ (k + 1) = 2 * 2 ^ k := by ring
          exact ih k _ (by omega) (by omega) (by omega)
      · rename_i hex
        simp only
        have : s - 1 ≤ q2 := by
          by_contra hc
          omega
        omega

theorem sqrtLoop_start (x s : Int) (hs : IsFloorSqrt s x) (hx : 2 ≤ x) (n k : Nat)
    (h2 : x < 2 ^ k) (hn : k + 1 ≤ n) :
    min (sqrtLoop x 1 n (x.tdiv 2) (x.tdiv (x.tdiv 2))).1
      (sqrtLoop x 1 n (x.tdiv 2) (x.tdiv (x.tdiv 2))).2 = s := by
  obtain ⟨s0, s1, s2⟩ := id hs
  have hs1 : 1 ≤ s := by by_contra hc; have : s = 0 := by omega
                         subst this; omega
  have e : x.tdiv 2 = x / 2 := Int.tdiv_eq_ediv_of_nonneg (by omega)
  apply sqrtLoop_spec x s hs hs1 n k
  · rw [e]
    by_cases h : s ≤ 1
    · omega
    · have : 2 * s ≤ s * s := Int.mul_le_mul_of_nonneg_right (by omega) (by omega)
      omega
  · rw [e]; omega
  · exact hn

theorem lt_two_pow (x : Int) : x < 2 ^ (x.natAbs.log2 + 1) := by
  have h : x.natAbs < 2 ^ (x.natAbs.log2 + 1) := Nat.lt_log2_self
  have h' : ((x.natAbs : Nat) : Int) < 2 ^ (x.natAbs.log2 + 1) := by exact_mod_cast h
  omega

theorem sqrtTPos_spec (x : Int) (hx : 0 ≤ x) (hl : x.natAbs.log2 < 2 ^ 63) :
    IsFloorSqrt (sqrtTPos x 1 0) x := by
  obtain ⟨s, hs⟩ := exists_floorSqrt x hx
  rw [sqrtTPos]
  split
  · subst_vars; norm_num [IsFloorSqrt]
  · split
    · subst_vars; norm_num [IsFloorSqrt]
    · simp only
      rw [sqrtLoop_start x s hs (by omega) _ _ (lt_two_pow x) (by simp only [iterations]; omega)]
      exact hs

/-- C01: `sqrtT(x)` (generic integer version, default arguments) is the floor of
the square root for non-negative `x`.  The only bound is that `x` has at most
`2^63` bits, because the iteration counter is a 64-bit `size_t`. -/
theorem C01_sqrtT (x : Int) (hx : 0 ≤ x) (hl : x.natAbs.log2 < 2 ^ 63) :
    IsFloorSqrt (sqrtT x) x := by
  rw [sqrtT, if_neg (by omega)]
  exact sqrtTPos_spec x hx hl

/-- C01: for negative `x`, `sqrtT(x) = -sqrtT(-x)`. -/
theorem C01_sqrtT_neg (x : Int) (hx : x < 0) : sqrtT x = - sqrtT (-x) := by
  rw [sqrtT, if_pos hx, sqrtT, if_neg (by omega)]

/-- C01: `is_square` decides being a perfect square. -/
theorem C01_is_square (x : Int) (hl : x.natAbs.log2 < 2 ^ 63) :
    isSquare x = true ↔ ∃ r, x = r * r := by
  rw [isSquare, beq_iff_eq]
  constructor
  · intro h; exact ⟨_, h.symm⟩
  · rintro ⟨r, rfl⟩
    have h0 : 0 ≤ r * r := mul_self_nonneg r
    have h := floorSqrt_unique (C01_sqrtT _ h0 hl) (s := (r.natAbs : Int)) ?_
    · rw [h, Int.natAbs_mul_self']
    · have e : (r.natAbs : Int) * r.natAbs = r * r := Int.natAbs_mul_self' r
      refine ⟨by omega, le_of_eq e, ?_⟩
      rw [← e]; nlinarith [Int.natCast_nonneg r.natAbs]

example : sqrtT 1000000 = 1000 ∧ sqrtT 999999 = 999 ∧ isSquare 999999 = false := by decide +kernel

/-! ### Cube root -/

theorem cbrtLoop_at (x c : Int) (hc : IsFloorCbrt c x) (hc1 : 1 ≤ c) (n : Nat) (hn : 2 ≤ n)
    (r0 : Int) :
    min (cbrtLoop x 1 n r0 c (x.tdiv (c * c))).1 (cbrtLoop x 1 n r0 c (x.tdiv (c * c))).2 = c := by
  obtain ⟨-, s1, s2⟩ := hc
  obtain ⟨n, rfl⟩ := Nat.exists_eq_add_of_le' hn
  have hcc : 0 < c * c := by positivity
  have hx : 0 ≤ x := by nlinarith
  have hq := div_bounds x (c * c) hcc
  rw [Int.tdiv_eq_ediv_of_nonneg hx]
  generalize x / (c * c) = r2 at *
  have e1 : c ≤ r2 := by
    by_contra h
    have : c * c * (r2 + 1) ≤ c * c * c := Int.mul_le_mul_of_nonneg_left (by omega) hcc.le
    linarith
  rw [show n + 2 = (n + 1) + 1 from rfl, cbrtLoop]
  split
  · simp only
    rw [Int.tdiv_eq_ediv_of_nonneg (by omega)]
    by_cases e2 : r2 ≤ c + 2
    · have e3 : (c + c + r2) / 3 = c := by omega
      rw [e3, cbrtLoop]
      have e4 : x.tdiv (c * c) = x / (c * c) := Int.tdiv_eq_ediv_of_nonneg hx
      simp only [ne_eq, not_true_eq_false, false_and, if_false]
      have : c ≤ x / (c * c) := by
        rw [Int.le_ediv_iff_mul_le hcc]; nlinarith
      omega
    · have e2' : c + 3 ≤ r2 := by omega
      by_cases hc2 : c = 1
      · subst hc2
        have hr2 : r2 = x := by omega
        subst hr2
        have : r2 ≤ 7 := by omega
        have : r2 = 4 ∨ r2 = 5 ∨ r2 = 6 ∨ r2 = 7 := by omega
        rcases this with h | h | h | h <;> subst h <;> rcases n with _ | n <;>
          simp [cbrtLoop]
      · have e3 : r2 ≤ c + 5 := by
          by_contra h
          have : c * c * (c + 6) ≤ c * c * r2 := Int.mul_le_mul_of_nonneg_left (by omega) hcc.le
          have : 2 * c ≤ c * c := Int.mul_le_mul_of_nonneg_right (by omega) (by omega)
          linarith
        have e4 : (c + c + r2) / 3 = c + 1 := by omega
        have e5 : x.tdiv ((c + 1) * (c + 1)) = c := by
          rw [Int.tdiv_eq_ediv_of_nonneg hx]
          have hp : 0 < (c + 1) * (c + 1) := by positivity
          apply le_antisymm
          · apply Int.le_of_lt_add_one
            rw [Int.ediv_lt_iff_lt_mul hp]; linarith
          · rw [Int.le_ediv_iff_mul_le hp]
            have : c * c * (c + 3) ≤ c * c * r2 := Int.mul_le_mul_of_nonneg_left (by omega) hcc.le
            nlinarith
        rw [e4, e5, cbrtLoop]
        simp
  · simp only; omega

theorem cbrtLoop_spec (x c : Int) (hc : IsFloorCbrt c x) (hc1 : 1 ≤ c) (n j : Nat) (r0 r1 : Int)
    (h1 : c ≤ r1) (h0 : c < r1 → r1 ≠ r0) (h2 : 2 ^ j * (r1 - c) < 3 ^ j) (hn : j + 2 ≤ n) :
    min (cbrtLoop x 1 n r0 r1 (x.tdiv (r1 * r1))).1
      (cbrtLoop x 1 n r0 r1 (x.tdiv (r1 * r1))).2 = c := by
  induction n generalizing j r0 r1 with
  | zero => omega
  | succ n ih =>
    rcases eq_or_lt_of_le h1 with h | h
    · subst h
      exact cbrtLoop_at x c hc hc1 _ (by omega) r0
    · obtain ⟨-, s1, s2⟩ := hc
      have hx : 0 ≤ x := by nlinarith [mul_nonneg (by omega : (0:Int) ≤ c) (by omega : (0:Int) ≤ c)]
      have hrr : 0 < r1 * r1 := by have : 0 < r1 := by omega
                                   positivity
      have hq := div_bounds x (r1 * r1) hrr
      rw [cbrtLoop]
      rw [Int.tdiv_eq_ediv_of_nonneg hx]
      have r2n : 0 ≤ x / (r1 * r1) := Int.ediv_nonneg hx hrr.le
      generalize x / (r1 * r1) = r2 at *
      have e1 : r2 ≤ c := by
        by_contra hcon
        have a1 : r1 * r1 * (c + 1) ≤ r1 * r1 * r2 :=
          Int.mul_le_mul_of_nonneg_left (by omega) hrr.le
        have a2 : (c + 1) * (c + 1) ≤ r1 * r1 := by nlinarith
        have a3 : (c + 1) * (c + 1) * (c + 1) ≤ r1 * r1 * (c + 1) :=
          Int.mul_le_mul_of_nonneg_right a2 (by omega)
        omega
      split
      · have e2 : 3 * c ≤ r1 + r1 + r2 := by
          by_contra hcon
          have a1 : r1 * r1 * (r2 + 1) ≤ r1 * r1 * (3 * c - 2 * r1) :=
            Int.mul_le_mul_of_nonneg_left (by omega) hrr.le
          have a2 : 0 ≤ (r1 - c) * (r1 - c) * (2 * r1 + c) :=
            mul_nonneg (mul_self_nonneg _) (by omega)
          nlinarith
        cases j with
        | zero => simp at h2; omega
        | succ j =>
          have e4 : (r1 + r1 + r2).tdiv 3 = (r1 + r1 + r2) / 3 :=
            Int.tdiv_eq_ediv_of_nonneg (by omega)
          simp only [e4]
          have a3 : 3 * ((r1 + r1 + r2) / 3 - c) ≤ 2 * (r1 - c) := by omega
          refine ih j _ _ (by omega) (by omega) ?_ (by omega)
          rw [pow_succ, pow_succ] at h2
          have a4 : (0 : Int) < 2 ^ j := by positivity
          nlinarith
      · rename_i hex
        have hne := h0 h
        simp only
        omega

theorem cbrtTPos_spec (x : Int) (hx : 0 ≤ x) (hl : x.natAbs.log2 < 2 ^ 62) :
    IsFloorCbrt (cbrtTPos x 1 0) x := by
  obtain ⟨c, hc⟩ := exists_floorCbrt x hx
  rw [cbrtTPos]
  split
  · subst_vars; norm_num [IsFloorCbrt]
  · split
    · subst_vars; norm_num [IsFloorCbrt]
    · simp only
      obtain ⟨s0, s1, s2⟩ := C01_sqrtT x hx (by omega)
      obtain ⟨c0, c1, c2⟩ := id hc
      have hc1 : 1 ≤ c := by by_contra h; have : c = 0 := by omega
                             subst this; omega
      rw [cbrtLoop_spec x c hc hc1 _ (2 * (x.natAbs.log2 + 1)) 0 (sqrtT x)]
      · exact hc
      · have : c < sqrtT x + 1 := by
          by_contra h
          have : (sqrtT x + 1) * (sqrtT x + 1) ≤ c * c := by nlinarith
          nlinarith [mul_nonneg c0 c0]
        omega
      · intro h; omega
      · have a1 : sqrtT x - c < 2 ^ (x.natAbs.log2 + 1) := by
          have := lt_two_pow x
          have : sqrtT x ≤ x := by nlinarith
          omega
        generalize x.natAbs.log2 + 1 = L at *
        have a2 : (3 : Int) ^ (2 * L) = 9 ^ L := by rw [pow_mul]; norm_num
        have a3 : (2 : Int) ^ (2 * L) = 4 ^ L := by rw [pow_mul]; norm_num
        rw [a2, a3]
        have a4 : (4 : Int) ^ L * 2 ^ L = 8 ^ L := by rw [← mul_pow]; norm_num
        have a5 : (8 : Int) ^ L ≤ 9 ^ L := pow_le_pow_left₀ (by norm_num) (by norm_num) L
        have a6 : (0 : Int) < 4 ^ L := by positivity
        nlinarith
      · simp only [iterations]; omega

/-- C02: `cbrtT(x)` (generic integer version, default arguments) is the floor of
the cube root for non-negative `x`. -/
theorem C02_cbrtT (x : Int) (hx : 0 ≤ x) (hl : x.natAbs.log2 < 2 ^ 62) :
    IsFloorCbrt (cbrtT x) x := by
  rw [cbrtT, if_neg (by omega)]
  exact cbrtTPos_spec x hx hl

/-- C02: for negative `x`, `cbrtT(x) = -cbrtT(-x)`. -/
theorem C02_cbrtT_neg (x : Int) (hx : x < 0) : cbrtT x = - cbrtT (-x) := by
  rw [cbrtT, if_pos hx, cbrtT, if_neg (by omega)]

/-- C02: `is_cube` decides being a perfect cube. -/
theorem C02_is_cube (x : Int) (hl : x.natAbs.log2 < 2 ^ 62) :
    isCube x = true ↔ ∃ r, x = r * r * r := by
  rw [isCube, beq_iff_eq]
  constructor
  · intro h; exact ⟨_, h.symm⟩
  · have key : ∀ r : Int, 0 ≤ r → (r * r * r).natAbs.log2 < 2 ^ 62 → cbrtT (r * r * r) = r := by
      intro r hr hl
      have h0 : 0 ≤ r * r * r := by positivity
      refine floorCbrt_unique (C02_cbrtT _ h0 hl) ⟨hr, le_refl _, ?_⟩
      nlinarith [mul_nonneg hr hr]
    rintro ⟨r, rfl⟩
    by_cases hr : 0 ≤ r
    · rw [key r hr hl]
    · by_cases hneg : r * r * r < 0
      · have e : -(r * r * r) = (-r) * (-r) * (-r) := by ring
        rw [C02_cbrtT_neg _ hneg, e, key (-r) (by omega) (by rw [← e, Int.natAbs_neg]; exact hl)]
        ring
      · exfalso
        have : 0 < (-r) * (-r) * (-r) := by have : 0 < -r := by omega
                                            positivity
        linarith

example : cbrtT 1000000 = 100 ∧ cbrtT 999999 = 99 ∧ cbrtT (-8) = -2 ∧ isCube 7 = false := by
  decide +kernel

end Altruct.Base
