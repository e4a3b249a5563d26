/-
C10: `jacobi` computes the Jacobi symbol.  The specification is Mathlib's `jacobiSym`,
the product of Legendre symbols over the prime factors of the lower argument.
-/
import Verif.Modulo.Model
import Mathlib.NumberTheory.LegendreSymbol.JacobiSymbol

namespace Altruct.Modulo

open NumberTheorySymbols

theorem stripTwos_spec (e : Nat) (n : Int) (hn : 0 < n) :
    e ≤ (stripTwos e n).1 ∧ 0 < (stripTwos e n).2 ∧ (stripTwos e n).2 % 2 = 1 ∧
      n = 2 ^ ((stripTwos e n).1 - e) * (stripTwos e n).2 := by
  fun_induction stripTwos e n with
  | case1 => omega
  | case2 e n h h2 ih =>
    rw [Int.tmod_eq_emod_of_nonneg (by omega)] at h2
    rw [Int.tdiv_eq_ediv_of_nonneg (by omega)] at ih ⊢
    obtain ⟨h1, h3, h4, h5⟩ := ih (by omega)
    refine ⟨by omega, h3, h4, ?_⟩
    generalize stripTwos (e + 1) (n / 2) = en at *
    obtain ⟨k, hk⟩ := Nat.exists_eq_add_of_le h1
    have : en.1 - e = k + 1 := by omega
    rw [this, pow_succ]
    have : en.1 - (e + 1) = k := by omega
    rw [this] at h5
    have : n = 2 * (n / 2) := by omega
    rw [this]; nth_rewrite 1 [h5]; ring
  | case3 e n h h2 =>
    rw [Int.tmod_eq_emod_of_nonneg (by omega)] at h2
    refine ⟨le_refl _, hn, by simp; omega, by simp⟩

theorem J_two (m : Nat) (hm : m % 2 = 1) :
    J(2 | m) = if m % 8 = 3 ∨ m % 8 = 5 then -1 else 1 := by
  rw [← jacobiSym.even_odd (a := 2) (by norm_num) hm]
  simp

theorem jacobiLoop_eq (n m j : Int) (hn : 0 ≤ n) (hm : 0 < m) (ho : m % 2 = 1) :
    jacobiLoop n m j = some (j * J(n | m.toNat)) := by
  fun_induction jacobiLoop n m j with
  | case1 n j => simp
  | case2 => omega
  | case3 n m j h1 h0 n0 hz =>
    have e : n0 = n % m := Int.tmod_eq_emod_of_nonneg hn
    have hm' : ((m.toNat : Nat) : Int) = m := Int.toNat_of_nonneg (by omega)
    rw [jacobiSym.mod_left, hm', ← e, hz, jacobiSym.zero_left (by omega), mul_zero]
  | case4 n m j h1 h0 n0 hz en e n' j1 j2 j3 ih =>
    have e0 : n0 = n % m := Int.tmod_eq_emod_of_nonneg hn
    have hn0 : 0 < n0 := by
      have := Int.emod_nonneg n (by omega : m ≠ 0); omega
    obtain ⟨-, hp, hodd, hs⟩ := stripTwos_spec 0 n0 hn0
    rw [ih (by omega) hp hodd]
    congr 1
    obtain ⟨M, rfl⟩ := Int.eq_ofNat_of_zero_le (by omega : 0 ≤ m)
    obtain ⟨N, hN⟩ := Int.eq_ofNat_of_zero_le (le_of_lt hp : 0 ≤ n')
    have hN2 : N % 2 = 1 := by change n' % 2 = 1 at hodd; omega
    have hM2 : M % 2 = 1 := by omega
    have t4 : n'.tmod 4 = ((N % 4 : Nat) : Int) := by
      rw [hN, Int.tmod_eq_emod_of_nonneg (by omega)]; omega
    have u4 : (M : Int).tmod 4 = ((M % 4 : Nat) : Int) := by
      rw [Int.tmod_eq_emod_of_nonneg (by omega)]; omega
    have u8 : (M : Int).tmod 8 = ((M % 8 : Nat) : Int) := by
      rw [Int.tmod_eq_emod_of_nonneg (by omega)]; omega
    have key : J(n | M) = J(2 | M) ^ e * J((N : Int) | M) := by
      rw [jacobiSym.mod_left, ← e0, hs, jacobiSym.mul_left, jacobiSym.pow_left, ← hN]
      rfl
    rw [Int.toNat_natCast, key, hN, Int.toNat_natCast]
    have hj : j3 = j * (J(2 | M) ^ e * if N % 4 = 3 ∧ M % 4 = 3 then -1 else 1) := by
      have hj12 : j2 = j * J(2 | M) ^ e := by
        simp only [j2, j1, u8]
        rw [J_two M hM2]
        rcases Nat.mod_two_eq_zero_or_one e with he | he
        · have : Even e := Nat.even_iff.mpr he
          simp only [he]
          simp only [Nat.zero_ne_one, false_and, dite_false, if_false]
          split <;> simp [this]
        · have : Odd e := Nat.odd_iff.mpr he
          simp only [he]
          by_cases a3 : M % 8 = 3
          · simp [a3, this.neg_one_pow]
          · by_cases a5 : M % 8 = 5
            · simp [a5, this.neg_one_pow]
            · have b3 : ¬ ((M % 8 : Nat) : Int) = 3 := by omega
              have b5 : ¬ ((M % 8 : Nat) : Int) = 5 := by omega
              simp only [b3, b5, a3, a5]; simp
      simp only [j3, hj12, t4, u4]
      have c1 : (((N % 4 : Nat) : Int) = 3) = (N % 4 = 3) := by apply propext; omega
      have c2 : (((M % 4 : Nat) : Int) = 3) = (M % 4 = 3) := by apply propext; omega
      simp only [c1, c2]
      split <;> ring
    rw [hj, ← jacobiSym.quadratic_reciprocity_if hN2 hM2]
    by_cases h : N % 4 = 3 ∧ M % 4 = 3
    · have h' : M % 4 = 3 ∧ N % 4 = 3 := h.symm
      simp only [h, and_self, if_true]; ring
    · have h' : ¬ (M % 4 = 3 ∧ N % 4 = 3) := fun x => h x.symm
      simp only [h, if_false]; ring

/-- C10: `jacobi(n, m)` terminates and returns the Jacobi symbol, for every `n ≥ 0` and
odd `m > 0`. -/
theorem C10_jacobi (n m : Int) (hn : 0 ≤ n) (hm : 0 < m) (ho : m % 2 = 1) :
    jacobi n m = some (J(n | m.toNat)) := by
  rw [jacobi, jacobiLoop_eq n m 1 hn hm ho, one_mul]

/-- C10: for an odd prime `p` it is the Legendre symbol: `0` iff `p ∣ n`, else `1` or
`-1` according to whether `n` is a square modulo `p`. -/
theorem C10_legendre (n : Int) (p : Nat) [Fact p.Prime] (hp : p ≠ 2) (hn : 0 ≤ n) :
    jacobi n p = some (if (n : ZMod p) = 0 then 0 else if IsSquare (n : ZMod p) then 1 else -1) := by
  have hp' : p.Prime := Fact.out
  have ho : p % 2 = 1 := hp'.eq_two_or_odd.resolve_left hp
  have := hp'.pos
  rw [C10_jacobi n p hn (by omega) (by omega), Int.toNat_natCast, ← jacobiSym.legendreSym.to_jacobiSym]
  split
  · rename_i h; rw [(legendreSym.eq_zero_iff p n).mpr h]
  · rename_i h
    split
    · rename_i hs; rw [(legendreSym.eq_one_iff p h).mpr hs]
    · rename_i hs; rw [(legendreSym.eq_neg_one_iff p).mpr hs]

example : jacobi 1001 9907 = some (-1) ∧ jacobi 19 45 = some 1 ∧ jacobi 30 45 = some 0 := by
  decide +kernel

/-- C10: the hypothesis `0 ≤ n` is needed: with a signed type, `jacobi(-1, 3)` is computed
as `0` although `(-1 | 3) = -1`. -/
theorem C10_negative_wrong : jacobi (-1) 3 = some 0 ∧ J(-1 | 3) = -1 := by
  constructor
  · decide +kernel
  · rw [jacobiSym.at_neg_one (by decide)]; decide

end Altruct.Modulo
