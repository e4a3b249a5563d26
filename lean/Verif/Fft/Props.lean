/-
C42: the fast Fourier transforms and the convolutions built on them.
-/
import Verif.Fft.Model
import Verif.Base.Props
import Verif.Convolution.Props
import Mathlib.Algebra.Ring.GeomSum
import Mathlib.Tactic.LinearCombination

namespace Altruct.Fft

open Convolution (Mem put_self put_ne)
open Base (powT multiple)

set_option linter.unusedSectionVars false

variable {α R : Type} [CommRing α] [Monoid R]

/-! ### Specification -/

/-- The discrete Fourier transform of length `n` at the powers of `w`. -/
def dft (n : Nat) (w : α) (f : Nat → α) (k : Nat) : α := ∑ j ∈ Finset.range n, f j * w ^ (j * k)

/-- `w` is a principal `n`-th root of unity. -/
def Principal (w : α) (n : Nat) : Prop :=
  w ^ n = 1 ∧ ∀ k, 0 < k → k < n → ∑ j ∈ Finset.range n, w ^ (j * k) = 0

/-- The cyclic convolution of length `n`. -/
def cconv (n : Nat) (f g : Nat → α) (k : Nat) : α :=
  ∑ i ∈ Finset.range n, ∑ j ∈ Finset.range n, if (i + j) % n = k then f i * g j else 0

/-! ### The algebra -/

theorem sum_even_odd (h : Nat) (f : Nat → α) : ∑ j ∈ Finset.range (2 * h), f j =
    ∑ j ∈ Finset.range h, f (2 * j) + ∑ j ∈ Finset.range h, f (2 * j + 1) := by
  induction h with
  | zero => simp
  | succ h ih =>
    rw [show 2 * (h + 1) = 2 * h + 1 + 1 by ring, Finset.sum_range_succ, Finset.sum_range_succ, ih,
      Finset.sum_range_succ, Finset.sum_range_succ]
    ring

theorem sum_halves (h : Nat) (f : Nat → α) : ∑ j ∈ Finset.range (2 * h), f j =
    ∑ j ∈ Finset.range h, (f j + f (j + h)) := by
  rw [two_mul, Finset.sum_range_add, Finset.sum_add_distrib]
  congr 1
  apply Finset.sum_congr rfl
  intro j _
  rw [Nat.add_comm]

/-- Decimation in time, lower half. -/
theorem dft_time (h : Nat) (w : α) (f : Nat → α) (k : Nat) :
    dft (2 * h) w f k = dft h (w * w) (fun j => f (2 * j)) k +
      dft h (w * w) (fun j => f (2 * j + 1)) k * w ^ k := by
  rw [dft, sum_even_odd, dft, dft, Finset.sum_mul]
  congr 1
  · apply Finset.sum_congr rfl
    intro j _
    rw [← pow_two, ← pow_mul, mul_assoc]
  · apply Finset.sum_congr rfl
    intro j _
    rw [← pow_two, ← pow_mul, mul_assoc, ← pow_add]
    congr 2
    ring

/-- Decimation in time, upper half. -/
theorem dft_time_high {h : Nat} {w : α} (hw : w ^ h = -1) (f : Nat → α) (k : Nat) :
    dft (2 * h) w f (k + h) = dft h (w * w) (fun j => f (2 * j)) k -
      dft h (w * w) (fun j => f (2 * j + 1)) k * w ^ k := by
  have h2 : ∀ j, (w * w) ^ (j * (k + h)) = (w * w) ^ (j * k) := by
    intro j
    have : (w * w) ^ (j * (k + h)) = (w * w) ^ (j * k) * ((w ^ h) * (w ^ h)) ^ j := by
      rw [← mul_pow, ← pow_mul, ← pow_add]; congr 1; ring
    rw [this, hw]; simp
  rw [dft_time, sub_eq_add_neg]
  congr 1
  · simp only [dft, h2]
  · simp only [dft, h2]
    rw [pow_add, hw]
    ring

/-- Decimation in frequency, even indices. -/
theorem dft_freq_even {h : Nat} {w : α} (hw : w ^ h = -1) (f : Nat → α) (k : Nat) :
    dft (2 * h) w f (2 * k) = dft h (w * w) (fun j => f j + f (j + h)) k := by
  rw [dft, sum_halves, dft]
  apply Finset.sum_congr rfl
  intro j _
  have e1 : w ^ ((j + h) * (2 * k)) = w ^ (j * (2 * k)) := by
    have : w ^ ((j + h) * (2 * k)) = w ^ (j * (2 * k)) * ((w ^ h) ^ 2) ^ k := by
      rw [← pow_mul, ← pow_mul, ← pow_add]; congr 1; ring
    rw [this, hw]; simp
  have e2 : (w * w) ^ (j * k) = w ^ (j * (2 * k)) := by
    rw [← pow_two, ← pow_mul]; congr 1; ring
  rw [e1, e2]
  ring

/-- Decimation in frequency, odd indices. -/
theorem dft_freq_odd {h : Nat} {w : α} (hw : w ^ h = -1) (f : Nat → α) (k : Nat) :
    dft (2 * h) w f (2 * k + 1) = dft h (w * w) (fun j => (f j - f (j + h)) * w ^ j) k := by
  rw [dft, sum_halves, dft]
  apply Finset.sum_congr rfl
  intro j _
  have e1 : w ^ ((j + h) * (2 * k + 1)) = - w ^ (j * (2 * k + 1)) := by
    have : w ^ ((j + h) * (2 * k + 1)) = w ^ (j * (2 * k + 1)) * (((w ^ h) ^ 2) ^ k * w ^ h) := by
      rw [← pow_mul, ← pow_mul, ← pow_add, ← pow_add]; congr 1; ring
    rw [this, hw]; simp
  have e2 : w ^ (j * (2 * k + 1)) = w ^ j * (w * w) ^ (j * k) := by
    rw [← pow_two, ← pow_mul, ← pow_add]; congr 1; ring
  rw [e1, e2]
  ring

/-- For powers of two that are units, a principal root has `-1` in the middle. -/
theorem half_of_principal {w : α} {L : Nat} (hw : Principal w (2 ^ (L + 1)))
    (hu : IsUnit (2 : α)) : w ^ 2 ^ L = -1 := by
  have h1 := hw.2 (2 ^ L) (by positivity) (by rw [pow_succ]; have := Nat.two_pow_pos L; omega)
  rw [pow_succ, Nat.mul_comm, sum_even_odd] at h1
  have e1 : ∀ j, w ^ (2 * j * 2 ^ L) = 1 := by
    intro j
    have : w ^ (2 * j * 2 ^ L) = (w ^ 2 ^ (L + 1)) ^ j := by
      rw [← pow_mul]; congr 1; ring
    rw [this, hw.1, one_pow]
  have e2 : ∀ j, w ^ ((2 * j + 1) * 2 ^ L) = w ^ 2 ^ L := by
    intro j
    rw [add_mul, pow_add, e1, one_mul, one_mul]
  simp only [e1, e2, Finset.sum_const, Finset.card_range, nsmul_eq_mul, mul_one] at h1
  have h2 : ((2 : α) ^ L) * (w ^ 2 ^ L + 1) = 0 := by
    push_cast at h1
    linear_combination h1
  have h3 : w ^ 2 ^ L + 1 = 0 := by
    obtain ⟨u, hu'⟩ := hu.pow L
    have := congrArg (fun x => (↑u⁻¹ : α) * x) h2
    simp only [← hu', mul_zero, ← mul_assoc, Units.inv_mul, one_mul] at this
    exact this
  linear_combination h3

/-- The root of half the length. -/
theorem root_sq {w : α} {L : Nat} (h : w ^ 2 ^ (L + 1) = -1) : (w * w) ^ 2 ^ L = -1 := by
  rw [← pow_two, ← pow_mul, ← h]
  congr 1
  ring

/-! ### `fft_rec` -/

theorem combine_spec (φ : R →* α) {d dO h N : Nat} (root : R) (hN : dO + 2 * h ≤ N) (A B D : Nat → α) :
    ∀ (c i : Nat) (rooti : R) (m : Mem α), i + c = h → φ rooti = φ root ^ i →
    Rep (m d) N (fun x =>
      if dO ≤ x ∧ x < dO + i then A (x - dO) + B (x - dO) * φ root ^ (x - dO)
      else if dO + h ≤ x ∧ x < dO + h + i then
        A (x - dO - h) - B (x - dO - h) * φ root ^ (x - dO - h)
      else if dO ≤ x ∧ x < dO + h then A (x - dO)
      else if dO + h ≤ x ∧ x < dO + 2 * h then B (x - dO - h) else D x) →
    ∃ m', combine φ d dO h root c i rooti m = some m' ∧
      Rep (m' d) N (fun x =>
        if dO ≤ x ∧ x < dO + h then A (x - dO) + B (x - dO) * φ root ^ (x - dO)
        else if dO + h ≤ x ∧ x < dO + 2 * h then
          A (x - dO - h) - B (x - dO - h) * φ root ^ (x - dO - h)
        else D x) ∧ ∀ a, a ≠ d → m' a = m a := by
  intro c
  induction c with
  | zero =>
    intro i rooti m hi hr hm
    have hih : i = h := by omega
    subst hih
    refine ⟨m, rfl, hm.congr (fun x hx => ?_), fun _ _ => rfl⟩
    split_ifs <;> first | rfl | (exfalso; omega)
  | succ c ih =>
    intro i rooti m hi hr hm
    have e1 := hm.rd (show dO + i + h < N by omega)
    rw [if_neg (by omega), if_neg (by omega), if_neg (by omega), if_pos (by omega),
      show dO + i + h - dO - h = i by omega] at e1
    have e2 := hm.rd (show dO + i < N by omega)
    rw [if_neg (by omega), if_neg (by omega), if_pos (by omega), show dO + i - dO = i by omega] at e2
    have hm1 := hm.set (dO + i + h) (A i - B i * φ root ^ i)
    have e3 := hm1.rd (show dO + i < N by omega)
    rw [Function.update_of_ne (by omega), if_neg (by omega), if_neg (by omega), if_pos (by omega),
      show dO + i - dO = i by omega] at e3
    have hm2 := hm1.set (dO + i) (A i + B i * φ root ^ i)
    have hstep : combineStep φ d dO h i rooti m = some (m.put d
        (((m d).set (dO + i + h) (A i - B i * φ root ^ i)).set (dO + i) (A i + B i * φ root ^ i))) := by
      simp only [combineStep, Option.bind_eq_bind, e1, Option.bind_some, e2, hr,
        hm.wr (show dO + i + h < N by omega), e3, hm1.wr (show dO + i < N by omega)]
    rw [combine, hstep]
    simp only [Option.bind_eq_bind, Option.bind_some]
    obtain ⟨m', e, h1, h2⟩ := ih (i + 1) (rooti * root) _ (by omega)
      (by rw [map_mul, hr, pow_succ]) (show Rep ((m.put d _) d) N _ by
        rw [put_self]
        refine hm2.congr (fun x hx => ?_)
        by_cases hx1 : x = dO + i
        · subst hx1
          rw [Function.update_self, if_pos (by omega), show dO + i - dO = i by omega]
        · rw [Function.update_of_ne hx1]
          by_cases hx2 : x = dO + i + h
          · subst hx2
            rw [Function.update_self, if_neg (by omega), if_pos (by omega),
              show dO + i + h - dO - h = i by omega]
          · rw [Function.update_of_ne hx2]
            split_ifs <;> first | rfl | (exfalso; omega))
    exact ⟨m', e, h1, fun a ha => by rw [h2 a ha, put_ne _ ha]⟩

theorem fftRec_spec (φ : R →* α) {d s N Ns : Nat} (hds : s ≠ d) {S : Nat → α} :
    ∀ (L : Nat) (root : R) (off dO sO : Nat) (m : Mem α) (D : Nat → α),
    (0 < L → φ root ^ 2 ^ (L - 1) = -1) → dO + 2 ^ L ≤ N → sO + (2 ^ L - 1) * off < Ns →
    Rep (m d) N D → Rep (m s) Ns S →
    ∃ m', fftRec φ d s (2 ^ L) root off dO sO m = some m' ∧
      Rep (m' d) N (fun x => if dO ≤ x ∧ x < dO + 2 ^ L then
        dft (2 ^ L) (φ root) (fun j => S (sO + j * off)) (x - dO) else D x) ∧
      ∀ a, a ≠ d → m' a = m a := by
  intro L
  induction L with
  | zero =>
    intro root off dO sO m D hr hd hs hm hms
    rw [pow_zero] at hd hs ⊢
    rw [fftRec, dif_pos le_rfl, hms.rd (by omega)]
    simp only [Option.bind_eq_bind, Option.bind_some]
    rw [hm.wr (by omega)]
    refine ⟨_, rfl, ?_, fun a ha => put_ne _ ha _⟩
    rw [put_self]
    refine (hm.set dO _).congr (fun x hx => ?_)
    by_cases hx1 : x = dO
    · subst hx1
      rw [Function.update_self, if_pos (by omega), dft]
      simp
    · rw [Function.update_of_ne hx1, if_neg (by omega)]
  | succ L ih =>
    intro root off dO sO m D hr hd hs hm hms
    have hp : 2 ^ (L + 1) = 2 * 2 ^ L := by ring
    have hpos := Nat.two_pow_pos L
    have hroot : φ root ^ 2 ^ L = -1 := hr (by omega)
    have hr2 : 0 < L → φ (root * root) ^ 2 ^ (L - 1) = -1 := by
      intro hL
      rw [map_mul]
      apply root_sq
      rw [show L - 1 + 1 = L by omega]
      exact hroot
    have hoff : (2 ^ L - 1) * (off * 2) + off ≤ (2 ^ (L + 1) - 1) * off := by
      rw [hp]
      obtain ⟨q, hq⟩ : ∃ q, 2 ^ L = q + 1 := ⟨2 ^ L - 1, by omega⟩
      rw [hq, show 2 * (q + 1) - 1 = 2 * q + 1 by omega, show q + 1 - 1 = q by omega]
      apply le_of_eq
      ring
    obtain ⟨m1, e1, h1, k1⟩ := ih (root * root) (off * 2) dO sO m D hr2 (by omega) (by omega) hm hms
    obtain ⟨m2, e2, h2, k2⟩ := ih (root * root) (off * 2) (dO + 2 ^ L) (sO + off) m1 _ hr2 (by omega)
      (by omega) h1 (by rw [k1 s hds]; exact hms)
    rw [fftRec, dif_neg (by omega), hp, Nat.mul_div_cancel_left _ (by omega : 0 < 2), e1]
    simp only [Option.bind_eq_bind, Option.bind_some]
    rw [e2]
    simp only [Option.bind_some]
    obtain ⟨m3, e3, h3, k3⟩ := combine_spec φ root (d := d) (dO := dO) (h := 2 ^ L) (N := N) (by omega)
      (dft (2 ^ L) (φ root * φ root) (fun j => S (sO + (2 * j) * off)))
      (dft (2 ^ L) (φ root * φ root) (fun j => S (sO + (2 * j + 1) * off))) D (2 ^ L) 0 1 m2
      (by omega) (by simp) (h2.congr (fun x hx => by
        rw [map_mul]
        have f1 : (fun j => S (sO + j * (off * 2))) = (fun j => S (sO + (2 * j) * off)) := by
          funext j; congr 1; ring
        have f2 : (fun j => S (sO + off + j * (off * 2))) = (fun j => S (sO + (2 * j + 1) * off)) := by
          funext j; congr 1; ring
        rw [f1, f2, if_neg (c := dO ≤ x ∧ x < dO + 0) (by omega),
          if_neg (c := dO + 2 ^ L ≤ x ∧ x < dO + 2 ^ L + 0) (by omega)]
        by_cases c1 : dO ≤ x ∧ x < dO + 2 ^ L
        · rw [if_neg (by omega), if_pos c1, if_pos c1]
        · rw [if_neg c1]
          by_cases c2 : dO + 2 ^ L ≤ x ∧ x < dO + 2 * 2 ^ L
          · rw [if_pos (by omega), if_neg c1, if_pos c2, show x - (dO + 2 ^ L) = x - dO - 2 ^ L by omega]
          · rw [if_neg (by omega), if_neg c1, if_neg c2]))
    refine ⟨m3, e3, h3.congr (fun x hx => ?_), fun a ha => by rw [k3 a ha, k2 a ha, k1 a ha]⟩
    by_cases c1 : dO ≤ x ∧ x < dO + 2 ^ L
    · rw [if_pos c1, if_pos (by omega), dft_time]
    · rw [if_neg c1]
      by_cases c2 : dO + 2 ^ L ≤ x ∧ x < dO + 2 * 2 ^ L
      · rw [if_pos c2, if_pos (by omega)]
        have := dft_time_high hroot (fun j => S (sO + j * off)) (x - dO - 2 ^ L)
        rw [show x - dO - 2 ^ L + 2 ^ L = x - dO by omega] at this
        rw [this]
      · rw [if_neg c2, if_neg (by omega)]

/-- `fft_rec` computes the discrete Fourier transform. -/
theorem C42_fft_rec (φ : R →* α) {d s L : Nat} (hds : s ≠ d) {root : R}
    (hr : 0 < L → φ root ^ 2 ^ (L - 1) = -1) {m : Mem α} {S : Nat → α}
    (hd : (m d).length = 2 ^ L) (hs : Rep (m s) (2 ^ L) S) :
    ∃ m', fftRec φ d s (2 ^ L) root 1 0 0 m = some m' ∧
      Rep (m' d) (2 ^ L) (dft (2 ^ L) (φ root) S) ∧ ∀ a, a ≠ d → m' a = m a := by
  have hD : Rep (m d) (2 ^ L) (fun i => (m d).getD i 0) := by
    have := @Rep.self α ⟨0⟩ (m d)
    rwa [hd] at this
  have hpos := Nat.two_pow_pos L
  obtain ⟨m', e, h, k⟩ := fftRec_spec φ hds (N := 2 ^ L) (Ns := 2 ^ L) L root 1 0 0 m _ hr (by omega)
    (by omega) hD hs
  refine ⟨m', e, h.congr (fun x hx => ?_), k⟩
  rw [if_pos (by omega), Nat.sub_zero]
  simp only [Nat.zero_add, Nat.mul_one]

/-- The same from the textbook hypothesis, when `2` is invertible. -/
theorem C42_fft_rec_principal (φ : R →* α) {d s L : Nat} (hds : s ≠ d) {root : R}
    (hr : Principal (φ root) (2 ^ L)) (h2 : IsUnit (2 : α)) {m : Mem α} {S : Nat → α}
    (hd : (m d).length = 2 ^ L) (hs : Rep (m s) (2 ^ L) S) :
    ∃ m', fftRec φ d s (2 ^ L) root 1 0 0 m = some m' ∧
      Rep (m' d) (2 ^ L) (dft (2 ^ L) (φ root) S) ∧ ∀ a, a ≠ d → m' a = m a := by
  refine C42_fft_rec φ hds (fun hL => ?_) hd hs
  obtain ⟨q, rfl⟩ : ∃ q, L = q + 1 := ⟨L - 1, by omega⟩
  exact half_of_principal hr h2

end Altruct.Fft
