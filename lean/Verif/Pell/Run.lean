/-
The run of `pell_PQa`: the vectors hold the expansion of `(P0 + sqrt D) / Q0`.
-/
import Verif.Pell.Model
import Verif.Pell.Cycle
import Verif.Base.Props
import Verif.Base.RootProps

namespace Altruct.Pell

open Altruct

theorem between_sqrtT (D : Int) (hD : 0 < D) (hns : ¬ IsSquare D) (hl : D.natAbs.log2 < 2 ^ 63) :
    Between D (Base.sqrtT D) := by
  obtain ⟨h0, h1, h2⟩ := Base.C01_sqrtT D hD.le hl
  have hne : Base.sqrtT D * Base.sqrtT D ≠ D := fun e => hns ⟨_, e.symm⟩
  refine ⟨?_, lt_of_le_of_ne h1 hne, h2⟩
  by_contra hc
  have : Base.sqrtT D = 0 := by omega
  rw [this] at h2
  have hD1 : D = 1 := by omega
  exact hns ⟨1, by rw [hD1]; rfl⟩

/-- The floor of `(P + sqrt D) / Q` as computed at pell.h:55. -/
def aOf (s P Q : Int) : Int := Base.divFloor (P + (if Q < 0 then s + 1 else s)) Q

theorem divFloor_spec (x y : Int) (hy : y ≠ 0) :
    (0 < y → Base.divFloor x y * y ≤ x ∧ x < (Base.divFloor x y + 1) * y)
    ∧ (y < 0 → x ≤ Base.divFloor x y * y ∧ (Base.divFloor x y + 1) * y < x) := by
  have h := Base.C05_div_floor x y hy
  rw [eq_comm, Int.floor_eq_iff] at h
  obtain ⟨h1, h2⟩ := h
  constructor
  · intro hp
    have hp' : (0 : ℚ) < y := by exact_mod_cast hp
    rw [le_div_iff₀ hp'] at h1
    rw [div_lt_iff₀ hp'] at h2
    exact ⟨by exact_mod_cast h1, by exact_mod_cast h2⟩
  · intro hp
    have hp' : (y : ℚ) < 0 := by exact_mod_cast hp
    rw [le_div_iff_of_neg hp'] at h1
    rw [div_lt_iff_of_neg hp'] at h2
    exact ⟨by exact_mod_cast h1, by exact_mod_cast h2⟩

/-- The pairs `(P, Q)` of the expansion. -/
def pq (D s P0 Q0 : Int) : ℕ → Int × Int
  | 0 => (P0, Q0)
  | n + 1 =>
    let P := (pq D s P0 Q0 n).1
    let Q := (pq D s P0 Q0 n).2
    (aOf s P Q * Q - P, (D - (aOf s P Q * Q - P) * (aOf s P Q * Q - P)).tdiv Q)

def sP (D s P0 Q0 : Int) (n : ℕ) : Int := (pq D s P0 Q0 n).1
def sQ (D s P0 Q0 : Int) (n : ℕ) : Int := (pq D s P0 Q0 n).2
def sa (D s P0 Q0 : Int) (n : ℕ) : Int := aOf s (sP D s P0 Q0 n) (sQ D s P0 Q0 n)

/-- The sequence with `X (k+2) = a k * X (k+1) + X k`. -/
def lin (a : ℕ → Int) (x y : Int) : ℕ → Int
  | 0 => x
  | 1 => y
  | k + 2 => a k * lin a x y (k + 1) + lin a x y k

theorem lin_rec (a : ℕ → Int) (x y : Int) : Rec a (lin a x y) := fun k => by rw [lin]

variable {D s P0 Q0 : Int}

theorem step_ok {P Q : Int} (hQ : Q ≠ 0) (hd : Q ∣ D - P * P) :
    Step D s P Q (aOf s P Q) (aOf s P Q * Q - P)
      ((D - (aOf s P Q * Q - P) * (aOf s P Q * Q - P)).tdiv Q) := by
  have hf := divFloor_spec (P + (if Q < 0 then s + 1 else s)) Q hQ
  have hd' : Q ∣ D - (aOf s P Q * Q - P) * (aOf s P Q * Q - P) := by
    have e : D - (aOf s P Q * Q - P) * (aOf s P Q * Q - P)
        = (D - P * P) + Q * (aOf s P Q * (2 * P - aOf s P Q * Q)) := by ring
    rw [e]
    exact dvd_add hd ⟨_, rfl⟩
  refine ⟨hQ, ?_, ?_, rfl, Int.mul_tdiv_cancel' hd'⟩
  · intro h
    have := hf.1 h
    rw [if_neg (by omega)] at this
    rw [aOf, if_neg (by omega)]
    exact ⟨this.1, by have := this.2; omega⟩
  · intro h
    have := hf.2 h
    rw [if_pos h] at this
    rw [aOf, if_pos h]
    exact ⟨by have := this.1; omega, by have := this.2; omega⟩

theorem pq_ok (hD : Between D s) (hQ : Q0 ≠ 0) (hd : Q0 ∣ D - P0 * P0) (n : ℕ) :
    sQ D s P0 Q0 n ≠ 0 ∧ sQ D s P0 Q0 n ∣ D - sP D s P0 Q0 n * sP D s P0 Q0 n := by
  induction n with
  | zero => exact ⟨hQ, hd⟩
  | succ n ih =>
    have st := step_ok (s := s) ih.1 ih.2
    exact ⟨st.ne' hD, ⟨sQ D s P0 Q0 n, (by rw [mul_comm (sQ D s P0 Q0 (n + 1))]; exact st.hQ.symm)⟩⟩

theorem expansion (hD : Between D s) (hQ : Q0 ≠ 0) (hd : Q0 ∣ D - P0 * P0) :
    Expansion D s (sP D s P0 Q0) (sQ D s P0 Q0) (sa D s P0 Q0) := fun n =>
  step_ok (pq_ok hD hQ hd n).1 (pq_ok hD hQ hd n).2

theorem lt_of_sq_lt (hD : Between D s) (x : Int) : x * x < D ↔ -s ≤ x ∧ x ≤ s := by
  have h1 := hD.lo
  have h2 := hD.hi
  have h3 := hD.pos
  constructor
  · intro h
    constructor <;> by_contra hc <;> push Not at hc <;> nlinarith
  · rintro ⟨h4, h5⟩
    nlinarith

theorem lt_sq_of_lt (hD : Between D s) (x : Int) (hx : 0 ≤ x) : D < x * x ↔ s + 1 ≤ x := by
  have h1 := hD.lo
  have h2 := hD.hi
  have h3 := hD.pos
  constructor
  · intro h
    by_contra hc
    push Not at hc
    nlinarith
  · intro h4
    nlinarith

theorem isReduced_iff (hD : Between D s) (P Q : Int) : isReduced D P Q = true ↔ Red s P Q := by
  rw [isReduced]
  simp only [Bool.and_eq_true, decide_eq_true_eq]
  constructor
  · rintro ⟨⟨⟨⟨h1, h2⟩, h3⟩, h4⟩, h5⟩
    rw [lt_of_sq_lt hD] at h3 h4
    rw [lt_sq_of_lt hD _ (by omega)] at h5
    exact ⟨by omega, h3.2, by omega, by omega, h5⟩
  · intro h
    have := h.p1; have := h.p2; have := h.q1; have := h.q2; have := h.q3
    refine ⟨⟨⟨⟨by omega, by omega⟩, ?_⟩, ?_⟩, ?_⟩
    · rw [lt_of_sq_lt hD]; omega
    · rw [lt_of_sq_lt hD]; omega
    · rw [lt_sq_of_lt hD _ (by omega)]; omega

/-- The vectors after `n` rounds. -/
def tabAt (D s P0 Q0 : Int) (n : ℕ) : Tab where
  P := (List.range (n + 1)).map (sP D s P0 Q0)
  Q := (List.range (n + 1)).map (sQ D s P0 Q0)
  a := (List.range n).map (sa D s P0 Q0)
  A := (List.range n).map (fun k => lin (sa D s P0 Q0) 0 1 (k + 2))
  B := (List.range n).map (fun k => lin (sa D s P0 Q0) 1 0 (k + 2))
  G := (List.range n).map (fun k => lin (sa D s P0 Q0) (-P0) Q0 (k + 2))

/-- The local variables after `n` rounds. -/
def locAt (D s P0 Q0 : Int) (n i0 : ℕ) : Loc where
  i := n
  i0 := i0
  P0 := sP D s P0 Q0 n
  Q0 := sQ D s P0 Q0 n
  A2 := lin (sa D s P0 Q0) 0 1 n
  A1 := lin (sa D s P0 Q0) 0 1 (n + 1)
  B2 := lin (sa D s P0 Q0) 1 0 n
  B1 := lin (sa D s P0 Q0) 1 0 (n + 1)
  G2 := lin (sa D s P0 Q0) (-P0) Q0 n
  G1 := lin (sa D s P0 Q0) (-P0) Q0 (n + 1)

theorem rd_map_range {f : ℕ → Int} {n i : ℕ} (hi : i < n) : rd ((List.range n).map f) i = some (f i) :=
  (Rep.of_map n f).rd hi

theorem map_range_succ' (f : ℕ → Int) (n : ℕ) :
    (List.range (n + 1)).map f = (List.range n).map f ++ [f n] := by
  rw [List.range_succ, List.map_append]; rfl

theorem pqaStep_ok (hD : Between D s) (hQ : Q0 ≠ 0) (hd : Q0 ∣ D - P0 * P0) (n i0 : ℕ) :
    pqaStep D s (locAt D s P0 Q0 n i0) (tabAt D s P0 Q0 n)
      = some (locAt D s P0 Q0 (n + 1)
          (if i0 = 0 ∧ isReduced D (sP D s P0 Q0 (n + 1)) (sQ D s P0 Q0 (n + 1)) then n + 1 else i0),
        tabAt D s P0 Q0 (n + 1)) := by
  have hq := (pq_ok hD hQ hd n).1
  rw [pqaStep]
  simp only [locAt, tabAt, rd_map_range (Nat.lt_succ_self n), Option.bind_eq_bind, Option.bind_some,
    hq, or_self, ↓reduceIte]
  simp only [map_range_succ' _ (n + 1), map_range_succ' _ n]
  rfl

theorem pqaLoop_after (hD : Between D s) (hQ : Q0 ≠ 0) (hd : Q0 ∣ D - P0 * P0) {i0 e : ℕ} (h0 : i0 ≠ 0)
    (he : sP D s P0 Q0 e = sP D s P0 Q0 i0 ∧ sQ D s P0 Q0 e = sQ D s P0 Q0 i0) :
    ∀ (fuel n : ℕ), i0 ≤ n → n < e → e - n ≤ fuel →
      (∀ j, n < j → j < e → ¬ (sP D s P0 Q0 j = sP D s P0 Q0 i0 ∧ sQ D s P0 Q0 j = sQ D s P0 Q0 i0)) →
      pqaLoop D s fuel (locAt D s P0 Q0 n i0) (tabAt D s P0 Q0 n) = some (tabAt D s P0 Q0 e, e - i0) := by
  intro fuel
  induction fuel with
  | zero => intro n _ h1 h2; omega
  | succ fuel ih =>
    intro n h1 h2 h3 h4
    rw [pqaLoop, pqaStep_ok hD hQ hd, if_neg (by tauto)]
    simp only [Option.bind_eq_bind, Option.bind_some]
    rw [if_pos (by simp only [locAt]; omega)]
    simp only [locAt, tabAt, rd_map_range (Nat.lt_succ_self (n + 1)),
      rd_map_range (show i0 < n + 1 + 1 by omega), Option.bind_some]
    by_cases hc : n + 1 = e
    · rw [hc, if_pos he]
    · rw [if_neg (h4 (n + 1) (by omega) (by omega))]
      exact ih (n + 1) (by omega) (by omega) (by omega) (fun j h5 h6 => h4 j (by omega) h6)

theorem pqaLoop_before (hD : Between D s) (hQ : Q0 ≠ 0) (hd : Q0 ∣ D - P0 * P0) {r e : ℕ}
    (hr : Red s (sP D s P0 Q0 r) (sQ D s P0 Q0 r)) (hre : r < e)
    (he : sP D s P0 Q0 e = sP D s P0 Q0 r ∧ sQ D s P0 Q0 e = sQ D s P0 Q0 r)
    (hmin : ∀ j, r < j → j < e → ¬ (sP D s P0 Q0 j = sP D s P0 Q0 r ∧ sQ D s P0 Q0 j = sQ D s P0 Q0 r)) :
    ∀ (fuel n : ℕ), n < r → e - n ≤ fuel →
      (∀ j, n < j → j < r → ¬ Red s (sP D s P0 Q0 j) (sQ D s P0 Q0 j)) →
      pqaLoop D s fuel (locAt D s P0 Q0 n 0) (tabAt D s P0 Q0 n) = some (tabAt D s P0 Q0 e, e - r) := by
  intro fuel
  induction fuel with
  | zero => intro n h1 h2; omega
  | succ fuel ih =>
    intro n h1 h2 h3
    rw [pqaLoop, pqaStep_ok hD hQ hd]
    by_cases hc : n + 1 = r
    · rw [if_pos ⟨rfl, by rw [isReduced_iff hD, hc]; exact hr⟩]
      simp only [Option.bind_eq_bind, Option.bind_some]
      rw [if_neg (by simp [locAt]), hc]
      exact pqaLoop_after hD hQ hd (by omega) he fuel r le_rfl hre (by omega) hmin
    · rw [if_neg (by
        rintro ⟨-, h5⟩
        rw [isReduced_iff hD] at h5
        exact h3 (n + 1) (by omega) (by omega) h5)]
      simp only [Option.bind_eq_bind, Option.bind_some]
      rw [if_neg (by simp [locAt])]
      exact ih (n + 1) (by omega) (by omega) (fun j h5 h6 => h3 j (by omega) h6)

/-- `r` is the index of the first reduced pair and `l` the length of the period. -/
structure IsPeriod (D s P0 Q0 : Int) (r l : ℕ) : Prop where
  r1 : 1 ≤ r
  red : Red s (sP D s P0 Q0 r) (sQ D s P0 Q0 r)
  first : ∀ j, 1 ≤ j → j < r → ¬ Red s (sP D s P0 Q0 j) (sQ D s P0 Q0 j)
  l1 : 1 ≤ l
  per : sP D s P0 Q0 (r + l) = sP D s P0 Q0 r ∧ sQ D s P0 Q0 (r + l) = sQ D s P0 Q0 r
  least : ∀ j, 1 ≤ j → j < l →
    ¬ (sP D s P0 Q0 (r + j) = sP D s P0 Q0 r ∧ sQ D s P0 Q0 (r + j) = sQ D s P0 Q0 r)

theorem exists_isPeriod (hD : Between D s) (hQ : Q0 ≠ 0) (hd : Q0 ∣ D - P0 * P0) :
    ∃ r l, IsPeriod D s P0 Q0 r l := by
  classical
  have hE := expansion hD hQ hd
  have hr := hE.exists_red hD
  have hr' := Nat.find_spec hr
  have hl := hE.exists_period hD hr'.2
  have hl' := Nat.find_spec hl
  refine ⟨Nat.find hr, Nat.find hl, hr'.1, hr'.2, ?_, hl'.1, hl'.2, ?_⟩
  · intro j h1 h2 h3
    exact Nat.find_min hr h2 ⟨h1, h3⟩
  · intro j h1 h2 h3
    exact Nat.find_min hl h2 ⟨h1, h3⟩

/-- The first call. -/
theorem pqa_first (hD : Between D s) (hs : s = Base.sqrtT D) (hQ : Q0 ≠ 0) (hd : Q0 ∣ D - P0 * P0) {r l : ℕ}
    (h : IsPeriod D s P0 Q0 r l) (fuel : ℕ) (hf : r + l ≤ fuel) :
    pqa fuel D (start P0 Q0) = some (tabAt D s P0 Q0 (r + l), l) := by
  have h1 := h.r1
  have h2 := h.l1
  have := pqaLoop_before hD hQ hd h.red (by omega : r < r + l) h.per (fun j h3 h4 => by
    have := h.least (j - r) (by omega) (by omega)
    rwa [Nat.add_sub_cancel' (by omega)] at this) fuel 0 (by omega) (by omega) (fun j h3 h4 => h.first j (by omega) h4)
  rw [Nat.add_sub_cancel_left] at this
  rw [pqa, ← this, ← hs]
  rfl

/-- The states repeat. -/
theorem IsPeriod.periodic (hD : Between D s) (hQ : Q0 ≠ 0) (hd : Q0 ∣ D - P0 * P0) {r l : ℕ}
    (h : IsPeriod D s P0 Q0 r l) (k n : ℕ) (hn : r ≤ n) :
    sP D s P0 Q0 (n + k * l) = sP D s P0 Q0 n ∧ sQ D s P0 Q0 (n + k * l) = sQ D s P0 Q0 n
      ∧ sa D s P0 Q0 (n + k * l) = sa D s P0 Q0 n := by
  have hE := expansion hD hQ hd
  induction k with
  | zero => simp
  | succ k ih =>
    obtain ⟨g1, g2, g3⟩ := hE.eq_from h.per.1 h.per.2 (n - r + k * l)
    rw [show r + l + (n - r + k * l) = n + (k + 1) * l by
      rw [Nat.add_mul]; omega, show r + (n - r + k * l) = n + k * l by omega] at g1 g2 g3
    exact ⟨g1.trans ih.1, g2.trans ih.2.1, g3.trans ih.2.2⟩

/-- No shorter period, from any point of the cycle. -/
theorem IsPeriod.least_from (hD : Between D s) (hQ : Q0 ≠ 0) (hd : Q0 ∣ D - P0 * P0) {r l : ℕ}
    (h : IsPeriod D s P0 Q0 r l) (n : ℕ) (hn : r ≤ n) (j : ℕ) (h1 : 1 ≤ j) (h2 : j < l) :
    ¬ (sP D s P0 Q0 (n + j) = sP D s P0 Q0 n ∧ sQ D s P0 Q0 (n + j) = sQ D s P0 Q0 n) := by
  have hE := expansion hD hQ hd
  induction n with
  | zero =>
    have : r = 0 := by omega
    rw [← this]
    exact h.least j h1 h2
  | succ n ih =>
    by_cases hc : r = n + 1
    · rw [← hc]; exact h.least j h1 h2
    · intro he
      rw [show n + 1 + j = n + j + 1 by omega] at he
      exact ih (by omega) (hE.back hD h.red (by omega) (by omega) he.1 he.2)

/-- A repetition in the cycle is a multiple of the period. -/
theorem IsPeriod.dvd (hD : Between D s) (hQ : Q0 ≠ 0) (hd : Q0 ∣ D - P0 * P0) {r l : ℕ}
    (h : IsPeriod D s P0 Q0 r l) (n : ℕ) (hn : r ≤ n) (j : ℕ)
    (he : sP D s P0 Q0 (n + j) = sP D s P0 Q0 n ∧ sQ D s P0 Q0 (n + j) = sQ D s P0 Q0 n) : l ∣ j := by
  have hl := h.l1
  by_contra hc
  have hm : 1 ≤ j % l := by
    have : j % l ≠ 0 := fun e => hc (Nat.dvd_of_mod_eq_zero e)
    omega
  have hp := h.periodic hD hQ hd (j / l) (n + j % l) (by omega)
  rw [show n + j % l + j / l * l = n + j by
    have := Nat.mod_add_div j l; rw [mul_comm] at this; omega] at hp
  exact h.least_from hD hQ hd n hn (j % l) hm (Nat.mod_lt _ (by omega)) ⟨hp.1 ▸ he.1, hp.2.1 ▸ he.2⟩

/-- A further call adds one period. -/
theorem pqa_again (hD : Between D s) (hs : s = Base.sqrtT D) (hQ : Q0 ≠ 0) (hd : Q0 ∣ D - P0 * P0) {r l : ℕ}
    (h : IsPeriod D s P0 Q0 r l) (n : ℕ) (hn : r ≤ n) (hn2 : 2 ≤ n) (fuel : ℕ) (hf : l ≤ fuel) :
    pqa fuel D (tabAt D s P0 Q0 n) = some (tabAt D s P0 Q0 (n + l), l) := by
  have h2 := h.l1
  have hp := h.periodic hD hQ hd 1 n hn
  rw [one_mul] at hp
  have := pqaLoop_after hD hQ hd (by omega : n ≠ 0) ⟨hp.1, hp.2.1⟩ fuel n le_rfl (by omega) (by omega)
    (fun j h3 h4 => by
      have := h.least_from hD hQ hd n hn (j - n) (by omega) (by omega)
      rwa [Nat.add_sub_cancel' (by omega)] at this)
  rw [Nat.add_sub_cancel_left] at this
  rw [pqa, ← this, ← hs]
  have e1 : (tabAt D s P0 Q0 n).a.length = n := by simp [tabAt]
  simp only [e1]
  obtain ⟨k, rfl⟩ : ∃ k, n = k + 2 := ⟨n - 2, by omega⟩
  simp only [tabAt, locAt, rd_map_range (Nat.lt_succ_self (k + 2)), Option.bind_eq_bind, Option.bind_some]
  rw [if_pos (by omega)]
  rw [rd_map_range (by omega), rd_map_range (by omega), rd_map_range (by omega), rd_map_range (by omega),
    rd_map_range (by omega), rd_map_range (by omega)]
  rfl

end Altruct.Pell
