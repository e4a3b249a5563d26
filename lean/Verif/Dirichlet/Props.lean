/-
C52: Dirichlet convolution, division and inverse tables.
-/
import Verif.Dirichlet.Model
import Mathlib.NumberTheory.Divisors
import Mathlib.Algebra.BigOperators.Ring.Finset
import Mathlib.Algebra.BigOperators.Intervals
import Mathlib.Tactic.Ring
import Mathlib.Tactic.Linarith
import Mathlib.Tactic.LinearCombination

namespace Altruct.Dirichlet

open Altruct.Polynom (Quo cdiv)

variable {α : Type} [CommRing α]

/-! ### Specification -/

/-- Dirichlet convolution: the sum of `f(d) g(k/d)` over the divisors `d` of `k`. -/
def conv (f g : Nat → α) (k : Nat) : α := ∑ d ∈ k.divisors, f d * g (k / d)

/-! ### Loops on tables -/

omit [CommRing α] in
theorem fill_spec' {N n a : Nat} {h : List α} {g0 : Nat → α} (r : Rep h N g0) (hn : n ≤ N) (x : Nat → α) :
    ∃ h', fill h x a n = some h' ∧ Rep h' N (fun i => if a ≤ i ∧ i < n then x i else g0 i) := by
  rw [fill]
  by_cases han : a ≤ n
  · obtain ⟨h', e, r'⟩ := forUp_spec (body := fun i h => wr h i (x i))
      (fun k h => Rep h N (fun i => if a ≤ i ∧ i < k then x i else g0 i)) han
      (r.congr (fun i _ => by rw [if_neg (by omega)]))
      (fun i s h1 h2 rs => ⟨_, rs.wr (by omega) (x i), (rs.set i (x i)).congr (fun j _ => by
        by_cases hj : j = i
        · subst hj; rw [Function.update_self, if_pos (by omega)]
        · rw [Function.update_of_ne hj]
          by_cases hc : a ≤ j ∧ j < i
          · rw [if_pos hc, if_pos (by omega)]
          · rw [if_neg hc, if_neg (by omega)])⟩)
    exact ⟨h', e, r'⟩
  · exact ⟨h, by rw [forUp, show n - a = 0 by omega]; rfl, r.congr (fun i _ => by rw [if_neg (by omega)])⟩

omit [CommRing α] in
/-- A loop over multiples of `d` from the `j0`-th on that rewrites the visited element from its old value
and the (unchanged) rest of the table below `d * j0`. -/
theorem multiples_spec {lim N n d j0 : Nat} {body : Nat → Nat → List α → Option (List α)} {h : List α} {g0 U : Nat → α}
    (r : Rep h N g0) (hn : n ≤ N) (hd : 0 < d) (hlim : n + d ≤ lim + 1)
    (step : ∀ j s gs, j0 ≤ j → d * j < n → Rep s N gs → gs (d * j) = g0 (d * j) → (∀ i, i < d * j0 → gs i = g0 i) →
      body j (d * j) s = wr s (d * j) (U (d * j))) :
    ∃ h', forStep lim body n d n j0 (d * j0) h = some h' ∧
      Rep h' N (fun i => if d ∣ i ∧ d * j0 ≤ i ∧ i < n then U i else g0 i) := by
  obtain ⟨J, h', e, hJ, r'⟩ := forStep_spec (lim := lim) (n := n) (d := d) (body := body)
    (fun j h => Rep h N (fun i => if d ∣ i ∧ d * j0 ≤ i ∧ i < d * j ∧ i < n then U i else g0 i)) hd hlim n j0 h
    (by omega) (r.congr (fun i _ => by rw [if_neg (by omega)]))
    (fun j s h1 h2 rs => by
      have h3 : d * j0 ≤ d * j := Nat.mul_le_mul_left d h1
      have hm : d * (j + 1) = d * j + d := Nat.mul_succ d j
      have := step j s _ h1 h2 rs (by rw [if_neg (by omega)]) (fun i hi => by rw [if_neg (by omega)])
      refine ⟨_, this.trans (rs.wr (by omega) _), (rs.set (d * j) _).congr (fun i _ => ?_)⟩
      by_cases hi : i = d * j
      · subst hi
        rw [Function.update_self, if_pos ⟨Nat.dvd_mul_right d j, h3, by omega, h2⟩]
      · rw [Function.update_of_ne hi]
        by_cases hc : d ∣ i ∧ d * j0 ≤ i ∧ i < d * j ∧ i < n
        · rw [if_pos hc, if_pos ⟨hc.1, hc.2.1, by omega, hc.2.2.2⟩]
        · rw [if_neg hc, if_neg]
          rintro ⟨c1, c2, c3, c4⟩
          apply hc
          refine ⟨c1, c2, ?_, c4⟩
          obtain ⟨q, rfl⟩ := c1
          rw [← Nat.mul_succ] at hm
          have : q < j + 1 := Nat.lt_of_mul_lt_mul_left c3
          have : q ≠ j := by rintro rfl; exact hi rfl
          exact Nat.mul_lt_mul_of_pos_left (by omega) hd)
  refine ⟨h', e, r'.congr (fun i _ => ?_)⟩
  by_cases hc : d ∣ i ∧ d * j0 ≤ i ∧ i < n
  · rw [if_pos hc, if_pos ⟨hc.1, hc.2.1, by omega, hc.2.2⟩]
  · rw [if_neg hc, if_neg (fun hc' => hc ⟨hc'.1, hc'.2.1, hc'.2.2.2⟩)]

/-- The part of the convolution with first factor below `d`. -/
def part (f g : Nat → α) (d i : Nat) : α := ∑ e ∈ Finset.range d, if 1 ≤ e ∧ e ∣ i then f e * g (i / e) else 0

theorem part_succ (f g : Nat → α) (d i : Nat) :
    part f g (d + 1) i = part f g d i + if 1 ≤ d ∧ d ∣ i then f d * g (i / d) else 0 := by
  rw [part, Finset.sum_range_succ, part]

theorem part_eq_conv (f g : Nat → α) (d i : Nat) (hi : 1 ≤ i) (hd : i < d) : part f g d i = conv f g i := by
  rw [part, conv, ← Finset.sum_filter]
  apply Finset.sum_congr _ (fun _ _ => rfl)
  ext e
  rw [Finset.mem_filter, Finset.mem_range, Nat.mem_divisors]
  constructor
  · rintro ⟨_, _, h⟩; exact ⟨h, by omega⟩
  · rintro ⟨h, _⟩
    have := Nat.le_of_dvd hi h
    exact ⟨by omega, Nat.pos_of_dvd_of_pos h hi, h⟩

theorem conv_eq_part (f g : Nat → α) (i : Nat) (hi : 1 ≤ i) : conv f g i = part f g i i + f i * g 1 := by
  rw [← part_eq_conv f g (i + 1) i hi (by omega), part_succ, if_pos ⟨hi, dvd_refl i⟩, Nat.div_self hi]

/-- **C52**: `dirichlet_convolution` fills `h[k]` with the sum of `f(d) g(k/d)` over the divisors of `k`,
for `1 <= k < n`, sets `h[0]` to zero and touches nothing else. -/
theorem C52_convolution (lim n N : Nat) (h : List α) (g0 f g : Nat → α) (r : Rep h N g0) (hn : 1 ≤ n) (hN : n ≤ N)
    (hlim : 2 * n ≤ lim + 1) :
    ∃ h', convolution lim h f g n = some h' ∧
      Rep h' N (fun i => if i = 0 then 0 else if i < n then conv f g i else g0 i) := by
  obtain ⟨h1, e1, r1⟩ := fill_spec' (a := 0) r hN (fun _ => 0)
  obtain ⟨h2, e2, r2⟩ := forUp_spec (body := fun d h => forStep lim (convBody f g d) n d n 1 d h)
    (fun d h => Rep h N (fun i => if i < n then (if i = 0 then 0 else part f g d i) else g0 i)) hn
    (r1.congr (fun i _ => by
      by_cases hi : i < n
      · rw [if_pos ⟨by omega, hi⟩, if_pos hi]
        simp [part]
      · rw [if_neg (by omega), if_neg hi]))
    (fun d s hd hdn rs => by
      obtain ⟨h', e', r'⟩ := multiples_spec (lim := lim) (n := n) (body := convBody f g d) (j0 := 1) (U := fun i => part f g d i + f d * g (i / d)) rs hN
        hd (by omega)
        (fun j s gs hj hlt rs hg _ => by
          have hpos : 0 < d * j := Nat.mul_pos (by omega) (by omega)
          rw [convBody, rs.rd (by omega), hg, if_pos hlt, if_neg (by omega)]
          simp only [Option.bind_eq_bind, Option.bind_some]
          rw [Nat.mul_div_cancel_left j (by omega)])
      rw [Nat.mul_one] at e' r'
      refine ⟨h', e', r'.congr (fun i _ => ?_)⟩
      by_cases hi : i < n
      · rw [if_pos hi]
        by_cases h0 : i = 0
        · rw [if_neg (by omega), if_pos hi, if_pos h0, if_pos h0]
        · by_cases hdi : d ∣ i
          · have := Nat.le_of_dvd (by omega) hdi
            simp only [if_pos (show d ∣ i ∧ d ≤ i ∧ i < n from ⟨hdi, this, hi⟩), if_neg h0, part_succ,
              if_pos (show 1 ≤ d ∧ d ∣ i from ⟨hd, hdi⟩), if_pos hi]
          · simp only [if_neg (show ¬ (d ∣ i ∧ d ≤ i ∧ i < n) from fun hc => hdi hc.1), if_pos hi, if_neg h0, part_succ,
              if_neg (show ¬ (1 ≤ d ∧ d ∣ i) from fun hc => hdi hc.2), add_zero]
      · rw [if_neg (by omega), if_neg hi, if_neg hi])
  refine ⟨h2, ?_, r2.congr (fun i _ => ?_)⟩
  · rw [convolution, r.rd (by omega)]
    simp only [Option.bind_eq_bind, Option.bind_some]
    rw [e1]
    exact e2
  · by_cases h0 : i = 0
    · subst h0; rw [if_pos (by omega), if_pos rfl]; rfl
    · by_cases hi : i < n
      · simp only [if_pos hi, if_neg h0]
        rw [part_eq_conv f g n i (by omega) hi]
      · simp only [if_neg hi, if_neg h0]

/-! ### Division -/

/-- The Dirichlet quotient, by its recursion; `ig` is the inverse of `g(1)`. -/
def quotF (f g : Nat → α) (ig : α) (d : Nat) : α :=
  (f d - ∑ e ∈ (Finset.range d).attach, if 1 ≤ e.1 ∧ e.1 ∣ d then quotF f g ig e.1 * g (d / e.1) else 0) * ig
termination_by d
decreasing_by exact Finset.mem_range.mp e.2

theorem quotF_eq (f g : Nat → α) (ig : α) (d : Nat) : quotF f g ig d = (f d - part (quotF f g ig) g d d) * ig := by
  rw [quotF, part, Finset.sum_attach (Finset.range d) (fun e => if 1 ≤ e ∧ e ∣ d then quotF f g ig e * g (d / e) else 0)]

theorem conv_quotF (f g : Nat → α) (ig : α) (h1 : ig * g 1 = 1) (k : Nat) (hk : 1 ≤ k) : conv (quotF f g ig) g k = f k := by
  rw [conv_eq_part _ _ k hk]
  have := quotF_eq f g ig k
  generalize part (quotF f g ig) g k k = S at *
  rw [this]
  linear_combination (f k - S) * h1

/-- The quotient is unique. -/
theorem quot_unique (H H' g : Nat → α) (n : Nat) (u : α) (hu : u * g 1 = 1)
    (h : ∀ k, 1 ≤ k → k < n → conv H g k = conv H' g k) : ∀ k, 1 ≤ k → k < n → H k = H' k := by
  intro k
  induction k using Nat.strong_induction_on with
  | _ k ih =>
    intro hk hkn
    have := h k hk hkn
    rw [conv_eq_part _ _ k hk, conv_eq_part _ _ k hk] at this
    have hp : part H g k k = part H' g k k := by
      rw [part, part]
      apply Finset.sum_congr rfl
      intro e he
      rw [Finset.mem_range] at he
      by_cases hc : 1 ≤ e ∧ e ∣ k
      · rw [if_pos hc, if_pos hc, ih e he hc.1 (by omega)]
      · rw [if_neg hc, if_neg hc]
    rw [hp] at this
    have h2 : H k * g 1 = H' k * g 1 := add_left_cancel this
    calc H k = H k * g 1 * u := by rw [mul_assoc, mul_comm (g 1), hu, mul_one]
      _ = H' k * g 1 * u := by rw [h2]
      _ = H' k := by rw [mul_assoc, mul_comm (g 1), hu, mul_one]

/-- The inner loop of `dirichlet_division`. -/
theorem divInner_spec {lim N n d : Nat} {h : List α} {g0 : Nat → α} (g : Nat → α) (r : Rep h N g0) (hn : n ≤ N) (hd : 1 ≤ d) (hdn : d < n)
    (hlim : 2 * n ≤ lim + 1) :
    ∃ h', forStep lim (divBody g d) n d n 2 (d * 2) h = some h' ∧
      Rep h' N (fun i => if d ∣ i ∧ d < i ∧ i < n then g0 i - g (i / d) * g0 d else g0 i) := by
  obtain ⟨h', e, r'⟩ := multiples_spec (lim := lim) (n := n) (body := divBody g d) (j0 := 2) (U := fun i => g0 i - g (i / d) * g0 d) r hn hd
    (by omega)
    (fun j s gs hj hlt rs hg hlow => by
      rw [divBody, rs.rd (by omega), rs.rd (by omega), hg, hlow d (by omega)]
      simp only [Option.bind_eq_bind, Option.bind_some]
      rw [Nat.mul_div_cancel_left j (by omega)])
  refine ⟨h', e, r'.congr (fun i _ => ?_)⟩
  have key : (d ∣ i ∧ d * 2 ≤ i ∧ i < n) ↔ (d ∣ i ∧ d < i ∧ i < n) := by
    constructor
    · rintro ⟨h1, h2, h3⟩; exact ⟨h1, by omega, h3⟩
    · rintro ⟨⟨q, rfl⟩, h2, h3⟩
      refine ⟨Nat.dvd_mul_right _ _, Nat.mul_le_mul_left d ?_, h3⟩
      by_contra hq
      have : q = 0 ∨ q = 1 := by omega
      rcases this with rfl | rfl <;> simp at h2
  simp only [key]

theorem mulAt_spec {N d : Nat} {h : List α} {g0 : Nat → α} (r : Rep h N g0) (hd : d < N) (y : α) :
    ∃ h', mulAt h d y = some h' ∧ Rep h' N (Function.update g0 d (g0 d * y)) := by
  rw [mulAt, r.rd hd]
  simp only [Option.bind_eq_bind, Option.bind_some]
  exact ⟨_, r.wr hd _, r.set d _⟩

theorem addAt_spec {N d e : Nat} {h : List α} {g0 : Nat → α} (r : Rep h N g0) (hd : d < N) (he : e < N) :
    ∃ h', addAt h d e = some h' ∧ Rep h' N (Function.update g0 d (g0 d + g0 e)) := by
  rw [addAt, r.rd hd, r.rd he]
  simp only [Option.bind_eq_bind, Option.bind_some]
  exact ⟨_, r.wr hd _, r.set d _⟩

theorem division_spec [DecidableEq α] [Quo α] (lim n N : Nat) (h : List α) (g0 f g : Nat → α) (r : Rep h N g0) (hn : 1 ≤ n) (hN : n ≤ N)
    (hlim : 2 * n ≤ lim + 1) (hg : g 1 ≠ 0) :
    ∃ h', division lim h f g n = some h' ∧
      Rep h' N (fun i => if 1 ≤ i ∧ i < n then quotF f g (Quo.quo 1 (g 1)) i else g0 i) := by
  obtain ⟨h1, e1, r1⟩ := fill_spec' (a := 1) r hN f
  generalize hig : Quo.quo 1 (g 1) = ig
  obtain ⟨h2, e2, r2⟩ := forUp_spec (body := fun d h => do
      let h ← mulAt h d ig
      if lim < d * 2 then none else forStep lim (divBody g d) n d n 2 (d * 2) h)
    (fun d h => Rep h N (fun i => if 1 ≤ i ∧ i < n then (if i < d then quotF f g ig i else f i - part (quotF f g ig) g d i) else g0 i)) hn
    (r1.congr (fun i _ => by
      by_cases hi : 1 ≤ i ∧ i < n
      · rw [if_pos hi, if_pos hi, if_neg (by omega)]
        simp [part]
      · rw [if_neg hi, if_neg hi]))
    (fun d s hd hdn rs => by
      obtain ⟨h3, e3, r3⟩ := mulAt_spec rs (by omega : d < N) ig
      obtain ⟨h4, e4, r4⟩ := divInner_spec (lim := lim) (n := n) g r3 hN hd hdn hlim
      refine ⟨h4, ?_, r4.congr (fun i _ => ?_)⟩
      · rw [e3]
        simp only [Option.bind_eq_bind, Option.bind_some]
        rw [if_neg (by omega)]
        exact e4
      · have hq : quotF f g ig d = (f d - part (quotF f g ig) g d d) * ig := quotF_eq f g ig d
        by_cases hid : i = d
        · subst hid
          rw [if_neg (by omega), Function.update_self]
          simp only [if_pos (show 1 ≤ i ∧ i < n from ⟨hd, hdn⟩), if_neg (lt_irrefl i), if_pos (Nat.lt_succ_self i)]
          exact hq.symm
        · rw [Function.update_of_ne hid, Function.update_self]
          by_cases hi : 1 ≤ i ∧ i < n
          · simp only [if_pos hi, if_pos (show 1 ≤ d ∧ d < n from ⟨hd, hdn⟩), if_neg (lt_irrefl d)]
            rw [← hq]
            by_cases hlt : i < d
            · simp only [if_neg (show ¬ (d ∣ i ∧ d < i ∧ i < n) by omega), if_pos hlt, if_pos (show i < d + 1 by omega)]
            · simp only [if_neg hlt, if_neg (show ¬ i < d + 1 by omega), part_succ]
              by_cases hdi : d ∣ i
              · simp only [if_pos (show d ∣ i ∧ d < i ∧ i < n from ⟨hdi, by omega, hi.2⟩), if_pos (show 1 ≤ d ∧ d ∣ i from ⟨hd, hdi⟩)]; ring
              · simp only [if_neg (show ¬ (d ∣ i ∧ d < i ∧ i < n) from fun hc => hdi hc.1),
                  if_neg (show ¬ (1 ≤ d ∧ d ∣ i) from fun hc => hdi hc.2)]; ring
          · rw [if_neg hi, if_neg hi, if_neg]
            rintro ⟨c1, c2, c3⟩
            omega)
  refine ⟨h2, ?_, r2.congr (fun i _ => ?_)⟩
  · rw [division, r.rd (by omega), cdiv, if_neg hg, hig]
    simp only [Option.bind_eq_bind, Option.bind_some]
    rw [e1]
    exact e2
  · by_cases hi : 1 ≤ i ∧ i < n
    · rw [if_pos hi, if_pos hi, if_pos hi.2]
    · rw [if_neg hi, if_neg hi]

/-- **C52**: `dirichlet_division` fills the table with the `h` such that `h * g = f`, provided `1 / g(1)` is
an inverse of `g(1)`. -/
theorem C52_division [DecidableEq α] [Quo α] (lim n N : Nat) (h : List α) (g0 f g : Nat → α) (r : Rep h N g0) (hn : 1 ≤ n) (hN : n ≤ N)
    (hlim : 2 * n ≤ lim + 1) (hg : g 1 ≠ 0) (hinv : Quo.quo 1 (g 1) * g 1 = 1) :
    ∃ h' H, division lim h f g n = some h' ∧ Rep h' N H ∧ (∀ k, 1 ≤ k → k < n → conv H g k = f k) ∧
      ∀ i, i = 0 ∨ n ≤ i → H i = g0 i := by
  obtain ⟨h', e, r'⟩ := division_spec lim n N h g0 f g r hn hN hlim hg
  refine ⟨h', _, e, r', ?_, fun i hi => by rw [if_neg (by omega)]⟩
  intro k hk hkn
  rw [← conv_quotF f g _ hinv k hk, conv, conv]
  apply Finset.sum_congr rfl
  intro d hd
  have := Nat.divisor_le hd
  have := Nat.pos_of_mem_divisors hd
  rw [if_pos (by omega)]

/-- **C52**: and no other function satisfies this. -/
theorem C52_division_unique (H H' g : Nat → α) (n : Nat) (u : α) (hu : u * g 1 = 1)
    (h : ∀ k, 1 ≤ k → k < n → conv H g k = conv H' g k) : ∀ k, 1 ≤ k → k < n → H k = H' k := quot_unique H H' g n u hu h

/-- **C52**: `dirichlet_inverse` fills the table with the `h` such that `h * f` is the Dirichlet identity. -/
theorem C52_inverse [DecidableEq α] [Quo α] (lim n N : Nat) (h : List α) (g0 f : Nat → α) (r : Rep h N g0) (hn : 1 ≤ n) (hN : n ≤ N)
    (hlim : 2 * n ≤ lim + 1) (hf : f 1 ≠ 0) (hinv : Quo.quo 1 (f 1) * f 1 = 1) :
    ∃ h' H, inverse lim h f n = some h' ∧ Rep h' N H ∧ (∀ k, 1 ≤ k → k < n → conv H f k = if k = 1 then 1 else 0) ∧
      ∀ i, i = 0 ∨ n ≤ i → H i = g0 i := by
  obtain ⟨h', H, e, r', h1, h2⟩ := C52_division lim n N h g0 unit f r hn hN hlim hf hinv
  refine ⟨h', H, ?_, r', h1, h2⟩
  rw [inverse, r.rd (by omega)]
  exact e

/-- **C52**: `moebius_transform(g, f)`: the sum of `g` over the divisors is `f`. -/
theorem C52_moebius_transform [DecidableEq α] [Quo α] [Nontrivial α] (lim n N : Nat) (h : List α) (g0 f : Nat → α) (r : Rep h N g0)
    (hn : 1 ≤ n) (hN : n ≤ N) (hlim : 2 * n ≤ lim + 1) (hinv : Quo.quo 1 (1 : α) = 1) :
    ∃ h' G, moebiusTransform lim h f n = some h' ∧ Rep h' N G ∧ (∀ k, 1 ≤ k → k < n → ∑ d ∈ k.divisors, G d = f k) ∧
      ∀ i, i = 0 ∨ n ≤ i → G i = g0 i := by
  obtain ⟨h', H, e, r', h1, h2⟩ := C52_division lim n N h g0 f (fun _ => 1) r hn hN hlim one_ne_zero (by rw [hinv, mul_one])
  refine ⟨h', H, ?_, r', fun k hk hkn => ?_, h2⟩
  · rw [moebiusTransform, r.rd (by omega)]
    exact e
  · rw [← h1 k hk hkn, conv]
    simp

example : division 100 [7, 7, 7, 7, 7] (fun n => (n : Int)) (fun _ => 1) 5 = some [7, 1, 1, 2, 2] := by decide +kernel

end Altruct.Dirichlet
