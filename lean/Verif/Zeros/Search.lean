/-
`monotonic_search`: the result lies in the interval and is close to a solution.
-/
import Verif.Zeros.Model
import Mathlib.Order.Interval.Set.Basic
import Mathlib.Algebra.Order.Group.Abs
import Mathlib.Algebra.Order.Ring.Pow
import Mathlib.Tactic.Linarith
import Mathlib.Tactic.FieldSimp
import Mathlib.Tactic.Ring
import Mathlib.Tactic.NormNum

namespace Altruct.Zeros

open Set

variable {K : Type} [Field K] [LinearOrder K] [IsStrictOrderedRing K]

theorem mid_le {lo hi : K} (h : lo ≤ hi) : lo ≤ (lo + hi) / 2 ∧ (lo + hi) / 2 ≤ hi := by
  constructor
  · rw [le_div_iff₀ two_pos]; linarith
  · rw [div_le_iff₀ two_pos]; linarith

theorem bisect_mem (p : K → K) (s : Bool) (y epsy epsx : K) : ∀ (n : Nat) (lo hi mid : K), lo ≤ hi → mid ∈ Icc lo hi →
    bisect p s y epsy epsx n lo hi mid ∈ Icc lo hi := by
  intro n
  induction n with
  | zero => intro lo hi mid _ hm; exact hm
  | succ n ih =>
    intro lo hi mid h hm
    have hmid := mid_le h
    rw [bisect]
    by_cases h1 : epsx < hi - lo
    · rw [if_pos h1]
      dsimp only
      have u := ih ((lo + hi) / 2) hi ((lo + hi) / 2) hmid.2 ⟨le_refl _, hmid.2⟩
      have d := ih lo ((lo + hi) / 2) ((lo + hi) / 2) hmid.1 ⟨hmid.1, le_refl _⟩
      have u' := (⟨le_trans hmid.1 u.1, u.2⟩ : _ ∈ Icc lo hi)
      have d' := (⟨d.1, le_trans d.2 hmid.2⟩ : _ ∈ Icc lo hi)
      repeat' split
      all_goals assumption
    · rw [if_neg h1]; exact hm

theorem abs_le_width {lo hi x m : K} (hx : x ∈ Icc lo hi) (hm : m ∈ Icc lo hi) : |m - x| ≤ hi - lo := by
  rw [abs_le]; constructor <;> linarith [hx.1, hx.2, hm.1, hm.2]

theorem bisect_spec {p : K → K} {s : Bool} {y epsy epsx b e : K} (hup : s = true → MonotoneOn p (Icc b e)) (hdn : s = false → AntitoneOn p (Icc b e)) :
    ∀ (n : Nat) (lo hi mid : K), b ≤ lo → hi ≤ e → mid ∈ Icc lo hi → (∃ x ∈ Icc lo hi, p x = y) →
      |p (bisect p s y epsy epsx n lo hi mid)| ≤ epsy ∨
      ∃ x ∈ Icc lo hi, p x = y ∧ |bisect p s y epsy epsx n lo hi mid - x| ≤ max epsx ((hi - lo) / 2 ^ n) := by
  intro n
  induction n with
  | zero =>
    intro lo hi mid _ _ hm ⟨x, hx, hpx⟩
    right
    refine ⟨x, hx, hpx, le_max_of_le_right ?_⟩
    rw [bisect, pow_zero, div_one]
    exact abs_le_width hx hm
  | succ n ih =>
    intro lo hi mid hb he hm ⟨x, hx, hpx⟩
    have hle : lo ≤ hi := le_trans hx.1 hx.2
    have hmid := mid_le hle
    rw [bisect]
    by_cases h1 : epsx < hi - lo
    swap
    · rw [if_neg h1]
      right
      exact ⟨x, hx, hpx, le_max_of_le_left (le_trans (abs_le_width hx hm) (not_lt.mp h1))⟩
    rw [if_pos h1]
    dsimp only
    by_cases h2 : (lo + hi) / 2 = lo ∨ (lo + hi) / 2 = hi
    · rw [if_pos h2]
      have hw : hi = lo := by
        rcases h2 with h2 | h2
        · rw [div_eq_iff two_ne_zero] at h2; linarith
        · rw [div_eq_iff two_ne_zero] at h2; linarith
      right
      refine ⟨x, hx, hpx, le_max_of_le_right ?_⟩
      have hxe : x = lo := le_antisymm (hw ▸ hx.2) hx.1
      subst hxe
      rw [hw, show (x + x) / 2 = x by ring]
      simp
    rw [if_neg h2]
    by_cases h3 : -epsy ≤ p ((lo + hi) / 2) ∧ p ((lo + hi) / 2) ≤ epsy
    · rw [if_pos h3]
      exact Or.inl (abs_le.mpr h3)
    rw [if_neg h3]
    have hmb : (lo + hi) / 2 ∈ Icc b e := ⟨le_trans hb hmid.1, le_trans hmid.2 he⟩
    have hxb : x ∈ Icc b e := ⟨le_trans hb hx.1, le_trans hx.2 he⟩
    have hpow : ∀ w : K, w / 2 / 2 ^ n = w / 2 ^ (n + 1) := fun w => by rw [div_div, pow_succ, mul_comm]
    have w1 : hi - (lo + hi) / 2 = (hi - lo) / 2 := by ring
    have w2 : (lo + hi) / 2 - lo = (hi - lo) / 2 := by ring
    have up : (∃ x ∈ Icc ((lo + hi) / 2) hi, p x = y) → |p (bisect p s y epsy epsx n ((lo + hi) / 2) hi ((lo + hi) / 2))| ≤ epsy ∨
        ∃ x ∈ Icc lo hi, p x = y ∧ |bisect p s y epsy epsx n ((lo + hi) / 2) hi ((lo + hi) / 2) - x| ≤ max epsx ((hi - lo) / 2 ^ (n + 1)) := by
      intro hex
      rcases ih _ hi _ (le_trans hb hmid.1) he ⟨le_refl _, hmid.2⟩ hex with h | ⟨z, hz, h⟩
      · exact Or.inl h
      · rw [w1, hpow] at h
        exact Or.inr ⟨z, ⟨le_trans hmid.1 hz.1, hz.2⟩, h⟩
    have dn : (∃ x ∈ Icc lo ((lo + hi) / 2), p x = y) → |p (bisect p s y epsy epsx n lo ((lo + hi) / 2) ((lo + hi) / 2))| ≤ epsy ∨
        ∃ x ∈ Icc lo hi, p x = y ∧ |bisect p s y epsy epsx n lo ((lo + hi) / 2) ((lo + hi) / 2) - x| ≤ max epsx ((hi - lo) / 2 ^ (n + 1)) := by
      intro hex
      rcases ih lo _ _ hb (le_trans hmid.2 he) ⟨hmid.1, le_refl _⟩ hex with h | ⟨z, hz, h⟩
      · exact Or.inl h
      · rw [w2, hpow] at h
        exact Or.inr ⟨z, ⟨hz.1, le_trans hz.2 hmid.2⟩, h⟩
    cases s with
    | true =>
      have hmono := hup rfl
      by_cases h4 : p ((lo + hi) / 2) < y
      · rw [if_pos (by simpa using h4)]
        refine up ⟨x, ⟨?_, hx.2⟩, hpx⟩
        by_contra hc
        have := hmono hxb hmb (le_of_lt (not_le.mp hc))
        rw [hpx] at this
        exact absurd this (not_le.mpr h4)
      · rw [if_neg (by simpa using h4)]
        apply dn
        rcases eq_or_lt_of_le (not_lt.mp h4) with h5 | h5
        · exact ⟨_, ⟨hmid.1, le_refl _⟩, h5.symm⟩
        · refine ⟨x, ⟨hx.1, ?_⟩, hpx⟩
          by_contra hc
          have := hmono hmb hxb (le_of_lt (not_le.mp hc))
          rw [hpx] at this
          exact absurd this (not_le.mpr h5)
    | false =>
      have hanti := hdn rfl
      by_cases h4 : y < p ((lo + hi) / 2)
      · rw [if_pos (by simpa using h4)]
        refine up ⟨x, ⟨?_, hx.2⟩, hpx⟩
        by_contra hc
        have := hanti hxb hmb (le_of_lt (not_le.mp hc))
        rw [hpx] at this
        exact absurd this (not_le.mpr h4)
      · rw [if_neg (by simpa using h4)]
        apply dn
        rcases eq_or_lt_of_le (not_lt.mp h4) with h5 | h5
        · exact ⟨_, ⟨hmid.1, le_refl _⟩, h5⟩
        · refine ⟨x, ⟨hx.1, ?_⟩, hpx⟩
          by_contra hc
          have := hanti hmb hxb (le_of_lt (not_le.mp hc))
          rw [hpx] at this
          exact absurd this (not_le.mpr h5)

/-- **C117**: whatever the function, the result lies in the interval searched. -/
theorem C117_in_interval (p : K → K) (b e y epsy epsx : K) (iter : Nat) (h : b ≤ e) :
    monotonicSearch y epsy epsx iter p b e ∈ Icc b e := by
  rw [monotonicSearch]
  split_ifs
  · exact ⟨le_refl _, h⟩
  · exact ⟨h, le_refl _⟩
  · exact bisect_mem p _ y epsy epsx iter b e e h ⟨h, le_refl _⟩

/-- **C117**: on an interval where `p` is monotonic and takes the value `y`, the value of `p` at the result is
within `epsy` of 0, or the result is close to a solution of `p(x) = y`: within `epsx`, or within the length
of the interval halved `max_iter` times. -/
theorem C117_monotonic_search (p : K → K) (b e y epsy epsx : K) (iter : Nat) (hp : MonotoneOn p (Icc b e) ∨ AntitoneOn p (Icc b e))
    (hy : ∃ x ∈ Icc b e, p x = y) :
    |p (monotonicSearch y epsy epsx iter p b e)| ≤ epsy ∨
      ∃ x ∈ Icc b e, p x = y ∧ |monotonicSearch y epsy epsx iter p b e - x| ≤ max epsx ((e - b) / 2 ^ iter) := by
  obtain ⟨x, hx, hpx⟩ := hy
  have hbe : b ≤ e := le_trans hx.1 hx.2
  have hB : b ∈ Icc b e := ⟨le_refl _, hbe⟩
  have hE : e ∈ Icc b e := ⟨hbe, le_refl _⟩
  rw [monotonicSearch]
  by_cases h1 : -epsy ≤ p b ∧ p b ≤ epsy
  · rw [if_pos h1]; exact Or.inl (abs_le.mpr h1)
  rw [if_neg h1]
  by_cases h2 : -epsy ≤ p e ∧ p e ≤ epsy
  · rw [if_pos h2]; exact Or.inl (abs_le.mpr h2)
  rw [if_neg h2]
  refine bisect_spec ?_ ?_ iter b e e (le_refl _) (le_refl _) hE ⟨x, hx, hpx⟩
  · intro hs
    have hs' : p b ≤ p e := by simpa using hs
    rcases hp with hp | hp
    · exact hp
    · intro u hu v hv _
      have e1 := hp hB hu hu.1
      have e2 := hp hv hE hv.2
      have e3 := hp hB hE hbe
      have e4 := hp hu hE hu.2
      have e5 := hp hB hv hv.1
      linarith
  · intro hs
    have hs' : p e < p b := by simpa using hs
    rcases hp with hp | hp
    · exact absurd (hp hB hE hbe) (not_le.mpr hs')
    · exact hp

/-- **C117**: for `y = 0`, where the tolerance `epsy` applies to the value sought, the result is a solution
up to the tolerances. -/
theorem C117_zero (p : K → K) (b e epsy epsx : K) (iter : Nat) (hp : MonotoneOn p (Icc b e) ∨ AntitoneOn p (Icc b e))
    (hy : ∃ x ∈ Icc b e, p x = 0) :
    |p (monotonicSearch 0 epsy epsx iter p b e) - 0| ≤ epsy ∨
      ∃ x ∈ Icc b e, p x = 0 ∧ |monotonicSearch 0 epsy epsx iter p b e - x| ≤ max epsx ((e - b) / 2 ^ iter) := by
  rw [sub_zero]
  exact C117_monotonic_search p b e 0 epsy epsx iter hp hy

/-- **C117**: for any `y`, when `p` stays away from 0 on the interval, the result is close to a solution. -/
theorem C117_away_from_zero (p : K → K) (b e y epsy epsx : K) (iter : Nat) (hp : MonotoneOn p (Icc b e) ∨ AntitoneOn p (Icc b e))
    (hy : ∃ x ∈ Icc b e, p x = y) (haway : ∀ x ∈ Icc b e, epsy < |p x|) :
    ∃ x ∈ Icc b e, p x = y ∧ |monotonicSearch y epsy epsx iter p b e - x| ≤ max epsx ((e - b) / 2 ^ iter) := by
  rcases C117_monotonic_search p b e y epsy epsx iter hp hy with h | h
  · obtain ⟨x, hx, _⟩ := hy
    exact absurd h (not_le.mpr (haway _ (C117_in_interval p b e y epsy epsx iter (le_trans hx.1 hx.2))))
  · exact h

/-- **C117** (finding): the shortcuts compare `p` with 0 and not with `y`, so for `y ≠ 0` the search stops at
a zero of `p`: with `p(b) = 0` it always returns `b`, however far `p(b)` is from `y`. -/
theorem C117_stops_at_zero (p : K → K) (b e y epsy epsx : K) (iter : Nat) (h : p b = 0) (he : 0 ≤ epsy) :
    monotonicSearch y epsy epsx iter p b e = b := by
  rw [monotonicSearch, if_pos (by rw [h]; exact ⟨by linarith, he⟩)]

example : monotonicSearch (2 : Rat) 0 0 3 (fun x => x * x) 1 3 = 5 / 4 ∧ monotonicSearch (2 : Rat) 0 1 3 (fun x => x * x) 1 3 = 2 := by
  norm_num [monotonicSearch, bisect]
example : monotonicSearch (3 : Rat) 0 0 10 (fun x => x) 0 4 = 0 := C117_stops_at_zero _ _ _ _ _ _ _ rfl (le_refl _)
example : monotonicSearch (0 : Rat) 0 0 3 (fun x => 6 - 2 * x) (-5) 19 = 4 := by
  norm_num [monotonicSearch, bisect]
example : (∃ x ∈ Icc (1 : Rat) 3, (fun x : Rat => x * x) x = 4) ∧ (∀ x ∈ Icc (1 : Rat) 3, (0 : Rat) < |(fun x : Rat => x * x) x|) ∧
    MonotoneOn (fun x : Rat => x * x) (Icc 1 3) := by
  refine ⟨⟨2, ⟨by norm_num, by norm_num⟩, by norm_num⟩, fun x hx => ?_, fun x hx y hy h => ?_⟩
  · exact abs_pos.mpr (mul_ne_zero (by linarith [hx.1]) (by linarith [hx.1]))
  · exact mul_le_mul h h (by linarith [hx.1]) (by linarith [hy.1])

end Altruct.Zeros
