/-
The extended Euclid trajectory: signs and sizes of the cofactors.
-/
import Verif.Base.Props
import Verif.Modulo.Props

namespace Altruct.Modulo

open Altruct.Base

/-- Invariant of the `gcd_ex(a, b)` loop for `a, b >= 0`: the cofactors alternate in
sign, and their absolute values satisfy the continuant identities. -/
structure EInv (a b : Int) (s : GcdEx) (σ Xn Xo Yn Yo : Int) : Prop where
  g0 : 0 ≤ s.g
  h0 : 0 ≤ s.h
  sg : (s.i % 2 = 0 ∧ σ = 1) ∨ (s.i % 2 = 1 ∧ σ = -1)
  exn : s.xn = σ * Xn
  exo : s.xo = -σ * Xo
  eyn : s.yn = -σ * Yn
  eyo : s.yo = σ * Yo
  pXn : 0 ≤ Xn
  pXo : 0 ≤ Xo
  pYn : 0 ≤ Yn
  pYo : 0 ≤ Yo
  sx : s.g * Xo + s.h * Xn = b
  sy : s.g * Yo + s.h * Yn = a
  ord : (s.i = 0 ∧ Xn = 1 ∧ Xo = 0 ∧ Yn = 0 ∧ Yo = 1 ∧ s.h = b ∧ s.g = a) ∨
    (0 < s.i ∧ s.h < s.g ∧ Xn ≤ Xo ∧ 1 ≤ Xo ∧ (Yn ≤ Yo ∨ (s.i = 1 ∧ Yn = 1 ∧ Yo = 0 ∧ s.h = a)))

theorem EInv.init (a b : Int) (ha : 0 ≤ a) (hb : 0 ≤ b) :
    EInv a b { g := a, h := b, xo := 0, xn := 1, yo := 1, yn := 0, i := 0 } 1 1 0 0 1 := by
  constructor <;> simp <;> assumption

/-- One iteration of the loop with quotient `q`. -/
def nextQ (s : GcdEx) (q : Int) : GcdEx :=
  { g := s.h, h := s.g - q * s.h,
    xn := s.xo, xo := s.xn - q * s.xo,
    yn := s.yo, yo := s.yn - q * s.yo,
    i := s.i + 1 }

/-- One iteration of the loop. -/
def next (s : GcdEx) : GcdEx := nextQ s (s.g.tdiv s.h)

theorem EInv.next {a b : Int} {s : GcdEx} {σ Xn Xo Yn Yo : Int} (I : EInv a b s σ Xn Xo Yn Yo)
    (h : s.h ≠ 0) :
    0 ≤ s.g.tdiv s.h ∧ (0 < s.i → 1 ≤ s.g.tdiv s.h) ∧
    EInv a b (next s) (-σ) Xo (Xn + s.g.tdiv s.h * Xo) Yo (Yn + s.g.tdiv s.h * Yo) := by
  have hh : 0 < s.h := lt_of_le_of_ne I.h0 (Ne.symm h)
  have e : s.g.tdiv s.h = s.g / s.h := Int.tdiv_eq_ediv_of_nonneg I.g0
  have d1 := Int.mul_ediv_add_emod s.g s.h
  have d2 := Int.emod_nonneg s.g h
  have d3 := Int.emod_lt_of_pos s.g hh
  have hq : 0 ≤ s.g.tdiv s.h := by rw [e]; exact Int.ediv_nonneg I.g0 I.h0
  have hq1 : 0 < s.i → 1 ≤ s.g.tdiv s.h := by
    intro hi
    rcases I.ord with o | o
    · omega
    · rw [e]; exact (Int.le_ediv_iff_mul_le hh).mpr (by omega)
  refine ⟨hq, hq1, ?_⟩
  have em : s.g - s.g.tdiv s.h * s.h = s.g % s.h := by rw [e]; linarith [mul_comm s.h (s.g / s.h)]
  rw [Altruct.Modulo.next]
  generalize s.g.tdiv s.h = q at *
  constructor
  · exact I.h0
  · simp only [nextQ]; omega
  · have := I.sg
    simp only [nextQ]
    omega
  · simp [nextQ, I.exo]
  · simp only [nextQ, I.exn, I.exo]; ring
  · simp [nextQ, I.eyo]
  · simp only [nextQ, I.eyn, I.eyo]; ring
  · exact I.pXo
  · have := mul_nonneg hq I.pXo; have := I.pXn; omega
  · exact I.pYo
  · have := mul_nonneg hq I.pYo; have := I.pYn; omega
  · simp only [nextQ]; linarith [I.sx]
  · simp only [nextQ]; linarith [I.sy]
  · right
    simp only [nextQ]
    refine ⟨by omega, by omega, ?_⟩
    rcases I.ord with ⟨o1, o2, o3, o4, o5, o6, o7⟩ | ⟨o1, o2, o3, o4, o5⟩
    · subst o2 o3 o4 o5
      rw [mul_zero, mul_one, add_zero, zero_add]
      refine ⟨by omega, by omega, ?_⟩
      by_cases hq0 : q = 0
      · right; subst hq0; exact ⟨by omega, rfl, rfl, by rw [← o7]; simp⟩
      · left; omega
    · have hq1' := hq1 o1
      have a1 : 1 * Xo ≤ q * Xo := mul_le_mul_of_nonneg_right hq1' I.pXo
      have a2 : 1 * Yo ≤ q * Yo := mul_le_mul_of_nonneg_right hq1' I.pYo
      have := I.pXn
      have := I.pYn
      refine ⟨by omega, by omega, ?_⟩
      left
      omega

theorem next_h_lt (s : GcdEx) (h : s.h ≠ 0) : (next s).h.natAbs < s.h.natAbs :=
  tdiv_sub_natAbs_lt _ _ h

theorem gcdExLoop_next (s : GcdEx) (h : s.h ≠ 0) : gcdExLoop s = gcdExLoop (next s) := by
  rw [gcdExLoop, if_neg h]; rfl

/-- The final state of the loop satisfies the invariant, with `h = 0`. -/
theorem gcdExLoop_inv (a b : Int) (s : GcdEx) (σ Xn Xo Yn Yo : Int) (I : EInv a b s σ Xn Xo Yn Yo) :
    (gcdExLoop s).h = 0 ∧ ∃ σ Xn Xo Yn Yo, EInv a b (gcdExLoop s) σ Xn Xo Yn Yo := by
  by_cases h : s.h = 0
  · rw [gcdExLoop, if_pos h]; exact ⟨h, _, _, _, _, _, I⟩
  · rw [gcdExLoop_next s h]
    exact gcdExLoop_inv a b (next s) _ _ _ _ _ (I.next h).2.2
termination_by s.h.natAbs
decreasing_by exact next_h_lt s h

/-- Result of `gcd_ex(a, b)` for `a > 0`, `b >= 0`, with the correction that
`modulo_gcd_ex` applies (modulo.h:96-103), over exact integers. -/
theorem gcdEx_adj (a b : Int) (ha : 0 < a) (hb : 0 ≤ b) :
    let r := gcdEx a b
    let X := if r.2.2.2 % 2 = 1 ∧ r.2.1 ≠ 0 then r.2.1 + b else r.2.1
    let Y := if r.2.2.2 % 2 = 0 ∧ r.2.2.1 ≠ 0 then r.2.2.1 + a else r.2.2.1
    0 < r.1 ∧ r.1 = Int.gcd a b ∧ 0 ≤ Y ∧ Y ≤ a ∧ (0 < b → 0 ≤ X ∧ X ≤ b) ∧
    (∃ k, a * X + b * Y = r.1 + a * b * k) ∧
    r.2.1.natAbs ≤ max b 1 ∧ r.2.2.1.natAbs ≤ a := by
  have hbz := C03_gcd_ex_bezout a b
  have hg := C03_gcd_ex_eq_gcd a b ha.le hb
  rw [C03_gcd_nonneg a b ha.le hb] at hg
  obtain ⟨hz, σ, Xn, Xo, Yn, Yo, I⟩ := gcdExLoop_inv a b _ _ _ _ _ _ (EInv.init a b ha.le hb)
  have e1 : (gcdEx a b).1 = (gcdExLoop { g := a, h := b, xo := 0, xn := 1, yo := 1, yn := 0, i := 0 }).g := rfl
  have e2 : (gcdEx a b).2.1 = (gcdExLoop { g := a, h := b, xo := 0, xn := 1, yo := 1, yn := 0, i := 0 }).xn := rfl
  have e3 : (gcdEx a b).2.2.1 = (gcdExLoop { g := a, h := b, xo := 0, xn := 1, yo := 1, yn := 0, i := 0 }).yn := rfl
  have e4 : (gcdEx a b).2.2.2 = (gcdExLoop { g := a, h := b, xo := 0, xn := 1, yo := 1, yn := 0, i := 0 }).i := rfl
  generalize gcdExLoop { g := a, h := b, xo := 0, xn := 1, yo := 1, yn := 0, i := 0 } = s at *
  generalize gcdEx a b = r at *
  obtain ⟨g, x, y, i⟩ := r
  simp only at *
  subst e1 e2 e3 e4
  have gpos : 0 < s.g := by
    have hne : s.g ≠ 0 := by
      intro h0
      have h5 := I.sy
      rw [h0, hz] at h5
      simp at h5; omega
    exact lt_of_le_of_ne I.g0 (Ne.symm hne)
  have h1 := I.sx
  have h2 := I.sy
  rw [hz, zero_mul, add_zero] at h1 h2
  have hYo : Yo ≤ a := by nlinarith [I.pYo]
  have hXo : Xo ≤ b := by nlinarith [I.pXo]
  have hY : Yn ≤ Yo := by
    rcases I.ord with o | o <;> omega
  have hX : 0 < b → Xn ≤ Xo := by
    rcases I.ord with o | o <;> omega
  have hX1 : Xn ≤ max b 1 := by
    rcases I.ord with o | o <;> omega
  have p1 := I.pXn
  have p2 := I.pYn
  have k1 := I.exn
  have k2 := I.eyn
  refine ⟨gpos, hg, ?_⟩
  rcases I.sg with ⟨hp, hs⟩ | ⟨hp, hs⟩
  · subst hs
    rw [one_mul] at k1
    rw [show -1 * Yn = -Yn by ring] at k2
    rw [k1, k2]
    rw [k1, k2] at hbz
    simp only [hp, zero_ne_one, false_and, if_false, true_and]
    refine ⟨?_, ?_, by omega, ?_, by omega, by omega⟩
    · split <;> omega
    · split <;> omega
    · split
      · exact ⟨1, by rw [hbz]; ring⟩
      · exact ⟨0, by rw [hbz]; ring⟩
  · subst hs
    rw [show -(-1) * Yn = Yn by ring] at k2
    rw [show -1 * Xn = -Xn by ring] at k1
    rw [k1, k2]
    rw [k1, k2] at hbz
    simp only [hp, one_ne_zero, false_and, if_false, true_and]
    refine ⟨by omega, by omega, ?_, ?_, by omega, by omega⟩
    · intro hb'
      have := hX hb'
      split <;> omega
    · split
      · exact ⟨1, by rw [hbz]; ring⟩
      · exact ⟨0, by rw [hbz]; ring⟩

end Altruct.Modulo
