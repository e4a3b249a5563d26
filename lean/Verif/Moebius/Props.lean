/-
Property C68: arithmetic with a point at infinity and Moebius transformations.
-/
import Verif.Moebius.Model
import Mathlib.Algebra.Ring.Hom.Defs
import Mathlib.Algebra.Field.Rat
import Mathlib.Tactic.FieldSimp
import Mathlib.Tactic.LinearCombination
import Mathlib.Tactic.Ring

namespace Altruct.Moebius

variable {K : Type} [Field K] [DecidableEq K]

/-! ### the specification

The projective line over `K` is `Option K`; `none` is the point at infinity. -/

/-- The point an object stands for. -/
def WInf.pt (x : WInf K) : Option K := if x.isInf = 0 then some x.v else none

/-- The table in the documentation; the entries marked `?` are left out. -/
inductive AddTable : Option K → Option K → Option K → Prop
  | fin (x y : K) : AddTable (some x) (some y) (some (x + y))
  | infL (y : Option K) : AddTable none y none
  | infR (x : Option K) : AddTable x none none

inductive SubTable : Option K → Option K → Option K → Prop
  | fin (x y : K) : SubTable (some x) (some y) (some (x - y))
  | infL (y : K) : SubTable none (some y) none
  | infR (x : K) : SubTable (some x) none none

inductive MulTable : Option K → Option K → Option K → Prop
  | fin (x y : K) : MulTable (some x) (some y) (some (x * y))
  | infL (y : K) (h : y ≠ 0) : MulTable none (some y) none
  | infR (x : K) (h : x ≠ 0) : MulTable (some x) none none
  | inf : MulTable none none none

inductive DivTable : Option K → Option K → Option K → Prop
  | fin (x y : K) (h : y ≠ 0) : DivTable (some x) (some y) (some (x / y))
  | zero (x : K) (h : x ≠ 0) : DivTable (some x) (some 0) none
  | infL (y : K) : DivTable none (some y) none
  | infR (x : K) : DivTable (some x) none (some 0)

/-- The sum is as documented. -/
theorem C68_add (x y : WInf K) (r : Option K) (h : AddTable x.pt y.pt r) : (x.add y).pt = r := by
  rcases x with ⟨x, i⟩; rcases y with ⟨y, j⟩
  by_cases hi : i = 0 <;> by_cases hj : j = 0 <;> simp only [WInf.pt, hi, hj, if_true, if_false] at h <;>
    cases h <;> simp [WInf.add, WInf.pt, hi, hj]

/-- The difference is as documented. -/
theorem C68_sub (x y : WInf K) (r : Option K) (h : SubTable x.pt y.pt r) : (x.sub y).pt = r := by
  rcases x with ⟨x, i⟩; rcases y with ⟨y, j⟩
  by_cases hi : i = 0 <;> by_cases hj : j = 0 <;> simp only [WInf.pt, hi, hj, if_true, if_false] at h <;>
    cases h <;> simp [WInf.sub, WInf.pt, hi, hj]

/-- The product is as documented. -/
theorem C68_mul_inf (x y : WInf K) (r : Option K) (h : MulTable x.pt y.pt r) : (x.mul y).pt = r := by
  rcases x with ⟨x, i⟩; rcases y with ⟨y, j⟩
  by_cases hi : i = 0 <;> by_cases hj : j = 0 <;> simp only [WInf.pt, hi, hj, if_true, if_false] at h <;>
    cases h <;> simp [WInf.mul, WInf.pt, hi, hj]

/-- The quotient is as documented. -/
theorem C68_div_inf (x y : WInf K) (r : Option K) (h : DivTable x.pt y.pt r) : (x.div y).pt = r := by
  rcases x with ⟨x, i⟩; rcases y with ⟨y, j⟩
  by_cases hi : i = 0 <;> by_cases hj : j = 0 <;> by_cases hy : y = 0 <;> simp only [WInf.pt, hi, hj, hy, if_true, if_false] at h <;>
    cases h <;> simp_all [WInf.div, WInf.inverse, WInf.mul, WInf.pt, ofVal, div_eq_mul_inv]

/-- Unary minus loses the point at infinity. -/
theorem C68_neg_infinity (x : WInf K) : x.neg.pt = some (-x.v) := rfl

/-- Two representations of infinity need not be equal: `1/0 == 2/0` is false. -/
theorem C68_infinities_differ : ∃ x y : WInf ℚ, x = (ofVal 1).div (ofVal 0) ∧ y = (ofVal 2).div (ofVal 0) ∧ x.pt = none ∧ y.pt = none ∧ x.eq y = false :=
  ⟨_, _, rfl, rfl, by decide +kernel, by decide +kernel, by decide +kernel⟩

/-! ### transformations -/

/-- The map `z ↦ (a z + b) / (c z + d)` of the projective line. -/
def moebius (a b c d : K) : Option K → Option K
  | none => if c = 0 then none else some (a / c)
  | some z => if c * z + d = 0 then none else some ((a * z + b) / (c * z + d))

/-- A non-degenerate transformation with finite coefficients. -/
structure Tr.Proper (f : Tr K) : Prop where
  fa : f.a.isInf = 0
  fb : f.b.isInf = 0
  fc : f.c.isInf = 0
  fd : f.d.isInf = 0
  det : f.a.v * f.d.v - f.b.v * f.c.v ≠ 0
  sign : f.s = 1 ∨ f.s = -1

/-- The map the documentation gives to a transformation: `s = -1` conjugates the argument. -/
def Tr.map (σ : K → K) (f : Tr K) (z : Option K) : Option K :=
  if f.s < 0 then moebius f.a.v f.b.v f.c.v f.d.v (z.map σ) else moebius f.a.v f.b.v f.c.v f.d.v z

theorem fin_eq (x : WInf K) (h : x.isInf = 0) : x = ofVal x.v := by cases x; subst h; rfl

theorem add_fin (x y : K) : (ofVal x).add (ofVal y) = ofVal (x + y) := rfl
theorem sub_fin (x y : K) : (ofVal x).sub (ofVal y) = ofVal (x - y) := rfl
theorem mul_fin (x y : K) : (ofVal x).mul (ofVal y) = ofVal (x * y) := rfl
theorem neg_fin (x : K) : (ofVal x).neg = ofVal (-x) := rfl
theorem conj_fin (σ : K → K) (x : K) : (ofVal x).conj σ = ofVal (σ x) := rfl
theorem pt_fin (x : K) : (ofVal x).pt = some x := rfl

theorem div_pt (x y : K) (h : y ≠ 0 ∨ x ≠ 0) : ((ofVal x).div (ofVal y)).pt = if y = 0 then none else some (x / y) := by
  by_cases hy : y = 0
  · subst hy
    simp [WInf.div, WInf.inverse, WInf.mul, WInf.pt, ofVal]
  · simp [WInf.div, WInf.inverse, WInf.mul, WInf.pt, ofVal, hy, div_eq_mul_inv]

theorem invert_fin (x : K) (h : x ≠ 0) : invert (ofVal x) = ofVal x⁻¹ := by
  simp [invert, one, WInf.div, WInf.inverse, WInf.mul, ofVal, h]

/-- Evaluation gives the documented map, at every point including infinity. -/
theorem C68_eval (σ : K →+* K) (f : Tr K) (hf : f.Proper) (z : WInf K) : (f.eval σ z).pt = f.map σ z.pt := by
  obtain ⟨a, b, c, d, s⟩ := f
  obtain ⟨fa, fb, fc, fd, det, -⟩ := hf
  simp only at fa fb fc fd det
  obtain ⟨a, rfl⟩ : ∃ v, a = ofVal v := ⟨_, fin_eq a fa⟩
  obtain ⟨b, rfl⟩ : ∃ v, b = ofVal v := ⟨_, fin_eq b fb⟩
  obtain ⟨c, rfl⟩ : ∃ v, c = ofVal v := ⟨_, fin_eq c fc⟩
  obtain ⟨d, rfl⟩ : ∃ v, d = ofVal v := ⟨_, fin_eq d fd⟩
  simp only [ofVal] at det
  have hfin : ∀ w : K, c * w + d ≠ 0 ∨ a * w + b ≠ 0 := by
    intro w
    by_contra hc
    push Not at hc
    apply det
    linear_combination a * hc.1 - c * hc.2
  by_cases hz : z.isInf = 0
  · obtain ⟨z, rfl⟩ : ∃ v, z = ofVal v := ⟨_, fin_eq z hz⟩
    have e : (ofVal z).isInfinity = false := by simp [WInf.isInfinity, ofVal]
    simp only [Tr.eval, e, Tr.adapt, Tr.map, pt_fin, Bool.false_eq_true, if_false]
    by_cases hs : s < 0
    · simp only [hs, if_true, conj_fin, mul_fin, add_fin]
      rw [div_pt _ _ (hfin _)]
      rfl
    · simp only [hs, if_false, mul_fin, add_fin]
      rw [div_pt _ _ (hfin _)]
      rfl
  · have e : z.isInfinity = true := by simp [WInf.isInfinity, hz]
    have e2 : z.pt = none := by simp [WInf.pt, hz]
    have hac : c ≠ 0 ∨ a ≠ 0 := by
      by_contra hc
      push Not at hc
      apply det
      rw [hc.1, hc.2]; ring
    simp only [Tr.eval, e, if_true, Tr.map, e2, Option.map_none, ite_self]
    rw [div_pt _ _ hac]
    rfl

omit [DecidableEq K] in
theorem map_ne (σ : K →+* K) (x : K) : σ x = 0 ↔ x = 0 := by
  exact map_eq_zero σ

/-- Composition of the maps of the projective line. -/
theorem moebius_comp (a b c d a' b' c' d' : K) (h : a * d - b * c ≠ 0) (h' : a' * d' - b' * c' ≠ 0) (z : Option K) :
    moebius (a * a' + b * c') (a * b' + b * d') (c * a' + d * c') (c * b' + d * d') z = moebius a b c d (moebius a' b' c' d' z) := by
  have key : ∀ u v : K, (u ≠ 0 ∨ v ≠ 0) →
      (if c * u + d * v = 0 then none else some ((a * u + b * v) / (c * u + d * v))) =
        moebius a b c d (if v = 0 then none else some (u / v)) := by
    intro u v huv
    by_cases hv : v = 0
    · subst hv
      have hu : u ≠ 0 := huv.resolve_right (fun h => h rfl)
      simp only [mul_zero, add_zero, if_true, moebius, mul_eq_zero, hu, or_false]
      by_cases hc : c = 0
      · simp [hc]
      · simp only [hc, if_false]
        congr 1
        field_simp
    · simp only [hv, if_false, moebius]
      have e : c * (u / v) + d = (c * u + d * v) / v := by field_simp
      have e2 : a * (u / v) + b = (a * u + b * v) / v := by field_simp
      rw [e, e2]
      by_cases hc : c * u + d * v = 0
      · simp [hc]
      · have : (c * u + d * v) / v ≠ 0 := div_ne_zero hc hv
        simp only [hc, this, if_false]
        congr 1
        field_simp
  cases z with
  | none =>
    have hac : a' ≠ 0 ∨ c' ≠ 0 := by
      by_contra hc
      push Not at hc
      apply h'
      rw [hc.1, hc.2]; ring
    exact key a' c' hac
  | some z =>
    have huv : a' * z + b' ≠ 0 ∨ c' * z + d' ≠ 0 := by
      by_contra hc
      push Not at hc
      apply h'
      linear_combination a' * hc.2 - c' * hc.1
    have := key (a' * z + b') (c' * z + d') huv
    simp only [moebius] at this ⊢
    rw [← this]
    have e1 : (c * a' + d * c') * z + (c * b' + d * d') = c * (a' * z + b') + d * (c' * z + d') := by ring
    have e2 : (a * a' + b * c') * z + (a * b' + b * d') = a * (a' * z + b') + b * (c' * z + d') := by ring
    rw [e1, e2]

theorem moebius_conj (σ : K →+* K) (a b c d : K) (z : Option K) :
    (moebius a b c d z).map σ = moebius (σ a) (σ b) (σ c) (σ d) (z.map σ) := by
  cases z with
  | none =>
    simp only [moebius, Option.map_none, map_eq_zero]
    split_ifs <;> simp
  | some z =>
    have e : σ c * σ z + σ d = σ (c * z + d) := by simp
    simp only [moebius, Option.map_some, e, map_eq_zero]
    split_ifs <;> simp

/-- The product of two transformations is a proper transformation and its map is the composition: `(f * g)(z) = f(g(z))`. -/
theorem C68_compose (σ : K →+* K) (hσ : ∀ x, σ (σ x) = x) (f g : Tr K) (hf : f.Proper) (hg : g.Proper) :
    (f.mul σ g).Proper ∧ ∀ z, ((f.mul σ g).eval σ z).pt = (f.eval σ (g.eval σ z)).pt := by
  have hp : (f.mul σ g).Proper ∧ ∀ z, (f.mul σ g).map σ z = f.map σ (g.map σ z) := by
    obtain ⟨a, b, c, d, s⟩ := f
    obtain ⟨fa, fb, fc, fd, det, hs⟩ := hf
    simp only at fa fb fc fd det hs
    obtain ⟨a, rfl⟩ : ∃ v, a = ofVal v := ⟨_, fin_eq a fa⟩
    obtain ⟨b, rfl⟩ : ∃ v, b = ofVal v := ⟨_, fin_eq b fb⟩
    obtain ⟨c, rfl⟩ : ∃ v, c = ofVal v := ⟨_, fin_eq c fc⟩
    obtain ⟨d, rfl⟩ : ∃ v, d = ofVal v := ⟨_, fin_eq d fd⟩
    obtain ⟨a', b', c', d', s'⟩ := g
    obtain ⟨ga, gb, gc, gd, det', hs'⟩ := hg
    simp only at ga gb gc gd det' hs'
    obtain ⟨a', rfl⟩ : ∃ v, a' = ofVal v := ⟨_, fin_eq a' ga⟩
    obtain ⟨b', rfl⟩ : ∃ v, b' = ofVal v := ⟨_, fin_eq b' gb⟩
    obtain ⟨c', rfl⟩ : ∃ v, c' = ofVal v := ⟨_, fin_eq c' gc⟩
    obtain ⟨d', rfl⟩ : ∃ v, d' = ofVal v := ⟨_, fin_eq d' gd⟩
    simp only [ofVal] at det det'
    have detc : σ a' * σ d' - σ b' * σ c' ≠ 0 := by
      rw [← map_mul, ← map_mul, ← map_sub, Ne, map_eq_zero]; exact det'
    have prod : ∀ a' b' c' d' : K, a' * d' - b' * c' ≠ 0 →
        (a * a' + b * c') * (c * b' + d * d') - (a * b' + b * d') * (c * a' + d * c') ≠ 0 := by
      intro a' b' c' d' h
      have e : (a * a' + b * c') * (c * b' + d * d') - (a * b' + b * d') * (c * a' + d * c') = (a * d - b * c) * (a' * d' - b' * c') := by ring
      rw [e]
      exact mul_ne_zero det h
    have hzz : ∀ z : Option K, (z.map σ).map σ = z := by
      intro z
      cases z with
      | none => rfl
      | some z => simp [hσ]
    rcases hs with rfl | rfl <;> rcases hs' with rfl | rfl
    · refine ⟨⟨rfl, rfl, rfl, rfl, prod _ _ _ _ det', Or.inl rfl⟩, fun z => ?_⟩
      simp only [Tr.map, Tr.mul, Tr.adapt]
      exact moebius_comp a b c d a' b' c' d' det det' z
    · refine ⟨⟨rfl, rfl, rfl, rfl, prod _ _ _ _ det', Or.inr rfl⟩, fun z => ?_⟩
      simp only [Tr.map, Tr.mul, Tr.adapt]
      exact moebius_comp a b c d a' b' c' d' det det' _
    · refine ⟨⟨rfl, rfl, rfl, rfl, prod _ _ _ _ detc, Or.inr rfl⟩, fun z => ?_⟩
      have := moebius_comp a b c d (σ a') (σ b') (σ c') (σ d') det detc (z.map σ)
      rw [← moebius_conj] at this
      exact this
    · refine ⟨⟨rfl, rfl, rfl, rfl, prod _ _ _ _ detc, Or.inl rfl⟩, fun z => ?_⟩
      have := moebius_comp a b c d (σ a') (σ b') (σ c') (σ d') det detc ((z.map σ).map σ)
      rw [← moebius_conj, hzz] at this
      exact this
  refine ⟨hp.1, fun z => ?_⟩
  rw [C68_eval σ _ hp.1, C68_eval σ f hf, C68_eval σ g hg, hp.2]

theorem moebius_scale (k a b c d : K) (hk : k ≠ 0) (z : Option K) :
    moebius (a * k) (b * k) (c * k) (d * k) z = moebius a b c d z := by
  cases z with
  | none =>
    simp only [moebius, mul_eq_zero, hk, or_false]
    split_ifs
    · rfl
    · congr 1; field_simp
  | some z =>
    have e : c * k * z + d * k = (c * z + d) * k := by ring
    simp only [moebius, e, mul_eq_zero, hk, or_false]
    split_ifs
    · rfl
    · congr 1
      rw [show a * k * z + b * k = (a * z + b) * k by ring]
      field_simp

theorem moebius_one (z : Option K) : moebius 1 0 0 1 z = z := by
  cases z <;> simp [moebius]

theorem moebius_scalar (k : K) (hk : k ≠ 0) (z : Option K) : moebius k 0 0 k z = z := by
  have := moebius_scale k 1 0 0 1 hk z
  rw [one_mul, zero_mul] at this
  rw [this, moebius_one]

theorem moebius_neg_inv (a b c d w : K) (hw : w ≠ 0) (det : a * d - b * c ≠ 0) (z : Option K) :
    moebius (d * w) (-b * w) (-c * w) (a * w) (moebius a b c d z) = z ∧ moebius a b c d (moebius (d * w) (-b * w) (-c * w) (a * w) z) = z := by
  have det' : d * w * (a * w) - -b * w * (-c * w) ≠ 0 := by
    have : d * w * (a * w) - -b * w * (-c * w) = (a * d - b * c) * (w * w) := by ring
    rw [this]
    exact mul_ne_zero det (mul_ne_zero hw hw)
  have hk : (a * d - b * c) * w ≠ 0 := mul_ne_zero det hw
  constructor
  · rw [← moebius_comp _ _ _ _ _ _ _ _ det' det]
    have := moebius_scalar _ hk z
    convert this using 1
    congr 1 <;> ring
  · rw [← moebius_comp _ _ _ _ _ _ _ _ det det']
    have := moebius_scalar _ hk z
    convert this using 1
    congr 1 <;> ring

/-- The inverse of a transformation is proper and undoes it, on both sides. -/
theorem C68_inverse (σ : K →+* K) (hσ : ∀ x, σ (σ x) = x) (f : Tr K) (hf : f.Proper) :
    (f.inverse σ).Proper ∧ ∀ z, ((f.inverse σ).eval σ (f.eval σ z)).pt = z.pt ∧ (f.eval σ ((f.inverse σ).eval σ z)).pt = z.pt := by
  have hp : (f.inverse σ).Proper ∧ ∀ z, (f.inverse σ).map σ (f.map σ z) = z ∧ f.map σ ((f.inverse σ).map σ z) = z := by
    obtain ⟨a, b, c, d, s⟩ := f
    obtain ⟨fa, fb, fc, fd, det, hs⟩ := hf
    simp only at fa fb fc fd det hs
    obtain ⟨a, rfl⟩ : ∃ v, a = ofVal v := ⟨_, fin_eq a fa⟩
    obtain ⟨b, rfl⟩ : ∃ v, b = ofVal v := ⟨_, fin_eq b fb⟩
    obtain ⟨c, rfl⟩ : ∃ v, c = ofVal v := ⟨_, fin_eq c fc⟩
    obtain ⟨d, rfl⟩ : ∃ v, d = ofVal v := ⟨_, fin_eq d fd⟩
    simp only [ofVal] at det
    have hw : (a * d - b * c)⁻¹ ≠ 0 := inv_ne_zero det
    have einv : invert (((ofVal a).mul (ofVal d)).sub ((ofVal b).mul (ofVal c))) = ofVal (a * d - b * c)⁻¹ := by
      rw [mul_fin, mul_fin, sub_fin, invert_fin _ det]
    have prod : ∀ a b c d w : K, w ≠ 0 → a * d - b * c ≠ 0 → d * w * (a * w) - -b * w * (-c * w) ≠ 0 := by
      intro a b c d w hw det
      have : d * w * (a * w) - -b * w * (-c * w) = (a * d - b * c) * (w * w) := by ring
      rw [this]
      exact mul_ne_zero det (mul_ne_zero hw hw)
    have detc : σ a * σ d - σ b * σ c ≠ 0 := by
      rw [← map_mul, ← map_mul, ← map_sub, Ne, map_eq_zero]; exact det
    have hzz : ∀ z : Option K, (z.map σ).map σ = z := by
      intro z
      cases z with
      | none => rfl
      | some z => simp [hσ]
    rcases hs with rfl | rfl
    · have e : Tr.inverse σ ⟨ofVal a, ofVal b, ofVal c, ofVal d, 1⟩ =
          ⟨ofVal (d * (a * d - b * c)⁻¹), ofVal (-b * (a * d - b * c)⁻¹), ofVal (-c * (a * d - b * c)⁻¹), ofVal (a * (a * d - b * c)⁻¹), 1⟩ := by
        simp only [Tr.inverse, einv]; rfl
      rw [e]
      refine ⟨⟨rfl, rfl, rfl, rfl, prod _ _ _ _ _ hw det, Or.inl rfl⟩, fun z => ?_⟩
      exact moebius_neg_inv a b c d _ hw det z
    · have e : Tr.inverse σ ⟨ofVal a, ofVal b, ofVal c, ofVal d, -1⟩ =
          ⟨ofVal (σ d * (a * d - b * c)⁻¹), ofVal (-σ b * (a * d - b * c)⁻¹), ofVal (-σ c * (a * d - b * c)⁻¹), ofVal (σ a * (a * d - b * c)⁻¹), -1⟩ := by
        simp only [Tr.inverse, einv]; rfl
      rw [e]
      refine ⟨⟨rfl, rfl, rfl, rfl, prod _ _ _ _ _ hw detc, Or.inr rfl⟩, fun z => ?_⟩
      generalize hwv : (a * d - b * c)⁻¹ = w at hw
      have hσw : σ w ≠ 0 := by rw [Ne, map_eq_zero]; exact hw
      constructor
      · show moebius (σ d * w) (-σ b * w) (-σ c * w) (σ a * w) ((moebius a b c d (z.map σ)).map σ) = z
        rw [moebius_conj, hzz]
        exact (moebius_neg_inv (σ a) (σ b) (σ c) (σ d) w hw detc z).1
      · show moebius a b c d ((moebius (σ d * w) (-σ b * w) (-σ c * w) (σ a * w) (z.map σ)).map σ) = z
        rw [moebius_conj, hzz]
        simp only [map_mul, map_neg, hσ]
        exact (moebius_neg_inv a b c d (σ w) hσw det z).2
  refine ⟨hp.1, fun z => ?_⟩
  rw [C68_eval σ _ hp.1, C68_eval σ f hf, C68_eval σ f hf, C68_eval σ _ hp.1]
  exact hp.2 z.pt

/-- The quotient is the composition with the inverse: `((f / g) * g)(z) = f(z)`. -/
theorem C68_quotient (σ : K →+* K) (hσ : ∀ x, σ (σ x) = x) (f g : Tr K) (hf : f.Proper) (hg : g.Proper) :
    (f.div σ g).Proper ∧ ∀ z, ((f.div σ g).eval σ (g.eval σ z)).pt = (f.eval σ z).pt := by
  obtain ⟨h1, h2⟩ := C68_inverse σ hσ g hg
  obtain ⟨h3, h4⟩ := C68_compose σ hσ f _ hf h1
  refine ⟨h3, fun z => ?_⟩
  rw [Tr.div, h4, C68_eval σ f hf, (h2 z).1, C68_eval σ f hf]

theorem scale_eq (f : Tr K) (hf : f.Proper) : ∃ k : K, k ≠ 0 ∧
    f.normalize = ⟨ofVal (f.a.v * k), ofVal (f.b.v * k), ofVal (f.c.v * k), ofVal (f.d.v * k), f.s⟩ ∧
    ((f.a.v ≠ 0 ∧ k = f.a.v⁻¹) ∨ (f.a.v = 0 ∧ k = f.b.v⁻¹)) := by
  obtain ⟨a, b, c, d, s⟩ := f
  obtain ⟨fa, fb, fc, fd, det, hs⟩ := hf
  simp only at fa fb fc fd det hs
  obtain ⟨a, rfl⟩ : ∃ v, a = ofVal v := ⟨_, fin_eq a fa⟩
  obtain ⟨b, rfl⟩ : ∃ v, b = ofVal v := ⟨_, fin_eq b fb⟩
  obtain ⟨c, rfl⟩ : ∃ v, c = ofVal v := ⟨_, fin_eq c fc⟩
  obtain ⟨d, rfl⟩ : ∃ v, d = ofVal v := ⟨_, fin_eq d fd⟩
  simp only [ofVal] at det
  have eqz : ∀ x : K, (ofVal x).eq zero = decide (x = 0) := by
    intro x; rw [Bool.eq_iff_iff]; simp [WInf.eq, zero, ofVal]; exact decide_eq_true_iff
  by_cases ha : a = 0
  · have hb : b ≠ 0 := by rintro rfl; apply det; rw [ha]; ring
    refine ⟨b⁻¹, inv_ne_zero hb, ?_, Or.inr ⟨ha, rfl⟩⟩
    simp only [Tr.normalize, eqz, ha, hb, decide_true, decide_false, Bool.not_true, Bool.not_false, if_true, Bool.false_eq_true, if_false,
      invert_fin _ hb, mul_fin]
    simp [ofVal, one, hb]
  · refine ⟨a⁻¹, inv_ne_zero ha, ?_, Or.inl ⟨ha, rfl⟩⟩
    simp only [Tr.normalize, eqz, ha, decide_false, Bool.not_false, if_true, invert_fin _ ha, mul_fin]
    simp [ofVal, one, ha]

/-- Normalising keeps the map. -/
theorem C68_normalize (σ : K →+* K) (f : Tr K) (hf : f.Proper) :
    f.normalize.Proper ∧ ∀ z, (f.normalize.eval σ z).pt = (f.eval σ z).pt := by
  obtain ⟨k, hk, e, -⟩ := scale_eq f hf
  have hp : f.normalize.Proper := by
    rw [e]
    refine ⟨rfl, rfl, rfl, rfl, ?_, hf.sign⟩
    have : f.a.v * k * (f.d.v * k) - f.b.v * k * (f.c.v * k) = (f.a.v * f.d.v - f.b.v * f.c.v) * (k * k) := by ring
    show f.a.v * k * (f.d.v * k) - f.b.v * k * (f.c.v * k) ≠ 0
    rw [this]
    exact mul_ne_zero hf.det (mul_ne_zero hk hk)
  refine ⟨hp, fun z => ?_⟩
  rw [C68_eval σ _ hp, C68_eval σ f hf, e]
  have := moebius_scale k f.a.v f.b.v f.c.v f.d.v hk
  simp only [Tr.map, ofVal]
  split_ifs
  · exact this _
  · exact this _

/-- Equal values in the projective line. -/
theorem frac_eq (x y x' y' : K) (h : x ≠ 0 ∨ y ≠ 0) (h' : x' ≠ 0 ∨ y' ≠ 0)
    (e : (if y = 0 then none else some (x / y)) = (if y' = 0 then none else some (x' / y'))) : x * y' = x' * y := by
  by_cases hy : y = 0 <;> by_cases hy' : y' = 0
  · rw [hy, hy', mul_zero, mul_zero]
  · simp [hy, hy'] at e
  · simp [hy, hy'] at e
  · simp only [hy, hy', if_false, Option.some.injEq] at e
    rw [div_eq_div_iff hy hy'] at e
    exact e

/-- Transformations with the same sign and the same map normalise to the same coefficients: `normalize` is a canonical form. -/
theorem C68_normalize_canonical (σ : K →+* K) (f g : Tr K) (hf : f.Proper) (hg : g.Proper) (hs : f.s = g.s)
    (h : ∀ z, (f.eval σ z).pt = (g.eval σ z).pt) : f.normalize = g.normalize := by
  have hm : ∀ z : Option K, f.map σ z = g.map σ z := by
    intro z
    cases z with
    | none =>
      have := h ⟨0, 1⟩
      rw [C68_eval σ f hf, C68_eval σ g hg] at this
      exact this
    | some z =>
      have := h (ofVal z)
      rw [C68_eval σ f hf, C68_eval σ g hg] at this
      exact this
  obtain ⟨k, hk, e, c1⟩ := scale_eq f hf
  obtain ⟨k', hk', e', c2⟩ := scale_eq g hg
  obtain ⟨hi, h0, h1⟩ : (∀ z ∈ ([none, some 0, some 1] : List (Option K)), moebius f.a.v f.b.v f.c.v f.d.v z = moebius g.a.v g.b.v g.c.v g.d.v z) ∧ True ∧ True := by
    refine ⟨fun z hz => ?_, trivial, trivial⟩
    have hfix : z.map σ = z := by
      simp only [List.mem_cons, List.not_mem_nil, or_false] at hz
      rcases hz with rfl | rfl | rfl <;> simp
    have := hm z
    simp only [Tr.map, hs, hfix, ite_self] at this
    exact this
  have det := hf.det
  have det' := hg.det
  have m1 := hi none (by simp)
  have m2 := hi (some 0) (by simp)
  have m3 := hi (some 1) (by simp)
  rw [e, e', hs]
  generalize f.a.v = a at *
  generalize f.b.v = b at *
  generalize f.c.v = c at *
  generalize f.d.v = d at *
  generalize g.a.v = a' at *
  generalize g.b.v = b' at *
  generalize g.c.v = c' at *
  generalize g.d.v = d' at *
  have nz : ∀ a b c d : K, a * d - b * c ≠ 0 → ∀ u v, (u ≠ 0 ∨ v ≠ 0) → a * u + b * v ≠ 0 ∨ c * u + d * v ≠ 0 := by
    intro a b c d det u v huv
    by_contra hc
    push Not at hc
    have hu : (a * d - b * c) * u = 0 := by linear_combination d * hc.1 - b * hc.2
    have hv : (a * d - b * c) * v = 0 := by linear_combination a * hc.2 - c * hc.1
    rcases huv with h | h
    · exact (mul_ne_zero det h) hu
    · exact (mul_ne_zero det h) hv
  simp only [moebius, mul_zero, zero_add, mul_one] at m1 m2 m3
  have q1 : a * c' = a' * c := frac_eq _ _ _ _ (by simpa using nz a b c d det 1 0 (by simp)) (by simpa using nz a' b' c' d' det' 1 0 (by simp)) m1
  have q2 : b * d' = b' * d := frac_eq _ _ _ _ (by simpa using nz a b c d det 0 1 (by simp)) (by simpa using nz a' b' c' d' det' 0 1 (by simp)) m2
  have q3 : (a + b) * (c' + d') = (a' + b') * (c + d) :=
    frac_eq _ _ _ _ (by simpa using nz a b c d det 1 1 (by simp)) (by simpa using nz a' b' c' d' det' 1 1 (by simp)) m3
  -- the coefficients are proportional
  have pa : a * (a' * d' - b' * c') = a' * (a * d' - b' * c) := by linear_combination (-b') * q1
  have pb : b * (a' * d' - b' * c') = b' * (a * d' - b' * c) := by linear_combination a' * q2 + b' * (q1 + q2 - q3)
  have pc : c * (a' * d' - b' * c') = c' * (a * d' - b' * c) := by linear_combination (-d') * q1
  have pd : d * (a' * d' - b' * c') = d' * (a * d' - b' * c) := by linear_combination c' * q2 + d' * (q1 + q2 - q3)
  have hp : a * d' - b' * c ≠ 0 := by
    intro hz
    rw [hz, mul_zero] at pa pb
    have ha := (mul_eq_zero.mp pa).resolve_right det'
    have hb := (mul_eq_zero.mp pb).resolve_right det'
    apply det
    rw [ha, hb]; ring
  generalize a * d' - b' * c = p at *
  generalize hD : a' * d' - b' * c' = D at *
  have za : a = 0 ↔ a' = 0 := by
    constructor
    · intro hz; rw [hz, zero_mul] at pa; exact (mul_eq_zero.mp pa.symm).resolve_right hp
    · intro hz; rw [hz, zero_mul] at pa; exact (mul_eq_zero.mp pa).resolve_right det'
  have hkk : k * p = k' * D := by
    rcases c1 with ⟨ha, rfl⟩ | ⟨ha, rfl⟩ <;> rcases c2 with ⟨ha', rfl⟩ | ⟨ha', rfl⟩
    · field_simp
      linear_combination (-1 : K) * pa
    · exact absurd (za.mpr ha') ha
    · exact absurd (za.mp ha) ha'
    · have hb : b ≠ 0 := by rintro rfl; simp at hk
      have hb' : b' ≠ 0 := by rintro rfl; simp at hk'
      field_simp
      linear_combination (-1 : K) * pb
  have fin : ∀ x x' : K, x * D = x' * p → x * k = x' * k' := by
    intro x x' hx
    apply mul_right_cancel₀ (mul_ne_zero hp det')
    linear_combination x * D * hkk + k' * D * hx
  rw [fin a a' pa, fin b b' pb, fin c c' pc, fin d d' pd]

/-- The named transformations do what they say. -/
theorem C68_generators (σ : K →+* K) (w z : K) :
    ((scaling (ofVal z)).eval σ (ofVal w)).pt = some (z * w) ∧
    ((translation (ofVal z)).eval σ (ofVal w)).pt = some (w + z) ∧
    (flipX.eval σ (ofVal w)).pt = some (-σ w) ∧
    (flipY.eval σ (ofVal w)).pt = some (σ w) ∧
    (inversion.eval σ (ofVal w)).pt = (if w = 0 then none else some (1 / σ w)) ∧
    ((identity : Tr K).eval σ (ofVal w)).pt = some w := by
  refine ⟨?_, ?_, ?_, ?_, ?_, ?_⟩
  · simp [Tr.eval, scaling, one, zero, WInf.isInfinity, Tr.adapt, WInf.mul, WInf.add, WInf.div, WInf.inverse, WInf.pt, ofVal]
  · simp [Tr.eval, translation, one, zero, WInf.isInfinity, Tr.adapt, WInf.mul, WInf.add, WInf.div, WInf.inverse, WInf.pt, ofVal]
  · simp [Tr.eval, flipX, one, zero, WInf.isInfinity, Tr.adapt, WInf.mul, WInf.add, WInf.div, WInf.inverse, WInf.pt, WInf.neg, WInf.conj, ofVal]
  · simp [Tr.eval, flipY, one, zero, WInf.isInfinity, Tr.adapt, WInf.mul, WInf.add, WInf.div, WInf.inverse, WInf.pt, WInf.conj, ofVal]
  · by_cases hw : w = 0
    · simp [Tr.eval, inversion, one, zero, WInf.isInfinity, Tr.adapt, WInf.mul, WInf.add, WInf.div, WInf.inverse, WInf.pt, WInf.conj, ofVal, hw]
    · simp [Tr.eval, inversion, one, zero, WInf.isInfinity, Tr.adapt, WInf.mul, WInf.add, WInf.div, WInf.inverse, WInf.pt, WInf.conj, ofVal, hw]
  · simp [Tr.eval, identity, one, zero, WInf.isInfinity, Tr.adapt, WInf.mul, WInf.add, WInf.div, WInf.inverse, WInf.pt, ofVal]

/-! ### concrete cases -/

/-- `z ↦ (2z + 1) / (z + 3)` over the rationals. -/
def f0 : Tr ℚ := ⟨ofVal 2, ofVal 1, ofVal 1, ofVal 3, 1⟩
/-- An orientation-reversing one. -/
def g0 : Tr ℚ := ⟨ofVal 0, ofVal 4, ofVal 1, ofVal 3, -1⟩

example : f0.Proper := ⟨by decide +kernel, by decide +kernel, by decide +kernel, by decide +kernel, by decide +kernel, by decide +kernel⟩
example : g0.Proper := ⟨by decide +kernel, by decide +kernel, by decide +kernel, by decide +kernel, by decide +kernel, by decide +kernel⟩
example : (f0.eval id (ofVal (-3))).pt = none := by decide +kernel
example : (f0.eval id ⟨0, 1⟩).pt = some 2 := by decide +kernel
example : (((f0.mul id g0).eval id (ofVal 1)).pt, (f0.eval id (g0.eval id (ofVal 1))).pt) = (some (3 / 4), some (3 / 4)) := by decide +kernel
example : ((f0.inverse id).eval id (f0.eval id (ofVal 7))).pt = some 7 := by decide +kernel
example : f0.normalize = ⟨ofVal 1, ofVal (1 / 2), ofVal (1 / 2), ofVal (3 / 2), 1⟩ := by decide +kernel

end Altruct.Moebius
