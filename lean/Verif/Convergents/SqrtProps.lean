/-
C53: `sqrt_convergent` returns the first convergent of the square root with a denominator above the bound.
-/
import Verif.Convergents.Props
import Verif.Base.RootProps
import Mathlib.NumberTheory.DiophantineApproximation.Basic
import Mathlib.Analysis.Real.Sqrt

namespace Altruct.Convergents

open Base (IsFloorSqrt)

/-- Convergents of numbers `≥ 1` are `≥ 1`. -/
theorem one_le_convergent : ∀ (n : Nat) (ξ : ℝ), 1 ≤ ξ → 1 ≤ ξ.convergent n := by
  intro n
  induction n with
  | zero =>
    intro ξ h
    rw [Real.convergent_zero]
    exact_mod_cast Int.le_floor.mpr (by exact_mod_cast h)
  | succ n ih =>
    intro ξ h
    rw [Real.convergent_succ]
    have h1 : (1 : ℚ) ≤ (⌊ξ⌋ : ℚ) := by exact_mod_cast Int.le_floor.mpr (by exact_mod_cast h)
    have h2 : (0 : ℚ) ≤ ((Int.fract ξ)⁻¹.convergent n)⁻¹ := by
      rw [inv_nonneg]
      rcases eq_or_lt_of_le (Int.fract_nonneg ξ) with h3 | h3
      · rw [← h3, inv_zero, Real.convergent_of_zero]
      · have := ih (Int.fract ξ)⁻¹ ((one_le_inv₀ h3).mpr (Int.fract_lt_one ξ).le)
        linarith
    linarith

/-- The loop invariant at the beginning of round `n`. -/
structure SqrtInv (S a0 Q : Int) (n : Nat) (s : SqrtSt) : Prop where
  m0 : 0 ≤ s.m
  ma : s.m ≤ a0
  d0 : 0 < s.d
  dm : s.d ≤ a0 + s.m
  dvd : s.d ∣ S - s.m * s.m
  ha : s.a = (a0 + s.m) / s.d
  det : (s.po * s.qn - s.pn * s.qo) ^ 2 = 1
  q0 : 0 ≤ s.qo
  qn0 : 0 ≤ s.qn
  grow : (n = 0 ∧ s.qo = 0 ∧ s.qn = 1) ∨ (n = 1 ∧ s.qo = 1 ∧ s.qn = 0) ∨
    (2 ≤ n ∧ 1 ≤ s.qn ∧ (n : Int) - 1 ≤ s.qo)
  conv : ∀ j, (√(S : ℝ)).convergent (n + j) =
    (s.po * ((s.m + √(S : ℝ)) / s.d).convergent j + s.pn) /
      (s.qo * ((s.m + √(S : ℝ)) / s.d).convergent j + s.qn)
  prev : ∀ k, k < n → ((√(S : ℝ)).convergent k).den ≤ Q

theorem floor_quot {S a0 m d : Int} (hf : IsFloorSqrt a0 S) (hd : 0 < d) :
    ⌊((m : ℝ) + √(S : ℝ)) / d⌋ = (a0 + m) / d := by
  have hdR : (0 : ℝ) < d := by exact_mod_cast hd
  have h0 : (0 : ℝ) ≤ a0 := by exact_mod_cast hf.1
  have h1 : (a0 : ℝ) ≤ √(S : ℝ) := by
    apply Real.le_sqrt_of_sq_le
    have := hf.2.1
    have h : ((a0 * a0 : Int) : ℝ) ≤ S := by exact_mod_cast this
    push_cast at h
    nlinarith
  have h2 : √(S : ℝ) < a0 + 1 := by
    rw [Real.sqrt_lt' (by linarith)]
    have h : (S : ℝ) < (((a0 + 1) * (a0 + 1) : Int) : ℝ) := by exact_mod_cast hf.2.2
    push_cast at h
    nlinarith
  rw [Int.floor_eq_iff]
  have e1 := Int.ediv_mul_le (a0 + m) (by omega : d ≠ 0)
  have e2 := Int.lt_ediv_add_one_mul_self (a0 + m) hd
  constructor
  · rw [le_div_iff₀ hdR]
    have : (((a0 + m) / d * d : Int) : ℝ) ≤ ((a0 + m : Int) : ℝ) := by exact_mod_cast e1
    push_cast at this
    linarith
  · rw [div_lt_iff₀ hdR]
    have : ((a0 + m + 1 : Int) : ℝ) ≤ (((((a0 + m) / d) + 1) * d : Int) : ℝ) := by
      exact_mod_cast (by omega : a0 + m + 1 ≤ ((a0 + m) / d + 1) * d)
    push_cast at this
    linarith

theorem stepPQ_conv {S a0 Q : Int} {n : Nat} {s : SqrtSt} (hf : IsFloorSqrt a0 S) (h : SqrtInv S a0 Q n s) :
    (√(S : ℝ)).convergent n = ((stepPQ s).po : ℚ) / (stepPQ s).qo := by
  have := h.conv 0
  rw [add_zero, Real.convergent_zero, floor_quot hf h.d0, ← h.ha] at this
  rw [this, stepPQ]
  push_cast
  congr 1 <;> ring

theorem stepMDA_eq {S a0 po pn qo qn m d a dn : Int} (hd : d ≠ 0)
    (h : (S - (d * a - m) * (d * a - m)).tdiv d = dn) (hdn : dn ≠ 0) :
    stepMDA S a0 ⟨po, pn, qo, qn, m, d, a⟩ =
      some ⟨po, pn, qo, qn, d * a - m, dn, (a0 + (d * a - m)).tdiv dn⟩ := by
  subst h
  rw [stepMDA]
  simp only
  rw [if_neg hd, if_neg hdn]

theorem step_spec {S a0 Q : Int} {n : Nat} {s : SqrtSt} (hf : IsFloorSqrt a0 S) (hns : a0 * a0 ≠ S)
    (ha1 : 1 ≤ a0) (h : SqrtInv S a0 Q n s) :
    0 < (stepPQ s).qo ∧ (n : Int) ≤ (stepPQ s).qo ∧ IsCoprime (stepPQ s).po (stepPQ s).qo ∧
    ((stepPQ s).qo ≤ Q → ∃ s', stepMDA S a0 (stepPQ s) = some s' ∧ SqrtInv S a0 Q (n + 1) s') := by
  obtain ⟨po, pn, qo, qn, m, d, a⟩ := s
  obtain ⟨m0, ma, d0, dm, ⟨e, he⟩, hav, det, q0, qn0, grow, hconv, prev⟩ := h
  simp only at *
  have hda := Int.ediv_mul_le (a0 + m) (by omega : d ≠ 0)
  have hda2 := Int.lt_ediv_add_one_mul_self (a0 + m) d0
  have ha : 1 ≤ a := by
    rw [hav, Int.le_ediv_iff_mul_le d0]
    omega
  rw [← hav] at hda hda2
  have hS1 : a0 * a0 < S := lt_of_le_of_ne hf.2.1 hns
  have hS2 := hf.2.2
  have haq : qo ≤ a * qo := le_mul_of_one_le_left q0 ha
  have hpos : 0 < qn + a * qo := by
    rcases grow with ⟨_, h1, h2⟩ | ⟨_, h1, h2⟩ | ⟨_, h1, h2⟩
    · rw [h1, h2]; omega
    · rw [h1, h2]; omega
    · omega
  have hgrow : (n : Int) ≤ qn + a * qo := by
    rcases grow with ⟨h0, h1, h2⟩ | ⟨h0, h1, h2⟩ | ⟨h0, h1, h2⟩
    · omega
    · rw [h0]; push_cast; omega
    · omega
  have hcop : IsCoprime (pn + a * po) (qn + a * qo) := by
    refine ⟨(po * qn - pn * qo) * (-qo), (po * qn - pn * qo) * po, ?_⟩
    linear_combination det
  refine ⟨hpos, hgrow, hcop, fun hQ => ?_⟩
  simp only [stepPQ] at hQ
  have hunf : stepPQ ⟨po, pn, qo, qn, m, d, a⟩ = ⟨pn + a * po, po, qn + a * qo, qo, m, d, a⟩ := rfl
  rw [hunf]
  set mn := d * a - m with hmn
  have hm1 : mn ≤ a0 := by rw [hmn, mul_comm]; omega
  have hm2 : a0 - d < mn := by
    rw [hmn, mul_comm]
    have : (a + 1) * d = a * d + d := by ring
    omega
  have hm3 : 1 ≤ mn := by
    rcases Int.lt_or_le a0 d with h1 | h1
    · have : d * 1 ≤ d * a := mul_le_mul_of_nonneg_left ha d0.le
      omega
    · omega
  have hdvd : d ∣ S - mn * mn := ⟨e - d * a * a + 2 * a * m, by rw [hmn]; linear_combination he⟩
  obtain ⟨dn, hdn⟩ := hdvd
  have hmm : mn * mn ≤ a0 * a0 := mul_le_mul hm1 hm1 (by omega) (by omega)
  have hdn0 : 0 < dn := by
    have : 0 < d * dn := by omega
    exact pos_of_mul_pos_right this d0.le
  have htd : (S - mn * mn).tdiv d = dn := by
    rw [hdn, Int.mul_tdiv_cancel_left _ (by omega)]
  refine ⟨_, stepMDA_eq (by omega) htd (by omega), ?_⟩
  have hdnm : dn ≤ a0 + mn := by
    by_contra h1
    have h2 : (a0 - mn + 1) * (a0 + mn + 1) ≤ d * dn := mul_le_mul (by omega) (by omega) (by omega) (by omega)
    have h3 : (a0 - mn + 1) * (a0 + mn + 1) = (a0 + 1) * (a0 + 1) - mn * mn := by ring
    omega
  have hsq : √(S : ℝ) * √(S : ℝ) = S := Real.mul_self_sqrt (by
    have : 0 ≤ S := by nlinarith
    exact_mod_cast this)
  have hden : (√(S : ℝ)).convergent n = ((pn + a * po : Int) : ℚ) / ((qn + a * qo : Int) : ℚ) := by
    have := hconv 0
    rw [add_zero, Real.convergent_zero, floor_quot hf d0, ← hav] at this
    rw [this]
    push_cast
    congr 1 <;> ring
  refine ⟨by simp only; omega, hm1, hdn0, hdnm, ?_, ?_, ?_, by simp only; omega, q0, ?_, ?_, ?_⟩
  · simp only
    exact ⟨d, by rw [hdn]; ring⟩
  · simp only
    rw [Int.tdiv_eq_ediv_of_nonneg (by omega)]
  · simp only
    linear_combination det
  · simp only
    rcases grow with ⟨h0, h1, h2⟩ | ⟨h0, h1, h2⟩ | ⟨h0, h1, h2⟩
    · right; left
      rw [h0, h1, h2]; simp
    · right; right
      rw [h0, h1, h2]; simp; omega
    · right; right
      push_cast
      omega
  · intro j
    simp only
    have hj := hconv (j + 1)
    rw [show n + (j + 1) = n + 1 + j by omega] at hj
    rw [hj, Real.convergent_succ, floor_quot hf d0, ← hav]
    have hdR : (d : ℝ) ≠ 0 := by exact_mod_cast (ne_of_gt d0)
    have hdnR : (dn : ℝ) ≠ 0 := by exact_mod_cast (ne_of_gt hdn0)
    have hdnR' : (0 : ℝ) < dn := by exact_mod_cast hdn0
    have hprod : (√(S : ℝ) - mn) * (√(S : ℝ) + mn) = d * dn := by
      have h2 : ((S - mn * mn : Int) : ℝ) = ((d * dn : Int) : ℝ) := by rw [hdn]
      push_cast at h2
      linear_combination hsq + h2
    have hne : √(S : ℝ) - mn ≠ 0 := by
      intro h0
      rw [h0, zero_mul] at hprod
      exact mul_ne_zero hdR hdnR hprod.symm
    have hfr : (Int.fract (((m : ℝ) + √(S : ℝ)) / d))⁻¹ = (mn + √(S : ℝ)) / dn := by
      rw [Int.fract, floor_quot hf d0, ← hav]
      have e1 : ((m : ℝ) + √(S : ℝ)) / d - a = (√(S : ℝ) - mn) / d := by
        rw [hmn]
        push_cast
        field_simp
        ring
      rw [e1, inv_div, div_eq_div_iff hne hdnR]
      linear_combination -hprod
    rw [hfr]
    have hge : 1 ≤ ((mn : ℝ) + √(S : ℝ)) / dn := by
      rw [le_div_iff₀ hdnR']
      have h1 : (a0 : ℝ) ≤ √(S : ℝ) := by
        apply Real.le_sqrt_of_sq_le
        have h : ((a0 * a0 : Int) : ℝ) ≤ S := by exact_mod_cast hf.2.1
        push_cast at h
        nlinarith
      have h2 : (dn : ℝ) ≤ ((a0 + mn : Int) : ℝ) := by exact_mod_cast hdnm
      push_cast at h2
      linarith
    have hc := one_le_convergent j _ hge
    generalize (((mn : ℝ) + √(S : ℝ)) / dn).convergent j = c at hc ⊢
    have hc0 : c ≠ 0 := by intro h0; rw [h0] at hc; norm_num at hc
    have hq0' : (0 : ℚ) ≤ qo := by exact_mod_cast q0
    have hpos' : (0 : ℚ) < qn + a * qo := by exact_mod_cast hpos
    have hd1 : ((qn : ℚ) + a * qo) * c + qo ≠ 0 := by
      have : (0 : ℚ) < ((qn : ℚ) + a * qo) * c + qo := by positivity
      exact ne_of_gt this
    have hd2 : (qo : ℚ) * (a + c⁻¹) + qn ≠ 0 := by
      have : (qo : ℚ) * (a + c⁻¹) + qn = (((qn : ℚ) + a * qo) * c + qo) / c := by
        field_simp
        ring
      rw [this]
      exact div_ne_zero hd1 hc0
    push_cast
    rw [div_eq_div_iff hd2 hd1]
    field_simp
    ring
  · intro k hk
    rcases Nat.lt_or_ge k n with h1 | h1
    · exact prev k h1
    · have : k = n := by omega
      subst this
      rw [hden, Rat.den_div_eq_of_coprime hpos]
      · exact hQ
      · exact Int.isCoprime_iff_nat_coprime.mp hcop

theorem sqrtLoop_spec {S a0 Q : Int} (hf : IsFloorSqrt a0 S) (hns : a0 * a0 ≠ S) (ha1 : 1 ≤ a0) :
    ∀ (fuel n : Nat) (s : SqrtSt), SqrtInv S a0 Q n s → Q + 1 < fuel + n →
    (n = 0 → 0 < fuel) → (0 < n → s.qo ≤ Q) →
    ∃ (N : Nat) (p q : Int), sqrtLoop S Q a0 fuel s = some (p, q) ∧ Q < q ∧ 0 < q ∧ IsCoprime p q ∧
      (√(S : ℝ)).convergent N = (p : ℚ) / q ∧ ∀ k, k < N → ((√(S : ℝ)).convergent k).den ≤ Q := by
  intro fuel
  induction fuel with
  | zero =>
    intro n s h hfu hn hq
    exfalso
    rcases h.grow with ⟨h0, _⟩ | ⟨h0, h1, _⟩ | ⟨h0, _, h2⟩
    · exact absurd (hn h0) (lt_irrefl _)
    · have := hq (by omega); omega
    · have := hq (by omega); push_cast at hfu; omega
  | succ fuel ih =>
    intro n s h hfu _ _
    obtain ⟨h1, h2, h3, h4⟩ := step_spec hf hns ha1 h
    rw [sqrtLoop]
    by_cases hq : (stepPQ s).qo > Q
    · rw [if_pos hq]
      exact ⟨n, _, _, rfl, hq, h1, h3, stepPQ_conv hf h, h.prev⟩
    · rw [if_neg hq]
      obtain ⟨s', e, h5⟩ := h4 (by omega)
      rw [e]
      refine ih (n + 1) s' h5 (by push_cast at hfu ⊢; omega) (by omega) (fun _ => ?_)
      have hqo : s'.qo = (stepPQ s).qo := by
        simp only [stepMDA] at e
        split_ifs at e
        rw [← Option.some.inj e]
      omega

/-! ### The claims -/

/-- For `S` not a square the result is `p / q` in lowest terms, the first convergent of the continued fraction of
the square root of `S` (in Mathlib's sense) whose denominator exceeds `Q`. -/
theorem C53_sqrt_convergent {sq : Int → Int} {S : Int} (hsq : IsFloorSqrt (sq S) S) (hns : sq S * sq S ≠ S)
    (Q : Int) :
    ∃ (n : Nat) (p q : Int), sqrtConvergent sq S Q = some (p, q) ∧ Q < q ∧ 0 < q ∧ IsCoprime p q ∧
      (p : ℚ) / q = (√(S : ℝ)).convergent n ∧ ∀ k, k < n → ((√(S : ℝ)).convergent k).den ≤ Q := by
  have h1 : 1 ≤ sq S := by
    have h0 := hsq.1
    have h2 := hsq.2.1
    have h3 := hsq.2.2
    by_contra h
    have : sq S = 0 := by omega
    rw [this] at h2 h3 hns
    omega
  rw [sqrtConvergent]
  simp only [if_neg hns]
  obtain ⟨n, p, q, e, a, b, c, d, f⟩ := sqrtLoop_spec (Q := Q) hsq hns h1 (Q.toNat + 3) 0
    ⟨1, 0, 0, 1, 0, 1, sq S⟩
    { m0 := le_rfl, ma := by simp; omega, d0 := by simp, dm := by simp; omega, dvd := by simp
      ha := by simp, det := by norm_num, q0 := by simp, qn0 := by simp, grow := by simp
      conv := by intro j; simp
      prev := by intro k hk; omega } (by push_cast; omega) (by omega) (by omega)
  exact ⟨n, p, q, e, a, b, c, d.symm, f⟩

/-- For a square the exact root. -/
theorem C53_sqrt_convergent_square {sq : Int → Int} {S : Int} (h : sq S * sq S = S) (Q : Int) :
    sqrtConvergent sq S Q = some (sq S, 1) := by
  rw [sqrtConvergent]
  simp [h]

/-- With the library's own square root. -/
theorem C53_sqrt_convergent_lib {S : Int} (hS : 0 ≤ S) (hl : S.natAbs.log2 < 2 ^ 63)
    (hns : ∀ x : Int, x * x ≠ S) (Q : Int) :
    ∃ (n : Nat) (p q : Int), sqrtConvergent Base.sqrtT S Q = some (p, q) ∧ Q < q ∧ 0 < q ∧ IsCoprime p q ∧
      (p : ℚ) / q = (√(S : ℝ)).convergent n ∧ ∀ k, k < n → ((√(S : ℝ)).convergent k).den ≤ Q :=
  C53_sqrt_convergent (Base.C01_sqrtT S hS hl) (hns _) Q

example : sqrtConvergent (fun _ => 3) 13 100 = some (393, 109) := by decide +kernel
example : IsFloorSqrt 3 13 := ⟨by decide, by decide, by decide⟩

end Altruct.Convergents
