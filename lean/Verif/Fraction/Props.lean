/-
C36: fractions are canonical and form the field of rational numbers.
-/
import Verif.Fraction.Model
import Verif.Base.Props
import Mathlib.Data.Rat.Lemmas
import Mathlib.Tactic.FieldSimp
import Mathlib.Tactic.Ring
import Mathlib.Tactic.Linarith

namespace Altruct.Fraction

/-! ### specification -/

/-- The rational number. -/
def val (f : Frac) : ℚ := (f.p : ℚ) / (f.q : ℚ)

/-- Lowest terms and a positive denominator. -/
def Canon (f : Frac) : Prop := 0 < f.q ∧ Int.gcd f.p f.q = 1

/-! ### proofs -/

theorem absT_eq (x : Int) : absT x = |x| := by
  rw [absT]
  split_ifs with h
  · rw [abs_of_neg h]
  · rw [abs_of_nonneg (by omega)]

theorem Canon.q_ne {f : Frac} (h : Canon f) : (f.q : ℚ) ≠ 0 := by
  have := h.1
  exact_mod_cast this.ne'

theorem reduce_pre (p q : Int) (hq : q ≠ 0) : ∃ p' q', q' ≠ 0 ∧ Int.gcd p' q' = 1 ∧ (p' : ℚ) / q' = (p : ℚ) / q ∧
    reduce ⟨p, q⟩ = some (if q' < 0 then ⟨-p', -q'⟩ else ⟨p', q'⟩) := by
  have hg : absT (Base.gcd p q) = (Int.gcd p q : Int) := by
    rw [absT_eq, Int.abs_eq_natAbs, Base.gcd_natAbs]
  have hgpos : 0 < Int.gcd p q := Int.gcd_pos_of_ne_zero_right p hq
  rw [reduce, hg]
  by_cases h1 : (Int.gcd p q : Int) ≠ 1
  · have hd : ((Int.gcd p q : Nat) : Int) ≠ 0 := by exact_mod_cast hgpos.ne'
    rw [if_pos h1, cdiv, if_neg hd, cdiv, if_neg hd]
    obtain ⟨a, ha⟩ : ((Int.gcd p q : Nat) : Int) ∣ p := Int.gcd_dvd_left ..
    obtain ⟨b, hb⟩ : ((Int.gcd p q : Nat) : Int) ∣ q := Int.gcd_dvd_right ..
    have e1 : p.tdiv (Int.gcd p q : Int) = p / (Int.gcd p q : Int) := Int.tdiv_eq_ediv_of_dvd ⟨a, ha⟩
    have e2 : q.tdiv (Int.gcd p q : Int) = q / (Int.gcd p q : Int) := Int.tdiv_eq_ediv_of_dvd ⟨b, hb⟩
    refine ⟨p / (Int.gcd p q : Int), q / (Int.gcd p q : Int), ?_, ?_, ?_, ?_⟩
    · intro h0
      have := Int.ediv_mul_cancel (⟨b, hb⟩ : ((Int.gcd p q : Nat) : Int) ∣ q)
      rw [h0] at this
      omega
    · exact Int.gcd_div_gcd_div_gcd hgpos
    · have hp := Int.ediv_mul_cancel (⟨a, ha⟩ : ((Int.gcd p q : Nat) : Int) ∣ p)
      have hq' := Int.ediv_mul_cancel (⟨b, hb⟩ : ((Int.gcd p q : Nat) : Int) ∣ q)
      have hdq : ((Int.gcd p q : Int) : ℚ) ≠ 0 := by exact_mod_cast hd
      have : (p : ℚ) / q = ((p / (Int.gcd p q : Int) * (Int.gcd p q : Int) : Int) : ℚ) / ((q / (Int.gcd p q : Int) * (Int.gcd p q : Int) : Int) : ℚ) := by
        rw [hp, hq']
      rw [this]
      push_cast
      rw [mul_div_mul_right]
      exact_mod_cast hd
    · simp only [e1, e2, Option.bind_eq_bind, Option.bind_some]
  · rw [if_neg h1]
    exact ⟨p, q, hq, by omega, rfl, rfl⟩

/-- **C36**: `reduce` brings any fraction with a non-zero denominator to lowest terms, with a
positive denominator and the same value. -/
theorem C36_reduce (p q : Int) (hq : q ≠ 0) :
    ∃ f, mk' p q = some f ∧ Canon f ∧ val f = (p : ℚ) / q := by
  obtain ⟨p', q', h1, h2, h3, h4⟩ := reduce_pre p q hq
  refine ⟨_, h4, ?_, ?_⟩
  · split_ifs with h
    · exact ⟨by show 0 < -q'; omega, by simpa using h2⟩
    · exact ⟨by show 0 < q'; omega, h2⟩
  · split_ifs with h
    · show ((-p' : Int) : ℚ) / ((-q' : Int) : ℚ) = _
      push_cast
      rw [neg_div_neg_eq, h3]
    · exact h3

/-- **C36**: the canonical representation is unique: `==` is equality of rational numbers. -/
theorem C36_eq (a b : Frac) (ha : Canon a) (hb : Canon b) :
    (eq a b = true ↔ val a = val b) ∧ (ne a b = true ↔ val a ≠ val b) := by
  have key : (a.p = b.p ∧ a.q = b.q) ↔ val a = val b := by
    constructor
    · rintro ⟨h1, h2⟩
      rw [val, val, h1, h2]
    · intro h
      rw [val, val, div_eq_div_iff ha.q_ne hb.q_ne] at h
      have h' : a.p * b.q = b.p * a.q := by exact_mod_cast h
      have d1 : a.q ∣ b.q := by
        have : a.q ∣ a.p * b.q := ⟨b.p, by rw [h', mul_comm]⟩
        exact Int.dvd_of_dvd_mul_right_of_gcd_one this (by rw [Int.gcd_comm]; exact ha.2)
      have d2 : b.q ∣ a.q := by
        have : b.q ∣ b.p * a.q := ⟨a.p, by rw [← h', mul_comm]⟩
        exact Int.dvd_of_dvd_mul_right_of_gcd_one this (by rw [Int.gcd_comm]; exact hb.2)
      have hq : a.q = b.q := Int.dvd_antisymm (le_of_lt ha.1) (le_of_lt hb.1) d1 d2
      refine ⟨?_, hq⟩
      rw [hq] at h'
      exact mul_right_cancel₀ (by have := hb.1; omega) h'
  constructor
  · rw [← key, eq]; simp
  · rw [← not_iff_not, not_not, ← key, ne]; simp

/-- **C36**: the order comparisons are those of the rational numbers. -/
theorem C36_compare (a b : Frac) (ha : 0 < a.q) (hb : 0 < b.q) :
    (lt a b = true ↔ val a < val b) ∧ (le a b = true ↔ val a ≤ val b) ∧
    (gt a b = true ↔ val a > val b) ∧ (ge a b = true ↔ val a ≥ val b) := by
  have ha' : (0 : ℚ) < a.q := by exact_mod_cast ha
  have hb' : (0 : ℚ) < b.q := by exact_mod_cast hb
  have e1 : lt a b = true ↔ a.p * b.q - b.p * a.q < 0 := decide_eq_true_iff
  have e2 : le a b = true ↔ a.p * b.q - b.p * a.q ≤ 0 := decide_eq_true_iff
  have e3 : gt a b = true ↔ 0 < a.p * b.q - b.p * a.q := decide_eq_true_iff
  have e4 : ge a b = true ↔ 0 ≤ a.p * b.q - b.p * a.q := decide_eq_true_iff
  rw [e1, e2, e3, e4]
  simp only [val, gt_iff_lt, ge_iff_le]
  rw [div_lt_div_iff₀ ha' hb', div_le_div_iff₀ ha' hb', div_lt_div_iff₀ hb' ha', div_le_div_iff₀ hb' ha']
  have c1 : ((a.p : ℚ) * b.q < b.p * a.q) ↔ a.p * b.q < b.p * a.q := by exact_mod_cast Iff.rfl
  have c2 : ((a.p : ℚ) * b.q ≤ b.p * a.q) ↔ a.p * b.q ≤ b.p * a.q := by exact_mod_cast Iff.rfl
  have c3 : ((b.p : ℚ) * a.q < a.p * b.q) ↔ b.p * a.q < a.p * b.q := by exact_mod_cast Iff.rfl
  have c4 : ((b.p : ℚ) * a.q ≤ a.p * b.q) ↔ b.p * a.q ≤ a.p * b.q := by exact_mod_cast Iff.rfl
  rw [c1, c2, c3, c4]
  refine ⟨?_, ?_, ?_, ?_⟩ <;> constructor <;> intro h <;> linarith

theorem q_ne {f : Frac} (h : Canon f) : f.q ≠ 0 := by have := h.1; omega

/-- **C36**: the arithmetic operators are those of the rational numbers and every result is
canonical. -/
theorem C36_arith (a b : Frac) (ha : Canon a) (hb : Canon b) :
    (∃ f, add a b = some f ∧ Canon f ∧ val f = val a + val b) ∧
    (∃ f, sub a b = some f ∧ Canon f ∧ val f = val a - val b) ∧
    (∃ f, neg a = some f ∧ Canon f ∧ val f = - val a) ∧
    (∃ f, mul a b = some f ∧ Canon f ∧ val f = val a * val b) ∧
    (val b ≠ 0 → ∃ f, div a b = some f ∧ Canon f ∧ val f = val a / val b) ∧
    (val a ≠ 0 → ∃ f, reciprocal a = some f ∧ Canon f ∧ val f = (val a)⁻¹) ∧
    Canon (mod a b) ∧ val (mod a b) = 0 := by
  have h1 := ha.q_ne
  have h2 := hb.q_ne
  refine ⟨?_, ?_, ?_, ?_, ?_, ?_, ?_, ?_⟩
  · obtain ⟨f, hf, hc, hv⟩ := C36_reduce (a.p * b.q + b.p * a.q) (a.q * b.q) (mul_ne_zero (q_ne ha) (q_ne hb))
    refine ⟨f, hf, hc, ?_⟩
    rw [hv, val, val]; push_cast; field_simp
  · obtain ⟨f, hf, hc, hv⟩ := C36_reduce (a.p * b.q - b.p * a.q) (a.q * b.q) (mul_ne_zero (q_ne ha) (q_ne hb))
    refine ⟨f, hf, hc, ?_⟩
    rw [hv, val, val]; push_cast; field_simp
  · obtain ⟨f, hf, hc, hv⟩ := C36_reduce (-a.p) a.q (q_ne ha)
    refine ⟨f, hf, hc, ?_⟩
    rw [hv, val]; push_cast; rw [neg_div]
  · obtain ⟨f, hf, hc, hv⟩ := C36_reduce (a.p * b.p) (a.q * b.q) (mul_ne_zero (q_ne ha) (q_ne hb))
    refine ⟨f, hf, hc, ?_⟩
    rw [hv, val, val]; push_cast; field_simp
  · intro hne
    have hbp : b.p ≠ 0 := by rintro h; apply hne; rw [val, h]; simp
    have hbp' : (b.p : ℚ) ≠ 0 := by exact_mod_cast hbp
    obtain ⟨f, hf, hc, hv⟩ := C36_reduce (a.p * b.q) (a.q * b.p) (mul_ne_zero (q_ne ha) hbp)
    refine ⟨f, hf, hc, ?_⟩
    rw [hv, val, val]; push_cast; field_simp
  · intro hne
    have hap : a.p ≠ 0 := by rintro h; apply hne; rw [val, h]; simp
    obtain ⟨f, hf, hc, hv⟩ := C36_reduce a.q a.p hap
    refine ⟨f, hf, hc, ?_⟩
    rw [hv, val, inv_div]
  · exact ⟨by simp [mod, ofInt], by simp [mod, ofInt]⟩
  · simp [mod, ofInt, val]

/-- **C36**: the compound assignments compute the same results as the operators, also when the
argument is the object itself (`none`). -/
theorem C36_assign (a : Frac) (b : Option Frac) :
    addAssign a b = add a (b.getD a) ∧ subAssign a b = sub a (b.getD a) ∧
    mulAssign a b = mul a (b.getD a) ∧ divAssign a b = div a (b.getD a) ∧
    modAssign a b = mod a (b.getD a) := by
  cases b with
  | none => exact ⟨rfl, rfl, rfl, rfl, rfl⟩
  | some b => exact ⟨rfl, rfl, rfl, rfl, rfl⟩

/-- Arithmetic expressions over fractions. -/
inductive Expr where
  | int (n : Int)
  | frac (p q : Int)
  | add (a b : Expr)
  | sub (a b : Expr)
  | neg (a : Expr)
  | mul (a b : Expr)
  | div (a b : Expr)
  | recip (a : Expr)

/-- What the program computes. -/
def eval : Expr → Option Frac
  | .int n => some (ofInt n)
  | .frac p q => mk' p q
  | .add a b => do let x ← eval a; let y ← eval b; add x y
  | .sub a b => do let x ← eval a; let y ← eval b; sub x y
  | .neg a => do let x ← eval a; neg x
  | .mul a b => do let x ← eval a; let y ← eval b; mul x y
  | .div a b => do let x ← eval a; let y ← eval b; div x y
  | .recip a => do let x ← eval a; reciprocal x

/-- Its value in ℚ (with `x / 0 = 0` there). -/
def ratOf : Expr → ℚ
  | .int n => n
  | .frac p q => (p : ℚ) / q
  | .add a b => ratOf a + ratOf b
  | .sub a b => ratOf a - ratOf b
  | .neg a => - ratOf a
  | .mul a b => ratOf a * ratOf b
  | .div a b => ratOf a / ratOf b
  | .recip a => (ratOf a)⁻¹

/-- No denominator is zero. -/
def Defined : Expr → Prop
  | .int _ => True
  | .frac _ q => q ≠ 0
  | .add a b => Defined a ∧ Defined b
  | .sub a b => Defined a ∧ Defined b
  | .neg a => Defined a
  | .mul a b => Defined a ∧ Defined b
  | .div a b => Defined a ∧ Defined b ∧ ratOf b ≠ 0
  | .recip a => Defined a ∧ ratOf a ≠ 0

/-- **C36**: every expression without division by zero is computed exactly and the result is
canonical. -/
theorem C36_expr (e : Expr) (h : Defined e) : ∃ f, eval e = some f ∧ Canon f ∧ val f = ratOf e := by
  induction e with
  | int n => exact ⟨ofInt n, rfl, ⟨by simp [ofInt], by simp [ofInt]⟩, by simp [val, ofInt, ratOf]⟩
  | frac p q => exact C36_reduce p q h
  | add a b iha ihb =>
    obtain ⟨x, e1, c1, v1⟩ := iha h.1
    obtain ⟨y, e2, c2, v2⟩ := ihb h.2
    obtain ⟨f, e3, c3, v3⟩ := (C36_arith x y c1 c2).1
    exact ⟨f, by simp [eval, e1, e2, e3], c3, by rw [v3, v1, v2]; rfl⟩
  | sub a b iha ihb =>
    obtain ⟨x, e1, c1, v1⟩ := iha h.1
    obtain ⟨y, e2, c2, v2⟩ := ihb h.2
    obtain ⟨f, e3, c3, v3⟩ := (C36_arith x y c1 c2).2.1
    exact ⟨f, by simp [eval, e1, e2, e3], c3, by rw [v3, v1, v2]; rfl⟩
  | neg a iha =>
    obtain ⟨x, e1, c1, v1⟩ := iha h
    obtain ⟨f, e3, c3, v3⟩ := (C36_arith x x c1 c1).2.2.1
    exact ⟨f, by simp [eval, e1, e3], c3, by rw [v3, v1]; rfl⟩
  | mul a b iha ihb =>
    obtain ⟨x, e1, c1, v1⟩ := iha h.1
    obtain ⟨y, e2, c2, v2⟩ := ihb h.2
    obtain ⟨f, e3, c3, v3⟩ := (C36_arith x y c1 c2).2.2.2.1
    exact ⟨f, by simp [eval, e1, e2, e3], c3, by rw [v3, v1, v2]; rfl⟩
  | div a b iha ihb =>
    obtain ⟨x, e1, c1, v1⟩ := iha h.1
    obtain ⟨y, e2, c2, v2⟩ := ihb h.2.1
    obtain ⟨f, e3, c3, v3⟩ := (C36_arith x y c1 c2).2.2.2.2.1 (by rw [v2]; exact h.2.2)
    exact ⟨f, by simp [eval, e1, e2, e3], c3, by rw [v3, v1, v2]; rfl⟩
  | recip a iha =>
    obtain ⟨x, e1, c1, v1⟩ := iha h.1
    obtain ⟨f, e3, c3, v3⟩ := (C36_arith x x c1 c1).2.2.2.2.2.1 (by rw [v1]; exact h.2)
    exact ⟨f, by simp [eval, e1, e3], c3, by rw [v3, v1]; rfl⟩

/-- **C36** (negative): a zero denominator survives as `±1/0`, and `0/0` divides by zero. -/
theorem C36_zero_denominator : mk' (-6) 0 = some ⟨-1, 0⟩ ∧ mk' 0 0 = none := by decide +kernel

example : Defined (.div (.frac 6 (-4)) (.add (.frac 1 3) (.int (-2)))) :=
  ⟨by simp [Defined], ⟨by simp [Defined], trivial⟩, by norm_num [ratOf]⟩
example : eval (.div (.frac 6 (-4)) (.add (.frac 1 3) (.int (-2)))) = some ⟨9, 10⟩ := by decide +kernel
example : Canon ⟨-3, 2⟩ := ⟨by decide, by decide⟩

end Altruct.Fraction
