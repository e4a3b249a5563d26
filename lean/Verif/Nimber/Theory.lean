/-
The nim product, defined by its game-theoretic rule, and the facts about it that the implementation
rests on.  Nothing here refers to the code.

`a ⊗ b` is the least number that is not of the form `a' ⊗ b ⊕ a ⊗ b' ⊕ a' ⊗ b'` with `a' < a`, `b' < b`
(Conway); `⊕` is bitwise exclusive or.
-/
import Mathlib.Data.Nat.Bitwise
import Mathlib.Data.Nat.Lattice
import Mathlib.Data.Set.Finite.Basic
import Mathlib.Data.Fintype.Prod
import Mathlib.Data.Fintype.Card
import Mathlib.Data.Set.Finite.Range
import Mathlib.Tactic.Ring
import Mathlib.Order.Bounds.Basic
import Mathlib.Algebra.Order.Ring.Nat

namespace Altruct.Nimber

/-- The values excluded by the rule. -/
def options (f : Nat → Nat → Nat) (a b : Nat) : Set Nat :=
  {c | ∃ a' < a, ∃ b' < b, c = f a' b ^^^ f a b' ^^^ f a' b'}

/-- `f` is the nim product: every `f a b` is the least value not excluded. -/
def IsNimMul (f : Nat → Nat → Nat) : Prop := ∀ a b, IsLeast {c | c ∉ options f a b} (f a b)

/-- There is at most one nim product. -/
theorem IsNimMul.unique {f g : Nat → Nat → Nat} (hf : IsNimMul f) (hg : IsNimMul g) : ∀ a b, f a b = g a b := by
  have key : ∀ n a b, a + b ≤ n → f a b = g a b := by
    intro n
    induction n with
    | zero =>
      intro a b h
      have ha : a = 0 := by omega
      have hb : b = 0 := by omega
      subst ha; subst hb
      have e1 : options f 0 0 = options g 0 0 := by ext c; simp [options]
      have h1 := hf 0 0
      rw [e1] at h1
      exact h1.unique (hg 0 0)
    | succ n ih =>
      intro a b h
      have e1 : options f a b = options g a b := by
        ext c
        simp only [options, Set.mem_ofPred_eq]
        constructor
        · rintro ⟨a', ha, b', hb, rfl⟩
          exact ⟨a', ha, b', hb, by rw [ih a' b (by omega), ih a b' (by omega), ih a' b' (by omega)]⟩
        · rintro ⟨a', ha, b', hb, rfl⟩
          exact ⟨a', ha, b', hb, by rw [ih a' b (by omega), ih a b' (by omega), ih a' b' (by omega)]⟩
      have h1 := hf a b
      rw [e1] at h1
      exact h1.unique (hg a b)
  exact fun a b => key (a + b) a b le_rfl

open Classical in
/-- The nim product, by recursion. -/
noncomputable def nmul (a b : Nat) : Nat :=
  sInf {c | ¬ ∃ (a' : Fin a) (b' : Fin b), c = nmul a'.1 b ^^^ nmul a b'.1 ^^^ nmul a'.1 b'.1}
termination_by (a, b)
decreasing_by
  · exact Prod.Lex.left _ _ a'.2
  · exact Prod.Lex.right _ b'.2
  · exact Prod.Lex.left _ _ a'.2

theorem options_finite (f : Nat → Nat → Nat) (a b : Nat) : (options f a b).Finite := by
  have : options f a b = Set.range (fun p : Fin a × Fin b => f p.1 b ^^^ f a p.2 ^^^ f p.1 p.2) := by
    ext c
    simp only [options, Set.mem_ofPred_eq, Set.mem_range, Prod.exists]
    constructor
    · rintro ⟨a', ha, b', hb, rfl⟩; exact ⟨⟨a', ha⟩, ⟨b', hb⟩, rfl⟩
    · rintro ⟨a', b', rfl⟩; exact ⟨a', a'.2, b', b'.2, rfl⟩
  rw [this]
  exact Set.finite_range _

theorem nmul_isNimMul : IsNimMul nmul := by
  intro a b
  have e : {c | ¬ ∃ (a' : Fin a) (b' : Fin b), c = nmul a'.1 b ^^^ nmul a b'.1 ^^^ nmul a'.1 b'.1} = {c | c ∉ options nmul a b} := by
    ext c
    simp only [options, Set.mem_ofPred_eq, not_exists, not_and]
    constructor
    · intro h a' ha b' hb; exact h ⟨a', ha⟩ ⟨b', hb⟩
    · intro h a' b'; exact h a' a'.2 b' b'.2
  have hne : {c | c ∉ options nmul a b}.Nonempty := (options_finite nmul a b).exists_notMem
  rw [nmul, e]
  exact ⟨Nat.sInf_mem hne, fun c hc => Nat.sInf_le hc⟩

local infixl:70 " ⊗ " => nmul

/-! ### the ring laws -/

theorem xor_eq_iff (a b c : Nat) : a ^^^ b = c ↔ a = c ^^^ b := by
  constructor
  · rintro rfl; rw [Nat.xor_assoc, Nat.xor_self, Nat.xor_zero]
  · rintro rfl; rw [Nat.xor_assoc, Nat.xor_self, Nat.xor_zero]

theorem notMem (a b a' b' : Nat) (ha : a' < a) (hb : b' < b) : a ⊗ b ≠ a' ⊗ b ^^^ a ⊗ b' ^^^ a' ⊗ b' :=
  fun h => (nmul_isNimMul a b).1 ⟨a', ha, b', hb, h⟩

theorem mem_of_lt (a b c : Nat) (h : c < a ⊗ b) : ∃ a' < a, ∃ b' < b, c = a' ⊗ b ^^^ a ⊗ b' ^^^ a' ⊗ b' := by
  by_contra hc
  have := (nmul_isNimMul a b).2 (show c ∈ {c | c ∉ options nmul a b} from hc)
  omega

/-- A number that differs from every option is at least the product. -/
theorem le_of_notMem (a b c : Nat) (h : ∀ a' < a, ∀ b' < b, c ≠ a' ⊗ b ^^^ a ⊗ b' ^^^ a' ⊗ b') : a ⊗ b ≤ c :=
  (nmul_isNimMul a b).2 (show c ∈ {c | c ∉ options nmul a b} from by rintro ⟨a', ha, b', hb, e⟩; exact h a' ha b' hb e)

theorem zero_nmul (b : Nat) : 0 ⊗ b = 0 := Nat.le_zero.mp (le_of_notMem 0 b 0 (fun a' h => by omega))
theorem nmul_zero (a : Nat) : a ⊗ 0 = 0 := Nat.le_zero.mp (le_of_notMem a 0 0 (fun a' _ b' h => by omega))

theorem nmul_comm (a b : Nat) : a ⊗ b = b ⊗ a := by
  have h : IsNimMul (fun a b => b ⊗ a) := by
    intro a b
    have : options (fun a b => b ⊗ a) a b = options nmul b a := by
      ext c
      simp only [options, Set.mem_ofPred_eq]
      constructor
      · rintro ⟨a', ha, b', hb, rfl⟩; exact ⟨b', hb, a', ha, by rw [Nat.xor_comm (b ⊗ a')]⟩
      · rintro ⟨b', hb, a', ha, rfl⟩; exact ⟨a', ha, b', hb, by rw [Nat.xor_comm (b ⊗ a')]⟩
    rw [this]
    exact nmul_isNimMul b a
  exact nmul_isNimMul.unique h a b

theorem xor4 (a b c d : Nat) : a = b ^^^ c ^^^ d ↔ a ^^^ b ^^^ c ^^^ d = 0 := by
  constructor
  · rintro rfl
    apply Nat.eq_of_testBit_eq; intro i
    simp only [Nat.testBit_xor, Nat.zero_testBit]
    cases b.testBit i <;> cases c.testBit i <;> cases d.testBit i <;> rfl
  · intro h
    apply Nat.eq_of_testBit_eq; intro i
    have := congrArg (fun x => Nat.testBit x i) h
    simp only [Nat.testBit_xor, Nat.zero_testBit] at this ⊢
    revert this
    cases a.testBit i <;> cases b.testBit i <;> cases c.testBit i <;> cases d.testBit i <;> simp

/-- The rule for operands on any side. -/
theorem notMem' (a b a' b' : Nat) (ha : a' ≠ a) (hb : b' ≠ b) : a ⊗ b ≠ a' ⊗ b ^^^ a ⊗ b' ^^^ a' ⊗ b' := by
  intro h
  rw [xor4] at h
  rcases Nat.lt_or_gt_of_ne ha with h1 | h1 <;> rcases Nat.lt_or_gt_of_ne hb with h2 | h2
  · exact notMem a b a' b' h1 h2 ((xor4 _ _ _ _).mpr h)
  · refine notMem a b' a' b h1 h2 ((xor4 _ _ _ _).mpr ?_)
    rw [← h]; ac_rfl
  · refine notMem a' b a b' h1 h2 ((xor4 _ _ _ _).mpr ?_)
    rw [← h]; ac_rfl
  · refine notMem a' b' a b h1 h2 ((xor4 _ _ _ _).mpr ?_)
    rw [← h]; ac_rfl

/-- Closes equations between exclusive ors. -/
macro "xor_bits" : tactic => `(tactic| (
  apply Nat.eq_of_testBit_eq; intro i
  simp only [Nat.testBit_xor, Nat.zero_testBit]
  grind))

theorem nmul_xor (a b c : Nat) : a ⊗ (b ^^^ c) = a ⊗ b ^^^ a ⊗ c := by
  have key : ∀ n a b c, a + b + c ≤ n → a ⊗ (b ^^^ c) = a ⊗ b ^^^ a ⊗ c := by
    intro n
    induction n with
    | zero =>
      intro a b c h
      obtain rfl : a = 0 := by omega
      simp [zero_nmul]
    | succ n ih =>
      intro a b c h
      have half : ∀ b c, a + b + c ≤ n + 1 → ∀ a' < a, ∀ b' < b,
          a' ⊗ (b ^^^ c) ^^^ a ⊗ (b' ^^^ c) ^^^ a' ⊗ (b' ^^^ c) = a' ⊗ b ^^^ a ⊗ b' ^^^ a' ⊗ b' ^^^ a ⊗ c := by
        intro b c h a' ha b' hb
        rw [ih a' b c (by omega), ih a b' c (by omega), ih a' b' c (by omega)]
        xor_bits
      apply le_antisymm
      · apply le_of_notMem
        intro a' ha d hd
        rcases Nat.lt_xor_cases hd with h1 | h1
        · have e := half b c h a' ha (d ^^^ c) h1
          rw [Nat.xor_assoc d, Nat.xor_self, Nat.xor_zero] at e
          rw [e]
          intro he
          exact notMem a b a' _ ha h1 (by simpa using he)
        · have e := half c b (by omega) a' ha (d ^^^ b) h1
          rw [Nat.xor_assoc d, Nat.xor_self, Nat.xor_zero, Nat.xor_comm c b] at e
          rw [e, Nat.xor_comm (a ⊗ b)]
          intro he
          exact notMem a c a' _ ha h1 (by simpa using he)
      · by_contra hlt
        push Not at hlt
        rcases Nat.lt_xor_cases hlt with h1 | h1
        · obtain ⟨a', ha, b', hb, e⟩ := mem_of_lt _ _ _ h1
          have e' := half b c h a' ha b' hb
          rw [← e, Nat.xor_assoc (a ⊗ (b ^^^ c)), Nat.xor_self, Nat.xor_zero] at e'
          refine notMem' a (b ^^^ c) a' (b' ^^^ c) (by omega) ?_ e'.symm
          intro hx
          have := Nat.xor_left_injective hx
          omega
        · obtain ⟨a', ha, c', hc, e⟩ := mem_of_lt _ _ _ h1
          have e' := half c b (by omega) a' ha c' hc
          rw [← e, Nat.xor_assoc (a ⊗ (b ^^^ c)), Nat.xor_self, Nat.xor_zero, Nat.xor_comm c b] at e'
          refine notMem' a (b ^^^ c) a' (c' ^^^ b) (by omega) ?_ e'.symm
          intro hx
          rw [Nat.xor_comm b c] at hx
          have := Nat.xor_left_injective hx
          omega
  exact key _ a b c le_rfl

theorem xor_nmul (a b c : Nat) : (a ^^^ b) ⊗ c = a ⊗ c ^^^ b ⊗ c := by
  rw [nmul_comm, nmul_xor, nmul_comm c a, nmul_comm c b]

theorem nmul_assoc (a b c : Nat) : a ⊗ b ⊗ c = a ⊗ (b ⊗ c) := by
  have key : ∀ n a b c, a + b + c ≤ n → a ⊗ b ⊗ c = a ⊗ (b ⊗ c) := by
    intro n
    induction n with
    | zero =>
      intro a b c h
      obtain rfl : a = 0 := by omega
      simp [zero_nmul]
    | succ n ih =>
      have half : ∀ a b c, a + b + c ≤ n + 1 → a ⊗ b ⊗ c ≤ a ⊗ (b ⊗ c) := by
        intro a b c h
        by_contra hlt
        push Not at hlt
        obtain ⟨d, hd, c', hc, e⟩ := mem_of_lt _ _ _ hlt
        obtain ⟨a', ha, b', hb, rfl⟩ := mem_of_lt _ _ _ hd
        have hne := notMem b c b' c' hb hc
        simp only [xor_nmul] at e
        rw [ih a' b c (by omega), ih a b' c (by omega), ih a' b' c (by omega), ih a b c' (by omega), ih a' b c' (by omega),
          ih a b' c' (by omega), ih a' b' c' (by omega)] at e
        refine notMem' a (b ⊗ c) a' (b' ⊗ c ^^^ b ⊗ c' ^^^ b' ⊗ c') (by omega) (Ne.symm hne) ?_
        rw [e]
        simp only [nmul_xor]
        ac_rfl
      intro a b c h
      apply le_antisymm (half a b c h)
      have := half c b a (by omega)
      rwa [nmul_comm (c ⊗ b), nmul_comm c b, nmul_comm c (b ⊗ a), nmul_comm b a] at this
  exact key _ a b c le_rfl

theorem one_nmul (a : Nat) : 1 ⊗ a = a := by
  induction a using Nat.strongRecOn with
  | ind a ih =>
    apply le_antisymm
    · apply le_of_notMem
      intro a' ha b' hb
      obtain rfl : a' = 0 := by omega
      rw [zero_nmul, zero_nmul, Nat.zero_xor, Nat.xor_zero, ih b' hb]
      omega
    · by_contra h
      push Not at h
      have := ih _ h
      refine notMem 1 a 0 (1 ⊗ a) (by omega) h ?_
      rw [zero_nmul, zero_nmul, Nat.zero_xor, Nat.xor_zero, this]

theorem nmul_one (a : Nat) : a ⊗ 1 = a := by rw [nmul_comm, one_nmul]

theorem nmul_ne_zero (a b : Nat) (ha : a ≠ 0) (hb : b ≠ 0) : a ⊗ b ≠ 0 := by
  have := notMem a b 0 0 (by omega) (by omega)
  simpa [zero_nmul, nmul_zero] using this

theorem nmul_right_cancel (a b c : Nat) (hc : c ≠ 0) (h : a ⊗ c = b ⊗ c) : a = b := by
  by_contra hab
  refine nmul_ne_zero (a ^^^ b) c (fun h0 => hab (Nat.xor_eq_zero_iff.mp h0)) hc ?_
  rw [xor_nmul, h, Nat.xor_self]

end Altruct.Nimber
