/-
The radix-2 transform of `convolutions.h` is multiplication by a Kronecker power.
-/
import Verif.Convolution.Model
import Mathlib.Algebra.BigOperators.Ring.Finset
import Mathlib.Algebra.BigOperators.Intervals
import Mathlib.Tactic.Ring
import Mathlib.Tactic.LinearCombination

namespace Altruct.Convolution

variable {α : Type}

/-! ### Bits -/

theorem split_bit (s x : Nat) : ∃ h l, l < 2 ^ s ∧ x = 2 ^ s * h + l :=
  ⟨x / 2 ^ s, x % 2 ^ s, Nat.mod_lt _ (Nat.two_pow_pos s), (Nat.div_add_mod x (2 ^ s)).symm⟩

theorem testBit_of {s h l : Nat} (hl : l < 2 ^ s) (b : Nat) :
    (2 ^ s * h + l).testBit b = if b < s then l.testBit b else h.testBit (b - s) :=
  Nat.testBit_two_pow_mul_add h hl b

theorem testBit_even_odd (h t : Nat) : (2 * h + 1).testBit (t + 1) = (2 * h).testBit (t + 1) := by
  rw [Nat.testBit_succ, Nat.testBit_succ]
  congr 1
  omega

/-- Adding `2^s` to a number whose bit `s` is clear sets that bit only. -/
theorem testBit_add_bit {s x : Nat} (hx : x.testBit s = false) (b : Nat) :
    (x + 2 ^ s).testBit b = if b = s then true else x.testBit b := by
  obtain ⟨h, l, hl, rfl⟩ := split_bit s x
  rw [testBit_of hl, if_neg (lt_irrefl _), Nat.sub_self, Nat.testBit_zero] at hx
  have h0 : h % 2 = 0 := by simpa using hx
  obtain ⟨q, rfl⟩ : ∃ q, h = 2 * q := ⟨h / 2, by omega⟩
  have e : 2 ^ s * (2 * q) + l + 2 ^ s = 2 ^ s * (2 * q + 1) + l := by ring
  rw [e, testBit_of hl, testBit_of hl]
  by_cases h1 : b < s
  · rw [if_pos h1, if_pos h1, if_neg (by omega)]
  · rw [if_neg h1, if_neg h1]
    by_cases h2 : b = s
    · subst h2; simp
    · rw [if_neg h2]
      obtain ⟨t, ht⟩ : ∃ t, b - s = t + 1 := ⟨b - s - 1, by omega⟩
      rw [ht, testBit_even_odd]

theorem two_pow_le_of_testBit {s x : Nat} (hx : x.testBit s = true) : 2 ^ s ≤ x :=
  Nat.ge_two_pow_of_testBit hx

/-- Subtracting `2^s` from a number whose bit `s` is set clears that bit only. -/
theorem testBit_sub_bit {s x : Nat} (hx : x.testBit s = true) (b : Nat) :
    (x - 2 ^ s).testBit b = if b = s then false else x.testBit b := by
  obtain ⟨h, l, hl, rfl⟩ := split_bit s x
  rw [testBit_of hl, if_neg (lt_irrefl _), Nat.sub_self, Nat.testBit_zero] at hx
  have h0 : h % 2 = 1 := by simpa using hx
  obtain ⟨q, rfl⟩ : ∃ q, h = 2 * q + 1 := ⟨h / 2, by omega⟩
  have e : 2 ^ s * (2 * q + 1) + l - 2 ^ s = 2 ^ s * (2 * q) + l := by
    have : 2 ^ s * (2 * q + 1) = 2 ^ s * (2 * q) + 2 ^ s := by ring
    omega
  rw [e, testBit_of hl, testBit_of hl]
  by_cases h1 : b < s
  · rw [if_pos h1, if_pos h1, if_neg (by omega)]
  · rw [if_neg h1, if_neg h1]
    by_cases h2 : b = s
    · subst h2; simp
    · rw [if_neg h2]
      obtain ⟨t, ht⟩ : ∃ t, b - s = t + 1 := ⟨b - s - 1, by omega⟩
      rw [ht, testBit_even_odd]

/-- The number with bit `s` set to `v`. -/
def setBit (s : Nat) (v : Bool) (x : Nat) : Nat :=
  if x.testBit s = v then x else if v then x + 2 ^ s else x - 2 ^ s

theorem testBit_setBit (s : Nat) (v : Bool) (x b : Nat) :
    (setBit s v x).testBit b = if b = s then v else x.testBit b := by
  rw [setBit]
  cases hx : x.testBit s <;> cases v
  · rw [if_pos rfl]; by_cases hb : b = s <;> simp [hb, hx]
  · rw [if_neg (by simp), if_pos rfl]; exact testBit_add_bit hx b
  · rw [if_neg (by simp), if_neg (by simp)]; exact testBit_sub_bit hx b
  · rw [if_pos rfl]; by_cases hb : b = s <;> simp [hb, hx]

theorem lt_of_testBit {L x : Nat} (h : ∀ b, L ≤ b → x.testBit b = false) : x < 2 ^ L := by
  apply Nat.lt_pow_two_of_testBit
  exact h

theorem testBit_high {L x b : Nat} (h : x < 2 ^ L) (hb : L ≤ b) : x.testBit b = false :=
  Nat.testBit_lt_two_pow (lt_of_lt_of_le h (Nat.pow_le_pow_right (by omega) hb))

theorem setBit_lt {L s x : Nat} (hs : s < L) (v : Bool) (hx : x < 2 ^ L) : setBit s v x < 2 ^ L := by
  apply lt_of_testBit
  intro b hb
  rw [testBit_setBit, if_neg (by omega)]
  exact testBit_high hx hb

theorem eq_of_low_bits {L x y : Nat} (hx : x < 2 ^ L) (hy : y < 2 ^ L)
    (h : ∀ b, b < L → x.testBit b = y.testBit b) : x = y := by
  apply Nat.eq_of_testBit_eq
  intro b
  by_cases hb : b < L
  · exact h b hb
  · rw [testBit_high hx (by omega), testBit_high hy (by omega)]

/-! ### One level -/

/-- One level of the transform, on bit `s`. -/
def level (tr : α → α → α × α) (s : Nat) (g : Nat → α) (x : Nat) : α :=
  if x.testBit s then (tr (g (setBit s false x)) (g x)).2 else (tr (g x) (g (setBit s true x))).1

theorem butterfly_spec {tr : α → α → α × α} {f : List α} {n : Nat} {g : Nat → α} (h : Rep f n g)
    {k1 k2 : Nat} (h1 : k1 < n) (h2 : k2 < n) :
    butterfly tr f k1 k2 = some ((f.set k1 (tr (g k1) (g k2)).1).set k2 (tr (g k1) (g k2)).2) := by
  rw [butterfly, h.rd h1, h.rd h2]
  simp only [Option.bind_eq_bind, Option.bind_some]
  rw [h.wr h1]
  simp only [Option.bind_some]
  rw [(h.set k1 _).wr h2]

theorem difInner_spec {tr : α → α → α × α} {n : Nat} : ∀ (c k1 k2 : Nat) (f : List α) (g : Nat → α),
    Rep f n g → k1 + c ≤ k2 → k2 + c ≤ n →
    ∃ f', difInner tr c k1 k2 f = some f' ∧ Rep f' n (fun x =>
      if k1 ≤ x ∧ x < k1 + c then (tr (g x) (g (x - k1 + k2))).1
      else if k2 ≤ x ∧ x < k2 + c then (tr (g (x - k2 + k1)) (g x)).2 else g x) := by
  intro c
  induction c with
  | zero =>
    intro k1 k2 f g h _ _
    refine ⟨f, rfl, h.congr (fun x _ => ?_)⟩
    rw [if_neg (by omega), if_neg (by omega)]
  | succ c ih =>
    intro k1 k2 f g h h1 h2
    rw [difInner, butterfly_spec h (by omega) (by omega)]
    simp only [Option.bind_eq_bind, Option.bind_some]
    obtain ⟨f', e, hf⟩ := ih (k1 + 1) (k2 + 1) _ _ ((h.set k1 _).set k2 _) (by omega) (by omega)
    refine ⟨f', e, hf.congr (fun x _ => ?_)⟩
    have e1 : x - (k1 + 1) + (k2 + 1) = x - k1 + k2 ∨ x ≤ k1 := by omega
    have e2 : x - (k2 + 1) + (k1 + 1) = x - k2 + k1 ∨ x ≤ k2 := by omega
    by_cases a1 : x = k1
    · subst a1
      rw [if_neg (by omega), if_neg (by omega), if_pos (by omega), Function.update_of_ne (by omega),
        Function.update_self, Nat.sub_self, Nat.zero_add]
    · by_cases a2 : x = k2
      · subst a2
        rw [if_neg (by omega), if_neg (by omega), if_neg (by omega), if_pos (by omega),
          Function.update_self, Nat.sub_self, Nat.zero_add]
      · by_cases a3 : k1 ≤ x ∧ x < k1 + (c + 1)
        · rw [if_pos (by omega), if_pos a3, Function.update_of_ne a2, Function.update_of_ne a1,
            Function.update_of_ne (by omega), Function.update_of_ne (by omega),
            e1.resolve_right (by omega)]
        · by_cases a4 : k2 ≤ x ∧ x < k2 + (c + 1)
          · rw [if_neg (by omega), if_pos (by omega), if_neg a3, if_pos a4,
              Function.update_of_ne (by omega), Function.update_of_ne (by omega),
              Function.update_of_ne a2, Function.update_of_ne a1, e2.resolve_right (by omega)]
          · rw [if_neg (by omega), if_neg (by omega), if_neg a3, if_neg a4,
              Function.update_of_ne a2, Function.update_of_ne a1]

theorem testBit_block {s q y : Nat} (hy : y < 2 ^ (s + 1)) :
    (2 ^ (s + 1) * q + y).testBit s = decide (2 ^ s ≤ y) := by
  rw [testBit_of hy, if_pos (by omega)]
  by_cases h : 2 ^ s ≤ y
  · rw [decide_eq_true h]
    have : y = 2 ^ s * 1 + (y - 2 ^ s) := by omega
    rw [this, testBit_of (by rw [pow_succ] at hy; omega), if_neg (lt_irrefl _), Nat.sub_self]; rfl
  · rw [decide_eq_false h]
    exact Nat.testBit_lt_two_pow (by omega)

theorem difMid_spec {tr : α → α → α × α} {n s Q : Nat} (hn : n = 2 ^ (s + 1) * Q) :
    ∀ (k q : Nat) (f : List α) (g g0 : Nat → α), q + k = Q → Rep f n g →
    (∀ x, x < n → g x = if x < 2 ^ (s + 1) * q then level tr s g0 x else g0 x) →
    ∃ f', difMid tr n (2 ^ (s + 1)) (2 ^ (s + 1) * q) f = some f' ∧ Rep f' n (level tr s g0) := by
  intro k
  induction k with
  | zero =>
    intro q f g g0 hq h hg
    rw [difMid, if_neg (by rw [hn, show q = Q by omega]; omega)]
    refine ⟨f, rfl, h.congr (fun x hx => ?_)⟩
    rw [hg x hx, if_pos (by rw [show q = Q by omega, ← hn]; exact hx)]
  | succ k ih =>
    intro q f g g0 hq h hg
    have hpos : 0 < 2 ^ (s + 1) := Nat.two_pow_pos _
    have hle : 2 ^ (s + 1) * (q + 1) ≤ n := by rw [hn]; exact Nat.mul_le_mul_left _ (by omega)
    have hh : 2 ^ (s + 1) / 2 = 2 ^ s := by rw [pow_succ]; omega
    have hdbl : 2 ^ (s + 1) = 2 ^ s + 2 ^ s := by rw [pow_succ]; omega
    have hexp : 2 ^ (s + 1) * (q + 1) = 2 ^ (s + 1) * q + 2 ^ (s + 1) := by ring
    rw [difMid, if_pos (by omega), if_neg (by omega), hh]
    obtain ⟨f1, e1, h1⟩ := difInner_spec (tr := tr) (2 ^ s) (2 ^ (s + 1) * q)
      (2 ^ (s + 1) * q + 2 ^ s) f g h (by omega) (by omega)
    rw [e1]
    rw [← hexp]
    refine ih (q + 1) f1 _ g0 (by omega) h1 (fun x hx => ?_)
    by_cases c1 : x < 2 ^ (s + 1) * q
    · rw [if_neg (by omega), if_neg (by omega), if_pos (by omega), hg x hx, if_pos c1]
    · by_cases c2 : x < 2 ^ (s + 1) * (q + 1)
      · rw [if_pos c2]
        obtain ⟨y, hy⟩ : ∃ y, x = 2 ^ (s + 1) * q + y := ⟨x - 2 ^ (s + 1) * q, by omega⟩
        have hy2 : y < 2 ^ (s + 1) := by omega
        have hb : x.testBit s = decide (2 ^ s ≤ y) := by rw [hy]; exact testBit_block hy2
        have hgx : g x = g0 x := by rw [hg x hx, if_neg c1]
        by_cases c3 : 2 ^ s ≤ y
        · rw [decide_eq_true c3] at hb
          rw [if_neg (by omega), if_pos (by omega), level, if_pos hb, hgx]
          have : setBit s false x = x - 2 ^ s := by rw [setBit, hb]; rfl
          rw [this]
          have e3 : x - (2 ^ (s + 1) * q + 2 ^ s) + 2 ^ (s + 1) * q = x - 2 ^ s := by omega
          rw [e3, hg (x - 2 ^ s) (by omega), if_neg (by omega)]
        · rw [decide_eq_false c3] at hb
          rw [if_pos (by omega), level, hb, if_neg (by simp), hgx]
          have : setBit s true x = x + 2 ^ s := by rw [setBit, hb]; rfl
          rw [this]
          have e3 : x - 2 ^ (s + 1) * q + (2 ^ (s + 1) * q + 2 ^ s) = x + 2 ^ s := by omega
          rw [e3, hg (x + 2 ^ s) (by omega), if_neg (by omega)]
      · rw [if_neg (by omega), if_neg (by omega), if_neg c2, hg x hx, if_neg c1]

/-! ### The whole transform -/

section ring

variable [CommRing α]

/-- The weight with which `f[i]` contributes to entry `k` once the bits `b` with `S b` were
processed. -/
def wt (M : Bool → Bool → α) (L : Nat) (S : Nat → Prop) [DecidablePred S] (k i : Nat) : α :=
  ∏ b ∈ Finset.range L,
    if S b then M (k.testBit b) (i.testBit b) else if k.testBit b = i.testBit b then 1 else 0

/-- The transform with the 2x2 matrix `M` on every bit: a Kronecker power of `M`. -/
def kron (M : Bool → Bool → α) (L : Nat) (f : Nat → α) (k : Nat) : α :=
  ∑ i ∈ Finset.range (2 ^ L), (∏ b ∈ Finset.range L, M (k.testBit b) (i.testBit b)) * f i

/-- A pair transformation is multiplication by `M`. -/
def Linear (tr : α → α → α × α) (M : Bool → Bool → α) : Prop :=
  ∀ u v, tr u v = (M false false * u + M false true * v, M true false * u + M true true * v)

theorem level_linear {tr : α → α → α × α} {M : Bool → Bool → α} (h : Linear tr M) (s : Nat)
    (g : Nat → α) (k : Nat) :
    level tr s g k = M (k.testBit s) false * g (setBit s false k) +
      M (k.testBit s) true * g (setBit s true k) := by
  rw [level]
  cases hk : k.testBit s
  · have : setBit s false k = k := by rw [setBit, hk]; rfl
    rw [if_neg (by simp), this, h]
  · have : setBit s true k = k := by rw [setBit, hk]; rfl
    rw [if_pos rfl, this, h]

theorem wt_step (M : Bool → Bool → α) {L s : Nat} (hs : s < L) (S S' : Nat → Prop)
    [DecidablePred S] [DecidablePred S'] (hS : ¬ S s) (hS' : ∀ b, S' b ↔ S b ∨ b = s) (k i : Nat) :
    wt M L S' k i = M (k.testBit s) false * wt M L S (setBit s false k) i +
      M (k.testBit s) true * wt M L S (setBit s true k) i := by
  have hmem : s ∈ Finset.range L := Finset.mem_range.mpr hs
  simp only [wt]
  rw [← Finset.mul_prod_erase _ _ hmem, ← Finset.mul_prod_erase _ _ hmem,
    ← Finset.mul_prod_erase _ _ hmem]
  have hrest : ∀ v, ∏ b ∈ (Finset.range L).erase s,
      (if S b then M ((setBit s v k).testBit b) (i.testBit b)
        else if (setBit s v k).testBit b = i.testBit b then (1 : α) else 0) =
      ∏ b ∈ (Finset.range L).erase s,
        (if S' b then M (k.testBit b) (i.testBit b)
          else if k.testBit b = i.testBit b then (1 : α) else 0) := by
    intro v
    apply Finset.prod_congr rfl
    intro b hb
    have hbs : b ≠ s := Finset.ne_of_mem_erase hb
    have : S' b ↔ S b := by rw [hS']; simp [hbs]
    simp only [testBit_setBit, if_neg hbs, this]
  rw [hrest false, hrest true]
  have hs1 : S' s := by rw [hS']; exact Or.inr rfl
  simp only [if_pos hs1, if_neg hS, testBit_setBit, if_true]
  cases hi : i.testBit s <;> simp

theorem wt_empty (M : Bool → Bool → α) (L : Nat) {k i : Nat} (hk : k < 2 ^ L) (hi : i < 2 ^ L) :
    wt M L (fun _ => False) k i = if i = k then 1 else 0 := by
  simp only [wt, if_false]
  by_cases h : i = k
  · subst h; simp
  · rw [if_neg h]
    have : ∃ b, b < L ∧ k.testBit b ≠ i.testBit b := by
      by_contra hc
      push Not at hc
      exact h (eq_of_low_bits hi hk (fun b hb => (hc b hb).symm))
    obtain ⟨b, hb, hne⟩ := this
    exact Finset.prod_eq_zero (Finset.mem_range.mpr hb) (by rw [if_neg hne])

/-- The state of the transform: `S` were processed. -/
def Done (M : Bool → Bool → α) (L : Nat) (f : Nat → α) (S : Nat → Prop) [DecidablePred S]
    (g : Nat → α) : Prop :=
  ∀ k, k < 2 ^ L → g k = ∑ i ∈ Finset.range (2 ^ L), wt M L S k i * f i

theorem done_start (M : Bool → Bool → α) (L : Nat) (f : Nat → α) :
    Done M L f (fun _ => False) f := by
  intro k hk
  rw [Finset.sum_congr rfl (g := fun i => if i = k then f i else 0)]
  · rw [Finset.sum_ite_eq', if_pos (Finset.mem_range.mpr hk)]
  · intro i hi
    rw [wt_empty M L hk (Finset.mem_range.mp hi)]
    split_ifs <;> simp

theorem done_step {tr : α → α → α × α} {M : Bool → Bool → α} (h : Linear tr M) {L s : Nat}
    (hs : s < L) (S S' : Nat → Prop) [DecidablePred S] [DecidablePred S'] (hS : ¬ S s)
    (hS' : ∀ b, S' b ↔ S b ∨ b = s) {f g : Nat → α} (hg : Done M L f S g) :
    Done M L f S' (level tr s g) := by
  intro k hk
  rw [level_linear h, hg _ (setBit_lt hs _ hk), hg _ (setBit_lt hs _ hk), Finset.mul_sum,
    Finset.mul_sum, ← Finset.sum_add_distrib]
  apply Finset.sum_congr rfl
  intro i _
  rw [wt_step M hs S S' hS hS' k i]
  ring

theorem done_all {M : Bool → Bool → α} {L : Nat} {f g : Nat → α} {S : Nat → Prop} [DecidablePred S]
    (hS : ∀ b, b < L → S b) (hg : Done M L f S g) {k : Nat} (hk : k < 2 ^ L) : g k = kron M L f k := by
  rw [hg k hk, kron]
  apply Finset.sum_congr rfl
  intro i _
  congr 1
  apply Finset.prod_congr rfl
  intro b hb
  rw [if_pos (hS b (Finset.mem_range.mp hb))]

theorem difOuter_spec {tr : α → α → α × α} {M : Bool → Bool → α} (hl : Linear tr M) {L : Nat}
    (f0 : Nat → α) : ∀ (s : Nat) (f : List α) (g : Nat → α), s ≤ L → Rep f (2 ^ L) g →
    Done M L f0 (fun b => s ≤ b) g →
    ∃ f', difOuter tr (2 ^ L) s f = some f' ∧ Rep f' (2 ^ L) (kron M L f0) := by
  intro s
  induction s with
  | zero =>
    intro f g _ h hg
    exact ⟨f, rfl, h.congr (fun k hk => done_all (fun b _ => Nat.zero_le b) hg hk)⟩
  | succ s ih =>
    intro f g hs h hg
    have hn : 2 ^ L = 2 ^ (s + 1) * 2 ^ (L - (s + 1)) := by rw [← pow_add]; congr 1; omega
    obtain ⟨f1, e1, h1⟩ := difMid_spec (tr := tr) hn (2 ^ (L - (s + 1))) 0 f g g (by omega) h
      (fun x _ => by rw [if_neg (by omega)])
    rw [Nat.mul_zero] at e1
    rw [difOuter, e1]
    simp only [Option.bind_eq_bind, Option.bind_some]
    exact ih f1 _ (by omega) h1
      (done_step hl (by omega) (fun b => s + 1 ≤ b) _ (by omega) (fun b => by omega) hg)

theorem dif_spec {tr : α → α → α × α} {M : Bool → Bool → α} (hl : Linear tr M) {L : Nat}
    {f : List α} {g : Nat → α} (h : Rep f (2 ^ L) g) :
    ∃ f', dif tr L f = some f' ∧ Rep f' (2 ^ L) (kron M L g) := by
  refine difOuter_spec hl g L f g le_rfl h ?_
  intro k hk
  rw [done_start M L g k hk]
  apply Finset.sum_congr rfl
  intro i _
  congr 1
  apply Finset.prod_congr rfl
  intro b hb
  rw [if_neg (by simp)]
  rw [if_neg (show ¬ (L ≤ b) by rw [Finset.mem_range] at hb; omega)]

/-! ### Algebra of Kronecker powers -/

theorem sum_bits (A : Nat → Bool → α) (L : Nat) :
    ∑ i ∈ Finset.range (2 ^ L), ∏ b ∈ Finset.range L, A b (i.testBit b) =
      ∏ b ∈ Finset.range L, (A b false + A b true) := by
  induction L with
  | zero => simp
  | succ L ih =>
    rw [pow_succ, Nat.mul_two, Finset.sum_range_add, Finset.prod_range_succ, ← ih, mul_add,
      Finset.sum_mul, Finset.sum_mul]
    congr 1
    · apply Finset.sum_congr rfl
      intro i hi
      rw [Finset.mem_range] at hi
      rw [Finset.prod_range_succ, testBit_high hi le_rfl]
    · apply Finset.sum_congr rfl
      intro i hi
      rw [Finset.mem_range] at hi
      have hi0 : i.testBit L = false := testBit_high hi le_rfl
      rw [Finset.prod_range_succ, Nat.add_comm, testBit_add_bit hi0, if_pos rfl]
      congr 1
      apply Finset.prod_congr rfl
      intro b hb
      rw [Finset.mem_range] at hb
      rw [testBit_add_bit hi0, if_neg (by omega)]

theorem kron_congr (M : Bool → Bool → α) (L : Nat) {f g : Nat → α}
    (h : ∀ i, i < 2 ^ L → f i = g i) (k : Nat) : kron M L f k = kron M L g k := by
  rw [kron, kron]
  apply Finset.sum_congr rfl
  intro i hi
  rw [h i (Finset.mem_range.mp hi)]

/-- Two transforms whose matrices multiply to `c` compose to a multiplication by `c^L`. -/
theorem kron_kron {M M' : Bool → Bool → α} {c : α}
    (h : ∀ a b, M' a false * M false b + M' a true * M true b = if a = b then c else 0) (L : Nat)
    (f : Nat → α) {k : Nat} (hk : k < 2 ^ L) : kron M' L (kron M L f) k = c ^ L * f k := by
  have h1 : kron M' L (kron M L f) k = ∑ j ∈ Finset.range (2 ^ L),
      (∏ b ∈ Finset.range L, if k.testBit b = j.testBit b then c else 0) * f j := by
    rw [kron]
    simp only [kron, Finset.mul_sum]
    rw [Finset.sum_comm]
    apply Finset.sum_congr rfl
    intro j _
    have h2 : ∑ i ∈ Finset.range (2 ^ L), (∏ b ∈ Finset.range L, M' (k.testBit b) (i.testBit b)) *
        ((∏ b ∈ Finset.range L, M (i.testBit b) (j.testBit b)) * f j) =
        (∑ i ∈ Finset.range (2 ^ L), ∏ b ∈ Finset.range L,
          (fun b v => M' (k.testBit b) v * M v (j.testBit b)) b (i.testBit b)) * f j := by
      rw [Finset.sum_mul]
      apply Finset.sum_congr rfl
      intro i _
      rw [Finset.prod_mul_distrib]
      ring
    rw [h2, sum_bits (fun b v => M' (k.testBit b) v * M v (j.testBit b))]
    congr 1
    apply Finset.prod_congr rfl
    intro b _
    exact h _ _
  rw [h1, Finset.sum_eq_single k]
  · simp
  · intro j hj hjk
    rw [Finset.mem_range] at hj
    have : ∃ b, b < L ∧ k.testBit b ≠ j.testBit b := by
      by_contra hc
      push Not at hc
      exact hjk (eq_of_low_bits hj hk (fun b hb => (hc b hb).symm))
    obtain ⟨b, hb, hne⟩ := this
    rw [Finset.prod_eq_zero (Finset.mem_range.mpr hb) (by rw [if_neg hne]), zero_mul]
  · intro hk'
    exact absurd (Finset.mem_range.mpr hk) hk'

end ring

end Altruct.Convolution
