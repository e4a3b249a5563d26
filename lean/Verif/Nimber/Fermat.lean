/-
The nim product on the fields `[0, 2^(2^k))`.
-/
import Verif.Nimber.Theory
import Mathlib.Data.Fintype.EquivFin
import Mathlib.Tactic.Linarith

namespace Altruct.Nimber

local infixl:70 " ⊗ " => nmul

/-- The Fermat 2-powers 2, 4, 16, 256, ... -/
def F (k : Nat) : Nat := 2 ^ 2 ^ k
/-- Their halves 1, 2, 8, 128, ... -/
def H (k : Nat) : Nat := 2 ^ (2 ^ k - 1)

theorem F_eq (k : Nat) : F k = 2 * H k := by
  rw [F, H, ← pow_succ', Nat.sub_add_cancel Nat.one_le_two_pow]

theorem F_succ (k : Nat) : F (k + 1) = F k * F k := by
  rw [F, F, ← pow_add, pow_succ]; congr 1; omega

theorem H_succ (k : Nat) : H (k + 1) = F k * H k := by
  have : 1 ≤ 2 ^ k := Nat.one_le_two_pow
  rw [H, F, H, ← pow_add, pow_succ]; congr 1; omega

theorem F_pos (k : Nat) : 0 < F k := Nat.two_pow_pos _
theorem H_pos (k : Nat) : 0 < H k := Nat.two_pow_pos _
theorem one_lt_F (k : Nat) : 1 < F k := by have := H_pos k; have := F_eq k; omega

theorem H_lt (k : Nat) : H k < F k := by have := F_eq k; have := H_pos k; omega

/-! ### numbers as pairs -/

theorem pack_add (k q r : Nat) (hr : r < F k) : F k * q ^^^ r = F k * q + r := by
  rw [F] at *
  apply Nat.eq_of_testBit_eq
  intro i
  rw [Nat.testBit_xor, Nat.testBit_two_pow_mul_add _ hr, Nat.testBit_two_pow_mul]
  split_ifs with h
  · simp [Nat.not_le.mpr h]
  · have : r.testBit i = false := Nat.testBit_lt_two_pow (lt_of_lt_of_le hr (Nat.pow_le_pow_right (by omega) (by omega)))
    simp [this, Nat.not_lt.mp h]

theorem mul_xor (k a b : Nat) : F k * (a ^^^ b) = F k * a ^^^ F k * b := by
  rw [F]
  apply Nat.eq_of_testBit_eq
  intro i
  simp only [Nat.testBit_xor, Nat.testBit_two_pow_mul]
  cases h : decide (2 ^ k ≤ i) <;> simp

theorem pack_inj (k q r q' r' : Nat) (hr : r < F k) (hr' : r' < F k) (h : F k * q ^^^ r = F k * q' ^^^ r') : q = q' ∧ r = r' := by
  rw [pack_add k q r hr, pack_add k q' r' hr'] at h
  have hp := F_pos k
  have h1 := congrArg (· / F k) h
  have h2 := congrArg (· % F k) h
  simp only [Nat.mul_add_div hp, Nat.div_eq_of_lt hr, Nat.div_eq_of_lt hr', Nat.add_zero, Nat.mul_add_mod, Nat.mod_eq_of_lt hr,
    Nat.mod_eq_of_lt hr'] at h1 h2
  exact ⟨h1, h2⟩

theorem unpack (k u : Nat) : u = F k * (u / F k) ^^^ (u % F k) := by
  rw [pack_add k _ _ (Nat.mod_lt _ (F_pos k)), Nat.div_add_mod]

theorem xor_lt (k a b : Nat) (ha : a < F k) (hb : b < F k) : a ^^^ b < F k := Nat.xor_lt_two_pow ha hb

theorem xor_lt_H (k a b : Nat) (ha : a < H k) (hb : b < H k) : a ^^^ b < H k := Nat.xor_lt_two_pow ha hb

theorem xor_H_lt (k q : Nat) (h1 : H k ≤ q) (h2 : q < F k) : q ^^^ H k < H k := by
  have hF := F_eq k
  have e : q = H k * 1 + (q - H k) := by omega
  have hq : q - H k < H k := by omega
  generalize q - H k = r at e hq
  have e2 : H k * 1 + r = H k * 1 ^^^ r := by
    rw [H] at *
    apply Nat.eq_of_testBit_eq
    intro i
    rw [Nat.testBit_xor, Nat.testBit_two_pow_mul_add _ hq, Nat.testBit_two_pow_mul]
    split_ifs with h
    · simp [Nat.not_le.mpr h]
    · have : r.testBit i = false := Nat.testBit_lt_two_pow (lt_of_lt_of_le hq (Nat.pow_le_pow_right (by omega) (by omega)))
      simp [this, Nat.not_lt.mp h]
  rw [e, e2, mul_one, Nat.xor_comm (H k), Nat.xor_assoc, Nat.xor_self, Nat.xor_zero]
  exact hq

theorem pack_lt (k q r : Nat) (hq : q < F k) (hr : r < F k) : F k * q ^^^ r < F (k + 1) := by
  rw [pack_add k q r hr, F_succ]; nlinarith

theorem sq_xor (a b : Nat) : (a ^^^ b) ⊗ (a ^^^ b) = a ⊗ a ^^^ b ⊗ b := by
  rw [nmul_xor, xor_nmul, xor_nmul, nmul_comm b a]
  xor_bits

/-! ### the induction -/

/-- What is known about `[0, 2^(2^k))`: it is closed, and the values of `t^2 + t` are its lower half. -/
structure Level (k : Nat) : Prop where
  closed : ∀ a b, a < F k → b < F k → a ⊗ b < F k
  art : ∀ p, p < F k → (p < H k ↔ ∃ t < F k, t ⊗ t ^^^ t = p)

section
variable {k : Nat} (L : Level k)
include L

/-- Multiplication by a non-zero element is onto. -/
theorem Level.surj (s r : Nat) (hs : s < F k) (hs0 : s ≠ 0) (hr : r < F k) : ∃ t < F k, t ⊗ s = r := by
  have hinj : Function.Injective (fun t : Fin (F k) => (⟨t.1 ⊗ s, L.closed t.1 s t.2 hs⟩ : Fin (F k))) := by
    intro t t' h
    exact Fin.ext (nmul_right_cancel _ _ s hs0 (congrArg Fin.val h))
  obtain ⟨t, ht⟩ := Finite.surjective_of_injective hinj ⟨r, hr⟩
  exact ⟨t.1, t.2, congrArg Fin.val ht⟩

/-- Every element is a square. -/
theorem Level.sqrt (r : Nat) (hr : r < F k) : ∃ t < F k, t ⊗ t = r := by
  have hinj : Function.Injective (fun t : Fin (F k) => (⟨t.1 ⊗ t.1, L.closed t.1 t.1 t.2 t.2⟩ : Fin (F k))) := by
    intro t t' h
    have h' : t.1 ⊗ t.1 = t'.1 ⊗ t'.1 := congrArg Fin.val h
    by_contra hne
    have h0 : t.1 ^^^ t'.1 ≠ 0 := fun h0 => hne (Fin.ext (Nat.xor_eq_zero_iff.mp h0))
    refine nmul_ne_zero _ _ h0 h0 ?_
    rw [sq_xor, h', Nat.xor_self]
  obtain ⟨t, ht⟩ := Finite.surjective_of_injective hinj ⟨r, hr⟩
  exact ⟨t.1, t.2, congrArg Fin.val ht⟩

/-- A Fermat 2-power times a smaller number is the ordinary product. -/
theorem Level.F_nmul (b : Nat) (hb : b < F k) : F k ⊗ b = F k * b := by
  induction b using Nat.strongRecOn with
  | ind b ih =>
    apply le_antisymm
    · apply le_of_notMem
      intro a' ha b' hb' h
      rw [ih b' hb' (by omega), Nat.xor_comm (a' ⊗ b), Nat.xor_assoc, ← nmul_xor] at h
      have := pack_inj k b 0 b' _ (F_pos k) (L.closed a' (b ^^^ b') ha (xor_lt k _ _ hb (by omega))) (by rw [Nat.xor_zero]; exact h)
      omega
    · by_contra hlt
      push Not at hlt
      have hp := F_pos k
      generalize hu : F k ⊗ b = u at hlt
      have hq : u / F k < b := Nat.div_lt_of_lt_mul hlt
      have hne : b ^^^ u / F k ≠ 0 := fun h0 => by have := Nat.xor_eq_zero_iff.mp h0; omega
      obtain ⟨t, ht, e⟩ := L.surj (b ^^^ u / F k) (u % F k) (xor_lt k _ _ hb (by omega)) hne (Nat.mod_lt _ hp)
      refine notMem (F k) b t (u / F k) ht hq ?_
      rw [ih _ hq (by omega), Nat.xor_comm (t ⊗ b), Nat.xor_assoc, ← nmul_xor, e, hu]
      exact unpack k u

/-- The square of a Fermat 2-power. -/
theorem Level.F_sq : F k ⊗ F k = F k ^^^ H k := by
  have hF := F_eq k
  have hH := H_pos k
  have h1F := one_lt_F k
  have hsum : F k ^^^ H k = F k + H k := by have := pack_add k 1 (H k) (by omega); simpa using this
  have rew : ∀ a' b', a' < F k → b' < F k → a' ⊗ F k ^^^ F k ⊗ b' ^^^ a' ⊗ b' = F k * (a' ^^^ b') ^^^ a' ⊗ b' := by
    intro a' b' ha hb
    rw [nmul_comm a' (F k), L.F_nmul a' ha, L.F_nmul b' hb, mul_xor]
  apply le_antisymm
  · apply le_of_notMem
    intro a' ha b' hb h
    rw [rew a' b' ha hb] at h
    obtain ⟨h1, h2⟩ := pack_inj k 1 (H k) (a' ^^^ b') (a' ⊗ b') (by omega) (L.closed a' b' ha hb) (by rw [mul_one]; exact h)
    have hb' : b' = 1 ^^^ a' := by rw [h1, Nat.xor_comm a' b', Nat.xor_assoc, Nat.xor_self, Nat.xor_zero]
    have := (L.art (H k) (by omega)).mpr ⟨a', ha, by rw [h2, hb', nmul_xor, nmul_one]; exact Nat.xor_comm _ _⟩
    omega
  · by_contra hlt
    push Not at hlt
    rw [hsum] at hlt
    generalize hu : F k ⊗ F k = u at hlt
    rcases Nat.lt_or_ge u (F k) with h | h
    · obtain ⟨t, ht, e⟩ := L.sqrt u h
      refine notMem (F k) (F k) t t ht ht ?_
      rw [rew t t ht ht, Nat.xor_self, mul_zero, Nat.zero_xor, e, hu]
    · obtain ⟨t, ht, e⟩ := (L.art (u - F k) (by omega)).mp (by omega)
      have ht1 : t ^^^ 1 < F k := xor_lt k _ _ ht h1F
      refine notMem (F k) (F k) t (t ^^^ 1) ht ht1 ?_
      have e3 : t ^^^ (t ^^^ 1) = 1 := by rw [← Nat.xor_assoc, Nat.xor_self, Nat.zero_xor]
      rw [rew t _ ht ht1, e3, nmul_xor, nmul_one, e, hu, pack_add k 1 _ (by omega)]
      omega

/-- The product of two pairs. -/
theorem Level.pack_nmul (a1 a0 b1 b0 : Nat) (h1 : a1 < F k) (h0 : a0 < F k) (g1 : b1 < F k) (g0 : b0 < F k) :
    (F k * a1 ^^^ a0) ⊗ (F k * b1 ^^^ b0) =
      F k * (a1 ⊗ b1 ^^^ a1 ⊗ b0 ^^^ a0 ⊗ b1) ^^^ (H k ⊗ (a1 ⊗ b1) ^^^ a0 ⊗ b0) := by
  have c11 := L.closed a1 b1 h1 g1
  have c10 := L.closed a1 b0 h1 g0
  have c01 := L.closed a0 b1 h0 g1
  have e : (F k ⊗ a1 ^^^ a0) ⊗ (F k ⊗ b1 ^^^ b0) =
      (F k ⊗ F k) ⊗ (a1 ⊗ b1) ^^^ F k ⊗ (a1 ⊗ b0) ^^^ F k ⊗ (a0 ⊗ b1) ^^^ a0 ⊗ b0 := by
    simp only [nmul_xor, xor_nmul]
    have e1 : F k ⊗ a1 ⊗ (F k ⊗ b1) = F k ⊗ F k ⊗ (a1 ⊗ b1) := by
      rw [nmul_assoc, ← nmul_assoc a1, nmul_comm a1 (F k), nmul_assoc (F k) a1, ← nmul_assoc (F k) (F k)]
    have e2 : a0 ⊗ (F k ⊗ b1) = F k ⊗ (a0 ⊗ b1) := by rw [← nmul_assoc, nmul_comm a0, nmul_assoc]
    rw [e1, e2, nmul_assoc (F k) a1 b0]
    ac_rfl
  rw [← L.F_nmul a1 h1, ← L.F_nmul b1 g1, e, L.F_sq, xor_nmul, L.F_nmul _ c11, L.F_nmul _ c10, L.F_nmul _ c01, mul_xor, mul_xor]
  ac_rfl

theorem Level.next : Level (k + 1) := by
  have hHF := H_lt k
  have hp := F_pos k
  have hdiv : ∀ a, a < F (k + 1) → a / F k < F k := by
    intro a ha; rw [F_succ] at ha; exact Nat.div_lt_of_lt_mul ha
  have hmod : ∀ a, a % F k < F k := fun a => Nat.mod_lt _ hp
  refine ⟨?_, ?_⟩
  · intro a b ha hb
    rw [unpack k a, unpack k b, L.pack_nmul _ _ _ _ (hdiv a ha) (hmod a) (hdiv b hb) (hmod b)]
    apply pack_lt
    · exact xor_lt k _ _ (xor_lt k _ _ (L.closed _ _ (hdiv a ha) (hdiv b hb)) (L.closed _ _ (hdiv a ha) (hmod b))) (L.closed _ _ (hmod a) (hdiv b hb))
    · exact xor_lt k _ _ (L.closed _ _ hHF (L.closed _ _ (hdiv a ha) (hdiv b hb))) (L.closed _ _ (hmod a) (hmod b))
  · have artp : ∀ u v, u < F k → v < F k → (F k * u ^^^ v) ⊗ (F k * u ^^^ v) ^^^ (F k * u ^^^ v) =
        F k * (u ⊗ u ^^^ u) ^^^ (H k ⊗ (u ⊗ u) ^^^ (v ⊗ v ^^^ v)) := by
      intro u v hu hv
      rw [L.pack_nmul _ _ _ _ hu hv hu hv, nmul_comm v u, Nat.xor_assoc (u ⊗ u), Nat.xor_self, Nat.xor_zero, mul_xor]
      ac_rfl
    have lowlt : ∀ u v, u < F k → v < F k → H k ⊗ (u ⊗ u) ^^^ (v ⊗ v ^^^ v) < F k := fun u v hu hv =>
      xor_lt k _ _ (L.closed _ _ hHF (L.closed _ _ hu hu)) (xor_lt k _ _ (L.closed _ _ hv hv) hv)
    intro p hp2
    have hlt : p < H (k + 1) ↔ p / F k < H k := by
      rw [H_succ, Nat.div_lt_iff_lt_mul hp, mul_comm]
    rw [hlt]
    constructor
    · intro h
      obtain ⟨u, hu, eu⟩ := (L.art (p / F k) (by omega)).mp h
      have hq : p % F k ^^^ H k ⊗ (u ⊗ u) < F k := xor_lt k _ _ (hmod p) (L.closed _ _ hHF (L.closed _ _ hu hu))
      rcases Nat.lt_or_ge (p % F k ^^^ H k ⊗ (u ⊗ u)) (H k) with hc | hc
      · obtain ⟨v, hv, ev⟩ := (L.art _ hq).mp hc
        refine ⟨F k * u ^^^ v, pack_lt k u v hu hv, ?_⟩
        rw [artp u v hu hv, eu, ev]
        conv_rhs => rw [unpack k p]
        xor_bits
      · have hc2 := xor_H_lt k _ hc hq
        obtain ⟨v, hv, ev⟩ := (L.art _ (by omega)).mp hc2
        have hu1 : u ^^^ 1 < F k := xor_lt k _ _ hu (one_lt_F k)
        refine ⟨F k * (u ^^^ 1) ^^^ v, pack_lt k _ v hu1 hv, ?_⟩
        rw [artp _ v hu1 hv, ev, sq_xor, nmul_one, nmul_xor, nmul_one]
        have : u ⊗ u ^^^ 1 ^^^ (u ^^^ 1) = u ⊗ u ^^^ u := by xor_bits
        rw [this, eu]
        conv_rhs => rw [unpack k p]
        xor_bits
    · rintro ⟨t, ht, rfl⟩
      rw [unpack k t, artp _ _ (hdiv t ht) (hmod t), pack_add k _ _ (lowlt _ _ (hdiv t ht) (hmod t)),
        Nat.mul_add_div hp, Nat.div_eq_of_lt (lowlt _ _ (hdiv t ht) (hmod t)), Nat.add_zero]
      exact (L.art _ (xor_lt k _ _ (L.closed _ _ (hdiv t ht) (hdiv t ht)) (hdiv t ht))).mpr ⟨_, hdiv t ht, rfl⟩

end

theorem level (k : Nat) : Level k := by
  induction k with
  | zero =>
    have hF : F 0 = 2 := rfl
    have hH : H 0 = 1 := rfl
    have two : ∀ a, a < F 0 → a = 0 ∨ a = 1 := by intro a ha; omega
    refine ⟨?_, ?_⟩
    · intro a b ha hb
      rcases two a ha with rfl | rfl
      · rw [zero_nmul]; omega
      · rw [one_nmul]; exact hb
    · intro p _
      constructor
      · intro h
        exact ⟨0, by omega, by rw [zero_nmul]; simp; omega⟩
      · rintro ⟨t, ht, rfl⟩
        rcases two t ht with rfl | rfl
        · simp [zero_nmul, hH]
        · simp [one_nmul, hH]
  | succ k ih => exact ih.next

end Altruct.Nimber
