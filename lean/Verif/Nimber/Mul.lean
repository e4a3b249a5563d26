/-
Property C67, continued: the schoolbook product with its memo table, inverses and quotients.
-/
import Verif.Nimber.Props
import Mathlib.Data.Nat.Factorization.Basic

namespace Altruct.Nimber

local infixl:70 " ⊗ " => nmul

/-! ### products of powers of two -/

theorem xor_two_pow (i x : Nat) (h : x < 2 ^ i) : 2 ^ i ^^^ x = 2 ^ i + x := by
  apply Nat.eq_of_testBit_eq
  intro b
  have := Nat.testBit_two_pow_mul_add 1 h b
  rw [mul_one] at this
  rw [Nat.testBit_xor, this, Nat.testBit_two_pow]
  split_ifs with hc
  · simp [show i ≠ b by omega]
  · have e : x.testBit b = false := Nat.testBit_lt_two_pow (lt_of_lt_of_le h (Nat.pow_le_pow_right (by omega) (by omega)))
    rw [e]
    by_cases hib : i = b
    · subst hib; simp
    · obtain ⟨z, hz⟩ : ∃ z, b - i = z + 1 := ⟨b - i - 1, by omega⟩
      rw [hz]
      simp [hib, Nat.testBit_succ]

theorem top_bit (h : Nat) (h0 : h ≠ 0) : ∃ i x, h = 2 ^ i + x ∧ x < 2 ^ i := by
  refine ⟨h.log2, h - 2 ^ h.log2, ?_, ?_⟩
  · have := Nat.log2_self_le h0; omega
  · have := Nat.lt_log2_self (n := h)
    rw [pow_succ] at this; omega

theorem F_nmul_pow (i x : Nat) (h : x < 2 ^ i) : F i ⊗ 2 ^ x = 2 ^ (2 ^ i + x) := by
  have : 2 ^ x < F i := Nat.pow_lt_pow_right (by omega) h
  rw [(level i).F_nmul _ this, F, pow_add]

/-- A power of two with a high exponent times a small number is the ordinary product. -/
theorem two_pow_nmul (c s : Nat) (hs : s < F c) : ∀ h, 2 ^ c ∣ h → 2 ^ h ⊗ s = 2 ^ h * s := by
  intro h
  induction h using Nat.strongRecOn with
  | ind h ih =>
    intro hd
    by_cases h0 : h = 0
    · rw [h0, pow_zero, one_nmul, one_mul]
    obtain ⟨i, x, rfl, hx⟩ := top_bit h h0
    have hci : c ≤ i := by
      by_contra hc
      have h1 := Nat.le_of_dvd (by omega) hd
      have h2 : 2 ^ (i + 1) ≤ 2 ^ c := Nat.pow_le_pow_right (by omega) (by omega)
      rw [pow_succ] at h2
      omega
    have hdi : 2 ^ c ∣ 2 ^ i := pow_dvd_pow 2 hci
    have hdx : 2 ^ c ∣ x := (Nat.dvd_add_right hdi).mp hd
    have hsum : x + 2 ^ c ≤ 2 ^ i := by
      obtain ⟨q, rfl⟩ := hdx
      obtain ⟨p, hp⟩ := hdi
      rw [hp] at hx ⊢
      have := Nat.lt_of_mul_lt_mul_left hx
      nlinarith
    have hlt : 2 ^ x * s < F i := by
      have h1 : 2 ^ x * s < 2 ^ x * 2 ^ 2 ^ c := Nat.mul_lt_mul_of_pos_left hs (Nat.two_pow_pos _)
      rw [← pow_add] at h1
      exact lt_of_lt_of_le h1 (Nat.pow_le_pow_right (by omega) hsum)
    rw [← F_nmul_pow i x hx, nmul_assoc, ih x (by have := Nat.two_pow_pos i; omega) hdx, (level i).F_nmul _ hlt, F_nmul_pow i x hx, pow_add, F]
    ring

/-- Powers of two with disjoint exponents. -/
theorem pow_nmul_disjoint : ∀ m n : Nat, m &&& n = 0 → 2 ^ m ⊗ 2 ^ n = 2 ^ (m ^^^ n) := by
  have key : ∀ s m n : Nat, m + n ≤ s → n ≤ m → m &&& n = 0 → 2 ^ m ⊗ 2 ^ n = 2 ^ (m ^^^ n) := by
    intro s
    induction s with
    | zero =>
      intro m n h _ _
      obtain rfl : m = 0 := by omega
      obtain rfl : n = 0 := by omega
      rw [pow_zero, one_nmul, Nat.xor_self, pow_zero]
    | succ s ih =>
      intro m n h hnm hd
      by_cases h0 : m = 0
      · obtain rfl : n = 0 := by omega
        rw [h0, pow_zero, one_nmul, Nat.xor_self, pow_zero]
      obtain ⟨i, x, rfl, hx⟩ := top_bit m h0
      have hbit : (2 ^ i + x).testBit i = true := by
        rw [← xor_two_pow i x hx, Nat.testBit_xor, Nat.testBit_two_pow_self, Nat.testBit_lt_two_pow hx]; rfl
      have hn : n < 2 ^ i := by
        by_contra hc
        have hnb : n.testBit i = true := by
          obtain ⟨y, rfl⟩ : ∃ y, n = 2 ^ i + y := ⟨n - 2 ^ i, by omega⟩
          have hy : y < 2 ^ i := by omega
          rw [← xor_two_pow i y hy, Nat.testBit_xor, Nat.testBit_two_pow_self, Nat.testBit_lt_two_pow hy]; rfl
        have := congrArg (fun z => z.testBit i) hd
        simp only [Nat.testBit_and, hbit, hnb, Nat.zero_testBit] at this
        exact absurd this (by decide)
      have hd' : x &&& n = 0 := by
        apply Nat.eq_of_testBit_eq
        intro b
        have := congrArg (fun z => z.testBit b) hd
        simp only [Nat.testBit_and, ← xor_two_pow i x hx, Nat.testBit_xor, Nat.zero_testBit] at this ⊢
        by_cases hb : b = i
        · rw [hb, Nat.testBit_lt_two_pow hx]; rfl
        · have e : (2 ^ i).testBit b = false := by rw [Nat.testBit_two_pow]; simp; omega
          rw [e] at this
          simpa using this
      have hp := Nat.two_pow_pos i
      have e1 : 2 ^ x ⊗ 2 ^ n = 2 ^ (x ^^^ n) := by
        rcases Nat.le_total n x with hle | hle
        · exact ih x n (by omega) hle hd'
        · rw [nmul_comm, Nat.xor_comm]
          exact ih n x (by omega) hle (by rw [Nat.and_comm]; exact hd')
      have hxn : x ^^^ n < 2 ^ i := Nat.xor_lt_two_pow hx hn
      rw [← F_nmul_pow i x hx, nmul_assoc, e1, F_nmul_pow i _ hxn, ← xor_two_pow i x hx, Nat.xor_assoc, xor_two_pow i _ hxn]
  intro m n h
  rcases Nat.le_total n m with hle | hle
  · exact key _ m n le_rfl hle h
  · rw [nmul_comm, Nat.xor_comm]
    exact key _ n m le_rfl hle (by rw [Nat.and_comm]; exact h)

/-- Closes equations between bitwise expressions. -/
macro "bits" : tactic => `(tactic| (
  apply Nat.eq_of_testBit_eq; intro i
  simp only [Nat.testBit_xor, Nat.testBit_and, Nat.zero_testBit]
  grind))

theorem pow_nmul (m n : Nat) : 2 ^ m ⊗ 2 ^ n = 2 ^ (m ^^^ n) ⊗ (2 ^ (m &&& n) ⊗ 2 ^ (m &&& n)) := by
  have hm := pow_nmul_disjoint (m &&& n) (m ^^^ (m &&& n)) (by bits)
  have hn := pow_nmul_disjoint (m &&& n) (n ^^^ (m &&& n)) (by bits)
  have h1 := pow_nmul_disjoint (m ^^^ (m &&& n)) (n ^^^ (m &&& n)) (by bits)
  rw [show (m &&& n) ^^^ (m ^^^ (m &&& n)) = m by bits] at hm
  rw [show (m &&& n) ^^^ (n ^^^ (m &&& n)) = n by bits] at hn
  rw [show m ^^^ (m &&& n) ^^^ (n ^^^ (m &&& n)) = m ^^^ n by bits] at h1
  rw [← hm, ← hn, ← h1]
  generalize 2 ^ (m &&& n) = a
  generalize 2 ^ (m ^^^ (m &&& n)) = b
  generalize 2 ^ (n ^^^ (m &&& n)) = c
  rw [nmul_assoc, ← nmul_assoc b, nmul_comm b a, nmul_assoc a b, ← nmul_assoc a a, nmul_comm (a ⊗ a)]

/-! ### the table -/

/-- The table holds only zeros and right products. -/
def TblOK (t : Tbl) : Prop := ∀ m n, t m n ≠ 0 → t m n = 2 ^ m ⊗ 2 ^ n

theorem low_bit (i : Nat) (h0 : i ≠ 0) : ∃ c u, i = 2 ^ (c + 1) * u + 2 ^ c := by
  obtain ⟨c, q, hq, rfl⟩ := Nat.exists_eq_two_pow_mul_odd h0
  obtain ⟨u, rfl⟩ := hq
  exact ⟨c, u, by rw [pow_succ]; ring⟩

theorem testBit_low (c u b : Nat) : (2 ^ (c + 1) * u + 2 ^ c).testBit b = (decide (b = c) || (decide (c + 1 ≤ b) && u.testBit (b - (c + 1)))) := by
  rw [Nat.testBit_two_pow_mul_add _ (Nat.pow_lt_pow_right (by omega) (by omega))]
  split_ifs with h
  · rw [Nat.testBit_two_pow]
    by_cases hb : b = c
    · subst hb; simp
    · simp [hb, Ne.symm hb]; omega
  · simp [show b ≠ c by omega, show c + 1 ≤ b by omega]

theorem clear_low (c u : Nat) : (2 ^ (c + 1) * u + 2 ^ c) &&& (2 ^ (c + 1) * u + 2 ^ c - 1) = 2 ^ (c + 1) * u := by
  have hp := Nat.two_pow_pos c
  have hlt : 2 ^ c - 1 < 2 ^ (c + 1) := by rw [pow_succ]; omega
  apply Nat.eq_of_testBit_eq
  intro b
  rw [Nat.testBit_and, testBit_low, show 2 ^ (c + 1) * u + 2 ^ c - 1 = 2 ^ (c + 1) * u + (2 ^ c - 1) by omega,
    Nat.testBit_two_pow_mul_add _ hlt, Nat.testBit_two_pow_mul, Nat.testBit_two_pow_sub_one]
  by_cases h1 : b = c
  · subst h1; simp
  · by_cases h2 : c + 1 ≤ b
    · simp [h1, h2, show ¬ b < c + 1 by omega]
    · simp [h1, h2]

theorem get_low (c u : Nat) (h : 2 ^ (c + 1) * u + 2 ^ c < 2 ^ 32) :
    (2 ^ (c + 1) * u + 2 ^ c) &&& (2 ^ 32 - (2 ^ (c + 1) * u + 2 ^ c)) = 2 ^ c := by
  have hc : c < 32 := by
    by_contra hc
    have : 2 ^ 32 ≤ 2 ^ c := Nat.pow_le_pow_right (by omega) (by omega)
    omega
  have hp := Nat.two_pow_pos c
  have hlt : 2 ^ (c + 1) * u < 2 ^ 32 := by omega
  have e : 2 ^ 32 = 2 ^ (c + 1) * 2 ^ (31 - c) := by rw [← pow_add]; congr 1; omega
  have hu : u < 2 ^ (31 - c) := by rw [e] at hlt; exact Nat.lt_of_mul_lt_mul_left hlt
  have e2 : 2 ^ 32 - (2 ^ (c + 1) * u + 2 ^ c) = 2 ^ (c + 1) * (2 ^ (31 - c) - (u + 1)) + 2 ^ c := by
    obtain ⟨d, hd⟩ : ∃ d, 2 ^ (31 - c) = u + 1 + d := ⟨2 ^ (31 - c) - (u + 1), by omega⟩
    rw [e, hd, show u + 1 + d - (u + 1) = d by omega, show 2 ^ (c + 1) * (u + 1 + d) = 2 ^ (c + 1) * u + 2 ^ (c + 1) + 2 ^ (c + 1) * d by ring,
      pow_succ]
    omega
  rw [e2]
  apply Nat.eq_of_testBit_eq
  intro b
  rw [Nat.testBit_and, testBit_low, testBit_low, Nat.testBit_two_pow, Nat.testBit_two_pow_sub_succ hu]
  by_cases h1 : b = c
  · subst h1; simp
  · have : ¬ c = b := fun h => h1 h.symm
    simp only [h1, this, decide_false, Bool.false_or]
    cases decide (c + 1 ≤ b) <;> cases u.testBit (b - (c + 1)) <;> simp

/-- All the exponents of `a` and `b` have common bits only below bit `d`. -/
def Depth (d a b : Nat) : Prop := ∀ i j, a.testBit i = true → b.testBit j = true → i &&& j < 2 ^ d

/-- What is to be proved of the product. -/
def MulOK (K : Nat) (d : Nat) (mul : Tbl → Nat → Nat → Option (Nat × Tbl)) : Prop :=
  ∀ t a b, TblOK t → a < F K → b < F K → Depth d a b → ∃ t', mul t a b = some (a ⊗ b, t') ∧ TblOK t'

section
variable {K : Nat}

theorem implLoop_spec (hK : K ≤ 31) (d : Nat) (hd : d ≤ K) (mul : Tbl → Nat → Nat → Option (Nat × Tbl)) (hm : ∀ c < d, MulOK K c mul) :
    ∀ fuel c i h s t, TblOK t → i < 2 ^ d → h < 2 ^ K → 2 ^ c ∣ i → 2 ^ c ∣ h → s < F c → c ≤ K → h &&& i = 0 → K + 1 ≤ fuel + c →
      ∃ t', implLoop mul (2 ^ K) fuel i (2 ^ h * s) t = some ((2 ^ h * s) ⊗ (2 ^ i ⊗ 2 ^ i), t') ∧ TblOK t' := by
  intro fuel
  induction fuel with
  | zero => intro c i h s t _ _ _ _ _ _ _ _ hf; omega
  | succ fuel ih =>
    intro c0 i h s t ht hi hh hdi hdh hs hc0 hand hf
    rw [implLoop]
    by_cases h0 : i = 0
    · rw [h0, if_neg (by omega), pow_zero, one_nmul, nmul_one]
      exact ⟨t, rfl, ht⟩
    rw [if_pos (by omega)]
    obtain ⟨c, u, rfl⟩ := low_bit i h0
    have hpK : 2 ^ d ≤ 2 ^ K := Nat.pow_le_pow_right (by omega) hd
    have hK32 : 2 ^ K ≤ 2 ^ 31 := Nat.pow_le_pow_right (by omega) hK
    have hcp := Nat.two_pow_pos c
    have hcd : c < d := by
      by_contra hc
      have : 2 ^ d ≤ 2 ^ c := Nat.pow_le_pow_right (by omega) (by omega)
      omega
    have hcc : c0 ≤ c := by
      by_contra hc
      have h1 : 2 ^ (c + 1) ∣ 2 ^ (c + 1) * u + 2 ^ c := (pow_dvd_pow 2 (by omega)).trans hdi
      have h2 : 2 ^ (c + 1) ∣ 2 ^ c := (Nat.dvd_add_right (Dvd.intro _ rfl)).mp h1
      have := Nat.le_of_dvd hcp h2
      rw [pow_succ] at this
      omega
    rw [clear_low, get_low c u (by omega)]
    have p1 : pow2 (2 ^ K) (2 ^ c) = F c := pow2_of_lt _ _ (pow_lt c (by omega))
    have p2 : pow2 (2 ^ K) (2 ^ c - 1) = H c := pow2_of_lt _ _ (by have := pow_lt c (show c < K by omega); omega)
    simp only []
    rw [p1, p2]
    -- split the exponent
    have hbit : h.testBit c = false := by
      have := congrArg (fun z => z.testBit c) hand
      simp only [Nat.testBit_and, testBit_low, Nat.zero_testBit] at this
      simpa using this
    obtain ⟨q, l, hql, hl⟩ : ∃ q l, h = 2 ^ (c + 1) * q + l ∧ l < 2 ^ (c + 1) :=
      ⟨h / 2 ^ (c + 1), h % 2 ^ (c + 1), (Nat.div_add_mod _ _).symm, Nat.mod_lt _ (Nat.two_pow_pos _)⟩
    have hlc : l < 2 ^ c := by
      have e : l.testBit c = false := by
        rw [hql, Nat.testBit_two_pow_mul_add _ hl, if_pos (by omega)] at hbit
        exact hbit
      by_contra hcon
      obtain ⟨y, rfl⟩ : ∃ y, l = 2 ^ c + y := ⟨l - 2 ^ c, by omega⟩
      rw [pow_succ] at hl
      have hy : y < 2 ^ c := by omega
      rw [← xor_two_pow c y hy, Nat.testBit_xor, Nat.testBit_two_pow_self, Nat.testBit_lt_two_pow hy] at e
      exact absurd e (by decide)
    have hdl : 2 ^ c0 ∣ l := by
      rw [hql] at hdh
      exact (Nat.dvd_add_right ((pow_dvd_pow 2 (by omega)).trans (Dvd.intro _ rfl))).mp hdh
    have hsum : l + 2 ^ c0 ≤ 2 ^ c := by
      obtain ⟨a, rfl⟩ := hdl
      obtain ⟨p, hp⟩ : 2 ^ c0 ∣ 2 ^ c := pow_dvd_pow 2 hcc
      rw [hp] at hlc ⊢
      have := Nat.lt_of_mul_lt_mul_left hlc
      nlinarith
    have hsc : 2 ^ l * s < F c := by
      have h1 : 2 ^ l * s < 2 ^ l * 2 ^ 2 ^ c0 := Nat.mul_lt_mul_of_pos_left hs (Nat.two_pow_pos _)
      rw [← pow_add] at h1
      exact lt_of_lt_of_le h1 (Nat.pow_le_pow_right (by omega) hsum)
    have hr : 2 ^ h * s = 2 ^ (2 ^ (c + 1) * q) * (2 ^ l * s) := by rw [hql, pow_add, mul_assoc]
    have hqK : 2 ^ (c + 1) * q + 2 ^ (c + 1) ≤ 2 ^ K := by
      have h1 : 2 ^ (c + 1) * q < 2 ^ K := by omega
      obtain ⟨p, hp⟩ : 2 ^ (c + 1) ∣ 2 ^ K := pow_dvd_pow 2 (by omega)
      rw [hp] at h1 ⊢
      have := Nat.lt_of_mul_lt_mul_left h1
      nlinarith
    have hFc1 : F c < F (c + 1) := Nat.pow_lt_pow_right (by omega) (Nat.pow_lt_pow_right (by omega) (by omega))
    have hbnd : ∀ x, x < F (c + 1) → 2 ^ (2 ^ (c + 1) * q) * x < F K := by
      intro x hx
      have h1 : 2 ^ (2 ^ (c + 1) * q) * x < 2 ^ (2 ^ (c + 1) * q) * 2 ^ 2 ^ (c + 1) := Nat.mul_lt_mul_of_pos_left hx (Nat.two_pow_pos _)
      rw [← pow_add] at h1
      exact lt_of_lt_of_le h1 (Nat.pow_le_pow_right (by omega) hqK)
    have hFH : F c ^^^ H c < F (c + 1) := by
      have := pack_lt c 1 (H c) (one_lt_F c) (H_lt c)
      rwa [mul_one] at this
    generalize hsv : 2 ^ l * s = sv at hsc hr
    have hDepth : Depth c (2 ^ (2 ^ (c + 1) * q) * sv) (F c ^^^ H c) := by
      intro e j he hj
      rw [Nat.testBit_two_pow_mul] at he
      have he1 : 2 ^ (c + 1) * q ≤ e := by
        by_contra hcon
        simp [hcon] at he
      have he2 : e - 2 ^ (c + 1) * q < 2 ^ c := by
        by_contra hcon
        have : sv.testBit (e - 2 ^ (c + 1) * q) = false :=
          Nat.testBit_lt_two_pow (lt_of_lt_of_le hsc (Nat.pow_le_pow_right (by omega) (by omega)))
        simp [this] at he
      obtain ⟨y, rfl⟩ : ∃ y, e = 2 ^ (c + 1) * q + y := ⟨e - 2 ^ (c + 1) * q, by omega⟩
      have hy : y < 2 ^ c := by omega
      rw [Nat.testBit_xor, F, H, Nat.testBit_two_pow, Nat.testBit_two_pow] at hj
      have hj' : j = 2 ^ c ∨ j = 2 ^ c - 1 := by
        by_contra hcon
        push Not at hcon
        simp [hcon.1.symm, hcon.2.symm] at hj
      rcases hj' with rfl | rfl
      · rw [Nat.and_two_pow, Nat.testBit_two_pow_mul_add _ (by rw [pow_succ]; omega), if_pos (by omega), Nat.testBit_lt_two_pow hy]
        simp
      · rw [Nat.and_two_pow_sub_one_eq_mod]
        exact Nat.mod_lt _ hcp
    obtain ⟨t1, e1, ht1⟩ := hm c hcd t (2 ^ h * s) (F c ^^^ H c) ht (by rw [hr]; exact hbnd _ (lt_trans hsc hFc1))
      (lt_of_lt_of_le hFH (F_le _ (by omega))) (by rw [hr]; exact hDepth)
    rw [e1, Option.bind_eq_bind, Option.bind_some]
    have hsF : sv < F (c + 1) := lt_trans hsc hFc1
    have hs' : sv ⊗ (F c ^^^ H c) < F (c + 1) := (level (c + 1)).closed _ _ hsF hFH
    have hmulr : (2 ^ h * s) ⊗ (F c ^^^ H c) = 2 ^ (2 ^ (c + 1) * q) * (sv ⊗ (F c ^^^ H c)) := by
      rw [hr, ← two_pow_nmul (c + 1) sv hsF _ (Dvd.intro _ rfl), nmul_assoc, two_pow_nmul (c + 1) _ hs' _ (Dvd.intro _ rfl)]
    have hand' : 2 ^ (c + 1) * q &&& 2 ^ (c + 1) * u = 0 := by
      apply Nat.eq_of_testBit_eq
      intro b
      have h1 := congrArg (fun z => z.testBit b) hand
      simp only [Nat.testBit_and, testBit_low, hql, Nat.testBit_two_pow_mul_add _ hl, Nat.zero_testBit] at h1
      rw [Nat.testBit_and, Nat.testBit_two_pow_mul, Nat.testBit_two_pow_mul, Nat.zero_testBit]
      by_cases hb : c + 1 ≤ b
      · rw [if_neg (by omega)] at h1
        simpa [hb, show b ≠ c by omega] using h1
      · simp [hb]
    obtain ⟨t2, e2, ht2⟩ := ih (c + 1) (2 ^ (c + 1) * u) (2 ^ (c + 1) * q) (sv ⊗ (F c ^^^ H c)) t1 ht1 (by omega) (by omega)
      (Dvd.intro _ rfl) (Dvd.intro _ rfl) hs' (by omega) hand' (by omega)
    refine ⟨t2, ?_, ht2⟩
    simp only []
    rw [hmulr, e2, ← hmulr]
    have hpow : 2 ^ (2 ^ (c + 1) * u + 2 ^ c) = 2 ^ (2 ^ (c + 1) * u) ⊗ F c := by
      rw [two_pow_nmul (c + 1) _ hFc1 _ (Dvd.intro _ rfl), pow_add, F]
    rw [hpow, ← (level c).F_sq]
    generalize 2 ^ (2 ^ (c + 1) * u) = a
    generalize F c = b
    rw [nmul_assoc (2 ^ h * s)]
    congr 3
    rw [nmul_assoc a b, ← nmul_assoc b a b, nmul_comm b a, nmul_assoc a b b, ← nmul_assoc a a, nmul_comm (a ⊗ a)]

theorem mulPow2_spec (hK : K ≤ 31) (d : Nat) (hd : d ≤ K) (mul : Tbl → Nat → Nat → Option (Nat × Tbl)) (hm : ∀ c < d, MulOK K c mul)
    (t : Tbl) (ht : TblOK t) (m n : Nat) (h1 : m < 2 ^ K) (h2 : n < 2 ^ K) (h3 : m &&& n < 2 ^ d) :
    ∃ t', mulPow2 mul (2 ^ K) t m n = some (2 ^ m ⊗ 2 ^ n, t') ∧ TblOK t' := by
  have impl : ∀ m n, m < 2 ^ K → n < 2 ^ K → m &&& n < 2 ^ d →
      ∃ t', mulPow2Impl mul (2 ^ K) t m n = some (2 ^ m ⊗ 2 ^ n, t') ∧ TblOK t' := by
    intro m n h1 h2 h3
    have hx : m ^^^ n < 2 ^ K := Nat.xor_lt_two_pow h1 h2
    obtain ⟨t', e, ht'⟩ := implLoop_spec hK d hd mul hm 33 0 (m &&& n) (m ^^^ n) 1 t ht h3 hx (by simp) (by simp) (by decide)
      (by omega) (by bits) (by omega)
    refine ⟨t', ?_, ht'⟩
    rw [mulPow2Impl, pow2_of_lt _ _ hx, pow_nmul m n]
    rw [mul_one] at e
    exact e
  rw [mulPow2]
  by_cases hc : m ≥ 64 ∨ n ≥ 64
  · rw [if_pos hc]
    exact impl m n h1 h2 h3
  rw [if_neg hc]
  have main : ∀ m n, m < 2 ^ K → n < 2 ^ K → m &&& n < 2 ^ d →
      ∃ t', (if t m n ≠ 0 then some (t m n, t) else do
        let (r, t) ← mulPow2Impl mul (2 ^ K) t m n
        some (r, setTbl t m n r)) = some (2 ^ m ⊗ 2 ^ n, t') ∧ TblOK t' := by
    intro m n h1 h2 h3
    split_ifs with hz
    · exact ⟨t, by rw [ht m n hz], ht⟩
    · obtain ⟨t', e, ht'⟩ := impl m n h1 h2 h3
      rw [e, Option.bind_eq_bind, Option.bind_some]
      refine ⟨_, rfl, ?_⟩
      intro i j hij
      rw [setTbl] at hij ⊢
      split_ifs at hij ⊢ with hc
      · rw [hc.1, hc.2]
      · exact ht' i j hij
  rcases Nat.lt_or_ge m n with h | h
  · simp only [if_pos h]
    rw [nmul_comm]
    exact main n m h2 h1 (by rw [Nat.and_comm]; exact h3)
  · simp only [if_neg (Nat.not_lt.mpr h)]
    exact main m n h1 h2 h3

/-! ### the double loop -/

theorem split_bit (b j : Nat) : 2 ^ j * (b / 2 ^ j) = (if b.testBit j then 2 ^ j else 0) ^^^ 2 ^ (j + 1) * (b / 2 ^ (j + 1)) := by
  apply Nat.eq_of_testBit_eq
  intro x
  rw [Nat.testBit_xor, Nat.testBit_two_pow_mul, Nat.testBit_two_pow_mul, Nat.testBit_div_two_pow, Nat.testBit_div_two_pow]
  rcases Nat.lt_trichotomy x j with h | h | h
  · have : (if b.testBit j then 2 ^ j else 0).testBit x = false := by
      split_ifs
      · rw [Nat.testBit_two_pow]; simp; omega
      · simp
    rw [this]
    simp [show ¬ j ≤ x by omega, show ¬ j + 1 ≤ x by omega]
  · subst h
    by_cases hb : b.testBit x = true
    · simp [hb]
    · simp [hb]
  · have : (if b.testBit j then 2 ^ j else 0).testBit x = false := by
      split_ifs
      · rw [Nat.testBit_two_pow]; simp; omega
      · simp
    rw [this]
    simp [show j ≤ x by omega, show j + 1 ≤ x by omega, Nat.sub_add_cancel (show j ≤ x by omega), Nat.sub_add_cancel (show j + 1 ≤ x by omega)]

theorem and_pow_ne (b j : Nat) : b &&& 2 ^ j ≠ 0 ↔ b.testBit j = true := by
  rw [Nat.and_two_pow]
  cases b.testBit j <;> simp

theorem innerLoop_spec (mp : Tbl → Nat → Nat → Option (Nat × Tbl)) (i b : Nat) (hb : b < F K)
    (hmp : ∀ t j, TblOK t → b.testBit j = true → j < 2 ^ K → ∃ t', mp t i j = some (2 ^ i ⊗ 2 ^ j, t') ∧ TblOK t') :
    ∀ fuel j r t, TblOK t → 2 ^ K < fuel + j → j ≤ 2 ^ K →
      ∃ t', innerLoop mp (2 ^ K) i b fuel j r t = some (r ^^^ 2 ^ i ⊗ (2 ^ j * (b / 2 ^ j)), t') ∧ TblOK t' := by
  intro fuel
  induction fuel with
  | zero => intro j r t _ h1 h2; omega
  | succ fuel ih =>
    intro j r t ht h1 h2
    rw [innerLoop]
    by_cases hc : j < 2 ^ K ∧ pow2 (2 ^ K) j ≤ b
    · rw [if_pos hc, pow2_of_lt _ _ hc.1]
      by_cases hbit : b.testBit j = true
      · rw [if_pos ((and_pow_ne b j).mpr hbit)]
        obtain ⟨t1, e1, ht1⟩ := hmp t j ht hbit hc.1
        rw [e1, Option.bind_eq_bind, Option.bind_some]
        obtain ⟨t2, e2, ht2⟩ := ih (j + 1) (r ^^^ 2 ^ i ⊗ 2 ^ j) t1 ht1 (by omega) (by omega)
        refine ⟨t2, ?_, ht2⟩
        simp only []
        rw [e2, split_bit b j, if_pos hbit, nmul_xor, Nat.xor_assoc]
      · rw [if_neg (fun h => hbit ((and_pow_ne b j).mp h))]
        obtain ⟨t2, e2, ht2⟩ := ih (j + 1) r t ht (by omega) (by omega)
        refine ⟨t2, ?_, ht2⟩
        rw [e2, split_bit b j, if_neg hbit, Nat.zero_xor]
    · rw [if_neg hc]
      have hz : b / 2 ^ j = 0 := by
        rw [Nat.div_eq_zero_iff]
        right
        by_cases hj : j < 2 ^ K
        · rw [pow2_of_lt _ _ hj] at hc
          by_contra hcon
          exact hc ⟨hj, by omega⟩
        · obtain rfl : j = 2 ^ K := by omega
          exact hb
      rw [hz, mul_zero, nmul_zero, Nat.xor_zero]
      exact ⟨t, rfl, ht⟩

theorem outerLoop_spec (mp : Tbl → Nat → Nat → Option (Nat × Tbl)) (a b : Nat) (ha : a < F K) (hb : b < F K)
    (hmp : ∀ t i j, TblOK t → a.testBit i = true → b.testBit j = true → i < 2 ^ K → j < 2 ^ K →
      ∃ t', mp t i j = some (2 ^ i ⊗ 2 ^ j, t') ∧ TblOK t') :
    ∀ fuel i r t, TblOK t → 2 ^ K < fuel + i → i ≤ 2 ^ K →
      ∃ t', outerLoop mp (2 ^ K) a b fuel i r t = some (r ^^^ (2 ^ i * (a / 2 ^ i)) ⊗ b, t') ∧ TblOK t' := by
  intro fuel
  induction fuel with
  | zero => intro i r t _ h1 h2; omega
  | succ fuel ih =>
    intro i r t ht h1 h2
    rw [outerLoop]
    by_cases hc : i < 2 ^ K ∧ pow2 (2 ^ K) i ≤ a
    · rw [if_pos hc, pow2_of_lt _ _ hc.1]
      by_cases hbit : a.testBit i = true
      · rw [if_neg ((and_pow_ne a i).mpr hbit)]
        obtain ⟨t1, e1, ht1⟩ := innerLoop_spec mp i b hb (fun t j h h' h'' => hmp t i j h hbit h' hc.1 h'') (2 ^ K + 2) 0 r t ht (by omega) (by omega)
        rw [pow_zero, Nat.div_one, one_mul] at e1
        rw [e1, Option.bind_eq_bind, Option.bind_some]
        obtain ⟨t2, e2, ht2⟩ := ih (i + 1) (r ^^^ 2 ^ i ⊗ b) t1 ht1 (by omega) (by omega)
        refine ⟨t2, ?_, ht2⟩
        simp only []
        rw [e2, split_bit a i, if_pos hbit, xor_nmul, Nat.xor_assoc]
      · rw [if_pos (by by_contra h; exact hbit ((and_pow_ne a i).mp h))]
        obtain ⟨t2, e2, ht2⟩ := ih (i + 1) r t ht (by omega) (by omega)
        refine ⟨t2, ?_, ht2⟩
        rw [e2, split_bit a i, if_neg hbit, Nat.zero_xor]
    · rw [if_neg hc]
      have hz : a / 2 ^ i = 0 := by
        rw [Nat.div_eq_zero_iff]
        right
        by_cases hj : i < 2 ^ K
        · rw [pow2_of_lt _ _ hj] at hc
          by_contra hcon
          exact hc ⟨hj, by omega⟩
        · obtain rfl : i = 2 ^ K := by omega
          exact ha
      rw [hz, mul_zero, zero_nmul, Nat.xor_zero]
      exact ⟨t, rfl, ht⟩

theorem mul_spec (hK : K ≤ 31) : ∀ fuel d, d < fuel → d ≤ K → MulOK K d (mul (2 ^ K) fuel) := by
  intro fuel
  induction fuel with
  | zero => intro d h; omega
  | succ fuel ih =>
    intro d hdf hdK t a b ht ha hb hD
    rw [mul]
    have hone : a ≤ 1 ∨ b ≤ 1 → a ⊗ b = a * b := by
      have small : ∀ x, x ≤ 1 → x = 0 ∨ x = 1 := by intro x hx; omega
      rintro (h | h)
      · rcases small a h with rfl | rfl
        · rw [zero_nmul, zero_mul]
        · rw [one_nmul, one_mul]
      · rcases small b h with rfl | rfl
        · rw [nmul_zero, mul_zero]
        · rw [nmul_one, mul_one]
    split_ifs with hc
    · refine ⟨t, ?_, ht⟩
      have := (level K).closed a b ha hb
      rw [← hone hc, Nat.mod_eq_of_lt (show a ⊗ b < 2 ^ 2 ^ K from this)]
    · have hpK := Nat.two_pow_pos K
      obtain ⟨t', e, ht'⟩ := outerLoop_spec (mulPow2 (mul (2 ^ K) fuel) (2 ^ K)) a b ha hb
        (fun t i j h1 h2 h3 h4 h5 => mulPow2_spec hK d hdK (mul (2 ^ K) fuel) (fun c hc => ih c (by omega) (by omega)) t h1 i j h4 h5 (hD i j h2 h3))
        (2 ^ K + 2) 0 0 t ht (by omega) (by omega)
      refine ⟨t', ?_, ht'⟩
      rw [e, pow_zero, Nat.div_one, one_mul, Nat.zero_xor]

theorem mul_full (hK : K ≤ 31) (fuel : Nat) (hf : K < fuel) (t : Tbl) (ht : TblOK t) (a b : Nat) (ha : a < F K) (hb : b < F K) :
    ∃ t', mul (2 ^ K) fuel t a b = some (a ⊗ b, t') ∧ TblOK t' := by
  refine mul_spec hK fuel K hf le_rfl t a b ht ha hb ?_
  intro i j hi _
  have : i < 2 ^ K := by
    by_contra hcon
    have := Nat.testBit_lt_two_pow (lt_of_lt_of_le ha (Nat.pow_le_pow_right (by omega) (Nat.not_lt.mp hcon)))
    rw [this] at hi
    exact absurd hi (by decide)
  exact lt_of_le_of_lt Nat.and_le_left this

theorem inverse_spec (hK1 : 1 ≤ K) (hK : K ≤ 31) (mf : Nat) (hmf : K < mf) : ∀ fuel v l t, v < F l → l < fuel → l ≤ K → TblOK t →
    ∃ r t', inverse (2 ^ K) mf fuel t v = some (r, t') ∧ TblOK t' ∧ r < F l ∧ (v ≠ 0 → v ⊗ r = 1) ∧ (v = 0 → r = 0) := by
  intro fuel
  induction fuel with
  | zero => intro v l t _ h; omega
  | succ fuel ih =>
    intro v l0 t hv hl hl0 ht
    obtain ⟨l, e, h1, h2, h3⟩ := level_spec hK1 v (lt_of_lt_of_le hv (F_le _ hl0))
    have hll : l ≤ l0 := by
      by_contra hc
      have := h3 l0 (by omega)
      omega
    rw [inverse, e, Option.bind_eq_bind, Option.bind_some]
    rcases l with _ | k
    · rw [if_pos rfl]
      refine ⟨v, t, rfl, ht, hv, ?_, fun h => h⟩
      intro hv0
      have : v < 2 := h2
      obtain rfl : v = 1 := by omega
      rw [one_nmul]
    · rw [if_neg (by omega)]
      simp only [Nat.add_sub_cancel, Option.bind_eq_bind]
      have L := level k
      have d1 := div_lt k v h2
      have d0 := mod_lt k v
      have ds := xor_lt k _ _ d1 d0
      have hFk : F k ≤ F K := F_le _ (by omega)
      obtain ⟨t1, e1, ht1⟩ := mul_full hK mf hmf t ht (v / F k ^^^ v % F k) (v % F k) (by omega) (by omega)
      obtain ⟨t2, e2, ht2⟩ := mul_full hK mf hmf t1 ht1 (v / F k) (v / F k) (by omega) (by omega)
      have c1 := L.closed _ _ ds d0
      have c2 := L.closed _ _ d1 d1
      have c3 := L.closed _ _ c2 (H_lt k)
      have hdet := xor_lt k _ _ c1 c3
      obtain ⟨d, t3, e3, ht3, hd, hd1, _⟩ := ih ((v / F k ^^^ v % F k) ⊗ (v % F k) ^^^ ((v / F k) ⊗ (v / F k)) ⊗ H k) k t2 hdet (by omega) (by omega) ht2
      obtain ⟨t4, e4, ht4⟩ := mul_full hK mf hmf t3 ht3 (v / F k) d (by omega) (by omega)
      obtain ⟨t5, e5, ht5⟩ := mul_full hK mf hmf t4 ht4 (v / F k ^^^ v % F k) d (by omega) (by omega)
      have c4 := L.closed _ _ d1 hd
      have c5 := L.closed _ _ ds hd
      rw [high_spec v k (by omega), low_spec v k (by omega), Option.bind_some, e1, Option.bind_some]
      simp only []
      rw [e2, Option.bind_some]
      simp only []
      rw [lift_spec k (by omega) _ c2, Option.bind_some, e3, Option.bind_some]
      simp only []
      rw [e4, Option.bind_some]
      simp only []
      rw [e5, Option.bind_some]
      simp only []
      rw [join_spec _ _ _ (by omega) c4, Option.bind_some]
      have hvpos : F k ≤ v := h3 k (by omega)
      have hFp := F_pos k
      refine ⟨_, t5, rfl, ht5, lt_of_lt_of_le (pack_lt k _ _ c4 c5) (F_le _ hll), ?_, fun h => by omega⟩
      intro _
      have hah : v / F k ≠ 0 := by
        have := Nat.div_pos hvpos hFp
        omega
      have hprod : ∀ d, d < F k → v ⊗ (F k * ((v / F k) ⊗ d) ^^^ (v / F k ^^^ v % F k) ⊗ d) =
          ((v / F k ^^^ v % F k) ⊗ (v % F k) ^^^ ((v / F k) ⊗ (v / F k)) ⊗ H k) ⊗ d := by
        intro d hd
        conv_lhs => rw [unpack k v, ← unpack k v]
        conv_lhs => enter [1]; rw [unpack k v]
        rw [L.pack_nmul _ _ _ _ d1 d0 (L.closed _ _ d1 hd) (L.closed _ _ ds hd)]
        generalize v / F k = x
        generalize v % F k = y
        generalize F k = f
        generalize H k = h
        simp only [nmul_xor, xor_nmul]
        have a1 : x ⊗ (x ⊗ d) = (x ⊗ x) ⊗ d := (nmul_assoc _ _ _).symm
        have a2 : x ⊗ (y ⊗ d) = (x ⊗ y) ⊗ d := (nmul_assoc _ _ _).symm
        have a3 : y ⊗ (x ⊗ d) = (x ⊗ y) ⊗ d := by rw [← nmul_assoc, nmul_comm y x]
        have a4 : y ⊗ (y ⊗ d) = (y ⊗ y) ⊗ d := (nmul_assoc _ _ _).symm
        rw [a1, a2, a3, a4, ← nmul_assoc h, nmul_comm h]
        have z : (x ⊗ x) ⊗ d ^^^ ((x ⊗ x) ⊗ d ^^^ (x ⊗ y) ⊗ d) ^^^ (x ⊗ y) ⊗ d = 0 := by
          generalize (x ⊗ x) ⊗ d = p
          generalize (x ⊗ y) ⊗ d = q
          xor_bits
        rw [z, mul_zero, Nat.zero_xor]
        ac_rfl
      rw [hprod d hd]
      apply hd1
      intro hzero
      -- a zero determinant makes `v` a zero divisor
      have hp1 := hprod 1 (one_lt_F k)
      rw [hzero, zero_nmul, nmul_one, nmul_one] at hp1
      refine nmul_ne_zero v _ (by omega) ?_ hp1
      rw [pack_add k _ _ ds]
      have := Nat.mul_pos hFp (Nat.pos_of_ne_zero hah)
      omega

end

end Altruct.Nimber
