/-
Pythagorean triples up to a limit, and with a fixed leg.
-/
import Verif.Triples.Lists
import Verif.Base.Props
import Verif.Base.RootProps
import Verif.Primes.DivisorProps
import Mathlib.NumberTheory.PythagoreanTriples

namespace Altruct.Triples

open Altruct.Base (sqrtT IsFloorSqrt C01_sqrtT C03_gcd_nonneg)

/-- the triples that one pair `(m, n)` gives -/
def pythG (cMax : Int) (prim : Bool) (m n : Int) : List Triple :=
  if Base.gcd m n ≠ 1 then []
  else
    let ab := if m * n * 2 < m * m - n * n then (m * n * 2, m * m - n * n) else (m * m - n * n, m * n * 2)
    mults (if prim then 1 else cMax.tdiv (m * m + n * n)) ab.1 ab.2 (m * m + n * n)

theorem pythBody_eq (cMax : Int) (prim : Bool) (m n : Int) (vt : List Triple) :
    pythBody cMax prim m n vt = vt ++ pythG cMax prim m n := by
  unfold pythBody pythG
  by_cases h : Base.gcd m n ≠ 1
  · rw [if_pos h, if_pos h]; simp
  · rw [if_neg h, if_neg h]
    exact multiples_eq _ _ _ _ _

theorem pythagorean_eq (cMax : Int) (prim : Bool) :
    pythagorean cMax prim = (idx 0 (sqrtT (cMax - 1)) 1).flatMap fun m =>
      (idx 1 (min (m - 1) (sqrtT (cMax - m * m))) (m.tmod 2 + 1)).flatMap fun n => pythG cMax prim m n := by
  unfold pythagorean
  rw [forTo_append (g := fun m => (idx 1 (min (m - 1) (sqrtT (cMax - m * m))) (m.tmod 2 + 1)).flatMap fun n => pythG cMax prim m n)]
  · simp
  · intro m vt
    exact forTo_append _ _ (fun n s => pythBody_eq cMax prim m n s) _ _ _ _

/-- the parameters that the loops visit -/
def Params (m n : Int) : Prop := 0 < n ∧ n < m ∧ Int.gcd m n = 1 ∧ (m + n) % 2 = 1

theorem log_small {x y : Int} (hx : 0 ≤ x) (hxy : x ≤ y) (hl : y.natAbs.log2 < 2 ^ 63) : x.natAbs.log2 < 2 ^ 63 := by
  refine lt_of_le_of_lt ?_ hl
  rcases Nat.eq_zero_or_pos x.natAbs with h | h
  · rw [h]; simp
  · rw [Nat.le_log2 (by omega)]
    exact le_trans (Nat.log2_self_le (by omega)) (by omega)

/-- which `(m, n)` the loops visit -/
theorem params_range (cMax m n : Int) (hc : 1 ≤ cMax) (hl : cMax.natAbs.log2 < 2 ^ 63) (hg : Int.gcd m n = 1) :
    (m ∈ idx 0 (sqrtT (cMax - 1)) 1 ∧ n ∈ idx 1 (min (m - 1) (sqrtT (cMax - m * m))) (m.tmod 2 + 1)) ↔
    Params m n ∧ m * m + n * n ≤ cMax := by
  obtain ⟨r0, r1, r2⟩ := C01_sqrtT (cMax - 1) (by omega) (log_small (by omega) (by omega) hl)
  rw [mem_idx, mem_idx]
  constructor
  · rintro ⟨⟨h1, h2, _⟩, h3, h4, h5⟩
    have hm2 : m * m ≤ cMax - 1 := by nlinarith
    obtain ⟨s0, s1, s2⟩ := C01_sqrtT (cMax - m * m) (by omega) (log_small (by omega) (by nlinarith) hl)
    rw [Int.tmod_eq_emod_of_nonneg (by omega)] at h3 h5
    rw [le_min_iff] at h4
    obtain ⟨k, hk⟩ := h5
    push_cast at hk
    refine ⟨⟨by omega, by omega, hg, by omega⟩, ?_⟩
    have : n * n ≤ sqrtT (cMax - m * m) * sqrtT (cMax - m * m) := by
      apply mul_self_le_mul_self <;> omega
    omega
  · rintro ⟨⟨h1, h2, h3, h4⟩, h5⟩
    have hn1 : 1 ≤ n * n := by nlinarith
    obtain ⟨s0, s1, s2⟩ := C01_sqrtT (cMax - m * m) (by omega) (log_small (by omega) (by nlinarith) hl)
    rw [Int.tmod_eq_emod_of_nonneg (by omega)]
    refine ⟨⟨by omega, ?_, by simp⟩, by omega, ?_, ?_⟩
    · by_contra hlt
      nlinarith
    · rw [le_min_iff]
      refine ⟨by omega, ?_⟩
      by_contra hlt
      nlinarith
    · refine ⟨(n - (m % 2 + 1)) / 2, ?_⟩
      push_cast
      omega

/-- the two legs of the primitive triple of `(m, n)`, sorted -/
def legs (m n : Int) : Int × Int :=
  if m * n * 2 < m * m - n * n then (m * n * 2, m * m - n * n) else (m * m - n * n, m * n * 2)

theorem legs_gcd (m n : Int) (h : Params m n) : Int.gcd (m * m - n * n) (m * n * 2) = 1 := by
  obtain ⟨_, _, hg, hp⟩ := h
  rw [← Int.isCoprime_iff_gcd_eq_one] at hg ⊢
  have h2 : IsCoprime (m + n) 2 := by
    refine ⟨1, -((m + n) / 2), ?_⟩
    omega
  have e : m * m - n * n = (m + n) * (m + n * -1) := by ring
  have h2' : IsCoprime (m + n * -1) 2 := by
    refine ⟨1, -((m - n) / 2), ?_⟩
    omega
  have hmn : IsCoprime m n := hg
  have a1 : IsCoprime (m + n) n := by simpa using hmn.add_mul_left_left 1
  have a2 : IsCoprime (m + n) m := by
    have := hmn.symm.add_mul_left_left 1
    simpa [add_comm] using this
  have b1 : IsCoprime (m + n * -1) n := hmn.add_mul_left_left (-1)
  have b2 : IsCoprime (m + n * -1) m := by
    have := (hmn.symm.neg_left).add_mul_left_left 1
    have e : -n + m * 1 = m + n * -1 := by ring
    rwa [e] at this
  rw [e]
  exact IsCoprime.mul_left (IsCoprime.mul_right (IsCoprime.mul_right a2 a1) h2)
    (IsCoprime.mul_right (IsCoprime.mul_right b2 b1) h2')

theorem legs_spec (m n : Int) (h : Params m n) :
    0 < (legs m n).1 ∧ (legs m n).1 < (legs m n).2 ∧ Int.gcd (legs m n).1 (legs m n).2 = 1 ∧
    (legs m n).1 * (legs m n).1 + (legs m n).2 * (legs m n).2 = (m * m + n * n) * (m * m + n * n) := by
  have hg := legs_gcd m n h
  obtain ⟨h1, h2, _, hp⟩ := h
  have hm : 0 < m := by omega
  have p1 : 0 < m * n * 2 := by positivity
  have p2 : 0 < m * m - n * n := by nlinarith
  have hne : m * m - n * n ≠ m * n * 2 := by
    intro he
    have : (m * m - n * n) % 2 = 0 := by omega
    have e : m * m - n * n = (m + n) * (m - n) := by ring
    rw [e, Int.mul_emod] at this
    have h3 : (m - n) % 2 = 1 := by omega
    rw [hp, h3] at this
    omega
  unfold legs
  split_ifs with hlt
  · exact ⟨p1, hlt, by rw [Int.gcd_comm]; exact hg, by ring⟩
  · exact ⟨p2, by show m * m - n * n < m * n * 2; omega, hg, by ring⟩

theorem legs_inj (m n m' n' : Int) (h : Params m n) (h' : Params m' n') (he : legs m n = legs m' n')
    (hc : m * m + n * n = m' * m' + n' * n') : m = m' ∧ n = n' := by
  have odd : ∀ m n : Int, (m + n) % 2 = 1 → (m * m - n * n) % 2 = 1 := by
    intro m n hp
    have e : m * m - n * n = (m + n) * (m - n) := by ring
    have h3 : (m - n) % 2 = 1 := by omega
    rw [e, Int.mul_emod, hp, h3]
    rfl
  have o1 := odd m n h.2.2.2
  have o2 := odd m' n' h'.2.2.2
  have hx : m * m - n * n = m' * m' - n' * n' := by
    unfold legs at he
    split_ifs at he with c1 c2 c2
    all_goals
      rw [Prod.mk.injEq] at he
      omega
  have hm : m * m = m' * m' := by omega
  have hn : n * n = n' * n' := by omega
  obtain ⟨a1, a2, _, _⟩ := h
  obtain ⟨b1, b2, _, _⟩ := h'
  exact ⟨by nlinarith [mul_self_eq_mul_self_iff.1 hm], by nlinarith [mul_self_eq_mul_self_iff.1 hn]⟩

/-- every primitive triple comes from parameters -/
theorem legs_surj (a b c : Int) (ha : 0 < a) (hab : a < b) (hc : 0 < c) (h : a * a + b * b = c * c) (hg : Int.gcd a b = 1) :
    ∃ m n, Params m n ∧ legs m n = (a, b) ∧ c = m * m + n * n := by
  have key : ∀ x y : Int, 0 < x → 0 < y → x * x + y * y = c * c → Int.gcd x y = 1 → x % 2 = 1 →
      ∃ m n, Params m n ∧ x = m * m - n * n ∧ y = m * n * 2 ∧ c = m * m + n * n := by
    intro x y hx hy hxy hg hodd
    obtain ⟨m, n, e1, e2, e3, e4, e5, e6⟩ := PythagoreanTriple.coprime_classification' (x := x) (y := y) (z := c) hxy hg hodd hc
    have hmn : 0 < m * n := by nlinarith
    have hm : 0 < m := by
      rcases lt_or_eq_of_le e6 with h | h
      · exact h
      · rw [← h] at hmn; simp at hmn
    have hn : 0 < n := by
      by_contra hcn
      nlinarith
    refine ⟨m, n, ⟨hn, ?_, e4, by omega⟩, by rw [e1]; ring, by rw [e2]; ring, by rw [e3]; ring⟩
    by_contra hlt
    nlinarith
  have hpar : a % 2 = 1 ∨ b % 2 = 1 := by
    by_contra hcon
    have h1 : (2 : Int) ∣ a := by omega
    have h2 : (2 : Int) ∣ b := by omega
    have := Int.dvd_coe_gcd h1 h2
    rw [hg] at this
    omega
  rcases hpar with hp | hp
  · obtain ⟨m, n, p, e1, e2, e3⟩ := key a b ha (by omega) h hg hp
    refine ⟨m, n, p, ?_, e3⟩
    rw [legs, if_neg (by omega), ← e1, ← e2]
  · obtain ⟨m, n, p, e1, e2, e3⟩ := key b a (by omega) ha (by omega) (by rw [Int.gcd_comm]; exact hg) hp
    refine ⟨m, n, p, ?_, e3⟩
    rw [legs, if_pos (by omega), ← e1, ← e2]

theorem gcd_scale (k a b : Int) (hk : 0 < k) (hg : Int.gcd a b = 1) : (Int.gcd (k * a) (k * b) : Int) = k := by
  rw [Int.gcd_mul_left, hg]
  omega

/-- a solution of a homogeneous quadratic equation is a multiple of a primitive one -/
theorem to_prim (a b : Int) (ha : 0 < a) :
    ∃ g a' b', 0 < g ∧ a = g * a' ∧ b = g * b' ∧ Int.gcd a' b' = 1 ∧ g = Int.gcd a b := by
  have hg : 0 < Int.gcd a b := Int.gcd_pos_of_ne_zero_left _ (by omega)
  obtain ⟨a', ha'⟩ := Int.gcd_dvd_left a b
  obtain ⟨b', hb'⟩ := Int.gcd_dvd_right a b
  refine ⟨Int.gcd a b, a', b', by omega, ha', hb', ?_, rfl⟩
  have h := Int.gcd_mul_left (Int.gcd a b) a' b'
  rw [← ha', ← hb'] at h
  simp only [Int.natAbs_natCast] at h
  exact Nat.eq_of_mul_eq_mul_left hg (by omega)

theorem mem_pythG (cMax : Int) (prim : Bool) (m n : Int) (h : Params m n) (a b c : Int) :
    (a, b, c) ∈ pythG cMax prim m n ↔
    ∃ k, 1 ≤ k ∧ (if prim then k ≤ 1 else k * (m * m + n * n) ≤ cMax) ∧ a = k * (legs m n).1 ∧ b = k * (legs m n).2 ∧
      c = k * (m * m + n * n) := by
  obtain ⟨h1, h2, hg, hp⟩ := h
  have hg' : Base.gcd m n = 1 := by rw [C03_gcd_nonneg m n (by omega) (by omega), hg]; rfl
  have hcp : 0 < m * m + n * n := by nlinarith
  rw [pythG, if_neg (by simp [hg']), mem_mults]
  refine exists_congr fun k => ?_
  cases prim with
  | true => simp [legs]
  | false =>
    simp only [Bool.false_eq_true, if_false, legs]
    constructor
    · rintro ⟨a1, a2, a3⟩
      refine ⟨a1, ?_, a3⟩
      rcases le_or_gt 0 cMax with hc0 | hc0
      · rw [Int.tdiv_eq_ediv_of_nonneg hc0] at a2
        exact (Int.le_ediv_iff_mul_le hcp).1 a2
      · exfalso
        have : cMax.tdiv (m * m + n * n) ≤ 0 := by
          have h := Int.neg_tdiv (-cMax) (m * m + n * n)
          have h2 := Int.tdiv_nonneg (a := -cMax) (b := m * m + n * n) (by omega) (by omega)
          rw [neg_neg] at h
          omega
        omega
    · rintro ⟨a1, a2, a3⟩
      refine ⟨a1, ?_, a3⟩
      have hc0 : 0 ≤ cMax := by nlinarith
      rw [Int.tdiv_eq_ediv_of_nonneg hc0]
      exact (Int.le_ediv_iff_mul_le hcp).2 a2

theorem pythG_nil (cMax : Int) (prim : Bool) (m n : Int) (hm : 0 ≤ m) (hn : 0 ≤ n) (h : Int.gcd m n ≠ 1) : pythG cMax prim m n = [] := by
  rw [pythG, if_pos]
  rw [C03_gcd_nonneg m n hm hn]
  exact_mod_cast h

/-- `pythagorean_triples(c_max, only_primitive)` visits every triple `0 < a < b < c <= c_max` with `a^2 + b^2 = c^2` (every
coprime one, if `only_primitive`) exactly once, and nothing else. -/
theorem C78_pythagorean (cMax : Int) (prim : Bool) (hc : 1 ≤ cMax) (hl : cMax.natAbs.log2 < 2 ^ 63) :
    (pythagorean cMax prim).Nodup ∧
    ∀ a b c, (a, b, c) ∈ pythagorean cMax prim ↔
      (0 < a ∧ a < b ∧ b < c ∧ c ≤ cMax) ∧ a * a + b * b = c * c ∧ (prim = true → Int.gcd a b = 1) := by
  have hmem : ∀ a b c, (a, b, c) ∈ pythagorean cMax prim ↔
      ∃ m n, (Params m n ∧ m * m + n * n ≤ cMax) ∧ (a, b, c) ∈ pythG cMax prim m n := by
    intro a b c
    rw [pythagorean_eq]
    simp only [List.mem_flatMap]
    constructor
    · rintro ⟨m, hm, n, hn, h⟩
      by_cases hg : Int.gcd m n = 1
      · exact ⟨m, n, (params_range cMax m n hc hl hg).1 ⟨hm, hn⟩, h⟩
      · have a1 := (mem_idx _ _ _ _).1 hm
        have a2 := (mem_idx _ _ _ _).1 hn
        have := Int.tmod_nonneg 2 (a := m) (by omega)
        rw [pythG_nil cMax prim m n (by omega) (by omega) hg] at h
        simp at h
    · rintro ⟨m, n, h1, h2⟩
      obtain ⟨a1, a2⟩ := (params_range cMax m n hc hl h1.1.2.2.1).2 h1
      exact ⟨m, a1, n, a2, h2⟩
  have hinj : ∀ m n m' n', Params m n → Params m' n' → ∀ z, z ∈ pythG cMax prim m n → z ∈ pythG cMax prim m' n' → m = m' ∧ n = n' := by
    rintro m n m' n' h h' ⟨a, b, c⟩ hz hz'
    rw [mem_pythG _ _ _ _ h] at hz
    rw [mem_pythG _ _ _ _ h'] at hz'
    obtain ⟨k, k1, _, k3, k4, k5⟩ := hz
    obtain ⟨l, l1, _, l3, l4, l5⟩ := hz'
    have hk := gcd_scale k (legs m n).1 (legs m n).2 (by omega) (legs_spec m n h).2.2.1
    have hk' := gcd_scale l (legs m' n').1 (legs m' n').2 (by omega) (legs_spec m' n' h').2.2.1
    rw [← k3, ← k4] at hk
    rw [← l3, ← l4] at hk'
    have e : k = l := by omega
    subst e
    have hk0 : k ≠ 0 := by omega
    refine legs_inj m n m' n' h h' (Prod.ext ?_ ?_) ?_
    · exact mul_left_cancel₀ hk0 (k3.symm.trans l3)
    · exact mul_left_cancel₀ hk0 (k4.symm.trans l4)
    · exact mul_left_cancel₀ hk0 (k5.symm.trans l5)
  constructor
  · rw [pythagorean_eq]
    have hrange : ∀ m ∈ idx 0 (sqrtT (cMax - 1)) 1, ∀ n ∈ idx 1 (min (m - 1) (sqrtT (cMax - m * m))) (m.tmod 2 + 1),
        pythG cMax prim m n ≠ [] → Params m n := by
      intro m hm n hn hne
      by_cases hg : Int.gcd m n = 1
      · exact ((params_range cMax m n hc hl hg).1 ⟨hm, hn⟩).1
      · have a1 := (mem_idx _ _ _ _).1 hm
        have a2 := (mem_idx _ _ _ _).1 hn
        have := Int.tmod_nonneg 2 (a := m) (by omega)
        exact absurd (pythG_nil cMax prim m n (by omega) (by omega) hg) hne
    refine nodup_flatMap_of _ _ (nodup_idx _ _ _) ?_ ?_
    · intro m hm
      refine nodup_flatMap_of _ _ (nodup_idx _ _ _) ?_ ?_
      · intro n hn
        unfold pythG
        by_cases hg : Base.gcd m n ≠ 1
        · rw [if_pos hg]; exact List.nodup_nil
        · rw [if_neg hg]
          have a1 := (mem_idx _ _ _ _).1 hm
          exact nodup_mults _ _ _ _ (by nlinarith)
      · intro n hn n' hn' z hz hz'
        exact (hinj m n m n' (hrange m hm n hn (List.ne_nil_of_mem hz)) (hrange m hm n' hn' (List.ne_nil_of_mem hz')) z hz hz').2
    · intro m hm m' hm' z hz hz'
      obtain ⟨n, hn, hz⟩ := List.mem_flatMap.1 hz
      obtain ⟨n', hn', hz'⟩ := List.mem_flatMap.1 hz'
      exact (hinj m n m' n' (hrange m hm n hn (List.ne_nil_of_mem hz)) (hrange m' hm' n' hn' (List.ne_nil_of_mem hz')) z hz hz').1
  · intro a b c
    rw [hmem]
    constructor
    · rintro ⟨m, n, ⟨hp, hle⟩, hz⟩
      rw [mem_pythG _ _ _ _ hp] at hz
      obtain ⟨k, k1, k2, k3, k4, k5⟩ := hz
      obtain ⟨s1, s2, s3, s4⟩ := legs_spec m n hp
      have hcp : 0 < m * m + n * n := by nlinarith [hp.1, hp.2.1]
      have e4 : a * a + b * b = c * c := by
        rw [k3, k4, k5]
        linear_combination k * k * s4
      have ha : 0 < a := by rw [k3]; positivity
      have hab : a < b := by rw [k3, k4]; exact mul_lt_mul_of_pos_left s2 (by omega)
      have hcc : 0 < c := by rw [k5]; positivity
      refine ⟨⟨ha, hab, by nlinarith, ?_⟩, e4, ?_⟩
      · cases prim with
        | true =>
          simp only [if_true] at k2
          have : k = 1 := by omega
          rw [k5, this, one_mul]; exact hle
        | false =>
          simp only [Bool.false_eq_true, if_false] at k2
          rw [k5]; exact k2
      · intro hprim
        rw [hprim] at k2
        simp only [if_true] at k2
        have : k = 1 := by omega
        rw [k3, k4, this, one_mul, one_mul]; exact s3
    · rintro ⟨⟨ha, hab, hbc, hcm⟩, he, hpr⟩
      obtain ⟨g, a', b', g0, ea, eb, hg, eg⟩ := to_prim a b ha
      have hgc : g ∣ c := by
        have : g ^ 2 ∣ c ^ 2 := ⟨a' * a' + b' * b', by rw [pow_two, pow_two, ← he, ea, eb]; ring⟩
        exact (Int.pow_dvd_pow_iff (by norm_num)).1 this
      obtain ⟨c', ec⟩ := hgc
      have hc' : 0 < c' := by
        by_contra hcon
        nlinarith
      have ha' : 0 < a' := by
        by_contra hcon
        nlinarith
      have hab' : a' < b' := by
        by_contra hcon
        nlinarith
      have he' : a' * a' + b' * b' = c' * c' := by
        have : g * g * (a' * a' + b' * b') = g * g * (c' * c') := by
          rw [ea, eb, ec] at he
          linear_combination he
        exact mul_left_cancel₀ (by positivity) this
      obtain ⟨m, n, hp, hleg, hcm'⟩ := legs_surj a' b' c' ha' hab' hc' he' hg
      have hle : c' ≤ c := by rw [ec]; nlinarith
      refine ⟨m, n, ⟨hp, by omega⟩, ?_⟩
      rw [mem_pythG _ _ _ _ hp]
      refine ⟨g, by omega, ?_, by rw [hleg, ea], by rw [hleg, eb], by rw [← hcm', ec]⟩
      cases prim with
      | true =>
        simp only [if_true]
        have := hpr rfl
        rw [eg, this]; rfl
      | false =>
        simp only [Bool.false_eq_true, if_false]
        rw [← hcm', ← ec]
        exact hcm

/-- The triples up to 30, and the primitive ones. -/
example : pythagorean 30 false = [(3, 4, 5), (6, 8, 10), (9, 12, 15), (12, 16, 20), (15, 20, 25), (18, 24, 30), (5, 12, 13),
    (10, 24, 26), (8, 15, 17), (7, 24, 25), (20, 21, 29)] ∧
    pythagorean 30 true = [(3, 4, 5), (5, 12, 13), (8, 15, 17), (7, 24, 25), (20, 21, 29)] := by decide +kernel

/-! ### a fixed leg -/

/-- what one divisor gives -/
def legOf (leg : Int) (d : Nat) : Option Triple :=
  let e := (leg * leg).tdiv d
  if e - d ≤ 0 ∨ (e - d).tmod 2 ≠ 0 then none else some (leg, (e - d).tdiv 2, (e + d).tdiv 2)

theorem fixedLegLoop_eq (leg : Int) (vd : List Nat) (vt : List Triple) : fixedLegLoop leg vd vt = vt ++ vd.filterMap (legOf leg) := by
  induction vd generalizing vt with
  | nil => simp [fixedLegLoop]
  | cons d vd ih =>
    rw [fixedLegLoop, List.filterMap_cons]
    simp only [legOf]
    split_ifs with h
    · rw [ih]
    · rw [ih, List.append_assoc]; rfl

theorem legOf_iff (leg : Int) (d : Nat) (h : (d : Int) ∣ leg * leg) (hd : 0 < d) (a b c : Int) :
    legOf leg d = some (a, b, c) ↔ a = leg ∧ 0 < b ∧ leg * leg + b * b = c * c ∧ c - b = d := by
  obtain ⟨e, he⟩ := h
  have hd' : (0 : Int) < d := by omega
  have hE : (leg * leg).tdiv d = e := by
    rw [he, Int.mul_tdiv_cancel_left _ (by omega)]
  unfold legOf
  rw [hE]
  simp only []
  constructor
  · intro h
    split_ifs at h with h1
    rw [not_or] at h1
    simp only [Option.some.injEq, Prod.mk.injEq] at h
    obtain ⟨e1, e2, e3⟩ := h
    have p1 : 0 < e - d := by omega
    rw [Int.tmod_eq_emod_of_nonneg (by omega)] at h1
    rw [Int.tdiv_eq_ediv_of_nonneg (by omega)] at e2 e3
    have b2 : e - d = 2 * b := by omega
    have c2 : e + d = 2 * c := by omega
    refine ⟨e1.symm, by omega, ?_, by omega⟩
    rw [he]
    have x1 : e = b + c := by omega
    have x2 : (d : Int) = c - b := by omega
    rw [x1, x2]; ring
  · rintro ⟨rfl, hb, hq, hcb⟩
    have x1 : (d : Int) * e = d * (c + b) := by
      rw [← he, ← hcb]
      linear_combination hq
    have x2 : e = c + b := mul_left_cancel₀ (by omega) x1
    have y1 : e - d = 2 * b := by omega
    have y2 : e + d = 2 * c := by omega
    have y3 : 0 < c := by omega
    rw [y1, y2, Int.tmod_eq_emod_of_nonneg (by omega), Int.tdiv_eq_ediv_of_nonneg (by omega), Int.tdiv_eq_ediv_of_nonneg (by omega)]
    rw [if_neg (by omega)]
    simp

theorem isFactorization_double {f : List (Nat × Nat)} {n : Nat} (h : Primes.IsFactorization f n) :
    Primes.IsFactorization (f.map fun t => (t.1, t.2 * 2)) (n * n) := by
  induction f generalizing n with
  | nil =>
    have := h.prod
    simp at this
    rw [← this]
    exact Primes.IsFactorization.nil
  | cons t f ih =>
    obtain ⟨n', h1, h2, h3, h4, h5⟩ := h.tail
    have := (ih h1).cons (p := t.1) (k := t.2 * 2) h4 (by omega) (by
      intro hd
      rcases (Nat.Prime.dvd_mul h4).1 hd with h | h <;> exact h3 h)
    have e : t.1 ^ (t.2 * 2) * (n' * n') = n * n := by
      rw [h2, Nat.mul_comm t.2 2, pow_mul', pow_two]; ring
    rw [e] at this
    exact this

/-- `pythagorean_triples_fixed_leg(leg, f)`, for the factorization `f` of `leg`, visits every right triangle with that leg and
whole sides exactly once. -/
theorem C78_fixed_leg (lim leg : Nat) (f : List (Nat × Nat)) (h : Primes.IsFactorization f leg)
    (hlim : ∀ t ∈ f, leg * leg * t.1 ≤ lim) :
    ∃ r, fixedLeg lim leg f = some r ∧ r.Nodup ∧
      ∀ a b c, (a, b, c) ∈ r ↔ a = leg ∧ 0 < b ∧ 0 < c ∧ a * a + b * b = c * c := by
  obtain ⟨l, e, hn, hm⟩ := Primes.C14_divisors_unsorted lim (f.map fun t => (t.1, t.2 * 2)) (leg * leg) (isFactorization_double h) 0
    (Or.inr ⟨rfl, by
      intro t ht
      obtain ⟨u, hu, rfl⟩ := List.mem_map.1 ht
      exact hlim u hu⟩)
  have hleg : leg ≠ 0 := h.ne_zero
  have hd : ∀ d ∈ l, (d : Int) ∣ (leg : Int) * leg ∧ 0 < d := by
    intro d hd
    have := ((hm d).1 hd).1
    refine ⟨by exact_mod_cast this, Nat.pos_of_dvd_of_pos this (by positivity)⟩
  refine ⟨l.filterMap (legOf leg), ?_, ?_, ?_⟩
  · rw [fixedLeg, e]
    simp [fixedLegLoop_eq]
  · rw [List.Nodup, List.pairwise_filterMap]
    refine List.Pairwise.imp_of_mem ?_ hn
    rintro d d' h1 h2 hne ⟨a, b, c⟩ hz z' hz' rfl
    obtain ⟨x1, x2⟩ := hd d h1
    obtain ⟨x1', x2'⟩ := hd d' h2
    have y := ((legOf_iff leg d x1 x2 a b c).1 hz).2.2.2
    have y' := ((legOf_iff leg d' x1' x2' a b c).1 hz').2.2.2
    omega
  · intro a b c
    rw [List.mem_filterMap]
    constructor
    · rintro ⟨d, h1, h2⟩
      obtain ⟨x1, x2⟩ := hd d h1
      obtain ⟨y1, y2, y3, y4⟩ := (legOf_iff leg d x1 x2 a b c).1 h2
      exact ⟨y1, y2, by omega, by rw [y1]; exact y3⟩
    · rintro ⟨h1, h2, h3, h4⟩
      have hcb : 0 < c - b := by
        have : 0 < a * a := by rw [h1]; positivity
        nlinarith
      have hdv : c - b ∣ (leg : Int) * leg := ⟨c + b, by rw [← h1]; linear_combination h4⟩
      have hcast : ((c - b).toNat : Int) = c - b := Int.toNat_of_nonneg (by omega)
      have hdn : (c - b).toNat ∣ leg * leg := by
        rw [← hcast] at hdv
        exact_mod_cast hdv
      have hml : (c - b).toNat ∈ l := (hm _).2 ⟨hdn, Or.inl rfl⟩
      refine ⟨_, hml, ?_⟩
      obtain ⟨x1, x2⟩ := hd _ hml
      refine (legOf_iff leg _ x1 x2 a b c).2 ⟨h1, h2, by rw [← h1]; exact h4, hcast.symm⟩

/-- The triangles with a leg of length 12. -/
example : Primes.IsFactorization [(2, 2), (3, 1)] 12 ∧
    fixedLeg 1000 12 [(2, 2), (3, 1)] = some [(12, 35, 37), (12, 9, 15), (12, 16, 20), (12, 5, 13)] := by
  refine ⟨⟨by decide, by decide, by decide, by decide⟩, by decide +kernel⟩

end Altruct.Triples
