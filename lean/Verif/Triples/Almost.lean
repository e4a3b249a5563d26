/-
Almost-Pythagorean triples `a^2 + b^2 = c^2 + 1`.
-/
import Verif.Triples.Eis
import Verif.Modulo.GcdEx

namespace Altruct.Triples

open Altruct.Base (C03_gcd_nonneg)
open Altruct.NumTheory (gcdExM negM)

/-- the two cofactors that the loop computes -/
def cof (n m : Int) : Int × Int := (if m = 1 then 1 else (gcdExM n m).2.1, negM (gcdExM n m).2.2 n)

/-- the cofactors of the pair: `n ni - m mi = 1` -/
structure Cof (n m ni mi : Int) : Prop where
  bez : n * ni - m * mi = 1
  nonneg : 0 ≤ mi
  lt : mi < n

theorem gcdExM_gcd (n m : Int) (hn : 0 < n) (hm : 0 < m) : (gcdExM n m).1 = Int.gcd n m :=
  (Modulo.gcdEx_adj n m hn hm.le).2.1

theorem cof_spec (n m : Int) (hn : 0 < n) (hm : 0 < m) (hg : Int.gcd n m = 1) : Cof n m (cof n m).1 (cof n m).2 := by
  obtain ⟨_, g2, g3, g4, g5, ⟨k, hk⟩, _⟩ := Modulo.gcdEx_adj n m hn hm.le
  obtain ⟨g5, g6⟩ := g5 hm
  have eX : (gcdExM n m).2.1 = (if (Base.gcdEx n m).2.2.2 % 2 = 1 ∧ (Base.gcdEx n m).2.1 ≠ 0 then (Base.gcdEx n m).2.1 + m else (Base.gcdEx n m).2.1) := rfl
  have eY : (gcdExM n m).2.2 = (if (Base.gcdEx n m).2.2.2 % 2 = 0 ∧ (Base.gcdEx n m).2.2.1 ≠ 0 then (Base.gcdEx n m).2.2.1 + n else (Base.gcdEx n m).2.2.1) := rfl
  rw [← eX, ← eY, g2, hg] at hk
  rw [← eX] at g5 g6
  rw [← eY] at g3 g4
  unfold cof
  generalize (gcdExM n m).2.1 = X at *
  generalize (gcdExM n m).2.2 = Y at *
  push_cast at hk
  have hnm : 0 < n * m := mul_pos hn hm
  by_cases h1 : m = 1
  · subst h1
    simp only [if_true, negM, mul_one, one_mul] at hk ⊢
    have hYn : (Y = 0 ∧ n = 1) ∨ Y = 1 := by
      have hX : X = 0 ∨ X = 1 := by omega
      have : ∃ j, Y = 1 + n * j := by
        rcases hX with rfl | rfl
        · exact ⟨k, by linarith⟩
        · exact ⟨k - 1, by linarith⟩
      obtain ⟨j, hj⟩ := this
      have j0 : j ≤ 0 := by
        by_contra hcon
        nlinarith
      rcases lt_or_eq_of_le j0 with h | h
      · left
        have : n * j ≤ -n := by nlinarith
        have hn1 : n = 1 := by omega
        subst hn1
        omega
      · right; rw [hj, h]; ring
    rcases hYn with ⟨rfl, rfl⟩ | rfl
    · exact ⟨by simp, by simp, by simp⟩
    · rw [if_neg (by omega)]
      exact ⟨by ring, by omega, by omega⟩
  · simp only [if_neg h1, negM]
    by_cases hY : Y = 0
    · subst hY
      rw [if_pos rfl]
      have hd : n ∣ 1 := ⟨X - m * k, by linarith⟩
      have hn1 : n = 1 := by
        have := Int.le_of_dvd (by norm_num) hd
        omega
      subst hn1
      have hX : X = 1 := by
        have hk0 : k = 0 := by
          by_contra hne
          have e : X = 1 + m * k := by linarith
          rcases lt_or_gt_of_ne hne with h | h
          · have : m * k ≤ m * -1 := mul_le_mul_of_nonneg_left (by omega) hm.le
            omega
          · have : m * 1 ≤ m * k := mul_le_mul_of_nonneg_left (by omega) hm.le
            omega
        subst hk0
        linarith
      exact ⟨by simp [hX], by simp, by simp⟩
    · rw [if_neg hY]
      have hk1 : k = 1 := by
        have a1 : n * X ≤ n * m := mul_le_mul_of_nonneg_left g6 hn.le
        have a2 : m * Y ≤ m * n := mul_le_mul_of_nonneg_left g4 hm.le
        have a3 : m * 1 ≤ m * Y := mul_le_mul_of_nonneg_left (by omega) hm.le
        have a4 : 0 ≤ n * X := mul_nonneg hn.le g5
        have b1 : k < 2 := by
          by_contra hcon
          have : n * m * 2 ≤ n * m * k := mul_le_mul_of_nonneg_left (by omega) hnm.le
          nlinarith
        have b2 : 0 < k := by
          by_contra hcon
          have : n * m * k ≤ 0 := by nlinarith
          omega
        omega
      subst hk1
      exact ⟨by linarith, by omega, by omega⟩

theorem Cof.unique {n m ni mi ni' mi' : Int} (h : Cof n m ni mi) (h' : Cof n m ni' mi') (hn : 0 < n) : ni = ni' ∧ mi = mi' := by
  have hcop : IsCoprime n m := ⟨ni, -mi, by linarith [h.bez]⟩
  have hd : n ∣ mi - mi' := by
    have : n ∣ m * (mi - mi') := ⟨ni - ni', by linear_combination h'.bez - h.bez⟩
    exact hcop.dvd_of_dvd_mul_left this
  have hlt : (mi - mi').natAbs < n.natAbs := by
    have := h.nonneg; have := h.lt; have := h'.nonneg; have := h'.lt
    omega
  have e : mi - mi' = 0 := Int.eq_zero_of_dvd_of_natAbs_lt_natAbs hd hlt
  have e' : mi = mi' := by omega
  refine ⟨?_, e'⟩
  have : n * ni = n * ni' := by
    have h1 := h.bez
    have h2 := h'.bez
    rw [e'] at h1
    linarith
  exact mul_left_cancel₀ (by omega) this

/-- the solution of a pair -/
theorem Cof.sol {n m ni mi : Int} (h : Cof n m ni mi) (hn : 0 < n) (hm : 0 < m) :
    0 < n * m - ni * mi ∧ 0 < n * ni + m * mi ∧ 0 < ni ∧ n * m ≤ n * m + ni * mi ∧
    (n * m - ni * mi) * (n * m - ni * mi) + (n * ni + m * mi) * (n * ni + m * mi) = (n * m + ni * mi) * (n * m + ni * mi) + 1 ∧
    (n * ni + m * mi) % 2 = 1 ∧ (n * m - ni * mi) % 2 = (n * m + ni * mi) % 2 := by
  obtain ⟨h1, h2, h3⟩ := h
  have p0 : 0 ≤ m * mi := mul_nonneg hm.le h2
  have p1 : 0 < ni := by
    by_contra hcon
    nlinarith
  have p2 : ni ≤ m := by
    by_contra hcon
    have : n * (m + 1) ≤ n * ni := mul_le_mul_of_nonneg_left (by omega) hn.le
    have : m * mi ≤ m * (n - 1) := mul_le_mul_of_nonneg_left (by omega) hm.le
    nlinarith
  have p3 : 0 ≤ ni * mi := mul_nonneg p1.le h2
  have p4 : ni * mi ≤ m * mi := mul_le_mul_of_nonneg_right p2 h2
  have p5 : m * mi ≤ m * (n - 1) := mul_le_mul_of_nonneg_left (by omega) hm.le
  refine ⟨by nlinarith, by omega, p1, by omega, ?_, by omega, by omega⟩
  linear_combination (n * ni - m * mi + 1) * h1

theorem Cof.inj {n m ni mi n' m' ni' mi' : Int} (h : Cof n m ni mi) (h' : Cof n' m' ni' mi') (hn : 0 < n) (hm : 0 < m) (hn' : 0 < n')
    (hm' : 0 < m') (ea : n * m - ni * mi = n' * m' - ni' * mi') (eb : n * ni + m * mi = n' * ni' + m' * mi')
    (ec : n * m + ni * mi = n' * m' + ni' * mi') : n = n' ∧ m = m' := by
  have q1 : n * m = n' * m' := by omega
  have q2 : n * ni = n' * ni' := by have := h.bez; have := h'.bez; omega
  have cop : ∀ {n m ni mi : Int}, Cof n m ni mi → IsCoprime m ni := fun {n m ni mi} h => ⟨-mi, n, by linarith [h.bez]⟩
  obtain ⟨em, _⟩ := coprime_ratio m ni m' ni' (h.sol hn hm).2.2.1 (h'.sol hn' hm').2.2.1 (cop h) (cop h') (by
    have : n * n' * (m * ni') = n * n' * (m' * ni) := by
      linear_combination n' * ni' * q1 - n' * m' * q2
    exact mul_left_cancel₀ (mul_ne_zero (by omega) (by omega)) this)
  refine ⟨?_, em⟩
  rw [← em] at q1
  exact mul_right_cancel₀ (by omega) q1

theorem cof_surj (a b c : Int) (ha : 0 < a) (hb : 0 < b) (hc : 0 < c) (h : a * a + b * b = c * c + 1) (hp : a % 2 = c % 2) :
    ∃ n m ni mi, 0 < n ∧ 0 < m ∧ Cof n m ni mi ∧ a = n * m - ni * mi ∧ b = n * ni + m * mi ∧ c = n * m + ni * mi := by
  have sq : ∀ x : Int, x * x % 4 = x % 2 := by
    intro x
    rcases Int.emod_two_eq_zero_or_one x with h | h
    · obtain ⟨u, rfl⟩ : ∃ u, x = 2 * u := ⟨x / 2, by omega⟩
      have : 2 * u * (2 * u) = 4 * (u * u) := by ring
      rw [this]; omega
    · obtain ⟨u, rfl⟩ : ∃ u, x = 2 * u + 1 := ⟨x / 2, by omega⟩
      have : (2 * u + 1) * (2 * u + 1) = 4 * (u * u + u) + 1 := by ring
      rw [this]; omega
  have s1 := sq a
  have s2 := sq b
  have s3 := sq c
  have hb2 : b % 2 = 1 := by omega
  have hac : a ≤ c := by
    by_contra hcon
    nlinarith
  obtain ⟨p, hp1⟩ : ∃ p, c + a = 2 * p := ⟨(c + a) / 2, by omega⟩
  obtain ⟨r, hr1⟩ : ∃ r, c - a = 2 * r := ⟨(c - a) / 2, by omega⟩
  obtain ⟨q, hq1⟩ : ∃ q, b + 1 = 2 * q := ⟨(b + 1) / 2, by omega⟩
  have hpr : p * r = q * (q - 1) := by
    have : 4 * (p * r) = 4 * (q * (q - 1)) := by
      have e1 : 4 * (p * r) = (c + a) * (c - a) := by rw [hp1, hr1]; ring
      have e2 : 4 * (q * (q - 1)) = (b + 1) * (b + 1 - 2) := by rw [hq1]; ring
      rw [e1, e2]
      linear_combination (-1) * h
    omega
  obtain ⟨n, m, ni, hn, em, eni, hg, _⟩ := to_prim p q (by omega)
  have hm : 0 < m := by
    by_contra hcon
    nlinarith
  have hni : 0 < ni := by
    by_contra hcon
    nlinarith
  have hcop : IsCoprime m ni := Int.isCoprime_iff_gcd_eq_one.2 hg
  have e1 : m * r = ni * (q - 1) := by
    have : n * (m * r) = n * (ni * (q - 1)) := by
      calc n * (m * r) = p * r := by rw [em]; ring
        _ = q * (q - 1) := hpr
        _ = n * (ni * (q - 1)) := by conv_lhs => rw [show q * (q - 1) = (n * ni) * (q - 1) by rw [← eni]]
                                     ring
    exact mul_left_cancel₀ (by omega) this
  obtain ⟨mi, hmi⟩ : ni ∣ r := hcop.symm.dvd_of_dvd_mul_left ⟨q - 1, e1⟩
  have e2 : q - 1 = m * mi := by
    have : ni * (q - 1) = ni * (m * mi) := by rw [← e1, hmi]; ring
    exact mul_left_cancel₀ (by omega) this
  have hmi0 : 0 ≤ mi := by
    by_contra hcon
    nlinarith
  have bez : n * ni - m * mi = 1 := by rw [← eni, ← e2]; ring
  have ea : a = n * m - ni * mi := by rw [← em, ← hmi]; omega
  refine ⟨n, m, ni, mi, hn, hm, ⟨bez, hmi0, ?_⟩, ea, ?_, ?_⟩
  · by_contra hcon
    have x1 : m * n ≤ m * mi := mul_le_mul_of_nonneg_left (by omega) hm.le
    have x2 : m < ni := by
      by_contra hc2
      have : n * ni ≤ n * m := mul_le_mul_of_nonneg_left (by omega) hn.le
      nlinarith
    have x3 : m * mi ≤ ni * mi := mul_le_mul_of_nonneg_right (by omega) hmi0
    nlinarith
  · rw [← eni, ← e2]; omega
  · rw [← em, ← hmi]; omega

/-- the solution that a pair gives -/
def almostA (n m : Int) : Int := n * m - (cof n m).1 * (cof n m).2
def almostB (n m : Int) : Int := n * (cof n m).1 + m * (cof n m).2
def almostC (n m : Int) : Int := n * m + (cof n m).1 * (cof n m).2

/-- what one pair gives -/
def almostG (cMax n m : Int) : List Triple :=
  if (gcdExM n m).1 ≠ 1 then []
  else if cMax < almostC n m then []
  else if (almostC n m).tmod 2 = 1 ∧ almostB n m < almostA n m then []
  else if almostB n m ≠ almostA n m then [(almostA n m, almostB n m, almostC n m), (almostB n m, almostA n m, almostC n m)]
  else [(almostA n m, almostB n m, almostC n m)]

theorem almostBody_eq (cMax n m : Int) (vt : List Triple) : almostBody cMax n m vt = vt ++ almostG cMax n m := by
  unfold almostG
  show (if (gcdExM n m).1 ≠ 1 then vt
    else if cMax < almostC n m then vt
    else if (almostC n m).tmod 2 = 1 ∧ almostB n m < almostA n m then vt
    else if almostB n m ≠ almostA n m then (vt ++ [(almostA n m, almostB n m, almostC n m)]) ++ [(almostB n m, almostA n m, almostC n m)]
    else vt ++ [(almostA n m, almostB n m, almostC n m)]) = _
  split_ifs <;> simp

theorem almost_eq (cMax : Int) :
    almost cMax = (idx 0 cMax 1).flatMap fun n => (idx 0 (cMax.tdiv n) 1).flatMap fun m => almostG cMax n m := by
  unfold almost
  rw [forTo_append (g := fun n => (idx 0 (cMax.tdiv n) 1).flatMap fun m => almostG cMax n m)]
  · simp
  · intro n vt
    exact forTo_append _ _ (fun m s => almostBody_eq cMax n m s) _ _ _ _

theorem mem_almostG (cMax n m : Int) (hn : 0 < n) (hm : 0 < m) (x y z : Int) :
    (x, y, z) ∈ almostG cMax n m ↔ Int.gcd n m = 1 ∧ z = almostC n m ∧ z ≤ cMax ∧ (z % 2 = 1 → almostA n m ≤ almostB n m) ∧
      ((x = almostA n m ∧ y = almostB n m) ∨ (x = almostB n m ∧ y = almostA n m)) := by
  unfold almostG
  have hg := gcdExM_gcd n m hn hm
  by_cases h1 : (gcdExM n m).1 ≠ 1
  · rw [if_pos h1]
    simp only [List.not_mem_nil, false_iff]
    rintro ⟨h, _⟩
    rw [hg, h] at h1
    exact h1 rfl
  · rw [if_neg h1]
    have hg1 : Int.gcd n m = 1 := by
      rw [hg] at h1
      omega
    have hs := (cof_spec n m hn hm hg1).sol hn hm
    have hC : 0 ≤ almostC n m := by
      have h4 := hs.2.2.2.1
      have : 0 < n * m := mul_pos hn hm
      show 0 ≤ n * m + (cof n m).1 * (cof n m).2
      omega
    rw [Int.tmod_eq_emod_of_nonneg hC]
    by_cases h2 : cMax < almostC n m
    · rw [if_pos h2]
      simp only [List.not_mem_nil, false_iff]
      rintro ⟨_, h, h', _⟩
      omega
    · rw [if_neg h2]
      by_cases h3 : almostC n m % 2 = 1 ∧ almostB n m < almostA n m
      · rw [if_pos h3]
        simp only [List.not_mem_nil, false_iff]
        rintro ⟨_, h, _, h', _⟩
        omega
      · rw [if_neg h3]
        by_cases h4 : almostB n m ≠ almostA n m
        · rw [if_pos h4]
          simp only [List.mem_cons, Prod.mk.injEq, List.not_mem_nil, or_false]
          constructor
          · rintro (⟨a1, a2, a3⟩ | ⟨a1, a2, a3⟩)
            · exact ⟨hg1, a3, by omega, by omega, Or.inl ⟨a1, a2⟩⟩
            · exact ⟨hg1, a3, by omega, by omega, Or.inr ⟨a1, a2⟩⟩
          · rintro ⟨_, a3, _, _, h | h⟩
            · exact Or.inl ⟨h.1, h.2, a3⟩
            · exact Or.inr ⟨h.1, h.2, a3⟩
        · rw [if_neg h4]
          simp only [List.mem_cons, Prod.mk.injEq, List.not_mem_nil, or_false]
          constructor
          · rintro ⟨a1, a2, a3⟩
            exact ⟨hg1, a3, by omega, by omega, Or.inl ⟨a1, a2⟩⟩
          · rintro ⟨_, a3, _, _, h | h⟩
            · exact ⟨h.1, h.2, a3⟩
            · exact ⟨by omega, by omega, a3⟩

theorem almost_inj (cMax n m n' m' : Int) (hn : 0 < n) (hm : 0 < m) (hn' : 0 < n') (hm' : 0 < m') (z : Triple)
    (h : z ∈ almostG cMax n m) (h' : z ∈ almostG cMax n' m') : n = n' ∧ m = m' := by
  obtain ⟨x, y, z⟩ := z
  rw [mem_almostG cMax n m hn hm] at h
  rw [mem_almostG cMax n' m' hn' hm'] at h'
  obtain ⟨g, z1, _, s, o⟩ := h
  obtain ⟨g', z1', _, s', o'⟩ := h'
  have c := cof_spec n m hn hm g
  have c' := cof_spec n' m' hn' hm' g'
  have hs := (c.sol hn hm).2.2.2.2
  have hs' := (c'.sol hn' hm').2.2.2.2
  have pb : almostB n m % 2 = 1 := hs.2.1
  have pa : almostA n m % 2 = almostC n m % 2 := hs.2.2
  have pb' : almostB n' m' % 2 = 1 := hs'.2.1
  have pa' : almostA n' m' % 2 = almostC n' m' % 2 := hs'.2.2
  have key : almostA n m = almostA n' m' ∧ almostB n m = almostB n' m' := by omega
  refine Cof.inj c c' hn hm hn' hm' key.1 key.2 ?_
  exact z1.symm.trans z1'

/-- `almost_pythagorean_triples(c_max)` visits every triple of positive integers with `a^2 + b^2 = c^2 + 1` and `c <= c_max`
exactly once, in both orders of `a` and `b`. -/
theorem C81_almost (cMax : Int) :
    (almost cMax).Nodup ∧
    ∀ a b c, (a, b, c) ∈ almost cMax ↔ 0 < a ∧ 0 < b ∧ 0 < c ∧ c ≤ cMax ∧ a * a + b * b = c * c + 1 := by
  rw [almost_eq]
  constructor
  · refine nodup_flatMap_of _ _ (nodup_idx _ _ _) ?_ ?_
    · intro n hn
      rw [mem_idx] at hn
      refine nodup_flatMap_of _ _ (nodup_idx _ _ _) ?_ ?_
      · intro m hm
        unfold almostG
        split_ifs with h1 h2 h3 h4
        · simp
        · simp
        · simp
        · simp only [List.nodup_cons, List.mem_cons, Prod.mk.injEq, List.not_mem_nil, or_false, not_false_eq_true, List.nodup_nil, and_true]
          omega
        · simp
      · intro m hm m' hm' z hz hz'
        rw [mem_idx] at hm hm'
        exact (almost_inj cMax n m n m' (by omega) (by omega) (by omega) (by omega) z hz hz').2
    · intro n hn n' hn' z hz hz'
      obtain ⟨m, hm, hz⟩ := List.mem_flatMap.1 hz
      obtain ⟨m', hm', hz'⟩ := List.mem_flatMap.1 hz'
      rw [mem_idx] at hn hn' hm hm'
      exact (almost_inj cMax n m n' m' (by omega) (by omega) (by omega) (by omega) z hz hz').1
  · intro x y z
    simp only [List.mem_flatMap]
    constructor
    · rintro ⟨n, hn, m, hm, h⟩
      rw [mem_idx] at hn hm
      have hn0 : 0 < n := by omega
      have hm0 : 0 < m := by omega
      rw [mem_almostG cMax n m hn0 hm0] at h
      obtain ⟨g, z1, z2, _, o⟩ := h
      obtain ⟨s1, s2, _, s3, s4, _⟩ := (cof_spec n m hn0 hm0 g).sol hn0 hm0
      have t1 : 0 < almostA n m := s1
      have t2 : 0 < almostB n m := s2
      have t3 : n * m ≤ almostC n m := s3
      have t4 : almostA n m * almostA n m + almostB n m * almostB n m = almostC n m * almostC n m + 1 := s4
      have t5 : 0 < n * m := mul_pos hn0 hm0
      rcases o with ⟨rfl, rfl⟩ | ⟨rfl, rfl⟩
      · exact ⟨t1, t2, by omega, z2, by rw [z1]; exact t4⟩
      · exact ⟨t2, t1, by omega, z2, by rw [z1]; linarith⟩
    · rintro ⟨hx, hy, hz, hle, he⟩
      have sq : ∀ x : Int, x * x % 4 = x % 2 := by
        intro x
        rcases Int.emod_two_eq_zero_or_one x with h | h
        · obtain ⟨u, rfl⟩ : ∃ u, x = 2 * u := ⟨x / 2, by omega⟩
          have : 2 * u * (2 * u) = 4 * (u * u) := by ring
          rw [this]; omega
        · obtain ⟨u, rfl⟩ : ∃ u, x = 2 * u + 1 := ⟨x / 2, by omega⟩
          have : (2 * u + 1) * (2 * u + 1) = 4 * (u * u + u) + 1 := by ring
          rw [this]; omega
      have s1 := sq x
      have s2 := sq y
      have s3 := sq z
      have build : ∀ a b, 0 < a → 0 < b → a * a + b * b = z * z + 1 → a % 2 = z % 2 → (z % 2 = 1 → a ≤ b) →
          ((x = a ∧ y = b) ∨ (x = b ∧ y = a)) →
          ∃ n ∈ idx 0 cMax 1, ∃ m ∈ idx 0 (cMax.tdiv n) 1, (x, y, z) ∈ almostG cMax n m := by
        intro a b ha hb hab hpar hord ho
        obtain ⟨n, m, ni, mi, hn, hm, hc, ea, eb, ec⟩ := cof_surj a b z ha hb hz hab hpar
        have hg : Int.gcd n m = 1 := by
          rw [← Int.isCoprime_iff_gcd_eq_one]
          exact ⟨ni, -mi, by linarith [hc.bez]⟩
        obtain ⟨u1, u2⟩ := hc.unique (cof_spec n m hn hm hg) hn
        have hnm : n * m ≤ z := by have := (hc.sol hn hm).2.2.2.1; omega
        have eA : almostA n m = a := by rw [almostA, ← u1, ← u2, ea]
        have eB : almostB n m = b := by rw [almostB, ← u1, ← u2, eb]
        have eC : almostC n m = z := by rw [almostC, ← u1, ← u2, ec]
        refine ⟨n, (mem_idx _ _ _ _).2 ⟨by omega, by nlinarith, by simp⟩, m, (mem_idx _ _ _ _).2 ⟨by omega, ?_, by simp⟩, ?_⟩
        · rw [Int.tdiv_eq_ediv_of_nonneg (by omega), Int.le_ediv_iff_mul_le hn]
          rw [mul_comm]; omega
        · rw [mem_almostG cMax n m hn hm, eA, eB, eC]
          exact ⟨hg, rfl, hle, hord, ho⟩
      by_cases hxz : x % 2 = z % 2 ∧ (z % 2 = 1 → x ≤ y)
      · exact build x y hx hy he hxz.1 hxz.2 (Or.inl ⟨rfl, rfl⟩)
      · exact build y x hy hx (by linarith) (by omega) (by omega) (Or.inr ⟨rfl, rfl⟩)

/-- The triples up to 8. -/
example : almost 8 = [(1, 1, 1), (2, 1, 2), (1, 2, 2), (4, 1, 4), (1, 4, 4), (6, 1, 6), (1, 6, 6), (8, 1, 8), (1, 8, 8), (1, 3, 3),
    (3, 1, 3), (4, 7, 8), (7, 4, 8), (1, 5, 5), (5, 1, 5), (5, 5, 7), (1, 7, 7), (7, 1, 7)] := by decide +kernel

end Altruct.Triples
