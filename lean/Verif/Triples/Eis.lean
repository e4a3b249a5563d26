/-
Eisenstein triples: triangles with an angle of 120 or 60 degrees.
-/
import Verif.Triples.Pyth
import Mathlib.Tactic.LinearCombination

namespace Altruct.Triples

open Altruct.Base (sqrtT IsFloorSqrt C01_sqrtT C03_gcd_nonneg)

/-! ### lists of the multiples of a family of primitive triples -/

theorem mem_mults_limit (cMax : Int) (prim : Bool) (a b c x y z : Int) (hc : 0 < c) (hle : c ≤ cMax) :
    (x, y, z) ∈ mults (if prim then 1 else cMax.tdiv c) a b c ↔
    ∃ k, 1 ≤ k ∧ (prim = true → k = 1) ∧ k * c ≤ cMax ∧ x = k * a ∧ y = k * b ∧ z = k * c := by
  rw [mem_mults]
  refine exists_congr fun k => ?_
  cases prim with
  | true =>
    simp only [if_true, forall_const]
    constructor
    · rintro ⟨h1, h2, h3⟩
      have : k = 1 := by omega
      refine ⟨h1, this, by rw [this]; omega, h3⟩
    · rintro ⟨h1, h2, _, h3⟩
      exact ⟨h1, by omega, h3⟩
  | false =>
    simp only [Bool.false_eq_true, if_false, false_implies, true_and]
    rw [Int.tdiv_eq_ediv_of_nonneg (by omega), Int.le_ediv_iff_mul_le hc]

theorem family_spec (κ : Triple → Nat) (hκ : ∀ k a b c : Int, 0 < k → (κ (k * a, k * b, k * c) : Int) = k * κ (a, b, c))
    (cMax : Int) (prim : Bool) (L : List Int) (L2 : Int → List Int) (hL : L.Nodup) (hL2 : ∀ m, (L2 m).Nodup)
    (g : Int → Int → List Triple) (ok : Int → Int → Prop) (T : Int → Int → Triple) (R : Triple → Prop)
    (hg : ∀ m ∈ L, ∀ n ∈ L2 m, g m n = [] ∨ (ok m n ∧ (T m n).2.2 ≤ cMax ∧
      g m n = mults (if prim then 1 else cMax.tdiv (T m n).2.2) (T m n).1 (T m n).2.1 (T m n).2.2))
    (hT : ∀ m n, ok m n → R (T m n) ∧ κ (T m n) = 1) (hpos : ∀ t, R t → 0 < t.2.2)
    (hinj : ∀ m n m' n', ok m n → ok m' n' → T m n = T m' n' → m = m' ∧ n = n')
    (hsurj : ∀ t, R t → κ t = 1 → t.2.2 ≤ cMax → ∃ m ∈ L, ∃ n ∈ L2 m, ok m n ∧ T m n = t ∧
      g m n = mults (if prim then 1 else cMax.tdiv (T m n).2.2) (T m n).1 (T m n).2.1 (T m n).2.2)
    (hscale : ∀ k a b c, 1 ≤ k → R (a, b, c) → R (k * a, k * b, k * c))
    (hprim : ∀ a b c, R (a, b, c) → ∃ k a' b' c', 1 ≤ k ∧ a = k * a' ∧ b = k * b' ∧ c = k * c' ∧ R (a', b', c') ∧ κ (a', b', c') = 1) :
    (L.flatMap fun m => (L2 m).flatMap fun n => g m n).Nodup ∧
    ∀ a b c, (a, b, c) ∈ (L.flatMap fun m => (L2 m).flatMap fun n => g m n) ↔
      R (a, b, c) ∧ c ≤ cMax ∧ (prim = true → κ (a, b, c) = 1) := by
  have hcore : ∀ m ∈ L, ∀ n ∈ L2 m, ∀ a b c, (a, b, c) ∈ g m n → ok m n ∧ (T m n).2.2 ≤ cMax ∧
      ∃ k, 1 ≤ k ∧ (prim = true → k = 1) ∧ k * (T m n).2.2 ≤ cMax ∧
        a = k * (T m n).1 ∧ b = k * (T m n).2.1 ∧ c = k * (T m n).2.2 := by
    intro m hm n hn a b c h
    rcases hg m hm n hn with he | ⟨h1, h2, h3⟩
    · rw [he] at h; simp at h
    · refine ⟨h1, h2, ?_⟩
      rw [h3] at h
      exact (mem_mults_limit cMax prim _ _ _ a b c (hpos _ (hT m n h1).1) h2).1 h
  have hinj2 : ∀ m ∈ L, ∀ n ∈ L2 m, ∀ m' ∈ L, ∀ n' ∈ L2 m', ∀ z, z ∈ g m n → z ∈ g m' n' → m = m' ∧ n = n' := by
    rintro m hm n hn m' hm' n' hn' ⟨a, b, c⟩ h h'
    obtain ⟨o, _, k, k1, _, _, k2, k3, k4⟩ := hcore m hm n hn a b c h
    obtain ⟨o', _, l, l1, _, _, l2, l3, l4⟩ := hcore m' hm' n' hn' a b c h'
    have e1 := hκ k (T m n).1 (T m n).2.1 (T m n).2.2 (by omega)
    have e2 := hκ l (T m' n').1 (T m' n').2.1 (T m' n').2.2 (by omega)
    rw [← k2, ← k3, ← k4] at e1
    rw [← l2, ← l3, ← l4] at e2
    have c1 : κ ((T m n).1, (T m n).2.1, (T m n).2.2) = 1 := (hT m n o).2
    have c2 : κ ((T m' n').1, (T m' n').2.1, (T m' n').2.2) = 1 := (hT m' n' o').2
    rw [c1] at e1
    rw [c2] at e2
    have e : k = l := by push_cast at e1 e2; omega
    subst e
    have k0 : k ≠ 0 := by omega
    refine hinj m n m' n' o o' (Prod.ext ?_ (Prod.ext ?_ ?_))
    · exact mul_left_cancel₀ k0 (k2.symm.trans l2)
    · exact mul_left_cancel₀ k0 (k3.symm.trans l3)
    · exact mul_left_cancel₀ k0 (k4.symm.trans l4)
  constructor
  · refine nodup_flatMap_of _ _ hL ?_ ?_
    · intro m hm
      refine nodup_flatMap_of _ _ (hL2 m) ?_ ?_
      · intro n hn
        rcases hg m hm n hn with he | ⟨h1, h2, h3⟩
        · rw [he]; exact List.nodup_nil
        · rw [h3]
          exact nodup_mults _ _ _ _ (by have := hpos _ (hT m n h1).1; omega)
      · intro n hn n' hn' z hz hz'
        exact (hinj2 m hm n hn m hm n' hn' z hz hz').2
    · intro m hm m' hm' z hz hz'
      obtain ⟨n, hn, hz⟩ := List.mem_flatMap.1 hz
      obtain ⟨n', hn', hz'⟩ := List.mem_flatMap.1 hz'
      exact (hinj2 m hm n hn m' hm' n' hn' z hz hz').1
  · intro a b c
    simp only [List.mem_flatMap]
    constructor
    · rintro ⟨m, hm, n, hn, h⟩
      obtain ⟨o, _, k, k1, kp, kc, k2, k3, k4⟩ := hcore m hm n hn a b c h
      obtain ⟨r, c1⟩ := hT m n o
      refine ⟨?_, by omega, ?_⟩
      · rw [k2, k3, k4]; exact hscale k _ _ _ k1 r
      · intro hp
        rw [k2, k3, k4, kp hp, one_mul, one_mul, one_mul]
        exact c1
    · rintro ⟨hr, hc, hp⟩
      obtain ⟨k, a', b', c', k1, e1, e2, e3, r', c1⟩ := hprim a b c hr
      have hc' : 0 < c' := hpos _ r'
      have hle : c' ≤ cMax := by
        have : c' ≤ k * c' := by nlinarith
        omega
      obtain ⟨m, hm, n, hn, o, ht, hgm⟩ := hsurj _ r' c1 hle
      refine ⟨m, hm, n, hn, ?_⟩
      rw [hgm, ht]
      refine (mem_mults_limit cMax prim a' b' c' a b c hc' hle).2 ⟨k, k1, ?_, by omega, e1, e2, e3⟩
      intro hpr
      have e := hκ k a' b' c' (by omega)
      rw [← e1, ← e2, ← e3, hp hpr, c1] at e
      push_cast at e
      omega

/-! ### the parametrisation of `x^2 + x y + y^2 = z^2` -/

/-- admissible parameters -/
structure EP (M N : Int) : Prop where
  pos : 0 < N
  lt : N < M
  cop : IsCoprime M N

theorem ep_dvd (M N d : Int) (h : IsCoprime M N) (h1 : d ∣ M * M - N * N) (h2 : d ∣ 2 * M * N + N * N) : d ∣ 3 ∧ d ∣ 2 * M + N := by
  have c1 : IsCoprime (M * M - N * N) N := by
    have : IsCoprime (M * M) N := h.mul_left h
    have := this.add_mul_left_left (-N)
    have e : M * M + N * -N = M * M - N * N := by ring
    rwa [e] at this
  have c2 : IsCoprime d N := IsCoprime.of_isCoprime_of_dvd_left c1 h1
  have h3 : d ∣ 2 * M + N := by
    have e : 2 * M * N + N * N = (2 * M + N) * N := by ring
    rw [e] at h2
    exact c2.dvd_of_dvd_mul_right h2
  refine ⟨?_, h3⟩
  obtain ⟨u, hu⟩ := h1
  obtain ⟨v, hv⟩ := h3
  have : d ∣ 3 * N * N := ⟨v * (2 * M - N) - 4 * u, by linear_combination (2 * M - N) * hv - 4 * hu⟩
  exact c2.dvd_of_dvd_mul_right (c2.dvd_of_dvd_mul_right this)

theorem ep_gcd (M N : Int) (h : EP M N) :
    (Int.gcd (M * M - N * N) (2 * M * N + N * N) = 1 ∧ ¬ (3 : Int) ∣ M - N) ∨
    (Int.gcd (M * M - N * N) (2 * M * N + N * N) = 3 ∧ (3 : Int) ∣ M - N) := by
  obtain ⟨h1, h2⟩ := ep_dvd M N (Int.gcd (M * M - N * N) (2 * M * N + N * N)) h.cop (Int.gcd_dvd_left _ _) (Int.gcd_dvd_right _ _)
  have h3 : Int.gcd (M * M - N * N) (2 * M * N + N * N) ∣ 3 := by exact_mod_cast h1
  rcases (Nat.dvd_prime Nat.prime_three).1 h3 with e | e
  · left
    refine ⟨e, ?_⟩
    rintro ⟨t, ht⟩
    have d1 : (3 : Int) ∣ M * M - N * N := ⟨t * (M + N), by linear_combination (M + N) * ht⟩
    have d2 : (3 : Int) ∣ 2 * M * N + N * N := ⟨(2 * t + N) * N, by linear_combination 2 * N * ht⟩
    have := Int.dvd_coe_gcd d1 d2
    rw [e] at this
    norm_num at this
  · right
    refine ⟨e, ?_⟩
    rw [e] at h2
    push_cast at h2
    omega

/-- every primitive ordered solution comes from parameters -/
theorem ep_exists (x y z : Int) (hx : 0 < x) (hy : 0 < y) (hz : 0 < z) (hc : Int.gcd x y = 1) (h : x * x + x * y + y * y = z * z) :
    ∃ M N g, EP M N ∧ ((g = 1 ∧ ¬ (3 : Int) ∣ M - N) ∨ (g = 3 ∧ (3 : Int) ∣ M - N)) ∧
      g * x = M * M - N * N ∧ g * y = 2 * M * N + N * N ∧ g * z = M * M + M * N + N * N := by
  have hq0 : 0 < Int.gcd (z + x) y := Int.gcd_pos_of_ne_zero_right _ (by omega)
  obtain ⟨M, hM⟩ := Int.gcd_dvd_left (z + x) y
  obtain ⟨N, hN⟩ := Int.gcd_dvd_right (z + x) y
  have hcop : Int.gcd M N = 1 := by
    have e := Int.gcd_mul_left (Int.gcd (z + x) y) M N
    rw [← hM, ← hN] at e
    simp only [Int.natAbs_natCast] at e
    exact Nat.eq_of_mul_eq_mul_left hq0 (by omega)
  obtain ⟨q, hq⟩ : ∃ q : Int, q = Int.gcd (z + x) y := ⟨_, rfl⟩
  rw [← hq] at hM hN
  have hq1 : 0 < q := by omega
  have hcop' : IsCoprime M N := Int.isCoprime_iff_gcd_eq_one.2 hcop
  have hNp : 0 < N := by
    by_contra hcon
    nlinarith
  have hMp : 0 < M := by
    by_contra hcon
    nlinarith
  -- `(z - x) M = N (x + y)`
  have h1 : (z - x) * M = N * (x + y) := by
    have : q * ((z - x) * M) = q * (N * (x + y)) := by
      calc q * ((z - x) * M) = (z - x) * (q * M) := by ring
        _ = (z - x) * (z + x) := by rw [← hM]
        _ = y * (x + y) := by linear_combination (-1) * h
        _ = q * (N * (x + y)) := by rw [hN]; ring
    exact mul_left_cancel₀ (by omega) this
  have h2 : M ∣ x + y := by
    have : M ∣ N * (x + y) := ⟨z - x, by rw [← h1]; ring⟩
    exact hcop'.dvd_of_dvd_mul_left this
  obtain ⟨l, hl⟩ := h2
  have h3 : z - x = N * l := by
    have : M * (z - x) = M * (N * l) := by
      rw [mul_comm M (z - x), h1, hl]; ring
    exact mul_left_cancel₀ (by omega) this
  have hql : l * (2 * M + N) = q * (M + 2 * N) := by
    linear_combination (-2) * hl - h3 + hM + 2 * hN
  have e1 : (2 * M + N) * x = q * (M * M - N * N) := by
    have hx' : x = M * l - q * N := by linarith
    rw [hx']
    linear_combination M * hql
  have e2 : (2 * M + N) * y = q * (2 * M * N + N * N) := by
    rw [hN]; ring
  have e3 : (2 * M + N) * z = q * (M * M + M * N + N * N) := by
    have hz' : z = q * M - x := by linarith
    rw [hz', mul_sub, e1]; ring
  have hlt : N < M := by
    have : 0 < q * (M * M - N * N) := by rw [← e1]; positivity
    by_contra hcon
    have : M * M - N * N ≤ 0 := by nlinarith
    nlinarith
  have hep : EP M N := ⟨hNp, hlt, hcop'⟩
  have hgc : (2 * M + N) = q * (Int.gcd (M * M - N * N) (2 * M * N + N * N) : Int) := by
    have g1 := Int.gcd_mul_left (2 * M + N) x y
    have g2 := Int.gcd_mul_left q (M * M - N * N) (2 * M * N + N * N)
    rw [e1, e2, hc] at g1
    rw [g1] at g2
    have : ((2 * M + N).natAbs : Int) = q.natAbs * (Int.gcd (M * M - N * N) (2 * M * N + N * N) : Int) := by
      rw [← Int.natCast_mul, ← g2]; simp
    rw [Int.natAbs_of_nonneg (by omega), Int.natAbs_of_nonneg (by omega)] at this
    exact this
  refine ⟨M, N, Int.gcd (M * M - N * N) (2 * M * N + N * N), hep, ?_, ?_, ?_, ?_⟩
  · rcases ep_gcd M N hep with ⟨u, v⟩ | ⟨u, v⟩
    · left; exact ⟨by rw [u]; rfl, v⟩
    · right; exact ⟨by rw [u]; rfl, v⟩
  · rw [hgc, mul_assoc] at e1; exact mul_left_cancel₀ (by omega) e1
  · rw [hgc, mul_assoc] at e2; exact mul_left_cancel₀ (by omega) e2
  · rw [hgc, mul_assoc] at e3; exact mul_left_cancel₀ (by omega) e3

theorem coprime_ratio (M N M' N' : Int) (hN : 0 < N) (hN' : 0 < N') (h : IsCoprime M N) (h' : IsCoprime M' N')
    (e : M * N' = M' * N) : M = M' ∧ N = N' := by
  have d1 : N ∣ N' := h.symm.dvd_of_dvd_mul_left ⟨M', by rw [e]; ring⟩
  have d2 : N' ∣ N := h'.symm.dvd_of_dvd_mul_left ⟨M, by rw [← e]; ring⟩
  have en : N = N' := Int.dvd_antisymm (by omega) (by omega) d1 d2
  refine ⟨?_, en⟩
  rw [← en] at e
  exact mul_right_cancel₀ (by omega) e

theorem kappa_scale (k a b : Int) (hk : 0 < k) : (Int.gcd (k * a) (k * b) : Int) = k * Int.gcd a b := by
  rw [Int.gcd_mul_left, Int.natCast_mul, Int.natAbs_of_nonneg (by omega)]

theorem sq_dvd (g c s : Int) (h : c * c = g * g * s) : g ∣ c := by
  have : g ^ 2 ∣ c ^ 2 := ⟨s, by rw [pow_two, pow_two, h]⟩
  exact (Int.pow_dvd_pow_iff (by norm_num)).1 this

theorem gcd_one_iff (m n : Int) (hm : 0 ≤ m) (hn : 0 ≤ n) : Base.gcd m n = 1 ↔ IsCoprime m n := by
  rw [C03_gcd_nonneg m n hm hn, Int.isCoprime_iff_gcd_eq_one]
  norm_cast

/-! ### 120 degrees -/

/-- the triple of a pair of parameters -/
def tri120 (m n : Int) : Triple :=
  let ab := if m * n * 2 + n * n < m * m - n * n then (m * n * 2 + n * n, m * m - n * n) else (m * m - n * n, m * n * 2 + n * n)
  (ab.1, ab.2, m * m + m * n + n * n)

/-- what one pair gives -/
def g120 (cMax : Int) (prim : Bool) (m n : Int) : List Triple :=
  if (m - n).tmod 3 = 0 then []
  else if Base.gcd m n ≠ 1 then []
  else if cMax < (tri120 m n).2.2 then []
  else mults (if prim then 1 else cMax.tdiv (tri120 m n).2.2) (tri120 m n).1 (tri120 m n).2.1 (tri120 m n).2.2

theorem body120_eq (cMax : Int) (prim : Bool) (m n : Int) (vt : List Triple) :
    body120 cMax prim m n vt = vt ++ g120 cMax prim m n := by
  unfold body120 g120
  by_cases h1 : (m - n).tmod 3 = 0
  · rw [if_pos h1, if_pos h1, List.append_nil]
  · rw [if_neg h1, if_neg h1]
    by_cases h2 : Base.gcd m n ≠ 1
    · rw [if_pos h2, if_pos h2, List.append_nil]
    · rw [if_neg h2, if_neg h2]
      by_cases h3 : cMax < (tri120 m n).2.2
      · rw [if_pos h3, List.append_nil]
        exact if_pos h3
      · rw [if_neg h3]
        refine (if_neg h3).trans ?_
        exact multiples_eq _ _ _ _ _

theorem eisenstein120_eq (cMax : Int) (prim : Bool) :
    eisenstein120 cMax prim = (idx 0 (sqrtT cMax) 1).flatMap fun m => (idx 0 (m - 1) 1).flatMap fun n => g120 cMax prim m n := by
  unfold eisenstein120
  rw [forTo_append (g := fun m => (idx 0 (m - 1) 1).flatMap fun n => g120 cMax prim m n)]
  · simp
  · intro m vt
    exact forTo_append _ _ (fun n s => body120_eq cMax prim m n s) _ _ _ _

theorem tri120_cases (m n : Int) :
    ((tri120 m n).1 = m * n * 2 + n * n ∧ (tri120 m n).2.1 = m * m - n * n ∧ m * n * 2 + n * n < m * m - n * n) ∨
    ((tri120 m n).1 = m * m - n * n ∧ (tri120 m n).2.1 = m * n * 2 + n * n ∧ m * m - n * n ≤ m * n * 2 + n * n) := by
  unfold tri120
  by_cases h : m * n * 2 + n * n < m * m - n * n
  · left; simp [h]
  · right; simp [h]; omega

theorem no_three (a c : Int) (ha : 0 < a) (h : 3 * (a * a) = c * c) : False := by
  have h3 : Prime (3 : Int) := Int.prime_three
  -- descent: both are divisible by 3
  have key : ∀ (n : Nat) (a c : Int), a.natAbs ≤ n → 0 < a → 3 * (a * a) = c * c → False := by
    intro n
    induction n with
    | zero => intro a c h1 h2; omega
    | succ n ih =>
      intro a c h1 h2 h
      have d1 : (3 : Int) ∣ c := by
        have : (3 : Int) ∣ c * c := ⟨a * a, h.symm⟩
        rcases h3.dvd_or_dvd this with h | h <;> exact h
      obtain ⟨c', rfl⟩ := d1
      have d2 : (3 : Int) ∣ a := by
        have : (3 : Int) ∣ a * a := ⟨c' * c', by linarith⟩
        rcases h3.dvd_or_dvd this with h | h <;> exact h
      obtain ⟨a', rfl⟩ := d2
      exact ih a' c' (by omega) (by omega) (by linarith)
  exact key _ a c (le_refl _) ha h

/-- the pairs that are used -/
structure Ok120 (m n : Int) : Prop where
  ep : EP m n
  nd : ¬ (3 : Int) ∣ m - n

/-- a triangle with an angle of 120 degrees -/
structure Is120 (a b c : Int) : Prop where
  pos : 0 < a
  lt : a < b
  cpos : 0 < c
  eq : a * a + a * b + b * b = c * c

theorem tri120_spec (m n : Int) (h : Ok120 m n) :
    Is120 (tri120 m n).1 (tri120 m n).2.1 (tri120 m n).2.2 ∧ Int.gcd (tri120 m n).1 (tri120 m n).2.1 = 1 := by
  obtain ⟨hep, hnd⟩ := h
  have hg : Int.gcd (m * m - n * n) (2 * m * n + n * n) = 1 := by
    rcases ep_gcd m n hep with ⟨u, _⟩ | ⟨_, v⟩
    · exact u
    · exact absurd v hnd
  have e : 2 * m * n + n * n = m * n * 2 + n * n := by ring
  rw [e] at hg
  have h1 := hep.pos
  have h2 := hep.lt
  have hm : 0 < m := by omega
  have p1 : 0 < m * n * 2 + n * n := by positivity
  have p2 : 0 < m * m - n * n := by nlinarith
  have pc : 0 < m * m + m * n + n * n := by positivity
  have ec : (tri120 m n).2.2 = m * m + m * n + n * n := rfl
  rcases tri120_cases m n with ⟨e1, e2, h⟩ | ⟨e1, e2, h⟩
  · rw [e1, e2, ec]
    exact ⟨⟨p1, h, pc, by ring⟩, by rw [Int.gcd_comm]; exact hg⟩
  · rw [e1, e2, ec]
    refine ⟨⟨p2, ?_, pc, by ring⟩, hg⟩
    rcases lt_or_eq_of_le h with h | h
    · exact h
    · exfalso
      apply no_three (m * m - n * n) (m * m + m * n + n * n) p2
      have : (m * m - n * n) * (m * m - n * n) = (m * m - n * n) * (m * n * 2 + n * n) := by rw [← h]
      have h' : (m * n * 2 + n * n) * (m * n * 2 + n * n) = (m * m - n * n) * (m * n * 2 + n * n) := by rw [← h]
      linear_combination 2 * this - h'

theorem tri120_inj (m n m' n' : Int) (h : Ok120 m n) (h' : Ok120 m' n') (he : tri120 m n = tri120 m' n') : m = m' ∧ n = n' := by
  obtain ⟨hep, hnd⟩ := h
  obtain ⟨hep', hnd'⟩ := h'
  have i1 : (tri120 m n).1 = (tri120 m' n').1 := by rw [he]
  have i2 : (tri120 m n).2.1 = (tri120 m' n').2.1 := by rw [he]
  have i3 : m * m + m * n + n * n = m' * m' + m' * n' + n' * n' := by
    have : (tri120 m n).2.2 = (tri120 m' n').2.2 := by rw [he]
    exact this
  have p1 := hep.pos
  have p2 := hep.lt
  have p1' := hep'.pos
  have p2' := hep'.lt
  have same : m * m - n * n = m' * m' - n' * n' → m * n * 2 + n * n = m' * n' * 2 + n' * n' → m = m' ∧ n = n' := by
    intro ha hb
    refine coprime_ratio m n m' n' p1 p1' hep.cop hep'.cop ?_
    have hB : m * n * 2 + n * n ≠ 0 := by
      have : 0 < m := by omega
      positivity
    refine mul_right_cancel₀ hB ?_
    have s1 : m * (m * n * 2 + n * n) = n * ((m * m + m * n + n * n) + (m * m - n * n)) := by ring
    have s2 : m' * (m' * n' * 2 + n' * n') = n' * ((m' * m' + m' * n' + n' * n') + (m' * m' - n' * n')) := by ring
    rw [← hb, ← i3, ← ha] at s2
    linear_combination n' * s1 - n * s2
  have swap : m * m - n * n = m' * n' * 2 + n' * n' → m * n * 2 + n * n = m' * m' - n' * n' → False := by
    intro ha hb
    have hep2 : IsCoprime (m + 2 * n) (m - n) := by
      rw [Int.isCoprime_iff_gcd_eq_one]
      by_contra hne
      obtain ⟨p, hp, hd⟩ := Nat.exists_prime_and_dvd hne
      have d1 : (p : Int) ∣ m + 2 * n := (Int.natCast_dvd_natCast.2 hd).trans (Int.gcd_dvd_left _ _)
      have d2 : (p : Int) ∣ m - n := (Int.natCast_dvd_natCast.2 hd).trans (Int.gcd_dvd_right _ _)
      have d3 : (p : Int) ∣ 3 * n := by
        have := Int.dvd_sub d1 d2
        have e : m + 2 * n - (m - n) = 3 * n := by ring
        rwa [e] at this
      have hpi : Prime (p : Int) := Nat.prime_iff_prime_int.1 hp
      rcases hpi.dvd_or_dvd d3 with h | h
      · have : p ∣ 3 := by exact_mod_cast h
        rcases (Nat.dvd_prime Nat.prime_three).1 this with e | e
        · exact hp.one_lt.ne' e
        · rw [e] at d2; exact hnd (by exact_mod_cast d2)
      · have dm : (p : Int) ∣ m := by
          have := Int.dvd_add d2 h
          simpa using this
        exact hpi.not_isUnit (hep.cop.isUnit_of_dvd' dm h)
    have hr := coprime_ratio (m + 2 * n) (m - n) m' n' (by omega) p1' hep2 hep'.cop (by
      have hA : m * m - n * n ≠ 0 := by nlinarith
      refine mul_right_cancel₀ hA ?_
      have s1 : (m + 2 * n) * (m * m - n * n) = (m - n) * ((m * m + m * n + n * n) + (m * n * 2 + n * n)) := by ring
      have s2 : m' * (m' * n' * 2 + n' * n') = n' * ((m' * m' + m' * n' + n' * n') + (m' * m' - n' * n')) := by ring
      rw [← hb, ← i3, ← ha] at s2
      linear_combination n' * s1 - (m - n) * s2)
    apply hnd'
    rw [← hr.1, ← hr.2]
    exact ⟨n, by ring⟩
  rcases tri120_cases m n with ⟨e1, e2, _⟩ | ⟨e1, e2, _⟩ <;> rcases tri120_cases m' n' with ⟨f1, f2, _⟩ | ⟨f1, f2, _⟩ <;>
    rw [e1, f1] at i1 <;> rw [e2, f2] at i2
  · exact same i2 i1
  · exact absurd (swap i2 i1) (by simp)
  · exact absurd (swap i1 i2) (by simp)
  · exact same i1 i2

theorem tri120_surj (a b c : Int) (h : Is120 a b c) (hg : Int.gcd a b = 1) : ∃ m n, Ok120 m n ∧ tri120 m n = (a, b, c) := by
  obtain ⟨h1, h2, h3, h4⟩ := h
  obtain ⟨M, N, g, hep, hgd, ea, eb, ec⟩ := ep_exists a b c h1 (by omega) h3 hg h4
  have build : ∀ m n, Ok120 m n → ((m * m - n * n = a ∧ m * n * 2 + n * n = b) ∨ (m * m - n * n = b ∧ m * n * 2 + n * n = a)) →
      m * m + m * n + n * n = c → tri120 m n = (a, b, c) := by
    intro m n _ hab hc
    have ec : (tri120 m n).2.2 = c := hc
    rcases tri120_cases m n with ⟨e1, e2, hlt⟩ | ⟨e1, e2, hle⟩
    · refine Prod.ext ?_ (Prod.ext ?_ ec)
      · rw [e1]; simp only; omega
      · rw [e2]; simp only; omega
    · refine Prod.ext ?_ (Prod.ext ?_ ec)
      · rw [e1]; simp only; omega
      · rw [e2]; simp only; omega
  rcases hgd with ⟨rfl, hnd⟩ | ⟨rfl, t, ht⟩
  · have ok : Ok120 M N := ⟨hep, hnd⟩
    exact ⟨M, N, ok, build M N ok (Or.inl ⟨by linarith, by linarith⟩) (by linarith)⟩
  · have hM : M = N + 3 * t := by linarith
    subst hM
    have hN := hep.pos
    have htp : 0 < t := by have := hep.lt; omega
    have ok : Ok120 (t + N) t := by
      refine ⟨⟨htp, by omega, ?_⟩, ?_⟩
      · have h := hep.cop
        obtain ⟨u, v, huv⟩ := h
        exact ⟨u + v, 2 * u - v, by linear_combination huv⟩
      · rintro ⟨s, hs⟩
        have hN3 : (3 : Int) ∣ N := ⟨s, by linarith⟩
        have hM3 : (3 : Int) ∣ N + 3 * t := Int.dvd_add hN3 ⟨t, rfl⟩
        have := hep.cop.isUnit_of_dvd' hM3 hN3
        exact Int.prime_three.not_isUnit this
    refine ⟨t + N, t, ok, build _ _ ok (Or.inr ⟨?_, ?_⟩) ?_⟩
    · have : 3 * ((t + N) * (t + N) - t * t) = 3 * b := by rw [eb]; ring
      linarith
    · have : 3 * ((t + N) * t * 2 + t * t) = 3 * a := by rw [ea]; ring
      linarith
    · have : 3 * ((t + N) * (t + N) + (t + N) * t + t * t) = 3 * c := by rw [ec]; ring
      linarith

/-- `eisenstein_triples120(c_max, only_primitive)` visits every triple `0 < a < b < c <= c_max` with `a^2 + a b + b^2 = c^2`
(every coprime one, if `only_primitive`) exactly once, and nothing else. -/
theorem C80_eisenstein120 (cMax : Int) (prim : Bool) (hc : 0 ≤ cMax) (hl : cMax.natAbs.log2 < 2 ^ 63) :
    (eisenstein120 cMax prim).Nodup ∧
    ∀ a b c, (a, b, c) ∈ eisenstein120 cMax prim ↔
      (0 < a ∧ a < b ∧ b < c ∧ c ≤ cMax) ∧ a * a + a * b + b * b = c * c ∧ (prim = true → Int.gcd a b = 1) := by
  obtain ⟨r0, r1, r2⟩ := C01_sqrtT cMax hc hl
  obtain ⟨hn, hm⟩ := family_spec (fun t => Int.gcd t.1 t.2.1) (fun k a b c hk => kappa_scale k a b hk) cMax prim
    (idx 0 (sqrtT cMax) 1) (fun m => idx 0 (m - 1) 1) (nodup_idx _ _ _) (fun m => nodup_idx _ _ _) (g120 cMax prim) Ok120 tri120
    (fun t => Is120 t.1 t.2.1 t.2.2)
    (by
      intro m hm n hn
      rw [mem_idx] at hm hn
      unfold g120
      by_cases h1 : (m - n).tmod 3 = 0
      · rw [if_pos h1]; exact Or.inl rfl
      · rw [if_neg h1]
        by_cases h2 : Base.gcd m n ≠ 1
        · rw [if_pos h2]; exact Or.inl rfl
        · rw [if_neg h2]
          by_cases h3 : cMax < (tri120 m n).2.2
          · rw [if_pos h3]; exact Or.inl rfl
          · rw [if_neg h3]
            refine Or.inr ⟨⟨⟨by omega, by omega, ?_⟩, ?_⟩, by omega, rfl⟩
            · exact (gcd_one_iff m n (by omega) (by omega)).1 (by omega)
            · rwa [Int.dvd_iff_tmod_eq_zero])
    tri120_spec (fun t h => h.cpos) tri120_inj
    (by
      rintro ⟨a, b, c⟩ hr hk hle
      obtain ⟨m, n, ok, ht⟩ := tri120_surj a b c hr hk
      have p1 := ok.ep.pos
      have p2 := ok.ep.lt
      have hcc : m * m + m * n + n * n = c := by
        have : (tri120 m n).2.2 = c := by rw [ht]
        exact this
      simp only at hle
      refine ⟨m, (mem_idx _ _ _ _).2 ⟨by omega, ?_, by simp⟩, n, (mem_idx _ _ _ _).2 ⟨by omega, by omega, by simp⟩, ok, ht, ?_⟩
      · by_contra hcon
        nlinarith
      · have hg := (gcd_one_iff m n (by omega) (by omega)).2 ok.ep.cop
        have h3 : ¬ (m - n).tmod 3 = 0 := by
          rw [← Int.dvd_iff_tmod_eq_zero]; exact ok.nd
        have h4 : ¬ cMax < (tri120 m n).2.2 := by rw [ht]; simp only; omega
        rw [g120, if_neg h3, if_neg (by simp [hg]), if_neg h4])
    (by
      rintro k a b c hk ⟨h1, h2, h3, h4⟩
      simp only at h1 h2 h3 h4
      refine ⟨by simp only; positivity, ?_, by simp only; positivity, ?_⟩
      · simp only; exact mul_lt_mul_of_pos_left h2 (by omega)
      · simp only; linear_combination k * k * h4)
    (by
      rintro a b c ⟨h1, h2, h3, h4⟩
      simp only at h1 h2 h3 h4
      obtain ⟨g, a', b', g0, ea, eb, hg, eg⟩ := to_prim a b h1
      obtain ⟨c', ec⟩ := sq_dvd g c (a' * a' + a' * b' + b' * b') (by rw [← h4, ea, eb]; ring)
      refine ⟨g, a', b', c', by omega, ea, eb, ec, ⟨?_, ?_, ?_, ?_⟩, hg⟩
      · simp only; by_contra hcon; nlinarith
      · simp only; by_contra hcon; nlinarith
      · simp only; by_contra hcon; nlinarith
      · simp only
        have : g * g * (a' * a' + a' * b' + b' * b') = g * g * (c' * c') := by
          rw [ea, eb, ec] at h4
          linear_combination h4
        exact mul_left_cancel₀ (by positivity) this)
  rw [eisenstein120_eq]
  refine ⟨hn, fun a b c => ?_⟩
  rw [hm a b c]
  constructor
  · rintro ⟨⟨h1, h2, h3, h4⟩, h5, h6⟩
    simp only at h1 h2 h3 h4
    exact ⟨⟨h1, h2, by nlinarith, h5⟩, h4, h6⟩
  · rintro ⟨⟨h1, h2, h3, h5⟩, h4, h6⟩
    exact ⟨⟨h1, h2, by simp only; omega, h4⟩, h5, h6⟩

/-- The triples up to 20. -/
example : eisenstein120 20 false = [(3, 5, 7), (6, 10, 14), (7, 8, 13), (5, 16, 19)] := by decide +kernel

/-! ### 60 degrees -/

/-- the triple of a pair of parameters -/
def tri60 (m n : Int) : Triple :=
  let ac := if m * n * 2 - n * n < m * m - n * n then (m * n * 2 - n * n, m * m - n * n) else (m * m - n * n, m * n * 2 - n * n)
  if (m + n).tmod 3 = 0 then (ac.1.tdiv 3, (m * m - m * n + n * n).tdiv 3, ac.2.tdiv 3) else (ac.1, m * m - m * n + n * n, ac.2)

/-- what one pair gives -/
def g60 (cMax : Int) (prim : Bool) (m n : Int) : List Triple :=
  if Base.gcd m n ≠ 1 then []
  else if cMax < (tri60 m n).2.2 then []
  else mults (if prim then 1 else cMax.tdiv (tri60 m n).2.2) (tri60 m n).1 (tri60 m n).2.1 (tri60 m n).2.2

theorem body60_eq (cMax : Int) (prim : Bool) (m n : Int) (vt : List Triple) :
    body60 cMax prim m n vt = vt ++ g60 cMax prim m n := by
  unfold body60 g60
  by_cases h2 : Base.gcd m n ≠ 1
  · rw [if_pos h2, if_pos h2, List.append_nil]
  · rw [if_neg h2, if_neg h2]
    by_cases h3 : cMax < (tri60 m n).2.2
    · rw [if_pos h3, List.append_nil]
      exact if_pos h3
    · rw [if_neg h3]
      refine (if_neg h3).trans ?_
      exact multiples_eq _ _ _ _ _

theorem eisenstein60_eq (cMax : Int) (prim : Bool) :
    eisenstein60 cMax prim = (idx 0 (min (sqrtT (cMax * 4)) ((cMax * 3 + 1).tdiv 2)) 1).flatMap fun m =>
      (idx 0 (m.tdiv 2) 1).flatMap fun n => g60 cMax prim m n := by
  unfold eisenstein60
  rw [forTo_append (g := fun m => (idx 0 (m.tdiv 2) 1).flatMap fun n => g60 cMax prim m n)]
  · simp
  · intro m vt
    exact forTo_append _ _ (fun n s => body60_eq cMax prim m n s) _ _ _ _

/-- the pairs that are used -/
structure Ok60 (m n : Int) : Prop where
  pos : 0 < n
  le : 2 * n ≤ m
  cop : IsCoprime m n

/-- a triangle with an angle of 60 degrees between the sides `a <= c` -/
structure Is60 (a b c : Int) : Prop where
  pos : 0 < a
  le : a ≤ c
  bpos : 0 < b
  eq : a * a - a * c + c * c = b * b

/-- the triple, in terms of `M = m - n` and `N = n` -/
theorem tri60_scaled (m n : Int) (h : Ok60 m n) :
    ∃ g : Int, ((g = 1 ∧ ¬ (3 : Int) ∣ m + n) ∨ (g = 3 ∧ (3 : Int) ∣ m + n)) ∧ g * (tri60 m n).1 = m * n * 2 - n * n ∧
      g * (tri60 m n).2.1 = m * m - m * n + n * n ∧ g * (tri60 m n).2.2 = m * m - n * n := by
  obtain ⟨h1, h2, h3⟩ := h
  have hle : m * n * 2 - n * n ≤ m * m - n * n := by nlinarith
  have e : (if m * n * 2 - n * n < m * m - n * n then (m * n * 2 - n * n, m * m - n * n) else (m * m - n * n, m * n * 2 - n * n)) =
      (m * n * 2 - n * n, m * m - n * n) := by
    split_ifs with hlt
    · rfl
    · have : m * n * 2 - n * n = m * m - n * n := by omega
      rw [this]
  unfold tri60
  rw [e]
  by_cases h3 : (m + n).tmod 3 = 0
  · simp only [if_pos h3]
    have hd : (3 : Int) ∣ m + n := Int.dvd_iff_tmod_eq_zero.2 h3
    refine ⟨3, Or.inr ⟨rfl, hd⟩, ?_, ?_, ?_⟩
    · obtain ⟨t, ht⟩ := hd
      exact Int.mul_tdiv_cancel' ⟨2 * n * t - n * n, by linear_combination 2 * n * ht⟩
    · obtain ⟨t, ht⟩ := hd
      exact Int.mul_tdiv_cancel' ⟨t * (m + n) - m * n, by linear_combination (m + n) * ht⟩
    · obtain ⟨t, ht⟩ := hd
      exact Int.mul_tdiv_cancel' ⟨t * (m - n), by linear_combination (m - n) * ht⟩
  · simp only [if_neg h3]
    exact ⟨1, Or.inl ⟨rfl, fun hd => h3 (Int.dvd_iff_tmod_eq_zero.1 hd)⟩, by ring, by ring, by ring⟩

theorem tri60_spec (m n : Int) (h : Ok60 m n) :
    Is60 (tri60 m n).1 (tri60 m n).2.1 (tri60 m n).2.2 ∧ Int.gcd (tri60 m n).1 (tri60 m n).2.2 = 1 := by
  obtain ⟨g, hg, e1, e2, e3⟩ := tri60_scaled m n h
  obtain ⟨h1, h2, h3⟩ := h
  have hm : 0 < m := by omega
  have g0 : 0 < g := by omega
  have p1 : 0 < m * n * 2 - n * n := by nlinarith
  have p2 : 0 < m * m - m * n + n * n := by nlinarith
  have hle : m * n * 2 - n * n ≤ m * m - n * n := by nlinarith
  rw [← e1] at p1
  rw [← e2] at p2
  have hle' : g * (tri60 m n).1 ≤ g * (tri60 m n).2.2 := by rw [e1, e3]; exact hle
  have hpos : 0 < (tri60 m n).1 := by by_contra hcon; nlinarith
  refine ⟨⟨hpos, by by_contra hcon; nlinarith, by by_contra hcon; nlinarith, ?_⟩, ?_⟩
  · have : g * g * ((tri60 m n).1 * (tri60 m n).1 - (tri60 m n).1 * (tri60 m n).2.2 + (tri60 m n).2.2 * (tri60 m n).2.2) =
        g * g * ((tri60 m n).2.1 * (tri60 m n).2.1) := by
      have : ∀ x y z : Int, g * x = m * n * 2 - n * n → g * y = m * m - m * n + n * n → g * z = m * m - n * n →
          g * g * (x * x - x * z + z * z) = g * g * (y * y) := by
        intro x y z ex ey ez
        have l : g * g * (x * x - x * z + z * z) = (g * x) * (g * x) - (g * x) * (g * z) + (g * z) * (g * z) := by ring
        have r : g * g * (y * y) = (g * y) * (g * y) := by ring
        rw [l, r, ex, ey, ez]; ring
      exact this _ _ _ e1 e2 e3
    exact mul_left_cancel₀ (by positivity) this
  · -- the gcd of the unscaled triple is `g`
    have hcop : IsCoprime (m - n) n := by
      have := h3.add_mul_left_left (-1)
      have e : m + n * -1 = m - n := by ring
      rwa [e] at this
    have hG : (Int.gcd (m * n * 2 - n * n) (m * m - n * n) : Int) ∣ g := by
      have d1 := Int.gcd_dvd_left (m * n * 2 - n * n) (m * m - n * n)
      have d2 := Int.gcd_dvd_right (m * n * 2 - n * n) (m * m - n * n)
      have d3 := Int.dvd_sub d2 d1
      obtain ⟨k1, k2⟩ := ep_dvd (m - n) n (Int.gcd (m * n * 2 - n * n) (m * m - n * n)) hcop
        (by have e : (m - n) * (m - n) - n * n = m * m - n * n - (m * n * 2 - n * n) - 0 := by ring
            rw [e, sub_zero]; exact d3)
        (by have e : 2 * (m - n) * n + n * n = m * n * 2 - n * n := by ring
            rw [e]; exact d1)
      rcases hg with ⟨rfl, hnd⟩ | ⟨rfl, _⟩
      · have k3 : Int.gcd (m * n * 2 - n * n) (m * m - n * n) ∣ 3 := by exact_mod_cast k1
        rcases (Nat.dvd_prime Nat.prime_three).1 k3 with e | e
        · rw [e]; simp
        · exfalso
          rw [e] at k2
          push_cast at k2
          omega
      · exact k1
    have hs := kappa_scale g (tri60 m n).1 (tri60 m n).2.2 g0
    rw [e1, e3] at hs
    rw [hs] at hG
    obtain ⟨u, hu⟩ := hG
    have : (Int.gcd (tri60 m n).1 (tri60 m n).2.2 : Int) ∣ 1 := by
      refine ⟨u, ?_⟩
      have : g * 1 = g * (Int.gcd (tri60 m n).1 (tri60 m n).2.2 * u) := by linear_combination hu
      exact mul_left_cancel₀ (by omega) this
    have h' : Int.gcd (tri60 m n).1 (tri60 m n).2.2 ∣ 1 := by exact_mod_cast this
    exact Nat.dvd_one.1 h'

theorem tri60_inj (m n m' n' : Int) (h : Ok60 m n) (h' : Ok60 m' n') (he : tri60 m n = tri60 m' n') : m = m' ∧ n = n' := by
  obtain ⟨g, hg, e1, e2, e3⟩ := tri60_scaled m n h
  obtain ⟨g', hg', f1, f2, f3⟩ := tri60_scaled m' n' h'
  have hp := (tri60_spec m n h).1.pos
  rw [← he] at f1 f2 f3
  have g0 : g ≠ 0 := by omega
  have g0' : g' ≠ 0 := by omega
  -- `(m - n) a = n (b + c - a)`
  have s : (m - n) * (tri60 m n).1 = n * ((tri60 m n).2.1 + (tri60 m n).2.2 - (tri60 m n).1) := by
    refine mul_left_cancel₀ g0 ?_
    linear_combination (m - n) * e1 - n * e2 - n * e3 + n * e1
  have s' : (m' - n') * (tri60 m n).1 = n' * ((tri60 m n).2.1 + (tri60 m n).2.2 - (tri60 m n).1) := by
    refine mul_left_cancel₀ g0' ?_
    linear_combination (m' - n') * f1 - n' * f2 - n' * f3 + n' * f1
  have cop : ∀ {m n : Int}, IsCoprime m n → IsCoprime (m - n) n := by
    intro m n h3
    have := h3.add_mul_left_left (-1)
    have e : m + n * -1 = m - n := by ring
    rwa [e] at this
  have := coprime_ratio (m - n) n (m' - n') n' h.pos h'.pos (cop h.cop) (cop h'.cop) (by
    refine mul_right_cancel₀ (show (tri60 m n).1 ≠ 0 by omega) ?_
    linear_combination n' * s - n * s')
  omega

theorem tri60_surj (a b c : Int) (h : Is60 a b c) (hg : Int.gcd a c = 1) : ∃ m n, Ok60 m n ∧ tri60 m n = (a, b, c) := by
  obtain ⟨h1, h2, h3, h4⟩ := h
  have fin : ∀ m n g, Ok60 m n → ((g = 1 ∧ ¬ (3 : Int) ∣ m + n) ∨ (g = 3 ∧ (3 : Int) ∣ m + n)) → g * a = m * n * 2 - n * n →
      g * b = m * m - m * n + n * n → g * c = m * m - n * n → tri60 m n = (a, b, c) := by
    intro m n g ok hg ea eb ec
    obtain ⟨g', hg', f1, f2, f3⟩ := tri60_scaled m n ok
    have e : g' = g := by
      rcases hg with ⟨e, x⟩ | ⟨e, x⟩ <;> rcases hg' with ⟨e', x'⟩ | ⟨e', x'⟩
      · rw [e, e']
      · exact absurd x' x
      · exact absurd x x'
      · rw [e, e']
    rw [e] at f1 f2 f3
    have g0 : g ≠ 0 := by omega
    refine Prod.ext ?_ (Prod.ext ?_ ?_)
    · exact mul_left_cancel₀ g0 (f1.trans ea.symm)
    · exact mul_left_cancel₀ g0 (f2.trans eb.symm)
    · exact mul_left_cancel₀ g0 (f3.trans ec.symm)
  rcases lt_or_eq_of_le h2 with hlt | heq
  · have hc' : Int.gcd (c - a) a = 1 := by
      rw [Int.gcd_comm]
      rw [← Int.isCoprime_iff_gcd_eq_one] at hg ⊢
      have := hg.add_mul_left_right (-1)
      have e : c + a * -1 = c - a := by ring
      rwa [e] at this
    obtain ⟨M, N, g, hep, hgd, ea, eb, ec⟩ := ep_exists (c - a) a b (by omega) h1 h3 hc' (by linear_combination h4)
    have p1 := hep.pos
    have p2 := hep.lt
    have ok : Ok60 (M + N) N := ⟨p1, by omega, by simpa using hep.cop.add_mul_left_left 1⟩
    refine ⟨M + N, N, ok, fin _ _ g ok ?_ ?_ ?_ ?_⟩
    · rcases hgd with ⟨x, y⟩ | ⟨x, y⟩
      · left; exact ⟨x, by omega⟩
      · right; exact ⟨x, by omega⟩
    · rw [eb]; ring
    · rw [ec]; ring
    · linear_combination ea + eb
  · subst heq
    have ha1 : a = 1 := by
      rw [Int.gcd_self] at hg
      omega
    subst ha1
    have hb1 : b = 1 := by nlinarith
    subst hb1
    have ok : Ok60 2 1 := ⟨by omega, by omega, isCoprime_one_right⟩
    exact ⟨2, 1, ok, fin 2 1 3 ok (Or.inr ⟨rfl, by decide⟩) (by norm_num) (by norm_num) (by norm_num)⟩

/-- `eisenstein_triples60(c_max, only_primitive)` visits every triple `0 < a < b < c <= c_max` with `a^2 - a c + c^2 = b^2`
(every coprime one, if `only_primitive`) exactly once, and, unlike its documentation says, also the equilateral triangles
`(a, a, a)`. -/
theorem C80_eisenstein60 (cMax : Int) (prim : Bool) (hc : 0 ≤ cMax) (hl : (cMax * 4).natAbs.log2 < 2 ^ 63) :
    (eisenstein60 cMax prim).Nodup ∧
    ∀ a b c, (a, b, c) ∈ eisenstein60 cMax prim ↔
      ((0 < a ∧ a < b ∧ b < c) ∨ (0 < a ∧ a = b ∧ b = c)) ∧ c ≤ cMax ∧ a * a - a * c + c * c = b * b ∧ (prim = true → Int.gcd a c = 1) := by
  obtain ⟨r0, r1, r2⟩ := C01_sqrtT (cMax * 4) (by omega) hl
  obtain ⟨hn, hm⟩ := family_spec (fun t => Int.gcd t.1 t.2.2) (fun k a b c hk => kappa_scale k a c hk) cMax prim
    (idx 0 (min (sqrtT (cMax * 4)) ((cMax * 3 + 1).tdiv 2)) 1) (fun m => idx 0 (m.tdiv 2) 1) (nodup_idx _ _ _) (fun m => nodup_idx _ _ _)
    (g60 cMax prim) Ok60 tri60
    (fun t => Is60 t.1 t.2.1 t.2.2)
    (by
      intro m hm n hn
      rw [mem_idx] at hm hn
      rw [Int.tdiv_eq_ediv_of_nonneg (by omega)] at hn
      unfold g60
      by_cases h2 : Base.gcd m n ≠ 1
      · rw [if_pos h2]; exact Or.inl rfl
      · rw [if_neg h2]
        by_cases h3 : cMax < (tri60 m n).2.2
        · rw [if_pos h3]; exact Or.inl rfl
        · rw [if_neg h3]
          refine Or.inr ⟨⟨by omega, by omega, ?_⟩, by omega, rfl⟩
          exact (gcd_one_iff m n (by omega) (by omega)).1 (by omega))
    tri60_spec (fun t h => by have := h.pos; have := h.le; omega) tri60_inj
    (by
      rintro ⟨a, b, c⟩ hr hk hle
      obtain ⟨m, n, ok, ht⟩ := tri60_surj a b c hr hk
      obtain ⟨g, hg, e1, e2, e3⟩ := tri60_scaled m n ok
      have p1 := ok.pos
      have p2 := ok.le
      rw [ht] at e3
      simp only at hle e3
      have hc0 : 0 < c := by have := hr.pos; have := hr.le; simp only at *; omega
      have hg3 : g * c ≤ 3 * cMax := by
        have : g * c ≤ 3 * c := mul_le_mul_of_nonneg_right (by omega) (by omega)
        omega
      refine ⟨m, (mem_idx _ _ _ _).2 ⟨by omega, ?_, by simp⟩, n, (mem_idx _ _ _ _).2 ⟨by omega, ?_, by simp⟩, ok, ht, ?_⟩
      · rw [le_min_iff]
        constructor
        · by_contra hcon
          have : (sqrtT (cMax * 4) + 1) * (sqrtT (cMax * 4) + 1) ≤ m * m := mul_self_le_mul_self (by omega) (by omega)
          have h4 : 2 * n * (2 * n) ≤ m * m := mul_self_le_mul_self (by omega) p2
          nlinarith
        · rw [Int.tdiv_eq_ediv_of_nonneg (by omega), Int.le_ediv_iff_mul_le (by omega)]
          have : 0 ≤ (m - n - 1) * (m + n - 1) := mul_nonneg (by omega) (by omega)
          nlinarith
      · rw [Int.tdiv_eq_ediv_of_nonneg (by omega)]; omega
      · have hg := (gcd_one_iff m n (by omega) (by omega)).2 ok.cop
        have h4 : ¬ cMax < (tri60 m n).2.2 := by rw [ht]; simp only; omega
        rw [g60, if_neg (by simp [hg]), if_neg h4])
    (by
      rintro k a b c hk ⟨h1, h2, h3, h4⟩
      simp only at h1 h2 h3 h4
      refine ⟨by simp only; positivity, ?_, by simp only; positivity, ?_⟩
      · simp only; exact mul_le_mul_of_nonneg_left h2 (by omega)
      · simp only; linear_combination k * k * h4)
    (by
      rintro a b c ⟨h1, h2, h3, h4⟩
      simp only at h1 h2 h3 h4
      obtain ⟨g, a', c', g0, ea, ec, hg, eg⟩ := to_prim a c h1
      obtain ⟨b', eb⟩ := sq_dvd g b (a' * a' - a' * c' + c' * c') (by rw [← h4, ea, ec]; ring)
      refine ⟨g, a', b', c', by omega, ea, eb, ec, ⟨?_, ?_, ?_, ?_⟩, hg⟩
      · simp only; by_contra hcon; nlinarith
      · simp only; by_contra hcon; nlinarith
      · simp only; by_contra hcon; nlinarith
      · simp only
        have : g * g * (a' * a' - a' * c' + c' * c') = g * g * (b' * b') := by
          rw [ea, eb, ec] at h4
          linear_combination h4
        exact mul_left_cancel₀ (by positivity) this)
  rw [eisenstein60_eq]
  refine ⟨hn, fun a b c => ?_⟩
  rw [hm a b c]
  constructor
  · rintro ⟨⟨h1, h2, h3, h4⟩, h5, h6⟩
    simp only at h1 h2 h3 h4
    refine ⟨?_, h5, h4, h6⟩
    rcases lt_or_eq_of_le h2 with h | h
    · left
      refine ⟨h1, ?_, ?_⟩
      · by_contra hcon
        nlinarith
      · by_contra hcon
        nlinarith
    · right
      subst h
      have : a = b := by nlinarith
      exact ⟨h1, this, this.symm⟩
  · rintro ⟨h1 | h1, h5, h4, h6⟩
    · exact ⟨⟨h1.1, by simp only; omega, by simp only; omega, h4⟩, h5, h6⟩
    · exact ⟨⟨h1.1, by simp only; omega, by simp only; omega, h4⟩, h5, h6⟩

/-- The triples up to 8, with the equilateral ones. -/
example : eisenstein60 8 false = [(1, 1, 1), (2, 2, 2), (3, 3, 3), (4, 4, 4), (5, 5, 5), (6, 6, 6), (7, 7, 7), (8, 8, 8),
    (5, 7, 8), (3, 7, 8)] ∧ eisenstein60 8 true = [(1, 1, 1), (5, 7, 8), (3, 7, 8)] := by decide +kernel

end Altruct.Triples
