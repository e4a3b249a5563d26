/-
C89: `pell`, the equation `x^2 - D y^2 = N`.
-/
import Verif.Pell.Small
import Verif.Pell.Class
import Verif.Primes.DivisorProps
import Mathlib.Data.Nat.Factorization.Basic

namespace Altruct.Pell

open Altruct Quadratic

variable {D s : Int}

/-- Two numbers that differ by a factor of norm 1. -/
def Equiv (D : Int) (x y x' y' : Int) : Prop :=
  ∃ u v, u * u - D * (v * v) = 1 ∧ (⟨x, y⟩ : ℤ√D) = ⟨x', y'⟩ * ⟨u, v⟩

theorem class_coprime {m z x y : Int} (hm : m ≠ 0) (hz : m ∣ z * z - D) (h1 : m ∣ x + z * y)
    (n1 : x * x - D * (y * y) = m) : IsCoprime m y ∧ IsCoprime x y := by
  obtain ⟨c, hc⟩ := hz
  obtain ⟨a, ha⟩ := h1
  have hx : x = m * a - z * y := by linarith
  have hf : m * a * a - 2 * z * a * y + c * y * y = 1 := by
    apply mul_left_cancel₀ hm
    rw [mul_one]
    conv_rhs => rw [← n1]
    rw [hx]
    linear_combination (-y * y) * hc
  have h2 : IsCoprime m y := ⟨a * a, -2 * z * a + c * y, by linear_combination hf⟩
  have h3 : IsCoprime a y := ⟨m * a - 2 * z * y, c * y, by linear_combination hf⟩
  refine ⟨h2, ?_⟩
  have h4 := (h2.mul_left h3).add_mul_right_left (-z)
  rwa [show m * a + -z * y = x by rw [hx]; ring] at h4

theorem mem_classes {D m z : Int} (hm : m ≠ 0) : z ∈ classes D |m| ↔ 0 ≤ z ∧ z < |m| ∧ m ∣ z * z - D := by
  have hmm : 0 < |m| := abs_pos.mpr hm
  rw [classes, List.mem_filter, List.mem_map]
  simp only [List.mem_range, decide_eq_true_eq]
  constructor
  · rintro ⟨⟨k, hk, rfl⟩, h⟩
    exact ⟨by omega, by omega, (abs_dvd _ _).mp (Int.dvd_of_tmod_eq_zero h)⟩
  · rintro ⟨h1, h2, h3⟩
    exact ⟨⟨z.toNat, by omega, by omega⟩, Int.tmod_eq_zero_of_dvd ((abs_dvd _ _).mpr h3)⟩

theorem nodup_classes (D m : Int) : (classes D m).Nodup := by
  rw [classes]
  exact (List.Nodup.map (fun a b h => by simpa using h) List.nodup_range).filter _

/-- What the list of solutions for the divisor `f` satisfies, for the classes in `vz`. -/
structure ZSpec (D m f : Int) (vz : List Int) (out : List (Quad Int D)) : Prop where
  mem : ∀ v ∈ out, ∃ z ∈ vz, ∃ x y, v = mulScalar ⟨x, y⟩ f ∧ x * x - D * (y * y) = m ∧ m ∣ x + z * y
  pair : out.Pairwise fun v w => ¬ Equiv D v.a v.b w.a w.b
  all : (∀ u v : Int, u * u - D * (v * v) ≠ -1) → ∀ z ∈ vz, ∀ x y, x * x - D * (y * y) = m → m ∣ x + z * y →
    ∃ v ∈ out, Equiv D (x * f) (y * f) v.a v.b

theorem Equiv.scale {f x y x' y' : Int} (h : Equiv D x y x' y') : Equiv D (x * f) (y * f) (x' * f) (y' * f) := by
  obtain ⟨u, v, h1, h2⟩ := h
  have e1 := congrArg Zsqrtd.re h2
  have e2 := congrArg Zsqrtd.im h2
  rw [Zsqrtd.re_mul] at e1
  rw [Zsqrtd.im_mul] at e2
  refine ⟨u, v, h1, Zsqrtd.ext ?_ ?_⟩
  · rw [Zsqrtd.re_mul]; simp only at e1 ⊢; linear_combination f * e1
  · rw [Zsqrtd.im_mul]; simp only at e2 ⊢; linear_combination f * e2

theorem Equiv.unscale {f x y x' y' : Int} (hf : f ≠ 0) (h : Equiv D (x * f) (y * f) (x' * f) (y' * f)) :
    Equiv D x y x' y' := by
  obtain ⟨u, v, h1, h2⟩ := h
  have e1 := congrArg Zsqrtd.re h2
  have e2 := congrArg Zsqrtd.im h2
  rw [Zsqrtd.re_mul] at e1
  rw [Zsqrtd.im_mul] at e2
  refine ⟨u, v, h1, Zsqrtd.ext ?_ ?_⟩
  · rw [Zsqrtd.re_mul]; simp only at e1 ⊢
    apply mul_right_cancel₀ hf; linear_combination e1
  · rw [Zsqrtd.im_mul]; simp only at e2 ⊢
    apply mul_right_cancel₀ hf; linear_combination e2

theorem pellZ_spec (hD : 0 < D) (hns : ¬ IsSquare D) (hl : D.natAbs.log2 < 2 ^ 63) {m f : Int} (hm : m ≠ 0) (hf : f ≠ 0) :
    ∀ vz : List Int, vz.Nodup → (∀ z ∈ vz, 0 ≤ z ∧ z < |m| ∧ m ∣ z * z - D) →
      ∃ (fuel0 : ℕ) (out : List (Quad Int D)), (∀ fuel, fuel0 ≤ fuel → pellZ fuel D m f vz = some out) ∧ ZSpec D m f vz out := by
  intro vz
  induction vz with
  | nil => intro _ _; exact ⟨0, [], fun _ _ => rfl, ⟨by simp, List.Pairwise.nil, by simp⟩⟩
  | cons z vz ih =>
    intro hnd hz
    rw [List.nodup_cons] at hnd
    obtain ⟨f1, out, e1, sp⟩ := ih hnd.2 (fun z' h => hz z' (by simp [h]))
    obtain ⟨hz0, hz1, hzd⟩ := hz z (by simp)
    obtain ⟨f2, r, x, y, e2, g1, -, g2⟩ := C88_pell_mz D m z 0 0 hD hns hl hm hzd
    by_cases hr : r = 0
    · refine ⟨max f1 f2, out, fun fuel hfu => ?_, ⟨?_, sp.pair, ?_⟩⟩
      · rw [pellZ, e2 fuel (by omega), e1 fuel (by omega)]
        simp [hr]
      · intro v hv
        obtain ⟨z', h1, h2⟩ := sp.mem v hv
        exact ⟨z', by simp [h1], h2⟩
      · intro hno z' hz' x' y' h1 h2
        rcases List.mem_cons.mp hz' with h | h
        · rw [h] at h2
          exact absurd ⟨h1, h2⟩ (g2 hr hno x' y')
        · exact sp.all hno z' h x' y' h1 h2
    · obtain ⟨k1, k2, -, k3⟩ := g1 hr
      refine ⟨max f1 f2, mulScalar ⟨x, y⟩ f :: out, fun fuel hfu => ?_, ⟨?_, ?_, ?_⟩⟩
      · rw [pellZ, e2 fuel (by omega), e1 fuel (by omega)]
        simp [hr]
      · intro v hv
        rcases List.mem_cons.mp hv with h | h
        · exact ⟨z, by simp, x, y, h, k1, k2⟩
        · obtain ⟨z', h1, h2⟩ := sp.mem v h
          exact ⟨z', by simp [h1], h2⟩
      · rw [List.pairwise_cons]
        refine ⟨fun w hw heq => ?_, sp.pair⟩
        obtain ⟨z', h1, x', y', rfl, h2, h3⟩ := sp.mem w hw
        obtain ⟨hz0', hz1', hzd'⟩ := hz z' (by simp [h1])
        obtain ⟨u, v, -, h4⟩ := Equiv.unscale hf heq
        have hcl := class_mul (x := x') (y := y') (u := u) (v := v) hzd' h3
        rw [← h4] at hcl
        simp only at hcl
        have hcop := (class_coprime hm hzd k2 k1).1
        have hdv : m ∣ (z - z') * y := by
          have := dvd_sub k2 hcl
          rwa [show x + z * y - (x + z' * y) = (z - z') * y by ring] at this
        have hdz := hcop.dvd_of_dvd_mul_right hdv
        have : z - z' = 0 := by
          apply Int.eq_zero_of_abs_lt_dvd ((abs_dvd _ _).mpr hdz)
          rw [abs_lt]
          exact ⟨by linarith, by linarith⟩
        have hzz : z = z' := by omega
        rw [hzz] at hnd
        exact hnd.1 h1
      · intro hno z' hz' x' y' h1 h2
        rcases List.mem_cons.mp hz' with h | h
        · rw [h] at h2
          obtain ⟨u, v, h3, h4⟩ := (k3 x' y').mp ⟨h1, h2⟩
          exact ⟨_, List.mem_cons_self, Equiv.scale ⟨u, v, h3, h4⟩⟩
        · obtain ⟨v, h3, h4⟩ := sp.all hno z' h x' y' h1 h2
          exact ⟨v, List.mem_cons_of_mem _ h3, h4⟩

/-- What the list of solutions satisfies, for the divisors in `vf`. -/
structure FSpec (D N : Int) (vf : List Nat) (out : List (Quad Int D)) : Prop where
  mem : ∀ v ∈ out, ∃ f ∈ vf, ∃ x y : Int, v = mulScalar ⟨x, y⟩ (f : Int) ∧ (x * x - D * (y * y)) * (f * f) = N ∧ IsCoprime x y
  pair : out.Pairwise fun v w => ¬ Equiv D v.a v.b w.a w.b
  all : (∀ u v : Int, u * u - D * (v * v) ≠ -1) → ∀ f ∈ vf, ∀ x y, (x * x - D * (y * y)) * (f * f) = N → IsCoprime x y →
    ∃ v ∈ out, Equiv D (x * f) (y * f) v.a v.b

/-- A primitive solution is in one of the classes. -/
theorem exists_class {m x y : Int} (hm : m ≠ 0) (h : x * x - D * (y * y) = m) (hc : IsCoprime x y) :
    ∃ z, z ∈ classes D |m| ∧ m ∣ x + z * y := by
  have hmm : 0 < |m| := abs_pos.mpr hm
  have hmy : IsCoprime m y := by
    rw [← h, show x * x - D * (y * y) = x * x + y * (-(D * y)) by ring]
    exact (hc.mul_left hc).add_mul_left_left _
  obtain ⟨a, b, hab⟩ := hmy
  -- `z = - x / y`
  have hb : m ∣ 1 - b * y := ⟨a, by linarith⟩
  have hz0 : m ∣ x + (-(x * b)) * y := by
    rw [show x + -(x * b) * y = (1 - b * y) * x by ring]
    exact dvd_mul_of_dvd_left hb _
  obtain ⟨k, hk⟩ : m ∣ (-(x * b)) % |m| - (-(x * b)) := by
    rw [← abs_dvd]
    exact ⟨-((-(x * b)) / |m|), by have := Int.emod_add_mul_ediv (-(x * b)) |m|; linarith⟩
  have hz : m ∣ x + ((-(x * b)) % |m|) * y := by
    rw [show ((-(x * b)) % |m|) = -(x * b) + m * k by linarith,
      show x + (-(x * b) + m * k) * y = (x + (-(x * b)) * y) + m * (k * y) by ring]
    exact dvd_add hz0 ⟨_, rfl⟩
  refine ⟨_, (mem_classes hm).mpr ⟨Int.emod_nonneg _ hmm.ne', Int.emod_lt_of_pos _ hmm, ?_⟩, hz⟩
  generalize (-(x * b)) % |m| = z at hz
  -- `(z^2 - D) y^2 = 0`
  have h1 : m ∣ (z * z - D) * (y * y) := by
    obtain ⟨c, hc⟩ := hz
    exact ⟨c * (z * y - x) + 1, by linear_combination (z * y - x) * hc + h⟩
  have hmy : IsCoprime m y := ⟨a, b, hab⟩
  exact (hmy.mul_right hmy).dvd_of_dvd_mul_right h1

theorem pellF_spec (hD : 0 < D) (hns : ¬ IsSquare D) (hl : D.natAbs.log2 < 2 ^ 63) {N : Int} (hN : N ≠ 0) :
    ∀ vf : List Nat, vf.Nodup → (∀ f ∈ vf, (f : Int) * f ∣ N) →
      ∃ (fuel0 : ℕ) (out : List (Quad Int D)), (∀ fuel, fuel0 ≤ fuel → pellF fuel D N vf = some out) ∧ FSpec D N vf out := by
  intro vf
  induction vf with
  | nil => intro _ _; exact ⟨0, [], fun _ _ => rfl, ⟨by simp, List.Pairwise.nil, by simp⟩⟩
  | cons f vf ih =>
    intro hnd hdv
    rw [List.nodup_cons] at hnd
    obtain ⟨f1, out, e1, sp⟩ := ih hnd.2 (fun f' h => hdv f' (by simp [h]))
    have hff : (f : Int) * f ≠ 0 := by
      intro h
      have := hdv f (by simp)
      rw [h, zero_dvd_iff] at this
      exact hN this
    have hf0 : (f : Int) ≠ 0 := by intro h; rw [h] at hff; exact hff (by ring)
    have hmul : (f : Int) * f * N.tdiv (f * f) = N := Int.mul_tdiv_cancel' (hdv f (by simp))
    set m := N.tdiv ((f : Int) * f) with hmdef
    have hm : m ≠ 0 := by intro h; rw [h, mul_zero] at hmul; exact hN hmul.symm
    obtain ⟨f2, outz, e2, spz⟩ := pellZ_spec hD hns hl hm hf0 (classes D |m|) (nodup_classes D _)
      (fun z hz => (mem_classes hm).mp hz)
    have hcop : ∀ z ∈ classes D |m|, ∀ x y, x * x - D * (y * y) = m → m ∣ x + z * y → IsCoprime x y :=
      fun z hz x y h1 h2 => (class_coprime hm ((mem_classes hm).mp hz).2.2 h2 h1).2
    refine ⟨max f1 f2, outz ++ out, fun fuel hfu => ?_, ⟨?_, ?_, ?_⟩⟩
    · rw [pellF, if_neg hff]
      simp only [← hmdef]
      rw [e2 fuel (by omega), e1 fuel (by omega)]
      rfl
    · intro v hv
      rcases List.mem_append.mp hv with h | h
      · obtain ⟨z, hz, x, y, h1, h2, h3⟩ := spz.mem v h
        exact ⟨f, by simp, x, y, h1, by rw [h2, mul_comm]; exact hmul, hcop z hz x y h2 h3⟩
      · obtain ⟨f', h1, h2⟩ := sp.mem v h
        exact ⟨f', by simp [h1], h2⟩
    · rw [List.pairwise_append]
      refine ⟨spz.pair, sp.pair, fun v hv w hw heq => ?_⟩
      obtain ⟨z, hz, x, y, rfl, h2, h3⟩ := spz.mem v hv
      obtain ⟨f', hf', x', y', rfl, h4, h5⟩ := sp.mem w hw
      have hxy := hcop z hz x y h2 h3
      obtain ⟨u, t, g1, g2⟩ := heq
      have g3 := congrArg Zsqrtd.re g2
      have g4 := congrArg Zsqrtd.im g2
      rw [Zsqrtd.re_mul] at g3
      rw [Zsqrtd.im_mul] at g4
      simp only [mulScalar] at g3 g4
      -- the product is primitive as well
      have hc2 : IsCoprime (x' * u + D * y' * t) (x' * t + y' * u) := by
        obtain ⟨a, b, hab⟩ := h5
        refine ⟨a * u - b * t, b * u - a * D * t, ?_⟩
        linear_combination (u * u - D * (t * t)) * hab + g1
      have hf0' : 0 < (f' : Int) := by
        rcases Nat.eq_zero_or_pos f' with h | h
        · rw [h] at h4; simp at h4; exact absurd h4.symm hN
        · exact_mod_cast h
      have hfp : 0 < (f : Int) := by omega
      have := scale_inj hfp hf0' hxy hc2 (by linear_combination g3) (by linear_combination g4)
      have hff' : f = f' := by exact_mod_cast this
      rw [hff'] at hnd
      exact hnd.1 hf'
    · intro hno f' hf' x y h1 h2
      rcases List.mem_cons.mp hf' with h | h
      · rw [h] at h1
        have hxm : x * x - D * (y * y) = m := by
          apply mul_left_cancel₀ hff
          rw [hmul, mul_comm, h1]
        obtain ⟨z, hz, h3⟩ := exists_class hm hxm h2
        obtain ⟨v, h4, h5⟩ := spz.all hno z hz x y hxm h3
        rw [h]
        exact ⟨v, by simp [h4], h5⟩
      · obtain ⟨v, h4, h5⟩ := sp.all hno f' h x y h1 h2
        exact ⟨v, by simp [h4], h5⟩

/-! ## The divisors `f` -/

open Primes in
theorem half_factorization : ∀ (fN : List (ℕ × ℕ)) (n : ℕ), IsFactorization fN n →
    ∃ r, IsFactorization (halfExponents fN) r ∧ ∀ q, r.factorization q = n.factorization q / 2 := by
  intro fN
  induction fN with
  | nil =>
    intro n h
    have : n = 1 := by rw [← h.prod]; rfl
    exact ⟨1, IsFactorization.nil, fun q => by rw [this]; simp⟩
  | cons g fN ih =>
    intro n h
    obtain ⟨n', h', rfl, hnd, hp, hk⟩ := h.tail
    obtain ⟨r, hr, hq⟩ := ih n' h'
    have hn0 := h'.ne_zero
    have hr0 := hr.ne_zero
    have hv : n'.factorization g.1 = 0 := Nat.factorization_eq_zero_of_not_dvd hnd
    have hnr : ¬ g.1 ∣ r := by
      intro hd
      have h1 := (hp.dvd_iff_one_le_factorization hr0).mp hd
      rw [hq, hv] at h1
      omega
    have hpow : ∀ k q, (g.1 ^ k).factorization q = if q = g.1 then k else 0 := by
      intro k q
      rw [hp.factorization_pow, Finsupp.single_apply]
      by_cases e : q = g.1
      · rw [if_pos e, if_pos e.symm]
      · rw [if_neg e, if_neg (fun h => e h.symm)]
    have hfac : ∀ q, (g.1 ^ (g.2 / 2) * r).factorization q = (g.1 ^ g.2 * n').factorization q / 2 := by
      intro q
      rw [Nat.factorization_mul (pow_ne_zero _ hp.ne_zero) hr0, Nat.factorization_mul (pow_ne_zero _ hp.ne_zero) hn0,
        Finsupp.add_apply, Finsupp.add_apply, hpow, hpow, hq]
      by_cases e : q = g.1
      · rw [if_pos e, if_pos e, e, hv]; rfl
      · rw [if_neg e, if_neg e, zero_add, zero_add]
    rw [halfExponents, List.filterMap_cons]
    by_cases h2 : g.2 ≥ 2
    · rw [if_pos h2]
      exact ⟨g.1 ^ (g.2 / 2) * r, hr.cons hp (by omega) hnr, hfac⟩
    · rw [if_neg h2]
      refine ⟨r, hr, fun q => ?_⟩
      rw [← hfac q, show g.2 / 2 = 0 by omega, pow_zero, one_mul]

theorem dvd_half {n r : ℕ} (hn : n ≠ 0) (hr : r ≠ 0) (h : ∀ q, r.factorization q = n.factorization q / 2) (f : ℕ) :
    f ∣ r ↔ f * f ∣ n := by
  rcases Nat.eq_zero_or_pos f with h0 | h0
  · rw [h0, zero_dvd_iff, zero_mul, zero_dvd_iff]
    exact ⟨fun h => absurd h hr, fun h => absurd h hn⟩
  · rw [← Nat.factorization_le_iff_dvd h0.ne' hr, ← Nat.factorization_le_iff_dvd (mul_ne_zero h0.ne' h0.ne') hn,
      Nat.factorization_mul h0.ne' h0.ne', Finsupp.le_def, Finsupp.le_def]
    constructor <;> intro hh q <;> have h1 := hh q <;> have h2 := h q <;> simp only [Finsupp.add_apply] at * <;> omega

/-! ## The units -/

/-- The numbers of norm 1 are, up to the sign, the powers of the least positive one and of its conjugate. -/
theorem unit_form (hD : Between D s) {x1 y1 : Int} (hg : Generates D 1 x1 y1) {u v : Int} (h : u * u - D * (v * v) = 1) :
    ∃ (k : ℕ) (e : Int), (e = 1 ∨ e = -1) ∧
      ((⟨u, v⟩ : ℤ√D) = (e : ℤ√D) * ⟨x1, y1⟩ ^ k ∨ (⟨u, v⟩ : ℤ√D) = (e : ℤ√D) * ⟨x1, -y1⟩ ^ k) := by
  have hD0 : 0 < D := by have := hD.lo; have := hD.pos; nlinarith
  have hu0 : u ≠ 0 := by
    intro e
    rw [e] at h
    have : 0 ≤ D * (v * v) := mul_nonneg hD0.le (mul_self_nonneg v)
    omega
  have hconj : ∀ k : ℕ, star ((⟨x1, y1⟩ : ℤ√D) ^ k) = ⟨x1, -y1⟩ ^ k := by
    intro k
    rw [star_pow]; rfl
  have hc : ∀ a b : Int, star (⟨a, b⟩ : ℤ√D) = ⟨a, -b⟩ := fun a b => rfl
  have hneg : ∀ a b : Int, (⟨-a, -b⟩ : ℤ√D) = -⟨a, b⟩ := fun a b => rfl
  rcases lt_trichotomy v 0 with hv | hv | hv
  · rcases lt_or_gt_of_ne hu0 with hu | hu
    · obtain ⟨k, -, -, e⟩ := (hg (-u) (-v)).mp ⟨by omega, by omega, by rw [← h]; ring⟩
      exact ⟨k, -1, Or.inr rfl, Or.inl (by rw [← e, hneg]; simp)⟩
    · obtain ⟨k, -, -, e⟩ := (hg u (-v)).mp ⟨by omega, by omega, by rw [← h]; ring⟩
      refine ⟨k, 1, Or.inl rfl, Or.inr ?_⟩
      rw [← hconj, ← e, hc]; simp
  · refine ⟨0, u, ?_, Or.inl ?_⟩
    · rw [hv] at h
      have : u * u = 1 := by linarith
      rcases mul_self_eq_one_iff.mp this with h1 | h1
      · exact Or.inl h1
      · exact Or.inr h1
    · rw [hv, pow_zero, mul_one]; rfl
  · rcases lt_or_gt_of_ne hu0 with hu | hu
    · obtain ⟨k, -, -, e⟩ := (hg (-u) v).mp ⟨by omega, by omega, by rw [← h]; ring⟩
      refine ⟨k, -1, Or.inr rfl, Or.inr ?_⟩
      rw [← hconj, ← e, hc]
      apply Zsqrtd.ext <;> simp
    · obtain ⟨k, -, -, e⟩ := (hg u v).mp ⟨hu, hv, h⟩
      exact ⟨k, 1, Or.inl rfl, Or.inl (by rw [← e]; simp)⟩

/-- C89: for a positive non-square `D`, `N ≠ 0` and the factorization `fN` of `|N|`, `pell(D, N, fN)` terminates.

- Everything returned is a solution of `x^2 - D y^2 = N`.
- No returned solution is another one times a number of norm 1, so no class is returned twice.
- If `x^2 - D y^2 = -1` has no solution, then every solution of `x^2 - D y^2 = N`, of whatever signs, is up to the sign a
  returned one times a power (of positive or negative exponent) of the least positive solution of `x^2 - D y^2 = 1`. -/
theorem C89_pell (lim : ℕ) (D N : Int) (fN : List (ℕ × ℕ)) (hD : 0 < D) (hns : ¬ IsSquare D)
    (hl : D.natAbs.log2 < 2 ^ 63) (hN : N ≠ 0) (hfN : Primes.IsFactorization fN N.natAbs) (hlim : N.natAbs ≤ lim) :
    ∃ (fuel0 r : ℕ) (x1 y1 : Int) (out : List (Quad Int D)),
      (∀ fuel, fuel0 ≤ fuel → pell lim fuel D N fN = some out ∧ pell1 fuel D 1 0 0 = some (r, x1, y1))
      ∧ (r ≠ 0 ∧ Sol D 1 x1 y1 ∧ ∀ x y, Sol D 1 x y → x1 ≤ x ∧ y1 ≤ y)
      ∧ (∀ v ∈ out, v.a * v.a - D * (v.b * v.b) = N)
      ∧ (out.Pairwise fun v w => ∀ a b, a * a - D * (b * b) = 1 → (⟨v.a, v.b⟩ : ℤ√D) ≠ ⟨w.a, w.b⟩ * ⟨a, b⟩)
      ∧ ((∀ u v : Int, u * u - D * (v * v) ≠ -1) → ∀ x y, x * x - D * (y * y) = N →
          ∃ v ∈ out, ∃ (k : ℕ) (e : Int), (e = 1 ∨ e = -1) ∧
            ((⟨x, y⟩ : ℤ√D) = (e : ℤ√D) * (⟨v.a, v.b⟩ * ⟨x1, y1⟩ ^ k)
              ∨ (⟨x, y⟩ : ℤ√D) = (e : ℤ√D) * (⟨v.a, v.b⟩ * ⟨x1, -y1⟩ ^ k))) := by
  have hB := between_sqrtT D hD hns hl
  obtain ⟨r, l, hp⟩ := exists_isPeriod hB one_ne_zero (dvd_one D)
  have hr := r_eq_one hB hp
  subst hr
  have hg := generates hB hp (Or.inl rfl : (1 : Int) = 1 ∨ (1 : Int) = -1) (by omega)
  have hrun := fun fuel hf => pell1_run hB rfl hp (Or.inl rfl : (1 : Int) = 1 ∨ (1 : Int) = -1) 0 0 fuel hf
  generalize (conv D (Base.sqrtT D) (l + 1) ^ unitExp l 1).re = x1 at hg hrun
  generalize (conv D (Base.sqrtT D) (l + 1) ^ unitExp l 1).im = y1 at hg hrun
  -- the divisors
  obtain ⟨root, hroot, hfac⟩ := half_factorization fN N.natAbs hfN
  have hn0 : N.natAbs ≠ 0 := by omega
  have hdh := dvd_half hn0 hroot.ne_zero hfac
  have hroot2 : root * root ≤ N.natAbs := Nat.le_of_dvd (by omega) ((hdh root).mp dvd_rfl)
  obtain ⟨vf, e1, hnd, hmem⟩ := Primes.C14_divisors_unsorted lim (halfExponents fN) root hroot 0
    (Or.inr ⟨rfl, fun f hf => by
      have h1 : f.1 ≤ root := Nat.le_of_dvd (Nat.pos_of_ne_zero hroot.ne_zero) (hroot.fst_dvd hf)
      have : root * f.1 ≤ root * root := Nat.mul_le_mul_left _ h1
      omega⟩)
  have hmem' : ∀ f, f ∈ vf ↔ (f : Int) * f ∣ N := by
    intro f
    rw [hmem, hdh, ← Int.natCast_dvd_natCast, Nat.cast_mul, Int.dvd_natAbs]
    simp
  obtain ⟨f0, out, e2, sp⟩ := pellF_spec hD hns hl hN vf hnd (fun f hf => (hmem' f).mp hf)
  refine ⟨max f0 (1 + l), l, x1, y1, out, fun fuel hf => ⟨?_, ?_⟩,
    ⟨by have := hp.l1; omega, hg.sol, hg.least hB⟩, ?_, ?_, ?_⟩
  · rw [pell, e1]
    exact e2 fuel (by omega)
  · rw [hrun fuel (by omega), if_neg (by omega)]
  · intro v hv
    obtain ⟨f, -, x, y, rfl, h1, -⟩ := sp.mem v hv
    rw [← h1]
    simp only [mulScalar]
    ring
  · exact sp.pair.imp (fun h a b h1 h2 => h ⟨a, b, h1, h2⟩)
  · intro hno x y hxy
    have hg0 : 0 < (Int.gcd x y : Int) := by
      have : Int.gcd x y ≠ 0 := by
        intro h0
        rw [Int.gcd_eq_zero_iff] at h0
        rw [h0.1, h0.2] at hxy
        simp at hxy
        exact hN hxy.symm
      exact_mod_cast Nat.pos_of_ne_zero this
    obtain ⟨g, hgdef⟩ : ∃ g : ℕ, g = Int.gcd x y := ⟨_, rfl⟩
    obtain ⟨x', hx'⟩ : (g : Int) ∣ x := by rw [hgdef]; exact Int.gcd_dvd_left ..
    obtain ⟨y', hy'⟩ : (g : Int) ∣ y := by rw [hgdef]; exact Int.gcd_dvd_right ..
    rw [← hgdef] at hg0
    have hcop : IsCoprime x' y' := by
      rw [Int.isCoprime_iff_gcd_eq_one]
      have : g = g * Int.gcd x' y' := by
        conv_lhs => rw [hgdef, hx', hy', Int.gcd_mul_left]
        rw [Int.natAbs_natCast]
      exact Nat.eq_of_mul_eq_mul_left (by omega : 0 < g) (by omega)
    have hN' : (x' * x' - D * (y' * y')) * (g * g) = N := by rw [← hxy, hx', hy']; ring
    obtain ⟨v, hv, u, t, h1, h2⟩ := sp.all hno g ((hmem' g).mpr ⟨x' * x' - D * (y' * y'), by rw [← hN']; ring⟩) x' y' hN' hcop
    rw [mul_comm x', mul_comm y', ← hx', ← hy'] at h2
    obtain ⟨k, e, he, h3⟩ := unit_form hB hg h1
    refine ⟨v, hv, k, e, he, ?_⟩
    rcases h3 with h3 | h3
    · exact Or.inl (by rw [h2, h3]; ring)
    · exact Or.inr (by rw [h2, h3]; ring)

set_option maxRecDepth 100000 in
/-- `x^2 - 6 y^2 = 25`: two primitive classes and one with the common factor 5. -/
example : pell 1000 100 6 25 [(5, 2)] = some [⟨7, 2⟩, ⟨11, 4⟩, ⟨25, 10⟩] := by decide +kernel

set_option maxRecDepth 100000 in
/-- Without the condition on `-1` solutions are missed: `pell(2, -7)` returns `(5, 4)` only.  `(1, 2)` is another
solution, and no number of norm 1 takes one to the other. -/
theorem C89_pell_misses : pell 1000000 100 2 (-7) [(7, 1)] = some [⟨5, 4⟩] ∧ 1 * 1 - 2 * (2 * 2) = (-7 : Int)
    ∧ ∀ a b : Int, (⟨1, 2⟩ : ℤ√2) ≠ ⟨5, 4⟩ * ⟨a, b⟩ ∧ (⟨1, 2⟩ : ℤ√2) ≠ -(⟨5, 4⟩ * ⟨a, b⟩) := by
  refine ⟨by decide +kernel, by decide, fun a b => ⟨fun h => ?_, fun h => ?_⟩⟩
  · have h1 := congrArg Zsqrtd.re h
    have h2 := congrArg Zsqrtd.im h
    rw [Zsqrtd.re_mul] at h1
    rw [Zsqrtd.im_mul] at h2
    simp only at h1 h2
    omega
  · have h1 := congrArg Zsqrtd.re h
    have h2 := congrArg Zsqrtd.im h
    rw [Zsqrtd.re_neg, Zsqrtd.re_mul] at h1
    rw [Zsqrtd.im_neg, Zsqrtd.im_mul] at h2
    simp only at h1 h2
    omega

end Altruct.Pell
