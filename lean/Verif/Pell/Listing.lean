/-
C90: the listing `pell(D, N, fN, x_max, y_max, count)`.
-/
import Verif.Pell.General
import Mathlib.Data.Finset.Card

namespace Altruct.Pell

open Altruct Quadratic

variable {D s : Int}

theorem Equiv.refl (x y : Int) : Equiv D x y x y := ⟨1, 0, by ring, by apply Zsqrtd.ext <;> simp⟩

theorem Equiv.symm {x y x' y' : Int} (h : Equiv D x y x' y') : Equiv D x' y' x y := by
  obtain ⟨u, v, h1, h2⟩ := h
  refine ⟨u, -v, by linear_combination h1, ?_⟩
  rw [h2, mul_assoc]
  have : (⟨u, v⟩ : ℤ√D) * ⟨u, -v⟩ = 1 := by
    apply Zsqrtd.ext
    · rw [Zsqrtd.re_mul]; simp only [Zsqrtd.re_one]; linear_combination h1
    · rw [Zsqrtd.im_mul]; simp only [Zsqrtd.im_one]; ring
  rw [this, mul_one]

theorem Equiv.trans {x y x' y' x'' y'' : Int} (h : Equiv D x y x' y') (g : Equiv D x' y' x'' y'') :
    Equiv D x y x'' y'' := by
  obtain ⟨u, v, h1, h2⟩ := h
  obtain ⟨p, q, g1, g2⟩ := g
  refine ⟨((⟨p, q⟩ : ℤ√D) * ⟨u, v⟩).re, ((⟨p, q⟩ : ℤ√D) * ⟨u, v⟩).im, by rw [norm_mul', g1, h1, mul_one], ?_⟩
  rw [h2, g2, mul_assoc]

theorem Equiv.norm {x y x' y' N : Int} (h : Equiv D x y x' y') (hn : x' * x' - D * (y' * y') = N) :
    x * x - D * (y * y) = N := by
  obtain ⟨u, v, h1, h2⟩ := h
  have e1 : x = _ := congrArg Zsqrtd.re h2
  have e2 : y = _ := congrArg Zsqrtd.im h2
  rw [e1, e2, norm_mul', hn, h1, mul_one]

/-- The next number of a class in the listing. -/
def adv {D : Int} (s1 s : Quad Int D) : Quad Int D :=
  if (s * s1).a ≤ 0 ∧ (s * s1).b ≤ 0 then -(s * s1) else s * s1

theorem mul_a (s t : Quad Int D) : (s * t).a = s.a * t.a + s.b * t.b * D := rfl
theorem mul_b (s t : Quad Int D) : (s * t).b = s.a * t.b + s.b * t.a := rfl

theorem adv_equiv {s1 : Quad Int D} (h1 : Sol D 1 s1.a s1.b) (s : Quad Int D) :
    Equiv D (adv s1 s).a (adv s1 s).b s.a s.b := by
  rw [adv]
  split
  · refine ⟨-s1.a, -s1.b, by linear_combination h1.2.2, Zsqrtd.ext ?_ ?_⟩
    · rw [Zsqrtd.re_mul]
      show -(s * s1).a = _
      rw [mul_a]; simp only; ring
    · rw [Zsqrtd.im_mul]
      show -(s * s1).b = _
      rw [mul_b]; simp only; ring
  · refine ⟨s1.a, s1.b, h1.2.2, Zsqrtd.ext ?_ ?_⟩
    · rw [Zsqrtd.re_mul, mul_a]; simp only; ring
    · rw [Zsqrtd.im_mul, mul_b]

/-- A number with components `≥ 0` is not negated and grows. -/
theorem adv_grows (hD : Between D s) {s1 t : Quad Int D} (h1 : Sol D 1 s1.a s1.b) (ha : 0 ≤ t.a) (hb : 0 ≤ t.b)
    (hne : t.a * t.a - D * (t.b * t.b) ≠ 0) :
    adv s1 t = t * s1 ∧ 0 ≤ (adv s1 t).b ∧ t.a < (adv s1 t).a ∧ t.b < (adv s1 t).b := by
  obtain ⟨g1, g2, g3⟩ := h1
  have hD2 : 2 ≤ D := by have := hD.lo; have := hD.pos; nlinarith
  have hx2 : 2 ≤ s1.a := by
    by_contra hc
    have : s1.a = 1 := by omega
    rw [this] at g3
    have : 0 < D * (s1.b * s1.b) := by positivity
    omega
  have hpos : 0 < t.a ∨ 0 < t.b := by
    by_contra hc
    push Not at hc
    have e1 : t.a = 0 := by omega
    have e2 : t.b = 0 := by omega
    rw [e1, e2] at hne
    simp at hne
  have hA : t.a < (t * s1).a := by
    rw [mul_a]
    have : 0 ≤ t.b * s1.b * D := by positivity
    rcases hpos with h | h
    · nlinarith
    · have : 0 < t.b * s1.b * D := by positivity
      nlinarith
  have hBt : t.b < (t * s1).b := by
    rw [mul_b]
    have : 0 ≤ t.a * s1.b := by positivity
    rcases hpos with h | h
    · have : 0 < t.a * s1.b := by positivity
      nlinarith
    · nlinarith
  have e : adv s1 t = t * s1 := by rw [adv, if_neg (by omega)]
  rw [e]
  exact ⟨rfl, by omega, hA, hBt⟩

/-- What is visited for one class in a pass. -/
def visit (xMax yMax count : Int) (t : Quad Int D) (out : List (Quad Int D)) : List (Quad Int D) :=
  if t.a < 0 ∨ t.b < 0 then out
  else if xMax > 0 ∧ t.a > xMax then out
  else if yMax > 0 ∧ t.b > yMax then out
  else if count > 0 ∧ (out.length : Int) ≥ count then out
  else out ++ [t]

theorem pellPass_cons (s1 : Quad Int D) (xMax yMax count : Int) (t : Quad Int D) (vs out : List (Quad Int D)) :
    pellPass s1 xMax yMax count (t :: vs) out
      = (adv s1 t :: (pellPass s1 xMax yMax count vs (visit xMax yMax count t out)).1,
        (pellPass s1 xMax yMax count vs (visit xMax yMax count t out)).2) := by
  rw [pellPass]
  rfl

theorem pellPass_fst (s1 : Quad Int D) (xMax yMax count : Int) (vs : List (Quad Int D)) : ∀ out,
    (pellPass s1 xMax yMax count vs out).1 = vs.map (adv s1) := by
  induction vs with
  | nil => intro out; rfl
  | cons t vs ih => intro out; rw [pellPass_cons, ih, List.map_cons]

/-- The limits on a visited solution. -/
def Within (xMax yMax : Int) (t : Quad Int D) : Prop :=
  0 ≤ t.a ∧ 0 ≤ t.b ∧ (0 < xMax → t.a ≤ xMax) ∧ (0 < yMax → t.b ≤ yMax)

theorem visit_cases (xMax yMax count : Int) (t : Quad Int D) (out : List (Quad Int D)) :
    (visit xMax yMax count t out = out ∧ ¬ (Within xMax yMax t ∧ (0 < count → (out.length : Int) < count)))
    ∨ (visit xMax yMax count t out = out ++ [t] ∧ Within xMax yMax t ∧ (0 < count → (out.length : Int) < count)) := by
  rw [visit]
  by_cases h1 : t.a < 0 ∨ t.b < 0
  · rw [if_pos h1]
    exact Or.inl ⟨rfl, fun h => by have := h.1.1; have := h.1.2.1; omega⟩
  rw [if_neg h1]
  by_cases h2 : xMax > 0 ∧ t.a > xMax
  · rw [if_pos h2]
    exact Or.inl ⟨rfl, fun h => by have := h.1.2.2.1 h2.1; omega⟩
  rw [if_neg h2]
  by_cases h3 : yMax > 0 ∧ t.b > yMax
  · rw [if_pos h3]
    exact Or.inl ⟨rfl, fun h => by have := h.1.2.2.2 h3.1; omega⟩
  rw [if_neg h3]
  by_cases h4 : count > 0 ∧ (out.length : Int) ≥ count
  · rw [if_pos h4]
    exact Or.inl ⟨rfl, fun h => by have := h.2 h4.1; omega⟩
  rw [if_neg h4]
  exact Or.inr ⟨rfl, ⟨by omega, by omega, fun _ => by omega, fun _ => by omega⟩, fun _ => by omega⟩

/-- The invariant of the listing: `vs` are the next numbers of the classes, `out` the visited ones. -/
structure Inv (D N xMax yMax count : Int) (vs out : List (Quad Int D)) : Prop where
  norm : ∀ t ∈ vs, t.a * t.a - D * (t.b * t.b) = N
  pair : vs.Pairwise fun v w => ¬ Equiv D v.a v.b w.a w.b
  ok : ∀ t ∈ out, Within xMax yMax t ∧ t.a * t.a - D * (t.b * t.b) = N
  nodup : out.Nodup
  below : ∀ t ∈ out, ∃ w ∈ vs, Equiv D t.a t.b w.a w.b ∧ 0 ≤ w.b ∧ t.a < w.a
  cnt : 0 < count → (out.length : Int) ≤ count

theorem inv_step (hD : Between D s) {s1 : Quad Int D} (h1 : Sol D 1 s1.a s1.b) {N xMax yMax count : Int} (hN : N ≠ 0)
    {d vs out : List (Quad Int D)} {t : Quad Int D} (h : Inv D N xMax yMax count (d ++ t :: vs) out) :
    Inv D N xMax yMax count (d ++ adv s1 t :: vs) (visit xMax yMax count t out) := by
  have hnt : t.a * t.a - D * (t.b * t.b) = N := h.norm t (by simp)
  have heq := adv_equiv h1 t
  have hpair : (d ++ adv s1 t :: vs).Pairwise fun v w => ¬ Equiv D v.a v.b w.a w.b := by
    have hp := h.pair
    rw [List.pairwise_append, List.pairwise_cons] at hp ⊢
    obtain ⟨p1, ⟨p2, p3⟩, p4⟩ := hp
    refine ⟨p1, ⟨fun w hw he => p2 w hw (heq.symm.trans he), p3⟩, fun v hv w hw he => ?_⟩
    rcases List.mem_cons.mp hw with e | e
    · rw [e] at he
      exact p4 v hv t (by simp) (he.trans heq)
    · exact p4 v hv w (by simp [e]) he
  have hnorm : ∀ w ∈ d ++ adv s1 t :: vs, w.a * w.a - D * (w.b * w.b) = N := by
    intro w hw
    rcases List.mem_append.mp hw with e | e
    · exact h.norm w (by simp [e])
    · rcases List.mem_cons.mp e with e | e
      · rw [e]; exact heq.norm hnt
      · exact h.norm w (by simp [e])
  -- those below `t` are below its successor
  have hbelow : ∀ t' ∈ out, ∃ w ∈ d ++ adv s1 t :: vs, Equiv D t'.a t'.b w.a w.b ∧ 0 ≤ w.b ∧ t'.a < w.a := by
    intro t' ht'
    obtain ⟨w, hw, e1, e2, e3⟩ := h.below t' ht'
    have ha := (h.ok t' ht').1.1
    rcases List.mem_append.mp hw with e | e
    · exact ⟨w, by simp [e], e1, e2, e3⟩
    · rcases List.mem_cons.mp e with e | e
      · rw [e] at e1 e2 e3
        obtain ⟨-, g1, g2, -⟩ := adv_grows hD h1 (by omega : 0 ≤ t.a) e2 (by rw [hnt]; exact hN)
        exact ⟨adv s1 t, by simp, e1.trans heq.symm, g1, by omega⟩
      · exact ⟨w, by simp [e], e1, e2, e3⟩
  rcases visit_cases xMax yMax count t out with ⟨e, -⟩ | ⟨e, hw, hc⟩
  · rw [e]
    exact ⟨hnorm, hpair, h.ok, h.nodup, hbelow, h.cnt⟩
  · rw [e]
    obtain ⟨-, g1, g2, -⟩ := adv_grows hD h1 hw.1 hw.2.1 (by rw [hnt]; exact hN)
    refine ⟨hnorm, hpair, ?_, ?_, ?_, ?_⟩
    · intro t' ht'
      rcases List.mem_append.mp ht' with e' | e'
      · exact h.ok t' e'
      · rw [List.mem_singleton.mp e']
        exact ⟨hw, hnt⟩
    · rw [List.nodup_append]
      refine ⟨h.nodup, by simp, fun a ha b hb hab => ?_⟩
      rw [List.mem_singleton] at hb
      rw [hb] at hab
      rw [hab] at ha
      obtain ⟨w, hw', e1, e2, e3⟩ := h.below t ha
      have hp := h.pair
      rw [List.pairwise_append, List.pairwise_cons] at hp
      obtain ⟨-, ⟨p2, -⟩, p4⟩ := hp
      rcases List.mem_append.mp hw' with e' | e'
      · exact p4 w e' t (by simp) e1.symm
      · rcases List.mem_cons.mp e' with e' | e'
        · rw [e'] at e3; omega
        · exact p2 w e' e1
    · intro t' ht'
      rcases List.mem_append.mp ht' with e' | e'
      · exact hbelow t' e'
      · rw [List.mem_singleton.mp e']
        exact ⟨adv s1 t, by simp, heq.symm, g1, g2⟩
    · intro hcp
      have := hc hcp
      rw [List.length_append, List.length_singleton]
      push_cast
      omega

theorem inv_pass (hD : Between D s) {s1 : Quad Int D} (h1 : Sol D 1 s1.a s1.b) {N xMax yMax count : Int} (hN : N ≠ 0) :
    ∀ (vs d out : List (Quad Int D)), Inv D N xMax yMax count (d ++ vs) out →
      Inv D N xMax yMax count (d ++ (pellPass s1 xMax yMax count vs out).1) (pellPass s1 xMax yMax count vs out).2 := by
  intro vs
  induction vs with
  | nil => intro d out h; exact h
  | cons t vs ih =>
    intro d out h
    have := ih (d ++ [adv s1 t]) (visit xMax yMax count t out) (by
      rw [List.append_assoc]; exact inv_step hD h1 hN h)
    rw [pellPass_cons]
    rwa [List.append_assoc] at this

theorem visit_prefix (xMax yMax count : Int) (t : Quad Int D) (out : List (Quad Int D)) :
    out <+: visit xMax yMax count t out := by
  rcases visit_cases xMax yMax count t out with ⟨e, -⟩ | ⟨e, -⟩ <;> rw [e]
  exact List.prefix_append _ _

theorem pass_prefix (s1 : Quad Int D) (xMax yMax count : Int) (vs : List (Quad Int D)) : ∀ out,
    out <+: (pellPass s1 xMax yMax count vs out).2 := by
  induction vs with
  | nil => intro out; exact List.prefix_rfl
  | cons t vs ih =>
    intro out
    rw [pellPass_cons]
    exact (visit_prefix ..).trans (ih _)

theorem pass_visits (s1 : Quad Int D) (xMax yMax : Int) {count : Int} (hc : count ≤ 0) (vs : List (Quad Int D)) : ∀ out,
    ∀ t ∈ vs, Within xMax yMax t → t ∈ (pellPass s1 xMax yMax count vs out).2
      ∧ out.length < (pellPass s1 xMax yMax count vs out).2.length := by
  induction vs with
  | nil => intro out t ht; simp at ht
  | cons w vs ih =>
    intro out t ht hw
    rw [pellPass_cons]
    simp only
    rcases List.mem_cons.mp ht with e | e
    · rw [← e]
      have hv : visit xMax yMax count t out = out ++ [t] := by
        rcases visit_cases xMax yMax count t out with ⟨-, h⟩ | ⟨h, -⟩
        · exact absurd ⟨hw, fun h => by omega⟩ h
        · exact h
      have hp := pass_prefix s1 xMax yMax count vs (visit xMax yMax count t out)
      rw [hv] at hp ⊢
      refine ⟨hp.subset (by simp), ?_⟩
      have := hp.length_le
      rw [List.length_append, List.length_singleton] at this
      omega
    · obtain ⟨g1, g2⟩ := ih (visit xMax yMax count w out) t e hw
      have := (visit_prefix xMax yMax count w out).length_le
      exact ⟨g1, by omega⟩

/-- Distinct numbers whose key lies between 0 and `B`. -/
theorem length_le_of_key {out : List (Quad Int D)} (hnd : out.Nodup) (key : Quad Int D → Int) (B : Int)
    (hinj : ∀ t ∈ out, ∀ w ∈ out, key t = key w → t = w) (hb : ∀ t ∈ out, 0 ≤ key t ∧ key t ≤ B) :
    out.length ≤ (B + 1).toNat := by
  have h1 : (out.map fun t => (key t).toNat).Nodup := by
    apply List.Nodup.map_on _ hnd
    intro t ht w hw he
    have := hb t ht
    have := hb w hw
    exact hinj t ht w hw (by omega)
  have h2 : (out.map fun t => (key t).toNat) ⊆ List.range (B + 1).toNat := by
    intro k hk
    rw [List.mem_map] at hk
    obtain ⟨t, ht, rfl⟩ := hk
    have := hb t ht
    rw [List.mem_range]
    omega
  have := (List.subperm_of_subset h1 h2).length_le
  rwa [List.length_map, List.length_range] at this

/-- A bound on the number of visited solutions. -/
def bound (xMax yMax count : Int) : ℕ :=
  if 0 < xMax then (xMax + 1).toNat else if 0 < yMax then (yMax + 1).toNat else count.toNat

theorem inv_length (hD : Between D s) {N xMax yMax count : Int} (hlim : 0 < xMax ∨ 0 < yMax ∨ 0 < count)
    {vs out : List (Quad Int D)} (h : Inv D N xMax yMax count vs out) : out.length ≤ bound xMax yMax count := by
  have hD0 : 0 < D := by have := hD.lo; have := hD.pos; nlinarith
  rw [bound]
  by_cases hx : 0 < xMax
  · rw [if_pos hx]
    refine length_le_of_key h.nodup (fun t => t.a) xMax (fun t ht w hw he => ?_) (fun t ht => ?_)
    · obtain ⟨⟨-, b1, -, -⟩, n1⟩ := h.ok t ht
      obtain ⟨⟨-, b2, -, -⟩, n2⟩ := h.ok w hw
      rw [he] at n1
      have : D * (t.b * t.b) = D * (w.b * w.b) := by linarith
      have := mul_left_cancel₀ hD0.ne' this
      have hbb : t.b = w.b := by nlinarith
      cases t; cases w; simp only at he hbb; rw [he, hbb]
    · obtain ⟨⟨a1, -, b1, -⟩, -⟩ := h.ok t ht
      exact ⟨a1, b1 hx⟩
  · rw [if_neg hx]
    by_cases hy : 0 < yMax
    · rw [if_pos hy]
      refine length_le_of_key h.nodup (fun t => t.b) yMax (fun t ht w hw he => ?_) (fun t ht => ?_)
      · obtain ⟨⟨b1, -, -, -⟩, n1⟩ := h.ok t ht
        obtain ⟨⟨b2, -, -, -⟩, n2⟩ := h.ok w hw
        rw [he] at n1
        have : t.a * t.a = w.a * w.a := by linarith
        have hbb : t.a = w.a := by nlinarith
        cases t; cases w; simp only at he hbb; rw [he, hbb]
      · obtain ⟨⟨-, a1, -, b1⟩, -⟩ := h.ok t ht
        exact ⟨a1, b1 hy⟩
    · rw [if_neg hy]
      have := h.cnt (by omega)
      omega

theorem pow_ge (hD0 : 0 ≤ D) {x1 y1 : Int} (hx : 1 ≤ x1) (hy : 0 ≤ y1) (j : ℕ) :
    1 ≤ ((⟨x1, y1⟩ : ℤ√D) ^ j).re ∧ 0 ≤ ((⟨x1, y1⟩ : ℤ√D) ^ j).im := by
  induction j with
  | zero => simp
  | succ j ih =>
    rw [pow_succ, Zsqrtd.re_mul, Zsqrtd.im_mul]
    simp only
    obtain ⟨h1, h2⟩ := ih
    have h3 : 0 ≤ D * ((⟨x1, y1⟩ : ℤ√D) ^ j).im * y1 := by positivity
    constructor
    · nlinarith
    · have : 0 ≤ ((⟨x1, y1⟩ : ℤ√D) ^ j).re := by omega
      positivity

theorem within_of_pow (hD0 : 0 ≤ D) {s1 t w : Quad Int D} (h1 : Sol D 1 s1.a s1.b) {xMax yMax : Int}
    (ha : 0 ≤ t.a) (hb : 0 ≤ t.b) (j : ℕ)
    (he : (⟨w.a, w.b⟩ : ℤ√D) = ⟨t.a, t.b⟩ * ⟨s1.a, s1.b⟩ ^ j) (hw : Within xMax yMax w) : Within xMax yMax t := by
  obtain ⟨g1, g2⟩ := pow_ge hD0 (by have := h1.1; omega : 1 ≤ s1.a) h1.2.1.le j
  have e1 := congrArg Zsqrtd.re he
  have e2 := congrArg Zsqrtd.im he
  rw [Zsqrtd.re_mul] at e1
  rw [Zsqrtd.im_mul] at e2
  simp only at e1 e2
  have h3 : 0 ≤ D * t.b * ((⟨s1.a, s1.b⟩ : ℤ√D) ^ j).im := by positivity
  have h4 : 0 ≤ t.a * ((⟨s1.a, s1.b⟩ : ℤ√D) ^ j).im := by positivity
  have h5 : t.a ≤ w.a := by nlinarith
  have h6 : t.b ≤ w.b := by nlinarith
  obtain ⟨-, -, k1, k2⟩ := hw
  exact ⟨ha, hb, fun h => h5.trans (k1 h), fun h => h6.trans (k2 h)⟩

theorem passes_spec (hD : Between D s) {s1 : Quad Int D} (h1 : Sol D 1 s1.a s1.b) {N xMax yMax count : Int} (hN : N ≠ 0)
    (hlim : 0 < xMax ∨ 0 < yMax ∨ 0 < count) : ∀ (k : ℕ) (vs out : List (Quad Int D)), Inv D N xMax yMax count vs out →
      bound xMax yMax count - out.length ≤ k →
      ∃ out', (∀ fuel, k + 1 ≤ fuel → pellPasses s1 xMax yMax count fuel vs out = some out')
        ∧ (∃ vs', Inv D N xMax yMax count vs' out') ∧ out ⊆ out'
        ∧ (count ≤ 0 → ∀ t ∈ vs, 0 ≤ t.a → 0 ≤ t.b → ∀ j : ℕ,
          ∀ w : Quad Int D, (⟨w.a, w.b⟩ : ℤ√D) = ⟨t.a, t.b⟩ * ⟨s1.a, s1.b⟩ ^ j → Within xMax yMax w → w ∈ out') := by
  have hD0 : 0 ≤ D := by have := hD.lo; have := hD.pos; nlinarith
  intro k
  induction k with
  | zero =>
    intro vs out hI hk
    have hI' := inv_pass hD h1 hN vs [] out hI
    simp only [List.nil_append] at hI'
    have hle := inv_length hD hlim hI'
    have hpre := pass_prefix s1 xMax yMax count vs out
    have hlen := hpre.length_le
    have heq : (pellPass s1 xMax yMax count vs out).2.length = out.length := by omega
    refine ⟨(pellPass s1 xMax yMax count vs out).2, fun fuel hf => ?_, ⟨_, hI'⟩, hpre.subset, ?_⟩
    · obtain ⟨f, rfl⟩ : ∃ f, fuel = f + 1 := ⟨fuel - 1, by omega⟩
      rw [pellPasses]
      simp only
      rw [if_pos heq]
    · intro hc t ht ha hb j w he hw
      have := (pass_visits s1 xMax yMax hc vs out t ht (within_of_pow hD0 h1 ha hb j he hw)).2
      omega
  | succ k ih =>
    intro vs out hI hk
    have hI' := inv_pass hD h1 hN vs [] out hI
    simp only [List.nil_append] at hI'
    have hpre := pass_prefix s1 xMax yMax count vs out
    have hlen := hpre.length_le
    by_cases heq : (pellPass s1 xMax yMax count vs out).2.length = out.length
    · refine ⟨(pellPass s1 xMax yMax count vs out).2, fun fuel hf => ?_, ⟨_, hI'⟩, hpre.subset, ?_⟩
      · obtain ⟨f, rfl⟩ : ∃ f, fuel = f + 1 := ⟨fuel - 1, by omega⟩
        rw [pellPasses]
        simp only
        rw [if_pos heq]
      · intro hc t ht ha hb j w he hw
        have := (pass_visits s1 xMax yMax hc vs out t ht (within_of_pow hD0 h1 ha hb j he hw)).2
        omega
    · obtain ⟨out', e1, e2, e3, e4⟩ := ih (pellPass s1 xMax yMax count vs out).1 (pellPass s1 xMax yMax count vs out).2 hI'
        (by omega)
      refine ⟨out', fun fuel hf => ?_, e2, fun x hx => e3 (hpre.subset hx), ?_⟩
      · obtain ⟨f, rfl⟩ : ∃ f, fuel = f + 1 := ⟨fuel - 1, by omega⟩
        rw [pellPasses]
        simp only
        rw [if_neg heq]
        exact e1 f (by omega)
      · intro hc t ht ha hb j w he hw
        cases j with
        | zero =>
          have : w = t := by
            rw [pow_zero, mul_one] at he
            have g1 : w.a = t.a := congrArg Zsqrtd.re he
            have g2 : w.b = t.b := congrArg Zsqrtd.im he
            cases w; cases t; simp only at g1 g2; rw [g1, g2]
          rw [this] at hw ⊢
          exact e3 (pass_visits s1 xMax yMax hc vs out t ht hw).1
        | succ j =>
          have hnt := hI.norm t ht
          obtain ⟨g0, g1, g2, -⟩ := adv_grows hD h1 ha hb (by rw [hnt]; exact hN)
          refine e4 hc (adv s1 t) ?_ (by omega) g1 j w ?_ hw
          · rw [pellPass_fst]
            exact List.mem_map.mpr ⟨t, ht, rfl⟩
          · rw [he, pow_succ', ← mul_assoc, g0]
            congr 1
            apply Zsqrtd.ext
            · rw [Zsqrtd.re_mul, mul_a]; simp only; ring
            · rw [Zsqrtd.im_mul, mul_b]

/-- C90: with a limit on `x`, on `y` or on the number of solutions, the listing `pell(D, N, fN, x_max, y_max, count)`
terminates.  It lists, each once, solutions of `x^2 - D y^2 = N` with `x, y ≥ 0` and within the limits, and not more than
`count`.  Without a limit on the number it lists, for each solution `v` returned by `pell(D, N, fN)` with components
`≥ 0` and the least positive solution `(x1, y1)` of `x^2 - D y^2 = 1`, all the `v (x1, y1)^k` within the limits. -/
theorem C90_pell_list (lim : ℕ) (D N : Int) (fN : List (ℕ × ℕ)) (xMax yMax count : Int) (hD : 0 < D) (hns : ¬ IsSquare D)
    (hl : D.natAbs.log2 < 2 ^ 63) (hN : N ≠ 0) (hfN : Primes.IsFactorization fN N.natAbs) (hlim : N.natAbs ≤ lim)
    (hb : 0 < xMax ∨ 0 < yMax ∨ 0 < count) :
    ∃ (fuel0 r : ℕ) (x1 y1 : Int) (vs out : List (Quad Int D)),
      (∀ fuel, fuel0 ≤ fuel → pellList lim fuel D N fN xMax yMax count = some out
        ∧ pell lim fuel D N fN = some vs ∧ pell1 fuel D 1 0 0 = some (r, x1, y1))
      ∧ out.Nodup
      ∧ (∀ t ∈ out, t.a * t.a - D * (t.b * t.b) = N ∧ 0 ≤ t.a ∧ 0 ≤ t.b ∧ (0 < xMax → t.a ≤ xMax) ∧ (0 < yMax → t.b ≤ yMax))
      ∧ (0 < count → (out.length : Int) ≤ count)
      ∧ (count ≤ 0 → ∀ v ∈ vs, 0 ≤ v.a → 0 ≤ v.b → ∀ (k : ℕ) (x y : Int),
          (⟨x, y⟩ : ℤ√D) = ⟨v.a, v.b⟩ * ⟨x1, y1⟩ ^ k → (0 < xMax → x ≤ xMax) → (0 < yMax → y ≤ yMax) → ⟨x, y⟩ ∈ out) := by
  have hB := between_sqrtT D hD hns hl
  obtain ⟨f0, r, x1, y1, vs, e1, ⟨hr, hsol, -⟩, hn, hp, -⟩ := C89_pell lim D N fN hD hns hl hN hfN hlim
  have hI : Inv D N xMax yMax count vs [] := by
    refine ⟨hn, ?_, by simp, by simp, by simp, fun h => by simp; omega⟩
    exact hp.imp (fun h ⟨a, b, h1, h2⟩ => h a b h1 h2)
  obtain ⟨out, e2, ⟨vs', hI'⟩, -, e3⟩ := passes_spec hB (s1 := ⟨x1, y1⟩) hsol hN hb _ vs [] hI le_rfl
  refine ⟨max (max f0 (bound xMax yMax count - ([] : List (Quad Int D)).length + 1)) 1, r, x1, y1, vs, out, fun fuel hf => ?_,
    hI'.nodup, ?_, hI'.cnt, ?_⟩
  · obtain ⟨g1, g2⟩ := e1 fuel (by omega)
    refine ⟨?_, g1, g2⟩
    rw [pellList, g2]
    simp only [Option.bind_eq_bind, Option.bind_some]
    rw [if_pos hr, g1]
    exact e2 fuel (by omega)
  · intro t ht
    obtain ⟨h1, h2⟩ := hI'.ok t ht
    exact ⟨h2, h1⟩
  · intro hc v hv ha hb' k x y he hx hy
    have hD0 : 0 ≤ D := hD.le
    obtain ⟨g1, g2⟩ := pow_ge hD0 (by have := hsol.1; omega : 1 ≤ x1) hsol.2.1.le k
    have c1 : x = _ := congrArg Zsqrtd.re he
    have c2 : y = _ := congrArg Zsqrtd.im he
    rw [Zsqrtd.re_mul] at c1
    rw [Zsqrtd.im_mul] at c2
    have h0 : 0 ≤ ((⟨x1, y1⟩ : ℤ√D) ^ k).re := by omega
    refine e3 hc v hv ha hb' k ⟨x, y⟩ he ⟨?_, ?_, hx, hy⟩
    · rw [c1]; positivity
    · rw [c2]; positivity

set_option maxRecDepth 100000 in
example : pellList 1000 100 6 25 [(5, 2)] 300 0 0 = some [⟨7, 2⟩, ⟨11, 4⟩, ⟨25, 10⟩, ⟨59, 24⟩, ⟨103, 42⟩, ⟨245, 100⟩] := by
  decide +kernel

set_option maxRecDepth 100000 in
/-- The listing does not contain all the solutions within the limits.  For `x^2 - 3 y^2 = 6` there is one class, found as
`(-3, 1)`; the first pass visits nothing and the listing ends, without `(3, 1)`, `(9, 5)`, ... -/
theorem C90_pell_list_stops_early : pell 1000 100 3 6 [(2, 1), (3, 1)] = some [⟨-3, 1⟩]
    ∧ pellList 1000 100 3 6 [(2, 1), (3, 1)] 1000 0 0 = some []
    ∧ Sol 3 6 3 1 ∧ Sol 3 6 9 5 := by
  refine ⟨by decide +kernel, by decide +kernel, ⟨by decide, by decide, by decide⟩, ⟨by decide, by decide, by decide⟩⟩

end Altruct.Pell
