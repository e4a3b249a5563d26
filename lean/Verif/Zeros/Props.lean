/-
`find_zeros`: what is returned are zeros, in order; with an exact search every zero is returned.
-/
import Verif.Zeros.Search
import Verif.Polynom.MulProps
import Mathlib.Analysis.Calculus.Deriv.MeanValue
import Mathlib.Analysis.Calculus.Deriv.Polynomial
import Mathlib.Topology.Order.IntermediateValue
import Mathlib.Topology.Algebra.Polynomial
import Mathlib.Algebra.Polynomial.Roots
import Mathlib.Algebra.Order.Field.Rat

namespace Altruct.Zeros

open Set
open Polynom (poly)

section Field
variable {K : Type} [Field K] [LinearOrder K] [IsStrictOrderedRing K]

/-- The `k`-th derivative as the program computes it. -/
def der (p : List K) (k : Nat) : List K := Polynom.derivative^[k] p

theorem der_succ (p : List K) (k : Nat) : der p (k + 1) = Polynom.derivative (der p k) := Function.iterate_succ_apply' _ _ _

theorem poly_der (p : List K) (k : Nat) : poly (der p k) = Polynomial.derivative^[k] (poly p) := by
  induction k with
  | zero => rfl
  | succ k ih => rw [der_succ, Polynom.C37_derivative, ih, Function.iterate_succ_apply']

theorem derivs_spec (p : List K) {l : Nat} (hl : 0 < l) : ∃ pd, derivs p l = some pd ∧ Rep pd l (der p) := by
  have h0 : Rep (List.replicate l ([] : List K)) l (fun _ => []) := Rep.replicate l []
  rw [derivs, h0.wr hl, Option.bind_some]
  obtain ⟨pd, e, h⟩ := forUp_spec (body := fun i pd => (rd pd (i - 1)).bind fun q => wr pd i (Polynom.derivative q))
    (fun i pd => ∃ f, Rep pd l f ∧ ∀ k < i, f k = der p k) (a := 1) (n := l) (s := (List.replicate l []).set 0 p) hl
    ⟨_, h0.set 0 p, fun k hk => by rw [show k = 0 by omega, Function.update_self]; rfl⟩ (by
      rintro i pd h1 h2 ⟨f, hf, hk⟩
      refine ⟨pd.set i (Polynom.derivative (f (i - 1))), by rw [hf.rd (by omega), Option.bind_some, hf.wr h2], _, hf.set i _, fun k hki => ?_⟩
      by_cases hke : k = i
      · rw [hke, Function.update_self, hk _ (by omega), ← der_succ, Nat.sub_add_cancel h1]
      · rw [Function.update_of_ne hke, hk k (by omega)])
  obtain ⟨f, hf, hk⟩ := h
  exact ⟨pd, e, hf.congr hk⟩

theorem innerLoop_spec (search : (K → K) → K → K → K) (q : List K) (n : Nat) : ∀ (m : Nat) (z : List K) (f : Nat → K), m < n → Rep z n f →
    ∃ z', innerLoop search q m z = some z' ∧
      Rep z' n (fun k => if 1 ≤ k ∧ k ≤ m then search (Polynom.eval q) (f (k - 1)) (f k) else f k) := by
  intro m
  induction m with
  | zero => intro z f _ h; exact ⟨z, rfl, h.congr fun k _ => by rw [if_neg (by omega)]⟩
  | succ m ih =>
    intro z f hm h
    obtain ⟨z', e, h'⟩ := ih _ _ (by omega) (h.set (m + 1) (search (Polynom.eval q) (f m) (f (m + 1))))
    refine ⟨z', ?_, h'.congr fun k _ => ?_⟩
    · rw [innerLoop, h.rd (by omega), Option.bind_some, h.rd hm, Option.bind_some, h.wr hm, Option.bind_some]; exact e
    · by_cases h1 : 1 ≤ k ∧ k ≤ m
      · rw [if_pos h1, if_pos (by omega), Function.update_of_ne (by omega), Function.update_of_ne (by omega)]
      · rw [if_neg h1]
        by_cases h2 : k = m + 1
        · rw [h2, Function.update_self, if_pos (by omega)]; rfl
        · rw [Function.update_of_ne h2, if_neg (by omega)]

/-- One round of the loop over the derivatives: `f` before, `out` after. -/
def out (search : (K → K) → K → K → K) (inf : K) (q : List K) (m : Nat) (f : Nat → K) (k : Nat) : K :=
  let b : Nat → K := fun k => if k = m then inf else if k = 0 then -inf else f k
  if 1 ≤ k ∧ k ≤ m then search (Polynom.eval q) (b (k - 1)) (b k) else b k

/-- The borders of the intervals that a round searches. -/
def border (inf : K) (m : Nat) (f : Nat → K) (k : Nat) : K := if k = m then inf else if k = 0 then -inf else f k

/-- An invariant of the loop over the derivatives. -/
theorem outerLoop_spec (search : (K → K) → K → K → K) (inf : K) (l : Nat) (p : List K) {pd : List (List K)} (hpd : Rep pd l (der p))
    (P : Nat → (Nat → K) → Prop)
    (step : ∀ i f, i < l → P (i + 1) f → ∀ f', (∀ k ≤ l, f' k = out search inf (der p i) (l - i) f k) → P i f') :
    ∀ (i : Nat) (z : List K) (f : Nat → K), i ≤ l → Rep z (l + 1) f → P i f →
      ∃ z' f', outerLoop search inf l pd i z = some z' ∧ Rep z' (l + 1) f' ∧ P 0 f' := by
  intro i
  induction i with
  | zero => intro z f _ h hP; exact ⟨z, f, rfl, h, hP⟩
  | succ i ih =>
    intro z f hi h hP
    have h1 := h.set 0 (-inf)
    have h2 := h1.set (l - i) inf
    obtain ⟨z', e, h3⟩ := innerLoop_spec search (der p i) (l + 1) (l - i) _ _ (by omega) h2
    have hb : ∀ k, Function.update (Function.update f 0 (-inf)) (l - i) inf k = border inf (l - i) f k := by
      intro k
      rw [border]
      by_cases hk : k = l - i
      · rw [hk, Function.update_self, if_pos rfl]
      · rw [Function.update_of_ne hk, if_neg hk]
        by_cases hk0 : k = 0
        · rw [hk0, Function.update_self, if_pos rfl]
        · rw [Function.update_of_ne hk0, if_neg hk0]
    obtain ⟨z'', f'', e', h4, h5⟩ := ih z' _ (by omega) h3 (step i f (by omega) hP _ (fun k _ => by
      simp only [hb]; rfl))
    refine ⟨z'', f'', ?_, h4, h5⟩
    rw [outerLoop, hpd.rd (by omega), Option.bind_some, h.wr (by omega), Option.bind_some, h1.wr (by omega), Option.bind_some, e, Option.bind_some, e']

/-- The loop that keeps the actual zeros is a filter. -/
theorem keep_spec (p : List K) (epsz : K) {z : List K} {n : Nat} {f : Nat → K} (h : Rep z n f) :
    ∃ s, forUp (keepStep p epsz) 0 n (z, 0) = some s ∧
      s.1.take s.2 = z.filter (fun x => decide (-epsz ≤ Polynom.eval p x ∧ Polynom.eval p x ≤ epsz)) := by
  set c : K → Bool := fun x => decide (-epsz ≤ Polynom.eval p x ∧ Polynom.eval p x ≤ epsz) with hc
  obtain ⟨s, e, h1, h2, h3, h4⟩ := forUp_spec (body := keepStep p epsz)
    (fun i s => s.2 ≤ i ∧ s.1.length = n ∧ s.1.take s.2 = (z.take i).filter c ∧ ∀ k, i ≤ k → k < n → s.1[k]? = z[k]?) (a := 0) (n := n) (s := (z, 0)) (Nat.zero_le _)
    ⟨le_refl _, h.len, by simp, fun _ _ _ => rfl⟩ (by
      rintro i ⟨v, m⟩ _ hi ⟨h1, h2, h3, h4⟩
      have hv : v[i]? = some (f i) := (h4 i (le_refl _) hi).trans (h.get i hi)
      have htake : z.take (i + 1) = z.take i ++ [f i] := by
        rw [List.take_add_one, h.get i hi]; rfl
      rw [keepStep, rd, hv, Option.bind_some]
      by_cases hcx : -epsz ≤ Polynom.eval p (f i) ∧ Polynom.eval p (f i) ≤ epsz
      · rw [if_pos hcx]
        have hm : m < v.length := by simp only at h1 h2; omega
        refine ⟨(v.set m (f i), m + 1), by rw [wr, if_pos hm]; rfl, by simp only at h1 ⊢; omega, by rw [List.length_set]; exact h2, ?_, fun k hk hkn => ?_⟩
        · simp only at h3 ⊢
          rw [htake, List.filter_append, List.filter_cons_of_pos (by simp only [hc]; exact decide_eq_true hcx), List.filter_nil, ← h3, List.take_add_one,
            List.take_set_of_le (le_refl m), List.getElem?_set_self hm]
          rfl
        · simp only at h1 h4 ⊢
          rw [List.getElem?_set_ne (by omega)]
          exact h4 k (by omega) hkn
      · rw [if_neg hcx]
        refine ⟨(v, m), rfl, by simp only at h1 ⊢; omega, h2, ?_, fun k hk hkn => h4 k (by omega) hkn⟩
        simp only at h3 ⊢
        rw [htake, List.filter_append, List.filter_cons_of_neg (by simp only [hc]; simpa using hcx), List.filter_nil, List.append_nil, h3])
  refine ⟨s, e, ?_⟩
  rw [h3, List.take_of_length_le (by rw [h.len])]

/-- The candidates are in order, within the bounds. -/
def Ordered (inf : K) (m : Nat) (f : Nat → K) : Prop :=
  (∀ j k, 1 ≤ j → j ≤ k → k ≤ m → f j ≤ f k) ∧ ∀ k, 1 ≤ k → k ≤ m → -inf ≤ f k ∧ f k ≤ inf

theorem border_mono {inf : K} (hinf : 0 ≤ inf) {m : Nat} {f : Nat → K} (h : Ordered inf m f) :
    (∀ j k, j ≤ k → k ≤ m + 1 → border inf (m + 1) f j ≤ border inf (m + 1) f k) ∧ ∀ k ≤ m + 1, -inf ≤ border inf (m + 1) f k ∧ border inf (m + 1) f k ≤ inf := by
  have hb : ∀ k ≤ m + 1, -inf ≤ border inf (m + 1) f k ∧ border inf (m + 1) f k ≤ inf := by
    intro k hk
    rw [border]
    by_cases h1 : k = m + 1
    · rw [if_pos h1]; exact ⟨by linarith, le_refl _⟩
    · rw [if_neg h1]
      by_cases h0 : k = 0
      · rw [if_pos h0]; exact ⟨le_refl _, by linarith⟩
      · rw [if_neg h0]; exact h.2 k (by omega) (by omega)
  refine ⟨fun j k hjk hk => ?_, hb⟩
  by_cases h1 : k = m + 1
  · rw [border.eq_1 inf (m + 1) f k, if_pos h1]; exact (hb j (by omega)).2
  · by_cases h0 : j = 0
    · have : border inf (m + 1) f j = -inf := by rw [border, if_neg (by omega), if_pos h0]
      rw [this]; exact (hb k hk).1
    · rw [border, border, if_neg (by omega), if_neg h0, if_neg h1, if_neg (by omega)]
      exact h.1 j k (by omega) hjk (by omega)

theorem out_ordered {search : (K → K) → K → K → K} (hs : ∀ q b e, b ≤ e → search q b e ∈ Icc b e) {inf : K} (hinf : 0 ≤ inf) {q : List K} {m : Nat}
    {f f' : Nat → K} (h : Ordered inf m f) (hf : ∀ k ≤ m + 1, f' k = out search inf q (m + 1) f k) : Ordered inf (m + 1) f' ∧ f' 0 = -inf := by
  obtain ⟨hm, hb⟩ := border_mono hinf h
  have key : ∀ k, 1 ≤ k → k ≤ m + 1 → f' k ∈ Icc (border inf (m + 1) f (k - 1)) (border inf (m + 1) f k) := by
    intro k h1 h2
    rw [hf k h2, out, if_pos ⟨h1, h2⟩]
    exact hs _ _ _ (hm _ _ (by omega) h2)
  refine ⟨⟨fun j k h1 h2 h3 => ?_, fun k h1 h2 => ⟨le_trans (hb _ (by omega)).1 (key k h1 h2).1, le_trans (key k h1 h2).2 (hb _ h2).2⟩⟩, ?_⟩
  · rcases Nat.eq_or_lt_of_le h2 with h4 | h4
    · rw [h4]
    · exact le_trans (key j h1 (by omega)).2 (le_trans (hm j (k - 1) (by omega) (by omega)) (key k (by omega) h3).1)
  · rw [hf 0 (by omega), out, if_neg (by omega)]
    simp

theorem findZerosWith_spec (search : (K → K) → K → K → K) (hs : ∀ q b e, b ≤ e → search q b e ∈ Icc b e) (p : List K) (inf epsz : K) (hinf : 0 ≤ inf)
    (P : Nat → (Nat → K) → Prop) (h0 : ∀ f, P (max (Polynom.deg p) 1) f)
    (step : ∀ i f, i < max (Polynom.deg p) 1 → Ordered inf (max (Polynom.deg p) 1 - (i + 1)) f → P (i + 1) f →
      ∀ f', (∀ k ≤ max (Polynom.deg p) 1, f' k = out search inf (der p i) (max (Polynom.deg p) 1 - i) f k) → P i f') :
    ∃ z f, findZerosWith search p inf epsz = some (z.filter fun x => decide (-epsz ≤ Polynom.eval p x ∧ Polynom.eval p x ≤ epsz)) ∧
      Rep z (max (Polynom.deg p) 1 + 1) f ∧ Ordered inf (max (Polynom.deg p) 1) f ∧ f 0 = -inf ∧ P 0 f := by
  set l := max (Polynom.deg p) 1 with hl
  have hl1 : 1 ≤ l := le_max_right _ _
  obtain ⟨pd, e1, hpd⟩ := derivs_spec p (show 0 < l by omega)
  obtain ⟨z, f, e2, hz, ⟨ho, hf0⟩, hP⟩ := outerLoop_spec search inf l p hpd (fun i f => (Ordered inf (l - i) f ∧ (i < l → f 0 = -inf)) ∧ P i f) (by
    rintro i f hi ⟨⟨ho, _⟩, hP⟩ f' hf'
    have e : l - i = (l - (i + 1)) + 1 := by omega
    have := out_ordered hs hinf (f' := f') ho (q := der p i) (fun k hk => by rw [← e]; exact hf' k (by omega))
    rw [← e] at this
    exact ⟨⟨this.1, fun _ => this.2⟩, step i f hi ho hP f' hf'⟩) l (List.replicate (l + 1) 0) _ (le_refl _) (Rep.replicate _ _)
    ⟨⟨⟨fun j k a b c => by omega, fun k a b => by omega⟩, fun h => by omega⟩, h0 _⟩
  obtain ⟨s, e3, h3⟩ := keep_spec p epsz hz
  refine ⟨z, f, ?_, hz, ho, hf0 (by omega), hP⟩
  rw [findZerosWith]
  simp only [← hl]
  rw [e1, Option.bind_some, e2, Option.bind_some, e3, Option.map_some, h3]

theorem sorted_of {z : List K} {n : Nat} {f : Nat → K} (hz : Rep z n f) (h : ∀ j k, j ≤ k → k < n → f j ≤ f k) : z.Pairwise (· ≤ ·) := by
  rw [hz.eq_map, List.pairwise_map]
  refine List.Pairwise.imp_of_mem ?_ List.pairwise_lt_range
  intro a b _ hb hab
  exact h a b (le_of_lt hab) (List.mem_range.mp hb)

theorem sound_with (search : (K → K) → K → K → K) (hs : ∀ q b e, b ≤ e → search q b e ∈ Icc b e) (p : List K) (inf epsz : K) (hinf : 0 ≤ inf) :
    ∃ r, findZerosWith search p inf epsz = some r ∧ r.Pairwise (· ≤ ·) ∧ r.length ≤ max (poly p).natDegree 1 + 1 ∧
      ∀ x ∈ r, -inf ≤ x ∧ x ≤ inf ∧ |(poly p).eval x| ≤ epsz := by
  obtain ⟨z, f, e, hz, ho, hf0, -⟩ := findZerosWith_spec search hs p inf epsz hinf (fun _ _ => True) (fun _ => trivial) (fun _ _ _ _ _ _ _ => trivial)
  refine ⟨_, e, List.Pairwise.filter _ (sorted_of hz fun j k hjk hk => ?_), ?_, fun x hx => ?_⟩
  · rcases Nat.eq_zero_or_pos j with h0 | h0
    · rcases Nat.eq_zero_or_pos k with h1 | h1
      · rw [h0, h1]
      · rw [h0, hf0]; exact (ho.2 k h1 (by omega)).1
    · exact ho.1 j k h0 hjk (by omega)
  · rw [← Polynom.C37_deg, ← hz.len]
    exact List.length_filter_le _ _
  · obtain ⟨hx1, hx2⟩ := List.mem_filter.mp hx
    rw [decide_eq_true_iff, Polynom.C37_eval] at hx2
    obtain ⟨k, hk⟩ := List.mem_iff_getElem?.mp hx1
    obtain ⟨hkn, hk⟩ := hz.eq_of hk
    subst hk
    refine ⟨?_, ?_, abs_le.mpr hx2⟩
    · rcases Nat.eq_zero_or_pos k with h0 | h0
      · rw [h0, hf0]
      · exact (ho.2 k h0 (by omega)).1
    · rcases Nat.eq_zero_or_pos k with h0 | h0
      · rw [h0, hf0]; linarith
      · exact (ho.2 k h0 (by omega)).2

/-- **C118**: `find_zeros` returns, in non-decreasing order and within the bounds, at most `max(deg, 1) + 1`
numbers at each of which the polynomial is 0 up to `epsz`, whatever the tolerances of the search. -/
theorem C118_sound (p : List K) (inf epsz epsy epsx : K) (iter : Nat) (hinf : 0 ≤ inf) :
    ∃ r, findZeros p inf epsz epsy epsx iter = some r ∧ r.Pairwise (· ≤ ·) ∧ r.length ≤ max (poly p).natDegree 1 + 1 ∧
      ∀ x ∈ r, -inf ≤ x ∧ x ≤ inf ∧ |(poly p).eval x| ≤ epsz :=
  sound_with _ (fun q b e h => C117_in_interval q b e 0 epsy epsx iter h) p inf epsz hinf

end Field

/-! ### Completeness -/

theorem monotone_between {P : Polynomial ℝ} {a b : ℝ} (h : ∀ x ∈ Ioo a b, P.derivative.eval x ≠ 0) :
    MonotoneOn (fun x => P.eval x) (Icc a b) ∨ AntitoneOn (fun x => P.eval x) (Icc a b) := by
  have hcont : ContinuousOn (fun x => P.eval x) (Icc a b) := P.continuous.continuousOn
  have hdiff : DifferentiableOn ℝ (fun x => P.eval x) (interior (Icc a b)) := P.differentiable.differentiableOn
  have hd : ∀ x, deriv (fun x => P.eval x) x = P.derivative.eval x := fun x => P.deriv
  by_cases hsgn : ∀ x ∈ Ioo a b, 0 ≤ P.derivative.eval x
  · left
    refine monotoneOn_of_deriv_nonneg (convex_Icc a b) hcont hdiff fun x hx => ?_
    rw [interior_Icc] at hx
    rw [hd]; exact hsgn x hx
  · right
    push Not at hsgn
    obtain ⟨x, hx, hxn⟩ := hsgn
    refine antitoneOn_of_deriv_nonpos (convex_Icc a b) hcont hdiff fun y hy => ?_
    rw [interior_Icc] at hy
    rw [hd]
    by_contra hc
    obtain ⟨w, hw, hw0⟩ := (isPreconnected_Ioo (a := a) (b := b)).intermediate_value hx hy (f := fun x => P.derivative.eval x) P.derivative.continuous.continuousOn
      (⟨le_of_lt hxn, le_of_lt (not_le.mp hc)⟩ : (0 : ℝ) ∈ Icc _ _)
    exact h w hw hw0

/-- A monotonic polynomial other than 0 has at most one zero. -/
theorem zero_unique {P : Polynomial ℝ} (hP : P ≠ 0) {a b u v : ℝ} (h : MonotoneOn (fun x => P.eval x) (Icc a b) ∨ AntitoneOn (fun x => P.eval x) (Icc a b))
    (hu : u ∈ Icc a b) (hv : v ∈ Icc a b) (hu0 : P.eval u = 0) (hv0 : P.eval v = 0) : u = v := by
  by_contra hne
  wlog huv : u < v generalizing u v
  · exact this hv hu hv0 hu0 (Ne.symm hne) (lt_of_le_of_ne (not_lt.mp huv) (Ne.symm hne))
  apply hP
  refine Polynomial.eq_zero_of_infinite_isRoot P ((Icc_infinite huv).mono fun w hw => ?_)
  have hw' : w ∈ Icc a b := ⟨le_trans hu.1 hw.1, le_trans hw.2 hv.2⟩
  change P.eval w = 0
  rcases h with h | h
  · have h1 := h hu hw' hw.1
    have h2 := h hw' hv hw.2
    simp only [hu0, hv0] at h1 h2
    exact le_antisymm h2 h1
  · have h1 := h hu hw' hw.1
    have h2 := h hw' hv hw.2
    simp only [hu0, hv0] at h1 h2
    exact le_antisymm h1 h2

theorem iterate_natDegree (P : Polynomial ℝ) (k : Nat) : (Polynomial.derivative^[k] P).natDegree = P.natDegree - k := by
  induction k with
  | zero => rfl
  | succ k ih =>
    rw [Function.iterate_succ_apply', Polynomial.natDegree_derivative, ih]
    omega

theorem iterate_ne_zero {P : Polynomial ℝ} (hP : P ≠ 0) : ∀ k, k < max P.natDegree 1 → Polynomial.derivative^[k] P ≠ 0 := by
  intro k
  induction k with
  | zero => intro _; exact hP
  | succ k ih =>
    intro hk
    rw [Function.iterate_succ_apply']
    intro h0
    have := Polynomial.natDegree_eq_zero_of_derivative_eq_zero h0
    rw [iterate_natDegree] at this
    omega

/-- Some interval between neighbouring borders contains a given point. -/
theorem locate (g : Nat → ℝ) (x : ℝ) : ∀ m, g 0 ≤ x → x ≤ g (m + 1) → ∃ k, 1 ≤ k ∧ k ≤ m + 1 ∧ x ∈ Icc (g (k - 1)) (g k) := by
  intro m
  induction m with
  | zero => intro h0 h1; exact ⟨1, le_refl _, le_refl _, h0, h1⟩
  | succ m ih =>
    intro h0 h1
    by_cases h : x ≤ g (m + 1)
    · obtain ⟨k, a, b, c⟩ := ih h0 h
      exact ⟨k, a, by omega, c⟩
    · exact ⟨m + 2, by omega, le_refl _, le_of_lt (not_le.mp h), h1⟩

/-- **C118**: if the search finds a zero of a monotonic function whenever there is one, `find_zeros` returns
every zero of a polynomial other than 0 between `-inf` and `inf`. -/
theorem C118_complete (search : (ℝ → ℝ) → ℝ → ℝ → ℝ) (hs : ∀ q b e, b ≤ e → search q b e ∈ Icc b e)
    (hfind : ∀ q b e, MonotoneOn q (Icc b e) ∨ AntitoneOn q (Icc b e) → (∃ x ∈ Icc b e, q x = 0) → q (search q b e) = 0)
    (p : List ℝ) (inf epsz : ℝ) (hp : poly p ≠ 0) (hinf : 0 ≤ inf) (hz : 0 ≤ epsz) :
    ∃ r, findZerosWith search p inf epsz = some r ∧ ∀ x, -inf ≤ x → x ≤ inf → (poly p).eval x = 0 → x ∈ r := by
  set l := max (Polynom.deg p) 1 with hl
  have hl1 : 1 ≤ l := le_max_right _ _
  obtain ⟨z, f, e, hrep, ho, hf0, hP⟩ := findZerosWith_spec search hs p inf epsz hinf
    (fun i f => i < l → ∀ x, -inf ≤ x → x ≤ inf → (poly (der p i)).eval x = 0 → ∃ k, 1 ≤ k ∧ k ≤ l - i ∧ f k = x) (fun f h => absurd h (lt_irrefl _)) (by
      intro i f hi ho hP f' hf' _ x hx1 hx2 hx0
      rw [← hl] at hi ho hf'
      have el : l - i = (l - (i + 1)) + 1 := by omega
      set m := l - (i + 1) with hm
      obtain ⟨hmono, hbnd⟩ := border_mono hinf ho
      have hdne : poly (der p i) ≠ 0 := by
        rw [poly_der]
        exact iterate_ne_zero hp i (by rw [← Polynom.C37_deg]; exact hi)
      obtain ⟨k, hk1, hk2, hk⟩ := locate (border inf (m + 1) f) x m (by rw [border, if_neg (by omega), if_pos rfl]; exact hx1)
        (by rw [border, if_pos rfl]; exact hx2)
      have hmo : MonotoneOn (fun x => (poly (der p i)).eval x) (Icc (border inf (m + 1) f (k - 1)) (border inf (m + 1) f k)) ∨
          AntitoneOn (fun x => (poly (der p i)).eval x) (Icc (border inf (m + 1) f (k - 1)) (border inf (m + 1) f k)) := by
        by_cases hlast : i + 1 < l
        · refine monotone_between fun w hw hw0 => ?_
          have hd : (poly (der p (i + 1))).eval w = 0 := by rw [der_succ, Polynom.C37_derivative]; exact hw0
          obtain ⟨j, hj1, hj2, hj⟩ := hP hlast w (le_trans (hbnd (k - 1) (by omega)).1 (le_of_lt hw.1)) (le_trans (le_of_lt hw.2) (hbnd k hk2).2) hd
          have hbj : border inf (m + 1) f j = w := by rw [border, if_neg (by omega), if_neg (by omega), hj]
          rcases Nat.lt_or_ge j k with hjk | hjk
          · have := hmono j (k - 1) (by omega) (by omega)
            rw [hbj] at this
            exact absurd hw.1 (not_lt.mpr this)
          · have := hmono k j hjk (by omega)
            rw [hbj] at this
            exact absurd hw.2 (not_lt.mpr this)
        · have hdeg : (poly (der p i)).natDegree ≤ 1 := by
            rw [poly_der, iterate_natDegree, ← Polynom.C37_deg]
            omega
          obtain ⟨c, d, hcd⟩ := Polynomial.exists_eq_X_add_C_of_natDegree_le_one hdeg
          rw [hcd]
          rcases le_total 0 c with hc | hc
          · left
            intro u _ v _ huv
            simp only [Polynomial.eval_add, Polynomial.eval_mul, Polynomial.eval_C, Polynomial.eval_X]
            have := mul_le_mul_of_nonneg_left huv hc
            linarith
          · right
            intro u _ v _ huv
            simp only [Polynomial.eval_add, Polynomial.eval_mul, Polynomial.eval_C, Polynomial.eval_X]
            have := mul_le_mul_of_nonpos_left huv hc
            linarith
      have hev : Polynom.eval (der p i) = fun x => (poly (der p i)).eval x := funext fun x => Polynom.C37_eval _ x
      refine ⟨k, hk1, by omega, ?_⟩
      have hfk : f' k = search (fun x => (poly (der p i)).eval x) (border inf (m + 1) f (k - 1)) (border inf (m + 1) f k) := by
        rw [hf' k (by omega), el, out, if_pos ⟨hk1, hk2⟩, hev]; rfl
      rw [hfk]
      refine zero_unique hdne hmo (hs _ _ _ (hmono _ _ (by omega) hk2)) hk ?_ hx0
      exact hfind _ _ _ hmo ⟨x, hk, hx0⟩)
  refine ⟨_, e, fun x hx1 hx2 hx0 => ?_⟩
  obtain ⟨k, hk1, hk2, hk⟩ := hP (by omega) x hx1 hx2 hx0
  rw [List.mem_filter]
  refine ⟨?_, ?_⟩
  · rw [← hk]
    exact List.mem_of_getElem? (hrep.get k (by omega))
  · rw [decide_eq_true_iff, Polynom.C37_eval, hx0]
    exact ⟨by linarith, hz⟩

open Classical in
/-- Such a search exists, so the hypotheses of `C118_complete` can be met. -/
example : ∃ search : (ℝ → ℝ) → ℝ → ℝ → ℝ, (∀ q b e, b ≤ e → search q b e ∈ Icc b e) ∧
    ∀ q b e, MonotoneOn q (Icc b e) ∨ AntitoneOn q (Icc b e) → (∃ x ∈ Icc b e, q x = 0) → q (search q b e) = 0 := by
  refine ⟨fun q b e => if h : ∃ x ∈ Icc b e, q x = 0 then h.choose else b, fun q b e h => ?_, fun q b e _ h => ?_⟩
  · by_cases hx : ∃ x ∈ Icc b e, q x = 0
    · simp only [dif_pos hx]; exact hx.choose_spec.1
    · simp only [dif_neg hx]; exact ⟨le_refl _, h⟩
  · simp only [dif_pos h]; exact h.choose_spec.2

example : findZeros [(-1 : Rat), 0, 1] 2 0 0 0 5 = some [-1, 1] := by decide +kernel

/-- **C118** (finding): a zero at `-inf` is returned twice. -/
theorem C118_twice : findZeros [(2 : Rat), 1] 2 0 0 0 5 = some [-2, -2] := by decide +kernel

end Altruct.Zeros
