/-
Counting loops whose body works on an arbitrary state.
-/
import Mathlib.Data.Nat.Basic

namespace Altruct

variable {σ : Type*}

/-- `for (i = a; i < a + cnt; i++) s = body(i, s);`. -/
def forN (body : Nat → σ → Option σ) : Nat → Nat → σ → Option σ
  | 0, _, s => some s
  | cnt + 1, i, s => match body i s with
    | none => none
    | some s => forN body cnt (i + 1) s

/-- `for (i = a; i < n; i++) s = body(i, s);`. -/
def forUp (body : Nat → σ → Option σ) (a n : Nat) (s : σ) : Option σ := forN body (n - a) a s

/-- `for (j = j0, i = i0; i < n; i += d, j++) s = body(j, i, s);`, where exceeding `lim` is an overflow;
`fuel` bounds the number of rounds (`none`: no termination). -/
def forStep (lim : Nat) (body : Nat → Nat → σ → Option σ) (n d : Nat) : Nat → Nat → Nat → σ → Option σ
  | fuel, j, i, s =>
    if i < n then match fuel with
      | 0 => none
      | fuel + 1 => match body j i s with
        | none => none
        | some s => if lim < i + d then none else forStep lim body n d fuel (j + 1) (i + d) s
    else some s

theorem forN_spec {body : Nat → σ → Option σ} (P : Nat → σ → Prop) : ∀ (cnt a : Nat) (s : σ), P a s →
    (∀ i s, a ≤ i → i < a + cnt → P i s → ∃ s', body i s = some s' ∧ P (i + 1) s') →
    ∃ s', forN body cnt a s = some s' ∧ P (a + cnt) s' := by
  intro cnt
  induction cnt with
  | zero => intro a s h _; exact ⟨s, rfl, h⟩
  | succ cnt ih =>
    intro a s h step
    obtain ⟨s1, e1, h1⟩ := step a s (by omega) (by omega) h
    obtain ⟨s2, e2, h2⟩ := ih (a + 1) s1 h1 (fun i s h3 h4 h5 => step i s (by omega) (by omega) h5)
    exact ⟨s2, by rw [forN, e1]; exact e2, by rwa [show a + (cnt + 1) = a + 1 + cnt by omega]⟩

/-- The loop keeps an invariant. -/
theorem forUp_spec {body : Nat → σ → Option σ} (P : Nat → σ → Prop) {a n : Nat} {s : σ} (han : a ≤ n) (h : P a s)
    (step : ∀ i s, a ≤ i → i < n → P i s → ∃ s', body i s = some s' ∧ P (i + 1) s') :
    ∃ s', forUp body a n s = some s' ∧ P n s' := by
  obtain ⟨s', e, h'⟩ := forN_spec P (n - a) a s h (fun i s h1 h2 h3 => step i s h1 (by omega) h3)
  exact ⟨s', e, by rwa [show a + (n - a) = n by omega] at h'⟩

/-- The loop over the multiples of `d` keeps an invariant. -/
theorem forStep_spec {lim n d : Nat} {body : Nat → Nat → σ → Option σ} (P : Nat → σ → Prop) (hd : 0 < d) (hlim : n + d ≤ lim + 1) :
    ∀ (fuel j : Nat) (s : σ), n ≤ fuel + d * j → P j s →
    (∀ j' s, j ≤ j' → d * j' < n → P j' s → ∃ s', body j' (d * j') s = some s' ∧ P (j' + 1) s') →
    ∃ J s', forStep lim body n d fuel j (d * j) s = some s' ∧ n ≤ d * J ∧ P J s' := by
  intro fuel
  induction fuel with
  | zero =>
    intro j s hf h _
    exact ⟨j, s, by rw [forStep, if_neg (by omega)], by omega, h⟩
  | succ fuel ih =>
    intro j s hf h step
    by_cases hi : d * j < n
    · obtain ⟨s1, e1, h1⟩ := step j s (le_refl _) hi h
      have hdj : d * (j + 1) = d * j + d := Nat.mul_succ d j
      obtain ⟨J, s2, e2, h2, h3⟩ := ih (j + 1) s1 (by omega) h1 (fun j' s h4 => step j' s (by omega))
      refine ⟨J, s2, ?_, h2, h3⟩
      rw [forStep, if_pos hi]
      simp only [e1]
      rw [if_neg (by omega), ← hdj]
      exact e2
    · exact ⟨j, s, by rw [forStep, if_neg hi], by omega, h⟩

end Altruct
