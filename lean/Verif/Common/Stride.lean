/-
Loops over arrays: `for (j = s; j < e; j += d) a[j] = f(j, a[j]);` and loops over a list of
primes given as an array.
-/
import Verif.Common.Vec
import Mathlib.Data.Nat.Basic

namespace Altruct

variable {α : Type*}

/-- The loop `for (a = s; a < e; a += d) v[a - off] = f(a, v[a - off]);` started at `a`.
`none`: an access out of bounds, `f` undefined, an overflow of `a += d` (`lim` is the largest
index value), or no termination (`d = 0`). -/
def stride (lim off : Nat) (f : Nat → α → Option α) (e d : Nat) (v : List α) (a : Nat) : Option (List α) :=
  if a < e then
    if a < off then none
    else
      match rd v (a - off) with
      | none => none
      | some x =>
        match f a x with
        | none => none
        | some y =>
          match wr v (a - off) y with
          | none => none
          | some v => if lim < a + d ∨ d = 0 then none else stride lim off f e d v (a + d)
  else some v
termination_by e - a
decreasing_by omega

theorem stride_spec_at {lim off e d k : Nat} {f : Nat → α → Option α} {h : Nat → α} (hd : 0 < d)
    (hlim : e + d ≤ lim + 1) (hk : e ≤ off + k) (n : Nat) :
    ∀ {v : List α} {g : Nat → α} (a : Nat), e - a = n → off ≤ a → Rep v k g →
    (∀ i, a ≤ off + i → off + i < e → d ∣ off + i - a → f (off + i) (g i) = some (h i)) →
    ∃ v', stride lim off f e d v a = some v' ∧
      Rep v' k (fun i => if a ≤ off + i ∧ off + i < e ∧ d ∣ off + i - a then h i else g i) := by
  induction n using Nat.strong_induction_on with
  | _ n ih =>
    intro v g a hn hoff r hf
    rw [stride]
    by_cases hae : a < e
    · rw [if_pos hae, if_neg (by omega), r.rd (by omega)]
      simp only
      have h0 := hf (a - off) (by omega) (by omega) (by rw [show off + (a - off) - a = 0 by omega]; exact Nat.dvd_zero d)
      rw [show off + (a - off) = a by omega] at h0
      rw [h0]
      simp only
      rw [r.wr (by omega)]
      simp only
      rw [if_neg (by omega)]
      obtain ⟨v', e', r'⟩ := ih (e - (a + d)) (by omega) (a + d) rfl (by omega) (r.set (a - off) (h (a - off))) (by
        intro i h1 h2 h3
        rw [Function.update_of_ne (by omega)]
        refine hf i (by omega) h2 ?_
        rw [show off + i - a = off + i - (a + d) + d by omega]
        exact Nat.dvd_add h3 (Nat.dvd_refl d))
      refine ⟨v', e', r'.congr (fun i _ => ?_)⟩
      by_cases hi : i = a - off
      · subst hi
        rw [if_neg (by omega), Function.update_self, if_pos]
        exact ⟨by omega, by omega, by rw [show off + (a - off) - a = 0 by omega]; exact Nat.dvd_zero d⟩
      · rw [Function.update_of_ne hi]
        by_cases hc : a ≤ off + i ∧ off + i < e ∧ d ∣ off + i - a
        · obtain ⟨h1, h2, h3⟩ := hc
          have h4 := Nat.le_of_dvd (by omega) h3
          rw [if_pos ⟨by omega, h2, by
            rw [show off + i - (a + d) = off + i - a - d by omega]
            exact Nat.dvd_sub h3 (Nat.dvd_refl d)⟩, if_pos ⟨h1, h2, h3⟩]
        · rw [if_neg hc, if_neg]
          rintro ⟨h1, h2, h3⟩
          refine hc ⟨by omega, h2, ?_⟩
          rw [show off + i - a = off + i - (a + d) + d by omega]
          exact Nat.dvd_add h3 (Nat.dvd_refl d)
    · rw [if_neg hae]
      exact ⟨v, rfl, r.congr (fun i _ => by rw [if_neg (by omega)])⟩

/-- Multiples of `d` from `a` (itself a multiple) on. -/
theorem stride_spec {lim off e d k : Nat} {f : Nat → α → Option α} (h : Nat → α) (hd : 0 < d)
    (hlim : e + d ≤ lim + 1) (hk : e ≤ off + k) {v : List α} {g : Nat → α} (a : Nat) (hoff : off ≤ a) (ha : d ∣ a)
    (r : Rep v k g) (hf : ∀ i, a ≤ off + i → off + i < e → d ∣ off + i → f (off + i) (g i) = some (h i)) :
    ∃ v', stride lim off f e d v a = some v' ∧
      Rep v' k (fun i => if a ≤ off + i ∧ off + i < e ∧ d ∣ off + i then h i else g i) := by
  have key : ∀ i, a ≤ off + i → (d ∣ off + i - a ↔ d ∣ off + i) := by
    intro i hi
    constructor
    · intro h1
      have := Nat.dvd_add h1 ha
      rwa [Nat.sub_add_cancel hi] at this
    · intro h1; exact Nat.dvd_sub h1 ha
  obtain ⟨v', e', r'⟩ := stride_spec_at (h := h) hd hlim hk _ a rfl hoff r
    (fun i h1 h2 h3 => hf i h1 h2 ((key i h1).mp h3))
  refine ⟨v', e', r'.congr (fun i _ => ?_)⟩
  by_cases hi : a ≤ off + i
  · by_cases h2 : off + i < e ∧ d ∣ off + i
    · rw [if_pos ⟨hi, h2.1, (key i hi).mpr h2.2⟩, if_pos ⟨hi, h2⟩]
    · rw [if_neg (fun hc => h2 ⟨hc.2.1, (key i hi).mp hc.2.2⟩), if_neg (fun hc => h2 hc.2)]
  · rw [if_neg (fun hc => hi hc.1), if_neg (fun hc => hi hc.1)]

/-- Every index from `a` on. -/
theorem fill_spec {lim off e k : Nat} {f : Nat → α → Option α} (h : Nat → α)
    (hlim : e ≤ lim) (hk : e ≤ off + k) {v : List α} {g : Nat → α} (a : Nat) (hoff : off ≤ a)
    (r : Rep v k g) (hf : ∀ i, a ≤ off + i → off + i < e → f (off + i) (g i) = some (h i)) :
    ∃ v', stride lim off f e 1 v a = some v' ∧
      Rep v' k (fun i => if a ≤ off + i ∧ off + i < e then h i else g i) := by
  obtain ⟨v', e', r'⟩ := stride_spec (lim := lim) h (Nat.one_pos) (show e + 1 ≤ lim + 1 by omega) hk a hoff (Nat.one_dvd a) r (fun i h1 h2 _ => hf i h1 h2)
  refine ⟨v', e', r'.congr (fun i _ => ?_)⟩
  have := Nat.one_dvd (off + i)
  simp only [this, and_true]

/-- The loop `for (int i = 0; i < m; i++)` using `p[i]`. -/
def forPrimes {σ : Type*} (p : List Nat) (body : Nat → σ → Option σ) (m i : Nat) (s : σ) : Option σ :=
  if i < m then
    match rd p i with
    | none => none
    | some q =>
      match body q s with
      | none => none
      | some s => forPrimes p body m (i + 1) s
  else some s
termination_by m - i

theorem forPrimes_spec {σ : Type*} {p : List Nat} {body : Nat → σ → Option σ} {m : Nat} (hm : m ≤ p.length)
    (P : List Nat → σ → Prop)
    (step : ∀ L q rest s, p.take m = L ++ q :: rest → P L s → ∃ s', body q s = some s' ∧ P (L ++ [q]) s')
    {s : σ} (h0 : P [] s) : ∃ s', forPrimes p body m 0 s = some s' ∧ P (p.take m) s' := by
  have key : ∀ k i s, m - i = k → i ≤ m → P (p.take i) s →
      ∃ s', forPrimes p body m i s = some s' ∧ P (p.take m) s' := by
    intro k
    induction k with
    | zero =>
      intro i s hk hi h
      rw [forPrimes, if_neg (by omega)]
      have : i = m := by omega
      subst this
      exact ⟨s, rfl, h⟩
    | succ k ih =>
      intro i s hk hi h
      have hip : i < p.length := by omega
      rw [forPrimes, if_pos (by omega), rd, List.getElem?_eq_getElem hip]
      simp only
      obtain ⟨s1, e1, h1⟩ := step (p.take i) p[i] ((p.take m).drop (i + 1)) s (by
        have hit : i < (p.take m).length := by rw [List.length_take]; omega
        have h2 : (p.take m)[i] = p[i] := List.getElem_take
        rw [← h2, ← List.drop_eq_getElem_cons hit]
        have h3 : p.take i = (p.take m).take i := by rw [List.take_take]; congr 1; omega
        rw [h3, List.take_append_drop]) h
      rw [e1]
      simp only
      refine ih (i + 1) s1 (by omega) (by omega) ?_
      rw [List.take_add_one, List.getElem?_eq_getElem hip]
      exact h1
  exact key m 0 s (by omega) (by omega) (by simpa using h0)

end Altruct
