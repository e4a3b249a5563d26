/-
A `sqrt_map` holds a function on its keys.
-/
import Verif.SumMult.Model
import Verif.SumMult.Spec

namespace Altruct.SumMult

open Altruct.Maps (SqrtMap Key)

variable {α : Type} [CommRing α]

/-- The map holds the values of `g` for the keys up to `L` and the quotients of `n`. -/
structure Tb (s : SqrtMap α) (L n : Nat) (g : Nat → α) : Prop where
  mlo : s.maxLo = L
  mkey : s.maxKey = n
  cl : s.cntLo.length = L + 1
  ch : s.cntHi.length = n / L + 1
  tl : Rep s.tblLo (L + 1) g
  th : ∃ hi, Rep s.tblHi (n / L + 1) hi ∧ ∀ k, L < k → Key L n k → hi (n / k) = g k

theorem Tb.el {s : SqrtMap α} {L n : Nat} {g : Nat → α} (h : Tb s L n g) (hL : 1 ≤ L) {k : Nat} (hk : Key L n k) : s.el k = some (g k) := by
  rw [SqrtMap.el, h.mlo]
  by_cases hkL : k ≤ L
  · rw [if_pos hkL, h.tl.rd (by omega)]
  · rw [if_neg hkL, SqrtMap.slot, if_neg (by omega), h.mkey]
    simp only [Option.bind_eq_bind, Option.bind_some]
    obtain ⟨hi, r, e⟩ := h.th
    rw [r.rd (Maps.slot_lt L n k hL (by omega)), e k (by omega) hk]

theorem Tb.set {s : SqrtMap α} {L n : Nat} {g : Nat → α} (h : Tb s L n g) (hL : 1 ≤ L) {k : Nat} (hk : Key L n k) (v : α) :
    ∃ s', s.set k v = some s' ∧ Tb s' L n (Function.update g k v) := by
  obtain ⟨hi, r, e⟩ := h.th
  rw [SqrtMap.set, h.mlo]
  by_cases hkL : k ≤ L
  · rw [if_pos hkL, wr, if_pos (by rw [h.cl]; omega), h.tl.wr (by omega)]
    refine ⟨_, rfl, rfl, h.mkey, by simp [h.cl], h.ch, h.tl.set k v, hi, r, fun j hj hkey => ?_⟩
    rw [Function.update_of_ne (by omega), e j hj hkey]
  · have hs := Maps.slot_lt L n k hL (by omega)
    rw [if_neg hkL, SqrtMap.slot, if_neg (by omega), h.mkey]
    simp only [Option.bind_eq_bind, Option.bind_some]
    rw [wr, if_pos (by rw [h.ch]; exact hs), r.wr hs]
    refine ⟨_, rfl, rfl, rfl, h.cl, by simp [h.ch], h.tl.congr (fun j hj => by rw [Function.update_of_ne (by omega)]), _, r.set _ v, fun j hj hkey => ?_⟩
    by_cases hjk : j = k
    · subst hjk
      rw [Function.update_self, Function.update_self]
    · rw [Function.update_of_ne hjk, Function.update_of_ne (Maps.slot_ne (by omega) hk hj hkey hjk), e j hj hkey]

theorem Tb.congr {s : SqrtMap α} {L n : Nat} {g g' : Nat → α} (h : Tb s L n g) (e : ∀ k, Key L n k → g k = g' k) : Tb s L n g' := by
  obtain ⟨hi, r, eh⟩ := h.th
  exact ⟨h.mlo, h.mkey, h.cl, h.ch, h.tl.congr (fun k hk => e k (Or.inl (by omega))), hi, r, fun k hk hkey => by rw [eh k hk hkey, e k hkey]⟩

theorem Tb.init (L n : Nat) (hL : 1 ≤ L) : ∃ s, SqrtMap.mk' (0 : α) L n = some s ∧ Tb s L n (fun _ => 0) := by
  refine ⟨⟨L, n, List.replicate (L + 1) 0, List.replicate (L + 1) 0, List.replicate (n / L + 1) 0, List.replicate (n / L + 1) 0⟩,
    by rw [SqrtMap.mk', SqrtMap.resetMax, if_neg (by change ¬ L = 0; omega)]; simp, rfl, rfl, by simp, by simp, Rep.replicate _ _, fun _ => 0, Rep.replicate _ _, fun _ _ _ => rfl⟩

theorem key_lo {L n k : Nat} (h : k ≤ L) : Key L n k := Or.inl h
theorem key_div {L n j : Nat} (h : 1 ≤ j) : Key L n (n / j) := Or.inr ⟨j, h, rfl⟩

/-- Keys above `L` are quotients by at most `n / (L + 1)`. -/
theorem key_hi {L n k : Nat} (hk : L < k) (h : Key L n k) : ∃ j, 1 ≤ j ∧ j ≤ n / (L + 1) ∧ k = n / j := by
  rcases h with h | ⟨j, hj, rfl⟩
  · omega
  · refine ⟨j, hj, ?_, rfl⟩
    rw [Nat.le_div_iff_mul_le (by omega), mul_comm]
    exact (Nat.le_div_iff_mul_le hj).mp hk

/-- The sums in the map: zero at zero. -/
theorem makeSqrtMap_spec (sq : Nat → Nat) (f : Nat → α) (n : Nat) (hsq : 1 ≤ sq n) :
    ∃ s, makeSqrtMap sq f n = some s ∧ Tb s (sq n) n (fun k => if k = 0 then 0 else f k) := by
  set q := sq n with hq
  obtain ⟨s0, e0, t0⟩ := Tb.init (α := α) q n hsq
  obtain ⟨s1, e1, t1⟩ := forUp_spec (body := fun i (tbl : SqrtMap α) => tbl.set i (f i))
    (fun i s => Tb s q n (fun k => if 1 ≤ k ∧ k < i then f k else 0)) (a := 1) (n := q + 1) (s := s0) (by omega)
    (t0.congr (fun k _ => by rw [if_neg (by omega)]))
    (fun i s hi hiq t => by
      obtain ⟨s', e, t'⟩ := t.set hsq (key_lo (by omega : i ≤ q)) (f i)
      refine ⟨s', e, t'.congr (fun k _ => ?_)⟩
      by_cases hk : k = i
      · subst hk
        rw [Function.update_self, if_pos (by omega)]
      · rw [Function.update_of_ne hk]
        by_cases h : 1 ≤ k ∧ k < i
        · rw [if_pos h, if_pos (by omega)]
        · rw [if_neg h, if_neg (by omega)])
  obtain ⟨s2, e2, t2⟩ := forUp_spec (body := fun i (tbl : SqrtMap α) => tbl.set (n / i) (f (n / i)))
    (fun i s => ∃ g, Tb s q n g ∧ (∀ k, 1 ≤ k → k ≤ q → g k = f k) ∧ ∀ j, 1 ≤ j → j < i → g (n / j) = f (n / j)) (a := 1) (n := n / (q + 1) + 1) (s := s1) (Nat.le_add_left 1 _)
    ⟨_, t1, fun k h1 h2 => by rw [if_pos (by omega)], fun j _ _ => by omega⟩
    (fun i s hi _ t => by
      obtain ⟨g, t, h1, h2⟩ := t
      obtain ⟨s', e, t'⟩ := t.set hsq (key_div hi : Key q n (n / i)) (f (n / i))
      refine ⟨s', e, _, t', fun k a b => ?_, fun j a b => ?_⟩
      · by_cases hk : k = n / i
        · rw [hk, Function.update_self]
        · rw [Function.update_of_ne hk, h1 k a b]
      · by_cases hk : n / j = n / i
        · rw [hk, Function.update_self]
        · rw [Function.update_of_ne hk, h2 j a (by
            by_contra hc
            exact hk (by rw [show j = i by omega]))])
  obtain ⟨g, t2, h1, h2⟩ := t2
  obtain ⟨s3, e3, t3⟩ := t2.set hsq (key_lo (Nat.zero_le q)) 0
  refine ⟨s3, ?_, t3.congr (fun k hk => ?_)⟩
  · rw [makeSqrtMap, ← hq]
    simp only [Option.bind_eq_bind] at e0 ⊢
    rw [e0]
    simp only [Option.bind_some]
    rw [e1]
    simp only [Option.bind_some]
    rw [e2]
    simp only [Option.bind_some]
    rw [t2.el hsq (key_lo hsq)]
    exact e3
  · by_cases h0 : k = 0
    · subst h0
      rw [Function.update_self, if_pos rfl]
    · rw [Function.update_of_ne h0, if_neg h0]
      by_cases hkq : k ≤ q
      · exact h1 k (by omega) hkq
      · obtain ⟨j, hj, hj2, rfl⟩ := key_hi (by omega) hk
        exact h2 j hj (by omega)

end Altruct.SumMult
