/-
Loops that append to a vector, as lists.
-/
import Verif.Triples.Model
import Mathlib.Tactic.Ring
import Mathlib.Tactic.Linarith
import Mathlib.Data.List.Nodup

namespace Altruct.Triples

variable {σ α : Type}

/-- the values of the loop variable -/
def idx (d : Nat) (hi i : Int) : List Int :=
  if i ≤ hi then i :: idx d hi (i + d + 1) else []
termination_by (hi + 1 - i).toNat
decreasing_by omega

theorem mem_idx (d : Nat) (hi i x : Int) : x ∈ idx d hi i ↔ i ≤ x ∧ x ≤ hi ∧ ((d : Int) + 1) ∣ x - i := by
  fun_induction idx d hi i with
  | case1 i h ih =>
    rw [List.mem_cons, ih]
    constructor
    · rintro (rfl | ⟨h1, h2, h3⟩)
      · exact ⟨le_refl _, h, by simp⟩
      · refine ⟨by omega, h2, ?_⟩
        have := Int.dvd_add h3 (Int.dvd_refl ((d : Int) + 1))
        have e : x - (i + d + 1) + (d + 1) = x - i := by ring
        rwa [e] at this
    · rintro ⟨h1, h2, k, hk⟩
      by_cases hx : x = i
      · exact Or.inl hx
      · right
        have hk1 : 1 ≤ k := by
          by_contra hc
          have := Int.mul_nonpos_of_nonneg_of_nonpos (a := (d : Int) + 1) (b := k) (by omega) (by omega)
          omega
        refine ⟨by nlinarith, h2, k - 1, ?_⟩
        linarith
  | case2 i h => simp; omega

theorem nodup_idx (d : Nat) (hi i : Int) : (idx d hi i).Nodup := by
  fun_induction idx d hi i with
  | case1 i h ih =>
    rw [List.nodup_cons, mem_idx]
    exact ⟨by omega, ih⟩
  | case2 i h => simp

/-- a loop whose body appends `g i` -/
theorem forTo_append (body : Int → List α → List α) (g : Int → List α) (hb : ∀ i s, body i s = s ++ g i) (d : Nat)
    (hi i : Int) (s : List α) : forTo body d hi i s = s ++ (idx d hi i).flatMap g := by
  fun_induction idx d hi i generalizing s with
  | case1 i h ih => rw [forTo, if_pos h, ih, hb, List.flatMap_cons, List.append_assoc]
  | case2 i h => rw [forTo, if_neg h]; simp

theorem nodup_flatMap_of {β : Type} (l : List β) (f : β → List α) (hl : l.Nodup) (h1 : ∀ x ∈ l, (f x).Nodup)
    (h2 : ∀ x ∈ l, ∀ y ∈ l, ∀ z, z ∈ f x → z ∈ f y → x = y) : (l.flatMap f).Nodup := by
  rw [List.nodup_flatMap]
  refine ⟨h1, ?_⟩
  refine List.Pairwise.imp_of_mem ?_ hl
  intro x y hx hy hne
  simp only [Function.onFun]
  intro z hz1 hz2
  exact hne (h2 x hx y hy z hz1 hz2)

/-- the values visited by `multiples` -/
def mults (kMax a b c : Int) : List Triple := (idx 0 kMax 1).map fun k => (k * a, k * b, k * c)

theorem multiples_aux (a b c kMax i : Int) (vt : List Triple) :
    (forTo (fun _ (s : Triple × List Triple) =>
      let t := (s.1.1 + a, s.1.2.1 + b, s.1.2.2 + c)
      (t, s.2 ++ [t])) 0 kMax i (((i - 1) * a, (i - 1) * b, (i - 1) * c), vt)).2 =
    vt ++ (idx 0 kMax i).map fun k => (k * a, k * b, k * c) := by
  fun_induction idx 0 kMax i generalizing vt with
  | case1 i h ih =>
    rw [forTo, if_pos h]
    have e : ∀ x : Int, (i - 1) * x + x = (i + (0 : Nat) + 1 - 1) * x := by intro x; push_cast; ring
    have e' : ∀ x : Int, (i - 1) * x + x = i * x := by intro x; ring
    have := ih (vt ++ [(i * a, i * b, i * c)])
    simp only [List.map_cons, List.append_assoc, List.singleton_append] at this ⊢
    rw [← this]
    simp only [← e, e']
  | case2 i h => rw [forTo, if_neg h]; simp

theorem multiples_eq (kMax a b c : Int) (vt : List Triple) : multiples kMax a b c vt = vt ++ mults kMax a b c := by
  have := multiples_aux a b c kMax 1 vt
  simpa [multiples, mults] using this

theorem mem_mults (kMax a b c x y z : Int) :
    (x, y, z) ∈ mults kMax a b c ↔ ∃ k, 1 ≤ k ∧ k ≤ kMax ∧ x = k * a ∧ y = k * b ∧ z = k * c := by
  simp only [mults, List.mem_map, mem_idx, Prod.mk.injEq]
  constructor
  · rintro ⟨k, ⟨h1, h2, _⟩, h3, h4, h5⟩
    exact ⟨k, h1, h2, h3.symm, h4.symm, h5.symm⟩
  · rintro ⟨k, h1, h2, h3, h4, h5⟩
    exact ⟨k, ⟨h1, h2, by simp⟩, h3.symm, h4.symm, h5.symm⟩

theorem nodup_mults (kMax a b c : Int) (hc : c ≠ 0) : (mults kMax a b c).Nodup := by
  refine List.Nodup.map ?_ (nodup_idx 0 kMax 1)
  intro x y h
  simp only [Prod.mk.injEq] at h
  exact mul_right_cancel₀ hc h.2.2

end Altruct.Triples
