/-
Property C65: `garner` computes the mixed radix digits of the number given by its remainders.
-/
import Verif.NumTheory.Model
import Verif.Modulo.InvProps
import Mathlib.Data.Int.ModEq
import Mathlib.Data.Nat.ChineseRemainder
import Mathlib.Algebra.BigOperators.Group.List.Basic

namespace Altruct.NumTheory

/-- The product of the moduli of a list of `(value, modulus)` pairs. -/
def moduli (l : List (Nat × Nat)) : Nat := (l.map Prod.snd).prod

/-- The documented value of mixed radix digits: `Sum[x[i] * q[i]]`, `q[i]` the product of the first `i` moduli. -/
def mixedRadix (l : List (Nat × Nat)) : Nat :=
  ((List.range l.length).map (fun i => (l.getD i (0, 1)).1 * moduli (l.take i))).sum

/-- The same value by Horner's rule (an auxiliary form). -/
def horner : List (Nat × Nat) → Nat
  | [] => 0
  | e :: l => e.1 + e.2 * horner l

theorem moduli_cons (e : Nat × Nat) (l : List (Nat × Nat)) : moduli (e :: l) = e.2 * moduli l := by simp [moduli]
theorem moduli_append (l m : List (Nat × Nat)) : moduli (l ++ m) = moduli l * moduli m := by simp [moduli]

theorem horner_append (l : List (Nat × Nat)) (e : Nat × Nat) : horner (l ++ [e]) = horner l + e.1 * moduli l := by
  induction l with
  | nil => simp [horner, moduli]
  | cons f l ih => rw [List.cons_append, horner, ih, horner, moduli_cons]; ring

theorem mixedRadix_append (l : List (Nat × Nat)) (e : Nat × Nat) :
    mixedRadix (l ++ [e]) = mixedRadix l + e.1 * moduli l := by
  rw [mixedRadix, List.length_append, List.length_singleton, List.range_succ, List.map_append, List.sum_append]
  congr 1
  · rw [mixedRadix]
    congr 1
    apply List.map_congr_left
    intro i hi
    have hi' := List.mem_range.mp hi
    rw [List.getD_eq_getElem?_getD, List.getElem?_append_left hi', ← List.getD_eq_getElem?_getD, List.take_append_of_le_length hi'.le]
  · simp

theorem mixedRadix_eq_horner (l : List (Nat × Nat)) : mixedRadix l = horner l := by
  induction l using List.reverseRecOn with
  | nil => rfl
  | append_singleton l e ih => rw [mixedRadix_append, horner_append, ih]

/-- Digits below their moduli give a value below the product of the moduli. -/
theorem horner_lt (l : List (Nat × Nat)) (h : ∀ e ∈ l, e.1 < e.2) : horner l < moduli l := by
  induction l with
  | nil => simp [horner, moduli]
  | cons e l ih =>
    have h1 := h e List.mem_cons_self
    have h2 := ih (fun f hf => h f (List.mem_cons_of_mem _ hf))
    rw [horner, moduli_cons]
    nlinarith

theorem garnerInner_spec (w M : Nat) (hw : w = 8 ∨ w = 16 ∨ w = 32 ∨ w = 64) (hMw : M < 2 ^ w) (l : List (Nat × Nat)) :
    (∀ e ∈ l, e.1 < e.2 ∧ e.2 < M ∧ Nat.Coprime e.2 M) → ∀ y, y < M →
      garnerInner w M l y < M ∧ (M : Int) ∣ (horner l + moduli l * garnerInner w M l y : Int) - y := by
  induction l with
  | nil => intro _ y hy; exact ⟨hy, by simp [horner, moduli, garnerInner]⟩
  | cons e l ih =>
    intro h y hy
    obtain ⟨h1, h2, h3⟩ := h e List.mem_cons_self
    have hM : 1 < M := by omega
    have hs := Modulo.C06_sub w y e.1 M hMw hy (by omega)
    have hslt : Modulo.subU w y e.1 M < M := by
      have := Int.emod_lt_of_pos ((y : Int) - e.1) (show (0 : Int) < M by omega)
      omega
    obtain ⟨d1, d2⟩ := Modulo.C07_div_unsigned w (Modulo.subU w y e.1 M) e.2 M hw hM hMw hslt h2
      (by rw [Nat.Coprime.gcd_eq_one h3]; exact one_dvd _)
    obtain ⟨r1, r2⟩ := ih (fun f hf => h f (List.mem_cons_of_mem _ hf)) _ d1
    rw [garnerInner]
    refine ⟨r1, ?_⟩
    generalize hr : garnerInner w M l (Modulo.divU w (Modulo.subU w y e.1 M) e.2 M) = r at *
    generalize hd : Modulo.divU w (Modulo.subU w y e.1 M) e.2 M = d at *
    generalize hv : Modulo.subU w y e.1 M = v at *
    have k1 : (M : Int) ∣ (d * e.2 : Int) - v := by
      have := (Nat.modEq_iff_dvd.mp (show v ≡ d * e.2 [MOD M] by rw [Nat.ModEq, d2, Nat.mod_eq_of_lt hslt]))
      exact_mod_cast this
    have k2 : (M : Int) ∣ (v : Int) - (y - e.1) := by
      rw [hs]
      exact ⟨-(((y : Int) - e.1) / M), by have := Int.mul_ediv_add_emod ((y : Int) - e.1) M; linear_combination this⟩
    rw [horner, moduli_cons]
    push_cast
    have : ((e.1 + e.2 * horner l + e.2 * moduli l * r : Int) - y) =
        e.2 * ((horner l + moduli l * r : Int) - d) + ((d * e.2 : Int) - v) + ((v : Int) - (y - e.1)) := by ring
    rw [this]
    exact dvd_add (dvd_add (r2.mul_left _) k1) k2

theorem garnerLoop_spec (w : Nat) (hw : w = 8 ∨ w = 16 ∨ w = 32 ∨ w = 64) (l : List (Nat × Nat)) : ∀ done : List (Nat × Nat),
    (∀ e ∈ l, e.1 < e.2 ∧ e.2 < 2 ^ w) → (∀ e ∈ done, e.1 < e.2) →
    ((done ++ l).map Prod.snd).Pairwise (fun p q => p < q ∧ Nat.Coprime p q) →
    (garnerLoop w l done).map Prod.snd = (done ++ l).map Prod.snd ∧ (∀ e ∈ garnerLoop w l done, e.1 < e.2) ∧
      (∃ t, horner (garnerLoop w l done) = horner done + moduli done * t) ∧
      ∀ e ∈ l, horner (garnerLoop w l done) % e.2 = e.1 := by
  induction l with
  | nil => intro done _ h _; exact ⟨by simp [garnerLoop], h, ⟨0, by simp [garnerLoop]⟩, by simp⟩
  | cons e l ih =>
    intro done hl hd hp
    obtain ⟨h1, h2⟩ := hl e List.mem_cons_self
    have hin := garnerInner_spec w e.2 hw h2 done (fun f hf => by
      have hp' := hp
      rw [List.map_append, List.pairwise_append] at hp'
      exact ⟨hd f hf, hp'.2.2 f.2 (List.mem_map.mpr ⟨f, hf, rfl⟩) e.2 (by simp)⟩) e.1 h1
    obtain ⟨i1, i2⟩ := hin
    rw [garnerLoop]
    generalize hx : garnerInner w e.2 done e.1 = x at *
    obtain ⟨a1, a2, ⟨t, a3⟩, a4⟩ := ih (done ++ [(x, e.2)]) (fun f hf => hl f (List.mem_cons_of_mem _ hf))
      (fun f hf => by
        rcases List.mem_append.mp hf with hf | hf
        · exact hd f hf
        · rw [List.mem_singleton] at hf; rw [hf]; exact i1)
      (by simpa using hp)
    refine ⟨by rw [a1]; simp, a2, ?_, ?_⟩
    · refine ⟨x + e.2 * t, ?_⟩
      rw [a3, horner_append, moduli_append]
      simp [moduli]; ring
    · intro f hf
      rcases List.mem_cons.mp hf with rfl | hf
      · rw [a3, horner_append, moduli_append]
        have hm : moduli [(x, f.2)] = f.2 := by simp [moduli]
        rw [hm, show moduli done * f.2 * t = f.2 * (moduli done * t) by ring, Nat.add_mul_mod_self_left]
        have : f.1 ≡ horner done + x * moduli done [MOD f.2] := by
          rw [Nat.modEq_iff_dvd]
          push_cast
          rw [mul_comm (x : Int)]
          exact i2
        rw [← this, Nat.mod_eq_of_lt h1]
      · exact a4 f hf

/-- **C65**: for increasing pairwise coprime moduli `garner` keeps the moduli, every digit is below its modulus, and the
mixed radix value of the digits has the given remainders; it is below the product of the moduli and is the only such
number. -/
theorem C65_garner (w : Nat) (hw : w = 8 ∨ w = 16 ∨ w = 32 ∨ w = 64) (vap : List (Nat × Nat)) (hv : ∀ e ∈ vap, e.1 < e.2 ∧ e.2 < 2 ^ w)
    (hp : (vap.map Prod.snd).Pairwise (fun p q => p < q ∧ Nat.Coprime p q)) :
    (garner w vap).map Prod.snd = vap.map Prod.snd ∧ (∀ e ∈ garner w vap, e.1 < e.2) ∧
      mixedRadix (garner w vap) < (vap.map Prod.snd).prod ∧
      (∀ e ∈ vap, mixedRadix (garner w vap) % e.2 = e.1) ∧
      ∀ u, u < (vap.map Prod.snd).prod → (∀ e ∈ vap, u % e.2 = e.1) → u = mixedRadix (garner w vap) := by
  obtain ⟨h1, h2, _, h4⟩ := garnerLoop_spec w hw vap [] hv (by simp) (by simpa using hp)
  rw [List.nil_append] at h1
  change (garner w vap).map Prod.snd = _ at h1
  have hlt := horner_lt (garner w vap) h2
  rw [moduli, h1] at hlt
  rw [mixedRadix_eq_horner]
  refine ⟨h1, h2, hlt, h4, fun u hu hr => ?_⟩
  have hco : (vap.map Prod.snd).Pairwise Nat.Coprime := hp.imp (fun h => h.2)
  have key : ∀ l : List (Nat × Nat), (∀ e ∈ l, e ∈ vap) → (l.map Prod.snd).Pairwise Nat.Coprime →
      u ≡ horner (garner w vap) [MOD (l.map Prod.snd).prod] := by
    intro l
    induction l with
    | nil => intro _ _; exact Nat.modEq_one
    | cons e l ih =>
      intro hm hc
      rw [List.map_cons, List.pairwise_cons] at hc
      rw [List.map_cons, List.prod_cons]
      refine (Nat.modEq_and_modEq_iff_modEq_mul ?_).mp ⟨?_, ih (fun f hf => hm f (List.mem_cons_of_mem _ hf)) hc.2⟩
      · exact Nat.coprime_list_prod_right_iff.mpr (fun n hn => hc.1 n hn)
      · exact (hr e (hm e List.mem_cons_self)).trans (h4 e (hm e List.mem_cons_self)).symm
  have := key vap (fun _ h => h) hco
  rwa [Nat.ModEq, Nat.mod_eq_of_lt hu, Nat.mod_eq_of_lt hlt] at this

example : garner 32 [(2, 3), (3, 5), (2, 7)] = [(2, 3), (2, 5), (1, 7)] ∧ mixedRadix [(2, 3), (2, 5), (1, 7)] = 23 := by decide +kernel
example : ([(2, 3), (3, 5), (2, 7)].map Prod.snd).Pairwise (fun p q : Nat => p < q ∧ Nat.Coprime p q) := by decide

/-- If the moduli do not increase, the digit of a larger modulus is subtracted without being reduced and the result is
wrong: the number 6 given modulo 7 and 3 is turned into 13. -/
theorem C65_garner_decreasing : garner 32 [(6, 7), (0, 3)] = [(6, 7), (1, 3)] ∧ mixedRadix [(6, 7), (1, 3)] % 3 ≠ 0 := by
  decide +kernel

end Altruct.NumTheory
