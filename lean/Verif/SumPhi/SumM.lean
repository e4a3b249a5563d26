/-
`sum_m` on a `sqrt_map`.
-/
import Verif.SumPhi.Model
import Verif.Maps.Props
import Verif.Dirichlet.SumProps
import Verif.Dirichlet.SieveProps

namespace Altruct.SumPhi

open Altruct.Maps
open Altruct.Dirichlet (Right Extends prefixSum)
open Altruct.Polynom (Quo cdiv)

section maps

variable {β : Type}

theorem inv_set {s : SqrtMap β} {lo mx : Nat} {m : Nat → Option β} (h : Inv s lo mx m) (hlo : 1 ≤ lo) {k : Nat} (hk : Key lo mx k) (v : β) :
    ∃ s', s.set k v = some s' ∧ Inv s' lo mx (Function.update m k (some v)) := by
  obtain ⟨s', e, hi⟩ := Inv.step v h hlo (.set k v) hk
  rw [SqrtMap.step] at e
  cases hs : s.set k v with
  | none => rw [hs] at e; exact absurd e (by simp)
  | some s1 =>
    rw [hs] at e
    have : s1 = s' := by
      have := Option.some.inj e
      exact congrArg Prod.fst this
    exact ⟨s', by rw [this], hi⟩

theorem inv_el {s : SqrtMap β} {lo mx : Nat} {m : Nat → Option β} (h : Inv s lo mx m) (hlo : 1 ≤ lo) {k : Nat} (hk : Key lo mx k) {v : β}
    (hv : m k = some v) : s.el k = some v := by
  obtain ⟨s', e, hi⟩ := Inv.step v h hlo (.el k) ⟨hk, by rw [hv]; rfl⟩
  rw [SqrtMap.step] at e
  cases hs : s.el k with
  | none => rw [hs] at e; exact absurd e (by simp)
  | some w =>
    rw [hs] at e
    have h2 := congrArg Prod.snd (Option.some.inj e)
    simp only [specStep, hv] at h2
    rw [Out.val.inj h2]

theorem inv_count {s : SqrtMap β} {lo mx : Nat} {m : Nat → Option β} (dflt : β) (h : Inv s lo mx m) (hlo : 1 ≤ lo) {k : Nat} (hk : Key lo mx k) :
    s.count k = some (if (m k).isSome then 1 else 0) := by
  obtain ⟨s', e, hi⟩ := Inv.step dflt h hlo (.count k) hk
  rw [SqrtMap.step] at e
  cases hs : s.count k with
  | none => rw [hs] at e; exact absurd e (by simp)
  | some w =>
    rw [hs] at e
    have h2 := congrArg Prod.snd (Option.some.inj e)
    simp only [specStep] at h2
    rw [Out.num.inj h2]

end maps

variable {α : Type} [CommRing α] [DecidableEq α] [Quo α]

/-- Small numbers are quotients. -/
theorem small_div {n m : Nat} (hm : 1 ≤ m) (h : m * m ≤ n) : 1 ≤ n / m ∧ n / (n / m) = m := by
  have h1 : m ≤ n / m := (Nat.le_div_iff_mul_le hm).mpr h
  have hd : 1 ≤ n / m := by omega
  refine ⟨hd, Nat.le_antisymm ?_ ?_⟩
  · have h2 : n < (n / m + 1) * m := by
      have := Nat.lt_div_mul_add hm (a := n)
      rw [add_mul, one_mul]
      exact this
    have : n / (n / m) < m + 1 := (Nat.div_lt_iff_lt_mul hd).mpr (by nlinarith)
    omega
  · exact (Nat.le_div_iff_mul_le hd).mpr (by rw [mul_comm]; exact Nat.div_mul_le_self n m)

/-- A quotient of `N`. -/
def Quot (N n : Nat) : Prop := ∃ j, 1 ≤ j ∧ n = N / j

theorem Quot.div {N n k : Nat} (h : Quot N n) (hk : 1 ≤ k) : Quot N (n / k) := by
  obtain ⟨j, hj, rfl⟩ := h
  exact ⟨j * k, Nat.mul_pos hj hk, Nat.div_div_eq_div_mul N j k⟩

theorem Quot.small {N n m : Nat} (h : Quot N n) (hm : 1 ≤ m) (hmm : m * m ≤ n) : Quot N m := by
  have h1 := small_div hm hmm
  rw [← h1.2]
  exact h.div h1.1

theorem Quot.le {N n : Nat} (h : Quot N n) : n ≤ N := by
  obtain ⟨j, _, rfl⟩ := h
  exact Nat.div_le_self N j

theorem Quot.key {N n : Nat} (L : Nat) (h : Quot N n) : Key L N n := Or.inr h

/-- A quotient by any number is one by a number at most `n / q`, or below `q`. -/
theorem quot_cases {n q k : Nat} (hq : 1 ≤ q) (h1 : 1 ≤ k) (hk : k ≤ n) (h : n / q < k) : 1 ≤ n / k ∧ n / k < q := by
  refine ⟨Nat.div_pos hk h1, ?_⟩
  rw [Nat.div_lt_iff_lt_mul h1, mul_comm]
  exact (Nat.div_lt_iff_lt_mul hq).mp h

theorem sumMS_spec (N L : Nat) (hL : 1 ≤ L) (sq : Nat → Nat) (t : Nat → Option α) (T s M : Nat → α)
    (hsq : ∀ n, 1 ≤ n → n ≤ N → 1 ≤ sq n ∧ sq n * sq n ≤ n)
    (ht : ∀ n, 1 ≤ n → n ≤ N → t n = some (T n))
    (hM : ∀ n, 1 ≤ n → n ≤ N → ∑ k ∈ Finset.Icc 1 n, (s k - s (k - 1)) * M (n / k) = T n)
    (hp : s 1 - s 0 ≠ 0) (hquo : ∀ a, Quo.quo ((s 1 - s 0) * a) (s 1 - s 0) = a) :
    ∀ (fuel n : Nat) (mm : SqrtMap α) (m : Nat → Option α), n ≤ fuel → Quot N n → Inv mm L N m → Right M m →
    ∃ mm' m', sumMS sq t s fuel n mm = some ((if n = 0 then 0 else M n), mm') ∧ Inv mm' L N m' ∧ Right M m' ∧ Extends m m' ∧
      (1 ≤ n → m' n = some (M n)) ∧ (m n = none → ∀ k, 1 ≤ k → k ≤ n → m' (n / k) = some (M (n / k))) := by
  intro fuel
  induction fuel with
  | zero =>
    intro n mm m hn _ hi hr
    have : n = 0 := by omega
    subst this
    exact ⟨mm, m, by rw [sumMS]; rfl, hi, hr, Extends.refl _, fun h => by omega, fun _ k _ _ => by omega⟩
  | succ fuel ih =>
    intro n mm m hf hQ hi hr
    rw [sumMS.eq_def]
    by_cases hn : n < 1
    · have : n = 0 := by omega
      subst this
      exact ⟨mm, m, by simp, hi, hr, Extends.refl _, fun h => by omega, fun _ k _ _ => by omega⟩
    have hB := hQ.le
    simp only [if_neg hn, if_neg (show ¬ n = 0 by omega)]
    rw [inv_count 0 hi hL (hQ.key L), Option.bind_some]
    cases hm : m n with
    | some v =>
      refine ⟨mm, m, ?_, hi, hr, Extends.refl _, fun _ => ?_, fun h => by simp at h⟩
      · rw [if_pos (by simp), inv_el hi hL (hQ.key L) hm, Option.bind_some, hr n v hm]
      · rw [hm, hr n v hm]
    | none =>
      simp only
      obtain ⟨hq1, hqq⟩ := hsq n (by omega) hB
      have hqn : sq n ≤ n := le_trans (Nat.le_mul_self _) hqq
      rw [if_neg (by simp), ht n (by omega) hB, Option.bind_some]
      set q := sq n with hq
      have hnq1 : 1 ≤ n / q := Nat.div_pos hqn hq1
      have hnqn : n / q ≤ n := Nat.div_le_self n q
      obtain ⟨⟨r1, t1⟩, e1, m1, hr1, hI1, hR1, hE1, hA1⟩ := forUp_spec (body := fun k (st : α × SqrtMap α) =>
          (sumMS sq t s fuel (n / k) st.2).bind fun x => some (st.1 - (s k - s (k - 1)) * x.1, x.2))
        (fun k st => ∃ m', st.1 = T n - ∑ i ∈ Finset.Ico 2 k, (s i - s (i - 1)) * M (n / i) ∧ Inv st.2 L N m' ∧ Right M m' ∧ Extends m m' ∧
          ∀ i, 2 ≤ i → i < k → m' (n / i) = some (M (n / i)))
        (a := 2) (n := n / q + 1) (s := (T n, mm)) (by omega) ⟨m, by simp, hi, hr, Extends.refl _, fun i _ _ => by omega⟩
        (fun k st hk hkq ⟨m', h1, h2, h3, h4, h5⟩ => by
          have hlt : n / k < n := Nat.div_lt_self (by omega) (by omega)
          have hpos : 1 ≤ n / k := Nat.div_pos (by omega) (by omega)
          obtain ⟨mm', m2, e', k1, k2, k3, k4, _⟩ := ih (n / k) st.2 m' (by omega) (hQ.div (by omega)) h2 h3
          rw [if_neg (by omega)] at e'
          refine ⟨(st.1 - (s k - s (k - 1)) * M (n / k), mm'), by rw [e']; rfl, m2, ?_, k1, k2, h4.trans k3, fun i hi1 hi2 => ?_⟩
          · rw [Finset.sum_Ico_succ_top hk, h1]
            ring
          · by_cases hik : i = k
            · rw [hik]; exact k4 hpos
            · exact k3 _ _ (h5 i hi1 (by omega)))
      obtain ⟨⟨r2, t2⟩, e2, m2, hr2, hI2, hR2, hE2, hA2⟩ := forUp_spec (body := fun j (st : α × SqrtMap α) =>
          (sumMS sq t s fuel j st.2).bind fun x => some (st.1 - (s (n / j) - s (n / (j + 1))) * x.1, x.2))
        (fun j st => ∃ m', st.1 = r1 - ∑ i ∈ Finset.Ico 1 j, (s (n / i) - s (n / (i + 1))) * M i ∧ Inv st.2 L N m' ∧ Right M m' ∧ Extends m1 m' ∧
          ∀ i, 1 ≤ i → i < j → m' i = some (M i))
        (a := 1) (n := q) (s := (r1, t1)) hq1 ⟨m1, by simp, hI1, hR1, Extends.refl _, fun i _ _ => by omega⟩
        (fun j st hj hjq ⟨m', h1, h2, h3, h4, h5⟩ => by
          obtain ⟨mm', m2, e', k1, k2, k3, k4, _⟩ := ih j st.2 m' (by omega) (hQ.small hj (by nlinarith)) h2 h3
          rw [if_neg (by omega)] at e'
          refine ⟨(st.1 - (s (n / j) - s (n / (j + 1))) * M j, mm'), by rw [e']; rfl, m2, ?_, k1, k2, h4.trans k3, fun i hi1 hi2 => ?_⟩
          · rw [Finset.sum_Ico_succ_top hj, h1]
            ring
          · by_cases hik : i = j
            · rw [hik]; exact k4 hj
            · exact k3 _ _ (h5 i hi1 (by omega)))
      have hfinal : r2 = (s 1 - s 0) * M n := by
        have hsum := hM n (by omega) hB
        rw [show Finset.Icc 1 n = Finset.Ico 1 (n + 1) by ext; simp,
          ← Finset.sum_Ico_consecutive _ (show 1 ≤ 2 by omega) (show 2 ≤ n + 1 by omega)] at hsum
        rw [← Finset.sum_Ico_consecutive _ (show 2 ≤ n / q + 1 by omega) (show n / q + 1 ≤ n + 1 by omega),
          show Finset.Ico (n / q + 1) (n + 1) = Finset.Ico (n / q + 1) (n / 1 + 1) by rw [Nat.div_one],
          ← Dirichlet.group_sum (fun m => n / m) (fun k => n / k) (fun k => s k - s (k - 1)) M (fun m => s (n / m) - s (n / (m + 1))) (Dirichlet.le_div_comm' n)
            (fun m hm => Dirichlet.telescope s _ _ (Nat.div_le_div_left (by omega) hm)) q hq1] at hsum
        simp only [Finset.sum_Ico_succ_top (le_refl 1), Finset.Ico_self, Finset.sum_empty, Nat.div_one] at hsum
        simp only at hr1 hr2
        rw [hr2, hr1, ← hsum]
        ring
      obtain ⟨mm3, e3, hI3⟩ := inv_set hI2 hL (hQ.key L) (M n)
      refine ⟨mm3, Function.update m2 n (some (M n)), ?_, hI3, hR2.update n, (hE1.trans hE2).update hr n, fun _ => Function.update_self .., fun _ k hk hkn => ?_⟩
      · rw [if_neg (by omega), e1, Option.bind_some, e2, Option.bind_some, hfinal, cdiv, if_neg hp, hquo, Option.bind_some, e3]
        rfl
      · by_cases he : n / k = n
        · rw [he, Function.update_self]
        · rw [Function.update_of_ne he]
          by_cases hkq : k ≤ n / q
          · by_cases hk1 : k = 1
            · exact absurd (by rw [hk1, Nat.div_one]) he
            · exact hE2 _ _ (hA1 k (by omega) (by omega))
          · have := quot_cases hq1 hk hkn (by omega)
            exact hA2 _ this.1 this.2

end Altruct.SumPhi
