/-
C57, C58: `sum_m`, square-free counts, `coprime_sum`, `divisor_sigma`.
-/
import Verif.Dirichlet.SumModel
import Verif.Dirichlet.SieveProps
import Mathlib.Data.Nat.Squarefree

namespace Altruct.Dirichlet

open Altruct.Polynom (Quo cdiv)

variable {α : Type} [CommRing α]

/-! ### C57: `sum_m` -/

/-- A sum over `k` grouped by the value `v k`, where `h` inverts `v`. -/
theorem group_sum (h v : Nat → Nat) (P M : Nat → α) (c : Nat → α) (hv : ∀ k m, 1 ≤ k → 1 ≤ m → (k ≤ h m ↔ m ≤ v k))
    (hc : ∀ m, 1 ≤ m → c m = ∑ k ∈ Finset.Ico (h (m + 1) + 1) (h m + 1), P k) (q : Nat) (hq : 1 ≤ q) :
    ∑ m ∈ Finset.Ico 1 q, c m * M m = ∑ k ∈ Finset.Ico (h q + 1) (h 1 + 1), P k * M (v k) := by
  have mono : ∀ a b, 1 ≤ a → a ≤ b → h b ≤ h a := by
    intro a b ha hab
    by_cases hb : h b = 0
    · omega
    · exact (hv (h b) a (by omega) ha).mpr (le_trans hab ((hv (h b) b (by omega) (by omega)).mp (le_refl _)))
  induction q, hq using Nat.le_induction with
  | base => simp
  | succ q hq ih =>
    have h1 : h (q + 1) ≤ h q := mono q (q + 1) hq (by omega)
    have h2 : h q ≤ h 1 := mono 1 q (le_refl _) hq
    rw [Finset.sum_Ico_succ_top hq, ih, ← Finset.sum_Ico_consecutive _ (show h (q + 1) + 1 ≤ h q + 1 by omega) (show h q + 1 ≤ h 1 + 1 by omega),
      add_comm, hc q hq, Finset.sum_mul]
    congr 1
    apply Finset.sum_congr rfl
    intro k hk
    rw [Finset.mem_Ico] at hk
    have h3 : q ≤ v k := (hv k q (by omega) hq).mp (by omega)
    have h4 : ¬ q + 1 ≤ v k := fun hc => by
      have := (hv k (q + 1) (by omega) (by omega)).mpr hc
      omega
    rw [show v k = q by omega]

theorem le_div_comm' (n k m : Nat) (hk : 1 ≤ k) (hm : 1 ≤ m) : k ≤ n / m ↔ m ≤ n / k := by
  rw [Nat.le_div_iff_mul_le hm, Nat.le_div_iff_mul_le hk, mul_comm]

/-- `tbl` only holds right values. -/
def Right (M : Nat → α) (tbl : Nat → Option α) : Prop := ∀ k v, tbl k = some v → v = M k

/-- `tbl'` has all the entries of `tbl`. -/
def Extends (tbl tbl' : Nat → Option α) : Prop := ∀ k v, tbl k = some v → tbl' k = some v

omit [CommRing α] in
theorem Right.update {M : Nat → α} {tbl : Nat → Option α} (h : Right M tbl) (n : Nat) :
    Right M (Function.update tbl n (some (M n))) := by
  intro k v hk
  by_cases hkn : k = n
  · subst hkn
    rw [Function.update_self] at hk
    exact (Option.some.inj hk).symm
  · rw [Function.update_of_ne hkn] at hk
    exact h k v hk

omit [CommRing α] in
theorem Extends.refl (tbl : Nat → Option α) : Extends tbl tbl := fun _ _ h => h

omit [CommRing α] in
theorem Extends.trans {a b c : Nat → Option α} (h1 : Extends a b) (h2 : Extends b c) : Extends a c := fun k v h => h2 k v (h1 k v h)

omit [CommRing α] in
theorem Extends.update {M : Nat → α} {tbl tbl' : Nat → Option α} (h : Extends tbl tbl') (hr : Right M tbl) (n : Nat) :
    Extends tbl (Function.update tbl' n (some (M n))) := by
  intro k v hk
  by_cases hkn : k = n
  · subst hkn
    rw [Function.update_self, hr k v hk]
  · rw [Function.update_of_ne hkn]
    exact h k v hk

theorem sumMG_spec (B : Nat) (sq : Nat → Nat) (t c1 M : Nat → α) (c2 : Nat → Nat → α) (fin : α → Option α)
    (hsq : ∀ n, 1 ≤ n → n ≤ B → 1 ≤ sq n ∧ sq n ≤ n)
    (hM : ∀ n, 1 ≤ n → n ≤ B → ∑ k ∈ Finset.Icc 1 n, c1 k * M (n / k) = t n)
    (hc2 : ∀ n, 1 ≤ n → n ≤ B → ∀ m, 1 ≤ m → c2 n m = ∑ k ∈ Finset.Ico (n / (m + 1) + 1) (n / m + 1), c1 k)
    (hfin : ∀ a, fin (c1 1 * a) = some a) :
    ∀ (fuel n : Nat) (tbl : Nat → Option α), n ≤ fuel → n ≤ B → Right M tbl →
    ∃ tbl', sumMG sq t c1 c2 fin fuel n tbl = some ((if n = 0 then 0 else M n), tbl') ∧ Right M tbl' ∧ Extends tbl tbl' ∧
      (1 ≤ n → tbl' n = some (M n)) := by
  intro fuel
  induction fuel with
  | zero =>
    intro n tbl hn _ hr
    have : n = 0 := by omega
    subst this
    exact ⟨tbl, by rw [sumMG]; rfl, hr, Extends.refl _, fun h => by omega⟩
  | succ fuel ih =>
    intro n tbl hf hB hr
    rw [sumMG.eq_def]
    by_cases hn : n < 1
    · have : n = 0 := by omega
      subst this
      exact ⟨tbl, by simp, hr, Extends.refl _, fun h => by omega⟩
    simp only [if_neg hn, if_neg (show ¬ n = 0 by omega)]
    cases ht : tbl n with
    | some v =>
      refine ⟨tbl, ?_, hr, Extends.refl _, fun _ => ?_⟩
      · simp only
        rw [hr n v ht]
      · rw [ht, hr n v ht]
    | none =>
      simp only
      obtain ⟨hq1, hqn⟩ := hsq n (by omega) hB
      set q := sq n with hq
      have hnq1 : 1 ≤ n / q := Nat.div_pos hqn hq1
      have hnqn : n / q ≤ n := Nat.div_le_self n q
      obtain ⟨⟨r1, t1⟩, e1, hr1, hR1, hE1⟩ := forUp_spec (body := fun k (st : α × (Nat → Option α)) => do
          let (v, tbl) ← sumMG sq t c1 c2 fin fuel (n / k) st.2
          some (st.1 - c1 k * v, tbl))
        (fun k st => st.1 = t n - ∑ i ∈ Finset.Ico 2 k, c1 i * M (n / i) ∧ Right M st.2 ∧ Extends tbl st.2)
        (a := 2) (n := n / q + 1) (s := (t n, tbl)) (by omega) ⟨by simp, hr, Extends.refl _⟩
        (fun k st hk hkq ⟨h1, h2, h3⟩ => by
          have hlt : n / k < n := Nat.div_lt_self (by omega) (by omega)
          have hpos : 1 ≤ n / k := Nat.div_pos (by omega) (by omega)
          obtain ⟨tbl', e', k1, k2, k3⟩ := ih (n / k) st.2 (by omega) (by omega) h2
          rw [if_neg (by omega)] at e'
          refine ⟨(st.1 - c1 k * M (n / k), tbl'), by rw [e']; rfl, ?_, k1, h3.trans k2⟩
          rw [Finset.sum_Ico_succ_top hk, h1]
          ring)
      obtain ⟨⟨r2, t2⟩, e2, hr2, hR2, hE2⟩ := forUp_spec (body := fun m (st : α × (Nat → Option α)) => do
          let (v, tbl) ← sumMG sq t c1 c2 fin fuel m st.2
          some (st.1 - c2 n m * v, tbl))
        (fun m st => st.1 = r1 - ∑ i ∈ Finset.Ico 1 m, c2 n i * M i ∧ Right M st.2 ∧ Extends tbl st.2)
        (a := 1) (n := q) (s := (r1, t1)) hq1 ⟨by simp, hR1, hE1⟩
        (fun m st hm hmq ⟨h1, h2, h3⟩ => by
          obtain ⟨tbl', e', k1, k2, k3⟩ := ih m st.2 (by omega) (by omega) h2
          rw [if_neg (by omega)] at e'
          refine ⟨(st.1 - c2 n m * M m, tbl'), by rw [e']; rfl, ?_, k1, h3.trans k2⟩
          rw [Finset.sum_Ico_succ_top hm, h1]
          ring)
      have hfinal : r2 = c1 1 * M n := by
        have hsum := hM n (by omega) hB
        rw [show Finset.Icc 1 n = Finset.Ico 1 (n + 1) by ext; simp,
          ← Finset.sum_Ico_consecutive _ (show 1 ≤ 2 by omega) (show 2 ≤ n + 1 by omega)] at hsum
        rw [← Finset.sum_Ico_consecutive _ (show 2 ≤ n / q + 1 by omega) (show n / q + 1 ≤ n + 1 by omega),
          show Finset.Ico (n / q + 1) (n + 1) = Finset.Ico (n / q + 1) (n / 1 + 1) by rw [Nat.div_one],
          ← group_sum (fun m => n / m) (fun k => n / k) c1 M (c2 n) (le_div_comm' n) (hc2 n (by omega) hB) q hq1] at hsum
        simp only [Finset.sum_Ico_succ_top (le_refl 1), Finset.Ico_self, Finset.sum_empty, Nat.div_one] at hsum
        simp only at hr1 hr2
        rw [hr2, hr1, ← hsum]
        ring
      refine ⟨Function.update t2 n (some (M n)), ?_, hR2.update n, hE2.update hr n, fun _ => Function.update_self ..⟩
      rw [if_neg (by omega), e1]
      simp only [Option.bind_eq_bind, Option.bind_some] at e2 ⊢
      rw [e2]
      simp only [Option.bind_some]
      rw [hfinal, hfin]
      rfl

/-- The sum of consecutive differences. -/
theorem telescope (s : Nat → α) (a b : Nat) (h : a ≤ b) : s b - s a = ∑ k ∈ Finset.Ico (a + 1) (b + 1), (s k - s (k - 1)) := by
  induction b, h using Nat.le_induction with
  | base => simp
  | succ b hb ih =>
    rw [Finset.sum_Ico_succ_top (by omega), ← ih, Nat.add_sub_cancel]
    ring

/-- **C57**: `sum_m` with `s`: whenever `t(i) = Sum[p(k) M(i/k), {k, 1, i}]` with `p(k) = s(k) - s(k-1)`, for
all `i` up to the bound `B`, division by `p(1)` undoes multiplication by `p(1)`, and the table only holds
values of `M`, the result is `M(n)`; the table keeps its entries, receives `M(n)` and still only holds values
of `M`.  The integer root may be any number between `1` and `n`. -/
theorem C57_sum_m [DecidableEq α] [Quo α] (B : Nat) (sq : Nat → Nat) (t s M : Nat → α)
    (hsq : ∀ n, 1 ≤ n → n ≤ B → 1 ≤ sq n ∧ sq n ≤ n)
    (hM : ∀ i, 1 ≤ i → i ≤ B → ∑ k ∈ Finset.Icc 1 i, (s k - s (k - 1)) * M (i / k) = t i)
    (hp : s 1 - s 0 ≠ 0) (hquo : ∀ a, Quo.quo ((s 1 - s 0) * a) (s 1 - s 0) = a)
    (fuel n : Nat) (tbl : Nat → Option α) (hf : n ≤ fuel) (hB : n ≤ B) (htbl : ∀ k v, tbl k = some v → v = M k) :
    ∃ tbl', sumM sq t s fuel n tbl = some ((if n = 0 then 0 else M n), tbl') ∧ (∀ k v, tbl' k = some v → v = M k) ∧
      (∀ k v, tbl k = some v → tbl' k = some v) ∧ (1 ≤ n → tbl' n = some (M n)) :=
  sumMG_spec B sq t (fun k => s k - s (k - 1)) M (fun n m => s (n / m) - s (n / (m + 1))) (fun r => cdiv r (s 1 - s 0)) hsq hM
    (fun n _ _ m hm => telescope s _ _ (Nat.div_le_div_left (by omega) hm))
    (fun a => by
      change cdiv ((s 1 - s 0) * a) (s 1 - s 0) = some a
      rw [cdiv, if_neg hp, hquo]) fuel n tbl hf hB htbl

/-- **C57**: `sum_m` without `s`, for `t(i) = Sum[M(i/k), {k, 1, i}]`. -/
theorem C57_sum_m1 (B : Nat) (sq : Nat → Nat) (t M : Nat → α)
    (hsq : ∀ n, 1 ≤ n → n ≤ B → 1 ≤ sq n ∧ sq n ≤ n)
    (hM : ∀ i, 1 ≤ i → i ≤ B → ∑ k ∈ Finset.Icc 1 i, M (i / k) = t i)
    (fuel n : Nat) (tbl : Nat → Option α) (hf : n ≤ fuel) (hB : n ≤ B) (htbl : ∀ k v, tbl k = some v → v = M k) :
    ∃ tbl', sumM1 sq t fuel n tbl = some ((if n = 0 then 0 else M n), tbl') ∧ (∀ k v, tbl' k = some v → v = M k) ∧
      (∀ k v, tbl k = some v → tbl' k = some v) ∧ (1 ≤ n → tbl' n = some (M n)) :=
  sumMG_spec B sq t (fun _ => 1) M (fun n m => ((n / m - n / (m + 1) : Nat) : α)) some hsq
    (fun i h1 h2 => by rw [← hM i h1 h2]; simp)
    (fun n _ _ m hm => by
      have := Nat.div_le_div_left (show m ≤ m + 1 by omega) hm (a := n)
      simp)
    (fun a => by rw [one_mul]) fuel n tbl hf hB htbl

/-- Counting the pairs of coprime numbers: `M = Sum[phi]` from `t(n) = n (n + 1) / 2`. -/
example : (sumM1 Nat.sqrt (fun n => ((n * (n + 1) / 2 : Nat) : Int)) 10 10 (fun _ => none)).map Prod.fst = some 32 := by decide +kernel

/-! ### C58: square-free numbers -/

/-- The number of square-free numbers up to `n`. -/
def sqfreeSpec (n : Nat) : Nat := ((Finset.Icc 1 n).filter Squarefree).card

/-- The square part is unique. -/
theorem square_part_unique (a b m n : Nat) (ha : 1 ≤ a) (hm : Squarefree m) (hn : Squarefree n) (h : a * a * m = b * b * n) : a = b := by
  have hm0 : m ≠ 0 := hm.ne_zero
  have hn0 : n ≠ 0 := hn.ne_zero
  have hg : 0 < Nat.gcd a b := Nat.gcd_pos_of_pos_left b ha
  obtain ⟨a', ha'⟩ := Nat.gcd_dvd_left a b
  obtain ⟨b', hb'⟩ := Nat.gcd_dvd_right a b
  have hcop : Nat.Coprime a' b' := by
    have := Nat.coprime_div_gcd_div_gcd hg
    rwa [show a / Nat.gcd a b = a' by conv_lhs => { lhs; rw [ha'] }; exact Nat.mul_div_cancel_left _ hg,
      show b / Nat.gcd a b = b' by conv_lhs => { lhs; rw [hb'] }; exact Nat.mul_div_cancel_left _ hg] at this
  set g := Nat.gcd a b with hgdef
  have h2 : a' * a' * m = b' * b' * n := by
    have : g * g * (a' * a' * m) = g * g * (b' * b' * n) := by
      calc g * g * (a' * a' * m) = (g * a') * (g * a') * m := by ring
        _ = (g * b') * (g * b') * n := by rw [← ha', ← hb', h]
        _ = _ := by ring
    exact Nat.eq_of_mul_eq_mul_left (Nat.mul_pos hg hg) this
  have hcc : Nat.Coprime (a' * a') (b' * b') := Nat.Coprime.mul_left (Nat.Coprime.mul_right hcop hcop) (Nat.Coprime.mul_right hcop hcop)
  have h3 : a' * a' ∣ n := hcc.dvd_of_dvd_mul_left ⟨m, h2.symm⟩
  have h4 : b' * b' ∣ m := hcc.symm.dvd_of_dvd_mul_left ⟨n, h2⟩
  have h5 : a' = 1 := Nat.isUnit_iff.mp (hn a' h3)
  have h6 : b' = 1 := Nat.isUnit_iff.mp (hm b' h4)
  rw [ha', hb', h5, h6]

theorem sqfreeSpec_sum (n : Nat) : ∑ k ∈ Finset.Icc 1 (Nat.sqrt n), sqfreeSpec (n / (k * k)) = n := by
  have hex : ∀ j, ∃ b, 1 ≤ j → 1 ≤ b ∧ ∃ a, Squarefree a ∧ b * b * a = j := by
    intro j
    obtain ⟨a, b, h1, h2⟩ := Nat.sq_mul_squarefree j
    refine ⟨b, fun hj => ⟨?_, a, h2, by rw [← h1]; ring⟩⟩
    by_contra hb
    have : b = 0 := by omega
    subst this
    simp at h1
    omega
  choose f hf using hex
  have hcard : (Finset.Icc 1 n).card = ∑ k ∈ Finset.Icc 1 (Nat.sqrt n), ((Finset.Icc 1 n).filter (fun j => f j = k)).card := by
    apply Finset.card_eq_sum_card_fiberwise
    intro j hj
    rw [Finset.mem_coe, Finset.mem_Icc] at hj
    obtain ⟨h1, a, h2, h3⟩ := hf j hj.1
    rw [Finset.mem_coe, Finset.mem_Icc]
    refine ⟨h1, Nat.le_sqrt.mpr ?_⟩
    have : f j * f j * 1 ≤ f j * f j * a := Nat.mul_le_mul_left _ (Nat.pos_of_ne_zero h2.ne_zero)
    omega
  rw [Nat.card_Icc, Nat.add_sub_cancel] at hcard
  conv_rhs => rw [hcard]
  apply Finset.sum_congr rfl
  intro k hk
  rw [Finset.mem_Icc] at hk
  have hkk : 0 < k * k := Nat.mul_pos hk.1 hk.1
  rw [sqfreeSpec]
  apply Finset.card_bij (fun a _ => k * k * a)
  · intro a ha
    rw [Finset.mem_filter, Finset.mem_Icc] at ha
    rw [Finset.mem_filter, Finset.mem_Icc]
    have h1 : 1 ≤ k * k * a := Nat.mul_pos hkk ha.1.1
    refine ⟨⟨h1, ?_⟩, ?_⟩
    · rw [mul_comm]; exact (Nat.le_div_iff_mul_le hkk).mp ha.1.2
    · obtain ⟨h2, b, h3, h4⟩ := hf (k * k * a) h1
      exact square_part_unique _ _ b a h2 h3 ha.2 h4
  · intro a _ b _ hab
    exact Nat.eq_of_mul_eq_mul_left hkk hab
  · intro j hj
    rw [Finset.mem_filter, Finset.mem_Icc] at hj
    obtain ⟨h2, a, h3, h4⟩ := hf j hj.1.1
    rw [hj.2] at h4
    refine ⟨a, ?_, h4⟩
    rw [Finset.mem_filter, Finset.mem_Icc]
    refine ⟨⟨Nat.pos_of_ne_zero h3.ne_zero, (Nat.le_div_iff_mul_le hkk).mpr ?_⟩, h3⟩
    rw [mul_comm, h4]; exact hj.1.2

theorem forDown_spec {σ : Type} {body : Nat → σ → Option σ} (P : Nat → σ → Prop) : ∀ (a : Nat) (s : σ), 1 ≤ a → P a s →
    (∀ k s, 2 ≤ k → k ≤ a → P k s → ∃ s', body k s = some s' ∧ P (k - 1) s') →
    ∃ s', forDown body a s = some s' ∧ P 1 s' := by
  intro a
  induction a with
  | zero => intro s h; omega
  | succ a ih =>
    intro s _ hP step
    rw [forDown]
    by_cases h1 : 1 < a + 1
    · obtain ⟨s', e, hP'⟩ := step (a + 1) s (by omega) (le_refl _) hP
      rw [if_pos h1, e]
      exact ih s' (by omega) hP' (fun k s h2 h3 => step k s h2 (by omega))
    · rw [if_neg h1]
      have : a = 0 := by omega
      subst this
      exact ⟨s, rfl, hP⟩

/-- **C58**: `sqfree_count` returns the number of square-free numbers up to `n` (as an element of the ring),
whatever right values the table holds at the start, and leaves only right values in it.  `sq` is the exact
integer square root; the cube root may be any number between `1` and `n`. -/
theorem C58_sqfree_count (B : Nat) (sq cb : Nat → Nat) (hsq : ∀ n, n ≤ B → sq n * sq n ≤ n ∧ n < (sq n + 1) * (sq n + 1))
    (hcb : ∀ n, 1 ≤ n → n ≤ B → 1 ≤ cb n ∧ cb n ≤ n) :
    ∀ (fuel n : Nat) (tbl : Nat → Option α), n ≤ fuel → n ≤ B → (∀ k v, tbl k = some v → v = (sqfreeSpec k : α)) →
    ∃ tbl', sqfreeCount sq cb fuel n tbl = some ((sqfreeSpec n : α), tbl') ∧
      (∀ k v, tbl' k = some v → v = (sqfreeSpec k : α)) ∧ (∀ k v, tbl k = some v → tbl' k = some v) ∧
      (1 ≤ n → tbl' n = some (sqfreeSpec n : α)) := by
  have hroot : ∀ n, n ≤ B → sq n = Nat.sqrt n := fun n hn => (Nat.eq_sqrt.mpr (hsq n hn))
  set M : Nat → α := fun k => (sqfreeSpec k : α) with hMdef
  intro fuel
  induction fuel with
  | zero =>
    intro n tbl hn _ hr
    have : n = 0 := by omega
    subst this
    exact ⟨tbl, by rw [sqfreeCount]; simp [sqfreeSpec], hr, fun _ _ h => h, fun h => by omega⟩
  | succ fuel ih =>
    intro n tbl hf hB hr
    have hr' : Right M tbl := hr
    rw [sqfreeCount.eq_def]
    by_cases hn : n < 1
    · have : n = 0 := by omega
      subst this
      exact ⟨tbl, by simp [sqfreeSpec], hr, fun _ _ h => h, fun h => by omega⟩
    simp only [if_neg hn]
    cases ht : tbl n with
    | some v =>
      refine ⟨tbl, ?_, hr, fun _ _ h => h, fun _ => ?_⟩
      · simp only
        rw [hr n v ht]
      · rw [ht, hr n v ht]
    | none =>
      simp only
      obtain ⟨hq1, hqn⟩ := hcb n (by omega) hB
      set q := cb n with hq
      have hnq1 : 1 ≤ n / q := Nat.div_pos hqn hq1
      have hnqn : n / q ≤ n := Nat.div_le_self n q
      have hsq1 : 1 ≤ sq (n / q) := by rw [hroot _ (by omega)]; exact Nat.sqrt_pos.mpr hnq1
      have hsqn : sq (n / q) ≤ sq n := by rw [hroot _ (by omega), hroot _ hB]; exact Nat.sqrt_le_sqrt hnqn
      have hadj : ∀ k m, 1 ≤ k → 1 ≤ m → (k ≤ sq (n / m) ↔ m ≤ n / (k * k)) := by
        intro k m hk hm
        have := Nat.div_le_self n m
        rw [hroot _ (by omega), Nat.le_sqrt, le_div_comm' n (k * k) m (Nat.mul_pos hk hk) hm]
      obtain ⟨⟨r1, t1⟩, e1, hr1, hR1, hE1⟩ := forUp_spec (body := fun m (st : α × (Nat → Option α)) => do
          let (v, tbl) ← sqfreeCount sq cb fuel m st.2
          some (st.1 - ((sq (n / m) - sq (n / (m + 1)) : Nat) : α) * v, tbl))
        (fun m st => st.1 = (n : α) - ∑ i ∈ Finset.Ico 1 m, ((sq (n / i) - sq (n / (i + 1)) : Nat) : α) * M i ∧ Right M st.2 ∧ Extends tbl st.2)
        (a := 1) (n := q) (s := ((n : α), tbl)) hq1 ⟨by simp, hr, Extends.refl _⟩
        (fun m st hm hmq ⟨h1, h2, h3⟩ => by
          obtain ⟨tbl', e', k1, k2, k3⟩ := ih m st.2 (by omega) (by omega) h2
          refine ⟨(st.1 - ((sq (n / m) - sq (n / (m + 1)) : Nat) : α) * M m, tbl'), by rw [e']; rfl, ?_, k1, h3.trans k2⟩
          rw [Finset.sum_Ico_succ_top hm, h1]
          ring)
      obtain ⟨⟨r2, t2⟩, e2, hr2, hR2, hE2⟩ := forDown_spec (body := fun k (st : α × (Nat → Option α)) => do
          let (v, tbl) ← sqfreeCount sq cb fuel (n / (k * k)) st.2
          some (st.1 - v, tbl))
        (fun k st => st.1 = r1 - ∑ i ∈ Finset.Ico (k + 1) (sq (n / q) + 1), M (n / (i * i)) ∧ Right M st.2 ∧ Extends tbl st.2)
        (sq (n / q)) (r1, t1) hsq1 ⟨by simp, hR1, hE1⟩
        (fun k st hk hkq ⟨h1, h2, h3⟩ => by
          have hkk : 1 < k * k := by nlinarith
          have hlt : n / (k * k) < n := Nat.div_lt_self (by omega) hkk
          obtain ⟨tbl', e', k1, k2, k3⟩ := ih (n / (k * k)) st.2 (by omega) (by omega) h2
          refine ⟨(st.1 - M (n / (k * k)), tbl'), by rw [e']; rfl, ?_, k1, h3.trans k2⟩
          rw [show k - 1 + 1 = k by omega, Finset.sum_eq_sum_Ico_succ_bot (by omega), h1]
          ring)
      have hfinal : r2 = M n := by
        have hsum : ∑ k ∈ Finset.Icc 1 (sq n), M (n / (k * k)) = (n : α) := by
          rw [hroot n hB, hMdef]
          have := congrArg (Nat.cast (R := α)) (sqfreeSpec_sum n)
          rw [Nat.cast_sum] at this
          exact this
        rw [show Finset.Icc 1 (sq n) = Finset.Ico 1 (sq n + 1) by ext; simp,
          ← Finset.sum_Ico_consecutive _ (show 1 ≤ 2 by omega) (show 2 ≤ sq n + 1 by omega),
          ← Finset.sum_Ico_consecutive _ (show 2 ≤ sq (n / q) + 1 by omega) (show sq (n / q) + 1 ≤ sq n + 1 by omega)] at hsum
        have hg := group_sum (fun m => sq (n / m)) (fun k => n / (k * k)) (fun _ => (1 : α)) M
          (fun m => ((sq (n / m) - sq (n / (m + 1)) : Nat) : α)) hadj (fun m hm => by simp) q hq1
        simp only [one_mul, Nat.div_one] at hg
        rw [← hg] at hsum
        simp only [Finset.sum_Ico_succ_top (le_refl 1), Finset.Ico_self, Finset.sum_empty, Nat.div_one, Nat.mul_one] at hsum
        simp only at hr1 hr2
        rw [hr2, hr1, ← hsum]
        ring
      refine ⟨Function.update t2 n (some (M n)), ?_, hR2.update n, hE2.update hr' n, fun _ => Function.update_self ..⟩
      rw [if_neg (by omega), e1]
      simp only [Option.bind_eq_bind, Option.bind_some] at e2 ⊢
      rw [e2]
      simp only [Option.bind_some]
      rw [hfinal]

example : (sqfreeCount (α := Int) Nat.sqrt (fun n => min n 2) 30 30 (fun _ => none)).map Prod.fst = some 19 := by decide +kernel

theorem clearSquares_spec {n N p2 : Nat} (hp : 1 ≤ p2) (hN : n ≤ N) : ∀ (fuel j : Nat) (s : List α) (g : Nat → α), 1 ≤ j → n ≤ fuel + p2 * j → Rep s N g →
    ∃ s', clearSquares n p2 fuel (p2 * j) s = some s' ∧ Rep s' N (fun i => if p2 ∣ i ∧ p2 * j ≤ i ∧ i < n then 0 else g i) := by
  intro fuel
  induction fuel with
  | zero =>
    intro j s g hj hf r
    exact ⟨s, by rw [clearSquares, if_neg (by omega)], r.congr (fun i _ => by rw [if_neg (by omega)])⟩
  | succ fuel ih =>
    intro j s g hj hf r
    have hm : p2 * (j + 1) = p2 * j + p2 := Nat.mul_succ p2 j
    by_cases hlt : p2 * j < n
    · obtain ⟨s', e, r'⟩ := ih (j + 1) (s.set (p2 * j) 0) (Function.update g (p2 * j) 0) (by omega) (by omega) (r.set _ _)
      refine ⟨s', ?_, r'.congr (fun i _ => ?_)⟩
      · rw [clearSquares, if_pos hlt, r.wr (by omega)]
        simp only [Option.bind_eq_bind, Option.bind_some]
        rw [← hm]
        exact e
      · by_cases hi : i = p2 * j
        · subst hi
          rw [if_neg (by omega), Function.update_self, if_pos ⟨Nat.dvd_mul_right _ _, le_refl _, hlt⟩]
        · rw [Function.update_of_ne hi]
          by_cases hc : p2 ∣ i ∧ p2 * j ≤ i ∧ i < n
          · rw [if_pos hc, if_pos]
            obtain ⟨⟨x, rfl⟩, c2, c3⟩ := hc
            have h1 : j ≤ x := Nat.le_of_mul_le_mul_left c2 (by omega)
            have h2 : x ≠ j := by rintro rfl; exact hi rfl
            exact ⟨Nat.dvd_mul_right _ _, Nat.mul_le_mul_left _ (by omega), c3⟩
          · rw [if_neg hc, if_neg (fun hc' => hc ⟨hc'.1, by omega, hc'.2.2⟩)]
    · exact ⟨s, by rw [clearSquares, if_neg hlt], r.congr (fun i _ => by rw [if_neg (by omega)])⟩

/-- **C58**: `sieve_sqfree_count`: given the primes up to the square root of `n`, the table is filled with
the numbers of square-free numbers up to each index. -/
theorem C58_sieve_sqfree_count (n N : Nat) (sqfc : List α) (g0 : Nat → α) (pa : List Nat) (m : Nat) (r : Rep sqfc N g0) (hN : n ≤ N) (hN1 : 1 ≤ N)
    (hm : m ≤ pa.length) (hprime : ∀ (i p : Nat), i < m → pa[i]? = some p → p.Prime)
    (hall : ∀ p : Nat, p.Prime → p * p < n → ∃ i < m, pa[i]? = some p) :
    ∃ s', sieveSqfree sqfc n pa m = some s' ∧
      Rep s' N (fun i => if i = 0 then 0 else if i < n then (sqfreeSpec i : α) else g0 i) := by
  obtain ⟨s1, e1, r1⟩ := fill_spec' (a := 1) (r.set 0 0) hN (fun _ => 1)
  obtain ⟨s2, e2, gs, r2, k0, k1⟩ := forUp_spec (body := fun i (s : List α) => do
      let p ← rd pa i
      clearSquares n (p * p) n (p * p) s)
    (fun k s => ∃ gs, Rep s N gs ∧ (∀ i, i = 0 ∨ n ≤ i → gs i = Function.update g0 0 0 i) ∧
      ∀ i, 1 ≤ i → i < n → ((∃ j < k, ∃ p, pa[j]? = some p ∧ p * p ∣ i) → gs i = 0) ∧ ((∀ j < k, ∀ p, pa[j]? = some p → ¬ p * p ∣ i) → gs i = 1))
    (a := 0) (n := m) (s := s1) (by omega)
    ⟨_, r1, fun i hi => by rw [if_neg (by omega)], fun i hi hin => ⟨fun ⟨j, hj, _⟩ => by omega, fun _ => by rw [if_pos ⟨hi, hin⟩]⟩⟩
    (fun k s _ hk ⟨gs, rs, k0, k1⟩ => by
      obtain ⟨p, hp⟩ : ∃ p, pa[k]? = some p := ⟨_, List.getElem?_eq_getElem (by omega)⟩
      have hpp := hprime k p hk hp
      have hp2 : 1 ≤ p * p := Nat.mul_pos hpp.pos hpp.pos
      obtain ⟨s', e, r'⟩ := clearSquares_spec hp2 hN n 1 s gs (le_refl _) (by omega) rs
      rw [Nat.mul_one] at e r'
      refine ⟨s', by rw [rd, hp]; exact e, _, r', fun i hi => ?_, fun i hi hin => ⟨?_, ?_⟩⟩
      · rw [if_neg (by omega), k0 i hi]
      · rintro ⟨j, hj, p', hp', hd⟩
        by_cases hc : p * p ∣ i ∧ p * p ≤ i ∧ i < n
        · rw [if_pos hc]
        · rw [if_neg hc]
          apply (k1 i hi hin).1
          by_cases hjk : j = k
          · subst hjk
            rw [hp] at hp'
            have := Option.some.inj hp'
            subst this
            exact absurd ⟨hd, Nat.le_of_dvd (by omega) hd, hin⟩ hc
          · exact ⟨j, by omega, p', hp', hd⟩
      · intro hno
        rw [if_neg (fun hc => hno k (by omega) p hp hc.1)]
        exact (k1 i hi hin).2 (fun j hj => hno j (by omega)))
  have hsf : ∀ i, 1 ≤ i → i < n → gs i = if Squarefree i then 1 else 0 := by
    intro i hi hin
    by_cases hs : Squarefree i
    · rw [if_pos hs]
      apply (k1 i hi hin).2
      intro j hj p hp hd
      have := hprime j p hj hp
      exact this.one_lt.ne' (Nat.isUnit_iff.mp (hs p hd))
    · rw [if_neg hs]
      rw [Nat.squarefree_iff_prime_squarefree] at hs
      push Not at hs
      obtain ⟨p, hp, hd⟩ := hs
      have := Nat.le_of_dvd (by omega) hd
      obtain ⟨j, hj, hpj⟩ := hall p hp (by omega)
      exact (k1 i hi hin).1 ⟨j, hj, p, hpj, hd⟩
  obtain ⟨s3, e3, r3⟩ := prefixSums_spec n N s2 gs r2 hN (by rw [k0 0 (Or.inl rfl), Function.update_self])
  refine ⟨s3, ?_, r3.congr (fun i _ => ?_)⟩
  · rw [sieveSqfree, r.wr (by omega)]
    simp only [Option.bind_eq_bind, Option.bind_some] at e2 ⊢
    rw [e1]
    simp only [Option.bind_some]
    rw [e2]
    exact e3
  · by_cases h0 : i = 0
    · subst h0
      rw [if_pos rfl]
      by_cases hn : 0 < n
      · rw [if_pos hn]; rfl
      · rw [if_neg hn, k0 0 (Or.inl rfl), Function.update_self]
    · rw [if_neg h0]
      by_cases hin : i < n
      · rw [if_pos hin, if_pos hin, prefixSum, sqfreeSpec, Finset.card_filter, Nat.cast_sum]
        apply Finset.sum_congr rfl
        intro e he
        rw [Finset.mem_Icc] at he
        rw [hsf e he.1 (by omega)]
        split <;> simp
      · rw [if_neg hin, if_neg hin, k0 i (by omega), Function.update_of_ne h0]

example : sieveSqfree (α := Int) (List.replicate 13 5) 13 [2, 3] 2 = some [0, 1, 2, 3, 3, 4, 5, 6, 6, 6, 7, 8, 8] := by decide +kernel

/-! ### C59: `coprime_sum` and `divisor_sigma` -/

theorem coprimeSum_spec (f : Nat → α) (sf : Nat → Nat → α) (hsf : ∀ n m, sf n m = ∑ k ∈ Finset.Icc 1 n, f (k * m)) :
    ∀ (L : List Nat) (n m : Nat), L.Nodup → (∀ p ∈ L, p.Prime) →
    coprimeSum sf L n m = some (∑ k ∈ (Finset.Icc 1 n).filter (fun k => ∀ p ∈ L, ¬ p ∣ k), f (k * m)) := by
  intro L
  induction L with
  | nil =>
    intro n m _ _
    rw [coprimeSum, hsf]
    simp
  | cons p L ih =>
    intro n m hnd hpr
    rw [List.nodup_cons] at hnd
    have hp := hpr p (by simp)
    rw [coprimeSum]
    by_cases hn : n = 0
    · rw [if_pos hn, hsf, hn]
      simp
    · rw [if_neg hn, if_neg hp.ne_zero, ih n m hnd.2 (fun q hq => hpr q (by simp [hq])), ih (n / p) (m * p) hnd.2 (fun q hq => hpr q (by simp [hq]))]
      simp only [Option.bind_eq_bind, Option.bind_some]
      congr 1
      rw [sub_eq_iff_eq_add]
      have hsplit : (Finset.Icc 1 n).filter (fun k => ∀ q ∈ L, ¬ q ∣ k) =
          (Finset.Icc 1 n).filter (fun k => ∀ q ∈ p :: L, ¬ q ∣ k) ∪ (Finset.Icc 1 n).filter (fun k => p ∣ k ∧ ∀ q ∈ L, ¬ q ∣ k) := by
        ext k
        simp only [Finset.mem_union, Finset.mem_filter, List.mem_cons, forall_eq_or_imp]
        tauto
      rw [hsplit, Finset.sum_union (by
        rw [Finset.disjoint_left]
        intro k h1 h2
        rw [Finset.mem_filter] at h1 h2
        exact h1.2 p (by simp) h2.2.1)]
      congr 1
      symm
      apply Finset.sum_bij (fun k _ => k * p)
      · intro k hk
        rw [Finset.mem_filter, Finset.mem_Icc] at hk
        rw [Finset.mem_filter, Finset.mem_Icc]
        refine ⟨⟨Nat.mul_pos hk.1.1 hp.pos, (Nat.le_div_iff_mul_le hp.pos).mp hk.1.2⟩, Nat.dvd_mul_left p k, fun q hq hd => ?_⟩
        have hqp := hpr q (by simp [hq])
        rcases (hqp.dvd_mul).mp hd with h | h
        · exact hk.2 q hq h
        · have := (Nat.prime_dvd_prime_iff_eq hqp hp).mp h
          subst this
          exact hnd.1 hq
      · intro a _ b _ hab
        exact Nat.eq_of_mul_eq_mul_right hp.pos hab
      · intro j hj
        rw [Finset.mem_filter, Finset.mem_Icc] at hj
        obtain ⟨⟨h1, h2⟩, ⟨k, rfl⟩, h4⟩ := hj
        refine ⟨k, ?_, mul_comm k p⟩
        rw [Finset.mem_filter, Finset.mem_Icc]
        refine ⟨⟨?_, (Nat.le_div_iff_mul_le hp.pos).mpr (by rw [mul_comm]; exact h2)⟩, fun q hq hd => h4 q hq (Dvd.dvd.mul_left hd p)⟩
        exact Nat.pos_of_mul_pos_left h1
      · intro k _
        congr 1
        ring

/-- **C59**: `coprime_sum` over distinct primes is the sum of `f(k)` over the `k` up to `n` that are coprime
to the product of these primes. -/
theorem C59_coprime_sum (f : Nat → α) (sf : Nat → Nat → α) (hsf : ∀ n m, sf n m = ∑ k ∈ Finset.Icc 1 n, f (k * m))
    (L : List Nat) (n : Nat) (hnd : L.Nodup) (hpr : ∀ p ∈ L, p.Prime) :
    coprimeSum sf L n 1 = some (∑ k ∈ (Finset.Icc 1 n).filter (fun k => Nat.Coprime L.prod k), f k) := by
  rw [coprimeSum_spec f sf hsf L n 1 hnd hpr]
  congr 1
  simp only [Nat.mul_one]
  apply Finset.sum_congr _ (fun _ _ => rfl)
  ext k
  rw [Finset.mem_filter, Finset.mem_filter]
  refine and_congr_right (fun _ => ?_)
  rw [Nat.coprime_list_prod_left_iff]
  exact forall_congr' (fun p => forall_congr' (fun hp => ((hpr p hp).coprime_iff_not_dvd).symm))

example : coprimeSum (fun n m => (m * (n * (n + 1) / 2) : Int)) [2, 5] 10 1 = some (1 + 3 + 7 + 9) := by decide +kernel

/-- The convolution of multiplicative functions is multiplicative. -/
theorem conv_mult (n : Nat) (f g : Nat → α) (hf : MultBelow n f) (hg : MultBelow n g) : MultBelow n (conv f g) := by
  by_cases h1n : 1 < n
  · have hm := (ofPow_mult (fun p k => f (p ^ k))).mul (ofPow_mult (fun p k => g (p ^ k)))
    have heq : ∀ k, k < n → conv f g k = (ofPow (fun p k => f (p ^ k)) * ofPow (fun p k => g (p ^ k))) k := by
      intro k hk
      rw [mul_eq_conv]
      exact conv_congr _ _ _ _ n k hk (fun i h1 h2 => (ofPow_eq n f hf i h1 h2).symm) (fun i h1 h2 => (ofPow_eq n g hg i h1 h2).symm)
    refine ⟨by rw [heq 1 h1n]; exact hm.map_one, fun a b ha hb hab hc => ?_⟩
    have h3 : a ≤ a * b := Nat.le_mul_of_pos_right a hb
    have h4 : b ≤ a * b := Nat.le_mul_of_pos_left b ha
    rw [heq _ hab, heq a (by omega), heq b (by omega)]
    exact hm.map_mul_of_coprime hc
  · refine ⟨by rw [conv_one, hf.1, hg.1, mul_one], fun a b ha hb hab _ => ?_⟩
    have := Nat.mul_pos ha hb
    omega

/-- **C59**: `divisor_sigma` fills the table with the sums of the `k`-th powers of the divisors. -/
theorem C59_divisor_sigma (lim n N : Nat) (ds : List α) (g0 : Nat → α) (k : Nat) (pa : List Nat) (m : Nat) (T : PrimeTable pa m n)
    (r : Rep ds N g0) (hN : n ≤ N) (hN1 : 1 ≤ N) (hlim : 2 * n ≤ lim + 1) (hn : n ≤ 2 ^ 31) :
    ∃ h', divisorSigma lim ds k n pa m = some h' ∧
      Rep h' N (fun i => if 1 ≤ i ∧ i < n then ((∑ d ∈ i.divisors, d ^ k : Nat) : α) else g0 i) := by
  have key : ∀ f : Nat → α, (∀ i, f i = (i : α) ^ k) → ∃ h', convolutionMultiplicative lim ds f (fun _ => 1) n pa m = some h' ∧
      Rep h' N (fun i => if 1 ≤ i ∧ i < n then ((∑ d ∈ i.divisors, d ^ k : Nat) : α) else g0 i) := by
    intro f hf
    have hfm : MultBelow n f := ⟨by rw [hf]; simp, fun a b _ _ _ _ => by rw [hf, hf, hf, Nat.cast_mul, mul_pow]⟩
    obtain ⟨h', e, r'⟩ := C52_convolution_multiplicative lim n N ds g0 f (fun _ => 1) pa m T r hN hN1 hlim hn
      (conv_mult n f _ hfm ⟨rfl, fun _ _ _ _ _ _ => by simp⟩)
    refine ⟨h', e, r'.congr (fun i _ => ?_)⟩
    have : conv f (fun _ => 1) i = ((∑ d ∈ i.divisors, d ^ k : Nat) : α) := by
      rw [conv, Nat.cast_sum]
      apply Finset.sum_congr rfl
      intro d _
      rw [hf, mul_one, Nat.cast_pow]
    rw [this]
  rw [divisorSigma]
  by_cases h0 : k = 0
  · rw [if_pos h0]
    exact key _ (fun i => by rw [h0, pow_zero])
  · rw [if_neg h0]
    by_cases h1 : k = 1
    · rw [if_pos h1]
      exact key _ (fun i => by rw [h1, pow_one])
    · rw [if_neg h1]
      by_cases h2 : k = 2
      · rw [if_pos h2]
        exact key _ (fun i => by rw [h2]; ring)
      · rw [if_neg h2]
        exact key _ (fun i => rfl)

example : divisorSigma (α := Int) 100 (List.replicate 7 0) 1 7 [2, 3, 5] 3 = some [0, 1, 3, 4, 7, 6, 12] := by decide +kernel

end Altruct.Dirichlet
