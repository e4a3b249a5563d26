/-
C52: the sieves of `M` from `t(n) = Sum[p(k) M(n/k), {k, 1, n}]`.
-/
import Verif.Dirichlet.MultProps

namespace Altruct.Dirichlet

open Altruct.Polynom (Quo cdiv)

variable {α : Type} [CommRing α]

/-- The sum of `m` over `1, ..., x`. -/
def prefixSum (m : Nat → α) (x : Nat) : α := ∑ e ∈ Finset.Icc 1 x, m e

theorem prefixSum_zero (m : Nat → α) : prefixSum m 0 = 0 := rfl

theorem prefixSum_succ (m : Nat → α) (x : Nat) : prefixSum m (x + 1) = prefixSum m x + m (x + 1) := by
  rw [prefixSum, Finset.sum_Icc_succ_top (by omega), prefixSum]

/-- The sum over all products below. -/
theorem hyperbola (p m : Nat → α) (i : Nat) :
    ∑ k ∈ Finset.Icc 1 i, p k * prefixSum m (i / k) = ∑ j ∈ Finset.Icc 1 i, conv p m j := by
  induction i with
  | zero => rfl
  | succ i ih =>
    have h1 : ∑ k ∈ Finset.Icc 1 (i + 1), p k * prefixSum m ((i + 1) / k) =
        ∑ k ∈ Finset.Icc 1 (i + 1), (p k * prefixSum m (i / k) + if k ∣ i + 1 then p k * m ((i + 1) / k) else 0) := by
      apply Finset.sum_congr rfl
      intro k hk
      rw [Nat.succ_div]
      by_cases hd : k ∣ i + 1
      · rw [if_pos hd, if_pos hd, prefixSum_succ, mul_add]
      · rw [if_neg hd, if_neg hd, add_zero, add_zero]
    rw [h1, Finset.sum_add_distrib, Finset.sum_Icc_succ_top (by omega) (fun k => p k * prefixSum m (i / k)),
      Nat.div_eq_of_lt (Nat.lt_succ_self i), prefixSum_zero, mul_zero, add_zero, ih, Finset.sum_Icc_succ_top (by omega) (fun j => conv p m j)]
    congr 1
    rw [conv, ← Finset.sum_filter]
    apply Finset.sum_congr _ (fun _ _ => rfl)
    ext d
    rw [Finset.mem_filter, Finset.mem_Icc, Nat.mem_divisors]
    constructor
    · rintro ⟨_, h⟩; exact ⟨h, by omega⟩
    · rintro ⟨h, _⟩
      exact ⟨⟨Nat.pos_of_dvd_of_pos h (by omega), Nat.le_of_dvd (by omega) h⟩, h⟩

/-- The backward difference of `t`, with `t(0)` taken as zero. -/
def diff (t : Nat → α) (i : Nat) : α := if i = 1 then t i else t i - t (i - 1)

theorem sum_diff (t : Nat → α) (i : Nat) (hi : 1 ≤ i) : ∑ j ∈ Finset.Icc 1 i, diff t j = t i := by
  induction i with
  | zero => omega
  | succ i ih =>
    rw [Finset.sum_Icc_succ_top (by omega)]
    by_cases h0 : i = 0
    · subst h0; simp [diff]
    · rw [ih (by omega), diff, if_neg (by omega)]
      rw [Nat.add_sub_cancel]; ring

/-- A function as an arithmetic function. -/
def toAF (f : Nat → α) : ArithmeticFunction α := ⟨fun i => if i = 0 then 0 else f i, by simp⟩

theorem toAF_conv (f g : Nat → α) : toAF (conv f g) = toAF f * toAF g := by
  ext k
  rw [mul_eq_conv]
  change (if k = 0 then 0 else conv f g k) = _
  by_cases h0 : k = 0
  · subst h0; simp [conv]
  · rw [if_neg h0]
    apply conv_congr f (toAF f) g (toAF g) (k + 1) k (by omega)
    · intro i h1 _; exact (if_neg (by omega)).symm
    · intro i h1 _; exact (if_neg (by omega)).symm

theorem toAF_inj {f g : Nat → α} (h : toAF f = toAF g) (k : Nat) (hk : 1 ≤ k) : f k = g k := by
  have := congrArg (fun F : ArithmeticFunction α => F k) h
  change (if k = 0 then 0 else f k) = (if k = 0 then 0 else g k) at this
  rwa [if_neg (by omega), if_neg (by omega)] at this

theorem conv_comm (f g : Nat → α) (k : Nat) (hk : 1 ≤ k) : conv f g k = conv g f k :=
  toAF_inj (by rw [toAF_conv, toAF_conv, mul_comm]) k hk

theorem conv_assoc (f g h : Nat → α) (k : Nat) (hk : 1 ≤ k) : conv (conv f g) h k = conv f (conv g h) k :=
  toAF_inj (by rw [toAF_conv, toAF_conv, toAF_conv, toAF_conv, mul_assoc]) k hk

theorem conv_unit (f : Nat → α) (k : Nat) (hk : 1 ≤ k) : conv unit f k = f k := by
  rw [conv, Finset.sum_eq_single 1]
  · rw [unit, if_pos rfl, one_mul, Nat.div_one]
  · intro d _ hd; rw [unit, if_neg hd, zero_mul]
  · intro h; exact absurd (Nat.mem_divisors.mpr ⟨Nat.one_dvd k, by omega⟩) h

/-- If `p * m` is the difference of `t` below `n`, the prefix sums `M` of `m` satisfy
`t(i) = Sum[p(k) M(i/k), {k, 1, i}]` below `n`. -/
theorem sieve_eq (n : Nat) (t p m : Nat → α) (h : ∀ k, 1 ≤ k → k < n → conv p m k = diff t k) (i : Nat) (hi : 1 ≤ i) (hin : i < n) :
    ∑ k ∈ Finset.Icc 1 i, p k * prefixSum m (i / k) = t i := by
  rw [hyperbola, ← sum_diff t i hi]
  apply Finset.sum_congr rfl
  intro j hj
  rw [Finset.mem_Icc] at hj
  exact h j hj.1 (by omega)

/-! ### `sieve_m` -/

/-- The state of the sieve before step `d`. -/
def sieveState (t p : Nat → α) (ip : α) (g0 : Nat → α) (n d i : Nat) : α :=
  if 1 ≤ i ∧ i < n then
    (if i < d then prefixSum (quotF (diff t) p ip) i else diff t i - part (quotF (diff t) p ip) p d i)
  else g0 i

theorem sieveState_mid (t p : Nat → α) (ip : α) (g0 : Nat → α) (n N d : Nat) (hd : 1 ≤ d) (hdn : d < n) (hN : n ≤ N)
    {lim : Nat} (hlim : 2 * n ≤ lim + 1) {M M1 : List α}
    (r1 : Rep M1 N (Function.update (sieveState t p ip g0 n d) d (quotF (diff t) p ip d)))
    (hM : M = M1) :
    ∃ M2, forStep lim (divBody p d) n d n 2 (d * 2) M = some M2 ∧
      ∃ M3, (if 1 < d then addAt M2 d (d - 1) else some M2) = some M3 ∧ Rep M3 N (sieveState t p ip g0 n (d + 1)) := by
  subst hM
  obtain ⟨M2, e2, r2⟩ := divInner_spec (lim := lim) (n := n) p r1 hN hd hdn hlim
  refine ⟨M2, e2, ?_⟩
  rw [Function.update_self] at r2
  set q := quotF (diff t) p ip with hq
  have after : ∀ i, i ≠ d → (if d ∣ i ∧ d < i ∧ i < n then
      Function.update (sieveState t p ip g0 n d) d (q d) i - p (i / d) * q d
      else Function.update (sieveState t p ip g0 n d) d (q d) i) = sieveState t p ip g0 n (d + 1) i := by
    intro i hid
    rw [Function.update_of_ne hid, sieveState, sieveState, ← hq]
    by_cases hi : 1 ≤ i ∧ i < n
    · simp only [if_pos hi]
      by_cases hlt : i < d
      · simp only [if_neg (show ¬ (d ∣ i ∧ d < i ∧ i < n) by omega), if_pos hlt, if_pos (show i < d + 1 by omega)]
      · simp only [if_neg hlt, if_neg (show ¬ i < d + 1 by omega), part_succ]
        by_cases hdi : d ∣ i
        · simp only [if_pos (show d ∣ i ∧ d < i ∧ i < n from ⟨hdi, by omega, hi.2⟩), if_pos (show 1 ≤ d ∧ d ∣ i from ⟨hd, hdi⟩)]; ring
        · simp only [if_neg (show ¬ (d ∣ i ∧ d < i ∧ i < n) from fun hc => hdi hc.1),
            if_neg (show ¬ (1 ≤ d ∧ d ∣ i) from fun hc => hdi hc.2)]; ring
    · simp only [if_neg hi]
      rw [if_neg]
      rintro ⟨_, c2, c3⟩
      omega
  have hd1 : sieveState t p ip g0 n (d + 1) d = prefixSum q d := by
    rw [sieveState, if_pos ⟨hd, hdn⟩, if_pos (by omega)]
  by_cases h1 : 1 < d
  · rw [if_pos h1]
    obtain ⟨M3, e3, r3⟩ := addAt_spec r2 (by omega : d < N) (by omega : d - 1 < N)
    refine ⟨M3, e3, r3.congr (fun i _ => ?_)⟩
    by_cases hid : i = d
    · subst hid
      rw [Function.update_self, hd1, if_neg (by omega), Function.update_self, if_neg (by omega), Function.update_of_ne (by omega),
        sieveState, if_pos ⟨by omega, by omega⟩, if_pos (by omega)]
      obtain ⟨x, rfl⟩ : ∃ x, i = x + 1 := ⟨i - 1, by omega⟩
      rw [Nat.add_sub_cancel, prefixSum_succ]
      exact add_comm _ _
    · rw [Function.update_of_ne hid]
      exact after i hid
  · rw [if_neg h1]
    refine ⟨M2, rfl, r2.congr (fun i _ => ?_)⟩
    by_cases hid : i = d
    · subst hid
      have : i = 1 := by omega
      subst this
      rw [if_neg (by omega), Function.update_self, hd1]
      simp [prefixSum]
    · exact after i hid

theorem sieve_init {n N : Nat} {M : List α} {g0 : Nat → α} (t : Nat → α) (r : Rep M N g0) (hn : 2 ≤ n) (hN : n ≤ N) :
    ∃ M1 M2, wr M 1 (t 1) = some M1 ∧ fill M1 (fun i => t i - t (i - 1)) 2 n = some M2 ∧
      Rep M2 N (fun i => if 1 ≤ i ∧ i < n then diff t i else g0 i) := by
  obtain ⟨M2, e2, r2⟩ := fill_spec' (a := 2) (r.set 1 (t 1)) hN (fun i => t i - t (i - 1))
  refine ⟨_, M2, r.wr (by omega) _, e2, r2.congr (fun i _ => ?_)⟩
  by_cases h1 : i = 1
  · subst h1
    rw [if_neg (by omega), Function.update_self, if_pos ⟨le_refl _, by omega⟩, diff, if_pos rfl]
  · rw [Function.update_of_ne h1]
    by_cases hi : 2 ≤ i ∧ i < n
    · rw [if_pos hi, if_pos ⟨by omega, hi.2⟩, diff, if_neg h1]
    · rw [if_neg hi, if_neg (by omega)]

/-- **C52**: `sieve_m` with `p`: if `1 / p(1)` is an inverse of `p(1)`, the table is filled with the `M` such
that `t(i) = Sum[p(k) M(i/k), {k, 1, i}]` for all `1 <= i < n`. -/
theorem C52_sieve_m [DecidableEq α] [Quo α] (lim n N : Nat) (M : List α) (g0 t p : Nat → α) (r : Rep M N g0) (hn : 2 ≤ n) (hN : n ≤ N)
    (hlim : 2 * n ≤ lim + 1) (hp : p 1 ≠ 0) (hinv : Quo.quo 1 (p 1) * p 1 = 1) :
    ∃ M' G, sieveM lim M t p n = some M' ∧ Rep M' N G ∧
      (∀ i, 1 ≤ i → i < n → ∑ k ∈ Finset.Icc 1 i, p k * G (i / k) = t i) ∧ ∀ i, i = 0 ∨ n ≤ i → G i = g0 i := by
  obtain ⟨M1, M2, e1, e2, r2⟩ := sieve_init t r hn hN
  generalize hig : Quo.quo 1 (p 1) = ip at hinv
  obtain ⟨M3, e3, r3⟩ := forUp_spec (body := fun d (M : List α) => do
      let M ← mulAt M d ip
      if lim < d * 2 then none else do
      let M ← forStep lim (divBody p d) n d n 2 (d * 2) M
      if 1 < d then addAt M d (d - 1) else some M)
    (fun d M => Rep M N (sieveState t p ip g0 n d)) (a := 1) (n := n) (s := M2) (by omega)
    (r2.congr (fun i _ => by
      rw [sieveState]
      by_cases hi : 1 ≤ i ∧ i < n
      · rw [if_pos hi, if_pos hi, if_neg (by omega)]; simp [part]
      · rw [if_neg hi, if_neg hi]))
    (fun d s hd hdn rs => by
      obtain ⟨s1, k1, rs1⟩ := mulAt_spec rs (by omega : d < N) ip
      have hval : sieveState t p ip g0 n d d * ip = quotF (diff t) p ip d := by
        rw [sieveState, if_pos ⟨hd, hdn⟩, if_neg (by omega), ← quotF_eq]
      rw [hval] at rs1
      obtain ⟨s2, k2, s3, k3, rs3⟩ := sieveState_mid t p ip g0 n N d hd hdn hN hlim rs1 rfl
      refine ⟨s3, ?_, rs3⟩
      rw [k1]
      simp only [Option.bind_eq_bind, Option.bind_some]
      rw [if_neg (by omega), k2]
      exact k3)
  set q := quotF (diff t) p ip with hq
  have hqc : ∀ k, 1 ≤ k → k < n → conv p q k = diff t k := fun k hk _ => by rw [conv_comm p q k hk]; exact conv_quotF (diff t) p ip hinv k hk
  refine ⟨M3, sieveState t p ip g0 n n, ?_, r3, fun i hi hin => ?_, fun i hi => by rw [sieveState, if_neg (by omega)]⟩
  · rw [sieveM, r.rd (by omega), cdiv, if_neg hp, hig]
    simp only [Option.bind_eq_bind, Option.bind_some] at e3 ⊢
    rw [e1]
    simp only [Option.bind_some]
    rw [e2]
    exact e3
  · rw [← sieve_eq n t p q hqc i hi hin]
    apply Finset.sum_congr rfl
    intro k hk
    rw [Finset.mem_Icc] at hk
    have h1 := Nat.div_pos hk.2 hk.1
    have h2 := Nat.div_le_self i k
    rw [sieveState, if_pos (by omega), if_pos (by omega)]

/-- **C52**: `sieve_m` without `p`: `t(i) = Sum[M(i/k), {k, 1, i}]`. -/
theorem C52_sieve_m1 (lim n N : Nat) (M : List α) (g0 t : Nat → α) (r : Rep M N g0) (hn : 2 ≤ n) (hN : n ≤ N)
    (hlim : 2 * n ≤ lim + 1) :
    ∃ M' G, sieveM1 lim M t n = some M' ∧ Rep M' N G ∧
      (∀ i, 1 ≤ i → i < n → ∑ k ∈ Finset.Icc 1 i, G (i / k) = t i) ∧ ∀ i, i = 0 ∨ n ≤ i → G i = g0 i := by
  obtain ⟨M1, M2, e1, e2, r2⟩ := sieve_init t r hn hN
  have hbody : ∀ d, (fun (_ i : Nat) (M : List α) => do
      let x ← rd M i
      let y ← rd M d
      wr M i (x - y)) = divBody (fun _ => 1) d := by
    intro d
    funext j i M
    rw [divBody]
    simp only [one_mul]
  obtain ⟨M3, e3, r3⟩ := forUp_spec (body := fun d (M : List α) => do
      if lim < d * 2 then none else do
      let M ← forStep lim (fun _ i M => do
        let x ← rd M i
        let y ← rd M d
        wr M i (x - y)) n d n 2 (d * 2) M
      if 1 < d then addAt M d (d - 1) else some M)
    (fun d M => Rep M N (sieveState t (fun _ => 1) 1 g0 n d)) (a := 1) (n := n) (s := M2) (by omega)
    (r2.congr (fun i _ => by
      rw [sieveState]
      by_cases hi : 1 ≤ i ∧ i < n
      · rw [if_pos hi, if_pos hi, if_neg (by omega)]; simp [part]
      · rw [if_neg hi, if_neg hi]))
    (fun d s hd hdn rs => by
      have hval : sieveState t (fun _ => 1) 1 g0 n d d = quotF (diff t) (fun _ => 1) 1 d := by
        rw [sieveState, if_pos ⟨hd, hdn⟩, if_neg (by omega), quotF_eq, mul_one]
      have rs1 : Rep s N (Function.update (sieveState t (fun _ => 1) 1 g0 n d) d (quotF (diff t) (fun _ => 1) 1 d)) := by
        rw [← hval, Function.update_eq_self]
        exact rs
      obtain ⟨s2, k2, s3, k3, rs3⟩ := sieveState_mid t (fun _ => 1) 1 g0 n N d hd hdn hN hlim rs1 rfl
      refine ⟨s3, ?_, rs3⟩
      rw [if_neg (by omega), hbody, k2]
      exact k3)
  set q := quotF (diff t) (fun _ => (1 : α)) 1 with hq
  have hqc : ∀ k, 1 ≤ k → k < n → conv (fun _ => 1) q k = diff t k := fun k hk _ => by
    rw [conv_comm _ q k hk]; exact conv_quotF (diff t) (fun _ => 1) 1 (by simp) k hk
  refine ⟨M3, sieveState t (fun _ => 1) 1 g0 n n, ?_, r3, fun i hi hin => ?_, fun i hi => by rw [sieveState, if_neg (by omega)]⟩
  · rw [sieveM1, r.rd (by omega)]
    simp only [Option.bind_eq_bind, Option.bind_some] at e3 ⊢
    rw [e1]
    simp only [Option.bind_some]
    rw [e2]
    exact e3
  · rw [← sieve_eq n t (fun _ => 1) q hqc i hi hin]
    apply Finset.sum_congr rfl
    intro k hk
    rw [Finset.mem_Icc] at hk
    have h1 := Nat.div_pos hk.2 hk.1
    have h2 := Nat.div_le_self i k
    rw [sieveState, if_pos (by omega), if_pos (by omega), one_mul]

/-! ### `sieve_m_multiplicative` -/

theorem prefixSums_spec (n N : Nat) (M : List α) (g : Nat → α) (r : Rep M N g) (hN : n ≤ N) (h0 : g 0 = 0) :
    ∃ M', prefixSums M n = some M' ∧ Rep M' N (fun i => if i < n then prefixSum g i else g i) := by
  by_cases hn : 1 ≤ n
  · obtain ⟨s, e, rs⟩ := forUp_spec (body := fun i (M : List α) => addAt M i (i - 1))
      (fun k s => Rep s N (fun i => if i < k then prefixSum g i else g i)) (a := 1) (n := n) (s := M) hn
      (r.congr (fun i _ => by
        by_cases hi : i < 1
        · have : i = 0 := by omega
          subst this
          rw [if_pos hi, h0, prefixSum_zero]
        · rw [if_neg hi]))
      (fun k s hk hkn rs => by
        obtain ⟨s', e', r'⟩ := addAt_spec rs (by omega : k < N) (by omega : k - 1 < N)
        refine ⟨s', e', r'.congr (fun i _ => ?_)⟩
        by_cases hik : i = k
        · subst hik
          rw [Function.update_self, if_neg (by omega), if_pos (by omega), if_pos (by omega)]
          obtain ⟨x, rfl⟩ : ∃ x, i = x + 1 := ⟨i - 1, by omega⟩
          rw [Nat.add_sub_cancel, prefixSum_succ]
          exact add_comm _ _
        · rw [Function.update_of_ne hik]
          by_cases hi : i < k
          · rw [if_pos hi, if_pos (by omega)]
          · rw [if_neg hi, if_neg (by omega)])
    exact ⟨s, e, rs⟩
  · exact ⟨M, by rw [prefixSums, forUp, show n - 1 = 0 by omega]; rfl, r.congr (fun i _ => by rw [if_neg (by omega)])⟩

/-- **C52**: `sieve_m_multiplicative_inv`: if `p_inv` is the inverse of `p`, the wanted `M` has a multiplicative
difference, and `M[0]` is zero, the table is filled with the `M` such that
`t(i) = Sum[p(k) M(i/k), {k, 1, i}]` for all `1 <= i < n`. -/
theorem C52_sieve_m_multiplicative_inv (lim n N : Nat) (M : List α) (g0 t p pinv : Nat → α) (pa : List Nat) (m : Nat) (T : PrimeTable pa m n)
    (r : Rep M N g0) (hN : n ≤ N) (hN1 : 1 ≤ N) (hlim : 2 * n ≤ lim + 1) (hn : n ≤ 2 ^ 31) (h0 : g0 0 = 0)
    (hinv : ∀ k, 1 ≤ k → k < n → conv p pinv k = if k = 1 then 1 else 0)
    (hM : MultBelow n (conv pinv (diff t))) :
    ∃ M' G, sieveMMultiplicativeInv lim M t pinv n pa m = some M' ∧ Rep M' N G ∧
      (∀ i, 1 ≤ i → i < n → ∑ k ∈ Finset.Icc 1 i, p k * G (i / k) = t i) ∧ ∀ i, i = 0 ∨ n ≤ i → G i = g0 i := by
  obtain ⟨M1, e1, r1⟩ := C52_convolution_multiplicative lim n N M g0 pinv (diff t) pa m T r hN hN1 hlim hn hM
  obtain ⟨M2, e2, r2⟩ := prefixSums_spec n N M1 _ r1 hN (by rw [if_neg (by omega), h0])
  refine ⟨M2, _, ?_, r2, fun i hi hin => ?_, fun i hi => ?_⟩
  · rw [sieveMMultiplicativeInv]
    change (convolutionMultiplicative lim M pinv (diff t) n pa m).bind _ = _
    rw [e1]
    exact e2
  · have hc : ∀ k, 1 ≤ k → k < n → conv p (conv pinv (diff t)) k = diff t k := by
      intro k hk hkn
      rw [← conv_assoc p pinv (diff t) k hk,
        conv_congr (conv p pinv) unit (diff t) (diff t) n k hkn (fun i h1 h2 => hinv i h1 h2) (fun _ _ _ => rfl), conv_unit _ k hk]
    rw [← sieve_eq n t p _ hc i hi hin]
    apply Finset.sum_congr rfl
    intro k hk
    rw [Finset.mem_Icc] at hk
    have h2 := Nat.div_le_self i k
    rw [if_pos (by omega)]
    congr 1
    rw [prefixSum, prefixSum]
    apply Finset.sum_congr rfl
    intro e he
    rw [Finset.mem_Icc] at he
    rw [if_pos (by omega)]
  · by_cases hin : i < n
    · have : i = 0 := by omega
      subst this
      rw [if_pos hin, prefixSum_zero, h0]
    · rw [if_neg hin, if_neg (by omega)]

/-- **C52**: `sieve_m_multiplicative`: if `p` is multiplicative, `M[0]` is zero and `H` is a multiplicative
function whose prefix sums satisfy the equation of `t`, the table is filled with these prefix sums. -/
theorem C52_sieve_m_multiplicative (lim n N : Nat) (M : List α) (g0 t p H : Nat → α) (pa : List Nat) (m : Nat) (T : PrimeTable pa m n)
    (r : Rep M N g0) (hN : n ≤ N) (h1n : 2 ≤ n) (hlim : 2 * n ≤ lim + 1) (hn : n ≤ 2 ^ 31) (h0 : g0 0 = 0)
    (hp : MultBelow n p) (hH : MultBelow n H)
    (ht : ∀ i, 1 ≤ i → i < n → ∑ k ∈ Finset.Icc 1 i, p k * prefixSum H (i / k) = t i) :
    ∃ M', sieveMMultiplicative lim M t p n pa m = some M' ∧
      Rep M' N (fun i => if i < n then prefixSum H i else g0 i) := by
  obtain ⟨P, Q, e1, r1, h1, h2⟩ := C52_inverse_multiplicative lim n N M g0 p pa m T r hN (by omega) hlim hn hp
  have hdiff : ∀ j, 1 ≤ j → j < n → conv p H j = diff t j := by
    intro j hj hjn
    by_cases hj1 : j = 1
    · subst hj1
      have := ht 1 (le_refl _) hjn
      rw [hyperbola] at this
      rw [diff, if_pos rfl, ← this]
      simp
    · rw [diff, if_neg hj1, ← ht j hj hjn, ← ht (j - 1) (by omega) (by omega), hyperbola, hyperbola]
      obtain ⟨x, rfl⟩ : ∃ x, j = x + 1 := ⟨j - 1, by omega⟩
      rw [Nat.add_sub_cancel, Finset.sum_Icc_succ_top (by omega)]
      ring
  have hget : ∀ i, 1 ≤ i → i < n → P.getD i 0 = Q i := by
    intro i hi hin
    rw [List.getD_eq_getElem?_getD, r1.get i (by omega), if_pos ⟨hi, hin⟩]
    rfl
  have hQ : ∀ k, 1 ≤ k → k < n → conv (fun i => P.getD i 0) (diff t) k = H k := by
    intro k hk hkn
    rw [conv_congr (fun i => P.getD i 0) Q (diff t) (conv p H) n k hkn hget (fun i a b => (hdiff i a b).symm),
      ← conv_assoc Q p H k hk, conv_congr (conv Q p) unit H H n k hkn (fun i a b => h2 i a b) (fun _ _ _ => rfl), conv_unit _ k hk]
  obtain ⟨M1, k1, q1⟩ := C52_convolution_multiplicative lim n N M g0 (fun i => P.getD i 0) (diff t) pa m T r hN (by omega) hlim hn
    ⟨by rw [hQ 1 (le_refl _) h1n, hH.1], fun a b ha hb hab hc => by
      have hm := Nat.mul_pos ha hb
      have h3 : a ≤ a * b := Nat.le_mul_of_pos_right a hb
      have h4 : b ≤ a * b := Nat.le_mul_of_pos_left b ha
      rw [hQ _ hm hab, hQ a ha (by omega), hQ b hb (by omega)]
      exact hH.2 a b ha hb hab hc⟩
  obtain ⟨M2, e2, r2⟩ := prefixSums_spec n N M1 _ q1 hN (by rw [if_neg (by omega), h0])
  refine ⟨M2, ?_, r2.congr (fun i _ => ?_)⟩
  · rw [sieveMMultiplicative, e1]
    simp only [Option.bind_eq_bind, Option.bind_some]
    rw [sieveMMultiplicativeInv]
    change (convolutionMultiplicative lim M _ (diff t) n pa m).bind _ = _
    rw [k1]
    exact e2
  · by_cases hin : i < n
    · rw [if_pos hin, if_pos hin, prefixSum, prefixSum]
      apply Finset.sum_congr rfl
      intro e he
      rw [Finset.mem_Icc] at he
      rw [if_pos (by omega), hQ e he.1 (by omega)]
    · rw [if_neg hin, if_neg hin, if_neg (by omega)]

/-- The divisor counts `tau` from the number of lattice points, `t(n) = Sum[tau(k), {k, 1, n}]` by `M(n) = n`. -/
example : sieveM 100 (List.replicate 7 0) (fun n => ∑ k ∈ Finset.Icc 1 n, (k.divisors.card : Int)) (fun _ => 1) 7 = some [0, 1, 2, 3, 4, 5, 6] := by
  decide +kernel

/-- The same with an initial `M[0]` different from zero is wrong for `sieve_m_multiplicative`. -/
example : sieveMMultiplicative 100 [0, 0, 0, 0] (fun n => ∑ k ∈ Finset.Icc 1 n, (k.divisors.card : Int)) (fun _ => 1) 4 [2, 3] 2 = some [0, 1, 2, 3] ∧
    sieveMMultiplicative 100 [5, 0, 0, 0] (fun n => ∑ k ∈ Finset.Icc 1 n, (k.divisors.card : Int)) (fun _ => 1) 4 [2, 3] 2 = some [5, 6, 7, 8] := by
  decide +kernel

end Altruct.Dirichlet
