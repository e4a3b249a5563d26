/-
`sum_multiplicative`, steps 3 and 4.
-/
import Verif.SumMult.Step2
import Verif.Container.FenwickProps

namespace Altruct.SumMult

open Finset
open Altruct.Maps (SqrtMap Key)
open scoped Classical

variable {α : Type} [CommRing α]

/-! ### The Fenwick tree -/

/-- Prefix sums. -/
def Pre (a : Nat → α) (x : Nat) : α := ∑ j ∈ range (x + 1), a j

theorem pre_update (a : Nat → α) (p x : Nat) (v : α) : Pre (Function.update a p (a p + v)) x = Pre a x + if p ≤ x then v else 0 := by
  rw [Pre, Pre]
  have : ∀ j, Function.update a p (a p + v) j = a j + if j = p then v else 0 := by
    intro j
    by_cases h : j = p
    · subst h
      rw [Function.update_self, if_pos rfl]
    · rw [Function.update_of_ne h, if_neg h, add_zero]
  rw [Finset.sum_congr rfl (fun j _ => this j), Finset.sum_add_distrib, Finset.sum_ite_eq']
  congr 1
  simp [Nat.lt_succ_iff]

theorem put_spec {N : Nat} (hN : N ≤ 2 ^ 63) {Ft : List α} {a : Nat → α} (h : Fenwick.Tree Ft N a) (i : Nat) (v : α) :
    ∃ Ft' a', put Ft i v = some Ft' ∧ Fenwick.Tree Ft' N a' ∧ ∀ x, Pre a' x = Pre a x + if x = i then v else 0 := by
  obtain ⟨v1, e1, t1⟩ := Fenwick.add_spec N hN Ft a h i v
  obtain ⟨v2, e2, t2⟩ := Fenwick.add_spec N hN v1 _ t1 (i + 1) (-v)
  refine ⟨v2, _, by rw [put, e1, Option.bind_some, e2], t2, fun x => ?_⟩
  rw [pre_update, pre_update, add_assoc]
  congr 1
  by_cases h1 : i + 1 ≤ x
  · rw [if_pos h1, if_pos (by omega), if_neg (by omega), add_neg_cancel]
  · by_cases h2 : x = i
    · rw [if_neg h1, if_pos (by omega), if_pos h2, add_zero]
    · rw [if_neg h1, if_neg (by omega), if_neg h2, add_zero]

section ft
variable {n q c B : Nat}

/-- The number of places. -/
def tszOf (n q : Nat) : Nat := q + 1 + n / (q + 1)

theorem div_le_nq {m : Nat} (hm : q < m) : n / m ≤ n / (q + 1) := Nat.div_le_div_left (by omega) (by omega)

/-- A key below `n / c` is a quotient by more than `c`. -/
theorem Sizes.lt_quot (S : Sizes n q c B) {m : Nat} (hk : Key q n m) (hq : q < m) (hm : m < n / c) : c < n / m := by
  by_contra hc
  have h1 := Maps.div_div_key q n m hq hk
  have h2 := S.c2
  have hmn : m ≤ n := le_trans (le_of_lt hm) (Nat.div_le_self _ _)
  have h0 : 0 < n / m := Nat.div_pos hmn (by omega)
  have := Nat.div_le_div_left (a := n) (show n / m ≤ c by omega) h0
  omega

/-- The places of numbers are in the order of the numbers. -/
theorem Sizes.idx_le (S : Sizes n q c B) {m m' : Nat} (hk : Key q n m) (hm1 : 1 ≤ m) (h1 : 1 ≤ m') (hmn : m' ≤ n) :
    ftIdx n q (tszOf n q) m' ≤ ftIdx n q (tszOf n q) m ↔ m' ≤ m := by
  rw [ftIdx, ftIdx, tszOf]
  by_cases h2 : m' ≤ q
  · rw [if_pos h2]
    by_cases h3 : m ≤ q
    · rw [if_pos h3]
    · rw [if_neg h3]
      have := div_le_nq (n := n) (show q < m by omega)
      omega
  · rw [if_neg h2]
    have h2' := div_le_nq (n := n) (show q < m' by omega)
    by_cases h3 : m ≤ q
    · rw [if_pos h3]
      omega
    · rw [if_neg h3]
      have h3' := div_le_nq (n := n) (show q < m by omega)
      have h4 := Maps.div_div_key q n m (by omega) hk
      constructor
      · intro h
        have h5 : n / m ≤ n / m' := by omega
        have h6 : 0 < n / m := by
          by_contra hc
          rw [Nat.eq_zero_of_not_pos hc, Nat.div_zero] at h4
          omega
        have h7 := Nat.div_le_div_left (a := n) h5 h6
        have h8 : m' ≤ n / (n / m') := by
          rw [Nat.le_div_iff_mul_le (by omega)]
          exact Nat.mul_div_le n m'
        omega
      · intro h
        have := Nat.div_le_div_left (a := n) h h1
        omega

/-- The place of a key is in the tree. -/
theorem Sizes.idx_lt (S : Sizes n q c B) {m : Nat} (hk : Key q n m) (hm : m < n / c) : ftIdx n q (tszOf n q) m + 1 < tszOf n q - c + 1 + 1 := by
  have h1 := S.c_nq
  rw [ftIdx, tszOf]
  by_cases h : m ≤ q
  · rw [if_pos h]
    omega
  · rw [if_neg h]
    have := S.lt_quot hk (by omega) hm
    have := div_le_nq (n := n) (show q < m by omega)
    omega

/-- The prefix sums in the tree are the values of `V`. -/
def FtOk (Ft : List α) (n q c : Nat) (V : Nat → α) : Prop :=
  ∃ a, Fenwick.Tree Ft (tszOf n q - c + 1 + 1) a ∧ ∀ m, Key q n m → 1 ≤ m → m < n / c → Pre a (ftIdx n q (tszOf n q) m) = V m

theorem Sizes.tree (S : Sizes n q c B) (hn : n < 2 ^ 62) : tszOf n q - c + 1 + 1 ≤ 2 ^ 63 := by
  have h1 := S.c_nq
  have h2 := S.nq_q
  have h3 := S.c2
  have h4 := S.q_nd
  have h5 := Nat.div_le_self n c
  rw [tszOf]
  omega

theorem getFt_lt (S : Sizes n q c B) (hn : n < 2 ^ 62) {Fk : SqrtMap α} {Ft : List α} {V : Nat → α} (hFt : FtOk Ft n q c V) {m : Nat} (hk : Key q n m) (hm : m < n / c) :
    ∃ v, getFt n q (n / c) (tszOf n q) Fk Ft m = some v ∧ (1 ≤ m → v = V m) := by
  obtain ⟨a, t, h⟩ := hFt
  have := S.tree hn
  rw [getFt, if_neg (by omega), Fenwick.getSum_spec Ft _ (le_trans this (by norm_num)) a t _ (S.idx_lt hk hm)]
  exact ⟨_, rfl, fun h1 => h m hk h1 hm⟩

theorem getFt_spec (S : Sizes n q c B) (hn : n < 2 ^ 62) {Fk : SqrtMap α} {Ft : List α} {V : Nat → α} (hFt : FtOk Ft n q c V) (hFk : H Fk q n (fun k => n / c ≤ k) V)
    {m : Nat} (hk : Key q n m) (hm : 1 ≤ m) : getFt n q (n / c) (tszOf n q) Fk Ft m = some (V m) := by
  by_cases h : m < n / c
  · obtain ⟨v, e, hv⟩ := getFt_lt S hn (Fk := Fk) hFt hk h
    rw [e, hv hm]
  · rw [getFt, if_pos (by omega), hFk.el (by have := S.q3; omega) hk (by omega)]

/-- Storing the sums in the tree. -/
theorem fill_spec (S : Sizes n q c B) (hn : n < 2 ^ 62) {Fk : SqrtMap α} {V : Nat → α} (hFk : H Fk q n (fun k => 1 ≤ k) V) :
    ∃ Ft1 Ft2, forUp (fun m (Ft : List α) => (Fk.el m).bind fun v => put Ft m v) 1 (q + 1) (Fenwick.mk (tszOf n q - c + 1) 0) = some Ft1 ∧
      downTo (fun i (Ft : List α) => (Fk.el (n / i)).bind fun v => put Ft (tszOf n q - i) v) c (n / (q + 1) - c) Ft1 = some Ft2 ∧ FtOk Ft2 n q c V := by
  have hq3 := S.q3
  have hN := S.tree hn
  have hc2 := S.c2
  have hcq := S.c_nq
  set N := tszOf n q - c + 1 + 1 with hNd
  set ts := tszOf n q with hts
  have htq : ts = q + 1 + n / (q + 1) := rfl
  let E : Nat → Nat → α := fun i x => if x = 0 then 0 else if x ≤ q then V x else if x < ts - i then V (n / (ts - x)) else 0
  obtain ⟨Ft1, e1, a1, t1, p1⟩ := forUp_spec (body := fun m (Ft : List α) => (Fk.el m).bind fun v => put Ft m v)
    (fun m Ft => ∃ a, Fenwick.Tree Ft N a ∧ ∀ x, Pre a x = if 1 ≤ x ∧ x < m then V x else 0) (a := 1) (n := q + 1) (s := Fenwick.mk (ts - c + 1) 0) (by omega)
    ⟨fun _ => 0, Fenwick.mk_tree _, fun x => by rw [if_neg (by omega), Pre, Finset.sum_const_zero]⟩
    (fun m Ft h1 h2 t => by
      obtain ⟨a, t, p⟩ := t
      obtain ⟨Ft', a', e, t', p'⟩ := put_spec hN t m (V m)
      refine ⟨Ft', by rw [hFk.el (by omega) (key_lo (by omega)) h1, Option.bind_some, e], a', t', fun x => ?_⟩
      rw [p', p]
      by_cases hx : x = m
      · subst hx
        rw [if_neg (by omega), if_pos rfl, if_pos (by omega), zero_add]
      · rw [if_neg hx, add_zero]
        exact if_congr (by omega) rfl rfl)
  obtain ⟨Ft2, e2, a2, t2, p2⟩ := downTo_spec (body := fun i (Ft : List α) => (Fk.el (n / i)).bind fun v => put Ft (ts - i) v)
    (fun i Ft => ∃ a, Fenwick.Tree Ft N a ∧ ∀ x, Pre a x = E i x) c (n / (q + 1) - c) Ft1
    ⟨a1, t1, fun x => by
      rw [p1, show c + (n / (q + 1) - c) = n / (q + 1) by omega]
      simp only [E]
      by_cases h0 : x = 0
      · rw [if_neg (by omega), if_pos h0]
      · rw [if_neg h0]
        by_cases h1 : x ≤ q
        · rw [if_pos (by omega), if_pos h1]
        · rw [if_neg (by omega), if_neg h1, if_neg (by omega)]⟩
    (fun i Ft h1 h2 t => by
      obtain ⟨a, t, p⟩ := t
      have hdv : 1 ≤ n / (i + 1) := by
        have h3 : i + 1 ≤ n := by
          have := Nat.div_le_self n (q + 1)
          omega
        exact Nat.div_pos h3 (by omega)
      obtain ⟨Ft', a', e, t', p'⟩ := put_spec hN t (ts - (i + 1)) (V (n / (i + 1)))
      refine ⟨Ft', by rw [hFk.el (by omega) (key_div (by omega)) hdv, Option.bind_some, e], a', t', fun x => ?_⟩
      rw [p', p]
      simp only [E]
      by_cases hx : x = ts - (i + 1)
      · rw [if_pos hx, if_neg (by omega), if_neg (by omega), if_neg (by omega), if_neg (by omega), if_neg (by omega), if_pos (by omega), zero_add,
          show ts - x = i + 1 by omega]
      · rw [if_neg hx, add_zero]
        by_cases h0 : x = 0
        · rw [if_pos h0, if_pos h0]
        · rw [if_neg h0, if_neg h0]
          by_cases h1 : x ≤ q
          · rw [if_pos h1, if_pos h1]
          · rw [if_neg h1, if_neg h1]
            exact if_congr (by omega) rfl rfl)
  refine ⟨Ft1, Ft2, e1, e2, a2, t2, fun m hk h1 hm => ?_⟩
  rw [p2]
  simp only [E]
  rw [ftIdx]
  by_cases h : m ≤ q
  · rw [if_pos h, if_neg (by omega), if_pos h]
  · rw [if_neg h]
    have g1 := S.lt_quot hk (by omega) hm
    have g2 := div_le_nq (n := n) (show q < m by omega)
    rw [if_neg (by omega), if_neg (by omega), if_pos (by omega), show ts - (ts - n / m) = n / m by omega, Maps.div_div_key q n m (by omega) hk]

end ft

/-! ### Step 3 -/

section step3
variable {F : Nat → α} {f : α → Nat → Nat → α} {pa : List Nat} {psz B n q c : Nat}

/-- One round of the traversal updates the tree. -/
theorem traverse_spec (hF : Mult F f) (T : AllPrimes pa psz B) (S : Sizes n q c B) (hn : n < 2 ^ 62) {k p fuel : Nat} (hk : k < psz) (hp : pa[k]? = some p)
    (hB : (n / c - 1) / p ≤ B) (hf : n < fuel) {Ft : List α} (hFt : FtOk Ft n q c (R F pa (k + 1))) :
    ∃ Ft', rough f (fun m v Ft => Fenwick.add (fun x y => x + y) Ft (ftIdx n q (tszOf n q) m) v) pa psz fuel (n / c - 1) (k + 1) 1 1 Ft = some Ft' ∧
      FtOk Ft' n q c (R F pa k) := by
  have hN := S.tree hn
  have hnd := Nat.div_le_self n c
  have hpr := T.tab.prime k p hk hp
  obtain ⟨Ft', e, a, t, h⟩ := rough_spec (U := n / c - 1) (B := B) hF T
    (visit := fun m v Ft => Fenwick.add (fun x y => x + y) Ft (ftIdx n q (tszOf n q) m) v)
    (St := fun S Ft => ∃ a, Fenwick.Tree Ft (tszOf n q - c + 1 + 1) a ∧ ∀ m, Key q n m → 1 ≤ m → m < n / c →
      Pre a (ftIdx n q (tszOf n q) m) = R F pa (k + 1) m + S (fun m' => if m' ≤ m then 1 else 0))
    (fun m v S' Ft h1 h2 hs => by
      obtain ⟨a, t, h⟩ := hs
      obtain ⟨Ft', e, t'⟩ := Fenwick.add_spec _ hN Ft a t (ftIdx n q (tszOf n q) m) v
      refine ⟨Ft', e, _, t', fun m' hk' hm1 hm' => ?_⟩
      rw [pre_update, h m' hk' hm1 hm', add_assoc]
      congr 2
      rw [if_congr (S.idx_le hk' hm1 h1 (by omega)) rfl rfl, mul_ite, mul_one, mul_zero])
    fuel (n / c - 1) k p 1 1 (fun _ => 0) Ft hk hp (by omega) hB (le_refl 1) (by omega) (by
      obtain ⟨a, t, h⟩ := hFt
      exact ⟨a, t, fun m a b c => by rw [h m a b c, add_zero]⟩)
  refine ⟨Ft', e, a, t, fun m hkm hm1 hm => ?_⟩
  rw [h m hkm hm1 hm, R, R, T.sumS_split hk hp m]
  congr 1
  change 0 + contrib F pa k p (n / c - 1) 1 1 _ = _
  rw [zero_add, contrib, sumS, sumS]
  symm
  refine Finset.sum_subset_zero_on_sdiff ?_ ?_ ?_
  · intro u hu
    rw [mem_filter, mem_Icc] at hu ⊢
    exact ⟨⟨hu.1.1, le_trans hu.1.2 (Nat.div_le_div_right (by omega))⟩, hu.2⟩
  · intro u hu
    rw [mem_sdiff, mem_filter, mem_filter, mem_Icc, mem_Icc] at hu
    have : ¬ (1 * (p * u) ≤ m) := by
      intro hc
      apply hu.2
      refine ⟨⟨hu.1.1.1, ?_⟩, hu.1.2⟩
      rw [Nat.le_div_iff_mul_le hpr.pos, mul_comm]
      rwa [one_mul] at hc
    rw [if_neg this, mul_zero]
  · intro u hu
    rw [mem_filter, mem_Icc] at hu
    have : 1 * (p * u) ≤ m := by
      have := hu.1.2
      rw [Nat.le_div_iff_mul_le hpr.pos, mul_comm] at this
      rwa [one_mul]
    rw [if_pos this, mul_one, one_mul]

theorem loop3_spec (hF : Mult F f) (T : AllPrimes pa psz B) (S : Sizes n q c B) (hn : n < 2 ^ 62) {fuel h : Nat} (hf : n < fuel) (h2 : 2 ≤ h)
    (hB : ∀ p, h < p → (n / c - 1) / p ≤ B) : ∀ (K : Nat) (Fk Fk1 : SqrtMap α) (Ft : List α), 1 ≤ K → K ≤ psz →
    H Fk q n (fun k => n / c ≤ k) (R F pa K) → (∀ V, H Fk1 q n (fun _ => False) V) → FtOk Ft n q c (R F pa K) →
    ∃ K' Gk G1 Ft', loop3 f fuel n q c (n / c) h (tszOf n q) pa psz K Fk Fk1 Ft (K + 1) = some (Gk, G1, Ft', K' + 1) ∧ K' ≤ K ∧
      H Gk q n (fun k => n / c ≤ k) (R F pa K') ∧ (∀ V, H G1 q n (fun _ => False) V) ∧ FtOk Ft' n q c (R F pa K') := by
  have hq3 := S.q3
  have hc2 := S.c2
  intro K
  induction K with
  | zero => intro _ _ _ h; omega
  | succ k ih =>
    intro Fk Fk1 Ft _ hK hFk hFk1 hFt
    obtain ⟨p, hp, e1, hpr⟩ := T.get (show k < psz by omega)
    rw [loop3, e1, Option.bind_some]
    by_cases hhp : h < p
    · have hk1 : 1 ≤ k := by
        by_contra hc
        have hk0 : k = 0 := by omega
        have := (T.not_before (by omega) hp 2 Nat.prime_two).mp (by
          rintro ⟨j, hj, _⟩
          omega)
        omega
      have hdn : 1 ≤ n / c := by have := S.q_nd; omega
      obtain ⟨G, e2, t2⟩ := downTo_spec (body := fun i (G : SqrtMap α) =>
          let m := n / i
          (calcFk f fuel p m (getFt n q (n / c) (tszOf n q) Fk Ft)).bind fun v => G.set m v)
        (fun i s => H s q n (fun k => ∃ j, i < j ∧ j ≤ c ∧ k = n / j) (R F pa k)) 0 c Fk1
        ((hFk1 (R F pa k)).mono (fun k _ hd => by obtain ⟨j, a, b, _⟩ := hd; omega))
        (fun i s a b t => by
          have hkey : Key q n (n / (i + 1)) := key_div (by omega)
          have hm1 : 1 ≤ n / (i + 1) := le_trans hdn (Nat.div_le_div_left (by omega) (by omega))
          have hle := Nat.div_le_self n (i + 1)
          simp only
          rw [calcFk_spec hF T (by omega) hp hm1 (by omega) (fun e he => getFt_spec S hn hFt hFk (key_quot hkey (pow_pos hpr.pos e)) he), Option.bind_some]
          obtain ⟨s', e', t'⟩ := t.set (by omega) hkey rfl
          refine ⟨s', e', t'.mono (fun k' _ hd => ⟨?_, rfl⟩)⟩
          obtain ⟨j, h3, h4, h5⟩ := hd
          by_cases hj : j = i + 1
          · exact Or.inr (by rw [h5, hj])
          · exact Or.inl ⟨j, by omega, h4, h5⟩)
      obtain ⟨Ft', e3, t3⟩ := traverse_spec hF T S hn (by omega) hp (hB p hhp) hf hFt
      obtain ⟨K', Gk, G1, Ft2, e4, h4, h5⟩ := ih G Fk Ft' hk1 (by omega)
        (t2.mono (fun m hm hd => ⟨by
          have hqn := S.q_nd
          obtain ⟨j, hj1, hj2, hj3⟩ := key_hi (by omega : q < m) hm
          refine ⟨j, by omega, ?_, hj3⟩
          by_contra hc
          have := Nat.div_le_div_left (a := n) (show c + 1 ≤ j by omega) (by omega)
          have := S.nd_lt
          omega, rfl⟩))
        (fun V => hFk.mono (fun _ _ hd => hd.elim)) t3
      refine ⟨K', Gk, G1, Ft2, ?_, by omega, h5⟩
      rw [if_pos hhp]
      simp only at e2
      rw [e2, Option.bind_some, e3, Option.bind_some]
      exact e4
    · rw [if_neg hhp]
      exact ⟨k + 1, Fk, Fk1, Ft, rfl, le_refl _, hFk, hFk1, hFt⟩

theorem step3_spec (hF : Mult F f) (T : AllPrimes pa psz B) (S : Sizes n q c B) (hn : n < 2 ^ 62) {fuel h : Nat} (hf : n < fuel) (h2 : 2 ≤ h)
    (hB : ∀ p, h < p → (n / c - 1) / p ≤ B) {K : Nat} {Fk Fk1 : SqrtMap α} (hK1 : 1 ≤ K) (hK : K ≤ psz)
    (hFk : H Fk q n (fun k => 1 ≤ k) (R F pa K)) (hFk1 : ∀ V, H Fk1 q n (fun _ => False) V) :
    ∃ K' Gk G1, step3 f fuel n q c (n / c) h (n / (q + 1)) (tszOf n q) pa psz Fk Fk1 (Fenwick.mk (tszOf n q - c + 1) 0) (K + 1) = some (Gk, G1, K' + 1) ∧ K' ≤ K ∧
      H Gk q n (fun k => 1 ≤ k) (R F pa K') ∧ ∀ V, H G1 q n (fun _ => False) V := by
  have hq3 := S.q3
  have hc2 := S.c2
  have hqn := S.q_nd
  have hcq := S.c_nq
  obtain ⟨Ft1, Ft2, e1, e2, t2⟩ := fill_spec S hn hFk
  obtain ⟨K', Gk, G1, Ft3, e3, h3, hGk, hG1, hFt⟩ := loop3_spec hF T S hn hf h2 hB K Fk Fk1 Ft2 hK1 hK (hFk.mono (fun k _ hd => ⟨by omega, rfl⟩)) hFk1 t2
  obtain ⟨s4, e4, t4⟩ := forUp_spec (body := fun m (G : SqrtMap α) => (getFt n q (n / c) (tszOf n q) G1 Ft3 m).bind fun v => G.set m v)
    (fun m s => H s q n (fun k => n / c ≤ k ∨ (1 ≤ k ∧ k < m)) (R F pa K')) (a := 0) (n := q + 1) (s := Gk) (by omega)
    (hGk.mono (fun k _ hd => ⟨by omega, rfl⟩))
    (fun m s _ hm t => by
      obtain ⟨v, ev, hv⟩ := getFt_lt S hn (Fk := G1) hFt (key_lo (by omega : m ≤ q)) (by omega)
      rw [ev, Option.bind_some]
      by_cases h0 : m = 0
      · obtain ⟨s', e', t'⟩ := t.put (by omega) (key_lo (by omega : m ≤ q)) v (by omega)
        exact ⟨s', e', t'.mono (fun k _ hd => ⟨by omega, rfl⟩)⟩
      · obtain ⟨s', e', t'⟩ := t.set (by omega) (key_lo (by omega : m ≤ q)) (hv (by omega))
        exact ⟨s', e', t'.mono (fun k _ hd => ⟨by omega, rfl⟩)⟩)
  obtain ⟨s5, e5, t5⟩ := downTo_spec (body := fun i (G : SqrtMap α) => (getFt n q (n / c) (tszOf n q) G1 Ft3 (n / i)).bind fun v => G.set (n / i) v)
    (fun i s => H s q n (fun k => 1 ≤ k ∧ (n / c ≤ k ∨ k ≤ q ∨ ∃ j, i < j ∧ j ≤ n / (q + 1) ∧ k = n / j)) (R F pa K')) c (n / (q + 1) - c) s4
    (t4.mono (fun k _ hd => by
      obtain ⟨h1, h2 | h2 | ⟨j, a, b, _⟩⟩ := hd
      · exact ⟨Or.inl h2, rfl⟩
      · exact ⟨Or.inr ⟨h1, by omega⟩, rfl⟩
      · exact absurd b (by omega)))
    (fun i s a b t => by
      have hkey : Key q n (n / (i + 1)) := key_div (by omega)
      have hlt : n / (i + 1) < n / c := lt_of_le_of_lt (Nat.div_le_div_left (by omega) (by omega)) S.nd_lt
      have hm1 : 1 ≤ n / (i + 1) := by
        have := Nat.div_le_self n (q + 1)
        exact Nat.div_pos (by omega) (by omega)
      obtain ⟨v, ev, hv⟩ := getFt_lt S hn (Fk := G1) hFt hkey hlt
      rw [ev, Option.bind_some]
      obtain ⟨s', e', t'⟩ := t.set (by omega) hkey (hv hm1)
      refine ⟨s', e', t'.mono (fun k _ hd => ⟨?_, rfl⟩)⟩
      obtain ⟨h1, h2 | h2 | ⟨j, g3, g4, g5⟩⟩ := hd
      · exact Or.inl ⟨h1, Or.inl h2⟩
      · exact Or.inl ⟨h1, Or.inr (Or.inl h2)⟩
      · by_cases hj : j = i + 1
        · exact Or.inr (by rw [g5, hj])
        · exact Or.inl ⟨h1, Or.inr (Or.inr ⟨j, by omega, g4, g5⟩)⟩)
  refine ⟨K', s5, G1, ?_, h3, t5.mono (fun k hk hd => ⟨⟨hd, ?_⟩, rfl⟩), hG1⟩
  · rw [step3, e1, Option.bind_some, e2, Option.bind_some, Nat.add_sub_cancel, e3, Option.bind_some, e4, Option.bind_some, e5, Option.bind_some]
  · rcases S.keys hk with h | ⟨h, j, hj1, hj2, hj3⟩
    · exact Or.inr (Or.inl h)
    · by_cases hjc : j ≤ c
      · left
        rw [hj3]
        exact Nat.div_le_div_left hjc hj1
      · exact Or.inr (Or.inr ⟨j, by omega, hj2, hj3⟩)

/-! ### Step 4 -/

theorem step4_spec (hF : Mult F f) (T : AllPrimes pa psz B) (S : Sizes n q c B) {fuel : Nat} (hf : n < fuel) : ∀ (K : Nat) (Fk Fk1 : SqrtMap α), K ≤ psz →
    H Fk q n (fun k => 1 ≤ k) (R F pa K) → (∀ V, H Fk1 q n (fun _ => False) V) →
    ∃ G, step4 f fuel n q (n / (q + 1)) pa K Fk Fk1 = some G ∧ H G q n (fun k => 1 ≤ k) (R F pa 0) := by
  have hq3 := S.q3
  intro K
  induction K with
  | zero => intro Fk Fk1 _ h _; exact ⟨Fk, rfl, h⟩
  | succ k ih =>
    intro Fk Fk1 hK hFk hFk1
    obtain ⟨p, hp, e1, hpr⟩ := T.get (show k < psz by omega)
    have hcalc : ∀ m, Key q n m → 1 ≤ m → m ≤ n → calcFk f fuel p m (fun x => Fk.el x) = some (R F pa k m) := fun m hk h1 hmn =>
      calcFk_spec hF T (by omega) hp h1 (by omega) (fun e he => hFk.el (by omega) (key_quot hk (pow_pos hpr.pos e)) he)
    have hqn : q ≤ n := le_trans (Nat.le_mul_of_pos_left q (by omega)) S.qq
    obtain ⟨s1, k1, t1⟩ := forUp_spec (body := fun m (G : SqrtMap α) => (calcFk f fuel p m (fun x => Fk.el x)).bind fun v => G.set m v)
      (fun m s => H s q n (fun k => 1 ≤ k ∧ k < m) (R F pa k)) (a := 1) (n := q + 1) (s := Fk1) (by omega)
      ((hFk1 (R F pa k)).mono (fun k _ hd => by omega))
      (fun m s h1 h2 t => by
        rw [hcalc m (key_lo (by omega)) h1 (by omega), Option.bind_some]
        obtain ⟨s', e', t'⟩ := t.set (by omega) (key_lo (by omega : m ≤ q)) rfl
        exact ⟨s', e', t'.mono (fun k _ hd => ⟨by omega, rfl⟩)⟩)
    obtain ⟨s2, k2, t2⟩ := downTo_spec (body := fun i (G : SqrtMap α) => (calcFk f fuel p (n / i) (fun x => Fk.el x)).bind fun v => G.set (n / i) v)
      (fun i s => H s q n (fun k => 1 ≤ k ∧ (k ≤ q ∨ ∃ j, i < j ∧ j ≤ n / (q + 1) ∧ k = n / j)) (R F pa k)) 0 (n / (q + 1)) s1
      (t1.mono (fun k _ hd => by
        obtain ⟨h1, h2 | ⟨j, a, b, _⟩⟩ := hd
        · exact ⟨by omega, rfl⟩
        · exact absurd b (by omega)))
      (fun i s a b t => by
        have hkey : Key q n (n / (i + 1)) := key_div (by omega)
        have hm1 : 1 ≤ n / (i + 1) := by
          have := Nat.div_le_self n (q + 1)
          exact Nat.div_pos (by omega) (by omega)
        rw [hcalc _ hkey hm1 (Nat.div_le_self _ _), Option.bind_some]
        obtain ⟨s', e', t'⟩ := t.set (by omega) hkey rfl
        refine ⟨s', e', t'.mono (fun k _ hd => ⟨?_, rfl⟩)⟩
        obtain ⟨h1, h2 | ⟨j, g3, g4, g5⟩⟩ := hd
        · exact Or.inl ⟨h1, Or.inl h2⟩
        · by_cases hj : j = i + 1
          · exact Or.inr (by rw [g5, hj])
          · exact Or.inl ⟨h1, Or.inr ⟨j, by omega, g4, g5⟩⟩)
    obtain ⟨G, e, t⟩ := ih s2 Fk (by omega) (t2.mono (fun m hm hd => ⟨⟨hd, by
      rcases S.keys hm with h | ⟨_, j, a, b, c⟩
      · exact Or.inl h
      · exact Or.inr ⟨j, by omega, b, c⟩⟩, rfl⟩)) (fun V => hFk.mono (fun _ _ hd => hd.elim))
    exact ⟨G, by rw [step4, e1, Option.bind_some, k1, Option.bind_some, k2, Option.bind_some, e], t⟩

end step3

end Altruct.SumMult
