/-
The range minimum query structure (C105).
-/
import Verif.Rmq.Model
import Verif.Rmq.Spec
import Verif.GraphAlg.FloydProps
import Mathlib.Data.List.GetD
import Mathlib.Data.List.TakeWhile
import Mathlib.Data.Nat.Log
import Mathlib.Tactic.Ring
import Mathlib.Tactic.IntervalCases
import Mathlib.Tactic.NormNum

namespace Altruct.Rmq

open Altruct.GraphAlg (rd2 wr2 Mat upd2 upd2_self upd2_ne)

variable {α : Type}

/-! ### Ballot numbers -/

/-- The ballot numbers. -/
def bal : Nat → Nat → Nat
  | 0, _ => 1
  | _ + 1, 0 => 0
  | p + 1, q + 1 => if q < p then 0 else bal (p + 1) q + bal p (q + 1)

theorem bal_lt {p q : Nat} (h : q < p) : bal p q = 0 := by
  cases p with
  | zero => omega
  | succ p => cases q with
    | zero => rw [bal]
    | succ q => rw [bal, if_pos (by omega)]

theorem bal_succ {p q : Nat} (h : p ≤ q) : bal (p + 1) (q + 1) = bal (p + 1) q + bal p (q + 1) := by
  rw [bal, if_neg (by omega)]

theorem calcBallot_spec (B junk : Nat) : ∃ b, calcBallot B junk = some b ∧ ∃ f, Mat b (B + 1) f ∧ ∀ p q, p ≤ B → q ≤ B → f p q = bal p q := by
  obtain ⟨b0, e0, f0, hm0, h0⟩ := forUp_spec (body := fun q b => wr2 b 0 q 1)
    (fun k b => ∃ f, Mat b (B + 1) f ∧ ∀ q, q < k → f 0 q = 1) (a := 0) (n := B + 1) (by omega)
    (s := List.replicate (B + 1) (List.replicate (B + 1) junk)) ⟨_, Mat.replicate (B + 1) junk, fun q h => by omega⟩ (by
      rintro k b _ hk ⟨f, hm, hf⟩
      obtain ⟨b', e, hm'⟩ := hm.wr2 (u := 0) (v := k) (by omega) hk 1
      refine ⟨b', e, _, hm', fun q hq => ?_⟩
      by_cases eq : q = k
      · subst eq; rw [upd2_self]
      · rw [upd2_ne _ _ _ _ (by tauto)]; exact hf q (by omega))
  obtain ⟨b1, e1, f1, hm1, h1⟩ := forUp_spec (body := fun p b => (forUp (fun q b => wr2 b p q 0) 0 p b).bind fun b =>
      forUp (fun q b => (rd2 b p (q - 1)).bind fun x => (rd2 b (p - 1) q).bind fun y => wr2 b p q (x + y)) p (B + 1) b)
    (fun p b => ∃ f, Mat b (B + 1) f ∧ ∀ p' q, p' < p → q ≤ B → f p' q = bal p' q) (a := 1) (n := B + 1) (by omega) (s := b0)
    ⟨f0, hm0, fun p' q hp hq => by
      obtain rfl : p' = 0 := by omega
      rw [h0 q (by omega), bal]⟩ (by
      rintro p b hp1 hp ⟨f, hm, hf⟩
      obtain ⟨b2, e2, f2, hm2, h2, h2'⟩ := forUp_spec (body := fun q b => wr2 b p q 0)
        (fun k b => ∃ f, Mat b (B + 1) f ∧ (∀ p' q, p' < p → q ≤ B → f p' q = bal p' q) ∧ ∀ q, q < k → f p q = bal p q) (a := 0) (n := p) (by omega) (s := b)
        ⟨f, hm, hf, fun q h => by omega⟩ (by
          rintro k b _ hk ⟨f, hm, hf, hf'⟩
          obtain ⟨b', e, hm'⟩ := hm.wr2 (u := p) (v := k) hp (by omega) 0
          refine ⟨b', e, _, hm', fun p' q hp' hq => ?_, fun q hq => ?_⟩
          · rw [upd2_ne _ _ _ _ (by omega)]; exact hf p' q hp' hq
          · by_cases eq : q = k
            · subst eq; rw [upd2_self, bal_lt hk]
            · rw [upd2_ne _ _ _ _ (by tauto)]; exact hf' q (by omega))
      obtain ⟨b3, e3, f3, hm3, h3, h3'⟩ := forUp_spec (body := fun q b => (rd2 b p (q - 1)).bind fun x => (rd2 b (p - 1) q).bind fun y => wr2 b p q (x + y))
        (fun k b => ∃ f, Mat b (B + 1) f ∧ (∀ p' q, p' < p → q ≤ B → f p' q = bal p' q) ∧ ∀ q, q < k → f p q = bal p q) (a := p) (n := B + 1) (by omega) (s := b2)
        ⟨f2, hm2, h2, h2'⟩ (by
          rintro k b hk1 hk ⟨f, hm, hf, hf'⟩
          obtain ⟨b', e, hm'⟩ := hm.wr2 (u := p) (v := k) hp hk (f p (k - 1) + f (p - 1) k)
          refine ⟨b', ?_, _, hm', fun p' q hp' hq => ?_, fun q hq => ?_⟩
          · simp only [hm.rd2 (u := p) (v := k - 1) hp (by omega), hm.rd2 (u := p - 1) (v := k) (by omega) hk, Option.bind_some, e]
          · rw [upd2_ne _ _ _ _ (by omega)]; exact hf p' q hp' hq
          · by_cases eq : q = k
            · subst eq
              rw [upd2_self, hf' (q - 1) (by omega), hf (p - 1) q (by omega) (by omega)]
              obtain ⟨p', rfl⟩ : ∃ p', p = p' + 1 := ⟨p - 1, by omega⟩
              obtain ⟨q', rfl⟩ : ∃ q', q = q' + 1 := ⟨q - 1, by omega⟩
              rw [Nat.add_sub_cancel, Nat.add_sub_cancel, bal_succ (by omega)]
            · rw [upd2_ne _ _ _ _ (by tauto)]; exact hf' q (by omega))
      refine ⟨b3, by simp only [e2, Option.bind_some, e3], f3, hm3, fun p' q hp' hq => ?_⟩
      by_cases eq : p' = p
      · subst eq; exact h3' q (by omega)
      · exact h3 p' q (by omega) hq)
  exact ⟨b1, by rw [calcBallot, e0, Option.bind_some, e1], f1, hm1, fun p q hp hq => h1 p q (by omega) hq⟩

/-- What `d` pops add to the code. -/
def psum (p : Nat) : Nat → Nat → Nat
  | _, 0 => 0
  | q, d + 1 => bal p q + psum p (q - 1) d

theorem psum_le {p : Nat} : ∀ (d q : Nat), p + d ≤ q → psum p q d ≤ bal (p + 1) q := by
  intro d
  induction d with
  | zero => intro q _; simp [psum]
  | succ d ih =>
    intro q h
    obtain ⟨q', rfl⟩ : ∃ q', q = q' + 1 := ⟨q - 1, by omega⟩
    rw [psum, bal_succ (by omega), Nat.add_sub_cancel]
    have := ih q' (by omega)
    omega

theorem psum_succ {p : Nat} : ∀ (d q : Nat), psum p q (d + 1) = psum p q d + bal p (q - d) := by
  intro d
  induction d with
  | zero => intro q; simp [psum]
  | succ d ih =>
    intro q
    rw [psum, ih, psum, show q - 1 - d = q - (d + 1) by omega]; omega

theorem psum_mono {p q : Nat} {d d' : Nat} (h : d ≤ d') : psum p q d ≤ psum p q d' := by
  induction d' with
  | zero => rw [Nat.le_zero.mp h]
  | succ d' ih =>
    by_cases e : d = d' + 1
    · rw [e]
    · have := ih (by omega)
      rw [psum_succ]; omega

/-! ### The type of a block -/

/-- The positions on the stack after `j` elements, the top first. -/
def stk (lt : α → α → Bool) (v : Nat → α) : Nat → List Nat
  | 0 => []
  | j + 1 => j :: (stk lt v j).dropWhile fun i => lt (v j) (v i)

/-- How many positions element `j` removes. -/
def pops (lt : α → α → Bool) (v : Nat → α) (j : Nat) : Nat := ((stk lt v j).takeWhile fun i => lt (v j) (v i)).length

/-- What the `p` elements from `j` on add to the code. -/
def rest (lt : α → α → Bool) (v : Nat → α) : Nat → Nat → Nat
  | 0, _ => 0
  | p + 1, j => psum p (p + 1 + (stk lt v j).length) (pops lt v j) + rest lt v p (j + 1)

theorem pops_le (lt : α → α → Bool) (v : Nat → α) (j : Nat) : pops lt v j ≤ (stk lt v j).length :=
  (List.takeWhile_prefix _).length_le

theorem stk_succ (lt : α → α → Bool) (v : Nat → α) (j : Nat) : stk lt v (j + 1) = j :: (stk lt v j).drop (pops lt v j) := by
  rw [stk, pops]
  congr 1
  conv_rhs => arg 2; rw [← List.takeWhile_append_dropWhile (p := fun i => lt (v j) (v i)) (l := stk lt v j)]
  rw [List.drop_left]

theorem stk_len (lt : α → α → Bool) (v : Nat → α) (j : Nat) : (stk lt v (j + 1)).length = (stk lt v j).length - pops lt v j + 1 := by
  rw [stk_succ, List.length_cons, List.length_drop]

theorem stk_length_le (lt : α → α → Bool) (v : Nat → α) : ∀ j, (stk lt v j).length ≤ j := by
  intro j
  induction j with
  | zero => simp [stk]
  | succ j ih => rw [stk_len]; omega

theorem rest_lt (lt : α → α → Bool) (v : Nat → α) : ∀ (p j : Nat), rest lt v p j < bal p (p + (stk lt v j).length) := by
  intro p
  induction p with
  | zero => intro j; rw [rest, bal]; omega
  | succ p ih =>
    intro j
    have h1 := ih (j + 1)
    have h2 := pops_le lt v j
    rw [stk_len, show p + ((stk lt v j).length - pops lt v j + 1) = p + 1 + (stk lt v j).length - pops lt v j by omega] at h1
    have h3 := psum_le (p := p) (pops lt v j + 1) (p + 1 + (stk lt v j).length) (by omega)
    rw [psum_succ] at h3
    rw [rest]; omega

/-- Blocks with the same code have the same stacks. -/
theorem rest_inj {lt : α → α → Bool} {v w : Nat → α} : ∀ (p j : Nat), stk lt v j = stk lt w j → rest lt v p j = rest lt w p j →
    ∀ k, k ≤ p → stk lt v (j + k) = stk lt w (j + k) := by
  intro p
  induction p with
  | zero => intro j hs _ k hk; obtain rfl : k = 0 := by omega
            exact hs
  | succ p ih =>
    intro j hs hr k hk
    have key : ∀ v w : Nat → α, stk lt v j = stk lt w j → rest lt v (p + 1) j = rest lt w (p + 1) j → ¬ pops lt v j < pops lt w j := by
      intro v w hs hr hlt
      have h1 := rest_lt lt v p (j + 1)
      have h2 := pops_le lt v j
      rw [stk_len, show p + ((stk lt v j).length - pops lt v j + 1) = p + 1 + (stk lt v j).length - pops lt v j by omega] at h1
      have h3 := psum_mono (p := p) (q := p + 1 + (stk lt v j).length) (show pops lt v j + 1 ≤ pops lt w j by omega)
      rw [psum_succ] at h3
      rw [rest, rest, ← hs] at hr
      omega
    have hp : pops lt v j = pops lt w j := by
      have := key v w hs hr
      have := key w v hs.symm hr.symm
      omega
    cases k with
    | zero => exact hs
    | succ k =>
      have hs' : stk lt v (j + 1) = stk lt w (j + 1) := by rw [stk_succ, stk_succ, hp, hs]
      rw [rest, rest, ← hs, hp] at hr
      rw [show j + (k + 1) = j + 1 + k by omega]
      exact ih (j + 1) hs' (by omega) k (by omega)

/-- The array `rp` holds the stack. -/
def RpOk (rp : List α) (v : Nat → α) (st : List Nat) : Prop := ∀ k i, st[k]? = some i → rp[st.length - k]? = some (v i)

theorem popLoop_spec {lt : α → α → Bool} {ballot : List (List Nat)} {B : Nat} {f : Nat → Nat → Nat} (hb : Mat ballot (B + 1) f)
    (hf : ∀ p q, p ≤ B → q ≤ B → f p q = bal p q) {p j : Nat} (hpj : p + 1 + j = B) (v : Nat → α) (rp : List α) :
    ∀ (st : List Nat) (N : Nat), RpOk rp v st → st.length ≤ j →
    popLoop lt ballot B j (v j) rp (p + 1 + st.length) N =
      some (p + 1 + (st.dropWhile fun i => lt (v j) (v i)).length, N + psum p (p + 1 + st.length) (st.takeWhile fun i => lt (v j) (v i)).length) := by
  intro st
  induction st with
  | nil =>
    intro N _ _
    rw [List.length_nil, Nat.add_zero, popLoop, if_neg (by omega)]
    simp [psum]
  | cons a st ih =>
    intro N hrp hl
    rw [List.length_cons] at hl
    have hrp' : RpOk rp v st := fun k i hk => by
      have := hrp (k + 1) i (by simpa using hk)
      rwa [List.length_cons, Nat.add_sub_add_right] at this
    have ha := hrp 0 a rfl
    rw [List.length_cons, Nat.sub_zero] at ha
    rw [List.length_cons, show p + 1 + (st.length + 1) = p + 1 + st.length + 1 by omega, popLoop, if_pos (by omega),
      show p + 1 + st.length + 1 + j - B = st.length + 1 by omega, rd, ha, Option.bind_some]
    by_cases hc : lt (v j) (v a) = true
    · rw [if_pos hc, show B - j - 1 = p by omega, hb.rd2 (by omega) (by omega), Option.bind_some, ih _ hrp' (by omega), hf _ _ (by omega) (by omega),
        List.dropWhile_cons_of_pos (p := fun i => lt (v j) (v i)) hc, List.takeWhile_cons_of_pos (p := fun i => lt (v j) (v i)) hc, List.length_cons, psum, Nat.add_sub_cancel]
      congr 2; omega
    · rw [if_neg hc, List.dropWhile_cons_of_neg (p := fun i => lt (v j) (v i)) hc, List.takeWhile_cons_of_neg (p := fun i => lt (v j) (v i)) hc]
      simp [psum]; omega

theorem typeLoop_spec {lt : α → α → Bool} {ballot : List (List Nat)} {B : Nat} {f : Nat → Nat → Nat} (hb : Mat ballot (B + 1) f)
    (hf : ∀ p q, p ≤ B → q ≤ B → f p q = bal p q) {arr : List α} {n : Nat} {g : Nat → α} (ha : Rep arr n g) {i : Nat} (hi : i * B + B ≤ n)
    {rp : List α} (hrp : rp.length = B + 1) :
    ∃ q rp', typeLoop lt ballot B arr i rp = some (q, rest lt (fun j => g (i * B + j)) B 0, rp') ∧ rp'.length = B + 1 := by
  set v : Nat → α := fun j => g (i * B + j) with hv
  obtain ⟨⟨q, N, rp'⟩, e, h1, h2, h3, h4⟩ := forUp_spec
    (body := fun j (s : Nat × Nat × List α) => (rd arr (i * B + j)).bind fun pj => (popLoop lt ballot B j pj s.2.2 s.1 s.2.1).bind fun r =>
      if r.1 + j + 1 < B then none else (wr s.2.2 (r.1 + j + 1 - B) pj).map fun rp => (r.1, r.2, rp))
    (fun j s => s.1 = B - j + (stk lt v j).length ∧ s.2.1 + rest lt v (B - j) j = rest lt v B 0 ∧ RpOk s.2.2 v (stk lt v j) ∧ s.2.2.length = B + 1)
    (a := 0) (n := B) (by omega) (s := (B, 0, rp)) ⟨by simp [stk], by simp, fun k i h => by simp [stk] at h, hrp⟩ (by
      rintro j ⟨q, N, rp⟩ _ hj ⟨h1, h2, h3, h4⟩
      simp only at h1 h2 h3 h4
      obtain ⟨p, hp⟩ : ∃ p, B - j = p + 1 := ⟨B - j - 1, by omega⟩
      have hpop := popLoop_spec (lt := lt) hb hf (p := p) (j := j) (by omega) v rp (stk lt v j) N h3 (stk_length_le lt v j)
      obtain ⟨st', hst'⟩ : ∃ st', st' = (stk lt v j).dropWhile fun i => lt (v j) (v i) := ⟨_, rfl⟩
      have hsub : st'.length ≤ (stk lt v j).length := by rw [hst']; exact (List.dropWhile_suffix _).length_le
      have hl := stk_length_le lt v j
      rw [← hst'] at hpop
      rw [hp] at h1 h2
      have hs : stk lt v (j + 1) = j :: st' := by rw [stk, hst']
      have hvj : (rd arr (i * B + j)) = some (v j) := by rw [ha.rd (by omega)]
      have hw : wr rp (st'.length + 1) (v j) = some (rp.set (st'.length + 1) (v j)) := by rw [wr, if_pos (by omega)]
      refine ⟨(p + 1 + st'.length, N + psum p (p + 1 + (stk lt v j).length) (pops lt v j), rp.set (st'.length + 1) (v j)), ?_, ?_, ?_, ?_, ?_⟩
      · simp only [h1, hvj, Option.bind_some, hpop]
        rw [if_neg (by omega), show p + 1 + st'.length + j + 1 - B = st'.length + 1 by omega, hw]
        rfl
      · simp only [hs, List.length_cons]; omega
      · simp only
        rw [show B - (j + 1) = p by omega]
        rw [rest] at h2
        omega
      · simp only
        rw [hs]
        intro k i' hk
        cases k with
        | zero =>
          simp only [List.getElem?_cons_zero, Option.some.injEq] at hk
          rw [List.length_cons, Nat.sub_zero, ← hk, List.getElem?_set_self (by omega)]
        | succ k =>
          rw [List.getElem?_cons_succ] at hk
          have hkl := (List.getElem?_eq_some_iff.mp hk).1
          rw [List.length_cons, Nat.add_sub_add_right, List.getElem?_set_ne (by omega)]
          -- the position was on the stack before
          have hsuf : (stk lt v j)[(stk lt v j).length - st'.length + k]? = some i' := by
            have hd : st' = (stk lt v j).drop ((stk lt v j).length - st'.length) := by
              obtain ⟨u, hu⟩ : st' <:+ stk lt v j := by rw [hst']; exact List.dropWhile_suffix _
              rw [← hu, List.length_append, Nat.add_sub_cancel, List.drop_left]
            rw [hd, List.getElem?_drop] at hk
            exact hk
          have := h3 _ _ hsuf
          rwa [show (stk lt v j).length - ((stk lt v j).length - st'.length + k) = st'.length - k by omega] at this
      · simp only [List.length_set, h4])
  refine ⟨q, rp', ?_, h4⟩
  simp only [Nat.sub_self, rest, Nat.add_zero] at h2
  rw [typeLoop, e, h2]

/-! ### Leftmost minima -/

/-- `m` is the leftmost minimum of the positions from `l` to `r`. -/
def LM (lt : α → α → Bool) (v : Nat → α) (l r m : Nat) : Prop :=
  l ≤ m ∧ m ≤ r ∧ ∀ k, l ≤ k → k ≤ r → lt (v k) (v m) = false ∧ (k < m → lt (v m) (v k) = true)

section
variable {lt : α → α → Bool} (hlt : WeakOrder lt)
include hlt

theorem irrefl (x : α) : lt x x = false := by
  by_contra h
  have h' : lt x x = true := by simpa using h
  rw [hlt.asymm x x h'] at h'; exact absurd h' (by simp)

theorem lt_of_le_lt {x y z : α} (h1 : lt y x = false) (h2 : lt y z = true) : lt x z = true := by
  by_contra h
  have h' : lt x z = false := by simpa using h
  have := hlt.neg y x z h1 h'
  rw [this] at h2; exact absurd h2 (by simp)

theorem lt_of_lt_le {x y z : α} (h1 : lt x y = true) (h2 : lt z y = false) : lt x z = true := by
  by_contra h
  have h' : lt x z = false := by simpa using h
  have := hlt.neg x z y h' h2
  rw [this] at h1; exact absurd h1 (by simp)

theorem LM.single (v : Nat → α) (l : Nat) : LM lt v l l l :=
  ⟨le_refl _, le_refl _, fun k h1 h2 => by obtain rfl : k = l := by omega
                                           exact ⟨irrefl hlt _, fun h => by omega⟩⟩

theorem LM.merge {v : Nat → α} {l r l' r' m m' : Nat} (h : LM lt v l r m) (h' : LM lt v l' r' m') (h1 : l ≤ l') (h2 : l' ≤ r + 1) (h3 : r ≤ r') :
    LM lt v l r' (if lt (v m') (v m) then m' else m) := by
  obtain ⟨a1, a2, a3⟩ := h
  obtain ⟨b1, b2, b3⟩ := h'
  split_ifs with hc
  · have key : ∀ k, l ≤ k → k ≤ r → lt (v m') (v k) = true := fun k k1 k2 => lt_of_lt_le hlt hc (a3 k k1 k2).1
    refine ⟨by omega, b2, fun k k1 k2 => ?_⟩
    by_cases hk : l' ≤ k
    · exact b3 k hk k2
    · have := key k k1 (by omega)
      exact ⟨hlt.asymm _ _ this, fun _ => this⟩
  · have hc : lt (v m') (v m) = false := by simpa using hc
    refine ⟨a1, by omega, fun k k1 k2 => ?_⟩
    by_cases hk : k ≤ r
    · exact a3 k k1 hk
    · exact ⟨hlt.neg _ _ _ (b3 k (by omega) k2).1 hc, fun h => by omega⟩

theorem mem_stk (v : Nat → α) : ∀ (j i : Nat), i ∈ stk lt v j ↔ i < j ∧ ∀ k, i < k → k < j → lt (v k) (v i) = false := by
  -- positions decrease along the stack
  have hsort : ∀ j, (stk lt v j).Pairwise (· > ·) ∧ ∀ i ∈ stk lt v j, i < j := by
    intro j
    induction j with
    | zero => simp [stk]
    | succ j ih =>
      have hs : ∀ i ∈ (stk lt v j).dropWhile (fun i => lt (v j) (v i)), i ∈ stk lt v j := fun i hi => (List.dropWhile_suffix _).subset hi
      rw [stk]
      refine ⟨List.pairwise_cons.mpr ⟨fun i hi => ih.2 i (hs i hi), ih.1.sublist (List.dropWhile_suffix _).sublist⟩, fun i hi => ?_⟩
      rcases List.mem_cons.mp hi with rfl | hi
      · omega
      · have := ih.2 i (hs i hi); omega
  have hdrop : ∀ (f : Nat → Bool) (st : List Nat), st.Pairwise (fun a b => f a = false → f b = false) →
      ∀ i, i ∈ st.dropWhile f ↔ i ∈ st ∧ f i = false := by
    intro f st
    induction st with
    | nil => intro _ i; simp
    | cons a st ih =>
      intro hp i
      rw [List.pairwise_cons] at hp
      by_cases ha : f a = true
      · rw [List.dropWhile_cons_of_pos ha, ih hp.2, List.mem_cons]
        constructor
        · rintro ⟨h1, h2⟩; exact ⟨Or.inr h1, h2⟩
        · rintro ⟨rfl | h1, h2⟩
          · rw [ha] at h2; exact absurd h2 (by simp)
          · exact ⟨h1, h2⟩
      · rw [List.dropWhile_cons_of_neg ha]
        have ha : f a = false := by simpa using ha
        constructor
        · intro h
          rcases List.mem_cons.mp h with rfl | h1
          · exact ⟨h, ha⟩
          · exact ⟨h, hp.1 i h1 ha⟩
        · exact fun h => h.1
  intro j
  induction j with
  | zero => intro i; simp [stk]
  | succ j ih =>
    intro i
    rw [stk, List.mem_cons, hdrop]
    · rw [ih]
      constructor
      · rintro (rfl | ⟨⟨h1, h2⟩, h3⟩)
        · exact ⟨by omega, fun k k1 k2 => by omega⟩
        · refine ⟨by omega, fun k k1 k2 => ?_⟩
          by_cases e : k = j
          · subst e; exact h3
          · exact h2 k k1 (by omega)
      · rintro ⟨h1, h2⟩
        by_cases e : i = j
        · exact Or.inl e
        · exact Or.inr ⟨⟨by omega, fun k k1 k2 => h2 k k1 (by omega)⟩, h2 j (by omega) (by omega)⟩
    · refine List.Pairwise.imp_of_mem ?_ (hsort j).1
      intro a b ha hb hab hfa
      have h1 := (ih b).mp hb
      exact hlt.neg _ _ _ hfa (h1.2 a hab ((ih a).mp ha).1)

/-- The stack determines the leftmost minima. -/
theorem LM.of_stk {v w : Nat → α} {l r m m' : Nat} (hs : stk lt v (r + 1) = stk lt w (r + 1)) (h : LM lt v l r m) (h' : LM lt w l r m') : m = m' := by
  have key : ∀ (v w : Nat → α) (m m' : Nat), stk lt v (r + 1) = stk lt w (r + 1) → LM lt v l r m → LM lt w l r m' → ¬ m' < m := by
    intro v w m m' hs h h' hlt'
    have h1 : m' ∈ stk lt w (r + 1) := (mem_stk hlt w _ _).mpr ⟨by have := h'.2.1; omega, fun k k1 k2 =>
      (h'.2.2 k (by have := h'.1; omega) (by omega)).1⟩
    rw [← hs, mem_stk hlt] at h1
    have h2 := h1.2 m hlt' (by have := h.2.1; omega)
    have h3 := (h.2.2 m' h'.1 h'.2.1).2 hlt'
    rw [h2] at h3; exact absurd h3 (by simp)
  have := key v w m m' hs h h'
  have := key w v m' m hs.symm h' h
  omega

/-! ### The tables of the blocks -/

/-- The table `T` holds the leftmost minima of the block `v`. -/
def Tbl (lt : α → α → Bool) (B : Nat) (f : Nat → Nat → Int) (v : Nat → α) : Prop :=
  ∀ l r, l ≤ r → r < B → ∃ m : Nat, f l r = m ∧ LM lt v l r m

omit hlt in
theorem charOf_signed {x : Int} (h0 : -1 ≤ x) (h : x < 128) : charOf true x = x := by
  rw [charOf, if_pos rfl]; omega

theorem populate_spec {B : Nat} (hB : B ≤ 128) {arr : List α} {n : Nat} {g : Nat → α} (ha : Rep arr n g) {i : Nat} (hi : i * B + B ≤ n)
    {T : List (List Int)} {f : Nat → Nat → Int} (hT : Mat T B f) :
    ∃ T' f', populate true lt B arr i T = some T' ∧ Mat T' B f' ∧ Tbl lt B f' (fun j => g (i * B + j)) := by
  set v : Nat → α := fun j => g (i * B + j) with hv
  have hrd : ∀ j, j < B → rd arr (i * B + j) = some (v j) := fun j hj => by rw [ha.rd (by omega)]
  have hirr := irrefl hlt
  obtain ⟨T', e, f', hm, hf⟩ := forUp_spec (body := fun left T => (forUp (fun right (s : Nat × List (List Int)) =>
      (rd arr (i * B + right)).bind fun x => (rd arr (i * B + s.1)).bind fun y =>
        (wr2 s.2 left right (charOf true ((if lt x y then right else s.1 : Nat) : Int))).map fun T =>
          (if lt x y then right else s.1, T)) left B (left, T)).map Prod.snd)
    (fun left T => ∃ f, Mat T B f ∧ ∀ l r, l < left → l ≤ r → r < B → ∃ m : Nat, f l r = m ∧ LM lt v l r m) (a := 0) (n := B) (by omega) (s := T)
    ⟨f, hT, fun l r h => by omega⟩ (by
      rintro left T _ hleft ⟨f, hm, hf⟩
      obtain ⟨⟨m, T2⟩, e, f2, hm2, hf2, hr2, _⟩ := forUp_spec (body := fun right (s : Nat × List (List Int)) =>
          (rd arr (i * B + right)).bind fun x => (rd arr (i * B + s.1)).bind fun y =>
            (wr2 s.2 left right (charOf true ((if lt x y then right else s.1 : Nat) : Int))).map fun T =>
              (if lt x y then right else s.1, T))
        (fun right s => ∃ f, Mat s.2 B f ∧ (∀ l r, l < left → l ≤ r → r < B → ∃ m : Nat, f l r = m ∧ LM lt v l r m) ∧
          (∀ r, left ≤ r → r < right → ∃ m : Nat, f left r = m ∧ LM lt v left r m) ∧
          ((right = left ∧ s.1 = left) ∨ (left < right ∧ LM lt v left (right - 1) s.1))) (a := left) (n := B) (by omega) (s := (left, T))
        ⟨f, hm, hf, fun r h1 h2 => by omega, Or.inl ⟨rfl, rfl⟩⟩ (by
          rintro right ⟨m, T⟩ hr1 hr ⟨f, hm, hf, hfl, hinv⟩
          simp only at hm hinv
          have hmB : m < B := by
            rcases hinv with ⟨h1, h2⟩ | ⟨h1, h2⟩
            · omega
            · have := h2.2.1; omega
          have hnew : LM lt v left right (if lt (v right) (v m) then right else m) := by
            rcases hinv with ⟨h1, h2⟩ | ⟨h1, h2⟩
            · subst h1 h2
              rw [hirr, if_neg (by simp)]
              exact LM.single hlt v _
            · exact LM.merge hlt h2 (LM.single hlt v right) (by omega) (by omega) (by omega)
          obtain ⟨m2, hm2⟩ : ∃ m2, m2 = if lt (v right) (v m) then right else m := ⟨_, rfl⟩
          have hm2B : m2 < B := by rw [hm2]; split_ifs <;> omega
          obtain ⟨T', e, hm'⟩ := hm.wr2 hleft hr (m2 : Int)
          refine ⟨(m2, T'), ?_, _, hm', fun l r h1 h2 h3 => ?_, fun r h1 h2 => ?_, Or.inr ⟨by omega, ?_⟩⟩
          · simp only [hrd right hr, hrd m hmB, Option.bind_some]
            rw [← hm2, charOf_signed (by omega) (by omega), e]; rfl
          · rw [upd2_ne _ _ _ _ (by omega)]; exact hf l r h1 h2 h3
          · by_cases e : r = right
            · subst e; exact ⟨m2, by rw [upd2_self], by rw [hm2]; exact hnew⟩
            · rw [upd2_ne _ _ _ _ (by tauto)]; exact hfl r h1 (by omega)
          · simp only; rw [Nat.add_sub_cancel, hm2]; exact hnew)
      refine ⟨T2, by simp only [e]; rfl, f2, hm2, fun l r h1 h2 h3 => ?_⟩
      by_cases e : l = left
      · subst e; exact hr2 r h2 h3
      · exact hf2 l r (by omega) h2 h3)
  exact ⟨T', f', e, hm, fun l r h1 h2 => hf l r (by omega) h1 h2⟩

/-- The trees after the construction. -/
structure TreesOk (lt : α → α → Bool) (B blocks : Nat) (g : Nat → α) (trees : List (List (List Int))) (block : List Nat) : Prop where
  get : ∀ i, i < blocks → ∃ N T f, block[i]? = some N ∧ trees[N]? = some T ∧ Mat T B f ∧ Tbl lt B f (fun j => g (i * B + j))

theorem buildTrees_spec {B : Nat} (hB0 : 0 < B) (hB : B ≤ 128) {ballot : List (List Nat)} {f : Nat → Nat → Nat} (hb : Mat ballot (B + 1) f)
    (hf : ∀ p q, p ≤ B → q ≤ B → f p q = bal p q) {arr : List α} {blocks : Nat} {g : Nat → α} (ha : Rep arr (blocks * B) g) (junk : α) :
    ∃ trees block, buildTrees true lt ballot B blocks arr junk = some (trees, block) ∧ TreesOk lt B blocks g trees block := by
  obtain ⟨T0, eT0, hT0⟩ := (Mat.replicate B (0 : Int)).wr2 hB0 hB0 (-1)
  obtain ⟨cnt, hcnt⟩ : ∃ cnt, cnt = bal B B := ⟨_, rfl⟩
  let code : Nat → Nat := fun i => rest lt (fun j => g (i * B + j)) B 0
  have hcode : ∀ i, code i < cnt := fun i => by
    have := rest_lt lt (fun j => g (i * B + j)) B 0
    simp only [stk, List.length_nil, Nat.add_zero] at this
    rw [hcnt]; exact this
  have hblk : ∀ i, i < blocks → i * B + B ≤ blocks * B := fun i hi => by
    have := Nat.mul_le_mul_right B (show i + 1 ≤ blocks by omega)
    rw [Nat.add_mul, Nat.one_mul] at this; exact this
  obtain ⟨⟨trees, block, rp⟩, e, h1, h2, h3, h4, _⟩ := forUp_spec (body := fun i (s : List (List (List Int)) × List Nat × List α) =>
        (typeLoop lt ballot B arr i s.2.2).bind fun r => (rd s.1 r.2.1).bind fun T =>
          (wr s.2.1 i r.2.1).bind fun block => (rd2 T 0 0).bind fun x =>
            if x ≠ -1 then some (s.1, block, r.2.2)
            else (populate true lt B arr i T).bind fun T => (wr s.1 r.2.1 T).map fun trees => (trees, block, r.2.2))
    (fun i s => s.1.length = cnt ∧ s.2.1.length = blocks ∧ (∀ i', i' < i → s.2.1[i']? = some (code i')) ∧
      (∀ N, N < cnt → ∃ T f, s.1[N]? = some T ∧ Mat T B f ∧ ((∃ i', i' < i ∧ code i' = N ∧ Tbl lt B f (fun j => g (i' * B + j))) ∨
        ((∀ i', i' < i → code i' ≠ N) ∧ f 0 0 = -1))) ∧ s.2.2.length = B + 1)
    (a := 0) (n := blocks) (by omega) (s := (List.replicate cnt T0, List.replicate blocks 0, List.replicate (B + 1) junk))
    ⟨by simp, by simp, fun i' h => by omega, fun N hN => ⟨T0, _, by simp [hN], hT0, Or.inr ⟨fun i' h => by omega, upd2_self _ _ _ _⟩⟩, by simp⟩ (by
      rintro i ⟨trees, block, rp⟩ _ hi ⟨h1, h2, h3, h4, h5⟩
      simp only at h1 h2 h3 h4 h5
      obtain ⟨q, rp', et, hrp'⟩ := typeLoop_spec (lt := lt) hb hf ha (hblk i hi) h5
      obtain ⟨T, f, eT, hT, hcase⟩ := h4 (code i) (hcode i)
      have ew : wr block i (code i) = some (block.set i (code i)) := by rw [wr, if_pos (by omega)]
      have hblock : ∀ i', i' < i + 1 → (block.set i (code i))[i']? = some (code i') := by
        intro i' hi'
        by_cases e : i' = i
        · subst e; rw [List.getElem?_set_self (by omega)]
        · rw [List.getElem?_set_ne (Ne.symm e)]; exact h3 i' (by omega)
      have hstart : ∀ s' , (if f 0 0 ≠ -1 then some (trees, block.set i (code i), rp')
            else (populate true lt B arr i T).bind fun T => (wr trees (code i) T).map fun trees => (trees, block.set i (code i), rp')) = some s' →
          ((typeLoop lt ballot B arr i rp).bind fun r => (rd trees r.2.1).bind fun T =>
          (wr block i r.2.1).bind fun block => (rd2 T 0 0).bind fun x =>
            if x ≠ -1 then some (trees, block, r.2.2)
            else (populate true lt B arr i T).bind fun T => (wr trees r.2.1 T).map fun trees => (trees, block, r.2.2)) = some s' := by
        intro s' h
        have eT' : rd trees (code i) = some T := eT
        have et' : typeLoop lt ballot B arr i rp = some (q, code i, rp') := et
        simp only [et', Option.bind_some, eT', ew, hT.rd2 hB0 hB0]
        exact h
      rcases hcase with ⟨i0, hi0, hc0, htbl⟩ | ⟨hno, hm1⟩
      · obtain ⟨m, em, _⟩ := htbl 0 0 (le_refl _) hB0
        refine ⟨(trees, block.set i (code i), rp'), hstart _ (by rw [if_pos (by rw [em]; omega)]), h1, by simp [h2], hblock, fun N hN => ?_, hrp'⟩
        obtain ⟨T', f', eT', hT', hcase'⟩ := h4 N hN
        refine ⟨T', f', eT', hT', ?_⟩
        rcases hcase' with ⟨i1, hi1, hc1, htbl1⟩ | ⟨hno1, hm1⟩
        · exact Or.inl ⟨i1, by omega, hc1, htbl1⟩
        · refine Or.inr ⟨fun i' hi' => ?_, hm1⟩
          by_cases e : i' = i
          · subst e; rw [← hc0]; exact hno1 i0 hi0
          · exact hno1 i' (by omega)
      · obtain ⟨T', f', ep, hT', htbl⟩ := populate_spec hlt hB ha (hblk i hi) hT
        have ew2 : wr trees (code i) T' = some (trees.set (code i) T') := by rw [wr, if_pos (by rw [h1]; exact hcode i)]
        refine ⟨(trees.set (code i) T', block.set i (code i), rp'), hstart _ (by rw [if_neg (by rw [hm1]; simp), ep, Option.bind_some, ew2]; rfl),
          by simp [h1], by simp [h2], hblock, fun N hN => ?_, hrp'⟩
        by_cases e : N = code i
        · subst e
          exact ⟨T', f', by rw [List.getElem?_set_self (by rw [h1]; exact hcode i)], hT', Or.inl ⟨i, by omega, rfl, htbl⟩⟩
        · obtain ⟨T2, f2, eT2, hT2, hcase2⟩ := h4 N hN
          refine ⟨T2, f2, by rw [List.getElem?_set_ne (Ne.symm e)]; exact eT2, hT2, ?_⟩
          rcases hcase2 with ⟨i1, hi1, hc1, htbl1⟩ | ⟨hno1, hm2⟩
          · exact Or.inl ⟨i1, by omega, hc1, htbl1⟩
          · refine Or.inr ⟨fun i' hi' => ?_, hm2⟩
            by_cases e' : i' = i
            · subst e'; exact Ne.symm e
            · exact hno1 i' (by omega))
  refine ⟨trees, block, ?_, ⟨fun i hi => ?_⟩⟩
  · rw [buildTrees, hb.rd2 (by omega) (by omega), Option.bind_some, hf B B (le_refl _) (le_refl _), ← hcnt, charOf_signed (by omega) (by omega), eT0, Option.bind_some, e]
    rfl
  · obtain ⟨T, f, eT, hT, hcase⟩ := h4 (code i) (hcode i)
    refine ⟨code i, T, f, h3 i hi, eT, hT, ?_⟩
    rcases hcase with ⟨i0, hi0, hc0, htbl⟩ | ⟨hno, _⟩
    · intro l r hl hr
      obtain ⟨m, em, hm⟩ := htbl l r hl hr
      refine ⟨m, em, ?_⟩
      -- the block has a leftmost minimum, and it is the same
      have hex : ∀ d, ∃ m', LM lt (fun j => g (i * B + j)) l (l + d) m' := by
        intro d
        induction d with
        | zero => exact ⟨l, LM.single hlt _ l⟩
        | succ d ih =>
          obtain ⟨m', hm'⟩ := ih
          exact ⟨_, LM.merge hlt hm' (LM.single hlt _ (l + (d + 1))) (by omega) (by omega) (by omega)⟩
      obtain ⟨m', hm'⟩ := hex (r - l)
      rw [show l + (r - l) = r by omega] at hm'
      have hs := rest_inj (lt := lt) (v := fun j => g (i0 * B + j)) (w := fun j => g (i * B + j)) B 0 rfl hc0 (r + 1) (by omega)
      rw [Nat.zero_add] at hs
      rw [LM.of_stk hlt hs hm hm']
      exact hm'
    · exact absurd rfl (hno i hi)

omit hlt in
/-- A block's leftmost minimum as a position of the array. -/
theorem LM.shift {g : Nat → α} {o l r m : Nat} (h : LM lt (fun j => g (o + j)) l r m) : LM lt g (o + l) (o + r) (o + m) := by
  refine ⟨by have := h.1; omega, by have := h.2.1; omega, fun k k1 k2 => ?_⟩
  have := h.2.2 (k - o) (by omega) (by omega)
  simp only [show o + (k - o) = k by omega] at this
  exact ⟨this.1, fun h => this.2 (by omega)⟩

omit hlt in
theorem treeIdx_spec {B blocks : Nat} {g : Nat → α} {trees block} (ht : TreesOk lt B blocks g trees block) {i l r : Nat} (hi : i < blocks) (hl : l ≤ r) (hr : r < B) :
    ∃ m : Nat, treeIdx B trees block i l r = some (m : Int) ∧ LM lt g (i * B + l) (i * B + r) m := by
  obtain ⟨N, T, f, e1, e2, hT, htbl⟩ := ht.get i hi
  obtain ⟨m, em, hm⟩ := htbl l r hl hr
  refine ⟨i * B + m, ?_, hm.shift⟩
  rw [treeIdx, rd, e1, Option.bind_some, rd, e2, Option.bind_some, hT.rd2 (by omega) hr, em]
  simp

theorem minIndex_spec {arr : List α} {n : Nat} {g : Nat → α} (ha : Rep arr n g) {l r l' r' m m' : Nat} (h : LM lt g l r m) (h' : LM lt g l' r' m')
    (h1 : l ≤ l') (h2 : l' ≤ r + 1) (h3 : r ≤ r') (hn : r' < n) : ∃ k : Nat, minIndex lt arr m m' = some (k : Int) ∧ LM lt g l r' k := by
  refine ⟨_, ?_, LM.merge hlt h h' h1 h2 h3⟩
  have hm := h.2.1
  have hm' := h'.2.1
  rw [minIndex, rdI, if_neg (by omega), Int.toNat_natCast, ha.rd (by omega), Option.bind_some, rdI, if_neg (by omega), Int.toNat_natCast, ha.rd (by omega), Option.map_some]
  split_ifs <;> rfl

/-! ### The sparse table -/

omit hlt in
theorem heightLoop_spec (blocks : Nat) : ∀ (fuel h : Nat), blocks < fuel + h → (∀ h', h' < h → 2 ^ h' < blocks) →
    ∃ H, heightLoop blocks fuel h = some H ∧ blocks ≤ 2 ^ H ∧ ∀ h', h' < H → 2 ^ h' < blocks := by
  intro fuel
  induction fuel with
  | zero =>
    intro h hf hh
    exfalso
    have h1 := hh (h - 1) (by omega)
    have h2 : h - 1 < 2 ^ (h - 1) := Nat.lt_two_pow_self
    omega
  | succ fuel ih =>
    intro h hf hh
    rw [heightLoop]
    split_ifs with hc
    · exact ih (h + 1) (by omega) fun h' hh' => by
        by_cases e : h' = h
        · subst e; exact hc
        · exact hh h' (by omega)
    · exact ⟨h, rfl, by omega, hh⟩

/-- The level `j` of the sparse table. -/
def LevelOk (lt : α → α → Bool) (B blocks : Nat) (g : Nat → α) (s : List Int) (j : Nat) : Prop :=
  ∀ i, i < blocks → ∃ m : Nat, s[j * blocks + i]? = some (m : Int) ∧ LM lt g (i * B) (min (i + 2 ^ j) blocks * B - 1) m

theorem levels_spec {B blocks H : Nat} (hB0 : 0 < B) {arr : List α} {g : Nat → α} (ha : Rep arr (blocks * B) g)
    (hH : ∀ h', h' < H → 2 ^ h' < blocks) (hH2 : blocks ≤ 2 ^ H) : ∀ (fuel j : Nat) (s : List Int), s.length = blocks * H → H ≤ fuel + j → j < H →
    (∀ j', j' ≤ j → LevelOk lt B blocks g s j') →
    ∃ s', levels lt arr blocks fuel (2 ^ j) (j * blocks) s = some s' ∧ ∀ j', j' < H → LevelOk lt B blocks g s' j' := by
  intro fuel
  induction fuel with
  | zero => intro j s _ h1 h2; omega
  | succ fuel ih =>
    intro j s hlen hf hj hok
    have hpow : 2 ^ j * 2 = 2 ^ (j + 1) := by rw [pow_succ]
    rw [levels]
    by_cases hc : 2 ^ j * 2 < blocks
    · rw [if_pos hc]
      have hjH : j + 1 < H := by
        by_contra h
        have : 2 ^ H ≤ 2 ^ (j + 1) := Nat.pow_le_pow_right (by omega) (by omega)
        omega
      have hroom : (j + 1) * blocks + blocks ≤ s.length := by
        rw [hlen, mul_comm blocks H]
        have := Nat.mul_le_mul_right blocks (show j + 2 ≤ H by omega)
        rw [show (j + 1) * blocks + blocks = (j + 2) * blocks by ring]; exact this
      have hoff : j * blocks + blocks = (j + 1) * blocks := by ring
      rw [hoff]
      -- the copy
      obtain ⟨s1, e1, l1, a1, b1⟩ := forUp_spec (body := fun i s => (rd s (j * blocks + i)).bind fun x => wr s ((j + 1) * blocks + i) x)
        (fun i (s1 : List Int) => s1.length = s.length ∧ (∀ x, x < (j + 1) * blocks → s1[x]? = s[x]?) ∧ ∀ x, x < i → s1[(j + 1) * blocks + x]? = s[j * blocks + x]?)
        (a := 0) (n := blocks) (by omega) (s := s) ⟨rfl, fun _ _ => rfl, fun x h => by omega⟩ (by
          rintro i s1 _ hi ⟨l1, a1, b1⟩
          obtain ⟨y, ey⟩ : ∃ y, s[j * blocks + i]? = some y := ⟨_, List.getElem?_eq_getElem (by omega)⟩
          refine ⟨s1.set ((j + 1) * blocks + i) y, ?_, by simp [l1], fun x hx => ?_, fun x hx => ?_⟩
          · simp only [rd]
            rw [a1 _ (by omega), ey, Option.bind_some, wr, if_pos (by omega)]
          · rw [List.getElem?_set_ne (by omega)]; exact a1 x hx
          · by_cases e : x = i
            · subst e; rw [List.getElem?_set_self (by omega), ey]
            · rw [List.getElem?_set_ne (by omega)]; exact b1 x (by omega))
      rw [e1, Option.bind_some]
      -- the level
      obtain ⟨s2, e2, l2, a2, b2, c2⟩ := forUp_spec (body := fun i s => (rd s ((j + 1) * blocks + i)).bind fun x => (rd s ((j + 1) * blocks + (i + 2 ^ j))).bind fun y =>
          (minIndex lt arr x y).bind fun m => wr s ((j + 1) * blocks + i) m)
        (fun i (s2 : List Int) => s2.length = s.length ∧ (∀ x, x < (j + 1) * blocks → s2[x]? = s[x]?) ∧
          (∀ x, x < i → ∃ m : Nat, s2[(j + 1) * blocks + x]? = some (m : Int) ∧ LM lt g (x * B) (min (x + 2 ^ (j + 1)) blocks * B - 1) m) ∧
          ∀ x, i ≤ x → x < blocks → s2[(j + 1) * blocks + x]? = s[j * blocks + x]?)
        (a := 0) (n := blocks - 2 ^ j) (by omega) (s := s1) ⟨l1, a1, fun x h => by omega, fun x _ hx => b1 x hx⟩ (by
          rintro i s2 _ hi ⟨l2, a2, b2, c2⟩
          obtain ⟨m1, em1, hm1⟩ := hok j (le_refl _) i (by omega)
          obtain ⟨m2, em2, hm2⟩ := hok j (le_refl _) (i + 2 ^ j) (by omega)
          have h1 : i * B ≤ (i + 2 ^ j) * B := Nat.mul_le_mul_right B (by omega)
          have hpos : 0 < 2 ^ j := Nat.two_pow_pos j
          have h5 : 0 < (i + 2 ^ j) * B := Nat.mul_pos (by omega) hB0
          have hmin1 : min (i + 2 ^ j) blocks = i + 2 ^ j := by omega
          have h3 : min (i + 2 ^ j) blocks * B ≤ min (i + 2 ^ j + 2 ^ j) blocks * B := Nat.mul_le_mul_right B (by omega)
          have h4 : min (i + 2 ^ j + 2 ^ j) blocks * B ≤ blocks * B := Nat.mul_le_mul_right B (by omega)
          rw [hmin1] at hm1 h3
          obtain ⟨k, ek, hk⟩ := minIndex_spec hlt ha hm1 hm2 h1 (by omega) (by omega) (by omega)
          have h6 : i + 2 ^ j + 2 ^ j = i + 2 ^ (j + 1) := by omega
          refine ⟨s2.set ((j + 1) * blocks + i) k, ?_, by simp [l2], fun x hx => ?_, fun x hx => ?_, fun x hx1 hx2 => ?_⟩
          · simp only [rd]
            rw [c2 i (le_refl _) (by omega), em1, Option.bind_some, c2 (i + 2 ^ j) (by omega) (by omega), em2, Option.bind_some, ek, Option.bind_some, wr, if_pos (by omega)]
          · rw [List.getElem?_set_ne (by omega)]; exact a2 x hx
          · by_cases e : x = i
            · subst e
              exact ⟨k, by rw [List.getElem?_set_self (by omega)], by rw [← h6]; exact hk⟩
            · rw [List.getElem?_set_ne (by omega)]; exact b2 x (by omega)
          · rw [List.getElem?_set_ne (by omega)]; exact c2 x (by omega) hx2)
      rw [e2, Option.bind_some, hpow]
      refine ih (j + 1) s2 (by rw [l2, hlen]) (by omega) hjH fun j' hj' => ?_
      by_cases e : j' = j + 1
      · subst e
        intro i hi
        by_cases hi2 : i < blocks - 2 ^ j
        · exact b2 i hi2
        · obtain ⟨m, em, hm⟩ := hok j (le_refl _) i hi
          refine ⟨m, by rw [c2 i (by omega) hi]; exact em, ?_⟩
          rw [show min (i + 2 ^ (j + 1)) blocks = min (i + 2 ^ j) blocks by omega]
          exact hm
      · intro i hi
        obtain ⟨m, em, hm⟩ := hok j' (by omega) i hi
        refine ⟨m, ?_, hm⟩
        rw [a2 _ ?_]
        · exact em
        · have := Nat.mul_le_mul_right blocks (show j' + 1 ≤ j + 1 by omega)
          rw [Nat.add_mul, Nat.one_mul] at this
          omega
    · rw [if_neg hc]
      refine ⟨s, rfl, fun j' hj' => hok j' ?_⟩
      by_contra h
      have h1 := hH (j + 1) (by omega)
      omega

theorem buildSparse_spec {B blocks : Nat} (hB0 : 0 < B) {arr : List α} {g : Nat → α} (ha : Rep arr (blocks * B) g) {trees block}
    (ht : TreesOk lt B blocks g trees block) : ∃ s H, buildSparse lt B blocks arr trees block = some s ∧ blocks ≤ 2 ^ H ∧
      ∀ j, j < H → LevelOk lt B blocks g s j := by
  obtain ⟨H, eH, h1, h2⟩ := heightLoop_spec blocks (blocks + 1) 0 (by omega) (fun h' h => by omega)
  rw [buildSparse, eH, Option.bind_some]
  by_cases hH : H = 0
  · rw [if_pos hH]; exact ⟨_, H, rfl, h1, fun j hj => by omega⟩
  · rw [if_neg hH]
    have hroom : blocks ≤ blocks * H := Nat.le_mul_of_pos_right _ (by omega)
    obtain ⟨s, e, l, b⟩ := forUp_spec (body := fun i s => (treeIdx B trees block i 0 (B - 1)).bind fun m => wr s i m)
      (fun i (s : List Int) => s.length = blocks * H ∧ ∀ x, x < i → ∃ m : Nat, s[x]? = some (m : Int) ∧ LM lt g (x * B) (x * B + (B - 1)) m)
      (a := 0) (n := blocks) (by omega) (s := List.replicate (blocks * H) 0) ⟨by simp, fun x h => by omega⟩ (by
        rintro i s _ hi ⟨l, b⟩
        obtain ⟨m, em, hm⟩ := treeIdx_spec ht hi (l := 0) (r := B - 1) (by omega) (by omega)
        refine ⟨s.set i m, by simp only [em, Option.bind_some]; rw [wr, if_pos (by omega)], by simp [l], fun x hx => ?_⟩
        by_cases e : x = i
        · subst e; exact ⟨m, by rw [List.getElem?_set_self (by omega)], hm⟩
        · rw [List.getElem?_set_ne (Ne.symm e)]; exact b x (by omega))
    have hlow : H ≤ blocks := by
      by_contra h
      have h3 := h2 (H - 1) (by omega)
      have h4 : H - 1 < 2 ^ (H - 1) := Nat.lt_two_pow_self
      omega
    obtain ⟨s', e', h'⟩ := levels_spec hlt hB0 ha h2 h1 (blocks + 1) 0 s l (by omega) (by omega) (by
      intro j' hj' i hi
      obtain rfl : j' = 0 := by omega
      obtain ⟨m, em, hm⟩ := b i hi
      refine ⟨m, by rw [Nat.zero_mul, Nat.zero_add]; exact em, ?_⟩
      rw [pow_zero, show min (i + 1) blocks = i + 1 by omega, Nat.add_mul, Nat.one_mul, show i * B + B - 1 = i * B + (B - 1) by omega]
      exact hm)
    rw [pow_zero, Nat.zero_mul] at e'
    exact ⟨s', H, by rw [e, Option.bind_some, e'], h1, h'⟩

end

/-! ### The logarithm -/

theorem orShift_bit (k : Nat) (v : BitVec 32) (i : Nat) : (orShift k v).getLsbD i = (v.getLsbD i || v.getLsbD (k + i)) := by
  rw [orShift, BitVec.getLsbD_or, BitVec.getLsbD_ushiftRight]

theorem orShift_step {v x : BitVec 32} {d : Nat} (hd : 0 < d) (h : ∀ i, x.getLsbD i = true ↔ ∃ e, e < d ∧ v.getLsbD (i + e) = true) (i : Nat) :
    (orShift d x).getLsbD i = true ↔ ∃ e, e < 2 * d ∧ v.getLsbD (i + e) = true := by
  rw [orShift_bit, Bool.or_eq_true, h, h]
  constructor
  · rintro (⟨e, h1, h2⟩ | ⟨e, h1, h2⟩)
    · exact ⟨e, by omega, h2⟩
    · exact ⟨d + e, by omega, by rw [show i + (d + e) = d + i + e by omega]; exact h2⟩
  · rintro ⟨e, h1, h2⟩
    by_cases h3 : e < d
    · exact Or.inl ⟨e, h3, h2⟩
    · exact Or.inr ⟨e - d, by omega, by rw [show d + i + (e - d) = i + e by omega]; exact h2⟩

theorem logTbl_spec (k : Nat) (hk : k < 32) : rd logTbl ((BitVec.ofNat 32 (2 ^ (k + 1) - 1) * 0x07C4ACDD#32) >>> 27).toNat = some k := by
  interval_cases k <;> rfl

theorem log2_32_spec {n : Nat} (hn : n < 2 ^ 32) : log2_32 (BitVec.ofNat 32 n) = some (Nat.log2 n) := by
  by_cases h0 : n = 0
  · subst h0; rfl
  obtain ⟨v, hv⟩ : ∃ v, v = BitVec.ofNat 32 n := ⟨_, rfl⟩
  have hbit : ∀ i, v.getLsbD i = n.testBit i := fun i => by
    rw [hv, BitVec.getLsbD_ofNat]
    by_cases hi : i < 32
    · simp [hi]
    · have : n.testBit i = false := Nat.testBit_lt_two_pow (lt_of_lt_of_le hn (Nat.pow_le_pow_right (by omega) (by omega)))
      simp [hi, this]
  have h1 := orShift_step (v := v) (x := v) (d := 1) (by omega) (fun i => ⟨fun h => ⟨0, by omega, h⟩, fun ⟨e, e1, e2⟩ => by
    obtain rfl : e = 0 := by omega
    exact e2⟩)
  have h5 := orShift_step (by omega) (orShift_step (by omega) (orShift_step (by omega) (orShift_step (by omega) h1)))
  have hk : Nat.log2 n < 32 := (Nat.log2_lt h0).mpr hn
  have hw : orShift 16 (orShift 8 (orShift 4 (orShift 2 (orShift 1 v)))) = BitVec.ofNat 32 (2 ^ (Nat.log2 n + 1) - 1) := by
    refine BitVec.eq_of_getLsbD_eq fun i hi => ?_
    rw [BitVec.getLsbD_ofNat, Nat.testBit_two_pow_sub_one, Bool.eq_iff_iff, h5 i]
    simp only [hi, decide_true, Bool.true_and, decide_eq_true_eq, hbit]
    constructor
    · rintro ⟨e, _, e2⟩
      by_contra h
      rw [Nat.testBit_lt_two_pow] at e2
      · exact absurd e2 (by simp)
      · exact lt_of_lt_of_le Nat.lt_log2_self (Nat.pow_le_pow_right (by omega) (by omega))
    · intro h
      refine ⟨Nat.log2 n - i, by omega, ?_⟩
      rw [show i + (Nat.log2 n - i) = Nat.log2 n by omega]
      exact Nat.testBit_log2 h0
  rw [log2_32, ← hv, hw, logTbl_spec _ hk]

/-! ### The result -/

/-- **C105.** For every strict weak ordering, every array and every block size up to 128, if `char` is signed, the
construction succeeds, and for every range `[b, e)` of the array `get_index` returns the position of the leftmost
minimum and `get_value` its value. -/
theorem C105_leftmost_minimum {lt : α → α → Bool} (hlt : WeakOrder lt) {B : Nat} (hB0 : 0 < B) (hB : B ≤ 128) (junkN : Nat) (junk z : α) (xs : List α)
    (hxs : xs.length < 2 ^ 32) :
    ∃ s, build true lt B junkN junk z xs = some s ∧ ∀ b e, b < e → e ≤ xs.length →
      ∃ i : Nat, getIndex lt B s b e = some (i : Int) ∧ LeftmostMin lt xs b e i ∧ getValue lt B s b e = xs[i]? := by
  obtain ⟨ballot, eb, f, hb, hf⟩ := calcBallot_spec B junkN
  obtain ⟨blocks, hblocks⟩ : ∃ blocks, blocks = (xs.length + B - 1) / B := ⟨_, rfl⟩
  obtain ⟨arr, harr⟩ : ∃ arr, arr = xs ++ List.replicate (blocks * B - xs.length) z := ⟨_, rfl⟩
  have hcap : xs.length ≤ blocks * B := by
    have h1 := Nat.div_add_mod (xs.length + B - 1) B
    have h2 := Nat.mod_lt (xs.length + B - 1) hB0
    rw [← hblocks, mul_comm] at h1
    omega
  have hlen : arr.length = blocks * B := by rw [harr]; simp; omega
  let g : Nat → α := fun i => arr.getD i z
  have ha : Rep arr (blocks * B) g := ⟨hlen, fun i hi => by
    show arr[i]? = some (arr.getD i z)
    rw [List.getD_eq_getElem _ _ (by omega), List.getElem?_eq_getElem (by omega)]⟩
  have hg : ∀ i, i < xs.length → xs[i]? = some (g i) := fun i hi => by
    have h1 : arr[i]? = some (g i) := ha.rd (show i < blocks * B by omega)
    rw [← h1, harr, List.getElem?_append_left hi]
  obtain ⟨trees, block, et, ht⟩ := buildTrees_spec hlt hB0 hB hb hf ha junk
  obtain ⟨sp, H, es, hH, hsp⟩ := buildSparse_spec hlt hB0 ha ht
  refine ⟨⟨blocks, arr, trees, block, sp⟩, ?_, fun b e hbe he => ?_⟩
  · rw [build, eb, Option.bind_some]
    simp only
    rw [← hblocks, ← harr, et, Option.bind_some, es]; rfl
  -- the index
  have key : ∃ i : Nat, getIndex lt B ⟨blocks, arr, trees, block, sp⟩ b e = some (i : Int) ∧ LM lt g b (e - 1) i := by
    obtain ⟨x, hx⟩ : ∃ x, x = b / B := ⟨_, rfl⟩
    obtain ⟨y, hy⟩ : ∃ y, y = (e - 1) / B := ⟨_, rfl⟩
    have hxl := Nat.div_add_mod b B
    have hxm := Nat.mod_lt b hB0
    have hyl := Nat.div_add_mod (e - 1) B
    have hym := Nat.mod_lt (e - 1) hB0
    rw [← hx, mul_comm] at hxl
    rw [← hy, mul_comm] at hyl
    have hxy : x ≤ y := by rw [hx, hy]; exact Nat.div_le_div_right (by omega)
    have hyb : y < blocks := by
      by_contra h
      have := Nat.mul_le_mul_right B (show blocks ≤ y by omega)
      omega
    have hmul : ∀ c d, c ≤ d → c * B ≤ d * B := fun c d h => Nat.mul_le_mul_right B h
    have hsucc : ∀ c, (c + 1) * B = c * B + B := fun c => by ring
    have hend : ∀ c, c < blocks → c * B + B ≤ blocks * B := fun c hc => by rw [← hsucc]; exact hmul _ _ hc
    rw [getIndex]
    simp only
    rw [← hx, ← hy]
    by_cases h0 : y - x = 0
    · rw [if_pos h0]
      obtain rfl : y = x := by omega
      obtain ⟨m, em, hm⟩ := treeIdx_spec ht hyb (l := b % B) (r := (e - 1) % B) (by omega) hym
      exact ⟨m, em, by rw [hxl, hyl] at hm; exact hm⟩
    rw [if_neg h0]
    obtain ⟨m, em, hm⟩ := treeIdx_spec ht (i := x) (by omega) (l := b % B) (r := B - 1) (by omega) (by omega)
    obtain ⟨n, en, hn⟩ := treeIdx_spec ht (i := y) hyb (l := 0) (r := (e - 1) % B) (by omega) hym
    rw [hxl] at hm
    rw [hyl, Nat.add_zero] at hn
    have hyend := hend y hyb
    rw [em, en, Option.bind_some]
    by_cases h1 : y - x = 1
    · rw [if_pos h1, Option.bind_some]
      obtain rfl : y = x + 1 := by omega
      have := hsucc x
      obtain ⟨k, ek, hk⟩ := minIndex_spec hlt ha hm hn (by omega) (by omega) (by omega) (by omega)
      exact ⟨k, ek, hk⟩
    · rw [if_neg h1]
      have hbig : y - x - 2 < 2 ^ 32 := by
        have : y ≤ e - 1 := by rw [hy]; exact Nat.div_le_self _ _
        omega
      rw [log2_32_spec hbig, Option.bind_some]
      obtain ⟨k, hk⟩ : ∃ k, k = Nat.log2 (y - x - 2) := ⟨_, rfl⟩
      rw [← hk]
      -- two powers cover the blocks between
      have hk1 : x + 1 + 2 ^ k ≤ y := by
        by_cases hz : y - x - 2 = 0
        · rw [hk, hz]
          have : Nat.log2 0 = 0 := rfl
          rw [this]; omega
        · have := Nat.log2_self_le hz
          rw [← hk] at this; omega
      have hk2 : y ≤ x + 1 + 2 ^ k + 2 ^ k := by
        have := Nat.lt_log2_self (n := y - x - 2)
        rw [← hk, pow_succ] at this; omega
      have hkH : k < H := by
        by_contra h
        have : 2 ^ H ≤ 2 ^ k := Nat.pow_le_pow_right (by omega) (by omega)
        omega
      have hpos := Nat.two_pow_pos k
      obtain ⟨m1, em1, hm1⟩ := hsp k hkH (x + 1) (by omega)
      obtain ⟨m2, em2, hm2⟩ := hsp k hkH (y - 2 ^ k) (by omega)
      rw [show min (x + 1 + 2 ^ k) blocks = x + 1 + 2 ^ k by omega] at hm1
      rw [show min (y - 2 ^ k + 2 ^ k) blocks = y by omega] at hm2
      have i1 : rd sp (x + 1 + blocks * k) = some (m1 : Int) := by rw [rd, ← em1, mul_comm k, Nat.add_comm]
      have i2 : rd sp (y + blocks * k - 2 ^ k) = some (m2 : Int) := by rw [rd, ← em2, mul_comm k]; congr 1; omega
      have s1 := hsucc x
      have s2 := hmul (x + 2) (x + 1 + 2 ^ k) (by omega)
      have s3 := hsucc (x + 1)
      have s4 := hmul (x + 1 + 2 ^ k) y hk1
      have s5 := hmul (y - 2 ^ k) (x + 1 + 2 ^ k) (by omega)
      have s6 := hmul (x + 1) (y - 2 ^ k) (by omega)
      have s7 := hmul (y - 2 ^ k + 1) y (by omega)
      have s8 := hsucc (y - 2 ^ k)
      obtain ⟨k1, ek1, hk1'⟩ := minIndex_spec hlt ha hm hm1 (by omega) (by omega) (by omega) (by omega)
      obtain ⟨k2, ek2, hk2'⟩ := minIndex_spec hlt ha hm2 hn (by omega) (by omega) (by omega) (by omega)
      obtain ⟨k3, ek3, hk3⟩ := minIndex_spec hlt ha hk1' hk2' (by omega) (by omega) (by omega) (by omega)
      simp only [i1, Option.bind_some, ek1, i2, ek2, ek3]
      exact ⟨k3, rfl, hk3⟩
  obtain ⟨i, ei, h1, h2, h3⟩ := key
  refine ⟨i, ei, ⟨h1, by omega, g i, hg i (by omega), fun j y j1 j2 hj => ?_⟩, ?_⟩
  · rw [hg j (by omega), Option.some.injEq] at hj
    rw [← hj]; exact h3 j j1 (by omega)
  · rw [getValue, ei, Option.bind_some, rdI, if_neg (by omega), Int.toNat_natCast, ha.rd (by omega), hg i (by omega)]

/-- **C105.** `size()` is not the length of the array but the next multiple of the block size. -/
theorem C105_size (signed : Bool) (lt : α → α → Bool) (B junkN : Nat) (junk z : α) (xs : List α) {s : RmqData α} (h : build signed lt B junkN junk z xs = some s)
    (hB0 : 0 < B) : size s = (xs.length + B - 1) / B * B := by
  rw [build] at h
  obtain ⟨ballot, _, h⟩ := Option.bind_eq_some_iff.mp h
  obtain ⟨t, _, h⟩ := Option.bind_eq_some_iff.mp h
  obtain ⟨sp, _, h⟩ := Option.map_eq_some_iff.mp h
  rw [← h, size]
  have h1 := Nat.div_add_mod (xs.length + B - 1) B
  have h2 := Nat.mod_lt (xs.length + B - 1) hB0
  rw [mul_comm] at h1
  simp; omega

/-- **C105.** If `char` is unsigned, the tables are never filled and wrong positions are returned. -/
theorem C105_unsigned_char : ∃ s, build false (fun a b : Int => decide (a < b)) 3 0 0 0 [5, 4, 3] = some s ∧
    getIndex (fun a b : Int => decide (a < b)) 3 s 0 3 = some 0 := by
  refine ⟨_, rfl, ?_⟩
  decide +kernel

/-- A query over four blocks. -/
example : ((build true (fun a b : Int => decide (a < b)) 3 7 0 0 [5, 4, 6, 8, 2, 9, 2, 7, 3, 1, 5]).bind fun s =>
    getIndex (fun a b : Int => decide (a < b)) 3 s 1 9) = some 4 := by decide +kernel

/-- The hypotheses are met. -/
example : WeakOrder (fun a b : Int => decide (a < b)) :=
  ⟨fun x y h => by simp at h ⊢; omega, fun x y z h1 h2 => by simp at h1 h2 ⊢; omega⟩

end Altruct.Rmq
