/-
C41: subset sums and subset convolution.
-/
import Verif.Convolution.Props

namespace Altruct.Convolution

set_option linter.unusedSectionVars false

variable {α : Type} [CommRing α]

/-! ### Fast subset sums -/

theorem and_bit (w i : Nat) : w &&& (1 <<< i) ≠ 0 ↔ w.testBit i = true := by
  rw [Nat.one_shiftLeft, Nat.testBit_eq_decide_div_mod_eq]
  constructor
  · intro h
    by_contra hb
    apply h
    apply Nat.eq_of_testBit_eq
    intro b
    rw [Nat.testBit_and, Nat.testBit_two_pow, Nat.zero_testBit]
    by_cases hbi : i = b
    · subst hbi
      rw [Nat.testBit_eq_decide_div_mod_eq]
      simpa using hb
    · simp [hbi]
  · intro h h0
    have h1 : (w &&& 2 ^ i).testBit i = true := by
      rw [Nat.testBit_and, Nat.testBit_two_pow, Nat.testBit_eq_decide_div_mod_eq, h]
      simp
    rw [h0, Nat.zero_testBit] at h1
    exact absurd h1 (by simp)

theorem xor_bit {w i : Nat} (h : w.testBit i = true) : w ^^^ (1 <<< i) = setBit i false w := by
  apply Nat.eq_of_testBit_eq
  intro b
  rw [Nat.one_shiftLeft, Nat.testBit_xor, testBit_setBit, Nat.testBit_two_pow]
  by_cases hb : b = i
  · subst hb; simp [h]
  · simp [hb, Ne.symm hb]

theorem subsetInner_spec {add : α → α → α} {L i : Nat} (hi : i < L) (g0 : Nat → α) :
    ∀ (c w : Nat) (r : List α), w + c = 2 ^ L →
    Rep r (2 ^ L) (fun x => if x < w then level (fun u v => (u, add v u)) i g0 x else g0 x) →
    ∃ r', subsetInner add i c w r = some r' ∧
      Rep r' (2 ^ L) (level (fun u v => (u, add v u)) i g0) := by
  intro c
  induction c with
  | zero =>
    intro w r hw hr
    exact ⟨r, rfl, hr.congr (fun x hx => by rw [if_pos (by omega)])⟩
  | succ c ih =>
    intro w r hw hr
    have hstep : ∃ r1, subsetStep add i w r = some r1 ∧ Rep r1 (2 ^ L)
        (fun x => if x < w + 1 then level (fun u v => (u, add v u)) i g0 x else g0 x) := by
      rw [subsetStep]
      by_cases hb : w.testBit i = true
      · rw [if_pos ((and_bit w i).mpr hb), xor_bit hb, subsetPut, hr.rd (by omega),
          hr.rd (setBit_lt hi false (by omega))]
        simp only [Option.bind_eq_bind, Option.bind_some]
        rw [hr.wr (by omega)]
        refine ⟨_, rfl, (hr.set w _).congr (fun x hx => ?_)⟩
        by_cases hxw : x = w
        · subst hxw
          have h1 : (setBit i false x).testBit i = false := by rw [testBit_setBit, if_pos rfl]
          have h2 : level (fun u v => (u, add v u)) i g0 (setBit i false x) =
              g0 (setBit i false x) := by
            rw [level, h1, if_neg (by simp)]
          have h3 : (if setBit i false x < x then
              level (fun u v => (u, add v u)) i g0 (setBit i false x) else g0 (setBit i false x)) =
              g0 (setBit i false x) := by
            rw [h2]; simp
          rw [Function.update_self, if_neg (lt_irrefl _), if_pos (Nat.lt_succ_self _), h3, level, if_pos hb]
        · rw [Function.update_of_ne hxw]
          by_cases h : x < w
          · rw [if_pos h, if_pos (by omega)]
          · rw [if_neg h, if_neg (by omega)]
      · rw [if_neg (fun h => hb ((and_bit w i).mp h))]
        refine ⟨r, rfl, hr.congr (fun x hx => ?_)⟩
        by_cases hxw : x = w
        · subst hxw
          rw [if_neg (lt_irrefl _), if_pos (by omega), level, if_neg hb]
        · by_cases h : x < w
          · rw [if_pos h, if_pos (by omega)]
          · rw [if_neg h, if_neg (by omega)]
    obtain ⟨r1, e1, h1⟩ := hstep
    rw [subsetInner, e1]
    simp only [Option.bind_eq_bind, Option.bind_some]
    exact ih (w + 1) r1 (by omega) h1

theorem subsetOuter_spec {add : α → α → α} {M : Bool → Bool → α} {L : Nat}
    (hl : Linear (fun u v => (u, add v u)) M) (f0 : Nat → α) :
    ∀ (c i : Nat) (r : List α) (g : Nat → α), i + c = L → Rep r (2 ^ L) g →
    Done M L f0 (fun b => b < i) g →
    ∃ r', subsetOuter add (2 ^ L) c i r = some r' ∧ Rep r' (2 ^ L) (kron M L f0) := by
  intro c
  induction c with
  | zero =>
    intro i r g hi hr hg
    exact ⟨r, rfl, hr.congr (fun k hk => done_all (fun b hb => by omega) hg hk)⟩
  | succ c ih =>
    intro i r g hi hr hg
    obtain ⟨r1, e1, h1⟩ := subsetInner_spec (add := add) (L := L) (i := i) (by omega) g (2 ^ L) 0 r
      (by omega) (hr.congr (fun x _ => by rw [if_neg (by omega)]))
    rw [subsetOuter, e1]
    simp only [Option.bind_eq_bind, Option.bind_some]
    exact ih (i + 1) r1 _ (by omega) h1
      (done_step hl (by omega) (fun b => b < i) _ (by omega) (fun b => by omega) hg)

theorem done_none (M : Bool → Bool → α) (L : Nat) (f : Nat → α) : Done M L f (fun b => b < 0) f := by
  intro k hk
  rw [done_start M L f k hk]
  apply Finset.sum_congr rfl
  intro i _
  congr 1

theorem copyLoop_spec {n : Nat} {f : List α} {F : Nat → α} (hf : Rep f n F) :
    ∀ (c w : Nat) (r : List α) (R : Nat → α), w + c = n → Rep r n R →
    ∃ r', copyLoop f c w r = some r' ∧ Rep r' n (fun x => if w ≤ x then F x else R x) := by
  intro c
  induction c with
  | zero =>
    intro w r R hw hr
    exact ⟨r, rfl, hr.congr (fun x hx => by rw [if_neg (by omega)])⟩
  | succ c ih =>
    intro w r R hw hr
    rw [copyLoop, hf.rd (by omega)]
    simp only [Option.bind_eq_bind, Option.bind_some]
    rw [hr.wr (by omega)]
    simp only [Option.bind_some]
    obtain ⟨r', e, h⟩ := ih (w + 1) _ _ (by omega) (hr.set w _)
    refine ⟨r', e, h.congr (fun x _ => ?_)⟩
    by_cases hx : x = w
    · subst hx; rw [if_neg (by omega), if_pos le_rfl, Function.update_self]
    · rw [Function.update_of_ne hx]
      by_cases h2 : w ≤ x
      · rw [if_pos (by omega), if_pos h2]
      · rw [if_neg (by omega), if_neg h2]

/-- The contents of `f`, which may be the array `r` itself. -/
def source (r : List α) (f : Option (List α)) : List α := f.getD r

theorem fastSubsetSum_kron {L : Nat} {r : List α} {f : Option (List α)} {F : Nat → α}
    (hr : r.length = 2 ^ L) (hf : Rep (source r f) (2 ^ L) F) :
    ∃ r', fastSubsetSum L r f = some r' ∧ Rep r' (2 ^ L) (kron mPlus L F) := by
  have hlin : Linear (fun u v : α => (u, v + u)) mPlus := linear_plus
  cases f with
  | none =>
    obtain ⟨r', e, h⟩ := subsetOuter_spec hlin F L 0 r F (by omega) hf (done_none _ L F)
    exact ⟨r', e, h⟩
  | some f =>
    obtain ⟨r1, e1, h1⟩ := copyLoop_spec (show Rep f (2 ^ L) F from hf) (2 ^ L) 0 r _ (by omega)
      (by have := @Rep.self α ⟨0⟩ r; rwa [hr] at this)
    obtain ⟨r', e, h⟩ := subsetOuter_spec hlin F L 0 r1 F (by omega)
      (h1.congr (fun x _ => by rw [if_pos (Nat.zero_le x)])) (done_none _ L F)
    exact ⟨r', by simp only [fastSubsetSum, e1, Option.bind_eq_bind, Option.bind_some]; exact e, h⟩

theorem fastSubsetSumInverse_kron {L : Nat} {r : List α} {f : Option (List α)} {F : Nat → α}
    (hr : r.length = 2 ^ L) (hf : Rep (source r f) (2 ^ L) F) :
    ∃ r', fastSubsetSumInverse L r f = some r' ∧ Rep r' (2 ^ L) (kron mMinus L F) := by
  have hlin : Linear (fun u v : α => (u, v - u)) mMinus := linear_minus
  cases f with
  | none =>
    obtain ⟨r', e, h⟩ := subsetOuter_spec hlin F L 0 r F (by omega) hf (done_none _ L F)
    exact ⟨r', e, h⟩
  | some f =>
    obtain ⟨r1, e1, h1⟩ := copyLoop_spec (show Rep f (2 ^ L) F from hf) (2 ^ L) 0 r _ (by omega)
      (by have := @Rep.self α ⟨0⟩ r; rwa [hr] at this)
    obtain ⟨r', e, h⟩ := subsetOuter_spec hlin F L 0 r1 F (by omega)
      (h1.congr (fun x _ => by rw [if_pos (Nat.zero_le x)])) (done_none _ L F)
    exact ⟨r', by simp only [fastSubsetSumInverse, e1, Option.bind_eq_bind, Option.bind_some]; exact e, h⟩

/-- `fast_subset_sum` sums over the bit-subsets (`f` may be the same array as `r`). -/
theorem C41_subset_sum {L : Nat} {r : List α} {f : Option (List α)} {F : Nat → α}
    (hr : r.length = 2 ^ L) (hf : Rep (source r f) (2 ^ L) F) :
    ∃ r', fastSubsetSum L r f = some r' ∧ Rep r' (2 ^ L) (subsetSum (2 ^ L) F) := by
  obtain ⟨r', e, h⟩ := fastSubsetSum_kron hr hf
  exact ⟨r', e, h.congr (fun x _ => kron_plus L F x)⟩

/-- `fast_subset_sum_inverse` finds the array whose subset sums are the given one. -/
theorem C41_subset_sum_inverse {L : Nat} {r : List α} {f : Option (List α)} {F : Nat → α}
    (hr : r.length = 2 ^ L) (hf : Rep (source r f) (2 ^ L) F) :
    (∃ r' R, fastSubsetSumInverse L r f = some r' ∧ Rep r' (2 ^ L) R ∧
      ∀ w, w < 2 ^ L → subsetSum (2 ^ L) R w = F w) ∧
    (fastSubsetSum L r f).bind (fun v => fastSubsetSumInverse L v none) = some (source r f) ∧
    (fastSubsetSumInverse L r f).bind (fun v => fastSubsetSum L v none) = some (source r f) := by
  obtain ⟨r1, e1, h1⟩ := fastSubsetSum_kron hr hf
  obtain ⟨r2, e2, h2⟩ := fastSubsetSumInverse_kron hr hf
  obtain ⟨r3, e3, h3⟩ := fastSubsetSumInverse_kron (f := none) h1.len h1
  obtain ⟨r4, e4, h4⟩ := fastSubsetSum_kron (f := none) h2.len h2
  refine ⟨⟨r2, _, e2, h2, fun w hw => ?_⟩, ?_, ?_⟩
  · rw [← kron_plus, kron_plus_minus L F hw]
  · rw [e1, Option.bind_some, e3, (h3.congr (fun x hx => kron_minus_plus L F hx)).eq_map, hf.eq_map]
  · rw [e2, Option.bind_some, e4, (h4.congr (fun x hx => kron_plus_minus L F hx)).eq_map, hf.eq_map]

/-! ### Enumeration of submasks -/

/-- `(s - 1) & w` is the largest bit-subset of `w` below the bit-subset `s`. -/
theorem pred_submask : ∀ (s w i : Nat), s &&& w = s → i &&& w = i → i < s → i ≤ (s - 1) &&& w := by
  intro s
  induction s using Nat.strong_induction_on with
  | _ s ih =>
    intro w i hs hi hlt
    have hsd : s / 2 &&& w / 2 = s / 2 := by rw [← Nat.and_div_two, hs]
    have hid : i / 2 &&& w / 2 = i / 2 := by rw [← Nat.and_div_two, hi]
    have hsm : s % 2 &&& w % 2 = s % 2 := by
      have := Nat.and_mod_two_pow (a := s) (b := w) (n := 1)
      rw [hs, pow_one] at this
      exact this.symm
    have him : i % 2 &&& w % 2 = i % 2 := by
      have := Nat.and_mod_two_pow (a := i) (b := w) (n := 1)
      rw [hi, pow_one] at this
      exact this.symm
    have hdiv : ((s - 1) &&& w) / 2 = (s - 1) / 2 &&& w / 2 := Nat.and_div_two
    have hmod : ((s - 1) &&& w) % 2 = (s - 1) % 2 &&& w % 2 := by
      have := Nat.and_mod_two_pow (a := s - 1) (b := w) (n := 1)
      rwa [pow_one] at this
    have hdm := Nat.div_add_mod ((s - 1) &&& w) 2
    rcases Nat.mod_two_eq_zero_or_one s with h0 | h0
    · -- the lowest bit of `s` is clear
      have e1 : (s - 1) / 2 = s / 2 - 1 := by omega
      have e2 : (s - 1) % 2 = 1 := by omega
      have h1 := ih (s / 2) (by omega) (w / 2) (i / 2) hsd hid (by omega)
      rw [e1] at hdiv
      rw [e2] at hmod
      have h2 : i % 2 ≤ 1 &&& w % 2 := by
        rcases Nat.mod_two_eq_zero_or_one i with hi0 | hi0
        · omega
        · rw [hi0] at him
          rw [him, hi0]
      omega
    · have e1 : (s - 1) / 2 = s / 2 := by omega
      rw [e1, hsd] at hdiv
      omega

theorem subLoop_spec {term : Nat → Option α} {t : Nat → α} {w : Nat} :
    ∀ (sub : Nat) (x : α), sub &&& w = sub → (∀ i, i &&& w = i → i ≤ sub → term i = some (t i)) →
    subLoop term w sub x =
      some (x + ∑ i ∈ Finset.range (sub + 1), if i &&& w = i then t i else 0) := by
  intro sub
  induction sub using Nat.strong_induction_on with
  | _ sub ih =>
    intro x hs ht
    rw [subLoop, ht sub hs le_rfl]
    simp only
    by_cases h0 : sub = 0
    · subst h0
      simp
    · rw [dif_neg h0]
      have hle : (sub - 1) &&& w ≤ sub - 1 := Nat.and_le_left
      have hsub : ((sub - 1) &&& w) &&& w = (sub - 1) &&& w := by
        rw [Nat.and_assoc, Nat.and_self]
      rw [ih _ (by omega) _ hsub (fun i h1 h2 => ht i h1 (by omega)), Finset.sum_range_succ _ sub,
        if_pos hs]
      congr 1
      have : ∑ i ∈ Finset.range ((sub - 1 &&& w) + 1), (if i &&& w = i then t i else 0) =
          ∑ i ∈ Finset.range sub, (if i &&& w = i then t i else 0) := by
        apply Finset.sum_subset
        · intro i hi
          rw [Finset.mem_range] at hi ⊢
          omega
        · intro i hi hi2
          rw [Finset.mem_range] at hi hi2
          rw [if_neg]
          intro h
          exact hi2 (by have := pred_submask sub w i hs h hi; omega)
      rw [this]
      ring

theorem slowSubsetLoop_spec {term : Nat → Nat → Option α} {n : Nat} {t : Nat → Nat → α}
    (ht : ∀ w i, w < n → i &&& w = i → term w i = some (t w i)) :
    ∀ (c w : Nat) (r : List α) (R : Nat → α), w + c = n → Rep r n R →
    ∃ r', slowSubsetLoop term c w r = some r' ∧ Rep r' n (fun x => if w ≤ x then
      ∑ i ∈ Finset.range n, (if i &&& x = i then t x i else 0) else R x) := by
  intro c
  induction c with
  | zero =>
    intro w r R hw hr
    exact ⟨r, rfl, hr.congr (fun x hx => by rw [if_neg (by omega)])⟩
  | succ c ih =>
    intro w r R hw hr
    rw [slowSubsetLoop, subLoop_spec (t := t w) w 0 (Nat.and_self w)
      (fun i hi _ => ht w i (by omega) hi)]
    simp only [Option.bind_eq_bind, Option.bind_some]
    rw [hr.wr (by omega)]
    simp only [Option.bind_some]
    obtain ⟨r', e, h⟩ := ih (w + 1) _ _ (by omega) (hr.set w _)
    refine ⟨r', e, h.congr (fun x _ => ?_)⟩
    by_cases hx : x = w
    · subst hx
      rw [if_neg (by omega), if_pos le_rfl, Function.update_self, zero_add]
      apply Finset.sum_subset
      · intro i hi
        rw [Finset.mem_range] at hi ⊢
        omega
      · intro i _ hi2
        rw [Finset.mem_range] at hi2
        rw [if_neg]
        intro h
        have : i &&& x ≤ x := Nat.and_le_right
        omega
    · rw [Function.update_of_ne hx]
      by_cases h2 : w ≤ x
      · rw [if_pos (by omega), if_pos h2]
      · rw [if_neg (by omega), if_neg h2]

theorem submask_le {i w : Nat} (h : i &&& w = i) : i ≤ w := by
  have : i &&& w ≤ w := Nat.and_le_right
  omega

theorem xor_submask_lt {L i w : Nat} (hw : w < 2 ^ L) (h : i &&& w = i) : w ^^^ i < 2 ^ L :=
  Nat.xor_lt_two_pow hw (lt_of_le_of_lt (submask_le h) hw)

/-- `slow_subset_sum` and `slow_subset_convolution`. -/
theorem C41_slow_subset {L : Nat} {r f g : List α} {F G : Nat → α} (hr : r.length = 2 ^ L)
    (hf : Rep f (2 ^ L) F) (hg : Rep g (2 ^ L) G) :
    (∃ r', slowSubsetSum L r f = some r' ∧ Rep r' (2 ^ L) (subsetSum (2 ^ L) F)) ∧
    (∃ r', slowSubsetConv L r f g = some r' ∧ Rep r' (2 ^ L) (subsetConv (2 ^ L) F G)) := by
  have hR : Rep r (2 ^ L) (fun i => r.getD i 0) := by
    have := @Rep.self α ⟨0⟩ r
    rwa [hr] at this
  constructor
  · obtain ⟨r', e, h⟩ := slowSubsetLoop_spec (term := fun _ sub => rd f sub) (n := 2 ^ L)
      (t := fun _ i => F i) (fun w i hw hi => hf.rd (lt_of_le_of_lt (submask_le hi) hw)) (2 ^ L) 0 r _
      (by omega) hR
    exact ⟨r', e, h.congr (fun x _ => by rw [if_pos (Nat.zero_le x)]; rfl)⟩
  · obtain ⟨r', e, h⟩ := slowSubsetLoop_spec (term := fun w sub => do
      let a ← rd f sub
      let b ← rd g (w ^^^ sub)
      some (a * b)) (n := 2 ^ L)
      (t := fun w i => F i * G (w ^^^ i)) (fun w i hw hi => by
        rw [hf.rd (lt_of_le_of_lt (submask_le hi) hw), hg.rd (xor_submask_lt hw hi)]; rfl) (2 ^ L) 0 r _
      (by omega) hR
    exact ⟨r', e, h.congr (fun x _ => by rw [if_pos (Nat.zero_le x)]; rfl)⟩

/-! ### Fast subset convolution -/

/-- A vector of `K` vectors of `n` elements. -/
structure Rep2 (a : List (List α)) (K n : Nat) (h : Nat → Nat → α) : Prop where
  len : a.length = K
  row : ∀ k, k < K → ∃ v, a[k]? = some v ∧ Rep v n (h k)

theorem Rep2.rd2 {a : List (List α)} {K n : Nat} {h : Nat → Nat → α} (ha : Rep2 a K n h) {k w : Nat}
    (hk : k < K) (hw : w < n) : rd2 a k w = some (h k w) := by
  obtain ⟨v, e, hv⟩ := ha.row k hk
  rw [Convolution.rd2, rd, e]
  exact hv.rd hw

theorem Rep2.wr2 {a : List (List α)} {K n : Nat} {h : Nat → Nat → α} (ha : Rep2 a K n h) {k w : Nat}
    (hk : k < K) (hw : w < n) (x : α) : ∃ a', wr2 a k w x = some a' ∧
      Rep2 a' K n (fun k' w' => if k' = k ∧ w' = w then x else h k' w') := by
  obtain ⟨v, e, hv⟩ := ha.row k hk
  refine ⟨a.set k (v.set w x), ?_, ⟨by rw [List.length_set, ha.len], fun k' hk' => ?_⟩⟩
  · rw [Convolution.wr2, rd, e]
    simp only [Option.bind_eq_bind, Option.bind_some]
    rw [hv.wr hw]
    simp only [Option.bind_some]
    rw [wr, if_pos (by rw [ha.len]; exact hk)]
  · by_cases hkk : k' = k
    · subst hkk
      refine ⟨_, List.getElem?_set_self (by rw [ha.len]; exact hk), (hv.set w x).congr (fun i _ => ?_)⟩
      by_cases hi : i = w
      · subst hi; simp
      · rw [Function.update_of_ne hi, if_neg (by tauto)]
    · obtain ⟨v', e', hv'⟩ := ha.row k' hk'
      refine ⟨v', by rw [List.getElem?_set_ne (Ne.symm hkk)]; exact e', hv'.congr (fun i _ => ?_)⟩
      rw [if_neg (by tauto)]

theorem Rep2.congr {a : List (List α)} {K n : Nat} {h h' : Nat → Nat → α} (ha : Rep2 a K n h)
    (e : ∀ k w, k < K → w < n → h k w = h' k w) : Rep2 a K n h' :=
  ⟨ha.len, fun k hk => by
    obtain ⟨v, e1, hv⟩ := ha.row k hk
    exact ⟨v, e1, hv.congr (fun w hw => e k w hk hw)⟩⟩

theorem rep2_zero (K n : Nat) :
    Rep2 (List.replicate K (List.replicate n (0 : α))) K n (fun _ _ => 0) :=
  ⟨by simp, fun k hk => ⟨List.replicate n 0, by simp [hk], Rep.replicate n 0⟩⟩

theorem rankLoop_spec {cnt : Nat → Option Nat} {p : Nat → Nat} {n K : Nat}
    (hcnt : ∀ w, w < n → cnt w = some (p w) ∧ p w < K) {f : List α} {F : Nat → α} (hf : Rep f n F) :
    ∀ (c w : Nat) (a : List (List α)) (h : Nat → Nat → α), w + c = n → Rep2 a K n h →
    ∃ a', rankLoop cnt f c w a = some a' ∧
      Rep2 a' K n (fun k x => if w ≤ x ∧ p x = k then F x else h k x) := by
  intro c
  induction c with
  | zero =>
    intro w a h hw ha
    exact ⟨a, rfl, ha.congr (fun k x _ hx => by rw [if_neg (by omega)])⟩
  | succ c ih =>
    intro w a h hw ha
    obtain ⟨e1, e2⟩ := hcnt w (by omega)
    obtain ⟨a1, e3, h3⟩ := ha.wr2 e2 (show w < n by omega) (F w)
    rw [rankLoop, e1]
    simp only [Option.bind_eq_bind, Option.bind_some]
    rw [hf.rd (by omega)]
    simp only [Option.bind_some]
    rw [e3]
    simp only [Option.bind_some]
    obtain ⟨a', e, h4⟩ := ih (w + 1) a1 _ (by omega) h3
    refine ⟨a', e, h4.congr (fun k x _ _ => ?_)⟩
    by_cases hx : x = w
    · subst hx
      rw [if_neg (by omega)]
      by_cases hk : p x = k
      · rw [if_pos ⟨hk.symm, rfl⟩, if_pos ⟨le_rfl, hk⟩]
      · rw [if_neg (fun h => hk h.1.symm), if_neg (fun h => hk h.2)]
    · rw [if_neg (c := k = p w ∧ x = w) (fun h => hx h.2)]
      have hiff : (w + 1 ≤ x ∧ p x = k) ↔ (w ≤ x ∧ p x = k) := by
        constructor
        · rintro ⟨h1, h2⟩; exact ⟨by omega, h2⟩
        · rintro ⟨h1, h2⟩; exact ⟨by omega, h2⟩
      simp only [hiff]

theorem mapRows_spec {t : List α → Option (List α)} {P : (Nat → α) → Nat → α} {n K : Nat}
    (ht : ∀ v V, Rep v n V → ∃ v', t v = some v' ∧ Rep v' n (P V)) :
    ∀ (c i : Nat) (a : List (List α)) (h : Nat → Nat → α), i + c = K → Rep2 a K n h →
    ∃ a', mapRows t c i a = some a' ∧ Rep2 a' K n (fun k => if i ≤ k then P (h k) else h k) := by
  intro c
  induction c with
  | zero =>
    intro i a h hi ha
    exact ⟨a, rfl, ha.congr (fun k x hk _ => by rw [if_neg (by omega)])⟩
  | succ c ih =>
    intro i a h hi ha
    obtain ⟨v, e, hv⟩ := ha.row i (by omega)
    obtain ⟨v', e2, hv'⟩ := ht v _ hv
    rw [mapRows, rd, e]
    simp only [Option.bind_eq_bind, Option.bind_some]
    rw [e2]
    simp only [Option.bind_some]
    rw [wr, if_pos (by rw [ha.len]; omega)]
    simp only [Option.bind_some]
    have h3 : Rep2 (a.set i v') K n (fun k => if k = i then P (h i) else h k) := by
      refine ⟨by rw [List.length_set, ha.len], fun k hk => ?_⟩
      by_cases hki : k = i
      · subst hki
        refine ⟨v', List.getElem?_set_self (by rw [ha.len]; exact hk), ?_⟩
        rw [if_pos rfl]; exact hv'
      · obtain ⟨u, e', hu⟩ := ha.row k hk
        refine ⟨u, by rw [List.getElem?_set_ne (Ne.symm hki)]; exact e', ?_⟩
        rw [if_neg hki]; exact hu
    obtain ⟨a', e', h4⟩ := ih (i + 1) _ _ (by omega) h3
    refine ⟨a', e', h4.congr (fun k x _ _ => ?_)⟩
    by_cases hki : k = i
    · subst hki; rw [if_neg (by omega), if_pos rfl, if_pos le_rfl]
    · rw [if_neg hki]
      by_cases h2 : i ≤ k
      · rw [if_pos (by omega), if_pos h2]
      · rw [if_neg (by omega), if_neg h2]

theorem rankMulW_spec {f1 g1 : List (List α)} {K n : Nat} {f g : Nat → Nat → α}
    (hf : Rep2 f1 K n f) (hg : Rep2 g1 K n g) {k j : Nat} (hk : k < K) (hj : j ≤ k) :
    ∀ (c w : Nat) (a : List (List α)) (h : Nat → Nat → α), w + c = n → Rep2 a K n h →
    ∃ a', rankMulW f1 g1 k j c w a = some a' ∧
      Rep2 a' K n (fun k' x => if k' = k ∧ w ≤ x then h k x + f j x * g (k - j) x else h k' x) := by
  intro c
  induction c with
  | zero =>
    intro w a h hw ha
    exact ⟨a, rfl, ha.congr (fun k' x _ hx => by rw [if_neg (by omega)])⟩
  | succ c ih =>
    intro w a h hw ha
    obtain ⟨a1, e3, h3⟩ := ha.wr2 hk (show w < n by omega) (h k w + f j w * g (k - j) w)
    rw [rankMulW, ha.rd2 hk (by omega)]
    simp only [Option.bind_eq_bind, Option.bind_some]
    rw [hf.rd2 (by omega) (by omega)]
    simp only [Option.bind_some]
    rw [hg.rd2 (by omega) (by omega)]
    simp only [Option.bind_some]
    rw [e3]
    simp only [Option.bind_some]
    obtain ⟨a', e, h4⟩ := ih (w + 1) a1 _ (by omega) h3
    refine ⟨a', e, h4.congr (fun k' x _ _ => ?_)⟩
    by_cases hx : x = w
    · subst hx
      rw [if_neg (by omega)]
      by_cases hkk : k' = k
      · rw [if_pos ⟨hkk, rfl⟩, if_pos ⟨hkk, le_rfl⟩]
      · rw [if_neg (fun h => hkk h.1), if_neg (fun h => hkk h.1)]
    · rw [if_neg (c := k = k ∧ x = w) (fun h => hx h.2), if_neg (c := k' = k ∧ x = w) (fun h => hx h.2)]
      have hiff : (k' = k ∧ w + 1 ≤ x) ↔ (k' = k ∧ w ≤ x) := by
        constructor
        · rintro ⟨h1, h2⟩; exact ⟨h1, by omega⟩
        · rintro ⟨h1, h2⟩; exact ⟨h1, by omega⟩
      simp only [hiff]

theorem rankMulJ_spec {f1 g1 : List (List α)} {K n : Nat} {f g : Nat → Nat → α}
    (hf : Rep2 f1 K n f) (hg : Rep2 g1 K n g) {k : Nat} (hk : k < K) :
    ∀ (c j : Nat) (a : List (List α)) (h : Nat → Nat → α), j + c = k + 1 → Rep2 a K n h →
    ∃ a', rankMulJ f1 g1 n k c j a = some a' ∧
      Rep2 a' K n (fun k' x => if k' = k then
        h k x + ∑ t ∈ Finset.range c, f (j + t) x * g (k - (j + t)) x else h k' x) := by
  intro c
  induction c with
  | zero =>
    intro j a h hj ha
    refine ⟨a, rfl, ha.congr (fun k' x _ _ => ?_)⟩
    by_cases hkk : k' = k
    · subst hkk; simp
    · rw [if_neg hkk]
  | succ c ih =>
    intro j a h hj ha
    obtain ⟨a1, e1, h1⟩ := rankMulW_spec hf hg hk (show j ≤ k by omega) n 0 a h (by omega) ha
    rw [rankMulJ, e1]
    simp only [Option.bind_eq_bind, Option.bind_some]
    obtain ⟨a', e, h2⟩ := ih (j + 1) a1 _ (by omega) h1
    refine ⟨a', e, h2.congr (fun k' x _ _ => ?_)⟩
    by_cases hkk : k' = k
    · subst hkk
      rw [if_pos rfl, if_pos rfl, if_pos ⟨rfl, Nat.zero_le x⟩, Finset.sum_range_succ']
      have : ∀ t, j + 1 + t = j + (t + 1) := fun t => by omega
      simp only [this, Nat.add_zero]
      ring
    · rw [if_neg hkk, if_neg hkk, if_neg (fun h => hkk h.1)]

theorem rankMulK_spec {f1 g1 : List (List α)} {K n : Nat} {f g : Nat → Nat → α}
    (hf : Rep2 f1 K n f) (hg : Rep2 g1 K n g) :
    ∀ (c k : Nat) (a : List (List α)) (h : Nat → Nat → α), k + c = K → Rep2 a K n h →
    ∃ a', rankMulK f1 g1 n c k a = some a' ∧
      Rep2 a' K n (fun k' x => if k ≤ k' then
        h k' x + ∑ t ∈ Finset.range (k' + 1), f t x * g (k' - t) x else h k' x) := by
  intro c
  induction c with
  | zero =>
    intro k a h hk ha
    exact ⟨a, rfl, ha.congr (fun k' x hk' _ => by rw [if_neg (by omega)])⟩
  | succ c ih =>
    intro k a h hk ha
    obtain ⟨a1, e1, h1⟩ := rankMulJ_spec hf hg (show k < K by omega) (k + 1) 0 a h (by omega) ha
    rw [rankMulK, e1]
    simp only [Option.bind_eq_bind, Option.bind_some]
    obtain ⟨a', e, h2⟩ := ih (k + 1) a1 _ (by omega) h1
    refine ⟨a', e, h2.congr (fun k' x _ _ => ?_)⟩
    by_cases hkk : k' = k
    · subst hkk
      rw [if_neg (by omega), if_pos rfl, if_pos le_rfl]
      simp
    · by_cases h3 : k ≤ k'
      · rw [if_pos (by omega), if_neg hkk, if_pos h3]
      · rw [if_neg (by omega), if_neg hkk, if_neg h3]

theorem unrankLoop_spec {cnt : Nat → Option Nat} {p : Nat → Nat} {n K : Nat}
    (hcnt : ∀ w, w < n → cnt w = some (p w) ∧ p w < K) {a : List (List α)} {h : Nat → Nat → α}
    (ha : Rep2 a K n h) : ∀ (c w : Nat) (r : List α) (R : Nat → α), w + c = n → Rep r n R →
    ∃ r', unrankLoop cnt a c w r = some r' ∧ Rep r' n (fun x => if w ≤ x then h (p x) x else R x) := by
  intro c
  induction c with
  | zero =>
    intro w r R hw hr
    exact ⟨r, rfl, hr.congr (fun x hx => by rw [if_neg (by omega)])⟩
  | succ c ih =>
    intro w r R hw hr
    obtain ⟨e1, e2⟩ := hcnt w (by omega)
    rw [unrankLoop, e1]
    simp only [Option.bind_eq_bind, Option.bind_some]
    rw [ha.rd2 e2 (by omega)]
    simp only [Option.bind_some]
    rw [hr.wr (by omega)]
    simp only [Option.bind_some]
    obtain ⟨r', e, h3⟩ := ih (w + 1) _ _ (by omega) (hr.set w _)
    refine ⟨r', e, h3.congr (fun x _ => ?_)⟩
    by_cases hx : x = w
    · subst hx; rw [if_neg (by omega), if_pos le_rfl, Function.update_self]
    · rw [Function.update_of_ne hx]
      by_cases h2 : w ≤ x
      · rw [if_pos (by omega), if_pos h2]
      · rw [if_neg (by omega), if_neg h2]

open Bits in
theorem pc_or_and : ∀ a b : Nat, pc (a ||| b) + pc (a &&& b) = pc a + pc b := by
  intro a
  induction a using Nat.strong_induction_on with
  | _ a ih =>
    intro b
    by_cases ha : a = 0
    · subst ha; simp [pc_zero]
    · rw [pc_step (a ||| b), pc_step (a &&& b), pc_step a, pc_step b, Nat.or_div_two, Nat.and_div_two]
      have h1 := ih (a / 2) (by omega) (b / 2)
      have h2 : (a ||| b) % 2 = a % 2 ||| b % 2 := by
        have := Nat.or_mod_two_pow (a := a) (b := b) (n := 1)
        rwa [pow_one] at this
      have h3 : (a &&& b) % 2 = a % 2 &&& b % 2 := by
        have := Nat.and_mod_two_pow (a := a) (b := b) (n := 1)
        rwa [pow_one] at this
      rw [h2, h3]
      rcases Nat.mod_two_eq_zero_or_one a with h4 | h4 <;>
        rcases Nat.mod_two_eq_zero_or_one b with h5 | h5 <;> simp only [h4, h5] <;> simp <;> omega

open Bits in
theorem pc_eq_zero : ∀ a : Nat, pc a = 0 → a = 0 := by
  intro a
  induction a using Nat.strong_induction_on with
  | _ a ih =>
    intro h
    by_cases ha : a = 0
    · exact ha
    · rw [pc_step] at h
      have := ih (a / 2) (by omega) (by omega)
      omega

open Bits in
theorem ranked_iff {a b w : Nat} : (a ||| b = w ∧ pc a + pc b = pc w) ↔ (a &&& w = a ∧ b = w ^^^ a) := by
  constructor
  · rintro ⟨rfl, h⟩
    have h1 := pc_or_and a b
    have h2 : a &&& b = 0 := pc_eq_zero _ (by omega)
    have h3 : ∀ t, (a.testBit t && b.testBit t) = false := by
      intro t; rw [← Nat.testBit_and, h2]; simp
    constructor
    · apply Nat.eq_of_testBit_eq
      intro t
      rw [Nat.testBit_and, Nat.testBit_or]
      cases a.testBit t <;> cases b.testBit t <;> rfl
    · apply Nat.eq_of_testBit_eq
      intro t
      have := h3 t
      rw [Nat.testBit_xor, Nat.testBit_or]
      revert this
      cases a.testBit t <;> cases b.testBit t <;> simp
  · rintro ⟨h, rfl⟩
    have h3 : ∀ t, (a.testBit t && w.testBit t) = a.testBit t := by
      intro t; rw [← Nat.testBit_and, h]
    have h4 : a ||| (w ^^^ a) = w := by
      apply Nat.eq_of_testBit_eq
      intro t
      have := h3 t
      rw [Nat.testBit_or, Nat.testBit_xor]
      revert this
      cases a.testBit t <;> cases w.testBit t <;> simp
    have h5 : a &&& (w ^^^ a) = 0 := by
      apply Nat.eq_of_testBit_eq
      intro t
      have := h3 t
      rw [Nat.testBit_and, Nat.testBit_xor, Nat.zero_testBit]
      revert this
      cases a.testBit t <;> cases w.testBit t <;> simp
    refine ⟨h4, ?_⟩
    have := pc_or_and a (w ^^^ a)
    rw [h4, h5, pc_zero] at this
    omega

theorem kron_sum (M : Bool → Bool → α) (L n : Nat) (f : Nat → Nat → α) (k : Nat) :
    kron M L (fun x => ∑ t ∈ Finset.range n, f t x) k = ∑ t ∈ Finset.range n, kron M L (f t) k := by
  simp only [kron, Finset.mul_sum]
  rw [Finset.sum_comm]

open Bits in
theorem ranked_conv {L : Nat} (F G : Nat → α) {w : Nat} (hw : w < 2 ^ L) :
    ∑ t ∈ Finset.range (pc w + 1), conv (· ||| ·) (2 ^ L) (fun x => if pc x = t then F x else 0)
      (fun x => if pc x = pc w - t then G x else 0) w = subsetConv (2 ^ L) F G w := by
  simp only [conv]
  rw [Finset.sum_comm, subsetConv]
  apply Finset.sum_congr rfl
  intro a ha
  rw [Finset.mem_range] at ha
  rw [Finset.sum_comm]
  have h1 : ∀ b ∈ Finset.range (2 ^ L), (∑ t ∈ Finset.range (pc w + 1), if a ||| b = w then
      (if pc a = t then F a else 0) * (if pc b = pc w - t then G b else 0) else 0) =
      if b = w ^^^ a then (if a &&& w = a then F a * G (w ^^^ a) else 0) else 0 := by
    intro b _
    have h2 : (∑ t ∈ Finset.range (pc w + 1), if a ||| b = w then
        (if pc a = t then F a else 0) * (if pc b = pc w - t then G b else 0) else 0) =
        if a ||| b = w ∧ pc a + pc b = pc w then F a * G b else 0 := by
      by_cases hor : a ||| b = w
      · simp only [if_pos hor]
        by_cases hpa : pc a ≤ pc w
        · rw [Finset.sum_eq_single (pc a)]
          · rw [if_pos rfl]
            by_cases hs : pc a + pc b = pc w
            · rw [if_pos (by omega), if_pos ⟨hor, hs⟩]
            · rw [if_neg (by omega), if_neg (fun h => hs h.2), mul_zero]
          · intro t _ ht
            rw [if_neg (Ne.symm ht), zero_mul]
          · intro h
            exact absurd (Finset.mem_range.mpr (by omega)) h
        · rw [if_neg (by omega)]
          apply Finset.sum_eq_zero
          intro t ht
          rw [Finset.mem_range] at ht
          rw [if_neg (by omega), zero_mul]
      · rw [if_neg (fun h => hor h.1)]
        apply Finset.sum_eq_zero
        intro t _
        rw [if_neg hor]
    rw [h2]
    by_cases h3 : a &&& w = a ∧ b = w ^^^ a
    · rw [if_pos (ranked_iff.mpr h3), if_pos h3.2, if_pos h3.1, ← h3.2]
    · rw [if_neg (fun h => h3 (ranked_iff.mp h))]
      by_cases h4 : b = w ^^^ a
      · rw [if_pos h4, if_neg (fun h => h3 ⟨h, h4⟩)]
      · rw [if_neg h4]
  rw [Finset.sum_congr rfl h1, Finset.sum_ite_eq']
  by_cases h5 : a &&& w = a
  · rw [if_pos (Finset.mem_range.mpr (xor_submask_lt hw h5))]
  · rw [if_neg h5, ite_self]

theorem fastSubsetConvWith_spec {cnt : Nat → Option Nat} {L : Nat}
    (hcnt : ∀ w, w < 2 ^ L → cnt w = some (Bits.pc w)) {r f g : Nat} {F G : Nat → α} {m : Mem α}
    (hr : (m r).length = 2 ^ L) (hf : Rep (m f) (2 ^ L) F) (hg : Rep (m g) (2 ^ L) G) :
    ∃ m', fastSubsetConvWith cnt L r f g m = some m' ∧
      Rep (m' r) (2 ^ L) (subsetConv (2 ^ L) F G) ∧ ∀ a, a ≠ r → m' a = m a := by
  have hcnt' : ∀ w, w < 2 ^ L → cnt w = some (Bits.pc w) ∧ Bits.pc w < L + 1 := fun w hw =>
    ⟨hcnt w hw, Nat.lt_succ_of_le (Bits.pc_le w L hw)⟩
  have hz := rep2_zero (α := α) (L + 1) (2 ^ L)
  have hR : Rep (m r) (2 ^ L) (fun i => (m r).getD i 0) := by
    have := @Rep.self α ⟨0⟩ (m r)
    rwa [hr] at this
  obtain ⟨f1, e1, h1⟩ := rankLoop_spec hcnt' hf (2 ^ L) 0 _ _ (by omega) hz
  obtain ⟨g1, e2, h2⟩ := rankLoop_spec hcnt' hg (2 ^ L) 0 _ _ (by omega) hz
  obtain ⟨f2, e3, h3⟩ := mapRows_spec (t := fun v => fastSubsetSum L v none) (P := kron mPlus L)
    (fun v V hv => fastSubsetSum_kron (f := none) hv.len hv) (L + 1) 0 f1 _ (by omega) h1
  obtain ⟨g2, e4, h4⟩ := mapRows_spec (t := fun v => fastSubsetSum L v none) (P := kron mPlus L)
    (fun v V hv => fastSubsetSum_kron (f := none) hv.len hv) (L + 1) 0 g1 _ (by omega) h2
  obtain ⟨h5, e5, h5'⟩ := rankMulK_spec h3 h4 (L + 1) 0 _ _ (by omega) hz
  obtain ⟨h6, e6, h6'⟩ := mapRows_spec (t := fun v => fastSubsetSumInverse L v none)
    (P := kron mMinus L) (fun v V hv => fastSubsetSumInverse_kron (f := none) hv.len hv)
    (L + 1) 0 h5 _ (by omega) h5'
  obtain ⟨v, e7, h7⟩ := unrankLoop_spec hcnt' h6' (2 ^ L) 0 (m r) _ (by omega) hR
  refine ⟨m.put r v, ?_, ?_, fun a ha => put_ne _ ha _⟩
  · simp only [fastSubsetConvWith, Option.bind_eq_bind, e1, e2, e3, e4, e5, e6, e7, Option.bind_some]
  · rw [put_self]
    refine h7.congr (fun w hw => ?_)
    simp only [Nat.zero_le, if_true, true_and, zero_add]
    rw [← ranked_conv F G hw]
    have key : ∀ x, x < 2 ^ L → (∑ t ∈ Finset.range (Bits.pc w + 1),
        kron mPlus L (fun x => if Bits.pc x = t then F x else 0) x *
          kron mPlus L (fun x => if Bits.pc x = Bits.pc w - t then G x else 0) x) =
        kron mPlus L (fun x => ∑ t ∈ Finset.range (Bits.pc w + 1),
          conv (· ||| ·) (2 ^ L) (fun x => if Bits.pc x = t then F x else 0)
            (fun x => if Bits.pc x = Bits.pc w - t then G x else 0) x) x := by
      intro x _
      rw [kron_sum]
      apply Finset.sum_congr rfl
      intro t _
      exact (kron_conv (opb := (· || ·))
        (by intro k a b; cases k <;> cases a <;> cases b <;> simp [mPlus])
        (fun i j b => Nat.testBit_or i j b) (fun i j hi hj => Nat.or_lt_two_pow hi hj) _ _ x).symm
    rw [kron_congr mMinus L key, kron_minus_plus L _ hw]

/-- `fast_subset_convolution` (up to the 32-bit words of the popcount), for arrays that may
coincide in any way. -/
theorem C41_subset_conv {T : Bits.Tables} (hT : Bits.init = some T) {L : Nat} (hL : L < 32)
    {r f g : Nat} {F G : Nat → α} {m : Mem α} (hr : (m r).length = 2 ^ L)
    (hf : Rep (m f) (2 ^ L) F) (hg : Rep (m g) (2 ^ L) G) :
    ∃ m', fastSubsetConv T L r f g m = some m' ∧
      Rep (m' r) (2 ^ L) (subsetConv (2 ^ L) F G) ∧ ∀ a, a ≠ r → m' a = m a := by
  refine fastSubsetConvWith_spec (fun w hw => ?_) hr hf hg
  have hlt : w < 2 ^ 32 := lt_of_lt_of_le hw (Nat.pow_le_pow_right (by omega) hL.le)
  have hw' : (BitVec.ofNat 32 w).toNat = w := by
    rw [BitVec.toNat_ofNat, Nat.mod_eq_of_lt hlt]
  have := Bits.cnt1_pc (Bits.good_of_init hT) .w32 (BitVec.ofNat 32 w)
  rw [hw'] at this
  exact this

/-! ### Examples -/

/-- Two arrays: number 0 and everything else. -/
def exMem (a b : List Int) : Mem Int := fun k => if k = 0 then a else b

example : (orConv 2 0 0 1 (exMem [1, 2, 3, 4] [5, 6, 7, 8])).map (fun m => m 0) =
    some [5, 28, 43, 184] := by decide +kernel
example : (andConv 2 0 0 0 (exMem [1, 2, 3, 4] [])).map (fun m => m 0) =
    some [31, 20, 33, 16] := by decide +kernel
example : (xorConv (fun x n => x / (n : Int)) 2 2 0 1 (exMem [1, 2, 3, 4] [5, 6, 7, 8])).map
    (fun m => m 2) = some [70, 68, 62, 60] := by decide +kernel
example : ∀ x : Int, x * 2 ^ 5 / ((2 ^ 5 : Nat) : Int) = x := by intro x; norm_num
example : (maxConv 3 0 0 0 (exMem [1, 2, 3] [])).map (fun m => m 0) = some [1, 8, 27] := by
  decide +kernel
example : (fastSubsetConvWith (fun w => some (Bits.pc w)) 2 0 0 1
    (exMem [1, 2, 3, 4] [5, 6, 7, 8])).map (fun m => m 0) = some [5, 16, 22, 60] := by
  decide +kernel
example : fastSubsetSum 2 [1, 2, 3, (4 : Int)] none = some [1, 3, 4, 10] := by decide +kernel
example : slowSubsetSum 2 [9, 9, 9, 9] [1, 2, 3, (4 : Int)] = some [1, 3, 4, 10] := by decide +kernel

end Altruct.Convolution
