/-
C20: segment tree.
-/
import Verif.Container.SegTreeModel
import Mathlib.Algebra.BigOperators.Group.List.Basic
import Mathlib.Data.Set.Insert
import Mathlib.Tactic.Ring
import Mathlib.Data.Nat.Log

namespace Altruct.SegTree

/-! ### Specification -/

section Spec
variable {T : Type*}

/-- Specification: the indices of a call are below the size `w`. -/
def ValidOp (w : Nat) : Op T → Prop
  | .set i _ => i < w
  | .write i _ => i < w
  | .rebuild => True
  | .rebuildAt i => i < w
  | .rebuildRange _ e => e ≤ w

/-- Specification: the array after a history. -/
def array (a : List T) : List (Op T) → List T
  | [] => a
  | .set i t :: h => array (a.set i t) h
  | .write i t :: h => array (a.set i t) h
  | _ :: h => array a h

/-- Specification: the indices assigned through `operator[]` whose index has not been
rebuilt since. -/
def dirty (d : Set Nat) : List (Op T) → Set Nat
  | [] => d
  | .set i _ :: h => dirty (d \ {i}) h
  | .write i _ :: h => dirty (d ∪ {i}) h
  | .rebuild :: h => dirty ∅ h
  | .rebuildAt i :: h => dirty (d \ {i}) h
  | .rebuildRange b e :: h => dirty (d \ {i | b ≤ i ∧ i < e}) h

end Spec

/-! ### Power of two -/

theorem pow2Loop_spec (w sz : Nat) (hw : 0 < w) (k : Nat) (hk : w = 2 ^ k) :
    ∃ k', pow2Loop w sz hw = 2 ^ k' ∧ sz ≤ pow2Loop w sz hw ∧ (w < pow2Loop w sz hw → pow2Loop w sz hw < 2 * sz) := by
  fun_induction pow2Loop w sz hw generalizing k with
  | case1 w hw h ih =>
    obtain ⟨k', h1, h2, h3⟩ := ih (k + 1) (by rw [hk, pow_succ])
    refine ⟨k', h1, h2, fun _ => ?_⟩
    by_cases h4 : w * 2 < pow2Loop (w * 2) sz (by omega)
    · exact h3 h4
    · omega
  | case2 w hw h => exact ⟨k, hk, by omega, fun h => absurd h (by omega)⟩

theorem calcPow2_spec (sz : Nat) : (∃ k, calcPow2 sz = 2 ^ k) ∧ sz ≤ calcPow2 sz := by
  obtain ⟨k, h1, h2, -⟩ := pow2Loop_spec 1 sz (by omega) 0 (by simp)
  exact ⟨⟨k, h1⟩, h2⟩

theorem calcPow2_pos (sz : Nat) : 0 < calcPow2 sz := by
  obtain ⟨⟨k, h⟩, -⟩ := calcPow2_spec sz
  rw [h]; exact Nat.two_pow_pos k

variable {T : Type*} [Monoid T]

/-- The operation of the tree. -/
local notation "op" => (fun a b : T => a * b)

/-- The nodes satisfy their equation, except those in `Q`. -/
def Inv (w : Nat) (Q : Nat → Prop) (g : Nat → T) : Prop :=
  ∀ i, 0 < i → i < w → ¬ Q i → g i = g (2 * i) * g (2 * i + 1)

theorem Inv.mono {w : Nat} {Q Q' : Nat → Prop} {g : Nat → T} (h : Inv w Q g)
    (hq : ∀ i, 0 < i → i < w → Q i → Q' i) : Inv w Q' g :=
  fun i h0 hi hn => h i h0 hi (fun hc => hn (hq i h0 hi hc))

/-- The tree state: node equations except in `Q`, leaves `a`, identity at 0. -/
structure Tree (v : List T) (w : Nat) (Q : Nat → Prop) (a : Nat → T) : Prop where
  ex : ∃ g, Rep v (2 * w) g ∧ Inv w Q g ∧ g 0 = 1 ∧ ∀ i, i < w → g (w + i) = a i

theorem Tree.size {v : List T} {w : Nat} {Q : Nat → Prop} {a : Nat → T} (h : Tree v w Q a) : size v = w := by
  obtain ⟨g, r, -⟩ := h.ex
  unfold SegTree.size; rw [r.len]; omega

theorem Tree.mono {v : List T} {w : Nat} {Q Q' : Nat → Prop} {a : Nat → T} (h : Tree v w Q a)
    (hq : ∀ i, 0 < i → i < w → Q i → Q' i) : Tree v w Q' a := by
  obtain ⟨g, r, i, z, l⟩ := h.ex
  exact ⟨g, r, i.mono hq, z, l⟩

theorem update_spec {v : List T} {w : Nat} {Q : Nat → Prop} {a : Nat → T} (h : Tree v w Q a) (i : Nat)
    (h0 : 0 < i) (hi : i < w) :
    ∃ v', update op v i = some v' ∧ Tree v' w (fun j => (Q j ∧ j ≠ i) ∨ j = i / 2) a := by
  obtain ⟨g, r, inv, z, l⟩ := h.ex
  refine ⟨v.set i (g (2 * i) * g (2 * i + 1)), ?_, ⟨Function.update g i (g (2 * i) * g (2 * i + 1)), r.set _ _, ?_, ?_, ?_⟩⟩
  · unfold update
    rw [Nat.add_zero, r.rd (by omega), r.rd (by omega)]
    exact r.wr (by omega) _
  · intro j hj0 hj hn
    by_cases hji : j = i
    · subst hji
      rw [Function.update_self, Function.update_of_ne (by omega), Function.update_of_ne (by omega)]
    · have hjp : j ≠ i / 2 := fun hc => hn (Or.inr hc)
      rw [Function.update_of_ne hji, Function.update_of_ne (by omega), Function.update_of_ne (by omega)]
      exact inv j hj0 hj (fun hc => hn (Or.inl ⟨hc, hji⟩))
  · rw [Function.update_of_ne (by omega)]; exact z
  · intro j hj
    rw [Function.update_of_ne (by omega)]; exact l j hj

/-- `i` is a strict ancestor of `x`. -/
def Anc (i x : Nat) : Prop := ∃ k, x / 2 ^ (k + 1) = i

theorem anc_half {i x : Nat} : Anc i x ↔ i = x / 2 ∨ Anc i (x / 2) := by
  constructor
  · rintro ⟨k, hk⟩
    cases k with
    | zero => left; rw [← hk]; simp
    | succ k => right; exact ⟨k, by rw [← hk, Nat.div_div_eq_div_mul, ← pow_succ']⟩
  · rintro (h | ⟨k, hk⟩)
    · exact ⟨0, by rw [h]; simp⟩
    · exact ⟨k + 1, by rw [← hk, Nat.div_div_eq_div_mul, ← pow_succ']⟩

theorem upLoop_spec (x : Nat) : ∀ {v : List T} {w : Nat} {Q : Nat → Prop} {a : Nat → T}, Tree v w Q a →
    x < 2 * w → ∃ v', upLoop op v x = some v' ∧ Tree v' w (fun j => Q j ∧ ¬ Anc j x) a := by
  induction x using Nat.strong_induction_on with
  | _ x ih =>
    intro v w Q a h hx
    rw [upLoop]
    by_cases h0 : 0 < x / 2
    · rw [if_pos h0]
      obtain ⟨v1, e1, t1⟩ := update_spec h (x / 2) h0 (by omega)
      obtain ⟨v2, e2, t2⟩ := ih (x / 2) (by omega) t1 (by omega)
      refine ⟨v2, by rw [e1, Option.bind_some, e2], t2.mono ?_⟩
      rintro j hj0 hj ⟨h1 | h1, h2⟩
      · refine ⟨h1.1, fun hc => ?_⟩
        rcases anc_half.mp hc with hc | hc
        · exact h1.2 hc
        · exact h2 hc
      · exact absurd (anc_half.mpr (Or.inl h1)) h2
    · rw [if_neg h0]
      refine ⟨v, rfl, h.mono ?_⟩
      intro j hj0 hj hq
      refine ⟨hq, ?_⟩
      rintro ⟨k, hk⟩
      have : x / 2 ^ (k + 1) ≤ x / 2 := by
        rw [pow_succ', ← Nat.div_div_eq_div_mul]; exact Nat.div_le_self _ _
      omega

theorem write_spec {v : List T} {w : Nat} {Q : Nat → Prop} {a : Nat → T} (h : Tree v w Q a) (i : Nat)
    (hi : i < w) (t : T) :
    ∃ v', write v i t = some v' ∧ Tree v' w (fun j => Q j ∨ Anc j (w + i)) (Function.update a i t) := by
  have hs := h.size
  obtain ⟨g, r, inv, z, l⟩ := h.ex
  refine ⟨v.set (w + i) t, ?_, ⟨Function.update g (w + i) t, r.set _ _, ?_, ?_, ?_⟩⟩
  · rw [write, hs, Nat.add_comm]; exact r.wr (by omega) _
  · intro j hj0 hj hn
    have hne : j ≠ (w + i) / 2 := fun hc => hn (Or.inr (anc_half.mpr (Or.inl hc)))
    rw [Function.update_of_ne (by omega), Function.update_of_ne (by omega), Function.update_of_ne (by omega)]
    exact inv j hj0 hj (fun hc => hn (Or.inl hc))
  · rw [Function.update_of_ne (by omega)]; exact z
  · intro j hj
    by_cases hji : j = i
    · subst hji; simp
    · rw [Function.update_of_ne (by omega), Function.update_of_ne hji]; exact l j hj

theorem set_spec {v : List T} {w : Nat} {Q : Nat → Prop} {a : Nat → T} (h : Tree v w Q a) (i : Nat)
    (hi : i < w) (t : T) :
    ∃ v', set op v i t = some v' ∧ Tree v' w (fun j => Q j ∧ ¬ Anc j (w + i)) (Function.update a i t) := by
  obtain ⟨v1, e1, t1⟩ := write_spec h i hi t
  obtain ⟨v2, e2, t2⟩ := upLoop_spec (w + i) t1 (by omega)
  refine ⟨v2, ?_, t2.mono ?_⟩
  · rw [write] at e1
    rw [set, e1, Option.bind_some, h.size, Nat.add_comm i w, e2]
  · rintro j - - ⟨h1 | h1, h2⟩
    · exact ⟨h1, h2⟩
    · exact absurd h1 h2

theorem rebuildLoop_spec (m : Nat) : ∀ {v : List T} {w : Nat} {a : Nat → T}, Tree v w (fun j => j ≤ m) a →
    m < w → ∃ v', rebuildLoop op m v = some v' ∧ Tree v' w (fun _ => False) a := by
  induction m with
  | zero =>
    intro v w a h hm
    exact ⟨v, rfl, h.mono (by intro j hj0 _ hj; omega)⟩
  | succ m ih =>
    intro v w a h hm
    obtain ⟨v1, e1, t1⟩ := update_spec h (m + 1) (by omega) hm
    obtain ⟨v2, e2, t2⟩ := ih (t1.mono (by intro j hj0 _ hj; omega)) (by omega)
    exact ⟨v2, by rw [rebuildLoop, e1, Option.bind_some, e2], t2⟩

theorem rebuild_spec {v : List T} {w : Nat} {Q : Nat → Prop} {a : Nat → T} (h : Tree v w Q a) (hw : 0 < w) :
    ∃ v', rebuild op v = some v' ∧ Tree v' w (fun _ => False) a := by
  rw [rebuild, h.size, if_neg (by omega)]
  exact rebuildLoop_spec (w - 1) (h.mono (by intro j _ hj _; omega)) (by omega)

theorem levelLoop_spec (b : Nat) (hb : 0 < b) (i : Nat) : ∀ {v : List T} {w : Nat} {Q : Nat → Prop} {a : Nat → T},
    Tree v w Q a → i < w → ∃ v', levelLoop op b v i = some v' ∧
      Tree v' w (fun j => (Q j ∧ ¬ (b ≤ j ∧ j ≤ i)) ∨ (b / 2 ≤ j ∧ j ≤ i / 2)) a := by
  induction i using Nat.strong_induction_on with
  | _ i ih =>
    intro v w Q a h hi
    rw [levelLoop]
    by_cases hbi : b ≤ i
    · rw [if_pos hbi, if_neg (by omega)]
      obtain ⟨v1, e1, t1⟩ := update_spec h i (by omega) hi
      obtain ⟨v2, e2, t2⟩ := ih (i - 1) (by omega) t1 (by omega)
      refine ⟨v2, by rw [e1, Option.bind_some, e2], t2.mono ?_⟩
      rintro j - - (⟨h1 | h1, h2⟩ | h1)
      · left; exact ⟨h1.1, by omega⟩
      · right; omega
      · right; omega
    · rw [if_neg hbi]
      exact ⟨v, rfl, h.mono (fun j _ _ hq => Or.inl ⟨hq, by omega⟩)⟩

/-- Some ancestor range of `[b, e]` contains `j`. -/
def Cov (j b e : Nat) : Prop := ∃ k, b / 2 ^ (k + 1) ≤ j ∧ j ≤ e / 2 ^ (k + 1)

theorem cov_half {j b e : Nat} : Cov j b e ↔ (b / 2 ≤ j ∧ j ≤ e / 2) ∨ Cov j (b / 2) (e / 2) := by
  constructor
  · rintro ⟨k, hk⟩
    cases k with
    | zero => left; simpa using hk
    | succ k =>
      right
      refine ⟨k, ?_⟩
      rw [Nat.div_div_eq_div_mul, Nat.div_div_eq_div_mul, ← pow_succ']; exact hk
  · rintro (h | ⟨k, hk⟩)
    · exact ⟨0, by simpa using h⟩
    · refine ⟨k + 1, ?_⟩
      rw [Nat.div_div_eq_div_mul, Nat.div_div_eq_div_mul, ← pow_succ'] at hk; exact hk

theorem rangeLoop_spec (k : Nat) : ∀ {v : List T} {w : Nat} {Q : Nat → Prop} {a : Nat → T} (b e : Nat),
    Tree v w Q a → 2 ^ k ≤ b → b < 2 ^ (k + 1) → e < 2 ^ (k + 1) → e < 2 * w →
    ∃ v', rangeLoop op v b e = some v' ∧ Tree v' w (fun j => Q j ∧ ¬ Cov j b e) a := by
  induction k with
  | zero =>
    intro v w Q a b e h hb hb2 he he2
    rw [rangeLoop, if_neg (by omega)]
    refine ⟨v, rfl, h.mono ?_⟩
    intro j hj0 _ hq
    refine ⟨hq, ?_⟩
    rintro ⟨k, -, hk⟩
    have : e / 2 ^ (k + 1) ≤ e / 2 := by
      rw [pow_succ', ← Nat.div_div_eq_div_mul]; exact Nat.div_le_self _ _
    omega
  | succ k ih =>
    intro v w Q a b e h hb hb2 he he2
    have hp : 2 ^ (k + 1) = 2 * 2 ^ k := by rw [pow_succ']
    have hp2 : 2 ^ (k + 1 + 1) = 2 * 2 ^ (k + 1) := by rw [pow_succ']
    have := Nat.two_pow_pos k
    rw [rangeLoop, if_pos (by omega)]
    obtain ⟨v1, e1, t1⟩ := levelLoop_spec (b / 2) (by omega) (e / 2) h (by omega)
    obtain ⟨v2, e2, t2⟩ := ih (b / 2) (e / 2) t1 (by omega) (by omega) (by omega) (by omega)
    refine ⟨v2, by rw [e1, Option.bind_some, e2], t2.mono ?_⟩
    rintro j - - ⟨h1 | h1, h2⟩
    · refine ⟨h1.1, fun hc => ?_⟩
      rcases cov_half.mp hc with hc | hc
      · exact h1.2 hc
      · exact h2 hc
    · exact absurd (cov_half.mpr (Or.inl h1)) h2

/-! ### Queries -/

/-- The product of the nodes `a, …, a + n - 1`. -/
def seg (g : Nat → T) (a n : Nat) : T := ((List.range' a n).map g).prod

theorem seg_zero (g : Nat → T) (a : Nat) : seg g a 0 = 1 := rfl

theorem seg_succ_left (g : Nat → T) (a n : Nat) : seg g a (n + 1) = g a * seg g (a + 1) n := by
  simp [seg, List.range'_succ]

theorem seg_succ_right (g : Nat → T) (a n : Nat) : seg g a (n + 1) = seg g a n * g (a + n) := by
  simp [seg, List.range'_concat]

theorem seg_half {w : Nat} {g : Nat → T} (inv : Inv w (fun _ => False) g) (a n : Nat) (ha : 0 < a)
    (hn : a + n ≤ w) : seg g (2 * a) (2 * n) = seg g a n := by
  induction n generalizing a with
  | zero => rfl
  | succ n ih =>
    rw [show 2 * (n + 1) = (2 * n + 1) + 1 by ring, seg_succ_left, seg_succ_left, seg_succ_left,
      show 2 * a + 1 + 1 = 2 * (a + 1) by ring, ih (a + 1) (by omega) (by omega),
      inv a ha (by omega) (fun h => h), mul_assoc]

theorem getLoop_spec {v : List T} {w : Nat} {g : Nat → T} (r : Rep v (2 * w) g) (inv : Inv w (fun _ => False) g)
    (k : Nat) : ∀ (b e : Nat) (tl tr : T), 2 ^ k ≤ w → b ≤ e → e ≤ 2 ^ k →
    ∃ tl' tr', getLoop op v tl tr (2 ^ k) b e = some (tl', tr') ∧
      tl' * tr' = tl * seg g (2 ^ k + b) (e - b) * tr := by
  induction k with
  | zero =>
    intro b e tl tr hw hb he
    rw [getLoop]
    by_cases hbe : b < e
    · have : b = 0 ∧ e = 1 := by omega
      obtain ⟨rfl, rfl⟩ := this
      rw [if_pos hbe]
      have h1 : takeL op v tl (2 ^ 0) 0 = some tl := by simp [takeL]
      have h2 : takeR op v tr (2 ^ 0) 1 = some (g 1 * tr) := by
        simp only [takeR, pow_zero, if_true, Nat.sub_self, Nat.add_zero]
        rw [r.rd (by omega)]; rfl
      rw [h1, h2]
      simp only
      rw [getLoop]
      simp [seg, mul_assoc]
    · rw [if_neg hbe, show e - b = 0 by omega, seg_zero, mul_one]
      exact ⟨tl, tr, rfl, rfl⟩
  | succ k ih =>
    intro b e tl tr hw hb he
    have hp : 2 ^ (k + 1) = 2 * 2 ^ k := by rw [pow_succ']
    rw [getLoop]
    by_cases hbe : b < e
    · rw [if_pos hbe]
      obtain ⟨tl1, hl, hl'⟩ : ∃ tl1, takeL op v tl (2 ^ (k + 1)) b = some tl1 ∧
          tl1 = if b % 2 = 1 then tl * g (2 ^ (k + 1) + b) else tl := by
        unfold takeL
        split
        · rw [r.rd (by omega)]; exact ⟨_, rfl, rfl⟩
        · exact ⟨_, rfl, rfl⟩
      obtain ⟨tr1, hr, hr'⟩ : ∃ tr1, takeR op v tr (2 ^ (k + 1)) e = some tr1 ∧
          tr1 = if e % 2 = 1 then g (2 ^ (k + 1) + (e - 1)) * tr else tr := by
        unfold takeR
        split
        · rw [r.rd (by omega)]; exact ⟨_, rfl, rfl⟩
        · exact ⟨_, rfl, rfl⟩
      rw [hl, hr]
      simp only
      rw [show 2 ^ (k + 1) / 2 = 2 ^ k by omega]
      have hb' : ∃ b', (if b % 2 = 1 then b + 1 else b) / 2 = b' ∧ 2 * b' = b + b % 2 := by
        refine ⟨_, rfl, ?_⟩; split <;> omega
      obtain ⟨b', hbe', hbb⟩ := hb'
      have he' : ∃ e', (if e % 2 = 1 then e - 1 else e) / 2 = e' ∧ 2 * e' + e % 2 = e := by
        refine ⟨_, rfl, ?_⟩; split <;> omega
      obtain ⟨e', hee', hee⟩ := he'
      rw [hbe', hee']
      obtain ⟨tl2, tr2, e2, p2⟩ := ih b' e' tl1 tr1 (by omega) (by omega) (by omega)
      refine ⟨tl2, tr2, e2, ?_⟩
      rw [p2, ← seg_half inv _ _ (by have := Nat.two_pow_pos k; omega) (by omega), hl', hr']
      have hmid : seg g (2 ^ (k + 1) + b) (e - b) =
          (if b % 2 = 1 then g (2 ^ (k + 1) + b) else 1) * seg g (2 * (2 ^ k + b')) (2 * (e' - b')) *
            (if e % 2 = 1 then g (2 ^ (k + 1) + (e - 1)) else 1) := by
        rcases Nat.mod_two_eq_zero_or_one b with hb0 | hb1 <;> rcases Nat.mod_two_eq_zero_or_one e with he0 | he1
        · rw [if_neg (by omega), if_neg (by omega), one_mul, mul_one]
          congr 1 <;> omega
        · rw [if_neg (by omega), if_pos he1, one_mul, show e - b = 2 * (e' - b') + 1 by omega, seg_succ_right]
          congr 2
          · congr 1; omega
          · omega
        · rw [if_pos hb1, if_neg (by omega), mul_one, show e - b = 2 * (e' - b') + 1 by omega, seg_succ_left]
          congr 2; omega
        · rw [if_pos hb1, if_pos he1, show e - b = 2 * (e' - b') + 1 + 1 by omega, seg_succ_left,
            seg_succ_right, mul_assoc]
          congr 2
          · congr 1; omega
          · congr 1; omega
      rw [hmid]
      by_cases hb1 : b % 2 = 1 <;> by_cases he1 : e % 2 = 1 <;> simp [hb1, he1, mul_assoc]
    · rw [if_neg hbe, show e - b = 0 by omega, seg_zero, mul_one]
      exact ⟨tl, tr, rfl, rfl⟩

theorem get_spec {v : List T} {k : Nat} {a : Nat → T} (h : Tree v (2 ^ k) (fun _ => False) a) (b e : Nat)
    (he : e ≤ 2 ^ k) : get op v b e = some ((List.range' b (e - b)).map a).prod := by
  have hs := h.size
  obtain ⟨g, r, inv, z, l⟩ := h.ex
  have hpos := Nat.two_pow_pos k
  rw [get, r.rd (by omega), hs, z]
  simp only
  by_cases hbe : b ≤ e
  · obtain ⟨tl, tr, e1, p1⟩ := getLoop_spec r inv k b e 1 1 (le_refl _) hbe he
    rw [e1]
    simp only [p1, one_mul, mul_one, Option.some.injEq]
    unfold seg
    congr 1
    have : List.range' (2 ^ k + b) (e - b) = (List.range' b (e - b)).map (fun x => 2 ^ k + x) := by
      rw [List.map_add_range']
    rw [this, List.map_map]
    apply List.map_congr_left
    intro i hi
    rw [List.mem_range'_1] at hi
    exact l i (by omega)
  · rw [getLoop, if_neg (by omega), show e - b = 0 by omega]; simp

/-! ### Histories -/

theorem dirty_anc {w : Nat} {d : Set Nat} (i : Nat) {j : Nat}
    (h1 : ∃ x ∈ d, Anc j (w + x)) (h2 : ¬ Anc j (w + i)) : ∃ x ∈ d \ {i}, Anc j (w + x) := by
  obtain ⟨x, hx, hj⟩ := h1
  refine ⟨x, ⟨hx, fun hc => ?_⟩, hj⟩
  rw [Set.mem_singleton_iff] at hc
  subst hc; exact h2 hj

theorem update_list (a : List T) (i : Nat) (hi : i < a.length) (t : T) :
    ∀ j, j < a.length → Function.update (fun x => a.getD x 1) i t j = (a.set i t).getD j 1 := by
  intro j hj
  by_cases hji : j = i
  · subst hji; simp [hj]
  · rw [Function.update_of_ne hji]
    simp only [List.getD_eq_getElem?_getD]
    rw [List.getElem?_set_ne (Ne.symm hji)]

theorem Tree.congr {v : List T} {w : Nat} {Q : Nat → Prop} {a a' : Nat → T} (h : Tree v w Q a)
    (e : ∀ i, i < w → a i = a' i) : Tree v w Q a' := by
  obtain ⟨g, r, i, z, l⟩ := h.ex
  exact ⟨g, r, i, z, fun j hj => by rw [l j hj, e j hj]⟩

theorem run_spec (k : Nat) (h : List (Op T)) : ∀ (v a : List T) (d : Set Nat), a.length = 2 ^ k →
    Tree v (2 ^ k) (fun j => ∃ x ∈ d, Anc j (2 ^ k + x)) (fun i => a.getD i 1) →
    (∀ o ∈ h, ValidOp (2 ^ k) o) →
    ∃ v', run op v h = some v' ∧
      Tree v' (2 ^ k) (fun j => ∃ x ∈ dirty d h, Anc j (2 ^ k + x)) (fun i => (array a h).getD i 1) ∧
      (array a h).length = 2 ^ k := by
  have hpos := Nat.two_pow_pos k
  induction h with
  | nil => intro v a d ha t _; exact ⟨v, rfl, t, ha⟩
  | cons o h ih =>
    intro v a d ha t hval
    have hv0 := hval o (by simp)
    have hvr : ∀ o ∈ h, ValidOp (2 ^ k) o := fun o ho => hval o (by simp [ho])
    cases o with
    | set i x =>
      obtain ⟨v1, e1, t1⟩ := set_spec t i hv0 x
      obtain ⟨v2, e2, t2, l2⟩ := ih v1 (a.set i x) (d \ {i}) (by rw [List.length_set, ha])
        ((t1.congr (by rw [← ha]; exact update_list a i (by rw [ha]; exact hv0) x)).mono
          (fun j _ _ hj => dirty_anc i hj.1 hj.2)) hvr
      exact ⟨v2, by simp only [run, step, e1, Option.bind_some, e2], t2, l2⟩
    | write i x =>
      obtain ⟨v1, e1, t1⟩ := write_spec t i hv0 x
      obtain ⟨v2, e2, t2, l2⟩ := ih v1 (a.set i x) (d ∪ {i}) (by rw [List.length_set, ha])
        ((t1.congr (by rw [← ha]; exact update_list a i (by rw [ha]; exact hv0) x)).mono (by
          rintro j - - (⟨y, hy, hj⟩ | hj)
          · exact ⟨y, Or.inl hy, hj⟩
          · exact ⟨i, Or.inr rfl, hj⟩)) hvr
      exact ⟨v2, by simp only [run, step, e1, Option.bind_some, e2], t2, l2⟩
    | rebuild =>
      obtain ⟨v1, e1, t1⟩ := rebuild_spec t hpos
      obtain ⟨v2, e2, t2, l2⟩ := ih v1 a ∅ ha (t1.mono (fun j _ _ hj => hj.elim)) hvr
      exact ⟨v2, by simp only [run, step, e1, Option.bind_some, e2], t2, l2⟩
    | rebuildAt i =>
      have hv0' : i < 2 ^ k := hv0
      obtain ⟨v1, e1, t1⟩ := upLoop_spec (i + 2 ^ k) t (by omega)
      obtain ⟨v2, e2, t2, l2⟩ := ih v1 a (d \ {i}) ha (t1.mono
        (fun j _ _ hj => dirty_anc i hj.1 (by rw [Nat.add_comm]; exact hj.2))) hvr
      exact ⟨v2, by simp only [run, step, rebuildAt, t.size, e1, Option.bind_some, e2], t2, l2⟩
    | rebuildRange b e =>
      have hv0' : e ≤ 2 ^ k := hv0
      have hkk : 2 ^ (k + 1) = 2 * 2 ^ k := by rw [pow_succ']
      have hlt : b + 2 ^ k < 2 ^ (Nat.log 2 (b + 2 ^ k) + 1) := Nat.lt_pow_succ_log_self (by omega) _
      have hle : 2 ^ Nat.log 2 (b + 2 ^ k) ≤ b + 2 ^ k := Nat.pow_log_le_self 2 (by omega)
      have hkl : 2 ^ (k + 1) ≤ 2 ^ (Nat.log 2 (b + 2 ^ k) + 1) := by
        apply Nat.pow_le_pow_right (by omega)
        have : k ≤ Nat.log 2 (b + 2 ^ k) := Nat.le_log_of_pow_le (by omega) (by omega)
        omega
      obtain ⟨v1, e1, t1⟩ := rangeLoop_spec (Nat.log 2 (b + 2 ^ k)) (b + 2 ^ k) (e + 2 ^ k - 1) t
        hle hlt (by omega) (by omega)
      obtain ⟨v2, e2, t2, l2⟩ := ih v1 a (d \ {i | b ≤ i ∧ i < e}) ha (t1.mono (by
        rintro j - - ⟨⟨x, hx, i, hi⟩, hc⟩
        refine ⟨x, ⟨hx, fun hxr => hc ⟨i, ?_, ?_⟩⟩, i, hi⟩
        · rw [← hi]; exact Nat.div_le_div_right (by have := hxr.1; omega)
        · rw [← hi]; exact Nat.div_le_div_right (by have := hxr.2; omega))) hvr
      exact ⟨v2, by simp only [run, step, rebuildRange, t.size, e1, Option.bind_some, e2], t2, l2⟩

theorem mkSize_tree (sz : Nat) : ∃ k, calcPow2 sz = 2 ^ k ∧
    Tree (mkSize sz (1 : T)) (2 ^ k) (fun _ => False) (fun i => (List.replicate (2 ^ k) (1 : T)).getD i 1) := by
  obtain ⟨⟨k, hk⟩, -⟩ := calcPow2_spec sz
  refine ⟨k, hk, ⟨fun _ => 1, ?_, ?_, rfl, ?_⟩⟩
  · rw [mkSize, hk, Nat.mul_comm]; exact Rep.replicate _ _
  · intro i _ _ _; rw [mul_one]
  · intro i hi; simp [hi]

theorem mkRange_tree (l : List T) : ∃ k v, calcPow2 l.length = 2 ^ k ∧ l.length ≤ 2 ^ k ∧
    mkRange op l 1 = some v ∧ Tree v (2 ^ k) (fun _ => False)
      (fun i => (l ++ List.replicate (2 ^ k - l.length) (1 : T)).getD i 1) := by
  obtain ⟨⟨k, hk⟩, hl⟩ := calcPow2_spec l.length
  rw [hk] at hl
  have hpos := Nat.two_pow_pos k
  generalize hv : List.replicate (2 ^ k) (1 : T) ++ l ++ List.replicate (2 ^ k - l.length) (1 : T) = v0
  have hlen : v0.length = 2 * 2 ^ k := by rw [← hv]; simp; omega
  have t0 : Tree v0 (2 ^ k) (fun _ => True) (fun i => (l ++ List.replicate (2 ^ k - l.length) (1 : T)).getD i 1) := by
    refine ⟨fun i => v0.getD i 1, ⟨hlen, ?_⟩, fun i _ _ h => absurd trivial h, ?_, ?_⟩
    · intro i hi
      rw [List.getD_eq_getElem?_getD, List.getElem?_eq_getElem (by omega)]; rfl
    · rw [← hv]
      simp only [List.getD_eq_getElem?_getD, List.append_assoc]
      rw [List.getElem?_append_left (by simp)]
      simp [hpos]
    · intro i hi
      simp only [List.getD_eq_getElem?_getD]
      rw [← hv, List.append_assoc, List.getElem?_append_right (by simp)]
      simp
  obtain ⟨v, e, t⟩ := rebuild_spec t0 hpos
  exact ⟨k, v, hk, hl, by rw [mkRange, hk, hv]; exact e, t⟩

theorem prod_slice (a : List T) (b n : Nat) (h : b + n ≤ a.length) :
    ((List.range' b n).map (fun i => a.getD i 1)) = (a.drop b).take n := by
  apply List.ext_getElem?
  intro i
  by_cases hi : i < n
  · rw [List.getElem?_map, List.getElem?_range' hi, List.getElem?_take_of_lt hi, List.getElem?_drop]
    simp only [Option.map_some, Nat.one_mul, List.getD_eq_getElem?_getD]
    rw [List.getElem?_eq_getElem (by omega)]; rfl
  · rw [List.getElem?_eq_none (by simp; omega), List.getElem?_eq_none (by simp; omega)]

theorem main (k : Nat) (v a : List T) (ha : a.length = 2 ^ k)
    (t : Tree v (2 ^ k) (fun _ => False) (fun i => a.getD i 1)) (h : List (Op T))
    (hval : ∀ o ∈ h, ValidOp (2 ^ k) o) :
    ∃ v', run op v h = some v' ∧ size v' = 2 ^ k ∧ (∀ i, i < 2 ^ k → get1 v' i = (array a h)[i]?) ∧
      (dirty ∅ h = ∅ → ∀ b e, e ≤ 2 ^ k →
        get op v' b e = some ((((array a h).drop b).take (e - b)).foldr op 1)) := by
  obtain ⟨v', e1, t1, l1⟩ := run_spec k h v a ∅ ha (t.mono (fun j _ _ hj => hj.elim)) hval
  refine ⟨v', e1, t1.size, ?_, ?_⟩
  · intro i hi
    have hs := t1.size
    obtain ⟨g, r, -, -, l⟩ := t1.ex
    rw [get1, hs, Nat.add_comm, r.rd (by omega), l i hi, List.getD_eq_getElem?_getD,
      List.getElem?_eq_getElem (by omega)]
    rfl
  · intro hd b e he
    rw [hd] at t1
    rw [get_spec (t1.mono (by rintro j - - ⟨x, hx, -⟩; exact hx.elim)) b e he, List.prod_eq_foldr]
    congr 2
    by_cases hbe : b ≤ e
    · rw [prod_slice _ _ _ (by omega)]
    · rw [show e - b = 0 by omega]; simp

/-- C20 (tree constructed from a range): for every associative `f` (not necessarily
commutative) with neutral element `id`, every initial sequence and every history of
`set`, assignments through `operator[]`, `rebuild()`, `rebuild(index)` and
`rebuild(begin, end)` with indices in range, nothing undefined happens, every element is
what the history wrote last, and, whenever all assigned elements have been rebuilt,
`get(begin, end)` is the left-to-right combination of the elements with index in
`[begin, end)`, and the neutral element on an empty range.  The size is a power of two not
smaller than the number of initial elements; the elements after them start as `id`. -/
theorem C20_segment_tree {T : Type*} (f : T → T → T) (id : T) (assoc : ∀ x y z, f (f x y) z = f x (f y z))
    (hl : ∀ x, f id x = x) (hr : ∀ x, f x id = x) (l : List T) :
    ∃ w, (∃ k, w = 2 ^ k) ∧ l.length ≤ w ∧ ∀ h : List (Op T), (∀ o ∈ h, ValidOp w o) →
      ∃ v, (mkRange f l id).bind (fun v => run f v h) = some v ∧ size v = w ∧
        (∀ i, i < w → get1 v i = (array (l ++ List.replicate (w - l.length) id) h)[i]?) ∧
        (dirty ∅ h = ∅ → ∀ b e, e ≤ w → get f v b e =
          some ((((array (l ++ List.replicate (w - l.length) id) h).drop b).take (e - b)).foldr f id)) := by
  let _ : Mul T := ⟨f⟩
  let _ : One T := ⟨id⟩
  let _ : Monoid T := { mul_assoc := assoc, one_mul := hl, mul_one := hr }
  obtain ⟨k, v0, hk, hlen, e0, t0⟩ := mkRange_tree l
  refine ⟨2 ^ k, ⟨k, rfl⟩, hlen, fun h hval => ?_⟩
  obtain ⟨v, e, r⟩ := main k v0 _ (by simp; omega) t0 h hval
  refine ⟨v, ?_, r⟩
  change (mkRange f l id).bind _ = _
  have e0' : mkRange f l id = some v0 := e0
  rw [e0', Option.bind_some]
  exact e

/-- C20 (tree constructed with a size): the same, all elements start as `id`. -/
theorem C20_segment_tree_sized {T : Type*} (f : T → T → T) (id : T) (assoc : ∀ x y z, f (f x y) z = f x (f y z))
    (hl : ∀ x, f id x = x) (hr : ∀ x, f x id = x) (sz : Nat) :
    ∃ w, (∃ k, w = 2 ^ k) ∧ sz ≤ w ∧ ∀ h : List (Op T), (∀ o ∈ h, ValidOp w o) →
      ∃ v, run f (mkSize sz id) h = some v ∧ size v = w ∧
        (∀ i, i < w → get1 v i = (array (List.replicate w id) h)[i]?) ∧
        (dirty ∅ h = ∅ → ∀ b e, e ≤ w → get f v b e =
          some ((((array (List.replicate w id) h).drop b).take (e - b)).foldr f id)) := by
  let _ : Mul T := ⟨f⟩
  let _ : One T := ⟨id⟩
  let _ : Monoid T := { mul_assoc := assoc, one_mul := hl, mul_one := hr }
  obtain ⟨k, hk, t0⟩ := mkSize_tree (T := T) sz
  refine ⟨2 ^ k, ⟨k, rfl⟩, by rw [← hk]; exact (calcPow2_spec sz).2, fun h hval => ?_⟩
  exact main k (mkSize sz id) _ (by simp) t0 h hval

/-! The hypotheses are met by string concatenation (associative, not commutative) and a
history with an assignment and a partial rebuild. -/
example : (mkRange (· ++ ·) ["a", "b", "c"] "").bind
    (fun v => (run (· ++ ·) v [.write 1 "x", .write 3 "y", .rebuildRange 1 4, .set 0 "z"]).bind
      (fun v => get (· ++ ·) v 0 4)) = some "zxcy" := by decide +kernel

example : dirty ∅ ([.write 1 "x", .write 3 "y", .rebuildRange 1 4, .set 0 "z"] : List (Op String)) = ∅ := by
  ext i
  simp only [dirty, Set.mem_sdiff, Set.mem_union, Set.mem_singleton_iff, Set.mem_empty_iff_false]
  constructor
  · rintro ⟨⟨h, h'⟩, -⟩
    exact h' (by rcases h with (h | h) | h <;> first | exact h.elim | (subst h; exact ⟨by omega, by omega⟩))
  · exact fun h => h.elim

end Altruct.SegTree
