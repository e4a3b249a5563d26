/-
The buckets of the suffix array.
-/
import Verif.SuffixArray.Theory

namespace Altruct.SuffixArray

/-- The number of letters `a`. -/
def cntE (c : Nat → Nat) (n a : Nat) : Nat := ((Finset.range n).filter fun i => c i = a).card

/-- Where the bucket of the letter `a` starts. -/
def start (c : Nat → Nat) (n a : Nat) : Nat := 1 + ((Finset.range n).filter fun i => c i < a).card

/-- The number of suffixes of type `t` with first letter `a`. -/
def cntT (c : Nat → Nat) (n : Nat) (ty : Nat → Bool) (t : Bool) (a : Nat) : Nat :=
  ((Finset.range n).filter fun i => c i = a ∧ ty i = t).card

section
variable {c : Nat → Nat} {n : Nat} {ty : Nat → Bool}

theorem start_zero : start c n 0 = 1 := by simp [start]

theorem start_succ (a : Nat) : start c n (a + 1) = start c n a + cntE c n a := by
  rw [start, start, cntE, add_assoc, ← Finset.card_union_of_disjoint]
  · congr 2
    ext i
    simp only [Finset.mem_filter, Finset.mem_range, Finset.mem_union]
    constructor
    · rintro ⟨h1, h2⟩
      rcases Nat.lt_or_ge (c i) a with h3 | h3
      · exact Or.inl ⟨h1, h3⟩
      · exact Or.inr ⟨h1, by omega⟩
    · rintro (⟨h1, h2⟩ | ⟨h1, h2⟩)
      · exact ⟨h1, by omega⟩
      · exact ⟨h1, by omega⟩
  · rw [Finset.disjoint_left]
    intro i h1 h2
    simp only [Finset.mem_filter] at h1 h2
    omega

theorem cntE_split (a : Nat) : cntE c n a = cntT c n ty false a + cntT c n ty true a := by
  rw [cntE, cntT, cntT, ← Finset.card_union_of_disjoint]
  · congr 1
    ext i
    simp only [Finset.mem_filter, Finset.mem_range, Finset.mem_union]
    cases ty i <;> simp
  · rw [Finset.disjoint_left]
    intro i h1 h2
    simp only [Finset.mem_filter] at h1 h2
    rw [h1.2.2] at h2
    simp at h2

theorem start_mono {a b : Nat} (h : a ≤ b) : start c n a ≤ start c n b := by
  rw [start, start]
  refine Nat.add_le_add_left (Finset.card_le_card ?_) 1
  intro i hi
  simp only [Finset.mem_filter] at hi ⊢
  exact ⟨hi.1, by omega⟩

theorem start_le (a : Nat) : start c n a ≤ n + 1 := by
  rw [start]
  have := Finset.card_filter_le (Finset.range n) (fun i => c i < a)
  rw [Finset.card_range] at this
  omega

theorem start_pos (a : Nat) : 1 ≤ start c n a := by rw [start]; omega

theorem fill_spec {α : Type} {v : List α} {m : Nat} {g : Nat → α} (h : Rep v m g) {a b : Nat} (hab : a ≤ b) (hb : b ≤ m) (x : α) :
    ∃ v', fill v a b x = some v' ∧ Rep v' m (fun i => if a ≤ i ∧ i < b then x else g i) := by
  obtain ⟨v', e, h'⟩ := forUp_spec (body := fun i v => wr v i x) (fun i v => Rep v m (fun k => if a ≤ k ∧ k < i then x else g k)) hab
    (h.congr fun k _ => by rw [if_neg (by omega)]) (by
      intro i v h1 h2 h3
      refine ⟨_, h3.wr (by omega) x, (h3.set i x).congr fun k hk => ?_⟩
      by_cases e : k = i
      · subst e; rw [Function.update_self, if_pos (by omega)]
      · rw [Function.update_of_ne e]
        by_cases h4 : a ≤ k ∧ k < i
        · rw [if_pos h4, if_pos (by omega)]
        · rw [if_neg h4, if_neg (by omega)])
  exact ⟨v', e, h'⟩

/-- The string in memory. -/
structure Str (str : List Nat) (c : Nat → Nat) (n alpha : Nat) : Prop where
  get : ∀ i, i < n → str[i]? = some (c i)
  lt : ∀ i, i < n → c i < alpha

variable {str : List Nat} {alpha : Nat}

theorem countAlphabets_spec (hs : Str str c n alpha) {bo : List Nat} {W : Nat} {g : Nat → Nat} (hb : Rep bo W g) (b : Bool)
    (hW : (if b then 0 else alpha) + alpha ≤ W) :
    ∃ bo', countAlphabets str n alpha bo b = some bo' ∧
      Rep bo' W (fun k => if (if b then 0 else alpha) ≤ k ∧ k < (if b then 0 else alpha) + alpha then cntE c n (k - (if b then 0 else alpha)) else g k) := by
  rw [countAlphabets, if_pos (by
    cases b with
    | true => exact Or.inl rfl
    | false => rw [hb.len]; simp at hW; right; omega)]
  simp only
  generalize (if b = true then 0 else alpha) = off at hW ⊢
  obtain ⟨v, e, hv⟩ := fill_spec hb (show off ≤ off + alpha by omega) hW 0
  rw [e, Option.bind_some]
  obtain ⟨v', e', h'⟩ := forUp_spec (body := fun i bo => (rd str i).bind fun c => (rd bo (off + c)).bind fun x => wr bo (off + c) (x + 1))
    (fun i v => Rep v W (fun k => if off ≤ k ∧ k < off + alpha then cntE c i (k - off) else g k)) (Nat.zero_le n)
    (hv.congr fun k _ => by simp [cntE]) (by
      intro i v _ h2 h3
      have hc := hs.lt i h2
      have e1 : rd str i = some (c i) := hs.get i h2
      rw [e1, Option.bind_some, h3.rd (show off + c i < W by omega), Option.bind_some]
      refine ⟨_, h3.wr (by omega) _, (h3.set _ _).congr fun k hk => ?_⟩
      have h4 : ∀ a, cntE c (i + 1) a = cntE c i a + (if c i = a then 1 else 0) := by
        intro a
        rw [cntE, cntE, Finset.range_add_one, Finset.filter_insert]
        split_ifs with h5
        · rw [Finset.card_insert_of_notMem (by simp)]
        · rfl
      by_cases e : k = off + c i
      · subst e
        rw [Function.update_self, if_pos (by omega), if_pos (by omega), h4, if_pos (by omega)]
      · rw [Function.update_of_ne e]
        by_cases h5 : off ≤ k ∧ k < off + alpha
        · rw [if_pos h5, if_pos h5, h4, if_neg (by omega), add_zero]
        · rw [if_neg h5, if_neg h5])
  exact ⟨v', e', h'⟩

/-- The vector `bucket_offsets`: the offsets `f` and, if there is room, the numbers of letters. -/
structure Bkt (c : Nat → Nat) (n alpha W : Nat) (bo : List Nat) (f : Nat → Nat) : Prop where
  len : bo.length = W
  get : ∀ a, a < alpha → bo[a]? = some (f a)
  cnt : 2 * alpha ≤ W → ∀ a, a < alpha → bo[alpha + a]? = some (cntE c n a)

theorem Bkt.rd {W : Nat} {bo : List Nat} {f : Nat → Nat} (h : Bkt c n alpha W bo f) {a : Nat} (ha : a < alpha) : rd bo a = some (f a) := h.get a ha

theorem Bkt.wr {W : Nat} {bo : List Nat} {f : Nat → Nat} (h : Bkt c n alpha W bo f) {a : Nat} (ha : a < alpha) (x : Nat) :
    ∃ bo', wr bo a x = some bo' ∧ Bkt c n alpha W bo' (Function.update f a x) := by
  have hl : a < bo.length := (List.getElem?_eq_some_iff.mp (h.get a ha)).1
  refine ⟨bo.set a x, by rw [Altruct.wr, if_pos hl], by rw [List.length_set, h.len], fun k hk => ?_, fun h2 k hk => ?_⟩
  · by_cases e : k = a
    · subst e; rw [List.getElem?_set_self hl, Function.update_self]
    · rw [List.getElem?_set_ne (Ne.symm e), Function.update_of_ne e, h.get k hk]
  · rw [List.getElem?_set_ne (by omega), h.cnt h2 k hk]

theorem Bkt.congr {W : Nat} {bo : List Nat} {f f' : Nat → Nat} (h : Bkt c n alpha W bo f) (e : ∀ a, a < alpha → f a = f' a) : Bkt c n alpha W bo f' :=
  ⟨h.len, fun a ha => by rw [h.get a ha, e a ha], h.cnt⟩

/-- The numbers of letters are there if there is room for them. -/
def Counted (c : Nat → Nat) (n alpha W : Nat) (bo : List Nat) : Prop :=
  bo.length = W ∧ (2 * alpha ≤ W → ∀ a, a < alpha → bo[alpha + a]? = some (cntE c n a))

theorem Bkt.counted {W : Nat} {bo : List Nat} {f : Nat → Nat} (h : Bkt c n alpha W bo f) : Counted c n alpha W bo := ⟨h.len, h.cnt⟩

theorem countFirst_spec (hs : Str str c n alpha) {bo : List Nat} {W : Nat} (hb : bo.length = W) :
    ∃ bo', countAlphabets str n alpha bo false = some bo' ∧ Counted c n alpha W bo' := by
  by_cases h : 2 * alpha ≤ W
  · obtain ⟨bo', e, h'⟩ := countAlphabets_spec hs (hb ▸ Rep.self bo) false (by simp; omega)
    refine ⟨bo', e, h'.len, fun _ a ha => ?_⟩
    rw [h'.get _ (by omega)]
    simp [ha]
  · refine ⟨bo, by rw [countAlphabets, if_neg (by rw [hb]; simp; omega)], hb, fun h2 => absurd h2 h⟩

theorem getOffsets_spec (hs : Str str c n alpha) {bo : List Nat} {W : Nat} (hb : Counted c n alpha W bo) (hW : alpha ≤ W) (dir : Bool) :
    ∃ bo', getOffsets str n dir alpha bo = some bo' ∧ Bkt c n alpha W bo' (fun a => if dir then start c n (a + 1) else start c n a) := by
  obtain ⟨hl, hc⟩ := hb
  rw [getOffsets]
  obtain ⟨off, hoff⟩ : ∃ off, off = if bo.length / 2 < alpha then 0 else alpha := ⟨_, rfl⟩
  obtain ⟨bo1, e1, g, h1, h2, h3⟩ : ∃ bo1, (if bo.length / 2 < alpha then countAlphabets str n alpha bo true else some bo) = some bo1 ∧
      ∃ g, Rep bo1 W g ∧ (∀ a, a < alpha → off + a < W ∧ g (off + a) = cntE c n a) ∧ (2 * alpha ≤ W → off = alpha) := by
    by_cases h : bo.length / 2 < alpha
    · rw [if_pos h] at hoff ⊢
      obtain ⟨bo', e, h'⟩ := countAlphabets_spec hs (hl ▸ Rep.self bo) true (by simp; omega)
      refine ⟨bo', e, _, h', fun a ha => ⟨by omega, ?_⟩, fun _ => by omega⟩
      rw [hoff]; simp [ha]
    · rw [if_neg h] at hoff ⊢
      refine ⟨bo, rfl, _, hl ▸ Rep.self bo, fun a ha => ⟨by omega, ?_⟩, fun _ => hoff⟩
      have h5 := hc (by omega) a ha
      rw [hoff]
      simp only [List.getD_eq_getElem?_getD, h5, Option.getD_some]
  rw [e1, Option.bind_some]
  simp only
  rw [← hoff]
  obtain ⟨⟨x, v⟩, e, hx, hv⟩ := forUp_spec (body := fun i (s : Nat × List Nat) => (rd s.2 (off + i)).bind fun x =>
      (wr s.2 i (if dir then s.1 + x else s.1)).map fun bo => (s.1 + x, bo))
    (fun i s => s.1 = start c n i ∧ Rep s.2 W (fun k => if k < i then (if dir then start c n (k + 1) else start c n k) else g k)) (Nat.zero_le alpha)
    (s := (1, bo1)) ⟨start_zero.symm, h1.congr fun k _ => by simp⟩ (by
      rintro i ⟨x, v⟩ _ hi ⟨hx, hv⟩
      obtain ⟨h4, h5⟩ := h2 i hi
      simp only at hx hv ⊢
      rw [hv.rd h4, if_neg (by omega), h5, Option.bind_some, hv.wr (by omega), Option.map_some]
      refine ⟨_, rfl, by rw [start_succ, hx], (hv.set _ _).congr fun k hk => ?_⟩
      by_cases e : k = i
      · subst e
        rw [Function.update_self, if_pos (show k < k + 1 by omega), hx, start_succ]
      · rw [Function.update_of_ne e]
        by_cases h6 : k < i
        · rw [if_pos h6, if_pos (show k < i + 1 by omega)]
        · rw [if_neg h6, if_neg (show ¬ k < i + 1 by omega)])
  rw [e]
  refine ⟨v, rfl, hv.len, fun a ha => ?_, fun h6 a ha => ?_⟩
  · rw [hv.get a (by omega), if_pos ha]
  · have h7 := h3 h6
    rw [hv.get _ (by omega), if_neg (by omega), ← h7, (h2 a ha).2]

end

end Altruct.SuffixArray
