/-
C22: `scan`, `hamming_distance`, `compare` and `to_string` of ranges of `bit_vector`s.
-/
import Verif.Container.BitVecProps
import Mathlib.Data.Nat.Bitwise

namespace Altruct.BitVector

variable {L : Nat}

/-- Invariant rule for `scan`: `I pos s go` holds after the first `pos` bits of the range. -/
theorem scan_inv {σ : Type} {ws : List (BitVec L)} {b e : Nat}
    {visitor : σ → BitVec L → Nat → Nat → Option (σ × Bool)} (I : Nat → σ → Bool → Prop)
    (hL : 0 < L) (hbe : b ≤ e) (hlen : e / L < ws.length) {s0 : σ} (h0 : I 0 s0 true)
    (hstep : ∀ s w pos l, I pos s true → pos + l ≤ e - b → l ≤ L →
      (∀ k, k < l → w.getLsbD k = bits ws (b + pos + k)) →
      ∃ s' go, visitor s w pos l = some (s', go) ∧ I (pos + l) s' go) :
    ∃ s go pos, scan ws b e visitor s0 = some (s, go) ∧ I pos s go ∧ pos ≤ e - b ∧ (go = true → pos = e - b) := by
  have hib : b / L ≤ e / L := Nat.div_le_div_right hbe
  have hlb := Nat.mod_lt b hL
  have hle := Nat.mod_lt e hL
  have hbd := Nat.div_add_mod b L
  have hed := Nat.div_add_mod e L
  rw [scan]
  obtain ⟨ib, hibd⟩ : ∃ x, x = b / L := ⟨_, rfl⟩
  obtain ⟨ie, hied⟩ : ∃ x, x = e / L := ⟨_, rfl⟩
  obtain ⟨lb, hlbd⟩ : ∃ x, x = b % L := ⟨_, rfl⟩
  obtain ⟨le, hled⟩ : ∃ x, x = e % L := ⟨_, rfl⟩
  rw [← hibd, ← hied, ← hlbd, ← hled]
  rw [← hibd, ← hlbd] at hbd
  rw [← hied, ← hled] at hed
  rw [← hied] at hlen
  rw [← hibd, ← hied] at hib
  rw [← hlbd] at hlb
  rw [← hled] at hle
  obtain ⟨w, hw, hwb⟩ := rd_some (ws := ws) (i := ib) (by omega)
  by_cases hs : ib = ie
  · subst hs
    obtain ⟨s1, go, ev, hi⟩ := hstep s0 (w >>> lb) 0 (le - lb) h0 (by omega) (by omega) (fun k hk => by
      rw [BitVec.getLsbD_ushiftRight, hwb, Nat.add_zero, show b + k = L * ib + (lb + k) by omega,
        bits_eq _ _ _ (by omega)])
    refine ⟨s1, go, 0 + (le - lb), ?_, hi, by omega, fun _ => by omega⟩
    simp only [hw, Option.bind_eq_bind, Option.bind_some, ne_eq, not_true_eq_false, if_false, ev]
    rw [show ib - (ib + 1) = 0 by omega, scanLoop]
    simp
  · have hlt : ib < ie := by omega
    have hmul : L * (ib + 1) ≤ L * ie := Nat.mul_le_mul_left _ hlt
    rw [Nat.mul_succ] at hmul
    obtain ⟨s1, go1, ev, hi⟩ := hstep s0 (w >>> lb) 0 (L - lb) h0 (by omega) (by omega) (fun k hk => by
      rw [BitVec.getLsbD_ushiftRight, hwb, Nat.add_zero, show b + k = L * ib + (lb + k) by omega,
        bits_eq _ _ _ (by omega)])
    have loop : ∀ n i s go pos, i + n = ie → (go = true → pos + b = L * i) → pos + b ≤ L * i → I pos s go →
        ∃ s' go' pos', scanLoop ws b visitor n i s go = some (s', go') ∧ I pos' s' go' ∧ pos' + b ≤ L * ie ∧
          (go' = true → pos' + b = L * ie) := by
      intro n
      induction n with
      | zero =>
        intro i s go pos hn hg hp hI
        have : i = ie := by omega
        subst this
        exact ⟨s, go, pos, rfl, hI, hp, hg⟩
      | succ n ih =>
        intro i s go pos hn hg hp hI
        have hmi : L * (i + 1) ≤ L * ie := Nat.mul_le_mul_left _ (by omega)
        rw [Nat.mul_succ] at hmi
        rw [scanLoop]
        cases go with
        | false => exact ⟨s, false, pos, by simp, hI, by omega, by simp⟩
        | true =>
          obtain ⟨wi, hwi, hwib⟩ := rd_some (ws := ws) (i := i) (by omega)
          have hpi := hg rfl
          have hcm := Nat.mul_comm i L
          obtain ⟨s', go', e', hI'⟩ := hstep s wi pos L hI (by omega) (le_refl _) (fun k hk => by
            rw [hwib, show b + pos + k = L * i + k by omega, bits_eq _ _ _ hk])
          have hms : L * (i + 1) = L * i + L := Nat.mul_succ L i
          obtain ⟨s2, go2, pos2, e2, q2⟩ := ih (i + 1) s' go' (pos + L) (by omega) (fun _ => by omega) (by omega) hI'
          refine ⟨s2, go2, pos2, ?_, q2⟩
          rw [if_pos rfl, hwi, show i * L - b = pos by omega]
          simp only [Option.bind_eq_bind, Option.bind_some, e']
          exact e2
    have hms : L * (ib + 1) = L * ib + L := Nat.mul_succ L ib
    obtain ⟨s2, go2, pos2, e2, hI2, hp2, hg2⟩ := loop (ie - (ib + 1)) (ib + 1) s1 go1 (0 + (L - lb)) (by omega)
      (fun _ => by omega) (by omega) hi
    cases go2 with
    | false =>
      refine ⟨s2, false, pos2, ?_, hI2, by omega, by simp⟩
      simp only [hw, Option.bind_eq_bind, Option.bind_some, hs, ne_eq, not_false_eq_true, if_true, ev, e2]
      simp
    | true =>
      have hp := hg2 rfl
      obtain ⟨we, hwe, hweb⟩ := rd_some hlen
      obtain ⟨s3, go3, e3, hI3⟩ := hstep s2 we pos2 le hI2 (by omega) (by omega) (fun k hk => by
        rw [hweb, show b + pos2 + k = L * ie + k by omega, bits_eq _ _ _ (by omega)])
      refine ⟨s3, go3, pos2 + le, ?_, hI3, by omega, fun _ => by omega⟩
      simp only [hw, Option.bind_eq_bind, Option.bind_some, hs, ne_eq, not_false_eq_true, if_true, ev, e2]
      rw [show e - b - le = pos2 by omega]
      simp [hwe, e3]

theorem scan2_inv {σ : Type} {ws1 : List (BitVec L)} {v2 : BV L} {b1 b2 len : Nat}
    {visitor : σ → BitVec L → BitVec L → Nat → Option (σ × Bool)} (I : Nat → σ → Bool → Prop)
    (hL : 0 < L) (hlen : (b1 + len) / L < ws1.length) (h2 : Inv v2) (he2 : b2 + len ≤ v2.sz)
    {s0 : σ} (h0 : I 0 s0 true)
    (hstep : ∀ s w1 w2 pos l, I pos s true → pos + l ≤ len → l ≤ L →
      (∀ k, k < l → w1.getLsbD k = bits ws1 (b1 + pos + k)) →
      (∀ k, k < l → w2.getLsbD k = bits v2.words (b2 + pos + k)) →
      ∃ s' go, visitor s w1 w2 l = some (s', go) ∧ I (pos + l) s' go) :
    ∃ s go pos, scan2 ws1 b1 v2.words b2 len visitor s0 = some (s, go) ∧ I pos s go ∧ pos ≤ len ∧
      (go = true → pos = len) := by
  have := scan_inv (ws := ws1) (b := b1) (e := b1 + len) (visitor := fun s w pos l => do
    let w2 ← wordAtPos v2.words (b2 + pos)
    visitor s w w2 l) I hL (Nat.le_add_right _ _) hlen h0 ?_
  · rw [Nat.add_sub_cancel_left] at this
    exact this
  · intro s w pos l hI hpl hlL hw
    rw [Nat.add_sub_cancel_left] at hpl
    have hcov := words_cover h2.pos h2.len (show b2 + pos ≤ v2.sz by omega)
    obtain ⟨r, hr, hrb⟩ := wordAtPos_spec hL hcov.1 hcov.2
    obtain ⟨s', go, e, hI'⟩ := hstep s w r pos l hI hpl hlL hw (fun k hk => hrb k (by omega))
    refine ⟨s', go, ?_, hI'⟩
    rw [hr]
    exact e

theorem masked_bit (w : BitVec L) (l k : Nat) (hl : l ≤ L) (hk : k < L) :
    (if l < L then w &&& firstBits L l else w).getLsbD k = (decide (k < l) && w.getLsbD k) := by
  by_cases h : l < L
  · rw [if_pos h, BitVec.getLsbD_and, firstBits_bit _ _ h, Bool.and_comm]
  · rw [if_neg h]
    have : k < l := by omega
    simp [this]

/-! ### Hamming distance -/

theorem countP_range_shift (n l : Nat) (f : Nat → Bool) :
    (List.range (n + l)).countP f = (List.range n).countP f + (List.range l).countP (fun k => f (n + k)) := by
  rw [List.range_add, List.countP_append, List.countP_map]
  rfl

theorem countP_range_cut (l n : Nat) (f : Nat → Bool) (h : l ≤ n) :
    (List.range n).countP (fun k => decide (k < l) && f k) = (List.range l).countP f := by
  obtain ⟨m, rfl⟩ := Nat.exists_eq_add_of_le h
  rw [countP_range_shift]
  have h1 : (List.range m).countP (fun k => decide (l + k < l) && f (l + k)) = 0 := by
    rw [List.countP_eq_zero]
    intro k _
    simp
  rw [h1, Nat.add_zero]
  apply List.countP_congr
  intro k hk
  have := List.mem_range.mp hk
  simp [this]

theorem count_zipWith (n : Nat) (f g : Nat → Bool) (l1 l2 : List Bool) (h1 : l1.length = n) (h2 : l2.length = n)
    (hf : ∀ k, k < n → l1.getD k false = f k) (hg : ∀ k, k < n → l2.getD k false = g k) :
    (List.zipWith (fun x y => x ^^ y) l1 l2).count true = (List.range n).countP (fun k => f k ^^ g k) := by
  have : List.zipWith (fun x y => x ^^ y) l1 l2 = (List.range n).map (fun k => f k ^^ g k) := by
    apply List.ext_getElem
    · simp [h1, h2]
    · intro i hi1 hi2
      simp [h1, h2] at hi1
      have a1 := hf i hi1
      have a2 := hg i hi1
      rw [List.getD_eq_getElem?_getD, List.getElem?_eq_getElem (by omega)] at a1 a2
      simp at a1 a2
      simp [a1, a2]
  rw [this, List.count, List.countP_map]
  apply List.countP_congr
  intro k _
  simp

theorem hamming_list {cnt : BitVec L → Option Nat}
    (hcnt : ∀ x, cnt x = some ((List.range L).countP (fun k => x.getLsbD k)))
    {v1 v2 : BV L} (h1 : Inv v1) (h2 : Inv v2) {b1 b2 len : Nat} (he1 : b1 + len ≤ v1.sz) (he2 : b2 + len ≤ v2.sz) :
    hammingDistance cnt v1.words b1 v2.words b2 len =
      some ((List.zipWith (fun x y => x ^^ y) (slice b1 (b1 + len) (toList v1))
        (slice b2 (b2 + len) (toList v2))).count true) := by
  have hcov := words_cover h1.pos h1.len he1
  obtain ⟨f, hf⟩ : ∃ f : Nat → Bool, f = fun k => bits v1.words (b1 + k) := ⟨_, rfl⟩
  obtain ⟨g, hg⟩ : ∃ g : Nat → Bool, g = fun k => bits v2.words (b2 + k) := ⟨_, rfl⟩
  obtain ⟨d, go, pos, e, ⟨hd, hgo⟩, hp, hpe⟩ := scan2_inv
    (visitor := fun dist w1 w2 l => do
      let w := w1 ^^^ w2
      let w := if l < L then w &&& firstBits L l else w
      let c ← cnt w
      some (dist + c, true))
    (fun pos d go => d = (List.range pos).countP (fun k => f k ^^ g k) ∧ go = true)
    h1.pos hcov.1 h2 he2 (s0 := 0) ⟨rfl, rfl⟩ (by
      rintro s w1 w2 pos l ⟨hs, _⟩ hpl hlL hw1 hw2
      refine ⟨_, true, by simp only [hcnt, Option.bind_eq_bind, Option.bind_some]; rfl, ?_, rfl⟩
      rw [countP_range_shift, hs]
      congr 1
      rw [← countP_range_cut l L _ hlL]
      apply List.countP_congr
      intro k hk
      have hk' := List.mem_range.mp hk
      rw [masked_bit _ _ _ hlL hk', BitVec.getLsbD_xor]
      by_cases hkl : k < l
      · rw [hw1 k hkl, hw2 k hkl, hf, hg, Nat.add_assoc, Nat.add_assoc]
      · simp [hkl])
  rw [hammingDistance, e]
  simp only [Option.bind_eq_bind, Option.bind_some]
  rw [hd, hpe hgo]
  congr 1
  symm
  apply count_zipWith
  · rw [slice_length _ _ _ (by rw [toList_length]; exact he1)]; omega
  · rw [slice_length _ _ _ (by rw [toList_length]; exact he2)]; omega
  · intro k hk; rw [slice_getD _ _ _ _ (by omega), toList_getD h1, hf]
  · intro k hk; rw [slice_getD _ _ _ _ (by omega), toList_getD h2, hg]

/-! ### compare -/

/-- Lexicographic comparison, `0` before `1`, a proper prefix being smaller: -1, 0 or 1. -/
def lexCmp : List Bool → List Bool → Int
  | [], [] => 0
  | [], _ :: _ => -1
  | _ :: _, [] => 1
  | a :: as, b :: bs => if a = b then lexCmp as bs else if b then -1 else 1

theorem lexCmp_diff (l1 l2 : List Bool) (k : Nat) (h1 : k < l1.length) (h2 : k < l2.length)
    (heq : ∀ i, i < k → l1.getD i false = l2.getD i false) (hne : l1.getD k false ≠ l2.getD k false) :
    lexCmp l1 l2 = if l2.getD k false then -1 else 1 := by
  induction k generalizing l1 l2 with
  | zero =>
    cases l1 with
    | nil => simp at h1
    | cons a as =>
      cases l2 with
      | nil => simp at h2
      | cons b bs =>
        have : a ≠ b := by simpa using hne
        rw [lexCmp, if_neg this]; rfl
  | succ k ih =>
    cases l1 with
    | nil => simp at h1
    | cons a as =>
      cases l2 with
      | nil => simp at h2
      | cons b bs =>
        have hab : a = b := by simpa using heq 0 (by omega)
        rw [lexCmp, if_pos hab, ih as bs (by simpa using h1) (by simpa using h2)
          (fun i hi => by simpa using heq (i + 1) (by omega)) (by simpa using hne)]
        simp

theorem lexCmp_prefix (l1 l2 : List Bool)
    (heq : ∀ i, i < min l1.length l2.length → l1.getD i false = l2.getD i false) :
    lexCmp l1 l2 = if l1.length = l2.length then 0 else if l1.length < l2.length then -1 else 1 := by
  induction l1 generalizing l2 with
  | nil => cases l2 with
    | nil => rfl
    | cons b bs => simp [lexCmp]
  | cons a as ih => cases l2 with
    | nil => simp [lexCmp]
    | cons b bs =>
      have hab : a = b := by simpa using heq 0 (by simp)
      rw [lexCmp, if_pos hab, ih bs (fun i hi => by simpa using heq (i + 1) (by simp at hi ⊢; omega))]
      simp

theorem rev_lt (x y : BitVec L) (k : Nat) (hk : k < L) (hlow : ∀ i, i < k → x.getLsbD i = y.getLsbD i)
    (hx : x.getLsbD k = false) (hy : y.getLsbD k = true) : x.reverse.toNat < y.reverse.toNat := by
  have hb : ∀ z : BitVec L, ∀ j, z.reverse.toNat.testBit j = (decide (j < L) && z.getLsbD (L - 1 - j)) := by
    intro z j
    rw [BitVec.testBit_toNat, BitVec.getLsbD_reverse, BitVec.getMsbD]
  apply Nat.lt_of_testBit (L - 1 - k)
  · rw [hb, show L - 1 - (L - 1 - k) = k by omega, hx]; simp
  · rw [hb, show L - 1 - (L - 1 - k) = k by omega, hy]; simp; omega
  · intro j hj
    rw [hb, hb]
    by_cases hjL : j < L
    · rw [hlow _ (by omega)]
    · simp [hjL]

theorem ne_first (x y : BitVec L) (h : x ≠ y) :
    ∃ k, k < L ∧ (∀ i, i < k → x.getLsbD i = y.getLsbD i) ∧ x.getLsbD k ≠ y.getLsbD k := by
  have hex : ∃ k, x.getLsbD k ≠ y.getLsbD k := by
    by_contra hc
    push Not at hc
    exact h (BitVec.eq_of_getLsbD_eq (fun k _ => hc k))
  classical
  refine ⟨Nat.find hex, ?_, fun i hi => by simpa using Nat.find_min hex hi, Nat.find_spec hex⟩
  by_contra hge
  apply Nat.find_spec hex
  rw [BitVec.getLsbD_of_ge _ _ (by omega), BitVec.getLsbD_of_ge _ _ (by omega)]

theorem compare_list {rev : BitVec L → Option (BitVec L)} (hrev : ∀ x, rev x = some x.reverse)
    {v1 v2 : BV L} (h1 : Inv v1) (h2 : Inv v2) {b1 e1 b2 e2 : Nat} (hb1 : b1 ≤ e1) (hb2 : b2 ≤ e2)
    (he1 : e1 ≤ v1.sz) (he2 : e2 ≤ v2.sz) :
    compare rev v1.words b1 e1 v2.words b2 e2 =
      some (lexCmp (slice b1 e1 (toList v1)) (slice b2 e2 (toList v2))) := by
  obtain ⟨len, hlen⟩ : ∃ len, len = min (e1 - b1) (e2 - b2) := ⟨_, rfl⟩
  have hcov := words_cover h1.pos h1.len (show b1 + len ≤ v1.sz by omega)
  obtain ⟨f, hf⟩ : ∃ f : Nat → Bool, f = fun k => bits v1.words (b1 + k) := ⟨_, rfl⟩
  obtain ⟨g, hg⟩ : ∃ g : Nat → Bool, g = fun k => bits v2.words (b2 + k) := ⟨_, rfl⟩
  obtain ⟨ret, go, pos, e, hI, hp, hpe⟩ := scan2_inv
    (visitor := fun (ret : Int) w1 w2 l => do
      let w1 := if l < L then w1 &&& firstBits L l else w1
      let w2 := if l < L then w2 &&& firstBits L l else w2
      let ret ← if w1 ≠ w2 then do
          let a ← rev w1
          let b ← rev w2
          some (if a.toNat < b.toNat then -1 else 1)
        else some ret
      some (ret, w1 = w2))
    (fun pos ret go => if go then ret = 0 ∧ ∀ i, i < pos → f i = g i
      else ∃ k, k < pos ∧ (∀ i, i < k → f i = g i) ∧ f k ≠ g k ∧ ret = if g k then -1 else 1)
    h1.pos hcov.1 h2 (show b2 + len ≤ v2.sz by omega) (s0 := 0) (by simp) (by
      rintro s w1 w2 pos l hI hpl hlL hw1 hw2
      simp only [if_true] at hI
      obtain ⟨hs0, hpre⟩ := hI
      obtain ⟨m1, hm1⟩ : ∃ m, m = if l < L then w1 &&& firstBits L l else w1 := ⟨_, rfl⟩
      obtain ⟨m2, hm2⟩ : ∃ m, m = if l < L then w2 &&& firstBits L l else w2 := ⟨_, rfl⟩
      simp only [← hm1, ← hm2]
      have mb1 : ∀ k, k < L → m1.getLsbD k = (decide (k < l) && f (pos + k)) := by
        intro k hk
        rw [hm1, masked_bit _ _ _ hlL hk]
        by_cases hkl : k < l
        · rw [hw1 k hkl, hf, Nat.add_assoc]
        · simp [hkl]
      have mb2 : ∀ k, k < L → m2.getLsbD k = (decide (k < l) && g (pos + k)) := by
        intro k hk
        rw [hm2, masked_bit _ _ _ hlL hk]
        by_cases hkl : k < l
        · rw [hw2 k hkl, hg, Nat.add_assoc]
        · simp [hkl]
      by_cases heq : m1 = m2
      · refine ⟨s, true, by simp [heq], ?_⟩
        simp only [if_true]
        refine ⟨hs0, fun i hi => ?_⟩
        by_cases hip : i < pos
        · exact hpre i hip
        · have hkl : i - pos < l := by omega
          have a1 := mb1 (i - pos) (by omega)
          have a2 := mb2 (i - pos) (by omega)
          rw [heq, a2, show pos + (i - pos) = i by omega] at a1
          simpa [hkl] using a1.symm
      · obtain ⟨k, hkL, hlow, hne⟩ := ne_first m1 m2 heq
        rw [mb1 k hkL, mb2 k hkL] at hne
        have hkl : k < l := by
          by_contra hc
          simp [hc] at hne
        have hfg : f (pos + k) ≠ g (pos + k) := by simpa [hkl] using hne
        refine ⟨if m1.reverse.toNat < m2.reverse.toNat then -1 else 1, false, ?_, ?_⟩
        · simp [heq, hrev]
        · simp only [Bool.false_eq_true, if_false]
          refine ⟨pos + k, by omega, fun i hi => ?_, hfg, ?_⟩
          · by_cases hip : i < pos
            · exact hpre i hip
            · have a0 := hlow (i - pos) (by omega)
              rw [mb1 _ (by omega), mb2 _ (by omega), show pos + (i - pos) = i by omega] at a0
              have : i - pos < l := by omega
              simpa [this] using a0
          · cases hgk : g (pos + k) with
            | true =>
              have hfk : f (pos + k) = false := by rw [hgk] at hfg; simpa using hfg
              rw [if_pos (rev_lt m1 m2 k hkL hlow (by rw [mb1 k hkL, hfk]; simp)
                (by rw [mb2 k hkL, hgk]; simp [hkl]))]
              simp
            | false =>
              have hfk : f (pos + k) = true := by rw [hgk] at hfg; simpa using hfg
              have := rev_lt m2 m1 k hkL (fun i hi => (hlow i hi).symm) (by rw [mb2 k hkL, hgk]; simp)
                (by rw [mb1 k hkL, hfk]; simp [hkl])
              rw [if_neg (by omega)]
              simp)
  have l1 : (slice b1 e1 (toList v1)).length = e1 - b1 := slice_length _ _ _ (by rw [toList_length]; exact he1)
  have l2 : (slice b2 e2 (toList v2)).length = e2 - b2 := slice_length _ _ _ (by rw [toList_length]; exact he2)
  have g1 : ∀ k, k < len → (slice b1 e1 (toList v1)).getD k false = f k := by
    intro k hk; rw [slice_getD _ _ _ _ (by omega), toList_getD h1, hf]
  have g2 : ∀ k, k < len → (slice b2 e2 (toList v2)).getD k false = g k := by
    intro k hk; rw [slice_getD _ _ _ _ (by omega), toList_getD h2, hg]
  have e' := e
  rw [hlen] at e'
  rw [compare]
  simp only [Option.bind_eq_bind] at e' ⊢
  rw [e']
  simp only [Option.bind_some]
  cases go with
  | true =>
    simp only [if_true] at hI
    have hpl := hpe rfl
    rw [lexCmp_prefix _ _ (fun i hi => by
      rw [l1, l2, ← hlen] at hi
      rw [g1 i hi, g2 i hi, hI.2 i (by omega)]), l1, l2, hI.1]
    by_cases hl : e1 - b1 = e2 - b2
    · simp [hl]
    · simp only [ne_eq, not_true_eq_false, if_false, hl, not_false_eq_true, if_true]
  | false =>
    simp only [Bool.false_eq_true, if_false] at hI
    obtain ⟨k, hk, hlow, hne, hr⟩ := hI
    rw [lexCmp_diff _ _ k (by omega) (by omega)
      (fun i hi => by rw [g1 i (by omega), g2 i (by omega), hlow i hi])
      (by rw [g1 k (by omega), g2 k (by omega)]; exact hne), g2 k (by omega)]
    rw [if_pos]
    · rw [hr]
    · rw [hr]; cases g k <;> simp

/-! ### to_string -/

theorem wordChars_eq (hL : 0 < L) (n : Nat) (w : BitVec L) (hn : n ≤ L) :
    wordChars n w = (List.range n).map (fun k => if w.getLsbD k then '1' else '0') := by
  induction n generalizing w with
  | zero => rfl
  | succ n ih =>
    rw [wordChars, ih _ (by omega), List.range_succ_eq_map, List.map_cons, List.map_map]
    congr 1
    · have : (w &&& 1#L = 1#L) ↔ w.getLsbD 0 = true := by
        constructor
        · intro h
          have := congrArg (fun z => z.getLsbD 0) h
          simpa [BitVec.getLsbD_and, BitVec.getLsbD_one, hL] using this
        · intro h
          apply BitVec.eq_of_getLsbD_eq
          intro i hi
          rw [BitVec.getLsbD_and, BitVec.getLsbD_one]
          by_cases hi0 : i = 0
          · subst hi0; simp [h]
          · have : ¬ (0 = i) := by omega
            simp [hi0]
      by_cases hw : w.getLsbD 0 = true
      · rw [if_pos (this.mpr hw), if_pos hw]
      · rw [if_neg (fun hc => hw (this.mp hc)), if_neg hw]
    · apply List.map_congr_left
      intro k _
      simp only [Function.comp, BitVec.getLsbD_ushiftRight]
      rw [Nat.add_comm 1 k]

theorem stringLoop_spec {v : BV L} (h : Inv v) {b e : Nat} (he : e ≤ v.sz) (fuel : Nat) :
    ∀ pos s, b ≤ pos → e - pos < fuel →
      s = (List.range (pos - b)).map (fun k => if bits v.words (b + k) then '1' else '0') →
      ∃ n, e - b ≤ n ∧ stringLoop v.words e fuel pos s =
        some ((List.range n).map (fun k => if bits v.words (b + k) then '1' else '0')) := by
  induction fuel with
  | zero =>
    intro pos s hb hf hs
    omega
  | succ fuel ih =>
    intro pos s hb hf hs
    rw [stringLoop]
    have hL := h.pos
    by_cases hlt : pos < e
    · rw [if_pos hlt]
      have hcov := words_cover h.pos h.len (show pos ≤ v.sz by omega)
      obtain ⟨w, hw, hwb⟩ := wordAtPos_spec h.pos hcov.1 hcov.2
      rw [hw]
      simp only [Option.bind_eq_bind, Option.bind_some]
      apply ih _ _ (by omega) (by omega)
      rw [hs, wordChars_eq hL _ _ (le_refl _), show pos + L - b = (pos - b) + L by omega, List.range_add,
        List.map_append, List.map_map]
      congr 1
      apply List.map_congr_left
      intro k hk
      have hk' := List.mem_range.mp hk
      simp only [Function.comp]
      rw [hwb k hk', show b + (pos - b + k) = pos + k by omega]
    · rw [if_neg hlt]
      exact ⟨pos - b, by omega, by rw [hs]⟩

/-- **C22**: `to_string(begin, end)` writes the bits of the range as characters `0` and `1`. -/
theorem C22_to_string {v : BV L} (h : Inv v) {b e : Nat} (hbe : b ≤ e) (he : e ≤ (toList v).length) :
    toStr v b e = some ((slice b e (toList v)).map (fun x => if x then '1' else '0')) := by
  rw [toList_length] at he
  obtain ⟨n, hn, es⟩ := stringLoop_spec h (b := b) he (e - b + 1) b [] (le_refl _) (by omega) (by simp)
  rw [toStr, es]
  simp only [Option.bind_eq_bind, Option.bind_some]
  congr 1
  rw [← List.map_take, List.take_range, Nat.min_eq_left hn]
  apply List.ext_getElem
  · rw [List.length_map, List.length_map, slice_length _ _ _ (by rw [toList_length]; exact he), List.length_range]
  · intro i h1 h2
    have hi : i < e - b := by simpa using h1
    have hs := slice_getD b e (toList v) i (by omega)
    rw [List.length_map] at h2
    rw [List.getD_eq_getElem?_getD, List.getElem?_eq_getElem h2, toList_getD h] at hs
    simp only [Option.getD_some] at hs
    simp [hs]

example : toStr (⟨10, [0x4D#8, 0x03#8, 0#8]⟩ : BV 8) 1 9 = some "01100101".toList := by decide +kernel

end Altruct.BitVector
