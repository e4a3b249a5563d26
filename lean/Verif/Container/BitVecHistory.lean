/-
C22: the remaining range operations of `bit_vector` with the real `bit_reverse` and `bit_cnt1`,
and every history of operations.
-/
import Verif.Container.BitVecReverse
import Verif.Container.BitVecShift
import Verif.Container.BitVecScan
import Verif.Bits.TableProps

namespace Altruct.BitVector
open Bits

variable {T : Tables} {W : Wd}

theorem rev_ok (h : Bits.init = some T) (x : BitVec W.bits) : bitReverse T W x = some x.reverse :=
  bitReverse_eq (good_of_init h) W x

/-- **C22**: `reverse(begin, end)` reverses that range. -/
theorem C22_reverse (hT : Bits.init = some T) {v : BV W.bits} (h : Inv v) {b e : Nat} (hbe : b ≤ e)
    (he : e ≤ (toList v).length) :
    ∃ ws, reverse (bitReverse T W) v.words b e = some ws ∧ Inv ⟨v.sz, ws⟩ ∧
      toList ⟨v.sz, ws⟩ = onRange b e List.reverse (toList v) :=
  reverse_list (rev_ok hT) h hbe (by rwa [toList_length] at he)

/-- **C22**: `swap` exchanges two disjoint ranges of any lengths: with the contents
`A ++ B ++ C ++ D ++ E`, where `B` and `D` are the two ranges, it leaves `A ++ D ++ C ++ B ++ E`;
the order in which the ranges are given does not matter. -/
theorem C22_swap (hT : Bits.init = some T) {v : BV W.bits} (h : Inv v) (A B C D E : List Bool)
    (hv : toList v = A ++ B ++ C ++ D ++ E) :
    ∃ ws,
      swap (bitReverse T W) v.words A.length (A ++ B).length (A ++ B ++ C).length (A ++ B ++ C ++ D).length = some ws ∧
      ((A ++ B ++ C).length ≠ A.length →
        swap (bitReverse T W) v.words (A ++ B ++ C).length (A ++ B ++ C ++ D).length A.length (A ++ B).length = some ws) ∧
      Inv ⟨v.sz, ws⟩ ∧ toList ⟨v.sz, ws⟩ = A ++ D ++ C ++ B ++ E := by
  have hsz : v.sz = (A ++ B ++ C ++ D ++ E).length := by rw [← hv, toList_length]
  obtain ⟨ws, q, i, t⟩ := swapSorted_list (rev_ok hT (W := W)) h (b1 := A.length) (e1 := (A ++ B).length)
    (b2 := (A ++ B ++ C).length) (e2 := (A ++ B ++ C ++ D).length) (by simp) (by simp) (by simp)
    (by rw [hsz]; simp)
  refine ⟨ws, ?_, ?_, i, ?_⟩
  · rw [swap, if_neg (by simp), q]
  · intro hne
    rw [swap, if_pos (by simp at hne ⊢; by_contra hc; apply hne <;> (rw [← List.length_eq_zero_iff]; omega)), q]
  · rw [t, hv]
    have s1 : slice (A ++ B ++ C).length (A ++ B ++ C ++ D).length (A ++ B ++ C ++ D ++ E) = D :=
      slice_append (A ++ B ++ C) D E _ _ rfl (by rw [← List.length_append])
    have s2 : slice (A ++ B).length (A ++ B ++ C).length (A ++ B ++ C ++ D ++ E) = C := by
      rw [show A ++ B ++ C ++ D ++ E = (A ++ B) ++ C ++ (D ++ E) by simp]
      exact slice_append (A ++ B) C (D ++ E) _ _ rfl (by rw [← List.length_append])
    have s3 : slice A.length (A ++ B).length (A ++ B ++ C ++ D ++ E) = B := by
      rw [show A ++ B ++ C ++ D ++ E = A ++ B ++ (C ++ (D ++ E)) by simp]
      exact slice_append A B (C ++ (D ++ E)) _ _ rfl (by simp)
    have s4 : (A ++ B ++ C ++ D ++ E).take A.length = A := by
      rw [show A ++ B ++ C ++ D ++ E = A ++ (B ++ C ++ D ++ E) by simp]
      exact List.take_left
    have s5 : (A ++ B ++ C ++ D ++ E).drop (A ++ B ++ C ++ D).length = E := List.drop_left
    rw [s1, s2, s3, s4, s5]

/-- **C22**: `rotate_left` and `rotate_right` of a range, by any number of positions. -/
theorem C22_rotate (hT : Bits.init = some T) {v : BV W.bits} (h : Inv v) {b e : Nat} (cnt : Nat) (hbe : b ≤ e)
    (he : e ≤ (toList v).length) :
    (∃ ws, rotateLeft (bitReverse T W) v.words b e cnt = some ws ∧ Inv ⟨v.sz, ws⟩ ∧
      toList ⟨v.sz, ws⟩ = onRange b e (fun l => l.rotateLeft cnt) (toList v)) ∧
    (∃ ws, rotateRight (bitReverse T W) v.words b e cnt = some ws ∧ Inv ⟨v.sz, ws⟩ ∧
      toList ⟨v.sz, ws⟩ = onRange b e (fun l => l.rotateRight cnt) (toList v)) :=
  ⟨rotateLeft_list (rev_ok hT) h cnt hbe (by rwa [toList_length] at he),
    rotateRight_list (rev_ok hT) h cnt hbe (by rwa [toList_length] at he)⟩

/-- **C22**: `hamming_distance` is the number of positions where the two ranges differ. -/
theorem C22_hamming_distance (hT : Bits.init = some T) {v1 v2 : BV W.bits} (h1 : Inv v1) (h2 : Inv v2)
    {b1 b2 len : Nat} (he1 : b1 + len ≤ (toList v1).length) (he2 : b2 + len ≤ (toList v2).length) :
    hammingDistance (bitCnt1 T W) v1.words b1 v2.words b2 len =
      some ((List.zipWith (fun x y => x ^^ y) (slice b1 (b1 + len) (toList v1))
        (slice b2 (b2 + len) (toList v2))).count true) := by
  rw [toList_length] at he1 he2
  refine hamming_list (fun x => ?_) h1 h2 he1 he2
  rw [C23_bit_cnt1 hT, ones, List.countP_eq_length_filter]

/-- **C22**: `compare` is the lexicographic comparison of the two ranges. -/
theorem C22_compare (hT : Bits.init = some T) {v1 v2 : BV W.bits} (h1 : Inv v1) (h2 : Inv v2)
    {b1 e1 b2 e2 : Nat} (hb1 : b1 ≤ e1) (hb2 : b2 ≤ e2) (he1 : e1 ≤ (toList v1).length)
    (he2 : e2 ≤ (toList v2).length) :
    compare (bitReverse T W) v1.words b1 e1 v2.words b2 e2 =
      some (lexCmp (slice b1 e1 (toList v1)) (slice b2 e2 (toList v2))) := by
  rw [toList_length] at he1 he2
  exact compare_list (rev_ok hT) h1 h2 hb1 hb2 he1 he2

example : lexCmp [true, false] [true, true, false] = -1 ∧ lexCmp [true] [true, false] = -1 ∧
    lexCmp [true, true] [true, false, true] = 1 ∧ lexCmp [false, true] [false, true] = 0 := by decide

/-! ### Histories -/

/-- The eight two-operand bit operations of bit_vector.h:346-353. -/
inductive Bop | set | setn | and | or | xor | nand | nor | eq

/-- The operation on words. -/
def Bop.word {L : Nat} : Bop → BitVec L → BitVec L → BitVec L
  | .set => fSet | .setn => fSetn | .and => fAnd | .or => fOr
  | .xor => fXor | .nand => fNand | .nor => fNor | .eq => fEq

/-- What it means for a bit. -/
def Bop.bit : Bop → Bool → Bool → Bool
  | .set => fun _ y => y | .setn => fun _ y => !y | .and => fun x y => x && y | .or => fun x y => x || y
  | .xor => fun x y => x ^^ y | .nand => fun x y => !(x && y) | .nor => fun x y => !(x || y)
  | .eq => fun x y => x == y

theorem Bop.ok {L : Nat} (o : Bop) : Bitwise (L := L) o.word o.bit := by
  obtain ⟨a1, a2, a3, a4, a5, a6, a7, a8⟩ := bitwise_ops (L := L)
  cases o <;> assumption

/-- The operations of a history.  `other` vectors are given by their contents. -/
inductive Op
  | set (pos : Nat) (b : Bool) | flip (pos : Nat)
  | fill (b e : Nat) (x : Bool) (back : Bool) | flipRange (b e : Nat) (back : Bool)
  | combine (o : Bop) (b1 b2 len : Nat) | combineWith (o : Bop) (b1 : Nat) (u : List Bool) (b2 len : Nat)
  | reverse (b e : Nat) | swap (b1 e1 b2 e2 : Nat)
  | rotl (b e cnt : Nat) | rotr (b e cnt : Nat)
  | resize (n : Nat) | reserve (n : Nat) | push (b : Bool) | pop
  | not | and (u : List Bool) | or (u : List Bool) | xor (u : List Bool) | shr (cnt : Nat)

/-- A vector with the given contents. -/
def build (L : Nat) (u : List Bool) : Option (BV L) := ofList L (u.map (fun x => if x then 1 else 0))

/-- One operation on the vector. -/
def step (T : Tables) (W : Wd) (v : BV W.bits) : Op → Option (BV W.bits)
  | .set pos b => set v pos (if b then 1 else 0)
  | .flip pos => set v pos (-1)
  | .fill b e x back => (apply v.words b e (if x then opSet1 else opSet0) back).map (BV.mk v.sz)
  | .flipRange b e back => (apply v.words b e opFlip back).map (BV.mk v.sz)
  | .combine o b1 b2 len => (apply2 v.words b1 none b2 len o.word).map (BV.mk v.sz)
  | .combineWith o b1 u b2 len => (build W.bits u).bind (fun u =>
      (apply2 v.words b1 (some u.words) b2 len o.word).map (BV.mk v.sz))
  | .reverse b e => (reverse (bitReverse T W) v.words b e).map (BV.mk v.sz)
  | .swap b1 e1 b2 e2 => (swap (bitReverse T W) v.words b1 e1 b2 e2).map (BV.mk v.sz)
  | .rotl b e cnt => (rotateLeft (bitReverse T W) v.words b e cnt).map (BV.mk v.sz)
  | .rotr b e cnt => (rotateRight (bitReverse T W) v.words b e cnt).map (BV.mk v.sz)
  | .resize n => resize v n
  | .reserve n => reserve v n
  | .push b => pushBack v (if b then 1 else 0)
  | .pop => popBack v
  | .not => not v
  | .and u => (build W.bits u).bind (andAssign v)
  | .or u => (build W.bits u).bind (orAssign v)
  | .xor u => (build W.bits u).bind (xorAssign v)
  | .shr cnt => shrAssign v cnt

/-- What the operation means for the list of bits. -/
def specStep (l : List Bool) : Op → List Bool
  | .set pos b => l.set pos b
  | .flip pos => l.set pos (!l.getD pos false)
  | .fill b e x _ => onRange b e (List.map (fun _ => x)) l
  | .flipRange b e _ => onRange b e (List.map (fun x => !x)) l
  | .combine o b1 b2 len => onRange b1 (b1 + len) (fun s => List.zipWith o.bit s (slice b2 (b2 + len) l)) l
  | .combineWith o b1 u b2 len => onRange b1 (b1 + len) (fun s => List.zipWith o.bit s (slice b2 (b2 + len) u)) l
  | .reverse b e => onRange b e List.reverse l
  | .swap b1 e1 b2 e2 =>
    if b2 < b1 then l.take b2 ++ slice b1 e1 l ++ slice e2 b1 l ++ slice b2 e2 l ++ l.drop e1
    else l.take b1 ++ slice b2 e2 l ++ slice e1 b2 l ++ slice b1 e1 l ++ l.drop e2
  | .rotl b e cnt => onRange b e (fun s => s.rotateLeft cnt) l
  | .rotr b e cnt => onRange b e (fun s => s.rotateRight cnt) l
  | .resize n => l.take n ++ List.replicate (n - l.length) false
  | .reserve n => l ++ List.replicate (n - l.length) false
  | .push b => l ++ [b]
  | .pop => l.dropLast
  | .not => l.map (fun x => !x)
  | .and u => padZip (fun x y => x && y) l u
  | .or u => padZip (fun x y => x || y) l u
  | .xor u => padZip (fun x y => x ^^ y) l u
  | .shr cnt => l.drop cnt ++ List.replicate (min cnt l.length) false

/-- The ranges and positions an operation needs on a list of `n` bits. -/
def Valid (n : Nat) : Op → Prop
  | .set pos _ => pos < n
  | .flip pos => pos < n
  | .fill b e _ _ => b ≤ e ∧ e ≤ n
  | .flipRange b e _ => b ≤ e ∧ e ≤ n
  | .combine _ b1 b2 len => b1 + len ≤ n ∧ b2 + len ≤ n
  | .combineWith _ b1 u b2 len => b1 + len ≤ n ∧ b2 + len ≤ u.length
  | .reverse b e => b ≤ e ∧ e ≤ n
  | .swap b1 e1 b2 e2 => b1 ≤ e1 ∧ b2 ≤ e2 ∧
      ((b1 ≤ b2 ∧ e1 ≤ b2 ∧ e2 ≤ n) ∨ (b2 < b1 ∧ e2 ≤ b1 ∧ e1 ≤ n))
  | .rotl b e _ => b ≤ e ∧ e ≤ n
  | .rotr b e _ => b ≤ e ∧ e ≤ n
  | .pop => 0 < n
  | .shr cnt => cnt ≤ n
  | _ => True

/-- A sequence of operations on the vector. -/
def run (T : Tables) (W : Wd) : BV W.bits → List Op → Option (BV W.bits)
  | v, [] => some v
  | v, o :: os => (step T W v o).bind (fun v => run T W v os)

/-- The same sequence on the list of bits. -/
def specRun : List Bool → List Op → List Bool
  | l, [] => l
  | l, o :: os => specRun (specStep l o) os

/-- Every operation of the sequence is used within its range. -/
def ValidRun : List Bool → List Op → Prop
  | _, [] => True
  | l, o :: os => Valid l.length o ∧ ValidRun (specStep l o) os

theorem build_spec {L : Nat} (hL : 0 < L) (u : List Bool) :
    ∃ v, build L u = some v ∧ Inv v ∧ toList v = u := by
  obtain ⟨v, e, i, t⟩ := C22_of_list hL (u.map (fun x => if x then (1 : Int) else 0))
  refine ⟨v, e, i, ?_⟩
  rw [t, List.map_map]
  conv_rhs => rw [← List.map_id u]
  apply List.map_congr_left
  intro x _
  cases x <;> simp

theorem step_ok (hT : Bits.init = some T) {v : BV W.bits} (h : Inv v) (o : Op) (hv : Valid (toList v).length o) :
    ∃ v', step T W v o = some v' ∧ Inv v' ∧ toList v' = specStep (toList v) o := by
  have hW := Bits.bits_pos W
  cases o with
  | set pos b =>
    obtain ⟨h0, h1, _⟩ := C22_set h hv
    cases b
    · exact h0
    · exact h1
  | flip pos => exact (C22_set h hv).2.2
  | fill b e x back =>
    obtain ⟨h0, h1, _⟩ := C22_apply h back hv.1 hv.2
    cases x
    · obtain ⟨ws, q, r⟩ := h0
      exact ⟨_, by simp only [step, Bool.false_eq_true, if_false, q, Option.map_some], r⟩
    · obtain ⟨ws, q, r⟩ := h1
      exact ⟨_, by simp only [step, if_true, q, Option.map_some], r⟩
  | flipRange b e back =>
    obtain ⟨ws, q, r⟩ := (C22_apply h back hv.1 hv.2).2.2.2
    exact ⟨_, by simp only [step, q, Option.map_some], r⟩
  | combine o b1 b2 len =>
    obtain ⟨ws, q, r⟩ := C22_apply2 h none (by simp) o.ok hv.1 hv.2
    refine ⟨_, ?_, r⟩
    simp only [Option.map_none] at q
    simp only [step, q, Option.map_some]
  | combineWith o b1 u b2 len =>
    obtain ⟨u', eu, iu, tu⟩ := build_spec hW u
    obtain ⟨ws, q, i, r⟩ := C22_apply2 h (some u') (by rintro _ ⟨⟩; exact iu) o.ok hv.1
      (by simp only [Option.getD_some, tu]; exact hv.2)
    refine ⟨⟨v.sz, ws⟩, ?_, i, ?_⟩
    · simp only [Option.map_some] at q
      simp only [step, eu, Option.bind_some, q, Option.map_some]
    · rw [r]
      simp only [Option.getD_some, tu, specStep]
  | reverse b e =>
    obtain ⟨ws, q, r⟩ := C22_reverse hT h hv.1 hv.2
    exact ⟨_, by simp only [step, q, Option.map_some], r⟩
  | swap b1 e1 b2 e2 =>
    obtain ⟨h1, h2, h3⟩ := hv
    rw [toList_length] at h3
    by_cases hlt : b2 < b1
    · obtain ⟨ws, q, i, t⟩ := swapSorted_list (rev_ok hT (W := W)) h h2 (show e2 ≤ b1 by omega) h1 (by omega)
      refine ⟨_, ?_, i, ?_⟩
      · simp only [step, swap, gt_iff_lt, hlt, if_true, q, Option.map_some]
      · simp only [specStep, hlt, if_true]
        exact t
    · obtain ⟨ws, q, i, t⟩ := swapSorted_list (rev_ok hT (W := W)) h h1 (show e1 ≤ b2 by omega) h2 (by omega)
      refine ⟨_, ?_, i, ?_⟩
      · simp only [step, swap, gt_iff_lt, hlt, if_false, q, Option.map_some]
      · simp only [specStep, hlt, if_false]
        exact t
  | rotl b e cnt =>
    obtain ⟨ws, q, r⟩ := (C22_rotate hT h cnt hv.1 hv.2).1
    exact ⟨_, by simp only [step, q, Option.map_some], r⟩
  | rotr b e cnt =>
    obtain ⟨ws, q, r⟩ := (C22_rotate hT h cnt hv.1 hv.2).2
    exact ⟨_, by simp only [step, q, Option.map_some], r⟩
  | resize n => exact C22_resize h n
  | reserve n => exact C22_reserve h n
  | push b => exact C22_push_back h b
  | pop => exact C22_pop_back h (by intro hc; rw [hc] at hv; simp [Valid] at hv)
  | not => exact C22_not h
  | and u =>
    obtain ⟨u', eu, iu, tu⟩ := build_spec hW u
    obtain ⟨v', e, i, t⟩ := (C22_logical h iu).2.2
    exact ⟨v', by simp only [step, eu, Option.bind_some, e], i, by rw [t, tu]; rfl⟩
  | or u =>
    obtain ⟨u', eu, iu, tu⟩ := build_spec hW u
    obtain ⟨v', e, i, t⟩ := (C22_logical h iu).1
    exact ⟨v', by simp only [step, eu, Option.bind_some, e], i, by rw [t, tu]; rfl⟩
  | xor u =>
    obtain ⟨u', eu, iu, tu⟩ := build_spec hW u
    obtain ⟨v', e, i, t⟩ := (C22_logical h iu).2.1
    exact ⟨v', by simp only [step, eu, Option.bind_some, e], i, by rw [t, tu]; rfl⟩
  | shr cnt =>
    apply C22_shift_right h
    have hcn : cnt ≤ v.sz := by rw [← toList_length]; exact hv
    have := numWords_cover hW v.sz
    calc cnt / W.bits ≤ (W.bits * numWords W.bits v.sz) / W.bits := Nat.div_le_div_right (by omega)
      _ = numWords W.bits v.sz := by rw [Nat.mul_div_cancel_left _ hW]

theorem run_ok (hT : Bits.init = some T) (os : List Op) : ∀ {v : BV W.bits}, Inv v → ValidRun (toList v) os →
    ∃ v', run T W v os = some v' ∧ Inv v' ∧ toList v' = specRun (toList v) os := by
  induction os with
  | nil => intro v h _; exact ⟨v, rfl, h, rfl⟩
  | cons o os ih =>
    intro v h hv
    obtain ⟨v1, e1, i1, t1⟩ := step_ok hT h o hv.1
    obtain ⟨v2, e2, i2, t2⟩ := ih i1 (by rw [t1]; exact hv.2)
    refine ⟨v2, by rw [run, e1]; exact e2, i2, ?_⟩
    rw [t2, t1, specRun]

/-- **C22**: for every word type and every sequence of operations used within their ranges, on a
vector of any size, the bits of the vector are those of the same sequence on a list of booleans.
(`<<=` is not among the operations: see `C22_shift_left_wrong`.) -/
theorem C22_history (hT : Bits.init = some T) (W : Wd) (n : Nat) (os : List Op)
    (hv : ValidRun (List.replicate n false) os) :
    ∃ v, run T W (mk W.bits n) os = some v ∧ toList v = specRun (List.replicate n false) os ∧
      ∀ p, p < (specRun (List.replicate n false) os).length →
        bitAt v p = some (if (specRun (List.replicate n false) os).getD p false then 1 else 0) := by
  obtain ⟨i, t⟩ := C22_new (Bits.bits_pos W) n
  obtain ⟨v, e, i', t'⟩ := run_ok hT os i (by rw [t]; exact hv)
  rw [t] at t'
  refine ⟨v, e, t', fun p hp => ?_⟩
  rw [C22_bit_at i' (by rw [t']; exact hp), t']

example : ValidRun (List.replicate 70 false)
    [.set 3 true, .combine .set 20 0 40, .reverse 1 69, .rotl 5 65 17, .push true, .or [true, false, true],
      .swap 40 60 2 9, .pop, .shr 4] := by
  simp [ValidRun, Valid, specStep, onRange, slice, List.rotateLeft, padZip]

example : specRun (List.replicate 6 false) [.set 1 true, .combine .set 2 0 3, .not, .rotl 0 6 1] =
    [false, true, false, true, true, true] := by decide +kernel

end Altruct.BitVector
