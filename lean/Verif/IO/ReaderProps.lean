/-
C30: buffered input is transparent.  C31: integers survive being written and read back.
-/
import Verif.IO.ReaderModel
import Verif.IO.WriterProps

namespace Altruct.IO

/-! ### Specification -/

/-- The state of the ideal reader: what is left, the character that may be put back, how many characters have been
reserved, and whether a read has failed. -/
structure Ideal where
  rest : List Int
  last : Option Int
  reserved : Nat
  failed : Bool

/-- One call on the ideal reader with a buffer of the given capacity. -/
def Ideal.step (cap : Nat) (s : Ideal) : ROp → Ideal × ROut
  | .char => match s.rest with
    | [] => (⟨[], none, 0, true⟩, .int (-1))
    | c :: r => (⟨r, some c, 0, s.failed⟩, .int c)
  | .unread => (⟨s.last.toList ++ s.rest, none, 0, s.failed⟩, .unit)
  | .read n => (⟨s.rest.drop (min n cap), none, 0, s.failed || decide ((s.rest.take (min n cap)).length < n)⟩, .bytes (s.rest.take (min n cap)))
  | .data n => if n ≤ cap ∧ n ≤ s.rest.length then (⟨s.rest, none, n, s.failed⟩, .ptr (some (s.rest.take n)))
    else (⟨s.rest, none, 0, true⟩, .ptr none)
  | .skip n => (⟨s.rest.drop n, none, 0, s.failed⟩, .num n)
  | .ok => (s, .bool (!s.failed))

/-- A character is put back only right after it has been read; characters are skipped only right after they have
been reserved. -/
def Ideal.Valid (s : Ideal) : ROp → Prop
  | .unread => s.last.isSome
  | .skip n => n ≤ s.reserved
  | _ => True

/-- What a history on the ideal reader returns. -/
def Ideal.run (cap : Nat) : Ideal → List ROp → List ROut
  | _, [] => []
  | s, op :: ops => (s.step cap op).2 :: Ideal.run cap (s.step cap op).1 ops

/-- The ideal reader after a history. -/
def Ideal.after (cap : Nat) : Ideal → List ROp → Ideal
  | s, [] => s
  | s, op :: ops => Ideal.after cap (s.step cap op).1 ops

/-- All calls of a history are allowed. -/
def Ideal.ValidRun (cap : Nat) : Ideal → List ROp → Prop
  | _, [] => True
  | s, op :: ops => s.Valid op ∧ Ideal.ValidRun cap (s.step cap op).1 ops

/-! ### The invariant -/

/-- The buffer, followed by what the source has not delivered, is what is left. -/
structure RInv (s : Reader) (cap : Nat) (rest : List Int) : Prop where
  cap_eq : s.capacity = cap
  len : s.buff.length = cap + 1
  le : s.ptr ≤ s.fin
  fin_le : s.fin ≤ cap
  all : (s.buff.drop s.ptr).take (s.fin - s.ptr) ++ s.src.rest = rest

theorem RInv.init (raw : List Int) (cap : Nat) (src : Src) (h : raw.length = cap + 1) : ∃ s, Reader.mk' raw cap src = some s ∧ RInv s cap src.rest ∧ s.failed = false := by
  refine ⟨⟨raw.set cap 0, 0, 0, cap, false, src⟩, ?_, ⟨rfl, by simpa using h, Nat.le_refl _, Nat.zero_le _, by simp⟩, rfl⟩
  rw [Reader.mk', wr, if_pos (by omega)]
  rfl

/-- The characters in the buffer. -/
theorem RInv.avail_length {s : Reader} {cap : Nat} {rest : List Int} (h : RInv s cap rest) :
    ((s.buff.drop s.ptr).take (s.fin - s.ptr)).length = s.fin - s.ptr := by
  have := h.len; have := h.fin_le
  rw [List.length_take, List.length_drop]; omega

theorem Src.read_spec (s : Src) (count : Nat) (hc : 0 < count) : (s.read count).1 ++ (s.read count).2.rest = s.rest ∧ (s.read count).1.length ≤ count ∧
    ((s.read count).1.length = 0 → s.rest = []) := by
  have hk : ∃ k, 1 ≤ k ∧ k ≤ count ∧ (s.read count) = (s.rest.take k, ⟨s.rest.drop k, s.chunks.tail⟩) := by
    rw [Src.read]
    cases hch : s.chunks with
    | nil => exact ⟨count, hc, Nat.le_refl _, by simp [show count ≠ 0 by omega]⟩
    | cons c cs => exact ⟨max 1 (min c count), by omega, by omega, by simp [show count ≠ 0 by omega]⟩
  obtain ⟨k, h1, h2, e⟩ := hk
  rw [e]
  refine ⟨List.take_append_drop _ _, by rw [List.length_take]; omega, fun h => ?_⟩
  rw [List.length_take] at h
  exact List.length_eq_zero_iff.mp (by omega)

theorem RInv.refillLoop {cap : Nat} : ∀ (fuel : Nat) (s : Reader) (rest : List Int), RInv s cap rest → s.ptr = 0 → cap - s.fin < fuel →
    ∃ s', s.refillLoop fuel = some s' ∧ RInv s' cap rest ∧ s'.ptr = 0 ∧ s'.failed = s.failed ∧ s'.fin = min cap rest.length := by
  intro fuel
  induction fuel with
  | zero => intro s rest h hp hf; omega
  | succ fuel ih =>
    intro s rest h hp hf
    have hl := h.len
    have hfl := h.fin_le
    have hc := h.cap_eq
    have hav := h.avail_length
    rw [Reader.refillLoop.eq_def]
    simp only
    by_cases hlt : s.fin < s.capacity
    · rw [if_pos hlt]
      obtain ⟨r1, r2, r3⟩ := Src.read_spec s.src (s.capacity - s.fin) (by omega)
      generalize hr : s.src.read (s.capacity - s.fin) = q at *
      obtain ⟨cs, src⟩ := q
      simp only at r1 r2 r3 ⊢
      have hall := h.all
      rw [hp, Nat.sub_zero, List.drop_zero] at hall
      by_cases h0 : cs.length = 0
      · rw [if_pos h0]
        have hcs : cs = [] := List.length_eq_zero_iff.mp h0
        have hs0 := r3 h0
        have hsr : src.rest = [] := by rw [hcs, hs0] at r1; simpa using r1
        refine ⟨_, rfl, ⟨hc, hl, h.le, hfl, ?_⟩, hp, rfl, ?_⟩
        · change (s.buff.drop s.ptr).take _ ++ src.rest = _
          rw [hp, Nat.sub_zero, List.drop_zero, hsr, ← hs0]; exact hall
        · have := congrArg List.length hall
          rw [hs0, List.append_nil, List.length_take] at this
          change s.fin = _
          omega
      · rw [if_neg h0, copyTo_spec _ _ _ (by omega)]
        simp only [Option.bind_eq_bind, Option.bind_some]
        have hlt' : (s.buff.take s.fin).length = s.fin := by rw [List.length_take]; omega
        obtain ⟨s', e', h1, h2, h3, h4⟩ := ih { s with buff := s.buff.take s.fin ++ cs ++ s.buff.drop (s.fin + cs.length), fin := s.fin + cs.length, src := src } rest
          ⟨hc, by simp only [List.length_append, List.length_drop, hlt']; omega, by change s.ptr ≤ s.fin + cs.length; omega, by change s.fin + cs.length ≤ cap; omega, by
            change ((s.buff.take s.fin ++ cs ++ s.buff.drop (s.fin + cs.length)).drop s.ptr).take (s.fin + cs.length - s.ptr) ++ src.rest = rest
            rw [hp, List.drop_zero, Nat.sub_zero, List.take_append_of_le_length (by rw [List.length_append, hlt']),
              List.take_of_length_le (by rw [List.length_append, hlt']), List.append_assoc, r1]
            exact hall⟩ hp (by change cap - (s.fin + cs.length) < fuel; omega)
        exact ⟨s', e', h1, h2, h3, h4⟩
    · rw [if_neg hlt]
      refine ⟨s, rfl, h, hp, rfl, ?_⟩
      have := congrArg List.length h.all
      rw [List.length_append, hav] at this
      omega

theorem RInv.refill {s : Reader} {cap : Nat} {rest : List Int} (h : RInv s cap rest) (fast : Bool) :
    ∃ s', s.refill fast = some s' ∧ RInv s' cap rest ∧ s'.failed = s.failed ∧ s'.fin - s'.ptr = min cap rest.length := by
  have hl := h.len
  have hfl := h.fin_le
  have hle := h.le
  have hav := h.avail_length
  rw [Reader.refill, if_pos ⟨hle, by omega⟩, copyTo_spec _ _ _ (by rw [hav]; omega)]
  simp only [Option.bind_eq_bind, Option.bind_some, List.take_zero, List.nil_append, Nat.zero_add, hav]
  have h1 : RInv { s with buff := (s.buff.drop s.ptr).take (s.fin - s.ptr) ++ s.buff.drop (s.fin - s.ptr), ptr := 0, fin := s.fin - s.ptr } cap rest := by
    refine ⟨h.cap_eq, ?_, Nat.zero_le _, by change s.fin - s.ptr ≤ cap; omega, ?_⟩
    · simp only [List.length_append, hav, List.length_drop]; omega
    · change (((s.buff.drop s.ptr).take (s.fin - s.ptr) ++ s.buff.drop (s.fin - s.ptr)).drop 0).take (s.fin - s.ptr - 0) ++ s.src.rest = rest
      rw [List.drop_zero, Nat.sub_zero, List.take_append_of_le_length (by omega), List.take_take, min_self]
      exact h.all
  obtain ⟨s2, e2, h2, hp2, hf2, hfin⟩ := RInv.refillLoop (s.capacity + 1) _ rest h1 rfl (by rw [h.cap_eq]; change cap - (s.fin - s.ptr) < cap + 1; omega)
  rw [e2]
  simp only [Option.bind_some]
  cases fast with
  | true => exact ⟨s2, rfl, h2, hf2, by omega⟩
  | false =>
    have hl2 := h2.len
    have hfl2 := h2.fin_le
    refine ⟨{ s2 with buff := s2.buff.set s2.fin 0 }, ?_, ⟨h2.cap_eq, by rw [List.length_set]; exact hl2, h2.le, hfl2, ?_⟩, hf2, by change s2.fin - s2.ptr = _; omega⟩
    · rw [if_neg (by simp), wr, if_pos (by omega)]; rfl
    · change ((s2.buff.set s2.fin 0).drop s2.ptr).take (s2.fin - s2.ptr) ++ s2.src.rest = rest
      rw [hp2, List.drop_zero, Nat.sub_zero, List.take_set_of_le (Nat.le_refl _)]
      have := h2.all
      rw [hp2, List.drop_zero, Nat.sub_zero] at this
      exact this

theorem RInv.reserve {s : Reader} {cap : Nat} {rest : List Int} (h : RInv s cap rest) (fast : Bool) (count : Nat) :
    ∃ s', s.reserve fast count = some (s', s'.fin - s'.ptr) ∧ RInv s' cap rest ∧ s'.failed = s.failed ∧
      min count (s'.fin - s'.ptr) = min (min count cap) rest.length := by
  have hfl := h.fin_le
  have hlen := congrArg List.length h.all
  rw [List.length_append, h.avail_length] at hlen
  rw [Reader.reserve, if_pos h.le]
  by_cases ha : s.fin - s.ptr ≥ count
  · exact ⟨s, by rw [if_pos ha], h, rfl, by omega⟩
  · obtain ⟨s1, e1, h1, hf1, hm⟩ := h.refill fast
    refine ⟨s1, ?_, h1, hf1, by omega⟩
    rw [if_neg ha, e1]
    rfl

/-- The next character of a buffer that is not empty. -/
theorem RInv.next {s : Reader} {cap : Nat} {c : Int} {r : List Int} (h : RInv s cap (c :: r)) (hlt : s.ptr < s.fin) :
    rd s.buff s.ptr = some c ∧ RInv { s with ptr := s.ptr + 1 } cap r := by
  have hl := h.len
  have hfl := h.fin_le
  have hall := h.all
  have hpl : s.ptr < s.buff.length := by omega
  rw [List.drop_eq_getElem_cons hpl, show s.fin - s.ptr = (s.fin - (s.ptr + 1)) + 1 by omega, List.take_succ_cons, List.cons_append] at hall
  obtain ⟨h1, h2⟩ := List.cons.inj hall
  exact ⟨by rw [rd, List.getElem?_eq_getElem hpl, h1], h.cap_eq, hl, hlt, hfl, h2⟩

/-- The character `c` was read last and can be put back. -/
def Last (s : Reader) (c : Int) : Prop := 1 ≤ s.ptr ∧ s.buff[s.ptr - 1]? = some c

theorem RInv.unread {s : Reader} {cap : Nat} {r : List Int} (h : RInv s cap r) {c : Int} (hl : Last s c) :
    ∃ s', s.unread = some s' ∧ RInv s' cap (c :: r) ∧ s'.failed = s.failed := by
  obtain ⟨h1, h2⟩ := hl
  have hle := h.le
  refine ⟨{ s with ptr := s.ptr - 1 }, by rw [Reader.unread, if_neg (by omega)], ⟨h.cap_eq, h.len, by change s.ptr - 1 ≤ s.fin; omega, h.fin_le, ?_⟩, rfl⟩
  obtain ⟨hlt, he⟩ := List.getElem?_eq_some_iff.mp h2
  change (s.buff.drop (s.ptr - 1)).take (s.fin - (s.ptr - 1)) ++ s.src.rest = c :: r
  rw [List.drop_eq_getElem_cons hlt, show s.fin - (s.ptr - 1) = (s.fin - s.ptr) + 1 by omega, List.take_succ_cons, List.cons_append, he,
    show s.ptr - 1 + 1 = s.ptr by omega, h.all]

theorem RInv.readChar {s : Reader} {cap : Nat} {rest : List Int} (h : RInv s cap rest) (hcap : 1 ≤ cap) (fast : Bool) :
    match (generalizing := false) rest with
    | [] => ∃ s', s.readChar fast = some (-1, s') ∧ RInv s' cap [] ∧ (fast = false → s'.failed = true)
    | c :: r => ∃ s', s.readChar fast = some (c, s') ∧ RInv s' cap r ∧ Last s' c ∧ s'.failed = s.failed := by
  have last : ∀ (s : Reader) (c : Int), rd s.buff s.ptr = some c → Last { s with ptr := s.ptr + 1 } c := by
    intro s c hc
    exact ⟨by change 1 ≤ s.ptr + 1; omega, hc⟩
  cases fast with
  | false =>
    obtain ⟨s1, e1, h1, hf1, hm⟩ := h.reserve false 1
    cases rest with
    | nil =>
      rw [List.length_nil] at hm
      refine ⟨{ s1 with failed := true }, ?_, ⟨h1.cap_eq, h1.len, h1.le, h1.fin_le, h1.all⟩, fun _ => rfl⟩
      rw [Reader.readChar, if_neg (by simp), e1]
      simp only [Option.bind_eq_bind, Option.bind_some]
      rw [if_pos (by omega)]
    | cons c r =>
      rw [List.length_cons] at hm
      obtain ⟨n1, n2⟩ := h1.next (by omega)
      refine ⟨{ s1 with ptr := s1.ptr + 1 }, ?_, n2, last s1 c n1, hf1⟩
      rw [Reader.readChar, if_neg (by simp), e1]
      simp only [Option.bind_eq_bind, Option.bind_some]
      rw [if_neg (by omega), n1]
      rfl
  | true =>
    rw [Reader.readChar, if_pos rfl]
    obtain ⟨s1, e1, h1, hf1, hm⟩ : ∃ s1, (if s.ptr ≥ s.fin then s.refill true else some s) = some s1 ∧ RInv s1 cap rest ∧ s1.failed = s.failed ∧
        (s1.ptr < s1.fin ↔ rest ≠ []) := by
      by_cases hp : s.ptr ≥ s.fin
      · obtain ⟨s1, e1, h1, hf1, hm⟩ := h.refill true
        refine ⟨s1, by rw [if_pos hp, e1], h1, hf1, ?_⟩
        rw [← List.length_pos_iff]
        omega
      · refine ⟨s, by rw [if_neg hp], h, rfl, ?_⟩
        have hlen := congrArg List.length h.all
        rw [List.length_append, h.avail_length] at hlen
        rw [← List.length_pos_iff]
        omega
    rw [e1]
    simp only [Option.bind_eq_bind, Option.bind_some]
    cases rest with
    | nil =>
      have : ¬ s1.ptr < s1.fin := fun h => hm.mp h rfl
      exact ⟨s1, by rw [if_pos (by omega)], h1, fun h => by simp at h⟩
    | cons c r =>
      have : s1.ptr < s1.fin := hm.mpr (by simp)
      obtain ⟨n1, n2⟩ := h1.next this
      exact ⟨{ s1 with ptr := s1.ptr + 1 }, by rw [if_neg (by omega), n1]; rfl, n2, last s1 c n1, hf1⟩

/-! ### Histories -/

/-- The reader agrees with the ideal one. -/
structure Agree (s : Reader) (cap : Nat) (i : Ideal) : Prop where
  inv : RInv s cap i.rest
  failed : s.failed = i.failed
  last : ∀ c, i.last = some c → Last s c
  reserved : i.reserved ≤ s.fin - s.ptr

theorem Agree.step {s : Reader} {cap : Nat} {i : Ideal} (h : Agree s cap i) (hcap : 1 ≤ cap) (op : ROp) (hv : i.Valid op) :
    ∃ s', s.step op = some (s', (i.step cap op).2) ∧ Agree s' cap (i.step cap op).1 := by
  have hI := h.inv
  cases op with
  | char =>
    have hr := hI.readChar hcap false
    cases hrest : i.rest with
    | nil =>
      rw [hrest] at hr
      obtain ⟨s', e, h1, h2⟩ := hr
      refine ⟨s', ?_, ?_⟩
      · rw [Reader.step, e, Ideal.step, hrest]; rfl
      · rw [Ideal.step, hrest]
        exact ⟨h1, h2 rfl, fun c hc => by simp at hc, Nat.zero_le _⟩
    | cons c r =>
      rw [hrest] at hr
      obtain ⟨s', e, h1, h2, h3⟩ := hr
      refine ⟨s', ?_, ?_⟩
      · rw [Reader.step, e, Ideal.step, hrest]; rfl
      · rw [Ideal.step, hrest]
        exact ⟨h1, by rw [h3]; exact h.failed, fun c' hc => by obtain rfl := Option.some.inj hc; exact h2, Nat.zero_le _⟩
  | unread =>
    obtain ⟨c, hc⟩ := Option.isSome_iff_exists.mp hv
    obtain ⟨s', e, h1, h2⟩ := hI.unread (h.last c hc)
    refine ⟨s', ?_, ?_⟩
    · rw [Reader.step, e]; rfl
    · rw [Ideal.step, hc]
      exact ⟨h1, by rw [h2]; exact h.failed, fun c hc => by simp at hc, Nat.zero_le _⟩
  | read n =>
    obtain ⟨s1, e1, h1, hf1, hm⟩ := hI.reserve false n
    have hl1 := h1.len
    have hfl1 := h1.fin_le
    have hle1 := h1.le
    have hlen := congrArg List.length h1.all
    rw [List.length_append, h1.avail_length] at hlen
    have htake : (s1.buff.drop s1.ptr).take (min n (s1.fin - s1.ptr)) = i.rest.take (min n cap) := by
      rw [← h1.all, List.take_append, h1.avail_length, List.take_take]
      have h0 : (s1.src.rest.take (min n cap - (s1.fin - s1.ptr))) = [] := by
        by_cases hh : min n cap ≤ s1.fin - s1.ptr
        · rw [show min n cap - (s1.fin - s1.ptr) = 0 by omega, List.take_zero]
        · rw [List.length_eq_zero_iff.mp (show s1.src.rest.length = 0 by omega), List.take_nil]
      rw [h0, List.append_nil]
      by_cases hh : min n cap ≤ s1.fin - s1.ptr
      · rw [show min (min n cap) (s1.fin - s1.ptr) = min n (s1.fin - s1.ptr) by omega]
      · rw [show min (min n cap) (s1.fin - s1.ptr) = min n (s1.fin - s1.ptr) by omega]
    have hdrop : RInv { s1 with ptr := s1.ptr + min n (s1.fin - s1.ptr) } cap (i.rest.drop (min n cap)) := by
      refine ⟨h1.cap_eq, hl1, by change s1.ptr + min n (s1.fin - s1.ptr) ≤ s1.fin; omega, hfl1, ?_⟩
      change (s1.buff.drop (s1.ptr + min n (s1.fin - s1.ptr))).take (s1.fin - (s1.ptr + min n (s1.fin - s1.ptr))) ++ s1.src.rest = _
      have e : i.rest = i.rest.take (min n cap) ++ ((s1.buff.drop (s1.ptr + min n (s1.fin - s1.ptr))).take (s1.fin - (s1.ptr + min n (s1.fin - s1.ptr))) ++ s1.src.rest) := by
        rw [← htake, ← List.append_assoc]
        conv_lhs => rw [← h1.all, show s1.fin - s1.ptr = min n (s1.fin - s1.ptr) + (s1.fin - (s1.ptr + min n (s1.fin - s1.ptr))) by omega, List.take_add, List.drop_drop]
      have := List.take_append_drop (min n cap) i.rest
      exact (List.append_cancel_left (this.trans e)).symm
    have hlt : (i.rest.take (min n cap)).length < n ↔ s1.fin - s1.ptr < n := by rw [List.length_take]; omega
    by_cases hf : s1.fin - s1.ptr < n
    · refine ⟨{ s1 with ptr := s1.ptr + min n (s1.fin - s1.ptr), failed := true }, ?_, ⟨hdrop.cap_eq, hdrop.len, hdrop.le, hdrop.fin_le, hdrop.all⟩, ?_, fun c hc => by simp [Ideal.step] at hc, Nat.zero_le _⟩
      · rw [Reader.step, Reader.read, e1]
        simp only [Option.bind_eq_bind, Option.bind_some, if_pos hf]
        rw [if_pos (by omega), Ideal.step]
        simp only [Option.bind_some]
        rw [htake]
      · change true = (i.failed || _)
        rw [decide_eq_true (hlt.mpr hf), Bool.or_true]
    · refine ⟨{ s1 with ptr := s1.ptr + min n (s1.fin - s1.ptr) }, ?_, hdrop, ?_, fun c hc => by simp [Ideal.step] at hc, Nat.zero_le _⟩
      · rw [Reader.step, Reader.read, e1]
        simp only [Option.bind_eq_bind, Option.bind_some, if_neg hf]
        rw [if_pos (by omega), Ideal.step]
        simp only [Option.bind_some]
        rw [htake]
      · change s1.failed = (i.failed || _)
        rw [decide_eq_false (fun h => hf (hlt.mp h)), Bool.or_false, hf1]; exact h.failed
  | data n =>
    obtain ⟨s1, e1, h1, hf1, hm⟩ := hI.reserve false n
    by_cases hf : s1.fin - s1.ptr < n
    · refine ⟨{ s1 with failed := true }, ?_, ?_⟩
      · rw [Reader.step, Reader.data, e1]
        simp only [Option.bind_eq_bind, Option.bind_some]
        rw [if_pos hf, Ideal.step, if_neg (by omega)]
        rfl
      · rw [Ideal.step, if_neg (by omega)]
        exact ⟨⟨h1.cap_eq, h1.len, h1.le, h1.fin_le, h1.all⟩, rfl, fun c hc => by simp at hc, Nat.zero_le _⟩
    · refine ⟨s1, ?_, ?_⟩
      · rw [Reader.step, Reader.data, e1]
        simp only [Option.bind_eq_bind, Option.bind_some]
        rw [if_neg hf, Ideal.step, if_pos (by omega)]
        simp only [Option.bind_some]
        rw [← h1.all, List.take_append_of_le_length (by rw [h1.avail_length]; omega), List.take_take, min_eq_left (by omega)]
      · rw [Ideal.step, if_pos (by omega)]
        exact ⟨h1, by rw [hf1]; exact h.failed, fun c hc => by simp at hc, by change n ≤ _; omega⟩
  | skip n =>
    have hres : n ≤ s.fin - s.ptr := le_trans hv h.reserved
    have hle := hI.le
    refine ⟨{ s with ptr := s.ptr + n }, ?_, ⟨hI.cap_eq, hI.len, by change s.ptr + n ≤ s.fin; omega, hI.fin_le, ?_⟩, h.failed, fun c hc => by simp [Ideal.step] at hc, Nat.zero_le _⟩
    · rw [Reader.step, Reader.skip, if_pos hle, min_eq_left hres]; rfl
    · change (s.buff.drop (s.ptr + n)).take (s.fin - (s.ptr + n)) ++ s.src.rest = i.rest.drop n
      rw [← hI.all, List.drop_append_of_le_length (by rw [hI.avail_length]; exact hres), List.drop_take, List.drop_drop, show s.fin - (s.ptr + n) = s.fin - s.ptr - n by omega]
  | ok => exact ⟨s, by rw [Reader.step, h.failed]; rfl, h⟩

/-- **C30**: over any history of calls, with any positive capacity, any initial content of the buffer and any way in
which the source cuts its characters into chunks, a `buffered_reader` returns exactly what the ideal reader of the
source's characters does, and the characters that are left (`RInv`, which the theorems on lines, strings and integers
start from) are the same. -/
theorem C30_history (raw : List Int) (cap : Nat) (hcap : 1 ≤ cap) (hraw : raw.length = cap + 1) (src : Src) (ops : List ROp)
    (hv : Ideal.ValidRun cap ⟨src.rest, none, 0, false⟩ ops) :
    ∃ s0 s, Reader.mk' raw cap src = some s0 ∧ s0.run ops = some (s, Ideal.run cap ⟨src.rest, none, 0, false⟩ ops) ∧
      RInv s cap (Ideal.after cap ⟨src.rest, none, 0, false⟩ ops).rest := by
  obtain ⟨s0, e0, h0, hf⟩ := RInv.init raw cap src hraw
  have hA : Agree s0 cap ⟨src.rest, none, 0, false⟩ := ⟨h0, hf, fun c hc => by simp at hc, Nat.zero_le _⟩
  refine ⟨s0, ?_⟩
  suffices h : ∀ (ops : List ROp) (s : Reader) (i : Ideal), Agree s cap i → Ideal.ValidRun cap i ops → ∃ s', s.run ops = some (s', Ideal.run cap i ops) ∧ RInv s' cap (Ideal.after cap i ops).rest by
    obtain ⟨s, e, hr⟩ := h ops s0 _ hA hv
    exact ⟨s, e0, e, hr⟩
  intro ops
  induction ops with
  | nil => intro s i hA _; exact ⟨s, rfl, hA.inv⟩
  | cons op ops ih =>
    intro s i hA hv
    obtain ⟨s1, e1, h1⟩ := hA.step hcap op hv.1
    obtain ⟨s2, e2, r2⟩ := ih s1 _ h1 hv.2
    refine ⟨s2, ?_, r2⟩
    rw [Reader.run, e1]
    simp only [Option.bind_eq_bind, Option.bind_some]
    rw [e2]
    rfl

example : Ideal.ValidRun 4 ⟨[65, 66, 67, 68, 69, 70, 71], none, 0, false⟩ [.char, .unread, .read 3, .data 2, .skip 2, .read 9, .char, .ok] := by
  simp [Ideal.ValidRun, Ideal.Valid, Ideal.step]

/-- Chunks of sizes 1, 1, 3, … with a buffer of 4 characters. -/
example : ((Reader.mk' [9, 9, 9, 9, 9] 4 ⟨[65, 66, 67, 68, 69, 70, 71], [1, 1, 3]⟩).bind fun s => s.run
    [.char, .unread, .read 3, .data 2, .skip 2, .read 9, .char, .ok]).map Prod.snd
    = some [.int 65, .unit, .bytes [65, 66, 67], .ptr (some [68, 69]), .num 2, .bytes [70, 71], .int (-1), .bool false] := by decide +kernel

/-- A read of more characters than the capacity is cut short, and reported as failed, although there are enough. -/
theorem C30_short_read : Ideal.run 2 ⟨[65, 66, 67], none, 0, false⟩ [.read 3, .ok] = [.bytes [65, 66], .bool false] := by decide +kernel

/-! ### Loops -/

/-- What a loop over characters does: it takes the characters `xs` and stops at the first of `tail`. -/
theorem readWhile_spec {T : Type} (fast : Bool) (p : Int → Bool) (upd : T → Int → Option T) (cap : Nat) (hcap : 1 ≤ cap) (hp : p (-1) = false) :
    ∀ (xs tail : List Int) (fuel : Nat) (t t' : T) (s : Reader), RInv s cap (xs ++ tail) → (∀ x ∈ xs, p x = true) → (∀ c, tail.head? = some c → p c = false) →
    xs.length ≤ fuel → xs.foldlM upd t = some t' →
    ∃ s', (do let (c, s) ← s.readChar fast; readWhile fast p upd fuel c t s) = some (tail.head?.getD (-1), t', s') ∧
      RInv s' cap tail.tail ∧ ∀ c, tail.head? = some c → Last s' c := by
  intro xs
  induction xs with
  | nil =>
    intro tail fuel t t' s h _ ht _ hu
    obtain rfl : t = t' := by simpa using hu
    have hr := h.readChar hcap fast
    rw [List.nil_append] at hr
    cases tail with
    | nil =>
      obtain ⟨s', e, h1, -⟩ := hr
      refine ⟨s', ?_, h1, fun c hc => by simp at hc⟩
      rw [e]
      simp only [Option.bind_eq_bind, Option.bind_some]
      rw [readWhile.eq_def]
      simp only
      rw [if_neg (by rw [hp]; simp)]
      rfl
    | cons c r =>
      obtain ⟨s', e, h1, h2, -⟩ := hr
      refine ⟨s', ?_, h1, fun c' hc => by obtain rfl := Option.some.inj hc; exact h2⟩
      rw [e]
      simp only [Option.bind_eq_bind, Option.bind_some]
      rw [readWhile.eq_def]
      simp only
      rw [if_neg (by rw [ht c rfl]; simp)]
      rfl
  | cons x xs ih =>
    intro tail fuel t t' s h hx ht hf hu
    obtain ⟨fuel, rfl⟩ : ∃ k, fuel = k + 1 := ⟨fuel - 1, by simp at hf; omega⟩
    rw [List.foldlM_cons] at hu
    obtain ⟨t1, hu1, hu2⟩ := Option.bind_eq_some_iff.mp hu
    have hr := h.readChar hcap fast
    obtain ⟨s1, e1, h1, -, -⟩ := hr
    obtain ⟨s2, e2, h2⟩ := ih tail fuel t1 t' s1 h1 (fun y hy => hx y (List.mem_cons_of_mem _ hy)) ht (by simp at hf; omega) hu2
    refine ⟨s2, ?_, h2⟩
    rw [e1]
    simp only [Option.bind_eq_bind, Option.bind_some]
    rw [readWhile, if_pos (hx x List.mem_cons_self), hu1]
    simp only [Option.bind_eq_bind, Option.bind_some]
    exact e2

/-- Putting the last character back. -/
theorem unreadUnlessEof_spec {s : Reader} {cap : Nat} {tail : List Int} (h : RInv s cap tail.tail) (hl : ∀ c, tail.head? = some c → Last s c)
    (h1 : tail.head? ≠ some (-1)) : ∃ s', unreadUnlessEof (tail.head?.getD (-1)) s = some s' ∧ RInv s' cap tail := by
  cases tail with
  | nil => exact ⟨s, by simp [unreadUnlessEof], h⟩
  | cons c r =>
    obtain ⟨s', e, h', -⟩ := h.unread (hl c rfl)
    refine ⟨s', ?_, h'⟩
    change unreadUnlessEof c s = _
    rw [unreadUnlessEof, if_pos (by intro hc; apply h1; rw [hc]; rfl), e]

theorem foldlM_push : ∀ (xs t : List Int), xs.foldlM (fun t c => some (t ++ [c])) t = some (t ++ xs) := by
  intro xs
  induction xs with
  | nil => intro t; simp
  | cons x xs ih => intro t; rw [List.foldlM_cons]; simp only [Option.bind_eq_bind, Option.bind_some]; rw [ih]; simp

theorem foldlM_unit : ∀ (xs : List Int), xs.foldlM (fun (t : Unit) _ => some t) () = some () := by
  intro xs
  induction xs with
  | nil => rfl
  | cons x xs ih => rw [List.foldlM_cons]; exact ih

/-- **C30**: `skip_whitespaces` skips the characters 0–32 and stops at the first other one, which must not be the
character -1 (the byte 255). -/
theorem C30_skip_whitespaces (fast : Bool) (cap : Nat) (hcap : 1 ≤ cap) (ws tail : List Int) (fuel : Nat) (s : Reader) (h : RInv s cap (ws ++ tail))
    (h1 : ∀ x ∈ ws, 0 ≤ x ∧ x ≤ 32) (h2 : ∀ c, tail.head? = some c → ¬ (0 ≤ c ∧ c ≤ 32) ∧ c ≠ -1) (hf : ws.length ≤ fuel) :
    ∃ s', s.skipWs fast fuel = some s' ∧ RInv s' cap tail := by
  obtain ⟨s1, e1, r1, l1⟩ := readWhile_spec fast (fun c => decide (0 ≤ c ∧ c ≤ 32)) (fun (t : Unit) _ => some t) cap hcap (by simp) ws tail fuel () () s h
    (fun x hx => by simpa using h1 x hx) (fun c hc => by simpa using (h2 c hc).1) hf (foldlM_unit ws)
  obtain ⟨s2, e2, r2⟩ := unreadUnlessEof_spec r1 l1 (fun hc => (h2 _ hc).2 rfl)
  refine ⟨s2, ?_, r2⟩
  rw [Reader.skipWs]
  obtain ⟨⟨c, s0⟩, ea, eb⟩ := Option.bind_eq_some_iff.mp e1
  simp only at eb
  rw [ea]
  simp only [Option.bind_eq_bind, Option.bind_some]
  rw [eb]
  exact e2

/-- **C30**: `read_line` returns the characters up to the delimiter and consumes the delimiter; if there is none, it
returns all that is left. -/
theorem C30_read_line (fast : Bool) (cap : Nat) (hcap : 1 ≤ cap) (delimiter : Int) (line tail : List Int) (fuel : Nat) (s : Reader) (h : RInv s cap (line ++ tail))
    (h1 : ∀ x ∈ line, x ≠ delimiter ∧ x ≠ -1) (h2 : ∀ c, tail.head? = some c → c = delimiter) (hf : line.length ≤ fuel) :
    ∃ s', s.readLine fast fuel delimiter = some (line, s') ∧ RInv s' cap tail.tail := by
  obtain ⟨s1, e1, r1, l1⟩ := readWhile_spec fast (fun c => decide (c ≠ delimiter ∧ c ≠ -1)) (fun t c => some (t ++ [c])) cap hcap (by simp) line tail fuel [] line s h
    (fun x hx => by simpa using h1 x hx) (fun c hc => by simp [h2 c hc]) hf (by rw [foldlM_push, List.nil_append])
  refine ⟨s1, ?_, r1⟩
  rw [Reader.readLine]
  obtain ⟨⟨c, s0⟩, ea, eb⟩ := Option.bind_eq_some_iff.mp e1
  simp only at eb
  rw [ea]
  simp only [Option.bind_eq_bind, Option.bind_some]
  rw [eb]
  rfl

/-- **C30**: `read_string` skips whitespace, returns the characters above 32 that follow, and stops before the first
other one. -/
theorem C30_read_string (fast : Bool) (cap : Nat) (hcap : 1 ≤ cap) (ws word tail : List Int) (fuel : Nat) (s : Reader) (h : RInv s cap (ws ++ (word ++ tail)))
    (h1 : ∀ x ∈ ws, 0 ≤ x ∧ x ≤ 32) (h2 : ∀ x ∈ word, 32 < x) (h3 : ∀ c, tail.head? = some c → 0 ≤ c ∧ c ≤ 32) (hw : word = [] → tail = [])
    (hf : ws.length ≤ fuel ∧ word.length ≤ fuel) :
    ∃ s', s.readString fast fuel = some (word, s') ∧ RInv s' cap tail := by
  obtain ⟨s1, e1, r1⟩ := C30_skip_whitespaces fast cap hcap ws (word ++ tail) fuel s h h1 (fun c hc => by
    cases word with
    | nil => rw [hw rfl] at hc; simp at hc
    | cons x word =>
      obtain rfl : x = c := by simpa using hc
      have := h2 x List.mem_cons_self
      omega) hf.1
  obtain ⟨s2, e2, r2, l2⟩ := readWhile_spec fast (fun c => decide (c > 32)) (fun t c => some (t ++ [c])) cap hcap (by simp) word tail fuel [] word s1 r1
    (fun x hx => by simpa using h2 x hx) (fun c hc => by have := h3 c hc; simpa using this.2) hf.2 (by rw [foldlM_push, List.nil_append])
  obtain ⟨s3, e3, r3⟩ := unreadUnlessEof_spec r2 l2 (fun hc => by have := h3 _ hc; omega)
  refine ⟨s3, ?_, r3⟩
  rw [Reader.readString, e1]
  obtain ⟨⟨c, s0⟩, ea, eb⟩ := Option.bind_eq_some_iff.mp e2
  simp only at eb
  simp only [Option.bind_eq_bind, Option.bind_some]
  rw [ea]
  simp only [Option.bind_some]
  rw [eb]
  simp only [Option.bind_some]
  rw [e3]
  rfl

/-! ### Integers -/

/-- The number written by a list of digit characters. -/
def value (ds : List Int) : Int := ds.foldl (fun d c => d * 10 + (c - 48)) 0

theorem foldl_digit_mono : ∀ (ds : List Int) (d : Int), 0 ≤ d → (∀ x ∈ ds, 48 ≤ x ∧ x ≤ 57) → d ≤ ds.foldl (fun d c => d * 10 + (c - 48)) d := by
  intro ds
  induction ds with
  | nil => intro d _ _; exact le_refl _
  | cons x ds ih =>
    intro d hd hx
    have h1 := hx x List.mem_cons_self
    rw [List.foldl_cons]
    exact le_trans (by omega) (ih (d * 10 + (x - 48)) (by omega) (fun y hy => hx y (List.mem_cons_of_mem _ hy)))

theorem foldlM_digits (hi : Int) : ∀ (ds : List Int) (d : Int), 0 ≤ d → (∀ x ∈ ds, 48 ≤ x ∧ x ≤ 57) → ds.foldl (fun d c => d * 10 + (c - 48)) d ≤ hi →
    ds.foldlM (fun d c => if d * 10 + (c - 48) ≤ hi then some (d * 10 + (c - 48)) else none) d = some (ds.foldl (fun d c => d * 10 + (c - 48)) d) := by
  intro ds
  induction ds with
  | nil => intro d _ _ _; rfl
  | cons x ds ih =>
    intro d hd hx hle
    have h1 := hx x List.mem_cons_self
    have hx' : ∀ y ∈ ds, 48 ≤ y ∧ y ≤ 57 := fun y hy => hx y (List.mem_cons_of_mem _ hy)
    rw [List.foldl_cons] at hle
    rw [List.foldlM_cons, if_pos (le_trans (foldl_digit_mono ds _ (by omega) hx') hle), List.foldl_cons]
    exact ih _ (by omega) hx' hle

/-- **C31**: an integer is read from whitespace, an optional sign and decimal digits; reading stops before the first
character that is not a digit. -/
theorem C31_read_int (fast : Bool) (cap : Nat) (hcap : 1 ≤ cap) (hi : Int) (ws sign ds tail : List Int) (fuel : Nat) (s : Reader)
    (h : RInv s cap (ws ++ (sign ++ (ds ++ tail)))) (h1 : ∀ x ∈ ws, 0 ≤ x ∧ x ≤ 32) (h2 : sign = [] ∨ sign = [43] ∨ sign = [45]) (h3 : ∀ x ∈ ds, 48 ≤ x ∧ x ≤ 57)
    (h4 : ds ≠ []) (h5 : ∀ c, tail.head? = some c → ¬ (48 ≤ c ∧ c ≤ 57) ∧ c ≠ -1) (h6 : value ds ≤ hi) (hf : ws.length ≤ fuel ∧ ds.length ≤ fuel) :
    ∃ s', s.readInt fast fuel hi = some (if sign = [45] then -value ds else value ds, s') ∧ RInv s' cap tail := by
  obtain ⟨x, ds', rfl⟩ := List.exists_cons_of_ne_nil h4
  have hx := h3 x List.mem_cons_self
  obtain ⟨s1, e1, r1⟩ := C30_skip_whitespaces fast cap hcap ws _ fuel s h h1 (fun c hc => by
    rcases h2 with rfl | rfl | rfl
    · obtain rfl : x = c := by simpa using hc
      omega
    · obtain rfl : 43 = c := by simpa using hc
      omega
    · obtain rfl : 45 = c := by simpa using hc
      omega) hf.1
  -- the sign
  obtain ⟨s2, e2, r2⟩ : ∃ s2, s1.readSign fast = some (if sign = [45] then -1 else 1, s2) ∧ RInv s2 cap ((x :: ds') ++ tail) := by
    have hr := r1.readChar hcap fast
    rcases h2 with rfl | rfl | rfl
    · obtain ⟨s2, e2, r2, l2, -⟩ := hr
      obtain ⟨s3, e3, r3, -⟩ := r2.unread l2
      refine ⟨s3, ?_, r3⟩
      rw [Reader.readSign, e2]
      simp only [Option.bind_eq_bind, Option.bind_some]
      rw [if_neg (by omega), if_neg (by omega), unreadUnlessEof, if_pos (by omega), e3]
      rfl
    · obtain ⟨s2, e2, r2, l2, -⟩ := hr
      refine ⟨s2, ?_, r2⟩
      rw [Reader.readSign, e2]
      rfl
    · obtain ⟨s2, e2, r2, l2, -⟩ := hr
      refine ⟨s2, ?_, r2⟩
      rw [Reader.readSign, e2]
      rfl
  obtain ⟨s3, e3, r3, l3⟩ := readWhile_spec fast (fun c => decide (48 ≤ c ∧ c ≤ 57)) (fun d c => if d * 10 + (c - 48) ≤ hi then some (d * 10 + (c - 48)) else none)
    cap hcap (by simp) (x :: ds') tail fuel 0 (value (x :: ds')) s2 r2 (fun y hy => by simpa using h3 y hy) (fun c hc => by simpa using (h5 c hc).1) hf.2
    (foldlM_digits hi _ 0 (le_refl _) h3 h6)
  obtain ⟨s4, e4, r4⟩ := unreadUnlessEof_spec r3 l3 (fun hc => (h5 _ hc).2 rfl)
  refine ⟨s4, ?_, r4⟩
  rw [Reader.readInt, e1]
  simp only [Option.bind_eq_bind, Option.bind_some]
  rw [e2]
  simp only [Option.bind_some]
  have e5 : s2.readDigits fast fuel hi = some (value (x :: ds'), s4) := by
    rw [Reader.readDigits]
    obtain ⟨⟨c, s0⟩, ea, eb⟩ := Option.bind_eq_some_iff.mp e3
    simp only at eb
    rw [ea]
    simp only [Option.bind_eq_bind, Option.bind_some]
    rw [eb]
    simp only [Option.bind_some]
    rw [e4]
    rfl
  rw [e5]
  simp only [Option.bind_some]
  congr 2
  by_cases hs : sign = [45]
  · simp [hs]
  · simp [hs]

/-! ### Round trip -/

theorem value_append (a : List Int) (c : Int) : value (a ++ [c]) = value a * 10 + (c - 48) := by
  rw [value, List.foldl_append]; rfl

theorem value_zeros (k : Nat) (l : List Int) : value (List.replicate k 48 ++ l) = value l := by
  induction k with
  | zero => simp
  | succ k ih => rw [List.replicate_succ, List.cons_append, value, List.foldl_cons]; exact ih

theorem value_digits (n : Nat) : value ((Nat.digits 10 n).reverse.map fun k : Nat => 48 + (k : Int)) = n := by
  induction n using Nat.strong_induction_on with
  | _ n ih =>
    by_cases hn : n = 0
    · subst hn; simp [value]
    · rw [Nat.digits_def' (by omega) (by omega), List.reverse_cons, List.map_append, List.map_singleton, value_append, ih (n / 10) (by omega)]
      omega

theorem digits_chars (n len : Nat) : ∀ x ∈ List.replicate (len - (Nat.digits 10 n).length) 48 ++ (Nat.digits 10 n).reverse.map (fun k : Nat => 48 + (k : Int)),
    48 ≤ x ∧ x ≤ 57 := by
  intro x hx
  rcases List.mem_append.mp hx with h | h
  · rw [List.eq_of_mem_replicate h]; omega
  · obtain ⟨k, hk, rfl⟩ := List.mem_map.mp h
    have := Nat.digits_lt_base (by omega) (List.mem_reverse.mp hk)
    omega

/-- **C31**: integers written one after the other with one whitespace character after each are read back as the same
integers, whatever the capacities of the two buffers, the padding, and the way the text is cut into chunks. -/
theorem C31_round_trip (fastW fastR : Bool) (lo hi : Int) (ds : List (Int × Nat)) (sep : Int) (hsep : 0 ≤ sep ∧ sep ≤ 32)
    (hd : ∀ d ∈ ds, d.1 ≠ lo ∧ -hi ≤ d.1 ∧ d.1 ≤ hi ∧ d.1.natAbs < 10 ^ 50 ∧ 1 ≤ d.2 ∧ d.2 ≤ 50)
    (rawW : List Int) (capW : Nat) (hcapW : 1 ≤ capW) (hrawW : rawW.length = capW + 1) (rawR : List Int) (capR : Nat) (hcapR : 1 ≤ capR) (hrawR : rawR.length = capR + 1) :
    ∃ w0 w w', Writer.mk' rawW capW = some w0 ∧ w0.run fastW lo (ds.flatMap fun d => [.int d.1 d.2, .char sep]) = some w ∧ w.flush fastW = some w' ∧
      ∀ chunks, ∃ r0, Reader.mk' rawR capR ⟨w'.sink, chunks⟩ = some r0 ∧
        ∃ r, (ds.map Prod.fst).foldlM (fun (s : Reader) d => (s.readInt fastR (w'.sink.length + 1) hi).bind fun x => if x.1 = d then some x.2 else none) r0 = some r := by
  obtain ⟨w0, w, w', e0, e1, -, e2, e3⟩ := C29_history fastW lo rawW capW hcapW hrawW (ds.flatMap fun d => [.int d.1 d.2, .char sep]) (by
    intro op hop
    obtain ⟨d, hd', hop⟩ := List.mem_flatMap.mp hop
    have := hd d hd'
    rcases List.mem_cons.mp hop with rfl | hop
    · exact ⟨this.1, this.2.2.2.1, this.2.2.2.2.2⟩
    · rw [List.mem_singleton.mp hop]; trivial)
  refine ⟨w0, w, w', e0, e1, e2, fun chunks => ?_⟩
  obtain ⟨r0, er, hr, -⟩ := RInv.init rawR capR ⟨w'.sink, chunks⟩ hrawR
  refine ⟨r0, er, ?_⟩
  have htext : w'.sink = (ds.map fun d => intText d.1 d.2 ++ [sep]).flatten := by
    rw [e3]
    clear e1 e3 hr er hd
    induction ds with
    | nil => rfl
    | cons d ds ih =>
      rw [List.flatMap_cons, List.map_append, List.flatten_append, ih, List.map_cons, List.flatten_cons]
      congr 1
      simp only [List.map_cons, List.map_nil, WOp.text, List.flatten_cons, List.flatten_nil, List.append_nil]
      rw [show toChar sep = sep by rw [toChar]; omega]
  have hfuel : ∀ n, w'.sink.length < n → ∀ (ws : List Int), (∀ x ∈ ws, 0 ≤ x ∧ x ≤ 32) → ws.length ≤ 1 →
      ∀ (ds : List (Int × Nat)), (∀ d ∈ ds, d.1 ≠ lo ∧ -hi ≤ d.1 ∧ d.1 ≤ hi ∧ d.1.natAbs < 10 ^ 50 ∧ 1 ≤ d.2 ∧ d.2 ≤ 50) →
      (ds.map fun d => intText d.1 d.2 ++ [sep]).flatten.length < n → ∀ s : Reader, RInv s capR (ws ++ (ds.map fun d => intText d.1 d.2 ++ [sep]).flatten) →
      ∃ r, (ds.map Prod.fst).foldlM (fun (s : Reader) d => (s.readInt fastR n hi).bind fun x => if x.1 = d then some x.2 else none) s = some r := by
    intro n hn ws hws hwl ds
    induction ds generalizing ws with
    | nil => intro _ _ s _; exact ⟨s, rfl⟩
    | cons d ds ih =>
      intro hd hlen s hs
      obtain ⟨d1, d2, d3, d4, d5, d6⟩ := hd d List.mem_cons_self
      rw [List.map_cons, List.flatten_cons] at hs hlen
      simp only [List.length_append, List.length_singleton] at hlen
      have hdig := digits_chars d.1.natAbs d.2
      have hne : List.replicate (d.2 - (Nat.digits 10 d.1.natAbs).length) (48 : Int) ++ (Nat.digits 10 d.1.natAbs).reverse.map (fun k : Nat => 48 + (k : Int)) ≠ [] := by
        intro h
        have := congrArg List.length h
        simp only [List.length_append, List.length_replicate, List.length_map, List.length_reverse, List.length_nil] at this
        omega
      have hval : value (List.replicate (d.2 - (Nat.digits 10 d.1.natAbs).length) (48 : Int) ++ (Nat.digits 10 d.1.natAbs).reverse.map (fun k : Nat => 48 + (k : Int)))
          = d.1.natAbs := by rw [value_zeros, value_digits]
      have hil : (intText d.1 d.2).length = (if d.1 < 0 then 1 else 0) + (List.replicate (d.2 - (Nat.digits 10 d.1.natAbs).length) (48 : Int) ++
          (Nat.digits 10 d.1.natAbs).reverse.map (fun k : Nat => 48 + (k : Int))).length := by
        rw [intText, List.append_assoc, List.length_append]; split <;> rfl
      obtain ⟨s1, e1, r1⟩ := C31_read_int fastR capR hcapR hi ws (if d.1 < 0 then [45] else [])
        (List.replicate (d.2 - (Nat.digits 10 d.1.natAbs).length) (48 : Int) ++ (Nat.digits 10 d.1.natAbs).reverse.map (fun k : Nat => 48 + (k : Int)))
        (sep :: (ds.map fun d => intText d.1 d.2 ++ [sep]).flatten) n s (by
          rw [intText] at hs
          simpa using hs) hws (by split <;> simp) hdig hne (fun c hc => by
            obtain rfl : sep = c := by simpa using hc
            omega) (by rw [hval]; omega) ⟨by omega, by omega⟩
      obtain ⟨r, er⟩ := ih [sep] (by simpa using hsep) (by simp) (fun d' hd' => hd d' (List.mem_cons_of_mem _ hd')) (by omega) s1 r1
      refine ⟨r, ?_⟩
      rw [List.map_cons, List.foldlM_cons, e1]
      simp only [Option.bind_eq_bind, Option.bind_some]
      rw [hval, if_pos (by
        by_cases h : d.1 < 0
        · rw [if_pos h, if_pos rfl]; omega
        · rw [if_neg h, if_neg (by simp)]; omega)]
      exact er
  exact hfuel _ (Nat.lt_succ_self _) [] (by simp) (by simp) ds hd (by rw [← htext]; exact Nat.lt_succ_self _) r0 (by rw [List.nil_append, ← htext]; exact hr)

example : ((Reader.mk' [9, 9, 9] 2 ⟨[32, 10, 45, 48, 49, 50, 32, 43, 55], [1, 2, 1]⟩).bind fun s => (s.readInt false 10 127).bind fun (x, s) =>
    (s.readInt false 10 127).map fun (y, _) => (x, y)) = some (-12, 7) := by decide +kernel

/-- The least value of a type cannot be read: the digits overflow before the sign is applied. -/
theorem C31_least_value : ((Reader.mk' (List.replicate 9 0) 8 ⟨[45, 49, 50, 56], []⟩).bind fun s => s.readInt false 10 127).isNone = true := by decide +kernel

/-- The byte 255 is taken for the end of the input: after it `read_char` returns -1 and it is not put back. -/
theorem C31_byte_255 : ((Reader.mk' (List.replicate 9 0) 8 ⟨[49, -1, 50], []⟩).bind fun s => (s.readInt false 10 127).bind fun (x, s) =>
    (s.readInt false 10 127).map fun (y, _) => (x, y)) = some (1, 2) := by decide +kernel

end Altruct.IO
